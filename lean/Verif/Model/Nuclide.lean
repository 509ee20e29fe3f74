import Verif.Model.Prelude
import Verif.Model.ElementTable

/-! Identifiers: `ZAID`, `Element`, `Isotope`, `Nuclide`. -/
namespace PNDL

/-- `class ZAID` (include/PapillonNDL/zaid.hpp:40-90): `uint8_t Z_`, `uint32_t A_`. -/
structure ZAID where
  Z : Nat
  A : Nat
  hZ : Z < 2 ^ 8
  hA : A < 2 ^ 32
  deriving DecidableEq

/-- `ZAID::zaid()` (zaid.hpp:61): `1000 * Z_ + A_` in `uint32_t` arithmetic. -/
def ZAID.zaid (z : ZAID) : Nat := (1000 * z.Z + z.A) % 2 ^ 32

/-- `ZAID::operator==` (zaid.hpp:66-68). -/
def ZAID.eq (a b : ZAID) : Bool := (a.Z == b.Z) && (a.A == b.A)

/-- `ZAID::operator<` (zaid.hpp:76-85). -/
def ZAID.lt (a b : ZAID) : Bool :=
  if a.Z < b.Z then true
  else if a.Z > b.Z then false
  else if a.A < b.A then true
  else false

/-- `std::hash<ZAID>` (zaid.hpp:99-105): the hash of the `uint32_t` returned by `zaid()`; `h` is
`std::hash<uint32_t>`, left abstract. -/
def ZAID.hash (h : Nat → Nat) (z : ZAID) : Nat := h z.zaid

/-- `class Element` (include/PapillonNDL/element.hpp:44-136): only the atomic number is stored. -/
structure Element where
  Z : Nat
  deriving DecidableEq, Repr

/-- `Element::N_ELEM` (element.hpp:131). -/
def nElem : Nat := 118

/-- `Element(uint8_t Z)` (element.hpp:49-57). -/
def Element.ofZ (Z : Nat) : Res Element :=
  if Z = 0 ∨ Z > nElem then .error .exc else .ok ⟨Z⟩

/-- `Element(const ZAID&)` (element.hpp:62-70). -/
def Element.ofZaid (z : ZAID) : Res Element := Element.ofZ z.Z

/-- `elements_table[Z_ - 1]` (element.hpp:91-107). -/
def Element.info (e : Element) : Res ElemInfo := do
  let i ← subIdx e.Z 1
  getAt elementsTable i

/-- `Element::largest_isotope()` (element.hpp:91-93). -/
def Element.largest (e : Element) : Res Nat := return (← e.info).largest

/-- `Element::symbol()` (element.hpp:98-100). -/
def Element.symbol (e : Element) : Res (List Char) := return (← e.info).symbol

/-- `Element::name()` (element.hpp:105-107). -/
def Element.name (e : Element) : Res (List Char) := return (← e.info).name

/-! ### Regular expressions used by the string constructors.

Each `std::regex` in these classes is a concatenation of character-class pieces whose neighbouring classes are
disjoint, so greedy left-to-right scanning decides a full match.  `Spec/Nuclide.lean` states the languages declaratively
and `Props/Nuclide.lean` proves that the scanners decide exactly those languages. -/

/-- The class `\s` in the "C" locale. -/
def isSpaceC (c : Char) : Bool :=
  c == ' ' || c == '\t' || c == '\n' || c == '\x0b' || c == '\x0c' || c == '\r'
/-- The class `[A-Z]`. -/
def isUpC (c : Char) : Bool := 'A'.toNat ≤ c.toNat && c.toNat ≤ 'Z'.toNat
/-- The class `[a-z]`. -/
def isLoC (c : Char) : Bool := 'a'.toNat ≤ c.toNat && c.toNat ≤ 'z'.toNat
/-- The class `[0-9]`. -/
def isDigC (c : Char) : Bool := '0'.toNat ≤ c.toNat && c.toNat ≤ '9'.toNat

/-- `(\s+)?`. -/
def skipWs (s : List Char) : List Char := s.dropWhile isSpaceC

/-- `[A-Z][a-z]{0,1}` at the head of `s`: (matched, rest). -/
def takeElem : List Char → Option (List Char × List Char)
  | [] => none
  | u :: r =>
    if isUpC u then
      match r with
      | l :: r' => if isLoC l then some ([u, l], r') else some ([u], l :: r')
      | [] => some ([u], [])
    else none

/-- `[A-Z][a-z]+` at the head of `s`. -/
def takeName : List Char → Option (List Char × List Char)
  | [] => none
  | u :: r =>
    if isUpC u && !(r.takeWhile isLoC).isEmpty then
      some (u :: r.takeWhile isLoC, r.dropWhile isLoC)
    else none

/-- `[0-9]{1,3}` at the head of `s`. -/
def takeDigits (s : List Char) : Option (List Char × List Char) :=
  let ds := (s.take 3).takeWhile isDigC
  if ds.isEmpty then none else some (ds, s.drop ds.length)

/-- `[A-Z][a-z]{0,1}[0-9]{1,3}` at the head of `s`. -/
def takeIso (s : List Char) : Option (List Char × List Char) :=
  match takeElem s with
  | none => none
  | some (e, r) =>
    match takeDigits r with
    | none => none
    | some (d, r') => some (e ++ d, r')

/-- `[m][0-2]` at the head of `s`. -/
def takeIsomer : List Char → Option (List Char × List Char)
  | 'm' :: c :: r => if c == '0' || c == '1' || c == '2' then some (['m', c], r) else none
  | _ => none

/-- `std::regex_search`: the left-most match, as text (empty when there is none, as in the C++ code where
`match[0]` of a failed search is an empty unmatched sub-match). -/
def regexSearch (m : List Char → Option (List Char × List Char)) : List Char → List Char
  | [] => []
  | c :: s =>
    match m (c :: s) with
    | some (w, _) => w
    | none => regexSearch m s

/-- `std::regex_replace(s, m, "")`: erase every (non-overlapping, left-most) match.  Matches are never
empty here, so the fuel `s.length` suffices. -/
def regexErase (m : List Char → Option (List Char × List Char)) : Nat → List Char → List Char
  | 0, s => s
  | _ + 1, [] => []
  | f + 1, c :: s =>
    match m (c :: s) with
    | some (_, r) => regexErase m f r
    | none => c :: regexErase m f s

/-- `regex_match(s, "(^\\s+)?([A-Z][a-z]{0,1})(\\s+)?")` (src/element.cpp:33-34). -/
def isElementRegex (s : List Char) : Bool :=
  match takeElem (skipWs s) with
  | some (_, r) => (skipWs r).isEmpty
  | none => false

/-- `regex_match(s, "(^\\s+)?\\b([A-Z][a-z]+)\\b(\\s+)?")` (src/element.cpp:49-50). -/
def isNameRegex (s : List Char) : Bool :=
  match takeName (skipWs s) with
  | some (_, r) => (skipWs r).isEmpty
  | none => false

/-- `regex_match(s, "(^\\s+)?([A-Z][a-z]{0,1}[0-9]{1,3})(\\s+)?")` (isotope.hpp:135-137). -/
def isIsotopeRegex (s : List Char) : Bool :=
  match takeIso (skipWs s) with
  | some (_, r) => (skipWs r).isEmpty
  | none => false

/-- `regex_match(s, "(^\\s+)?([A-Z][a-z]{0,1}[0-9]{1,3})([m][0-2])?(\\s+)?")` (nuclide.hpp:136-139). -/
def isNuclideRegex (s : List Char) : Bool :=
  match takeIso (skipWs s) with
  | some (_, r) =>
    match takeIsomer r with
    | some (_, r') => (skipWs r').isEmpty
    | none => (skipWs r).isEmpty
  | none => false

/-- The search loops `for (Z_ = 0; Z_ < N; Z_++) if (elements_table[Z_].f == w) {found; break;}`
(src/element.cpp:40-45, 57-62). -/
def findInTable (f : ElemInfo → List Char) (w : List Char) : Option Nat :=
  elementsTable.findIdx? (fun e => f e == w)

/-- `Element(const std::string&)` (src/element.cpp:29-74). -/
def Element.ofString (s : List Char) : Res Element :=
  let bySymbol :=
    if isElementRegex s then findInTable ElemInfo.symbol (regexSearch takeElem s) else none
  match bySymbol with
  | some i => .ok ⟨i + 1⟩
  | none =>
    let byName := if isNameRegex s then findInTable ElemInfo.name (regexSearch takeName s) else none
    match byName with
    | some i => .ok ⟨i + 1⟩
    | none => .error .exc

/-- `class Isotope` (include/PapillonNDL/isotope.hpp:46-251). -/
structure Isotope where
  element : Element
  A : Nat
  deriving DecidableEq, Repr

/-- The two checks shared by all constructors of `Isotope` (isotope.hpp:53-70). -/
def Isotope.check (e : Element) (A : Nat) : Res Isotope :=
  if A < e.Z then .error .exc
  else if A ≥ 300 then .error .exc
  else .ok ⟨e, A⟩

/-- `Isotope(const Element&, uint32_t)` (isotope.hpp:52-71). -/
def Isotope.ofElement (e : Element) (A : Nat) : Res Isotope := Isotope.check e A

/-- `Isotope(uint8_t, uint32_t)` (isotope.hpp:77-100). -/
def Isotope.ofZA (Z A : Nat) : Res Isotope := do
  let e ← Element.ofZ Z
  Isotope.check e A

/-- `Isotope(const ZAID&)` (isotope.hpp:105-128). -/
def Isotope.ofZaid (z : ZAID) : Res Isotope := do
  let e ← Element.ofZaid z
  Isotope.check e z.A

/-- `std::stoul` on a string of decimal digits. -/
def stoul (ds : List Char) : Nat := ds.foldl (fun acc c => 10 * acc + (c.toNat - '0'.toNat)) 0

/-- `Isotope(const std::string&)` (isotope.hpp:134-181). -/
def Isotope.ofString (s : List Char) : Res Isotope :=
  if isIsotopeRegex s = false then .error .exc
  else do
    let e ← Element.ofString (regexSearch takeElem s)
    let A := stoul (regexSearch takeDigits s)
    Isotope.check e A

/-- `Isotope::Z()` (isotope.hpp:186). -/
def Isotope.Z (i : Isotope) : Nat := i.element.Z

/-- `std::to_string` of an unsigned integer. -/
def toDec (n : Nat) : List Char := Nat.toDigits 10 n

/-- `Isotope::symbol()` (isotope.hpp:211). -/
def Isotope.symbol (i : Isotope) : Res (List Char) := return (← i.element.symbol) ++ toDec i.A

/-- `class Nuclide` (include/PapillonNDL/nuclide.hpp:47-269); `level` is a `uint8_t`. -/
structure Nuclide where
  isotope : Isotope
  level : Nat
  deriving DecidableEq, Repr

/-- `Nuclide(const Isotope&, uint8_t)` (nuclide.hpp:53-62). -/
def Nuclide.ofIsotope (i : Isotope) (level : Nat) : Res Nuclide :=
  if level > 2 then .error .exc else .ok ⟨i, level⟩

/-- `Nuclide(uint8_t, uint32_t, uint8_t)` (nuclide.hpp:69-82). -/
def Nuclide.ofZAL (Z A level : Nat) : Res Nuclide := do
  let i ← Isotope.ofZA Z A
  if level > 2 then .error .exc else .ok ⟨i, level⟩

/-- `while (A_ > el.largest_isotope() && A_ > 100) { A_ -= 100; level_++; }` (nuclide.hpp:105-108);
`level_` is a `uint8_t` and wraps.  First argument: fuel (`A` suffices, since `A_` decreases). -/
def decodeLoop (largest : Nat) : Nat → Nat → Nat → Nat × Nat
  | 0, A, level => (A, level)
  | f + 1, A, level =>
    if A > largest ∧ A > 100 then decodeLoop largest f (A - 100) ((level + 1) % 2 ^ 8)
    else (A, level)

/-- `a - b` in `uint32_t` arithmetic (wraps below zero), for `a, b < 2^32`. -/
def sub32 (a b : Nat) : Nat := if b ≤ a then a - b else 2 ^ 32 - (b - a)

/-- `Nuclide(const ZAID&)` (nuclide.hpp:87-127); `A_ -= 400` wraps in `uint32_t`. -/
def Nuclide.ofZaid (z : ZAID) : Res Nuclide := do
  let el ← Element.ofZ z.Z
  let largest ← el.largest
  let (A, level) ←
    (if z.A > 300 then
      let A0 := sub32 z.A 400
      let (A, level) := decodeLoop largest A0 A0 1
      if A > largest then .error .exc else .ok (A, level)
    else .ok (z.A, 0) : Res (Nat × Nat))
  let iso ← Isotope.ofZA z.Z A
  return ⟨iso, level⟩

/-- `Nuclide(const std::string&)` (nuclide.hpp:135-170). -/
def Nuclide.ofString (s : List Char) : Res Nuclide :=
  if isNuclideRegex s = false then .error .exc
  else do
    let iso ← Isotope.ofString (regexSearch takeIso s)
    let rest := regexErase takeIso s.length s
    let isomer := regexSearch takeIsomer rest
    let level := if isomer.length > 0 then stoul (isomer.drop 1) % 2 ^ 8 else 0
    return ⟨iso, level⟩

/-- The mass number written by `Nuclide::zaid()` (nuclide.hpp:199-203). -/
def Nuclide.zaidA (n : Nuclide) : Nat :=
  if n.level > 0 then (n.isotope.A + 300 + n.level * 100) % 2 ^ 32 else n.isotope.A % 2 ^ 32

/-- `Nuclide::zaid()` (nuclide.hpp:198-205). -/
def Nuclide.zaid (n : Nuclide) : ZAID where
  Z := n.isotope.element.Z % 2 ^ 8
  A := n.zaidA
  hZ := Nat.mod_lt _ (by decide)
  hA := by unfold Nuclide.zaidA; split <;> exact Nat.mod_lt _ (by decide)

/-- `Nuclide::symbol()` (nuclide.hpp:210-216). -/
def Nuclide.symbol (n : Nuclide) : Res (List Char) := do
  let s ← n.isotope.symbol
  return if n.level > 0 then s ++ 'm' :: toDec n.level else s

/-- `Nuclide::operator<` (nuclide.hpp:250-264) on `(Z, A, level)`. -/
def Nuclide.lt (a b : Nuclide) : Bool :=
  if a.isotope.Z < b.isotope.Z then true
  else if a.isotope.Z > b.isotope.Z then false
  else if a.isotope.A < b.isotope.A then true
  else if a.isotope.A > b.isotope.A then false
  else if a.level < b.level then true
  else false

/-- `Nuclide::operator==` (nuclide.hpp:238-241). -/
def Nuclide.eq (a b : Nuclide) : Bool :=
  a.isotope.Z == b.isotope.Z && a.isotope.A == b.isotope.A && a.level == b.level

/-- `std::hash<Nuclide>` (nuclide.hpp:278-289), `h` being `std::hash<uint32_t>`, left abstract; the sums are `uint32_t`. -/
def Nuclide.hash (h : Nat → Nat) (n : Nuclide) : Nat :=
  h ((n.isotope.Z * 1000 + (if n.level > 0 then n.isotope.A + 300 + n.level * 100 else n.isotope.A)) % 2 ^ 32)

/-- `Isotope::operator==` (isotope.hpp:226-229). -/
def Isotope.eq (a b : Isotope) : Bool := a.Z == b.Z && a.A == b.A

/-- `Isotope::operator<` (isotope.hpp:237-246). -/
def Isotope.lt (a b : Isotope) : Bool :=
  if a.Z < b.Z then true
  else if a.Z > b.Z then false
  else if a.A < b.A then true
  else false

/-- `std::hash<Isotope>` (isotope.hpp:260-266). -/
def Isotope.hash (h : Nat → Nat) (i : Isotope) : Nat := h ((i.Z * 1000 + i.A) % 2 ^ 32)

/-- `Element::operator==` (element.hpp:117). -/
def Element.eq (a b : Element) : Bool := a.Z == b.Z

/-- `Element::operator<` (element.hpp:123). -/
def Element.lt (a b : Element) : Bool := decide (a.Z < b.Z)

/-- `std::hash<Element>` (element.hpp:145-151). -/
def Element.hash (h : Nat → Nat) (e : Element) : Nat := h e.Z

end PNDL
