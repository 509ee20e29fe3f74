import Verif.Model.Library

/-! Names in a library (src/nd_library.cpp:211-226, 300-361) and the MCNP directory file (src/mcnp_library.cpp:107-240). -/
namespace PNDL

/-- `Element::zaid()` (element.hpp:112). -/
def Element.zaid (e : Element) : ZAID where
  Z := e.Z % 2 ^ 8
  A := 0
  hZ := Nat.mod_lt _ (by decide)
  hA := by decide

/-- `NDLibrary::symbol_to_zaid` (src/nd_library.cpp:300-320). -/
def symbolToZaid (s : List Char) : Res ZAID :=
  if isNuclideRegex s then do
    let n ← Nuclide.ofString s
    return n.zaid
  else if isElementRegex s then do
    let e ← Element.ofString s
    return e.zaid
  else .error .exc

/-- The symbol listed for a nuclide of the library (src/nd_library.cpp:329-354). -/
def listedSymbol (z : ZAID) : Res (List Char) :=
  if z.A = 0 then do
    let e ← Element.ofZaid z
    e.symbol
  else do
    let n ← Nuclide.ofZaid z
    n.symbol

/-- The symbols listed for the sorted ZAIDs (src/nd_library.cpp:322-354). -/
def listSymbols (zs : List ZAID) : Res (List (List Char)) :=
  (zs.mergeSort (fun a b => !ZAID.lt b a)).mapM listedSymbol

/-- The class `[\w-]`. -/
def isTslC (c : Char) : Bool := isWordC c || c == '-'

/-- `[\w-]{1,6}` at the head of a string. -/
def takeTsl (s : List Char) : Option (List Char × List Char) :=
  let w := (s.take 6).takeWhile isTslC
  if w.isEmpty then none else some (w, s.drop w.length)

/-- The name under which `load_STTSL` and `temperatures` look for a thermal scattering law, `names` being the keys of the map
(src/nd_library.cpp:42-49, 213-226). -/
def findTsl (names : List (List Char)) (s : List Char) : Res (List Char) :=
  let w := regexSearch takeTsl s
  if w.isEmpty then .error .exc
  else if w ∈ names then .ok w
  else .error .exc

/-! ### The MCNP directory file -/

/-- ` \+(\s+)?\n` at the head of a string (src/mcnp_library.cpp:119): the text after the match.  `\s+` is greedy, so the match ends with
the last line feed of the white space. -/
def plusMatch : List Char → Option (List Char)
  | ' ' :: '+' :: r =>
    if '\n' ∈ r.takeWhile isSpaceC then
      some (((r.takeWhile isSpaceC).reverse.takeWhile (fun c => c ≠ '\n')).reverse ++ r.dropWhile isSpaceC)
    else none
  | _ => none

theorem plusMatch_length {s r : List Char} (h : plusMatch s = some r) : r.length < s.length := by
  unfold plusMatch at h
  split at h
  · rename_i t
    split at h
    · cases h
      have h1 := (List.takeWhile_sublist (fun c => c ≠ '\n') (l := (t.takeWhile isSpaceC).reverse)).length_le
      have h2 : (t.takeWhile isSpaceC).length + (t.dropWhile isSpaceC).length = t.length := by
        rw [← List.length_append, List.takeWhile_append_dropWhile]
      simp only [List.length_append, List.length_reverse, List.length_cons] at *
      omega
    · cases h
  · cases h

/-- `std::regex_replace(xsdir_buffer, std::regex(" \\+(\\s+)?\\n"), " ")` (src/mcnp_library.cpp:118-119). -/
def joinPlus (s : List Char) : List Char :=
  match s with
  | [] => []
  | c :: r =>
    match h : plusMatch (c :: r) with
    | some rest => ' ' :: joinPlus rest
    | none => c :: joinPlus r
  termination_by s.length
  decreasing_by
  · exact plusMatch_length h
  · simp

/-- `std::regex_replace(line, std::regex("^ +| +$|( ) +"), "$1")` (src/mcnp_library.cpp:141) after the leading blanks: `pending` tells that blanks
were just seen; they become one blank if something follows. -/
def collapse : Bool → List Char → List Char
  | _, [] => []
  | p, c :: r => if c = ' ' then collapse true r else if p then ' ' :: c :: collapse false r else c :: collapse false r

/-- The whole replacement: leading blanks go. -/
def tidyLine (l : List Char) : List Char := collapse false (l.dropWhile (fun c => c = ' '))

/-- `while (std::getline(linestream, str, ' '))` (src/mcnp_library.cpp:148-149): `tmp` is the current piece. -/
def splitBlank : List Char → List Char → List (List Char)
  | [], tmp => if tmp = [] then [] else [tmp]
  | c :: r, tmp => if c = ' ' then tmp :: splitBlank r [] else splitBlank r (tmp ++ [c])

/-- The lines read by the loop (src/mcnp_library.cpp:134-137), the text being cut at line feeds. -/
def cutLines : List Char → List Char → List (List Char)
  | [], tmp => [tmp]
  | c :: r, tmp => if c = '\n' then tmp :: cutLines r [] else cutLines r (tmp ++ [c])

/-- `[.][\w]{3,5}` at the head of a string (src/mcnp_library.cpp:187). -/
def takeExt35 : List Char → Option (List Char × List Char)
  | '.' :: r =>
    let w := (r.take 5).takeWhile isWordC
    if w.length < 3 then none else some ('.' :: w, r.drop w.length)
  | _ => none

/-- What the last character of the first column says. -/
inductive XsKind where
  | neutron
  | thermal
  | other
  deriving DecidableEq

/-- `zaid_str.back()` (src/mcnp_library.cpp:172-173). -/
def xsKind (z : List Char) : XsKind :=
  if z.getLast? = some 'c' then .neutron else if z.getLast? = some 't' then .thermal else .other

variable {K : Type _} [Field K] [LinearOrder K]

/-- One line of the directory (src/mcnp_library.cpp:138-212); `none`: nothing registered.  A missing temperature column leaves `temp_str` empty
(165-170).  `datapath / fname` is left out: the file name as written is kept. -/
def xsLine (cv : Conv K) (kT : K) (line : List Char) : Res (Option (Reg K)) :=
  let t := tidyLine line
  if t = [] then .ok none
  else
    let ws := splitBlank t []
    if ws.length < 7 ∨ ws.length > 11 then .error .exc
    else do
      let z ← getAt ws 0
      let f ← getAt ws 2
      let ft ← getAt ws 4
      match xsKind z with
      | .other => return none
      | .neutron => do
        let t ← cv.stod (ws[9]?.getD [])
        let n ← cv.stoul (regexErase takeExt35 z.length z)
        return some (.neutron (zaidOfNum n) ⟨f, ft == ['2'], t * kT⟩ 0)
      | .thermal => do
        let t ← cv.stod (ws[9]?.getD [])
        return some (.tsl (regexErase takeExt35 z.length z) ⟨f, ft == ['2'], t * kT⟩)

/-- The directory loop on the text that starts with the word `directory` (src/mcnp_library.cpp:115-212): the registrations in the order of the
file.  (The atomic weight ratio of a registration is not used: it comes from another part of the file, 55-87.) -/
def parseMcnp (cv : Conv K) (kT : K) (text : List Char) : Res (List (Reg K)) := do
  let l ← ((cutLines (joinPlus text) []).drop 1).mapM (xsLine cv kT)
  return l.filterMap id

end PNDL
