import Verif.Model.Nuclide
import Mathlib.Algebra.Field.Basic
import Mathlib.Order.Defs.LinearOrder

/-! ACE text files: `ACE::read_ascii` (src/ace.cpp:75-187) and `split_line` (354-372), on the characters of the file. -/
namespace PNDL

/-- A `std::ifstream` being read: the unread text, `eofbit`, `failbit`. -/
structure TStream where
  rest : List Char
  eof : Bool
  fail : Bool
  deriving DecidableEq

/-- Text to number, from the first character that is not white space: the value stored, whether it was a number, and the unread text.
The library routine is `std::num_get`. -/
abbrev Scanner (α : Type) := List Char → α × Bool × List Char

/-- `file >> v`: `none` when nothing is stored (the stream was not good, or only white space is left).  A text that is no number stores
the value given by the scanner and sets `failbit`; reaching the end sets `eofbit`. -/
def TStream.get {α : Type} (sc : Scanner α) (s : TStream) : TStream × Option α :=
  if s.eof || s.fail then (⟨s.rest, s.eof, true⟩, none)
  else match s.rest.dropWhile isSpaceC with
    | [] => (⟨[], true, true⟩, none)
    | c :: r =>
      let (v, ok, rest) := sc (c :: r)
      (⟨rest, rest.isEmpty, !ok⟩, some v)

/-- Value of a string of decimal digits. -/
def digVal (ds : List Char) : Nat := ds.foldl (fun n c => 10 * n + (c.toNat - '0'.toNat)) 0

/-- An optional sign: negative?, and the rest. -/
def takeSign : List Char → Bool × List Char
  | '-' :: r => (true, r)
  | '+' :: r => (false, r)
  | r => (false, r)

/-- `std::num_get` for `int32_t` in the default locale (libstdc++ `_M_extract_int`): an optional sign and digits; without digits 0 is
stored, beyond the range the nearest limit, both as failures. -/
def scanInt : Scanner Int := fun t =>
  let (neg, r) := takeSign t
  let ds := r.takeWhile isDigC
  let rest := r.dropWhile isDigC
  let v : Int := if neg then -(digVal ds : Int) else digVal ds
  if ds.isEmpty then (0, false, rest)
  else if v < -2 ^ 31 then (-2 ^ 31, false, rest)
  else if v > 2 ^ 31 - 1 then (2 ^ 31 - 1, false, rest)
  else (v, true, rest)

/-- The characters `std::num_get` accepts after the digits of a number: a point and more digits. -/
def takeFrac : List Char → List Char × List Char
  | '.' :: r => (r.takeWhile isDigC, r.dropWhile isDigC)
  | r => ([], r)

/-- … and an exponent: `none` if there is no `e`; its sign, digits and the rest. -/
def takeExp : List Char → Option (Bool × List Char × List Char)
  | c :: r =>
    if c = 'e' ∨ c = 'E' then
      let (neg, r') := takeSign r
      some (neg, r'.takeWhile isDigC, r'.dropWhile isDigC)
    else none
  | [] => none

variable {K : Type} [Field K]

/-- `std::num_get` for `double` (libstdc++ `_M_extract_float` and `strtod`): an optional sign, digits, an optional point and digits, an optional
exponent.  Without digits, or with an `e` without digits after it, 0 is stored and the extraction fails.  The value is exact here
(no rounding, no overflow). -/
def scanDouble : Scanner K := fun t =>
  let (neg, r) := takeSign t
  let ip := r.takeWhile isDigC
  let (fp, r2) := takeFrac (r.dropWhile isDigC)
  let m : K := (digVal (ip ++ fp) : K) * (10 : K) ^ (-(fp.length : Int))
  let v : K := if neg then -m else m
  if (ip ++ fp).isEmpty then (0, false, r2)
  else match takeExp r2 with
    | none => (v, true, r2)
    | some (eneg, es, r3) =>
      if es.isEmpty then (0, false, r3)
      else (v * (10 : K) ^ (if eneg then -(digVal es : Int) else (digVal es : Int)), true, r3)

/-- `file.read(s.data(), n)` into a string of `n` blanks (src/ace.cpp:43-46, 85-86). -/
def TStream.readStr (n : Nat) (s : TStream) : List Char × TStream :=
  if s.eof || s.fail then (List.replicate n ' ', ⟨s.rest, s.eof, true⟩)
  else if n ≤ s.rest.length then (s.rest.take n, ⟨s.rest.drop n, false, false⟩)
  else (s.rest ++ List.replicate (n - s.rest.length) ' ', ⟨[], true, true⟩)

/-- `file.ignore(n)`. -/
def TStream.skip (n : Nat) (s : TStream) : TStream :=
  if s.eof || s.fail then ⟨s.rest, s.eof, true⟩
  else if n ≤ s.rest.length then ⟨s.rest.drop n, false, false⟩
  else ⟨[], true, false⟩

/-- `if (file.peek() == '\n' || file.peek() == '\r') file.ignore(1);` (src/ace.cpp:101-102, 131-132).  Peeking at the end sets
`eofbit`. -/
def TStream.skipNl (s : TStream) : TStream :=
  if s.eof || s.fail then ⟨s.rest, s.eof, true⟩
  else match s.rest with
    | [] => ⟨[], true, false⟩
    | c :: r => if c = '\n' ∨ c = '\r' then ⟨r, false, false⟩ else s

/-- `std::getline(file, line)`. -/
def TStream.getline (s : TStream) : List Char × TStream :=
  if s.eof || s.fail then ([], ⟨s.rest, s.eof, true⟩)
  else match s.rest.dropWhile (fun c => c ≠ '\n') with
    | [] => (s.rest, ⟨[], true, s.rest.isEmpty⟩)
    | _ :: r => (s.rest.takeWhile (fun c => c ≠ '\n'), ⟨r, false, false⟩)

/-- The loop of `split_line` (src/ace.cpp:358-367), `tmp` being the current word. -/
def splitLoop : List Char → List Char → List (List Char)
  | [], tmp => if tmp.length > 0 then [tmp] else []
  | c :: r, tmp =>
    if c ≠ ' ' then splitLoop r (tmp ++ [c])
    else if tmp.length > 0 then tmp :: splitLoop r []
    else splitLoop r tmp

/-- `split_line(line)` (src/ace.cpp:354-372). -/
def splitLine (line : List Char) : List (List Char) := splitLoop line []

/-- `std::getline` repeated (src/ace.cpp:141). -/
def TStream.skipLines : Nat → TStream → TStream
  | 0, s => s
  | n + 1, s => TStream.skipLines n s.getline.2

/-- The IZAW loop (src/ace.cpp:146-152).  The two locals are not initialised: using one that was not stored is undefined behaviour. -/
def textIzaw : Nat → TStream → Res (List (Int × K) × TStream)
  | 0, s => .ok ([], s)
  | n + 1, s => do
    let (s1, z) := s.get scanInt
    let (s2, w) := s1.get (scanDouble (K := K))
    match z, w with
    | some z, some w => do
      let (r, s3) ← textIzaw n s2
      return ((z, w) :: r, s3)
    | _, _ => .error .ub

/-- The NXS and JXS loops (src/ace.cpp:155-162), the arrays being zero before. -/
def textInts : Nat → TStream → List Int × TStream
  | 0, s => ([], s)
  | n + 1, s =>
    let (s1, z) := s.get scanInt
    let (r, s2) := textInts n s1
    (z.getD 0 :: r, s2)

/-- The XSS loop (src/ace.cpp:166-170), `n` entries left to read: the values stored so far, so that their number is `i`.  An
entry for which nothing is stored keeps the 0 of `resize`. -/
def textXss : Nat → TStream → List K
  | 0, _ => []
  | n + 1, s =>
    if s.eof then []
    else
      let (s1, v) := s.get (scanDouble (K := K))
      v.getD 0 :: textXss n s1

/-- `std::stod` and `std::stoi`: left abstract (they may throw). -/
structure TextConv (K : Type) where
  stod : List Char → Res K
  stoi : List Char → Res Int

/-- What `read_ascii` fills in (ace.hpp:311-325). -/
structure TextAce (K : Type) where
  zaid : ZAID
  temperature : K
  awr : K
  fissile : Bool
  zaidTxt : List Char
  date : List Char
  comment : List Char
  mat : List Char
  izaw : List (Int × K)
  nxs : List Int
  jxs : List Int
  xss : List K
  deriving DecidableEq

/-- The fields of the header. -/
structure TextHeader (K : Type) where
  awr : K
  temperature : K
  zaidTxt : List Char
  date : List Char
  comment : List Char
  mat : List Char

/-- The end of both forms of the header: date, line end, comment, mat (src/ace.cpp:98-108, 128-138). -/
def textTail (s : TStream) : (List Char × List Char × List Char) × TStream :=
  let (date, s) := s.readStr 10
  let s := s.skipNl
  let s := s.skipNl
  let (comment, s) := s.readStr 70
  let (mat, s) := s.readStr 10
  ((date, comment, mat), s)

/-- The header (src/ace.cpp:76-143); `kT` is `MEV_TO_EV * EV_TO_K`.  `get`, `peek`, `unget` at the start (79-82) only look at the first two
characters; a file shorter than that fails later in `stod`. -/
def textHeader (cv : TextConv K) (kT : K) (file : List Char) : Res (TextHeader K × TStream) :=
  let s : TStream := ⟨file, false, false⟩
  if file.take 2 = ['2', '.'] then do
    let (_, s) := s.getline
    let (line, s) := s.getline
    let sp := splitLine line
    let w0 ← getAt sp 0
    let awr ← cv.stod w0
    let w1 ← getAt sp 1
    let temp ← cv.stod w1
    let w3 ← getAt sp 3
    let n ← cv.stoi w3
    if n = 2 then
      let (zt, s) := s.readStr 10
      let s := s.skip 25
      let ((date, comment, mat), s) := textTail s
      return (⟨awr, temp * kT, zt, date, comment, mat⟩, s)
    else return (⟨awr, temp * kT, List.replicate 10 ' ', List.replicate 10 ' ', List.replicate 70 ' ', List.replicate 10 ' '⟩,
                 s.skipLines n.toNat)
  else do
    let (zt, s) := s.readStr 10
    let (at_, s) := s.readStr 12
    let (tt, s) := s.readStr 12
    let awr ← cv.stod at_
    let temp ← cv.stod tt
    let s := s.skip 1
    let ((date, comment, mat), s) := textTail s
    return (⟨awr, temp * kT, zt, date, comment, mat⟩, s)

/-- `static_cast<uint32_t>` of an `int32_t`. -/
def txtU32 (z : Int) : Nat := (z % 2 ^ 32).toNat

/-- `Z_ = uint8_t(n / 1000)`, `A_ = n - Z_ * 1000` (src/ace.cpp:181-184). -/
def zaidOfNxs (z : Int) : ZAID where
  Z := txtU32 z / 1000 % 2 ^ 8
  A := txtU32 z - (txtU32 z / 1000 % 2 ^ 8) * 1000
  hZ := Nat.mod_lt _ (by decide)
  hA := by unfold txtU32; omega

/-- `ACE::read_ascii` (src/ace.cpp:75-187).  A negative NXS(1) makes `resize` throw. -/
def readAscii (cv : TextConv K) (kT : K) (file : List Char) : Res (TextAce K) := do
  let (h, s) ← textHeader cv kT file
  let (izaw, s) ← textIzaw (K := K) 16 s
  let (nxs, s) := textInts 16 s
  let (jxs, s) := textInts 32 s
  let n ← getAt nxs 0
  if n < 0 then .error .exc
  else do
    let xss : List K := textXss n.toNat s
    if xss.length ≠ n.toNat then .error .exc
    else do
      let z ← getAt nxs 1
      let j ← getAt jxs 1
      return ⟨zaidOfNxs z, h.temperature, h.awr, decide (j > 0), h.zaidTxt, h.date, h.comment, h.mat, izaw, nxs, jxs, xss⟩

end PNDL
