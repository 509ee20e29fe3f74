import Verif.Model.Nuclide
import Verif.Model.Interp

/-! `NDLibrary` (src/nd_library.cpp, include/PapillonNDL/nd_library.hpp) and `SerpentLibrary` (src/serpent_library.cpp). -/
namespace PNDL

section Temps
variable {K : Type _} [Field K] [LinearOrder K]

/-- The constant `1.E300` (nd_library.cpp:118, 162, 234). -/
def bigT : K := 10 ^ 300

/-- The loop of `NDLibrary::nearest_temperature` (nd_library.cpp:116-130).  The argument is the part of the temperature list from
the loop index on; after the last element the loop ends and `temps->back()` is that same last element. -/
def nearestTemp (T : K) : List K → Res K
  | [] => .error .ub
  | [t] => if bigT < |T - t| then .ok t else .ok t
  | t :: t1 :: rest => if |T - t1| < |T - t| then nearestTemp T (t1 :: rest) else .ok t

/-- The selection loop of `load_STNeutron` (nd_library.cpp:159-173) and `load_STTSL` (231-245): the index of the table, `none` when
`i_min_diff` stays `temperatures.size()`.  `Tdiff_1` is computed from the *same* element as `Tdiff` (164, 236).  The list is the part
of the temperatures from index `i` on. -/
def loadIndex (T tol : K) : List K → Nat → Option Nat
  | [], _ => none
  | t :: rest, i =>
    let d := |T - t|
    let d1 := if rest.isEmpty then bigT else |T - t|
    if d1 < d then loadIndex T tol rest (i + 1)
    else if d ≤ tol then some i
    else loadIndex T tol rest (i + 1)

end Temps

/-! ### The cache -/

/-- A loaded data object: an allocation number, and the object whose distributions it was built from
(`STNeutron(ace, *first_loaded)`, nd_library.cpp:193-194). -/
structure LObj where
  id : Nat
  base : Option Nat
  deriving DecidableEq, Repr

/-- `STNeutronList` / `STThermalScatteringLawList` (nd_library.hpp:149-160) without the table descriptions. -/
structure STList (K : Type _) where
  temps : List K
  loaded : List (Option LObj)
  first : Option LObj

/-- The data maps of an `NDLibrary` (nd_library.hpp:164-165).  `Key` stands for ZAIDs and TSL names together; `shares k` tells
neutron data (true) from thermal scattering laws (false, no `first_loaded`).  `next` numbers allocations; `reads` is a ghost log of
the tables read successfully. -/
structure Lib (Key K : Type _) where
  lists : Key → Option (STList K)
  shares : Key → Bool
  next : Nat
  reads : List (Key × Nat)

/-- A call of `load_STNeutron` or `load_STTSL`; `fileOk` tells whether reading and building the object succeeds this time. -/
structure LoadReq (Key K : Type _) where
  key : Key
  T : K
  tol : K
  fileOk : Bool

variable {Key K : Type _} [DecidableEq Key] [Field K] [LinearOrder K]

/-- `load_STNeutron` (nd_library.cpp:147-209) and `load_STTSL` (222-274) after the symbol has been resolved: the state after the call
and its outcome.  An exception while loading leaves the function before anything is stored. -/
def Lib.load (L : Lib Key K) (r : LoadReq Key K) : Lib Key K × Res LObj :=
  match L.lists r.key with
  | none => (L, .error .exc)
  | some s =>
    match loadIndex r.T r.tol s.temps 0 with
    | none => (L, .error .exc)
    | some i =>
      match s.loaded[i]? with
      | none => (L, .error .ub)
      | some (some o) => (L, .ok o)
      | some none =>
        if r.fileOk then
          let o : LObj := ⟨L.next, if L.shares r.key then s.first.map LObj.id else none⟩
          let first := if L.shares r.key then (match s.first with | some f => some f | none => some o) else s.first
          let s' : STList K := ⟨s.temps, s.loaded.set i (some o), first⟩
          (⟨fun k => if k = r.key then some s' else L.lists k, L.shares, L.next + 1, (r.key, i) :: L.reads⟩, .ok o)
        else (L, .error .exc)

/-- The state after a history of calls, whatever their outcomes. -/
def Lib.run (L : Lib Key K) (h : List (LoadReq Key K)) : Lib Key K := h.foldl (fun L r => (L.load r).1) L

/-! ### Reading a Serpent directory file -/

/-- A `std::stringstream` being read: the unread text and `eofbit`. -/
structure IStream where
  rest : List Char
  eof : Bool

/-- `stream >> v` for a string `v`: skips white space, then reads up to the next white space or the end.  `eofbit` is set when the end is
reached; when there is nothing to read, or `eofbit` was already set, the extraction fails and `v` keeps its value. -/
def readTok (s : IStream) (v : List Char) : IStream × List Char :=
  if s.eof then (s, v)
  else match s.rest.dropWhile isSpaceC with
    | [] => (⟨[], true⟩, v)
    | c :: r => (⟨(c :: r).dropWhile (fun x => !isSpaceC x), ((c :: r).dropWhile (fun x => !isSpaceC x)).isEmpty⟩,
                 (c :: r).takeWhile (fun x => !isSpaceC x))

/-- The nine string variables of the constructor (serpent_library.cpp:55-63). -/
structure DirRow where
  als : List Char
  zaid : List Char
  type : List Char
  za : List Char
  iso : List Char
  aw : List Char
  temp : List Char
  bin : List Char
  path : List Char

/-- The nine extractions (serpent_library.cpp:66-74). -/
def readRow (s0 : IStream) (r : DirRow) : IStream × DirRow :=
  let (s1, a) := readTok s0 r.als
  let (s2, b) := readTok s1 r.zaid
  let (s3, c) := readTok s2 r.type
  let (s4, d) := readTok s3 r.za
  let (s5, e) := readTok s4 r.iso
  let (s6, f) := readTok s5 r.aw
  let (s7, g) := readTok s6 r.temp
  let (s8, h) := readTok s7 r.bin
  let (s9, i) := readTok s8 r.path
  (s9, ⟨a, b, c, d, e, f, g, h, i⟩)

/-- The class `\w`. -/
def isWordC (c : Char) : Bool := isUpC c || isLoC c || isDigC c || c == '_'

/-- `[.][\w]{3}` at the head of a string (serpent_library.cpp:88). -/
def takeExt : List Char → Option (List Char × List Char)
  | '.' :: a :: b :: c :: r => if isWordC a && isWordC b && isWordC c then some (['.', a, b, c], r) else none
  | _ => none

/-- `std::regex_replace(zaid_str, zaid_ext_regex, "")` (serpent_library.cpp:89). -/
def stripExt (z : List Char) : List Char := regexErase takeExt z.length z

/-- `TableEntry` (nd_library.hpp:143-147). -/
structure TableEntry (K : Type _) where
  file : List Char
  binary : Bool
  temp : K
  deriving DecidableEq

/-- One registration made by the loop (serpent_library.cpp:91-105). -/
inductive Reg (K : Type _) where
  | neutron (zaid : ZAID) (e : TableEntry K) (awr : K)
  | tsl (name : List Char) (e : TableEntry K)
  deriving DecidableEq

/-- `std::stod` and `std::stoul`: left abstract (they may throw). -/
structure Conv (K : Type _) where
  stod : List Char → Res K
  stoul : List Char → Res Nat

/-- `Z = uint8_t(ZA / 1000)`, `A = ZA - Z * 1000` in `uint32_t` arithmetic (serpent_library.cpp:93-96). -/
def zaidOfNum (n : Nat) : ZAID where
  Z := (n % 2 ^ 32) / 1000 % 2 ^ 8
  A := (n % 2 ^ 32) - ((n % 2 ^ 32) / 1000 % 2 ^ 8) * 1000
  hZ := Nat.mod_lt _ (by decide)
  hA := by have : n % 2 ^ 32 < 2 ^ 32 := Nat.mod_lt _ (by decide); omega

/-- Does the row describe neutron or thermal data (serpent_library.cpp:77)?  `type_str[0]` of an empty string is the null character. -/
def DirRow.relevant (r : DirRow) : Bool := r.type.head? == some '1' || r.type.head? == some '3'

/-- The registration of a row (serpent_library.cpp:84-105).  `zaid_str` has been stripped before. -/
def regOfRow (cv : Conv K) (r : DirRow) : Res (Reg K) := do
  let t ← cv.stod r.temp
  let e : TableEntry K := ⟨r.path, r.bin.head? == some '1', t⟩
  if r.type.head? = some '1' then do
    let n ← cv.stoul r.za
    let awr ← cv.stod r.aw
    return .neutron (zaidOfNum n) e awr
  else return .tsl (stripExt r.zaid) e

/-- The reading loop (serpent_library.cpp:65-106), starting with the variables `row`, the set `read_zaids` = `seen` and the
registrations made so far (latest last).  The first argument is fuel; `parse_terminates` proves that it suffices. -/
def parseLoop (cv : Conv K) : Nat → IStream → DirRow → List (List Char) → List (Reg K) → Res (List (Reg K))
  | 0, _, _, _, _ => .error .diverge
  | f + 1, s, row, seen, regs =>
    if s.eof then .ok regs
    else
      let (s', row') := readRow s row
      if row'.relevant = false then parseLoop cv f s' row' seen regs
      else if row'.zaid ∈ seen then parseLoop cv f s' row' seen regs
      else
        match regOfRow cv row' with
        | .error e => .error e
        | .ok g => parseLoop cv f s' { row' with zaid := stripExt row'.zaid } (row'.zaid :: seen) (regs ++ [g])

/-- The registrations made by `SerpentLibrary(fname)` for a file with the contents `text`. -/
def parseSerpent (cv : Conv K) (text : List Char) : Res (List (Reg K)) :=
  parseLoop cv (text.length + 2) ⟨text, false⟩ ⟨[], [], [], [], [], [], [], [], []⟩ [] []

/-- The entries registered for a nuclide, in the order of the file. -/
def neutronEntries (regs : List (Reg K)) (z : ZAID) : List (TableEntry K) :=
  regs.filterMap (fun g => match g with
    | .neutron z' e _ => if z' = z then some e else none
    | .tsl _ _ => none)

/-- The entries registered for a thermal scattering law, in the order of the file. -/
def tslEntries (regs : List (Reg K)) (name : List Char) : List (TableEntry K) :=
  regs.filterMap (fun g => match g with
    | .neutron _ _ _ => none
    | .tsl n e => if n = name then some e else none)

/-- The atomic weight ratios registered for a nuclide, in the order of the file (serpent_library.cpp:99-100). -/
def awrs (regs : List (Reg K)) (z : ZAID) : List K :=
  regs.filterMap (fun g => match g with
    | .neutron z' _ a => if z' = z then some a else none
    | .tsl _ _ => none)

/-- `atomic_weight_ratios_[zaid]` after the loop: every registration of the nuclide overwrites it. -/
def awrOf (regs : List (Reg K)) (z : ZAID) : Option K := (awrs regs z).getLast?

/-- `temperatures` of a nuclide after `std::sort` (serpent_library.cpp:110-120); every sorting algorithm gives this list of
temperatures. -/
def neutronTemps (regs : List (Reg K)) (z : ZAID) : List K :=
  ((neutronEntries regs z).map TableEntry.temp).mergeSort (fun a b => decide (a ≤ b))

end PNDL
