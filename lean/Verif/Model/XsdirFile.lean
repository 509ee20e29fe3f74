import Verif.Model.Directory
import Verif.Model.AceText

/-! The whole MCNP directory file: `MCNPLibrary(fname)` (src/mcnp_library.cpp:37-244), and `atomic_weight_ratio` (src/nd_library.cpp:276-298). -/
namespace PNDL

/-- A word written in letters of either case, as `[Aa][Tt]…` (src/mcnp_library.cpp:57-59, 91-92, 107): the text after it.  `w` is in small letters. -/
def matchCI (w s : List Char) : Option (List Char) :=
  if (s.take w.length).map Char.toLower = w then some (s.drop w.length) else none

/-- `\s+`: the text after it. -/
def space1 (s : List Char) : Option (List Char) :=
  if (s.takeWhile isSpaceC).isEmpty then none else some (s.dropWhile isSpaceC)

/-- `\s+[0-9]{4,6}\s+[0-9]+[.][0-9]+` at the head of a string (src/mcnp_library.cpp:59): the match and the text after it.  Every part is greedy and followed
by a character it cannot contain, so there is nothing to go back to. -/
def awrPair (s : List Char) : Option (List Char × List Char) :=
  let w1 := s.takeWhile isSpaceC
  let r1 := s.dropWhile isSpaceC
  let d := r1.takeWhile isDigC
  let r2 := r1.dropWhile isDigC
  let w2 := r2.takeWhile isSpaceC
  let r3 := r2.dropWhile isSpaceC
  let ip := r3.takeWhile isDigC
  if w1.isEmpty ∨ d.length < 4 ∨ 6 < d.length ∨ w2.isEmpty ∨ ip.isEmpty then none
  else match r3.dropWhile isDigC with
    | '.' :: r4 =>
      let fp := r4.takeWhile isDigC
      if fp.isEmpty then none else some (w1 ++ (d ++ (w2 ++ (ip ++ '.' :: fp))), r4.dropWhile isDigC)
    | _ => none

/-- `( … )+`, greedy: the text matched by the pairs at the head of a string (the fuel is the length of the text). -/
def awrRun : Nat → List Char → List Char
  | 0, _ => []
  | n + 1, s => match awrPair s with
    | none => []
    | some (m, r) => m ++ awrRun n r

/-- The whole regular expression (src/mcnp_library.cpp:57-59) at the head of a string: the text of the pairs. -/
def awrMatch (s : List Char) : Option (List Char) := do
  let r ← matchCI "atomic".toList s
  let r ← space1 r
  let r ← matchCI "weight".toList r
  let r ← space1 r
  let r ← matchCI "ratios".toList r
  let t := awrRun r.length r
  if t.isEmpty then none else some t

/-- `std::regex_search`: the left-most place where `m` matches. -/
def regexFind {α : Type} (m : List Char → Option α) : List Char → Option α
  | [] => m []
  | c :: r => match m (c :: r) with
    | some a => some a
    | none => regexFind m r

variable {K : Type} [Field K]

/-- The loop over the pairs (src/mcnp_library.cpp:79-86), on the text after the three words.  A ZAID has at most six digits here, so that reading it
as `uint32_t` or `int32_t` is the same.  Using a local that was never stored is undefined behaviour. -/
def awrLoop : Nat → TStream → Res (List (ZAID × K))
  | 0, _ => .error .diverge
  | n + 1, s =>
    if s.eof then .ok []
    else
      let (s1, z) := s.get scanInt
      let (s2, w) := s1.get (scanDouble (K := K))
      match z, w with
      | some z, some w => do
        let r ← awrLoop n s2
        return (zaidOfNum z.toNat, w) :: r
      | _, _ => .error .ub

/-- The characters of a data path (src/mcnp_library.cpp:92): blank, point, word characters, slash and hyphen; those beyond ASCII are left out. -/
def isPathC (c : Char) : Bool := c == ' ' || c == '.' || isWordC c || c == '/' || c == '-'

/-- `datapath\s*=?\s*` at the head of a string (src/mcnp_library.cpp:100-101): the text after it, and whether it contained a blank after the word. -/
def pathHead (s : List Char) : Option (List Char × Bool) := do
  let r ← matchCI "datapath".toList s
  let w1 := r.takeWhile isSpaceC
  let r1 := r.dropWhile isSpaceC
  match r1 with
  | '=' :: r2 => return (r2.dropWhile isSpaceC, decide (' ' ∈ w1 ∨ ' ' ∈ r2.takeWhile isSpaceC))
  | _ => return (r1, decide (' ' ∈ w1))

/-- The regular expression of the data path (src/mcnp_library.cpp:91-92) at the head of a string: the characters of the path.  If no such
character follows, the expression gives back blanks it has passed over, if there are any; these are then removed (102-103): an empty path. -/
def pathMatch (s : List Char) : Option (List Char) := do
  let (r, blank) ← pathHead s
  let p := r.takeWhile isPathC
  if p.isEmpty ∧ blank = false then none else return p

/-- `regex_replace(…, "datapath\s*=?\s*", "")` (src/mcnp_library.cpp:102-103) on the characters of the path: other occurrences of the word go as
well. -/
def erasePath (p : List Char) : List Char := regexErase (fun s => (pathHead s).map fun r => ([], r.1)) p.length p

/-- `datapath` (src/mcnp_library.cpp:91-105); `parent` is `xsdir_fname.parent_path()`. -/
def dataPath (parent file : List Char) : List Char :=
  match regexFind pathMatch file with
  | none => parent
  | some p => erasePath p

/-- `datapath / fname_str` (src/mcnp_library.cpp:186) on a POSIX system. -/
def joinPath (d f : List Char) : List Char :=
  if f.head? = some '/' then f
  else if d = [] then f
  else if d.getLast? = some '/' then d ++ f
  else d ++ '/' :: f

/-- A registration with its file below the data path (src/mcnp_library.cpp:186, 197, 201). -/
def Reg.below {K : Type} (d : List Char) : Reg K → Reg K
  | .neutron z e a => .neutron z { e with file := joinPath d e.file } a
  | .tsl n e => .tsl n { e with file := joinPath d e.file }

/-- The text from the word `directory` on (src/mcnp_library.cpp:107-115). -/
def dirText (s : List Char) : Option (List Char) := (matchCI "directory".toList s).map fun _ => s

/-- What the constructor leaves: `atomic_weight_ratios_` (as the assignments in their order) and the registrations. -/
structure Xsdir (K : Type) where
  awrs : List (ZAID × K)
  regs : List (Reg K)
  deriving DecidableEq



/-- `MCNPLibrary(fname)` for a file with the contents `file` (src/mcnp_library.cpp:37-212). -/
def readXsdir (cv : Conv K) (kT : K) (parent file : List Char) : Res (Xsdir K) :=
  match regexFind awrMatch file with
  | none => .error .exc
  | some t => do
    let awrs ← awrLoop (K := K) (t.length + 1) ⟨t, false, false⟩
    match regexFind dirText file with
    | none => .error .exc
    | some text => do
      let regs ← parseMcnp cv kT text
      return ⟨awrs, regs.map (Reg.below (dataPath parent file))⟩

/-- `atomic_weight_ratio(symbol)` (src/nd_library.cpp:276-298): every assignment overwrites the one before. -/
def atomicWeightRatio {K : Type} (awrs : List (ZAID × K)) (symbol : List Char) : Res K := do
  let z ← symbolToZaid symbol
  match ((awrs.filter (fun p => p.1 = z)).map Prod.snd).getLast? with
  | none => .error .exc
  | some a => return a

end PNDL
