import Verif.Model.Prelude

/-! `PNDLException` message handling (include/PapillonNDL/pndl_exception.hpp). Strings are lists of characters. -/
namespace PNDL

/-- `while (mssg_tmp[ind] != ' ') { if (ind > 0) ind--; else { ind = 80*(b+1); break; } }`
(pndl_exception.hpp:82-89): the index finally used, `start` being `80*(b+1)`.  `s[size]` would be legal for
`std::string` (it is `'\0'`), but we count any index `≥ size` as undefined behaviour, which is stronger. -/
def breakIndex (s : List Char) (start : Nat) : Nat → Res Nat
  | 0 => do
    let c ← getAt s 0
    return if c = ' ' then 0 else start
  | ind + 1 => do
    let c ← getAt s (ind + 1)
    if c = ' ' then return ind + 1 else breakIndex s start ind

/-- One iteration of the `for` loop (pndl_exception.hpp:77-92). -/
def breakStep (s : List Char) (b : Nat) : Res (List Char) := do
  let ind ← breakIndex s (80 * (b + 1)) (80 * (b + 1))
  if ind < s.length then return s.set ind '\n' else .error .ub

/-- The `for` loop, iterations `b, …, b+n-1`. -/
def breakLoop : Nat → Nat → List Char → Res (List Char)
  | 0, _, s => .ok s
  | n + 1, b, s => do
    let s' ← breakStep s b
    breakLoop n (b + 1) s'

/-- Lines 73-93: the wrapped text.  `nbreaks` is an `int`: `size/80`, minus one when `80 ∣ size` (so −1
for the empty message, where the loop is skipped). -/
def wrapMessage (mssg : List Char) : Res (List Char) :=
  let nbreaks : Int := (mssg.length / 80 : Nat) - (if mssg.length % 80 = 0 then 1 else 0)
  if nbreaks > 0 then breakLoop nbreaks.toNat 0 mssg else .ok mssg

/-- The frame around a message (lines 95-115): `hdr` stands for the rule and the File/Function/Line lines,
`ftr` for the closing rule; they only depend on the source location. -/
def renderMessage (hdr ftr : List Char) (wrapped : List Char) : List Char :=
  hdr ++ wrapped.flatMap (fun c => if c = '\n' then ['\n', ' ', '#', ' '] else [c]) ++ ['\n'] ++ ftr

/-- `add_to_error_message` (lines 70-118): `message = tmp + message`. -/
def addToMessage (hdr ftr message mssg : List Char) : Res (List Char) := do
  let w ← wrapMessage mssg
  return renderMessage hdr ftr w ++ message

/-- A freshly constructed exception's `what()` (lines 47-51), then a sequence of `add_to_exception` calls (59-63);
each call has its own location header/footer. -/
def whatAfter : List Char → List (List Char × List Char × List Char) → Res (List Char)
  | message, [] => .ok message
  | message, (hdr, ftr, mssg) :: rest => do
    let m ← addToMessage hdr ftr message mssg
    whatAfter m rest

end PNDL
