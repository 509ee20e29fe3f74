import Mathlib.Data.Nat.Digits.Defs
import Mathlib.Algebra.Field.Basic
import Verif.Model.AceText

/-! Numbers as they are written in an ACE text file, and the layout of such files. -/
namespace PNDL.Spec

/-- A sign as written: nothing, `+` or `-`. -/
inductive Sign where
  | none
  | plus
  | minus
  deriving DecidableEq

def Sign.text : Sign → List Char
  | .none => []
  | .plus => ['+']
  | .minus => ['-']

/-- The character of a digit. -/
def digit (d : Fin 10) : Char := Char.ofNat (48 + d.val)

/-- The number with the decimal digits `ds`, most significant first. -/
def natOf (ds : List (Fin 10)) : Nat := Nat.ofDigits 10 (ds.reverse.map Fin.val)

/-- A number as written: sign, digits, optional point and digits, optional exponent (`E` or `e`). -/
structure Num where
  sign : Sign
  ip : List (Fin 10)
  fp : Option (List (Fin 10))
  exp : Option (Bool × Sign × List (Fin 10))

/-- The digits after the point. -/
def Num.frac (n : Num) : List (Fin 10) := n.fp.getD []

/-- There are digits before or after the point, and after the `E`. -/
def Num.Wf (n : Num) : Prop := n.ip ++ n.frac ≠ [] ∧ ∀ e ∈ n.exp, e.2.2 ≠ []

/-- `.` and the digits after it, if there is a point. -/
def fpText : Option (List (Fin 10)) → List Char
  | none => []
  | some f => '.' :: f.map digit

/-- `E` (or `e`), sign and digits, if there is an exponent. -/
def expText : Option (Bool × Sign × List (Fin 10)) → List Char
  | none => []
  | some (up, s, ds) => (if up then 'E' else 'e') :: s.text ++ ds.map digit

def Num.text (n : Num) : List Char := n.sign.text ++ n.ip.map digit ++ fpText n.fp ++ expText n.exp

/-- `(±) ip.fp × 10^(± exp)`. -/
def Num.value {K : Type} [Field K] (n : Num) : K :=
  let m : K := ((natOf n.ip : K) + (natOf n.frac : K) * (10 : K) ^ (-(n.frac.length : Int))) *
    (match n.exp with
      | none => 1
      | some (_, s, ds) => (10 : K) ^ (if s = .minus then -(natOf ds : Int) else (natOf ds : Int)))
  if n.sign = .minus then -m else m

/-- An integer as written. -/
structure IntNum where
  sign : Sign
  ds : List (Fin 10)

def IntNum.value (n : IntNum) : Int := if n.sign = .minus then -(natOf n.ds : Int) else natOf n.ds
def IntNum.text (n : IntNum) : List Char := n.sign.text ++ n.ds.map digit
/-- It has digits and fits `int32_t`. -/
def IntNum.Wf (n : IntNum) : Prop := n.ds ≠ [] ∧ -2 ^ 31 ≤ n.value ∧ n.value < 2 ^ 31

/-- White space only. -/
def White (w : List Char) : Prop := ∀ c ∈ w, isSpaceC c = true

/-- A field: the white space before it, and the number. -/
abbrev Entry (α : Type) := List Char × α

/-- The text of some fields one after the other. -/
def fieldsText {α : Type} (text : α → List Char) (l : List (Entry α)) : List Char := l.flatMap (fun p => p.1 ++ text p.2)

/-- Fields one can tell apart: well-formed numbers, each preceded by white space or starting with its own sign. -/
def Fields {α : Type} (Wf : α → Prop) (sign : α → Sign) (l : List (Entry α)) : Prop :=
  ∀ p ∈ l, White p.1 ∧ (p.1 ≠ [] ∨ sign p.2 ≠ .none) ∧ Wf p.2

/-- Text that does not continue a number: it is empty or starts with something that is no digit, point or `E`. -/
def Stop (r : List Char) : Prop := ∀ c ∈ r.head?, isDigC c = false ∧ c ≠ '.' ∧ c ≠ 'e' ∧ c ≠ 'E'

/-- A line end: LF or CR LF. -/
def LineEnd (l : List Char) : Prop := l = ['\n'] ∨ l = ['\r', '\n']

/-- The part of the file after the header: 16 pairs, 16 integers, 32 integers, and the numbers of the XSS array. -/
structure Body where
  izaw : List (Entry IntNum × Entry Num)
  nxs : List (Entry IntNum)
  jxs : List (Entry IntNum)
  xss : List (Entry Num)

def pairsText (l : List (Entry IntNum × Entry Num)) : List Char :=
  l.flatMap (fun p => p.1.1 ++ p.1.2.text ++ (p.2.1 ++ p.2.2.text))

def Body.text (b : Body) : List Char :=
  pairsText b.izaw ++ (fieldsText IntNum.text b.nxs ++ (fieldsText IntNum.text b.jxs ++ fieldsText Num.text b.xss))

structure Body.Wf (b : Body) : Prop where
  n_izaw : b.izaw.length = 16
  n_nxs : b.nxs.length = 16
  n_jxs : b.jxs.length = 32
  izaw : ∀ p ∈ b.izaw, Fields IntNum.Wf IntNum.sign [p.1] ∧ Fields Num.Wf Num.sign [p.2]
  nxs : Fields IntNum.Wf IntNum.sign b.nxs
  jxs : Fields IntNum.Wf IntNum.sign b.jxs
  xss : Fields Num.Wf Num.sign b.xss

/-- NXS(1) as written. -/
def Body.size (b : Body) : Int := ((b.nxs[0]?).map (fun p => p.2.value)).getD 0

/-- What was read agrees with the numbers of the file after the header: every number has its written value, the XSS array is the first
NXS(1) numbers, the nuclide is the one of NXS(2) (a number `1000 Z + A`, `Z ≤ 255`) and is fissile when JXS(2) is positive. -/
structure Body.Read {K : Type} [_root_.Field K] (b : Body) (a : TextAce K) : Prop where
  izaw : a.izaw = b.izaw.map (fun p => (p.1.2.value, p.2.2.value))
  nxs : a.nxs = b.nxs.map (fun p => p.2.value)
  jxs : a.jxs = b.jxs.map (fun p => p.2.value)
  xss : a.xss = (b.xss.take b.size.toNat).map (fun p => p.2.value)
  zaid : ∀ Z A : Nat, Z < 256 → A < 1000 → a.nxs[1]? = some ((1000 * Z + A : Nat) : Int) → a.zaid.Z = Z ∧ a.zaid.A = A
  fissile : a.fissile = true ↔ ∃ j ∈ a.jxs[1]?, 0 < j

/-- The fixed-width part of the header: a ten character name, `mid`, a ten character date, a line end, a 70 character comment
and a ten character material. -/
structure Fixed where
  zaid : List Char
  mid : List Char
  date : List Char
  nl : List Char
  comment : List Char
  mat : List Char

def Fixed.text (h : Fixed) : List Char := h.zaid ++ (h.mid ++ (h.date ++ (h.nl ++ (h.comment ++ h.mat))))

structure Fixed.Wf (h : Fixed) : Prop where
  zaid : h.zaid.length = 10
  mid : h.mid.length = 25
  date : h.date.length = 10
  nl : LineEnd h.nl
  comment : h.comment.length = 70
  mat : h.mat.length = 10
  start : ∀ c ∈ h.comment.head?, c ≠ '\n' ∧ c ≠ '\r'

/-- Words separated by blanks: the number of blanks before each, and the word. -/
def wordsText (l : List (Nat × List Char)) (trail : Nat) : List Char :=
  l.flatMap (fun p => List.replicate p.1 ' ' ++ p.2) ++ List.replicate trail ' '

def Words : List (Nat × List Char) → Prop
  | [] => True
  | p :: l => (p.2 ≠ [] ∧ ' ' ∉ p.2) ∧ (∀ q ∈ l, 1 ≤ q.1 ∧ q.2 ≠ [] ∧ ' ' ∉ q.2)

/-- Lines, each with its line feed. -/
def linesText (l : List (List Char)) : List Char := l.flatMap (fun x => x ++ ['\n'])

/-- The first two lines of a "2.0" file: the version, and a line of words: the atomic weight, the temperature, the date, the number of
comment lines. -/
structure NewHeader where
  line1 : List Char
  ws : List (Nat × List Char)
  trail : Nat

def NewHeader.text (h : NewHeader) : List Char := h.line1 ++ '\n' :: (wordsText h.ws h.trail ++ ['\n'])

structure NewHeader.Wf (h : NewHeader) : Prop where
  version : h.line1.take 2 = ['2', '.']
  line1 : '\n' ∉ h.line1
  line2 : '\n' ∉ wordsText h.ws h.trail
  words : Words h.ws
  four : 4 ≤ h.ws.length

end PNDL.Spec
