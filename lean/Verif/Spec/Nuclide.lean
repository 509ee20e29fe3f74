import Verif.Model.ElementTable

/-! Declarative specifications for the identifier classes (no model functions are used). -/
namespace PNDL.Spec

/-- The decimal value of a digit string, most significant digit first. -/
def decVal : List Char → Nat
  | [] => 0
  | c :: r => (c.toNat - 48) * 10 ^ r.length + decVal r

def Ws (s : List Char) : Prop := ∀ c ∈ s, c ∈ [' ', '\t', '\n', '\x0b', '\x0c', '\r']
def Upper (c : Char) : Prop := 65 ≤ c.toNat ∧ c.toNat ≤ 90
def Lower (c : Char) : Prop := 97 ≤ c.toNat ∧ c.toNat ≤ 122
def Digit (c : Char) : Prop := 48 ≤ c.toNat ∧ c.toNat ≤ 57

/-- `[A-Z][a-z]{0,1}`. -/
def ElemSym (w : List Char) : Prop := ∃ u lo, w = u :: lo ∧ Upper u ∧ lo.length ≤ 1 ∧ ∀ c ∈ lo, Lower c

/-- `[A-Z][a-z]+`. -/
def ElemName (w : List Char) : Prop := ∃ u lo, w = u :: lo ∧ Upper u ∧ lo ≠ [] ∧ ∀ c ∈ lo, Lower c

/-- `[0-9]{1,3}`. -/
def Digits13 (w : List Char) : Prop := 1 ≤ w.length ∧ w.length ≤ 3 ∧ ∀ c ∈ w, Digit c

/-- `([m][0-2])?` -/
def IsomerOpt (w : List Char) : Prop := w = [] ∨ w = ['m', '0'] ∨ w = ['m', '1'] ∨ w = ['m', '2']

/-- The language accepted by the element-symbol pattern. -/
def ElementLang (s : List Char) : Prop := ∃ a w b, s = a ++ w ++ b ∧ Ws a ∧ ElemSym w ∧ Ws b
/-- The language accepted by the element-name pattern. -/
def NameLang (s : List Char) : Prop := ∃ a w b, s = a ++ w ++ b ∧ Ws a ∧ ElemName w ∧ Ws b
/-- The language accepted by the isotope pattern. -/
def IsotopeLang (s : List Char) : Prop :=
  ∃ a w d b, s = a ++ w ++ d ++ b ∧ Ws a ∧ ElemSym w ∧ Digits13 d ∧ Ws b
/-- The language accepted by the nuclide pattern. -/
def NuclideLang (s : List Char) : Prop :=
  ∃ a w d m b, s = a ++ w ++ d ++ m ++ b ∧ Ws a ∧ ElemSym w ∧ Digits13 d ∧ IsomerOpt m ∧ Ws b

/-- The level denoted by an optional isomer suffix. -/
def isomerLevel : List Char → Nat
  | ['m', '1'] => 1
  | ['m', '2'] => 2
  | _ => 0

/-- What the string `w ++ d ++ m` (element symbol, mass digits, isomer suffix) denotes. -/
def Denotes (w d m : List Char) (Z A level : Nat) : Prop :=
  1 ≤ Z ∧ (elementsTable[Z - 1]?.map ElemInfo.symbol = some w) ∧ A = decVal d ∧ level = isomerLevel m

end PNDL.Spec
