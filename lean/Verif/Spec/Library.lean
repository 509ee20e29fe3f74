import Verif.Model.Library

/-! Specifications for the library directory. -/
namespace PNDL.Spec

/-- No member of `l` is strictly closer to `T` than `t`. -/
def Nearest {K : Type _} [Field K] [LinearOrder K] (l : List K) (T t : K) : Prop := t ∈ l ∧ ∀ u ∈ l, |T - t| ≤ |T - u|

/-- White space of the "C" locale. -/
def Blank (s : List Char) : Prop := ∀ c ∈ s, c ∈ [' ', '\t', '\n', '\x0b', '\x0c', '\r']

/-- A word: not empty, no white space. -/
def Word (s : List Char) : Prop := s ≠ [] ∧ ∀ c ∈ s, c ∉ [' ', '\t', '\n', '\x0b', '\x0c', '\r']

/-- The nine columns of a line. -/
def columns (r : DirRow) : List (List Char) := [r.als, r.zaid, r.type, r.za, r.iso, r.aw, r.temp, r.bin, r.path]

/-- A text made of words, each preceded by white space (not empty except before the first word). -/
inductive Text : List (List Char) → List Char → Prop
  | nil : Text [] []
  | cons {b w ws t} : Blank b → Word w → Text ws t → (ws = [] ∨ ∃ c t', t = c :: t' ∧ Blank [c]) → Text (w :: ws) (b ++ w ++ t)

/-- A directory file with the lines `rows`, followed by the white space `tail` (a final newline, or nothing). -/
def DirFile (rows : List DirRow) (tail text : List Char) : Prop :=
  ∃ t, Text (rows.flatMap columns) t ∧ Blank tail ∧ text = t ++ tail

/-- The line describes neutron (type 1) or thermal scattering (type 3) data. -/
def Relevant (r : DirRow) : Prop := ∃ c l, r.type = c :: l ∧ (c = '1' ∨ c = '3')

/-- `kept` are the non-alias lines: a sub-list of the relevant lines in which every table identifier of a relevant line occurs exactly
once. -/
def NonAlias (rows kept : List DirRow) : Prop :=
  kept.Sublist rows ∧ (∀ r ∈ kept, Relevant r) ∧ (kept.map DirRow.zaid).Nodup ∧
    ∀ r ∈ rows, Relevant r → r.zaid ∈ kept.map DirRow.zaid

end PNDL.Spec
