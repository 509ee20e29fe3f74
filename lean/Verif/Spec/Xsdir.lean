import Verif.Spec.AceText
import Verif.Model.Directory

/-! The layout of an MCNP directory file. -/
namespace PNDL.Spec

/-- A line of the file: its columns with the blanks before each, and the blanks at its end. -/
structure XsLine where
  cols : List (Nat × List Char)
  trail : Nat

def XsLine.text (l : XsLine) : List Char := wordsText l.cols l.trail

/-- The columns. -/
def XsLine.words (l : XsLine) : List (List Char) := l.cols.map Prod.snd

/-- Columns are separated by blanks and contain no blank and no line feed. -/
def XsLine.Wf (l : XsLine) : Prop := Words l.cols ∧ ∀ w ∈ l.words, '\n' ∉ w

/-- The file from the word `directory` on: that line, and the lines after it, each with a line feed before it. -/
def xsText (first : List Char) (ls : List XsLine) : List Char := first ++ ls.flatMap (fun l => '\n' :: l.text)

end PNDL.Spec
