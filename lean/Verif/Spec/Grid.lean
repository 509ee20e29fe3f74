import Mathlib.Data.Real.Basic

/-! The relation of a tabulation point to a position. -/
namespace PNDL.Spec

/-- No grid value lies strictly between `x` and the `i`-th grid value. -/
def Neighbour (grid : List ℝ) (x : ℝ) (i : Nat) : Prop :=
  ∃ g, grid[i]? = some g ∧ ∀ a ∈ grid, ¬ (g < a ∧ a < x) ∧ ¬ (x < a ∧ a < g)

end PNDL.Spec
