import Mathlib.MeasureTheory.Measure.Lebesgue.Basic

/-! Cosines drawn from 32 equiprobable bins. -/
namespace PNDL
open MeasureTheory

/-- The law with density 1/32 on each of 33 windows of width 32/33; the window of the bound `b` number `j` reaches from `b - j/33` to `b + (32 - j)/33`. -/
noncomputable def Spec.windows (bounds : List ℝ) : Measure ℝ :=
  ∑ j ∈ Finset.range 33, ENNReal.ofReal (1 / 32) • volume.restrict (Set.Icc (bounds.getD j 0 - (j : ℝ) / 33) (bounds.getD j 0 + (32 - (j : ℝ)) / 33))

/-- The nearest number in `[-1, 1]`. -/
noncomputable def Spec.clipMu (x : ℝ) : ℝ := max (-1) (min 1 x)

/-- Bounds at the one distance for which the windows agree. -/
def Spec.Spaced (bounds : List ℝ) : Prop := ∃ b0 : ℝ, ∀ j : Nat, j < 33 → bounds[j]? = some (b0 + (j : ℝ) / 33)

end PNDL
