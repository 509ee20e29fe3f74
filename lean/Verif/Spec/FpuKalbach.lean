import Verif.Spec.Fpu

/-! What is asked of the library by the cosines of Kalbach-Mann data. -/
namespace PNDL.Spec
open PNDL

/-- Neither NaN nor below zero. -/
def Nonneg : Num → Prop
  | .fin x => 0 ≤ x
  | .inf s => s = false
  | .nan => False

/-- The square root is rounded correctly, as IEEE 754 demands, and is infinite for infinity; the logarithm of what is not negative is not NaN. -/
def IeeeLibrary (p : Fpu) (fl : ℝ → ℝ) : Prop :=
  (∀ x, 0 ≤ x → p.sqrt (.fin x) = .fin (fl (Real.sqrt x))) ∧ p.sqrt (.inf false) = .inf false ∧ ∀ a, Nonneg a → p.log a ≠ .nan

open Classical in
/-- Operations are rounded by `fl` and overflow to infinities. -/
def RoundsBy (p : Fpu) (fl : ℝ → ℝ) : Prop := IsRoundToNearest fl ∧ ∀ x, p.rnd x = if |x| < overflow64 then .fin (fl x) else .inf (decide (x < 0))

end PNDL.Spec
