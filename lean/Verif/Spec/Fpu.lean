import Verif.Model.Fpu
import Verif.Spec.Linearize

/-! What is asked of a floating point unit. -/
namespace PNDL.Spec
open PNDL

/-- Half-way between the largest finite binary64 number and `2^1024`: exact results from here on overflow. -/
def overflow64 : ℝ := 2 ^ 1024 - 2 ^ 970

/-- A finite binary64 number. -/
def IsFinite64 (x : ℝ) : Prop := IsDouble x ∧ |x| < overflow64

open Classical in
/-- Operations are rounded to nearest binary64 numbers, with any rule for ties, and overflow to infinities. -/
def Binary64 (p : Fpu) : Prop :=
  ∃ fl, IsRoundToNearest fl ∧ ∀ x, p.rnd x = if |x| < overflow64 then .fin (fl x) else .inf (decide (x < 0))

/-- The only thing asked of the library: the logarithm of a number between zero and one is not positive (minus infinity, or NaN, will do), and
a square is not negative. -/
def SaneLibrary (p : Fpu) : Prop :=
  (∀ x, 0 ≤ x → x ≤ 1 → p.log (.fin x) = .nan ∨ Num.le (p.log (.fin x)) (.fin 0)) ∧ ∀ a, p.square a = .nan ∨ Num.le (.fin 0) (p.square a)

end PNDL.Spec
