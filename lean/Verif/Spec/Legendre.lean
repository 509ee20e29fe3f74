import Mathlib.Algebra.Polynomial.Derivative
import Mathlib.Algebra.Polynomial.Eval.Defs
import Mathlib.Data.Real.Basic

/-! The Legendre polynomials, defined by Bonnet's recursion. -/
namespace PNDL.Spec
open Polynomial

/-- `P₀ = 1`, `P₁ = X`, `(n+2) Pₙ₊₂ = (2n+3) X Pₙ₊₁ − (n+1) Pₙ`. -/
noncomputable def legPoly : Nat → ℝ[X]
  | 0 => 1
  | 1 => X
  | n + 2 => C (1 / ((n : ℝ) + 2)) * (C (2 * (n : ℝ) + 3) * X * legPoly (n + 1) - C ((n : ℝ) + 1) * legPoly n)

end PNDL.Spec
