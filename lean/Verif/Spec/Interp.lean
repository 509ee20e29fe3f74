import Verif.Model.Interp

/-! The domain on which each interpolation law is defined. -/
namespace PNDL.Spec
open PNDL

/-- Two numbers of the same strict sign. -/
def SameSign (a b : ℝ) : Prop := 0 < a ∧ 0 < b ∨ a < 0 ∧ b < 0

/-- Which end points an ENDF interpolation law may be applied to: increasing abscissae; abscissae of one strict sign where
`ln x` is used; ordinates of one strict sign where `ln y` is used. -/
structure Admissible (r : Interpolation) (x1 y1 x2 y2 : ℝ) : Prop where
  lt : x1 < x2
  logx : r = .linLog ∨ r = .logLog → SameSign x1 x2
  logy : r = .logLin ∨ r = .logLog → SameSign y1 y2

/-- The arguments at which the law can be evaluated: those with a logarithm when `ln x` is used. -/
def InDomainX (r : Interpolation) (x x1 : ℝ) : Prop := r = .linLog ∨ r = .logLog → SameSign x x1

/-- The ordinates which have a logarithm where needed. -/
def InDomainY (r : Interpolation) (y y1 : ℝ) : Prop := r = .logLin ∨ r = .logLog → SameSign y y1

/-- Data on which the closed-form integral formulas are exact: non-constant ordinates for LogLin, and for LogLog an exponent
either equal to −1 or further than 10⁻¹² from it. -/
def ExactIntegral (r : Interpolation) (x1 y1 x2 y2 : ℝ) : Prop :=
  (r = .logLin → y1 ≠ y2) ∧
  (r = .logLog → Real.log (y2 / y1) / Real.log (x2 / x1) = -1 ∨
    1 / 10 ^ 12 < |Real.log (y2 / y1) / Real.log (x2 / x1) - (-1)|)

end PNDL.Spec
