import Verif.Model.PCTable

/-! What a tabulated distribution is. -/
namespace PNDL.Spec
open PNDL

/-- The probability of a cell `[v0, v1]` whose density is `p0` (histogram) or linear from `p0` to `p1`. -/
noncomputable def cellArea (r : Interpolation) (v0 v1 p0 p1 : ℝ) : ℝ :=
  if r = .histogram then (v1 - v0) * p0 else (v1 - v0) * (p0 + p1) / 2

/-- The facts the constructors check.  The tabulated cumulative is non-decreasing except that a last entry slightly above 1 was
replaced by 1; no entry before another is both larger than it and below 1. -/
structure ValidPC (t : PCTable) : Prop where
  rule : t.interp = .histogram ∨ t.interp = .linLin
  lenP : t.pdf.length = t.values.length
  lenC : t.cdf.length = t.values.length
  ne : t.values ≠ []
  values_sorted : t.values.Pairwise (· ≤ ·)
  cdf_sorted : ∀ (i j : Nat) (a b : ℝ), i ≤ j → t.cdf[i]? = some a → t.cdf[j]? = some b → min a 1 ≤ b
  cdf_last : t.cdf.getLast? = some 1
  pdf_nonneg : ∀ p ∈ t.pdf, 0 ≤ p

/-- The cumulative starts at 0 and its steps are the cell probabilities of the density. -/
structure ConsistentPC (t : PCTable) : Prop where
  start : t.cdf[0]? = some 0
  step : ∀ (i : Nat) (v0 v1 p0 p1 c0 c1 : ℝ), t.values[i]? = some v0 → t.values[i + 1]? = some v1 → t.pdf[i]? = some p0 →
    t.pdf[i + 1]? = some p1 → t.cdf[i]? = some c0 → t.cdf[i + 1]? = some c1 → c1 - c0 = cellArea t.interp v0 v1 p0 p1

/-- Weaker: the cumulative starts at 0 and no step exceeds the cell probability. -/
structure CoveredPC (t : PCTable) : Prop where
  start : t.cdf[0]? = some 0
  step : ∀ (i : Nat) (v0 v1 p0 p1 c0 c1 : ℝ), t.values[i]? = some v0 → t.values[i + 1]? = some v1 → t.pdf[i]? = some p0 →
    t.pdf[i + 1]? = some p1 → t.cdf[i]? = some c0 → t.cdf[i + 1]? = some c1 → c1 - c0 ≤ cellArea t.interp v0 v1 p0 p1

end PNDL.Spec
