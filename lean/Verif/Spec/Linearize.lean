import Verif.Model.Linearize

/-! Binary floating point numbers, and what a linearized table must satisfy. -/
namespace PNDL.Spec
open PNDL

/-- Finite binary floating point numbers with 53 bit significands and smallest positive number `2^-1074` (binary64 without
an upper bound on the exponent). -/
def IsDouble (r : ℝ) : Prop := ∃ (m : ℤ) (e : ℕ), |m| < 2 ^ 53 ∧ r = m * 2 ^ e * (2 : ℝ) ^ (-1074 : ℤ)

/-- `fl` rounds to nearest, with any rule for ties. -/
def IsRoundToNearest (fl : ℝ → ℝ) : Prop := ∀ r, IsDouble (fl r) ∧ ∀ d, IsDouble d → |fl r - r| ≤ |d - r|

/-- The abscissa operations in floating point arithmetic that does not overflow. -/
def floatOps (fl : ℝ → ℝ) : GridOps ℝ where
  adj a b := a = b ∨ ∀ d, IsDouble d → ¬ (min a b < d ∧ d < max a b)
  mid a b := fl (0.5 * fl (a + b))

/-- Exact real abscissae: there is a number between any two different ones. -/
noncomputable def exactOps : GridOps ℝ where
  adj a b := a = b
  mid a b := 0.5 * (a + b)

open Classical in
/-- Binary64 including overflow: a sum of magnitude at least `2^1024 - 2^970` rounds to an infinity, and infinities absorb.
(`∞ + -∞` does not arise from finite abscissae.) -/
noncomputable def overflowOps (fl : ℝ → ℝ) : GridOps EReal where
  adj a b := a = b ∨ ∀ d : ℝ, IsDouble d → ¬ (min a b < (d : EReal) ∧ (d : EReal) < max a b)
  mid a b :=
    if a = ⊤ ∨ b = ⊤ then ⊤
    else if a = ⊥ ∨ b = ⊥ then ⊥
    else if a.toReal + b.toReal ≥ 2 ^ 1024 - 2 ^ 970 then ⊤
    else if a.toReal + b.toReal ≤ -(2 ^ 1024 - 2 ^ 970) then ⊥
    else ((fl (0.5 * fl (a.toReal + b.toReal)) : ℝ) : EReal)

/-- What the result of linearizing `(ix, iy)` must satisfy. -/
structure Linearized {X : Type} [LinearOrder X] (ops : GridOps X) (f : X → ℝ) (tol : ℝ) (ix : List X) (iy : List ℝ) (x : List X)
    (y : List ℝ) : Prop where
  sameLength : x.length = y.length
  sorted : x.Pairwise (· ≤ ·)
  /-- the input points are all there, in order, with their values -/
  keeps : (ix.zip iy).Sublist (x.zip y)
  /-- every other point lies on `f` -/
  onF : ∀ p ∈ x.zip y, p ∈ ix.zip iy ∨ p.2 = f p.1
  /-- between neighbours that are not adjacent numbers, the chord meets the tolerance at the mid point -/
  close : ∀ (i : Nat) (a b : X) (ya yb : ℝ), x[i]? = some a → x[i + 1]? = some b → y[i]? = some ya → y[i + 1]? = some yb →
    ¬ ops.adj a b → |(ya + yb) / 2 - f (ops.mid a b)| ≤ tol * |f (ops.mid a b)|

end PNDL.Spec
