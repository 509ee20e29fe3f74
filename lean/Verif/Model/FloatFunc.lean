import Verif.Model.Func1D
import Verif.Model.CMDist
import Verif.Model.AceLaws
import Verif.Model.FloatKin

/-! Polynomials, inelastic levels and discrete photons in binary64 arithmetic: every operation rounded by `fl`, as in `Model/Float.lean`. -/
namespace PNDL

/-- Loop of `Polynomial1D::operator()` (src/polynomial_1d.cpp:30-37) in floating point. -/
noncomputable def polyLoopFl (fl : ℝ → ℝ) (x : ℝ) : List ℝ → ℝ → ℝ
  | [], value => value
  | c :: cs, value => polyLoopFl fl x cs (fl (fl (value * x) + c))

/-- `Polynomial1D::operator()` (src/polynomial_1d.cpp:30-37) in floating point. -/
noncomputable def polyEvalFl (fl : ℝ → ℝ) (coeffs : List ℝ) (x : ℝ) : ℝ := polyLoopFl fl x coeffs.reverse 0

/-- Loop of `Polynomial1D::integrate` (src/polynomial_1d.cpp:44-50) in floating point. -/
noncomputable def polyIntLoopFl (fl : ℝ → ℝ) (xlow xhi : ℝ) : List ℝ → ℝ → ℝ → ℝ → Res (ℝ × ℝ)
  | [], _, hi, low => .ok (hi, low)
  | c :: cs, e, hi, low => do
    let k ← rdivFl fl c e
    polyIntLoopFl fl xlow xhi cs (fl (e - 1)) (fl (fl (hi * xhi) + k)) (fl (fl (low * xlow) + k))

/-- `Polynomial1D::integrate` (src/polynomial_1d.cpp:39-56) in floating point; the conversion of the size to a double rounds too. -/
noncomputable def polyIntegrateFl (fl : ℝ → ℝ) (coeffs : List ℝ) (xlow xhi : ℝ) : Res ℝ := do
  let (hi, low) ← polyIntLoopFl fl xlow xhi coeffs.reverse (fl (coeffs.length : ℝ)) 0 0
  return fl (fl (hi * xhi) - fl (low * xlow))

open Classical in
/-- `LevelInelasticScatter(Q, AWR)` (src/level_inelastic_scatter.cpp:35-45) in floating point; `std::abs` is exact. -/
noncomputable def Level.makeFl (fl : ℝ → ℝ) (Q awr : ℝ) : Res Level := do
  if awr ≤ 0 then .error .exc
  else do
    let c1 ← rdivFl fl (fl (fl (awr + 1) * |Q|)) awr
    let tmp ← rdivFl fl awr (fl (awr + 1))
    return ⟨c1, fl (tmp * tmp)⟩

/-- `LevelInelasticScatter::sample_energy` (src/level_inelastic_scatter.cpp:47-50) in floating point. -/
noncomputable def Level.sampleFl (fl : ℝ → ℝ) (l : Level) (E : ℝ) (k : Nat) : Res (ℝ × Nat) := .ok (fl (l.c2 * fl (E - l.c1)), k)

/-- `DiscretePhoton::sample_energy` (discrete_photon.hpp:96-100) in floating point. -/
noncomputable def Photon.sampleFl (fl : ℝ → ℝ) (p : Photon) (E : ℝ) (k : Nat) : Res (ℝ × Nat) :=
  if p.lp = 0 ∨ p.lp = 1 then .ok (p.Eg, k)
  else do
    let q ← rdivFl fl p.A (fl (p.A + 1))
    return (fl (p.Eg + fl (q * E)), k)

end PNDL
