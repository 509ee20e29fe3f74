import Verif.Model.Mixture
import Verif.Model.FloatPacket

/-! The choice of a component by `MultipleDistribution` and `SummedFissionSpectrum` in binary64 arithmetic: every operation rounded by `fl`, as
in `Model/Float.lean`. -/
namespace PNDL

open Classical in
/-- The selection loop of `sample_angle_energy` (src/multiple_distribution.cpp:62-67) in floating point; `ev p E` is what
`(*probabilities_[d])(E_in)` returns, a virtual call of `Function1D::operator()`. -/
noncomputable def Multi.selectFl (fl : ℝ → ℝ) (ev : Tab1D → ℝ → Res ℝ) (E xi : ℝ) : List AE → List Tab1D → ℝ → Res (Option AE)
  | d :: ds, p :: ps, sum => do
    let w ← ev p E
    if xi < fl (sum + w) then return some d else Multi.selectFl fl ev E xi ds ps (fl (sum + w))
  | [], _, _ => .ok none
  | _ :: _, [], _ => .error .ub

/-- `MultipleDistribution::sample_angle_energy` (src/multiple_distribution.cpp:57-71) in floating point; what the chosen distribution does with
the rest of the stream is left as it is. -/
noncomputable def Multi.sampleFl (fl : ℝ → ℝ) (ev : Tab1D → ℝ → Res ℝ) (m : Multi) (E : ℝ) (ω : Tape) (k : Nat) : Res (ℝ × ℝ × Nat) := do
  let s ← Multi.selectFl fl ev E (ω k) m.dists m.probs 0
  match s with
  | some d => d.sample E ω (k + 1)
  | none => do
    let d ← back m.dists
    d.sample E ω (k + 1)

open Classical in
/-- `if (E_in > threshold) xs = …` (src/summed_fission_spectrum.cpp:58-61) in floating point. -/
noncomputable def FisPart.atFl (fl : ℝ → ℝ) (r : FisPart) (E : ℝ) (i : Nat) : Res ℝ :=
  if E > r.threshold then r.xs.evalIdxFl fl E i else .ok 0

/-- `compute_probabilities` (src/summed_fission_spectrum.cpp:50-69) in floating point; dividing by a zero total is the error `nonfinite`. -/
noncomputable def SFS.probsFl (fl flog : ℝ → ℝ) (s : SFS) (E : ℝ) : Res (ℝ × ℝ × ℝ × ℝ) := do
  let i ← s.grid.lowerIndexFl fl flog E
  let x0 ← s.r0.atFl fl E i
  let x1 ← s.r1.atFl fl E i
  let x2 ← s.r2.atFl fl E i
  let x3 ← s.r3.atFl fl E i
  let tot := fl (fl (fl (x0 + x1) + x2) + x3)
  let p0 ← rdivFl fl x0 tot
  let p1 ← rdivFl fl x1 tot
  let p2 ← rdivFl fl x2 tot
  let p3 ← rdivFl fl x3 tot
  return (p0, p1, p2, p3)

open Classical in
/-- `SummedFissionSpectrum::sample_angle_energy` (src/summed_fission_spectrum.cpp:71-90) in floating point. -/
noncomputable def SFS.sampleFl (fl flog : ℝ → ℝ) (s : SFS) (E : ℝ) (ω : Tape) (k : Nat) : Res (ℝ × ℝ × Nat) := do
  let (p0, p1, p2, _) ← s.probsFl fl flog E
  let xi := ω k
  if xi < p0 then s.r0.dist.sample E ω (k + 1)
  else if xi < fl (p0 + p1) then s.r1.dist.sample E ω (k + 1)
  else if xi < fl (fl (p0 + p1) + p2) then s.r2.dist.sample E ω (k + 1)
  else s.r3.dist.sample E ω (k + 1)

end PNDL
