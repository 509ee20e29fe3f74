import Verif.Model.Tab1D
import Verif.Model.Tape
import Verif.Model.EnergyGrid
import Verif.Model.CrossSection

/-! Mixtures of distributions: `MultipleDistribution` (src/multiple_distribution.cpp) and `SummedFissionSpectrum`
(src/summed_fission_spectrum.cpp). -/
namespace PNDL

/-- The interface `AngleEnergy` (angle_energy.hpp): sampling (cosine, energy, next tape position) and the two optional densities. -/
structure AE where
  sample : ℝ → Tape → Nat → Res (ℝ × ℝ × Nat)
  anglePdf : ℝ → ℝ → Res (Option ℝ)
  pdf : ℝ → ℝ → ℝ → Res (Option ℝ)

/-- `class MultipleDistribution`. -/
structure Multi where
  dists : List AE
  probs : List Tab1D

/-- The loop over the pointers (src/multiple_distribution.cpp:44-54): `none` is a null pointer. -/
def Multi.check : List (Option AE) → List (Option Tab1D) → Res (List AE × List Tab1D)
  | some d :: ds, some p :: ps => do
    let (a, b) ← Multi.check ds ps
    return (d :: a, p :: b)
  | [], [] => .ok ([], [])
  | _, _ => .error .exc

/-- `MultipleDistribution(distributions, probabilities)` (src/multiple_distribution.cpp:29-55). -/
def Multi.make (ds : List (Option AE)) (ps : List (Option Tab1D)) : Res Multi :=
  if ds.length ≠ ps.length then .error .exc
  else if ds.length ≤ 1 then .error .exc
  else do
    let (a, b) ← Multi.check ds ps
    return ⟨a, b⟩

open Classical in
/-- The selection loop of `sample_angle_energy` (src/multiple_distribution.cpp:62-67); `none` if it runs to its end. -/
noncomputable def Multi.select (E xi : ℝ) : List AE → List Tab1D → ℝ → Res (Option AE)
  | d :: ds, p :: ps, sum => do
    let w ← p.eval E
    if xi < sum + w then return some d else Multi.select E xi ds ps (sum + w)
  | [], _, _ => .ok none
  | _ :: _, [], _ => .error .ub

/-- `sample_angle_energy` (src/multiple_distribution.cpp:57-71). -/
noncomputable def Multi.sample (m : Multi) (E : ℝ) (ω : Tape) (k : Nat) : Res (ℝ × ℝ × Nat) := do
  let s ← Multi.select E (ω k) m.dists m.probs 0
  match s with
  | some d => d.sample E ω (k + 1)
  | none => do
    let d ← back m.dists
    d.sample E ω (k + 1)

/-- The loop shared by `angle_pdf` and `pdf` (src/multiple_distribution.cpp:75-86, 91-102); `f` is the density asked of a component. -/
noncomputable def Multi.mix (E : ℝ) (f : AE → Res (Option ℝ)) : List AE → List Tab1D → ℝ → Res (Option ℝ)
  | d :: ds, p :: ps, acc => do
    let v ← f d
    match v with
    | none => return none
    | some v => do
      let w ← p.eval E
      Multi.mix E f ds ps (acc + w * v)
  | [], _, acc => .ok (some acc)
  | _ :: _, [], _ => .error .ub

/-- `angle_pdf` (src/multiple_distribution.cpp:73-87). -/
noncomputable def Multi.anglePdf (m : Multi) (E mu : ℝ) : Res (Option ℝ) := Multi.mix E (fun d => d.anglePdf E mu) m.dists m.probs 0

/-- `pdf` (src/multiple_distribution.cpp:89-103). -/
noncomputable def Multi.pdf (m : Multi) (E mu Eout : ℝ) : Res (Option ℝ) := Multi.mix E (fun d => d.pdf E mu Eout) m.dists m.probs 0

/-- What `SummedFissionSpectrum` uses of a reaction. -/
structure FisPart where
  threshold : ℝ
  xs : XS ℝ
  dist : AE

/-- `class SummedFissionSpectrum` (summed_fission_spectrum.hpp); `grid` is the energy grid of the first reaction. -/
structure SFS where
  grid : EGrid
  r0 : FisPart
  r1 : FisPart
  r2 : FisPart
  r3 : FisPart

open Classical in
/-- `if (E_in > threshold) xs = …` (src/summed_fission_spectrum.cpp:58-61). -/
noncomputable def FisPart.at (r : FisPart) (E : ℝ) (i : Nat) : Res ℝ := if E > r.threshold then r.xs.evalIdx E i else .ok 0

/-- `compute_probabilities` (src/summed_fission_spectrum.cpp:50-69).  Dividing by a zero total gives NaN in C++, here the error
`nonfinite`. -/
noncomputable def SFS.probs (s : SFS) (E : ℝ) : Res (ℝ × ℝ × ℝ × ℝ) := do
  let i ← s.grid.lowerIndex E
  let x0 ← s.r0.at E i
  let x1 ← s.r1.at E i
  let x2 ← s.r2.at E i
  let x3 ← s.r3.at E i
  let tot := x0 + x1 + x2 + x3
  let p0 ← rdiv x0 tot
  let p1 ← rdiv x1 tot
  let p2 ← rdiv x2 tot
  let p3 ← rdiv x3 tot
  return (p0, p1, p2, p3)

open Classical in
/-- `sample_angle_energy` (src/summed_fission_spectrum.cpp:71-90). -/
noncomputable def SFS.sample (s : SFS) (E : ℝ) (ω : Tape) (k : Nat) : Res (ℝ × ℝ × Nat) := do
  let (p0, p1, p2, _) ← s.probs E
  let xi := ω k
  if xi < p0 then s.r0.dist.sample E ω (k + 1)
  else if xi < p0 + p1 then s.r1.dist.sample E ω (k + 1)
  else if xi < p0 + p1 + p2 then s.r2.dist.sample E ω (k + 1)
  else s.r3.dist.sample E ω (k + 1)

/-- One branch of the two densities (e.g. src/summed_fission_spectrum.cpp:101-106). -/
noncomputable def SFS.branch (p : ℝ) (f : Res (Option ℝ)) : Res (Option ℝ) := do
  let v ← f
  match v with
  | some v => return some (0 + p * v)
  | none => return none

open Classical in
/-- `angle_pdf` and `pdf` (src/summed_fission_spectrum.cpp:92-131, 133-172); `f` is the density asked of a component. -/
noncomputable def SFS.density (s : SFS) (E : ℝ) (f : AE → Res (Option ℝ)) : Res (Option ℝ) := do
  let (p0, p1, p2, p3) ← s.probs E
  if p0 > 0 then SFS.branch p0 (f s.r0.dist)
  else if p1 > 0 then SFS.branch p1 (f s.r1.dist)
  else if p2 > 0 then SFS.branch p2 (f s.r2.dist)
  else if p3 > 0 then SFS.branch p3 (f s.r3.dist)
  else .ok (some 0)

end PNDL
