import Verif.Model.FloatBase

/-! Tabulated energy-angle distributions in binary64 arithmetic: every operation rounded by `fl`, as in `Model/Float.lean`. -/
namespace PNDL

open Classical in
/-- `EnergyAngleTable::sample_angle_energy(rng)` (energy_angle_table.hpp:75-104, 210-219) in floating point. -/
noncomputable def EATable.sampleFl (fl : ℝ → ℝ) (t : EATable) (ω : Tape) (k : Nat) : Res (ℝ × ℝ × Nat) := do
  let xi := ω k
  let l ← subIdx (lowerBound t.cdf xi) 1
  let p0 ← getAt t.pdf l
  let flat ← (if t.interp = .histogram then .ok true else do
    let p1 ← getAt t.pdf (l + 1)
    return decide (p0 = p1) : Res Bool)
  let v0 ← getAt t.energy l
  let c0 ← getAt t.cdf l
  if flat then do
    let E ← histInterpFl fl xi v0 p0 c0
    let a ← getAt t.angles l
    let mu ← a.sampleFl fl (ω (k + 1))
    return (clampMu mu, E, k + 2)
  else do
    let p1 ← getAt t.pdf (l + 1)
    let v1 ← getAt t.energy (l + 1)
    let E ← linInterpFl fl xi v0 v1 p0 p1 c0
    let c1 ← getAt t.cdf (l + 1)
    let f ← rdivFl fl (fl (xi - c0)) (fl (c1 - c0))
    let a ← (if f < 1 / 2 then getAt t.angles l else getAt t.angles (l + 1) : Res PCTable)
    let mu ← a.sampleFl fl (ω (k + 1))
    return (clampMu mu, E, k + 2)

open Classical in
/-- `TabularEnergyAngle::sample_angle_energy` (src/tabular_energy_angle.cpp:84-134) in floating point. -/
noncomputable def TabEnergyAngle.sampleFl (fl : ℝ → ℝ) (d : TabEnergyAngle) (E : ℝ) (ω : Tape) (k : Nat) : Res (ℝ × ℝ × Nat) := do
  let (l, f) ← bracketInFl fl d.energy E
  let t0 ← getAt d.tables l
  let t1 ← getAt d.tables (l + 1)
  let a0 ← t0.minEnergy
  let b0 ← t0.maxEnergy
  let a1 ← t1.minEnergy
  let b1 ← t1.maxEnergy
  let lo := endFl fl f a0 a1
  let hi := endFl fl f b0 b1
  if ω k > f then do
    let (mu, x, k') ← t0.sampleFl fl ω (k + 1)
    let e ← scaleFl fl lo hi a0 b0 x
    return (mu, e, k')
  else do
    let (mu, x, k') ← t1.sampleFl fl ω (k + 1)
    let e ← scaleFl fl lo hi a1 b1 x
    return (mu, e, k')

end PNDL
