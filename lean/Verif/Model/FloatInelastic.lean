import Verif.Model.FloatThermal

/-! The inelastic thermal scattering laws in binary64 arithmetic: every operation rounded by `fl`, as in `Model/Float.lean`.  A draw
`static_cast<uint32_t>(n * rng())` is `drawFl`; the thresholds of a skewed law are computed as the code computes them. -/
namespace PNDL

open Classical in
/-- The index of the outgoing energy (src/discrete_cosines_energies.cpp:114-137) in floating point, and the new position on the tape. -/
noncomputable def DiscreteCE.pickFl (fl : ℝ → ℝ) (d : DiscreteCE) (ω : Tape) (k : Nat) : Res (Nat × Nat) := do
  if d.skewed = false then return (drawFl fl d.noe (ω k), k + 1)
  else do
    let c ← rdivFl fl 1 (fl (10 * fl ((d.noe : ℝ) - 3)))
    let xi := ω k
    if fl (5 * c) ≤ xi ∧ xi < fl (1 - fl (5 * c)) then do
      let _ ← subIdx d.noe 4
      return (drawSkewFl fl d.noe (ω (k + 1)), k + 2)
    else if xi < c then return (0, k + 1)
    else if c ≤ xi ∧ xi < fl (5 * c) then return (1, k + 1)
    else if fl (1 - fl (5 * c)) ≤ xi ∧ xi < fl (1 - c) then do
      let n ← subIdx d.noe 2
      return (n, k + 1)
    else do
      let n ← subIdx d.noe 1
      return (n, k + 1)

/-- `DiscreteCosinesEnergies::sample_angle_energy` (src/discrete_cosines_energies.cpp:109-167) in floating point. -/
noncomputable def DiscreteCE.sampleFl (fl : ℝ → ℝ) (d : DiscreteCE) (E : ℝ) (ω : Tape) (k : Nat) : Res (ℝ × ℝ × Nat) := do
  let m := drawFl fl d.nmu (ω k)
  let (j, k') ← d.pickFl fl ω (k + 1)
  let it := lowerBound d.energy E
  if it = 0 then do
    let t ← front d.out
    let (mu, e) ← discreteAt t j m
    return (mu, e, k')
  else if it = d.energy.length then do
    let t ← back d.out
    let (mu, e) ← discreteAt t j m
    return (mu, e, k')
  else do
    let i ← subIdx it 1
    let e0 ← getAt d.energy i
    let e1 ← getAt d.energy (i + 1)
    let f ← rdivFl fl (fl (E - e0)) (fl (e1 - e0))
    let t0 ← getAt d.out i
    let t1 ← getAt d.out (i + 1)
    let (mu0, x0) ← discreteAt t0 j m
    let (mu1, x1) ← discreteAt t1 j m
    return (clampMu (endFl fl f mu0 mu1), endFl fl f x0 x1, k')

open Classical in
/-- `CEDCTable::sample_energy(xi, j)` (src/continuous_energy_discrete_cosines.cpp:378-410) in floating point. -/
noncomputable def CEDCTable.sampleEnergyFl (fl : ℝ → ℝ) (t : CEDCTable) (xi : ℝ) : Res (ℝ × Nat) := do
  let it := lowerBound t.cdf xi
  let l ← (if it = 0 then .ok 0 else if it = t.cdf.length then subIdx t.energy.length 2 else subIdx it 1 : Res Nat)
  let p0 ← getAt t.pdf l
  let p1 ← getAt t.pdf (l + 1)
  let v0 ← getAt t.energy l
  let c0 ← getAt t.cdf l
  let v1 ← getAt t.energy (l + 1)
  let e ← (if p0 = p1 then histInterpFl fl xi v0 p0 c0 else linInterpFl fl xi v0 v1 p0 p1 c0 : Res ℝ)
  return (e, l)

/-- The cosine (src/continuous_energy_discrete_cosines.cpp:271-300, 344-373) in floating point. -/
noncomputable def CEDCTable.sampleMuFl (fl : ℝ → ℝ) (t : CEDCTable) (nmu j : Nat) (xi r1 r2 : ℝ) : Res ℝ := do
  let k := drawFl fl nmu r1
  let c0 ← getAt t.cdf j
  let c1 ← getAt t.cdf (j + 1)
  let f ← rdivFl fl (fl (xi - c0)) (fl (c1 - c0))
  let u ← getAt t.cosines j
  let v ← getAt t.cosines (j + 1)
  let mu ← smearFl fl u v f nmu k r2
  return clampMu mu

open Classical in
/-- `sample_with_unit_based_interpolation` (src/continuous_energy_discrete_cosines.cpp:222-303) in floating point. -/
noncomputable def ContinuousCE.sampleUnitFl (fl : ℝ → ℝ) (d : ContinuousCE) (E : ℝ) (ω : Tape) (k : Nat) : Res (ℝ × ℝ × Nat) := do
  let (l, f) ← bracketInFl fl d.energy E
  let t0 ← getAt d.tables l
  let t1 ← getAt d.tables (l + 1)
  let a0 ← front t0.energy
  let b0 ← back t0.energy
  let a1 ← front t1.energy
  let b1 ← back t1.energy
  let lo := endFl fl f a0 a1
  let hi := endFl fl f b0 b1
  let xi := ω k
  let (t, a, b) := if ω (k + 1) > f then (t0, a0, b0) else (t1, a1, b1)
  let (Eh, j) ← t.sampleEnergyFl fl xi
  let e ← scaleFl fl lo hi a b Eh
  let mu ← t.sampleMuFl fl d.nmu j xi (ω (k + 2)) (ω (k + 3))
  return (mu, e, k + 4)

open Classical in
/-- The outgoing energy from the one drawn (src/continuous_energy_discrete_cosines.cpp:338-342) in floating point. -/
noncomputable def plainOutFl (fl : ℝ → ℝ) (E Ei Eo : ℝ) : Res ℝ :=
  if Eo < fl (1 / 2 * Ei) then do
    let q ← rdivFl fl (fl (2 * E)) Ei
    return fl (Eo * fl (q - 1))
  else .ok (fl (Eo + fl (E - Ei)))

open Classical in
/-- `sample_without_unit_based_interpolation` (src/continuous_energy_discrete_cosines.cpp:305-376) in floating point. -/
noncomputable def ContinuousCE.samplePlainFl (fl : ℝ → ℝ) (d : ContinuousCE) (E : ℝ) (ω : Tape) (k : Nat) : Res (ℝ × ℝ × Nat) := do
  let (l, f) ← bracketInFl fl d.energy E
  let i := if f > 1 / 2 then l + 1 else l
  let t ← getAt d.tables i
  let (Eo, j) ← t.sampleEnergyFl fl (ω k)
  let Ei ← getAt d.energy i
  let Eout ← plainOutFl fl E Ei Eo
  let mu ← t.sampleMuFl fl d.nmu j (ω k) (ω (k + 1)) (ω (k + 2))
  return (mu, Eout, k + 3)

/-- `sample_angle_energy` (src/continuous_energy_discrete_cosines.cpp:214-220) in floating point. -/
noncomputable def ContinuousCE.sampleFl (fl : ℝ → ℝ) (d : ContinuousCE) (E : ℝ) (ω : Tape) (k : Nat) : Res (ℝ × ℝ × Nat) :=
  if d.unitBased = false then d.samplePlainFl fl E ω k else d.sampleUnitFl fl E ω k

end PNDL
