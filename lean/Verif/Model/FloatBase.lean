import Verif.Model.FloatTab
import Verif.Model.Kalbach
import Verif.Model.Energy

/-! The outgoing energies of the unit-base laws in binary64 arithmetic: every operation rounded by `fl`, as in `Model/Float.lean`. -/
namespace PNDL

/-- The search for the incoming energies (src/tabular_energy.cpp:78-93, src/kalbach.cpp:85-100) in floating point: only the weight computes. -/
noncomputable def bracketInFl (fl : ℝ → ℝ) (grid : List ℝ) (E : ℝ) : Res (Nat × ℝ) := do
  let it := lowerBound grid E
  if it = 0 then .ok (0, 0)
  else if it = grid.length then do
    let l ← subIdx grid.length 2
    return (l, 1)
  else do
    let l ← subIdx it 1
    let e0 ← getAt grid l
    let e1 ← getAt grid (l + 1)
    let f ← rdivFl fl (fl (E - e0)) (fl (e1 - e0))
    return (l, f)

/-- `Emin` and `Emax`: `a + f * (b - a)` (src/tabular_energy.cpp:100-101, src/kalbach.cpp:107-108) in floating point. -/
noncomputable def endFl (fl : ℝ → ℝ) (f a b : ℝ) : ℝ := fl (a + fl (f * fl (b - a)))

/-- `Emin + ((E_hat - E_l_1) / (E_l_M - E_l_1)) * (Emax - Emin)` (src/tabular_energy.cpp:115, src/kalbach.cpp:127) in floating point. -/
noncomputable def scaleFl (fl : ℝ → ℝ) (lo hi a b x : ℝ) : Res ℝ := do
  let q ← rdivFl fl (fl (x - a)) (fl (b - a))
  return fl (lo + fl (q * fl (hi - lo)))

open Classical in
/-- The energy part shared by `TabularEnergy::sample_energy` (src/tabular_energy.cpp:75-118) and `Kalbach::sample_angle_energy`
(src/kalbach.cpp:82-127) in floating point: `tables` are the tables of outgoing energies, `x1`, `x2` the first two random numbers. -/
noncomputable def unitEnergyFl (fl : ℝ → ℝ) (grid : List ℝ) (tables : List PCTable) (E x1 x2 : ℝ) : Res ℝ := do
  let (l, f) ← bracketInFl fl grid E
  let t0 ← getAt tables l
  let t1 ← getAt tables (l + 1)
  let a0 ← t0.minValue
  let b0 ← t0.maxValue
  let a1 ← t1.minValue
  let b1 ← t1.maxValue
  let lo := endFl fl f a0 a1
  let hi := endFl fl f b0 b1
  if x1 > f then do
    let x ← t0.sampleFl fl x2
    scaleFl fl lo hi a0 b0 x
  else do
    let x ← t1.sampleFl fl x2
    scaleFl fl lo hi a1 b1 x

/-- `TabularEnergy::sample_energy` in floating point. -/
noncomputable def TabEnergy.sampleFl (fl : ℝ → ℝ) (d : TabEnergy) (E x1 x2 : ℝ) : Res ℝ := unitEnergyFl fl d.energy d.tables E x1 x2

/-- The energy of `Kalbach::sample_angle_energy` in floating point (`KalbachTable::sample_energy` is the same function of the same data as
`PCTable::sample_value`). -/
noncomputable def Kalbach.energyFl (fl : ℝ → ℝ) (d : Kalbach) (E x1 x2 : ℝ) : Res ℝ := unitEnergyFl fl d.energy (d.tables.map KalbachTable.toPC) E x1 x2

end PNDL
