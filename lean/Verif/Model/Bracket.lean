import Verif.Model.Interp

/-! The search for the two incoming energies around `E_in`, repeated in TabularEnergy (src/tabular_energy.cpp:78-93, 122-137),
Kalbach (src/kalbach.cpp), TabularEnergyAngle (src/tabular_energy_angle.cpp) and the thermal scattering laws. -/
namespace PNDL

/-- Index `l` of the lower table and weight `f` of the upper one.  `size() - 2` is computed in `size_t`; below two energies it
wraps to an index no vector has (`subIdx`). -/
noncomputable def bracketIn (grid : List ℝ) (E : ℝ) : Res (Nat × ℝ) := do
  let it := lowerBound grid E
  if it = 0 then .ok (0, 0)
  else if it = grid.length then do
    let l ← subIdx grid.length 2
    return (l, 1)
  else do
    let l ← subIdx it 1
    let e0 ← getAt grid l
    let e1 ← getAt grid (l + 1)
    let f ← rdiv (E - e0) (e1 - e0)
    return (l, f)

end PNDL
