import Verif.Model.NucAce

/-! `EnergyGrid` as an object with its own history: the start of the unresolved region and re-hashing
(include/PapillonNDL/energy_grid.hpp, src/energy_grid.cpp). -/
namespace PNDL

/-- `class EnergyGrid` (energy_grid.hpp:138-142) with `urr_start_energy_`: `none` if it was never given a value. -/
structure EGridObj where
  grid : EGrid
  urrStart : Option ℝ

/-- `EnergyGrid(energy, NBINS)` (src/energy_grid.cpp:65-78): the initialisers leave `urr_start_energy_` without a value. -/
noncomputable def EGridObj.ofVector (energy : List ℝ) (nbins : Nat) : Res EGridObj := do
  let g ← EGrid.make energy nbins
  return ⟨g, none⟩

/-- `EnergyGrid(ace, NBINS)` (src/energy_grid.cpp:29-63). -/
noncomputable def EGridObj.ofFile (f : AceFile) (nbins : Nat) : Res EGridObj := do
  let es ← xssSlice f.xss f.esz f.ne
  let u ← (match f.lunr with
    | some l => getAt f.xss (l + 6)
    | none => .ok 50000 : Res ℝ)
  let g ← EGrid.makeAce es nbins
  return ⟨g, some u⟩

/-- `hash_energy_grid` called on an existing object (energy_grid.hpp:136, src/energy_grid.cpp:80-107). -/
noncomputable def EGridObj.rehash (o : EGridObj) (nbins : Nat) : Res EGridObj := do
  let g ← hashGrid o.grid.energy nbins
  return ⟨g, o.urrStart⟩

/-- `urr_min_energy` (energy_grid.hpp:97): reading a double that has no value is undefined behaviour. -/
def EGridObj.urrMinEnergy (o : EGridObj) : Res ℝ :=
  match o.urrStart with
  | some u => .ok u
  | none => .error .ub

open Classical in
/-- `has_urr` (energy_grid.hpp:103). -/
noncomputable def EGridObj.hasUrr (o : EGridObj) : Res Bool := do
  let u ← o.urrMinEnergy
  let m ← back o.grid.energy
  return decide (u < m)

/-- `STNeutron::energy_grid()` (st_neutron.hpp:83). -/
def Nuc.energyGrid (n : Nuc) : EGridObj := ⟨n.grid, some n.urrMin⟩

end PNDL
