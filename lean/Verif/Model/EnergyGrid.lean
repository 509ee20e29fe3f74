import Verif.Model.Interp

/-! `EnergyGrid` (include/PapillonNDL/energy_grid.hpp, src/energy_grid.cpp). -/
namespace PNDL

/-- `static_cast<uint32_t>` of a natural number. -/
def u32 (n : Nat) : Nat := n % 2 ^ 32

/-- `class EnergyGrid` (energy_grid.hpp:139-142); the URR start energy plays no role in the look-up. -/
structure EGrid where
  energy : List ℝ
  ptrs : List Nat
  uMin : ℝ
  du : ℝ

/-- `lower_bound(...) - begin() - 1` stored in a `uint32_t` (src/energy_grid.cpp:99-105): `-1` becomes the largest value. -/
noncomputable def binPtr (energy : List ℝ) (E : ℝ) : Nat :=
  let l := lowerBound energy E
  if l = 0 then 2 ^ 32 - 1 else u32 (l - 1)

/-- The loop over the bins (src/energy_grid.cpp:96-106), `n` bins to go, `E` the current bound. -/
noncomputable def binLoop (energy : List ℝ) (du : ℝ) : Nat → ℝ → List Nat
  | 0, _ => []
  | n + 1, E =>
    let E' := E * Real.exp du
    binPtr energy E' :: binLoop energy du n E'

/-- `hash_energy_grid` (src/energy_grid.cpp:80-107).  The loop bound `NBINS + 1` is computed in `uint32_t`; bin 0 is pushed
before the loop. -/
noncomputable def hashGrid (energy : List ℝ) (nbins : Nat) : Res EGrid := do
  let e0 ← front energy
  let e1 ← back energy
  let uMin ← clog e0
  let uMax ← clog e1
  let du ← rdiv (uMax - uMin) (nbins : ℝ)
  return ⟨energy, 0 :: binLoop energy du (u32 (nbins + 1) - 1) e0, uMin, du⟩

open Classical in
/-- `EnergyGrid(energy, NBINS)` (src/energy_grid.cpp:65-78). -/
noncomputable def EGrid.make (energy : List ℝ) (nbins : Nat) : Res EGrid := do
  if isSorted energy = false then .error .exc
  else do
    let e0 ← front energy
    if e0 < 0 then .error .exc else hashGrid energy nbins

open Classical in
/-- The checks of `EnergyGrid(ace, NBINS)` (src/energy_grid.cpp:48-62) on the energies read from the file. -/
noncomputable def EGrid.makeAce (energy : List ℝ) (nbins : Nat) : Res EGrid := do
  if isSorted energy = false then .error .exc
  else do
    let e0 ← front energy
    if e0 ≤ 0 then .error .exc else hashGrid energy nbins

/-- The hashed search (energy_grid.hpp:120-129) in bin `bin`: undefined behaviour if the iterators are not in order inside
the grid. -/
noncomputable def EGrid.search (g : EGrid) (bin : Nat) (E : ℝ) : Res Nat := do
  let low ← getAt g.ptrs bin
  let p ← getAt g.ptrs (bin + 1)
  let hi := u32 (p + 1)
  if low ≤ hi ∧ hi ≤ g.energy.length then subIdx (lowerBoundRange g.energy low hi E) 1
  else .error .ub

open Classical in
/-- `get_lower_index` (energy_grid.hpp:110-130).  Converting a negative or too large double to `uint32_t` is undefined. -/
noncomputable def EGrid.lowerIndex (g : EGrid) (E : ℝ) : Res Nat := do
  let e0 ← front g.energy
  if E ≤ e0 then .ok 0
  else do
    let e1 ← back g.energy
    if E ≥ e1 then .ok (g.energy.length - 1)
    else do
      let lE ← clog E
      let q ← rdiv (lE - g.uMin) g.du
      if 0 ≤ q ∧ ⌊q⌋₊ < 2 ^ 32 then g.search ⌊q⌋₊ E else .error .ub

end PNDL
