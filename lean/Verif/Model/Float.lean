import Verif.Model.CrossSection
import Verif.Model.EnergyGrid

/-! The places where the rounding of binary64 arithmetic matters, with every operation rounded by `fl`.  Overflow to infinity is not modelled,
and each operation is rounded separately (no fused multiply-add). -/
namespace PNDL

/-- `LinLin::interpolate` (interpolation.hpp:137-140) and the linear formula of `CrossSection` (cross_section.hpp:133, 162, 191), in floating
point. -/
noncomputable def linFl (fl : ℝ → ℝ) (x x1 y1 x2 y2 : ℝ) : Res ℝ := do
  let r ← cdiv (fl (x - x1)) (fl (x2 - x1))
  return fl (fl (fl r * fl (y2 - y1)) + y1)

/-- `CrossSection::operator()(double E)` (cross_section.hpp:104-134) with the linear formula as a parameter; nothing else in it computes. -/
noncomputable def XS.evalWith (lin : ℝ → ℝ → ℝ → ℝ → ℝ → Res ℝ) (s : XS ℝ) (E : ℝ) : Res ℝ :=
  if s.single then s.evalSingle E
  else do
    let et ← getAt s.grid s.index
    if E < et then .ok 0
    else do
      let emax ← back s.grid
      if E ≥ emax then back s.values
      else do
        let l := lowerBoundRange s.grid s.index s.grid.length E
        let v ← getAt s.grid l
        if E = v then getAt s.values (l - s.index)
        else do
          let i ← subIdx (l - s.index) 1
          let El ← getAt s.grid (s.index + i)
          let Eh ← getAt s.grid (s.index + i + 1)
          let sl ← getAt s.values i
          let sh ← getAt s.values (i + 1)
          lin E El Eh sl sh

/-- `CrossSection::operator()(double E)` in floating point. -/
noncomputable def XS.evalFl (fl : ℝ → ℝ) (s : XS ℝ) (E : ℝ) : Res ℝ := s.evalWith (fun E El Eh sl sh => linFl fl E El sl Eh sh) E

/-- The index `static_cast<uint32_t>(n * rng())` (st_incoherent_elastic_ace.hpp:81, discrete_cosines_energies.cpp:112, 115,
continuous_energy_discrete_cosines.cpp:273, 346) and `std::floor(n * xi)` (equiprobable_angle_bins.cpp:84). -/
noncomputable def drawFl (fl : ℝ → ℝ) (n : Nat) (xi : ℝ) : Nat := ⌊fl (n * xi)⌋₊

/-- The index `static_cast<uint32_t>((Noe - 4) * rng() + 2)` (discrete_cosines_energies.cpp:127). -/
noncomputable def drawSkewFl (fl : ℝ → ℝ) (n : Nat) (xi : ℝ) : Nat := ⌊fl (fl ((n - 4 : ℕ) * xi) + 2)⌋₊

/-- The loop over the bins (src/energy_grid.cpp:96-106) in floating point; `q` is the computed `std::exp(du)`. -/
noncomputable def binLoopFl (fl : ℝ → ℝ) (energy : List ℝ) (q : ℝ) : Nat → ℝ → List Nat
  | 0, _ => []
  | n + 1, E =>
    let E' := fl (E * q)
    binPtr energy E' :: binLoopFl fl energy q n E'

/-- `hash_energy_grid` (src/energy_grid.cpp:80-107) in floating point; `flog` and `fexp` are the library's `std::log` and `std::exp` on
positive, respectively finite, arguments. -/
noncomputable def hashGridFl (fl flog fexp : ℝ → ℝ) (energy : List ℝ) (nbins : Nat) : Res EGrid := do
  let e0 ← front energy
  let e1 ← back energy
  if e0 ≤ 0 ∨ e1 ≤ 0 then .error .nonfinite
  else do
    let uMin := flog e0
    let uMax := flog e1
    let d ← rdiv (fl (uMax - uMin)) (nbins : ℝ)
    let du := fl d
    return ⟨energy, 0 :: binLoopFl fl energy (fexp du) (u32 (nbins + 1) - 1) e0, uMin, du⟩

/-- `get_lower_index` (energy_grid.hpp:110-130) in floating point. -/
noncomputable def EGrid.lowerIndexFl (fl flog : ℝ → ℝ) (g : EGrid) (E : ℝ) : Res Nat := do
  let e0 ← front g.energy
  if E ≤ e0 then .ok 0
  else do
    let e1 ← back g.energy
    if E ≥ e1 then .ok (g.energy.length - 1)
    else do
      let q ← rdiv (fl (flog E - g.uMin)) g.du
      if 0 ≤ fl q ∧ ⌊fl q⌋₊ < 2 ^ 32 then g.search ⌊fl q⌋₊ E else .error .ub

end PNDL
