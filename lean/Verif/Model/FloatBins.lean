import Verif.Model.Angle
import Verif.Model.Energy
import Verif.Model.FloatTab

/-! Equiprobable bins and the angular distributions in binary64 arithmetic: every operation rounded by `fl`, as in `Model/Float.lean`. -/
namespace PNDL

/-- `EquiprobableEnergyBins::sample_bins(xi1, xi2, bounds)` (src/equiprobable_energy_bins.cpp:143-148) in floating point. -/
noncomputable def sampleBinsFl (fl : ℝ → ℝ) (xi1 xi2 : ℝ) (bounds : List ℝ) : Res ℝ := do
  let bin := drawFl fl bounds.length xi1
  let hi ← getAt bounds (bin + 1)
  let lo ← getAt bounds bin
  return fl (fl (fl (hi - lo) * xi2) + lo)

open Classical in
/-- `EquiprobableEnergyBins::sample_energy` (src/equiprobable_energy_bins.cpp:96-119) in floating point; `swap` as in Model/Energy.lean. -/
noncomputable def EnergyBins.sampleFl (fl : ℝ → ℝ) (d : EnergyBins) (swap : Bool) (E : ℝ) (ω : Tape) (k : Nat) : Res (ℝ × Nat) := do
  let it := lowerBound d.energy E
  let go := fun (k : Nat) (b : List ℝ) => (do
    let v ← (if swap then sampleBinsFl fl (ω (k + 1)) (ω k) b else sampleBinsFl fl (ω k) (ω (k + 1)) b : Res ℝ)
    return (v, k + 2) : Res (ℝ × Nat))
  if it = 0 then do let b ← front d.bins; go k b
  else if it = d.energy.length then do let b ← back d.bins; go k b
  else do
    let l ← subIdx it 1
    let e0 ← getAt d.energy l
    let e1 ← getAt d.energy (l + 1)
    let f ← rdivFl fl (fl (E - e0)) (fl (e1 - e0))
    if ω k > f then do let b ← getAt d.bins l; go (k + 1) b
    else do let b ← getAt d.bins (l + 1); go (k + 1) b

/-- `GeneralEvaporation::sample_energy` (src/general_evaporation.cpp:85-95) in floating point; `temp` is what `(*temperature_)(E_in)` returns. -/
noncomputable def genEvapSampleFl (fl : ℝ → ℝ) (temp : Res ℝ) (bounds : List ℝ) (ω : Tape) (k : Nat) : Res (ℝ × Nat) := do
  let T ← temp
  let chi ← sampleBinsFl fl (ω k) (ω (k + 1)) bounds
  return (fl (chi * T), k + 2)

/-- `Isotropic::sample_mu` (src/isotropic.cpp:29-33) in floating point. -/
noncomputable def isoSampleFl (fl : ℝ → ℝ) (ω : Tape) (k : Nat) : Res (ℝ × Nat) := .ok (clampMu (fl (fl (2 * ω k) - 1)), k + 1)

/-- `EquiprobableAngleBins::sample_mu` (src/equiprobable_angle_bins.cpp:80-93) in floating point. -/
noncomputable def binsSampleFl (fl : ℝ → ℝ) (bounds : List ℝ) (ω : Tape) (k : Nat) : Res (ℝ × Nat) := do
  let xi := ω k
  let bin := if drawFl fl 33 xi = 33 then drawFl fl 33 xi - 1 else drawFl fl 33 xi
  let Cb := fl ((bin : ℝ) * (1 / 32))
  let muLow ← getAt bounds bin
  return (clampMu (fl (fl (fl (xi - Cb) / (1 / 32)) + muLow)), k + 1)

/-- `AngleTable::sample_mu` (src/angle_table.cpp:115-119) in floating point. -/
noncomputable def angleTableSampleFl (fl : ℝ → ℝ) (t : PCTable) (ω : Tape) (k : Nat) : Res (ℝ × Nat) := do
  let mu ← t.sampleFl fl (ω k)
  return (clampMu mu, k + 1)

open Classical in
/-- `Legendre::sample_mu` (src/legendre.cpp:120-130) in floating point; `accept s mu` is the computed `pdf(mu) / pdf_max_`, whatever it is. -/
noncomputable def Legendre.sampleFl (fl : ℝ → ℝ) (accept : Legendre → ℝ → ℝ) (s : Legendre) (ω : Tape) : Nat → Nat → Res (ℝ × Nat)
  | 0, _ => .error .diverge
  | fuel + 1, k =>
    let mu := fl (fl (2 * ω k) - 1)
    if ω (k + 1) < accept s mu then .ok (mu, k + 2) else s.sampleFl fl accept ω fuel (k + 2)

/-- The virtual call `sample_mu` (angle_law.hpp) in floating point. -/
noncomputable def AngleLaw.sampleFl (fl : ℝ → ℝ) (accept : Legendre → ℝ → ℝ) (fuel : Nat) (law : AngleLaw) (ω : Tape) (k : Nat) : Res (ℝ × Nat) :=
  match law with
  | .isotropic => isoSampleFl fl ω k
  | .bins b => binsSampleFl fl b ω k
  | .table t => angleTableSampleFl fl t ω k
  | .legendre s => s.sampleFl fl accept ω fuel k

open Classical in
/-- `AngleDistribution::sample_angle` (src/angle_distribution.cpp:116-140) in floating point. -/
noncomputable def AngleDist.sampleFl (fl : ℝ → ℝ) (accept : Legendre → ℝ → ℝ) (d : AngleDist) (fuel : Nat) (E : ℝ) (ω : Tape) (k : Nat) :
    Res (ℝ × Nat) := do
  let it := lowerBound d.energy E
  if it = 0 then do let a ← front d.laws; a.sampleFl fl accept fuel ω k
  else if it = d.energy.length then do let a ← back d.laws; a.sampleFl fl accept fuel ω k
  else do
    let l ← subIdx it 1
    let e0 ← getAt d.energy l
    let e1 ← getAt d.energy (l + 1)
    let f ← rdivFl fl (fl (E - e0)) (fl (e1 - e0))
    let (mu, k') ← (if ω k > f then do let a ← getAt d.laws l; a.sampleFl fl accept fuel ω (k + 1)
      else do let a ← getAt d.laws (l + 1); a.sampleFl fl accept fuel ω (k + 1) : Res (ℝ × Nat))
    return (clampMu mu, k')

end PNDL
