import Verif.Model.PCTable
import Verif.Model.Tab1D
import Verif.Model.Tape
import Verif.Model.Bracket
import Mathlib.Analysis.SpecialFunctions.Trigonometric.Basic
import Mathlib.MeasureTheory.Integral.IntervalIntegral.Basic

/-! The outgoing energy laws. -/
namespace PNDL

/-! ### Equiprobable bins -/

/-- `EquiprobableEnergyBins::sample_bins(xi1, xi2, bounds)` (src/equiprobable_energy_bins.cpp:143-148). -/
noncomputable def sampleBins (xi1 xi2 : ℝ) (bounds : List ℝ) : Res ℝ := do
  let bin := ⌊(bounds.length : ℝ) * xi1⌋₊
  let hi ← getAt bounds (bin + 1)
  let lo ← getAt bounds bin
  return (hi - lo) * xi2 + lo

/-- `class EquiprobableEnergyBins`. -/
structure EnergyBins where
  energy : List ℝ
  bins : List (List ℝ)

/-- `EquiprobableEnergyBins(incoming_energy, bin_bounds)` (src/equiprobable_energy_bins.cpp:71-94). -/
noncomputable def EnergyBins.make (energy : List ℝ) (bins : List (List ℝ)) : Res EnergyBins :=
  if isSorted energy = false then .error .exc
  else if energy.length ≠ bins.length then .error .exc
  else if bins.any (fun b => !isSorted b) then .error .exc
  else .ok ⟨energy, bins⟩

open Classical in
/-- `EquiprobableEnergyBins::sample_energy` (src/equiprobable_energy_bins.cpp:96-119).  The two calls of `rng()` that are arguments
of `sample_bins` may be evaluated in either order (`swap`). -/
noncomputable def EnergyBins.sample (d : EnergyBins) (swap : Bool) (E : ℝ) (ω : Tape) (k : Nat) : Res (ℝ × Nat) := do
  let it := lowerBound d.energy E
  let go := fun (k : Nat) (b : List ℝ) => (do
    let v ← (if swap then sampleBins (ω (k + 1)) (ω k) b else sampleBins (ω k) (ω (k + 1)) b : Res ℝ)
    return (v, k + 2) : Res (ℝ × Nat))
  if it = 0 then do let b ← front d.bins; go k b
  else if it = d.energy.length then do let b ← back d.bins; go k b
  else do
    let l ← subIdx it 1
    let e0 ← getAt d.energy l
    let e1 ← getAt d.energy (l + 1)
    let f ← rdiv (E - e0) (e1 - e0)
    if ω k > f then do let b ← getAt d.bins l; go (k + 1) b
    else do let b ← getAt d.bins (l + 1); go (k + 1) b

/-- `GeneralEvaporation::sample_energy` (src/general_evaporation.cpp:85-95). -/
noncomputable def genEvapSample (temp : Tab1D) (bounds : List ℝ) (E : ℝ) (ω : Tape) (k : Nat) : Res (ℝ × Nat) := do
  let T ← temp.eval E
  let chi ← sampleBins (ω k) (ω (k + 1)) bounds
  return (chi * T, k + 2)

/-! ### Tabulated outgoing energies -/

/-- `class TabularEnergy`. -/
structure TabEnergy where
  energy : List ℝ
  tables : List PCTable

/-- `TabularEnergy(incoming_energy, tables)` (src/tabular_energy.cpp:59-73). -/
noncomputable def TabEnergy.make (energy : List ℝ) (tables : List PCTable) : Res TabEnergy :=
  if isSorted energy = false then .error .exc
  else if energy.length ≠ tables.length then .error .exc
  else .ok ⟨energy, tables⟩

open Classical in
/-- `TabularEnergy::sample_energy` (src/tabular_energy.cpp:75-118). -/
noncomputable def TabEnergy.sample (d : TabEnergy) (E : ℝ) (ω : Tape) (k : Nat) : Res (ℝ × Nat) := do
  let (l, f) ← bracketIn d.energy E
  let t0 ← getAt d.tables l
  let t1 ← getAt d.tables (l + 1)
  let mn0 ← t0.minValue
  let mx0 ← t0.maxValue
  let mn1 ← t1.minValue
  let mx1 ← t1.maxValue
  let Emin := mn0 + f * (mn1 - mn0)
  let Emax := mx0 + f * (mx1 - mx0)
  let (Eh, a, b) ← (if ω k > f then do let e ← t0.sample (ω (k + 1)); return (e, mn0, mx0)
    else do let e ← t1.sample (ω (k + 1)); return (e, mn1, mx1) : Res (ℝ × ℝ × ℝ))
  let q ← rdiv (Eh - a) (b - a)
  return (Emin + q * (Emax - Emin), k + 2)

/-- `TabularEnergy::pdf` (src/tabular_energy.cpp:120-166). -/
noncomputable def TabEnergy.pdfAt (d : TabEnergy) (E Eout : ℝ) : Res ℝ := do
  let (l, f) ← bracketIn d.energy E
  let t0 ← getAt d.tables l
  let t1 ← getAt d.tables (l + 1)
  let mn0 ← t0.minValue
  let mx0 ← t0.maxValue
  let mn1 ← t1.minValue
  let mx1 ← t1.maxValue
  let Emin := mn0 + f * (mn1 - mn0)
  let Emax := mx0 + f * (mx1 - mx0)
  let u ← rdiv (Eout - Emin) (Emax - Emin)
  let p0 ← t0.pdfAt (u * (mx0 - mn0) + mn0)
  let p1 ← t1.pdfAt (u * (mx1 - mn1) + mn1)
  return (1 - f) * p0 + f * p1

/-! ### Rejection-sampled spectra -/

open Classical in
/-- The acceptance loop shared by Maxwellian, Evaporation and Watt (src/maxwellian.cpp:80-90, src/evaporation.cpp:78-88,
src/watt.cpp:116-128): `cand k` is the candidate made from the draws at `k, …, k+n-1`, an error standing for a non-finite
double, for which the comparisons `E_out >= 0 && E_out <= du` are false. -/
noncomputable def rejLoop (cand : Nat → Res ℝ) (n : Nat) (du : ℝ) : Nat → Nat → Res (ℝ × Nat)
  | 0, _ => .error .diverge
  | fuel + 1, k =>
    match cand k with
    | .ok e => if e ≥ 0 ∧ e ≤ du then .ok (e, k + n) else rejLoop cand n du fuel (k + n)
    | .error _ => rejLoop cand n du fuel (k + n)

/-- Candidate of `Maxwellian::sample_energy` (src/maxwellian.cpp:81-87). -/
noncomputable def maxwellCand (T : ℝ) (ω : Tape) (k : Nat) : Res ℝ := do
  let c := Real.cos (Real.pi * ω (k + 2) / 2)
  let l1 ← clog (ω k)
  let l2 ← clog (ω (k + 1))
  return -T * (l1 + l2 * c * c)

/-- `Maxwellian::sample_energy` (src/maxwellian.cpp:71-93). -/
noncomputable def maxwellSample (temp : Tab1D) (U : ℝ) (fuel : Nat) (E : ℝ) (ω : Tape) (k : Nat) : Res (ℝ × Nat) := do
  let T ← temp.eval E
  rejLoop (maxwellCand T ω) 3 (E - U) fuel k

open Classical in
/-- `g = 1 - exp(-w)` with `w = du / T` (src/evaporation.cpp:82-83).  At temperature zero `w` is infinite and `g` is one; for `du <= 0` no
candidate is then a number that could be accepted. -/
noncomputable def evapG (T du : ℝ) : Res ℝ :=
  if T = 0 then (if 0 < du then .ok 1 else .error .nonfinite) else .ok (1 - Real.exp (-(du / T)))

/-- Candidate of `Evaporation::sample_energy` (src/evaporation.cpp:79-85). -/
noncomputable def evapCand (T du : ℝ) (ω : Tape) (k : Nat) : Res ℝ := do
  let g ← evapG T du
  let l ← clog ((1 - g * ω k) * (1 - g * ω (k + 1)))
  return -T * l

/-- `Evaporation::sample_energy` (src/evaporation.cpp:69-91). -/
noncomputable def evapSample (temp : Tab1D) (U : ℝ) (fuel : Nat) (E : ℝ) (ω : Tape) (k : Nat) : Res (ℝ × Nat) := do
  let T ← temp.eval E
  rejLoop (evapCand T (E - U) ω) 2 (E - U) fuel k

/-- Candidate of `Watt::sample_energy` (src/watt.cpp:117-125). -/
noncomputable def wattCand (a b : ℝ) (ω : Tape) (k : Nat) : Res ℝ := do
  let c := Real.cos (Real.pi * ω (k + 2) / 2)
  let l1 ← clog (ω k)
  let l2 ← clog (ω (k + 1))
  let w := -a * (l1 + l2 * c * c)
  let s ← csqrt (a * a * b * w)
  return w + 0.25 * a * a * b + (2 * ω (k + 3) - 1) * s

/-- `Watt::sample_energy` (src/watt.cpp:104-131). -/
noncomputable def wattSample (ta tb : Tab1D) (U : ℝ) (fuel : Nat) (E : ℝ) (ω : Tape) (k : Nat) : Res (ℝ × Nat) := do
  let a ← ta.eval E
  let b ← tb.eval E
  rejLoop (wattCand a b ω) 4 (E - U) fuel k

/-- `std::erf`. -/
noncomputable def erf (x : ℝ) : ℝ := 2 / Real.sqrt Real.pi * ∫ t in (0 : ℝ)..x, Real.exp (-t ^ 2)

open Classical in
/-- `Maxwellian::pdf` (src/maxwellian.cpp:95-103). -/
noncomputable def maxwellPdf (temp : Tab1D) (U E Eout : ℝ) : Res ℝ := do
  let du := E - U
  if Eout < 0 ∨ Eout > du then .ok 0
  else do
    let T ← temp.eval E
    let p ← cpow T (3 / 2)
    let q ← rdiv du T
    let s ← csqrt q
    let I := p * ((Real.sqrt Real.pi / 2) * erf q - s * Real.exp (-q))
    let so ← csqrt Eout
    let r ← rdiv so I
    let x ← rdiv (-Eout) T
    return r * Real.exp x

open Classical in
/-- `Evaporation::pdf` (src/evaporation.cpp:93-100). -/
noncomputable def evapPdf (temp : Tab1D) (U E Eout : ℝ) : Res ℝ := do
  let du := E - U
  if Eout < 0 ∨ Eout > du then .ok 0
  else do
    let T ← temp.eval E
    let q ← rdiv du T
    let I := T * T * (1 - Real.exp (-q) * (1 + q))
    let r ← rdiv Eout I
    let x ← rdiv (-Eout) T
    return r * Real.exp x

open Classical in
/-- `Watt::pdf` (src/watt.cpp:133-144). -/
noncomputable def wattPdf (ta tb : Tab1D) (U E Eout : ℝ) : Res ℝ := do
  let du := E - U
  if Eout < 0 ∨ Eout > du then .ok 0
  else do
    let a ← ta.eval E
    let b ← tb.eval E
    let s0 ← csqrt (Real.pi * a * a * a * b / 4)
    let I0 := 0.5 * s0 * Real.exp (a * b / 4)
    let q ← rdiv du a
    let s1 ← csqrt q
    let s2 ← csqrt (a * b / 4)
    let s3 ← csqrt (b * du)
    let I := I0 * (erf (s1 - s2) + erf (s1 + s2)) - a * Real.exp (-q) * Real.sinh s3
    let x ← rdiv (-Eout) a
    let r ← rdiv (Real.exp x) I
    let s4 ← csqrt (b * Eout)
    return r * Real.sinh s4

/-! ### N-body phase space -/

/-- `class NBody`. -/
structure NBody where
  n : Nat
  Ap : ℝ
  A : ℝ
  Q : ℝ

open Classical in
/-- `NBody(n, Ap, AWR, Q)` (src/nbody.cpp:60-78). -/
noncomputable def NBody.make (n : Nat) (Ap A Q : ℝ) : Res NBody :=
  if n ≠ 3 ∧ n ≠ 4 ∧ n ≠ 5 then .error .exc
  else if Ap ≤ 0 then .error .exc
  else if A ≤ 0 then .error .exc
  else .ok ⟨n, Ap, A, Q⟩

/-- `maxwellian_spectrum` (src/nbody.cpp:107-110); draws in the order of the text. -/
noncomputable def maxwellianSpectrum (ω : Tape) (k : Nat) : Res ℝ := do
  let a := Real.pi * ω k / 2
  let l1 ← clog (ω (k + 1))
  let l2 ← clog (ω (k + 2))
  return -(l1 + l2 * Real.cos a * Real.cos a)

/-- `Emax` (src/nbody.cpp:82). -/
noncomputable def NBody.emax (d : NBody) (E : ℝ) : ℝ := (d.Ap - 1) / d.Ap * (d.A / (d.A + 1) * E + d.Q)

/-- `NBody::sample_angle_energy` (src/nbody.cpp:80-105): cosine, energy, next draw.  C++ does not fix the order of the draws within
one expression; they are taken in the order of the text. -/
noncomputable def NBody.sample (d : NBody) (E : ℝ) (ω : Tape) (k : Nat) : Res (ℝ × ℝ × Nat) := do
  let x ← maxwellianSpectrum ω k
  let k := k + 3
  let (y, k) ← (
    if d.n = 3 then do let y ← maxwellianSpectrum ω k; return (y, k + 3)
    else if d.n = 4 then do let l ← clog (ω k * ω (k + 1) * ω (k + 2)); return (-l, k + 3)
    else if d.n = 5 then do
      let l1 ← clog (ω k * ω (k + 1) * ω (k + 2) * ω (k + 3))
      let l2 ← clog (ω (k + 4))
      return (-l1 - l2 * Real.cos (0.5 * Real.pi * ω (k + 5)) ^ 2, k + 6)
    else .ok (0, k) : Res (ℝ × Nat))
  let q ← rdiv x (x + y)
  return (2 * ω k - 1, q * d.emax E, k + 1)

/-- `NBody::pdf` (src/nbody.cpp:117-139). -/
noncomputable def NBody.pdf (d : NBody) (E Eout : ℝ) : Res ℝ := do
  let Em := d.emax E
  let C ← (
    if d.n = 3 then rdiv 4 (Real.pi * Em * Em)
    else if d.n = 4 then do let p ← cpow Em (7 / 2); rdiv 105 (32 * p)
    else if d.n = 5 then do let p ← cpow Em 5; rdiv 256 (14 * Real.pi * p)
    else .ok 0 : Res ℝ)
  let s ← csqrt Eout
  let p ← cpow (Em - Eout) (3 * (d.n : ℝ) / 2 - 4)
  return C * s * p

end PNDL
