import Verif.Model.PCTable
import Verif.Model.Tape
import Verif.Model.Bracket
import Mathlib.Analysis.SpecialFunctions.Trigonometric.Deriv
import Mathlib.Analysis.SpecialFunctions.Trigonometric.DerivHyp

/-! Correlated angle-energy tables: `KalbachTable`, `Kalbach`, `EnergyAngleTable`, `TabularEnergyAngle`. -/
namespace PNDL

/-! ### Code shared (textually) by `KalbachTable` and `EnergyAngleTable` -/

open Classical in
/-- The tests shared by the constructors of `KalbachTable` (src/kalbach_table.cpp:47-88, 112-144) and `EnergyAngleTable`
(src/energy_angle_table.cpp:46-88, 125-157).  Returns the cumulative with its last entry replaced. -/
noncomputable def checkJoint (energy pdf cdf : List ℝ) : Res (List ℝ) := do
  if isSorted energy = false then .error .exc
  else if isSorted cdf = false then .error .exc
  else do
    let c0 ← getAt cdf 0
    if c0 ≠ 0 then .error .exc
    else do
      let last ← back cdf
      let cdf' ← (if last ≠ 1 then (if |last - 1| < 1 / 10 ^ 7 then .ok (setLast cdf 1) else .error .exc) else .ok cdf : Res (List ℝ))
      if ∃ p ∈ pdf, p < 0 then .error .exc else .ok cdf'

open Classical in
/-- The joint density of a table: `KalbachTable::pdf(mu, E_out)` (include/PapillonNDL/kalbach_table.hpp:169-198) and
`EnergyAngleTable::pdf(mu, E_out)` (include/PapillonNDL/energy_angle_table.hpp:132-156), whose text differs only in the angular
density at a grid point, `node l` here (`mu_p(A_[l], R_[l])` and `angles_[l].pdf(mu)`). -/
noncomputable def jointPdf (energy pdf : List ℝ) (interp : Interpolation) (node : Nat → Res ℝ) (E : ℝ) : Res ℝ := do
  let it := lowerBound energy E
  if it = energy.length then .ok 0
  else do
    let e0 ← front energy
    if it = 0 ∧ E < e0 then .ok 0
    else do
      let e ← getAt energy it
      let l ← (if E ≠ e then subIdx it 1 else .ok it : Res Nat)
      if interp = .histogram then do
        let m ← node l
        let p ← getAt pdf l
        return m * p
      else do
        let el ← getAt energy l
        let er ← getAt energy (l + 1)
        let f ← rdiv (E - el) (er - el)
        let m1 ← node (l + 1)
        let p1 ← getAt pdf (l + 1)
        let m0 ← node l
        let p0 ← getAt pdf l
        return f * m1 * p1 + (1 - f) * m0 * p0

/-- One summand of the loop in `angle_pdf` (kalbach_table.hpp:151-157, energy_angle_table.hpp:114-120). -/
noncomputable def marginalTerm (energy pdf : List ℝ) (interp : Interpolation) (node : Nat → Res ℝ) (i : Nat) : Res ℝ := do
  let e1 ← getAt energy (i + 1)
  let e0 ← getAt energy i
  let m0 ← node i
  let p0 ← getAt pdf i
  if interp = .histogram then return m0 * p0 * (e1 - e0)
  else do
    let m1 ← node (i + 1)
    let p1 ← getAt pdf (i + 1)
    return 1 / 2 * (e1 - e0) * (m0 * p0 + m1 * p1)

/-- `angle_pdf(mu)` (kalbach_table.hpp:142-161, energy_angle_table.hpp:110-124).  The bound `pdf_.size() - 1` is computed in
`size_t`: for an empty table it wraps and the loop reads out of range. -/
noncomputable def marginalPdf (energy pdf : List ℝ) (interp : Interpolation) (node : Nat → Res ℝ) : Res ℝ := do
  let n ← subIdx pdf.length 1
  (List.range n).foldlM (fun s i => do let x ← marginalTerm energy pdf interp node i; return s + x) 0

/-! ### Kalbach-Mann -/

/-- `class KalbachTable` (kalbach_table.hpp:241-246). -/
structure KalbachTable where
  energy : List ℝ
  pdf : List ℝ
  cdf : List ℝ
  R : List ℝ
  A : List ℝ
  interp : Interpolation

/-- `KalbachTable(energy, pdf, cdf, R, A, interp)` (src/kalbach_table.cpp:91-145). -/
noncomputable def KalbachTable.make (energy pdf cdf R A : List ℝ) (interp : Interpolation) : Res KalbachTable :=
  if interp ≠ .histogram ∧ interp ≠ .linLin then .error .exc
  else if energy.length ≠ pdf.length ∨ pdf.length ≠ cdf.length ∨ cdf.length ≠ R.length ∨ R.length ≠ A.length then .error .exc
  else do
    let cdf' ← checkJoint energy pdf cdf
    return ⟨energy, pdf, cdf', R, A, interp⟩

/-- `KalbachTable(ace, i)` (src/kalbach_table.cpp:28-89).  As in `PCTable.makeAce`, casts to integers truncate. -/
noncomputable def KalbachTable.makeAce (xss : List ℝ) (i : Nat) : Res KalbachTable := do
  let code ← getAt xss i
  match interpOfCode code with
  | some r =>
    if r ≠ .histogram ∧ r ≠ .linLin then .error .exc
    else do
      let np ← getAt xss (i + 1)
      let NP := ⌊np⌋.toNat
      let es ← xssSlice xss (i + 2) NP
      let ps ← xssSlice xss (i + 2 + NP) NP
      let cs ← xssSlice xss (i + 2 + NP + NP) NP
      let rs ← xssSlice xss (i + 2 + NP + NP + NP) NP
      let as ← xssSlice xss (i + 2 + NP + NP + NP + NP) NP
      let cs' ← checkJoint es ps cs
      return ⟨es, ps, cs', rs, as, r⟩
  | none => .error .exc

/-- The energies, density and cumulative as a `PCTable`. -/
def KalbachTable.toPC (t : KalbachTable) : PCTable := ⟨t.energy, t.pdf, t.cdf, t.interp⟩

/-- `KalbachTable::sample_energy(xi)` (kalbach_table.hpp:64-78 with 248-257): the same text as `PCTable::sample_value`
(pctable.hpp:66-81 with 144-153), on the vectors of this class. -/
noncomputable def KalbachTable.sampleEnergy (t : KalbachTable) (xi : ℝ) : Res ℝ := t.toPC.sample xi

/-- `min_energy()`, (kalbach_table.hpp:83). -/
def KalbachTable.minEnergy (t : KalbachTable) : Res ℝ := front t.energy
/-- `max_energy()` (kalbach_table.hpp:88). -/
def KalbachTable.maxEnergy (t : KalbachTable) : Res ℝ := back t.energy

open Classical in
/-- `KalbachTable::R(E)` (kalbach_table.hpp:94-112) for `ys = R_`, `KalbachTable::A(E)` (118-136) for `ys = A_`. -/
noncomputable def KalbachTable.param (t : KalbachTable) (ys : List ℝ) (E : ℝ) : Res ℝ := do
  let mn ← front t.energy
  let mx ← back t.energy
  if E ≤ mn then front ys
  else if E ≥ mx then back ys
  else do
    let l ← subIdx (lowerBound t.energy E) 1
    let e0 ← getAt t.energy l
    let y0 ← getAt ys l
    let e1 ← getAt t.energy (l + 1)
    let y1 ← getAt ys (l + 1)
    (if t.interp = .histogram then Interpolation.histogram else Interpolation.linLin).interpolate E e0 y0 e1 y1

/-- `R(E)` (kalbach_table.hpp:94-112). -/
noncomputable def KalbachTable.evalR (t : KalbachTable) (E : ℝ) : Res ℝ := t.param t.R E
/-- `A(E)` (kalbach_table.hpp:118-136). -/
noncomputable def KalbachTable.evalA (t : KalbachTable) (E : ℝ) : Res ℝ := t.param t.A E

/-- The lambda `mu_p(a, r)` (kalbach_table.hpp:143-146, 170-173). -/
noncomputable def kalbachMuP (mu a r : ℝ) : Res ℝ := do
  let q ← rdiv a (Real.sinh a)
  return 1 / 2 * q * (Real.cosh (a * mu) + r * Real.sinh (a * mu))

/-- `mu_p(A_[l], R_[l])`. -/
noncomputable def KalbachTable.node (t : KalbachTable) (mu : ℝ) (l : Nat) : Res ℝ := do
  let a ← getAt t.A l
  let r ← getAt t.R l
  kalbachMuP mu a r

/-- `KalbachTable::angle_pdf(mu)` (kalbach_table.hpp:142-161). -/
noncomputable def KalbachTable.anglePdf (t : KalbachTable) (mu : ℝ) : Res ℝ := marginalPdf t.energy t.pdf t.interp (t.node mu)

/-- `KalbachTable::pdf(mu, E_out)` (kalbach_table.hpp:169-198). -/
noncomputable def KalbachTable.pdfAt (t : KalbachTable) (mu E : ℝ) : Res ℝ := jointPdf t.energy t.pdf t.interp (t.node mu) E

open Classical in
/-- Sampling of the cosine from `R` and `A` with two random numbers (src/kalbach.cpp:129-137), before the clamp. -/
noncomputable def kalbachCosine (R A xi1 xi2 : ℝ) : Res ℝ := do
  if xi1 > R then do
    let T := (2 * xi2 - 1) * Real.sinh A
    let i ← rdiv 1 A
    let g ← clog (T + Real.sqrt (T * T + 1))
    return i * g
  else do
    let i ← rdiv 1 A
    let g ← clog (xi2 * Real.exp A + (1 - xi2) * Real.exp (-A))
    return i * g

/-- `class Kalbach`. -/
structure Kalbach where
  energy : List ℝ
  tables : List KalbachTable

/-- `Kalbach(incoming_energy, tables)` (src/kalbach.cpp:66-80). -/
noncomputable def Kalbach.make (energy : List ℝ) (tables : List KalbachTable) : Res Kalbach :=
  if isSorted energy = false then .error .exc
  else if energy.length ≠ tables.length then .error .exc
  else .ok ⟨energy, tables⟩

/-- `Emin`, `Emax` of the interpolated table (src/kalbach.cpp:103-108, 194-199; src/tabular_energy_angle.cpp:105-110,
188-193), together with the ends of both tables. -/
noncomputable def unitBase (mn0 mx0 mn1 mx1 : Res ℝ) (f : ℝ) : Res (ℝ × ℝ × ℝ × ℝ × ℝ × ℝ) := do
  let a0 ← mn0
  let b0 ← mx0
  let a1 ← mn1
  let b1 ← mx1
  return (a0, b0, a1, b1, a0 + f * (a1 - a0), b0 + f * (b1 - b0))

open Classical in
/-- `Kalbach::sample_angle_energy` (src/kalbach.cpp:82-142): cosine, energy, new position on the tape. -/
noncomputable def Kalbach.sample (d : Kalbach) (E : ℝ) (ω : Tape) (k : Nat) : Res (ℝ × ℝ × Nat) := do
  let (l, f) ← bracketIn d.energy E
  let t0 ← getAt d.tables l
  let t1 ← getAt d.tables (l + 1)
  let (a0, b0, a1, b1, Emin, Emax) ← unitBase t0.minEnergy t0.maxEnergy t1.minEnergy t1.maxEnergy f
  let (Eh, a, b, R, A) ← (if ω k > f then do
      let e ← t0.sampleEnergy (ω (k + 1))
      let r ← t0.evalR e
      let s ← t0.evalA e
      return (e, a0, b0, r, s)
    else do
      let e ← t1.sampleEnergy (ω (k + 1))
      let r ← t1.evalR e
      let s ← t1.evalA e
      return (e, a1, b1, r, s) : Res (ℝ × ℝ × ℝ × ℝ × ℝ))
  let q ← rdiv (Eh - a) (b - a)
  let mu ← kalbachCosine R A (ω (k + 2)) (ω (k + 3))
  return (clampMu mu, Emin + q * (Emax - Emin), k + 4)

/-- `Kalbach::angle_pdf` (src/kalbach.cpp:144-172). -/
noncomputable def Kalbach.anglePdf (d : Kalbach) (E mu : ℝ) : Res ℝ := do
  let (l, f) ← bracketIn d.energy E
  let t0 ← getAt d.tables l
  let t1 ← getAt d.tables (l + 1)
  let p0 ← t0.anglePdf mu
  let p1 ← t1.anglePdf mu
  return (1 - f) * p0 + f * p1

/-- `Kalbach::pdf` (src/kalbach.cpp:174-219). -/
noncomputable def Kalbach.pdfAt (d : Kalbach) (E mu Eout : ℝ) : Res ℝ := do
  let (l, f) ← bracketIn d.energy E
  let t0 ← getAt d.tables l
  let t1 ← getAt d.tables (l + 1)
  let (a0, b0, a1, b1, Emin, Emax) ← unitBase t0.minEnergy t0.maxEnergy t1.minEnergy t1.maxEnergy f
  let u ← rdiv (Eout - Emin) (Emax - Emin)
  let p0 ← t0.pdfAt mu (u * (b0 - a0) + a0)
  let p1 ← t1.pdfAt mu (u * (b1 - a1) + a1)
  return (1 - f) * p0 + f * p1

/-! ### Tabulated energy-angle distributions -/

/-- `class EnergyAngleTable` (energy_angle_table.hpp:204-208). -/
structure EATable where
  energy : List ℝ
  pdf : List ℝ
  cdf : List ℝ
  angles : List PCTable
  interp : Interpolation

/-- `EnergyAngleTable(energy, pdf, cdf, angle_tables, interp)` (src/energy_angle_table.cpp:108-158).  No sizes are compared. -/
noncomputable def EATable.make (energy pdf cdf : List ℝ) (angles : List PCTable) (interp : Interpolation) : Res EATable :=
  if interp ≠ .histogram ∧ interp ≠ .linLin then .error .exc
  else do
    let cdf' ← checkJoint energy pdf cdf
    return ⟨energy, pdf, cdf', angles, interp⟩

/-- `EnergyAngleTable(outgoing_energy, angle_tables)` (src/energy_angle_table.cpp:160-166). -/
def EATable.ofPC (t : PCTable) (angles : List PCTable) : EATable := ⟨t.values, t.pdf, t.cdf, angles, t.interp⟩

/-- `EnergyAngleTable(ace, i, JED)` (src/energy_angle_table.cpp:28-106). -/
noncomputable def EATable.makeAce (xss : List ℝ) (i JED : Nat) : Res EATable := do
  let code ← getAt xss i
  match interpOfCode code with
  | some r =>
    if r ≠ .histogram ∧ r ≠ .linLin then .error .exc
    else do
      let np ← getAt xss (i + 1)
      let NP := ⌊np⌋.toNat
      let es ← xssSlice xss (i + 2) NP
      let ps ← xssSlice xss (i + 2 + NP) NP
      let cs ← xssSlice xss (i + 2 + NP + NP) NP
      let cs' ← checkJoint es ps cs
      let locs ← xssSlice xss (i + 2 + NP + NP + NP) NP
      let angles ← locs.mapM (fun loc => do
        let l ← subIdx (JED + (if 0 ≤ loc then ⌊loc⌋.toNat else ⌊-loc⌋.toNat)) 1
        PCTable.makeAce xss l 1)
      return ⟨es, ps, cs', angles, r⟩
  | none => .error .exc

/-- `min_energy()` (energy_angle_table.hpp:161). -/
def EATable.minEnergy (t : EATable) : Res ℝ := front t.energy
/-- `max_energy()` (energy_angle_table.hpp:166). -/
def EATable.maxEnergy (t : EATable) : Res ℝ := back t.energy

open Classical in
/-- `EnergyAngleTable::sample_angle_energy(rng)` (energy_angle_table.hpp:75-104, 210-219). -/
noncomputable def EATable.sample (t : EATable) (ω : Tape) (k : Nat) : Res (ℝ × ℝ × Nat) := do
  let xi := ω k
  let l ← subIdx (lowerBound t.cdf xi) 1
  let p0 ← getAt t.pdf l
  let flat ← (if t.interp = .histogram then .ok true else do
    let p1 ← getAt t.pdf (l + 1)
    return decide (p0 = p1) : Res Bool)
  let v0 ← getAt t.energy l
  let c0 ← getAt t.cdf l
  if flat then do
    let E ← histInterp xi v0 p0 c0
    let a ← getAt t.angles l
    let mu ← a.sample (ω (k + 1))
    return (clampMu mu, E, k + 2)
  else do
    let p1 ← getAt t.pdf (l + 1)
    let v1 ← getAt t.energy (l + 1)
    let E ← linInterp xi v0 v1 p0 p1 c0
    let c1 ← getAt t.cdf (l + 1)
    let f ← rdiv (xi - c0) (c1 - c0)
    let a ← (if f < 1 / 2 then getAt t.angles l else getAt t.angles (l + 1) : Res PCTable)
    let mu ← a.sample (ω (k + 1))
    return (clampMu mu, E, k + 2)

/-- `angles_[l].pdf(mu)`. -/
noncomputable def EATable.node (t : EATable) (mu : ℝ) (l : Nat) : Res ℝ := do
  let a ← getAt t.angles l
  a.pdfAt mu

/-- `EnergyAngleTable::angle_pdf(mu)` (energy_angle_table.hpp:110-124). -/
noncomputable def EATable.anglePdf (t : EATable) (mu : ℝ) : Res ℝ := marginalPdf t.energy t.pdf t.interp (t.node mu)

/-- `EnergyAngleTable::pdf(mu, E_out)` (energy_angle_table.hpp:132-156). -/
noncomputable def EATable.pdfAt (t : EATable) (mu E : ℝ) : Res ℝ := jointPdf t.energy t.pdf t.interp (t.node mu) E

/-- `class TabularEnergyAngle`. -/
structure TabEnergyAngle where
  energy : List ℝ
  tables : List EATable

/-- `TabularEnergyAngle(incoming_energy, tables)` (src/tabular_energy_angle.cpp:67-82). -/
noncomputable def TabEnergyAngle.make (energy : List ℝ) (tables : List EATable) : Res TabEnergyAngle :=
  if isSorted energy = false then .error .exc
  else if energy.length ≠ tables.length then .error .exc
  else .ok ⟨energy, tables⟩

open Classical in
/-- `TabularEnergyAngle::sample_angle_energy` (src/tabular_energy_angle.cpp:84-134). -/
noncomputable def TabEnergyAngle.sample (d : TabEnergyAngle) (E : ℝ) (ω : Tape) (k : Nat) : Res (ℝ × ℝ × Nat) := do
  let (l, f) ← bracketIn d.energy E
  let t0 ← getAt d.tables l
  let t1 ← getAt d.tables (l + 1)
  let (a0, b0, a1, b1, Emin, Emax) ← unitBase t0.minEnergy t0.maxEnergy t1.minEnergy t1.maxEnergy f
  let ((mu, Eh, k'), a, b) ← (if ω k > f then do
      let p ← t0.sample ω (k + 1)
      return (p, a0, b0)
    else do
      let p ← t1.sample ω (k + 1)
      return (p, a1, b1) : Res ((ℝ × ℝ × Nat) × ℝ × ℝ))
  let q ← rdiv (Eh - a) (b - a)
  return (mu, Emin + q * (Emax - Emin), k')

/-- `TabularEnergyAngle::angle_pdf` (src/tabular_energy_angle.cpp:136-165). -/
noncomputable def TabEnergyAngle.anglePdf (d : TabEnergyAngle) (E mu : ℝ) : Res ℝ := do
  let (l, f) ← bracketIn d.energy E
  let t0 ← getAt d.tables l
  let t1 ← getAt d.tables (l + 1)
  let p0 ← t0.anglePdf mu
  let p1 ← t1.anglePdf mu
  return (1 - f) * p0 + f * p1

/-- `TabularEnergyAngle::pdf` (src/tabular_energy_angle.cpp:167-213). -/
noncomputable def TabEnergyAngle.pdfAt (d : TabEnergyAngle) (E mu Eout : ℝ) : Res ℝ := do
  let (l, f) ← bracketIn d.energy E
  let t0 ← getAt d.tables l
  let t1 ← getAt d.tables (l + 1)
  let (a0, b0, a1, b1, Emin, Emax) ← unitBase t0.minEnergy t0.maxEnergy t1.minEnergy t1.maxEnergy f
  let u ← rdiv (Eout - Emin) (Emax - Emin)
  let p0 ← t0.pdfAt mu (u * (b0 - a0) + a0)
  let p1 ← t1.pdfAt mu (u * (b1 - a1) + a1)
  return (1 - f) * p0 + f * p1

end PNDL
