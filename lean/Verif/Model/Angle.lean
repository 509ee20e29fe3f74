import Verif.Model.PCTable
import Verif.Model.Legendre

/-! The angle laws (src/isotropic.cpp, src/equiprobable_angle_bins.cpp, src/angle_table.cpp) and `AngleDistribution`
(src/angle_distribution.cpp). -/
namespace PNDL

/-- `Isotropic::sample_mu` (src/isotropic.cpp:29-33). -/
noncomputable def isoSample (ω : Tape) (k : Nat) : Res (ℝ × Nat) := .ok (clampMu (2 * ω k - 1), k + 1)

open Classical in
/-- `Isotropic::pdf` (src/isotropic.cpp:35-38). -/
noncomputable def isoPdf (mu : ℝ) : ℝ := if mu < -1 ∨ mu > 1 then 0 else 0.5

open Classical in
/-- `EquiprobableAngleBins(bounds)` (src/equiprobable_angle_bins.cpp:57-78); the stored bounds. -/
noncomputable def binsMake (bounds : List ℝ) : Res (List ℝ) := do
  if bounds.length ≠ 33 then .error .exc
  else if isSorted bounds = false then .error .exc
  else do
    let b0 ← getAt bounds 0
    if b0 < -1 then .error .exc
    else do
      let b32 ← getAt bounds 32
      if b32 > 1 then .error .exc else .ok bounds

/-- `EquiprobableAngleBins::sample_mu` (src/equiprobable_angle_bins.cpp:80-93).  `floor` of a non-negative number. -/
noncomputable def binsSample (bounds : List ℝ) (ω : Tape) (k : Nat) : Res (ℝ × Nat) := do
  let xi := ω k
  let bin := if ⌊33 * xi⌋₊ = 33 then ⌊33 * xi⌋₊ - 1 else ⌊33 * xi⌋₊
  let Cb := (bin : ℝ) * (1 / 32)
  let muLow ← getAt bounds bin
  return (clampMu ((xi - Cb) / (1 / 32) + muLow), k + 1)

open Classical in
/-- The search loop of `EquiprobableAngleBins::pdf` (src/equiprobable_angle_bins.cpp:98-104): `n` indices from `i` on remain;
0 if no bin matches. -/
noncomputable def binSearch (bounds : List ℝ) (mu : ℝ) : Nat → Nat → Res Nat
  | 0, _ => .ok 0
  | n + 1, i => do
    let lo ← getAt bounds i
    let hi ← getAt bounds (i + 1)
    if lo ≤ mu ∧ hi ≥ mu then .ok i else binSearch bounds mu n (i + 1)

open Classical in
/-- `EquiprobableAngleBins::pdf` (src/equiprobable_angle_bins.cpp:95-109). -/
noncomputable def binsPdf (bounds : List ℝ) (mu : ℝ) : Res ℝ := do
  let b0 ← front bounds
  let b1 ← back bounds
  if mu < b0 ∨ mu > b1 then .ok 0
  else do
    let bin ← binSearch bounds mu 32 0
    let lo ← getAt bounds bin
    let hi ← getAt bounds (bin + 1)
    rdiv (1 / 32) (hi - lo)

open Classical in
/-- The tests of the `AngleTable` constructors (src/angle_table.cpp:31-82) on the underlying table. -/
noncomputable def angleTableMake (t : PCTable) : Res PCTable := do
  let mn ← t.minValue
  if mn < -1 then .error .exc
  else do
    let mx ← t.maxValue
    if mx > 1 then .error .exc else .ok t

/-- `AngleTable::sample_mu` (src/angle_table.cpp:115-119). -/
noncomputable def angleTableSample (t : PCTable) (ω : Tape) (k : Nat) : Res (ℝ × Nat) := do
  let mu ← t.sample (ω k)
  return (clampMu mu, k + 1)

/-- The classes derived from `AngleLaw` in the library (angle_law.hpp). -/
inductive AngleLaw where
  | isotropic
  | bins (bounds : List ℝ)
  | table (t : PCTable)
  | legendre (s : Legendre)

/-- The virtual call `sample_mu`. -/
noncomputable def AngleLaw.sample (fuel : Nat) (law : AngleLaw) (ω : Tape) (k : Nat) : Res (ℝ × Nat) :=
  match law with
  | .isotropic => isoSample ω k
  | .bins b => binsSample b ω k
  | .table t => angleTableSample t ω k
  | .legendre s => s.sample ω fuel k

/-- The virtual call `pdf`. -/
noncomputable def AngleLaw.pdf (law : AngleLaw) (mu : ℝ) : Res ℝ :=
  match law with
  | .isotropic => .ok (isoPdf mu)
  | .bins b => binsPdf b mu
  | .table t => t.pdfAt mu
  | .legendre s => .ok (legPdf s.a mu)

/-- `class AngleDistribution` (angle_distribution.hpp:100-101). -/
structure AngleDist where
  energy : List ℝ
  laws : List AngleLaw

/-- `AngleDistribution(energy_grid, laws)` (src/angle_distribution.cpp:100-114). -/
noncomputable def AngleDist.make (energy : List ℝ) (laws : List AngleLaw) : Res AngleDist :=
  if energy.length ≠ laws.length then .error .exc
  else if isSorted energy = false then .error .exc
  else .ok ⟨energy, laws⟩

/-- The common search of `sample_angle` and `pdf` (src/angle_distribution.cpp:118-128, 143-153): one law, or two laws and the
weight of the second. -/
noncomputable def AngleDist.find (d : AngleDist) (E : ℝ) : Res (AngleLaw ⊕ (AngleLaw × AngleLaw × ℝ)) := do
  let it := lowerBound d.energy E
  if it = 0 then do let l ← front d.laws; return .inl l
  else if it = d.energy.length then do let l ← back d.laws; return .inl l
  else do
    let l ← subIdx it 1
    let e0 ← getAt d.energy l
    let e1 ← getAt d.energy (l + 1)
    let f ← rdiv (E - e0) (e1 - e0)
    let a ← getAt d.laws l
    let b ← getAt d.laws (l + 1)
    return .inr (a, b, f)

open Classical in
/-- `sample_angle` (src/angle_distribution.cpp:116-140). -/
noncomputable def AngleDist.sample (d : AngleDist) (fuel : Nat) (E : ℝ) (ω : Tape) (k : Nat) : Res (ℝ × Nat) := do
  let r ← d.find E
  match r with
  | .inl law => law.sample fuel ω k
  | .inr (a, b, f) => do
    let (mu, k') ← (if ω k > f then a.sample fuel ω (k + 1) else b.sample fuel ω (k + 1) : Res (ℝ × Nat))
    return (clampMu mu, k')

/-- `AngleDistribution::pdf` (src/angle_distribution.cpp:142-156). -/
noncomputable def AngleDist.pdf (d : AngleDist) (E mu : ℝ) : Res ℝ := do
  let r ← d.find E
  match r with
  | .inl law => law.pdf mu
  | .inr (a, b, f) => do
    let pa ← a.pdf mu
    let pb ← b.pdf mu
    return (1 - f) * pa + f * pb

end PNDL
