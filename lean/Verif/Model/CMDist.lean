import Verif.Model.Frame
import Verif.Model.Mixture

/-! `CMDistribution` (src/cm_distribution.cpp) and `LevelInelasticScatter` (src/level_inelastic_scatter.cpp). -/
namespace PNDL

/-- `class CMDistribution` (cm_distribution.hpp:77-78). -/
structure CMDist where
  awr : ℝ
  q : ℝ
  dist : AE

/-- `sample_angle_energy` (src/cm_distribution.cpp:33-40). -/
noncomputable def CMDist.sample (d : CMDist) (E : ℝ) (ω : Tape) (k : Nat) : Res (ℝ × ℝ × Nat) := do
  let (mu, Eout, k') ← d.dist.sample E ω k
  let (muL, EL) ← cmToLab E d.awr mu Eout
  return (muL, EL, k')

/-- The contribution of one CM cosine (src/cm_distribution.cpp:57-64, 66-73). -/
noncomputable def CMDist.part (d : CMDist) (E mu : ℝ) : Option ℝ → Res ℝ
  | none => .ok 0
  | some muCm => do
    let o ← d.dist.anglePdf E muCm
    match o with
    | none => .ok 0
    | some p => do
      let j ← angleJacobianQ E d.awr d.q mu muCm
      return p * j

/-- `angle_pdf` (src/cm_distribution.cpp:42-76). -/
noncomputable def CMDist.anglePdf (d : CMDist) (E mu : ℝ) : Res (Option ℝ) := do
  let (a1, a2) ← labToCmAngle E d.awr d.q mu
  let p1 ← d.part E mu a1
  let p2 ← d.part E mu a2
  return some (p1 + p2)

/-- `pdf` (src/cm_distribution.cpp:78-94). -/
noncomputable def CMDist.pdf (d : CMDist) (E mu Eout : ℝ) : Res (Option ℝ) := do
  let (muC, EC) ← labToCm E d.awr mu Eout
  let o ← d.dist.pdf E muC EC
  match o with
  | none => return none
  | some p => do
    let j ← jointJacobian Eout EC
    return some (p * j)

/-- `class LevelInelasticScatter` (level_inelastic_scatter.hpp). -/
structure Level where
  c1 : ℝ
  c2 : ℝ

open Classical in
/-- `LevelInelasticScatter(Q, AWR)` (src/level_inelastic_scatter.cpp:35-45). -/
noncomputable def Level.make (Q awr : ℝ) : Res Level := do
  if awr ≤ 0 then .error .exc
  else do
    let c1 ← rdiv ((awr + 1) * |Q|) awr
    let tmp ← rdiv awr (awr + 1)
    return ⟨c1, tmp * tmp⟩

/-- `sample_energy` (src/level_inelastic_scatter.cpp:47-50): no random number is drawn. -/
noncomputable def Level.sample (l : Level) (E : ℝ) (k : Nat) : Res (ℝ × Nat) := .ok (l.c2 * (E - l.c1), k)

end PNDL
