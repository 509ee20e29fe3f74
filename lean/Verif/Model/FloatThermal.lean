import Verif.Model.Thermal
import Verif.Model.FloatBase

/-! The elastic thermal scattering laws in binary64 arithmetic: every operation rounded by `fl`, as in `Model/Float.lean`. -/
namespace PNDL

open Classical in
/-- `STCoherentElastic::sample_angle_energy` (st_coherent_elastic.hpp:68-103) in floating point. -/
noncomputable def CohElastic.sampleFl (fl : ℝ → ℝ) (c : CohElastic) (E : ℝ) (ω : Tape) (k : Nat) : Res (ℝ × ℝ × Nat) := do
  if c.edges.length = 0 then .error .exc
  else do
    let first ← front c.edges
    if first < E then do
      let l ← subIdx (lowerBound c.edges E) 1
      let s ← getAt c.sf l
      let si := lowerBoundRange c.sf 0 l (fl (ω k * s))
      let eb ← getAt c.edges si
      let q ← rdivFl fl (fl (2 * eb)) E
      return (fl (1 - q), E, k + 1)
    else return (1, E, k)

/-- `a + f * (b - a)` on entry `j` of two vectors (st_incoherent_elastic_ace.hpp:83-84, 88-89, 94-95) in floating point. -/
noncomputable def mixAtFl (fl : ℝ → ℝ) (u v : List ℝ) (f : ℝ) (j : Nat) : Res ℝ := do
  let a ← getAt u j
  let b ← getAt v j
  return endFl fl f a b

/-- The smearing (st_incoherent_elastic_ace.hpp:83-99) in floating point. -/
noncomputable def smearFl (fl : ℝ → ℝ) (u v : List ℝ) (f : ℝ) (n j : Nat) (xi : ℝ) : Res ℝ := do
  let m ← mixAtFl fl u v f j
  let lo ← (if j ≠ 0 then mixAtFl fl u v f (j - 1) else .ok (fl (-1 - fl (m + 1))) : Res ℝ)
  let hi ← (if j ≠ n - 1 then mixAtFl fl u v f (j + 1) else .ok (fl (1 - fl (m - 1))) : Res ℝ)
  return fl (m + fl (min (fl (m - lo)) (fl (hi - m)) * fl (xi - 1 / 2)))

/-- `STIncoherentElasticACE::sample_angle_energy` (st_incoherent_elastic_ace.hpp:53-102) in floating point. -/
noncomputable def IncElastic.sampleFl (fl : ℝ → ℝ) (d : IncElastic) (E : ℝ) (ω : Tape) (k : Nat) : Res (ℝ × ℝ × Nat) := do
  if d.energy.length = 0 then .error .exc
  else do
    let (i, f) ← bracketInFl fl d.energy E
    let j := drawFl fl d.nmu (ω k)
    let u ← getAt d.cosines i
    let v ← getAt d.cosines (i + 1)
    let mu ← smearFl fl u v f d.nmu j (ω (k + 1))
    return (mu, E, k + 2)

end PNDL
