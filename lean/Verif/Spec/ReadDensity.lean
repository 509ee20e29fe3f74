import Verif.Spec.ReadSample
import Verif.Model.Frame

/-! What a reported density relies on and the constructors that read files do not check. -/
namespace PNDL.Spec
open PNDL

/-- The temperature of a general evaporation spectrum is not negative; a Maxwell spectrum is asked above its restriction energy by at least its
temperature (below, its normalisation is wrong, see C69). -/
def PosELaw (E : ℝ) : ELaw → Prop
  | .genEvap t _ => ∀ T, t.eval E = .ok T → 0 ≤ T
  | .maxwell t u => ∀ T, t.eval E = .ok T → T ≤ E - u
  | _ => True

/-- The Kalbach-Mann ratios lie in `[-1, 1]`. -/
def PosLaw (E : ℝ) : Law → Prop
  | .uncorrelated u => PosELaw E u.energy
  | .kalbach d => ∀ t ∈ d.tables, ∀ r ∈ t.R, |r| ≤ 1
  | .tabEnergyAngle _ => True
  | .nbody _ => True

/-- The weights of the laws are not negative. -/
def PosDist (E : ℝ) : NDist → Prop
  | .absorption _ => True
  | .one l => PosLaw E l
  | .several ls => ∀ p ∈ ls, PosLaw E p.1 ∧ ∀ w, p.2.eval E = .ok w → 0 ≤ w
  | .cm _ _ d => PosDist E d

/-- Nothing leaves slower, in the centre of mass, than the centre of mass moves: the factor `g` of the change of angle is at most 1. -/
def ForwardDist (E : ℝ) : NDist → Prop
  | .cm awr q d => (∀ g, frameG E awr q = .ok g → g ≤ 1) ∧ ForwardDist E d
  | _ => True

end PNDL.Spec
