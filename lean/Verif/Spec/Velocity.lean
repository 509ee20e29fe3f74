import Verif.Spec.Law
import Verif.Model.Frame
import Mathlib.MeasureTheory.Constructions.BorelSpace.Basic

/-! What "the sampled velocities have a density proportional to …" means. -/
namespace PNDL
open MeasureTheory

/-- The velocity with the given components. -/
def Spec.toVec (p : (ℝ × ℝ) × ℝ) : Vec := ⟨p.1.1, p.1.2, p.2⟩

/-- A set of velocities is measurable when the set of their components is. -/
instance : MeasurableSpace Vec := MeasurableSpace.map Spec.toVec inferInstance

/-- The volume of a set of velocities. -/
noncomputable def Spec.vecVolume : Measure Vec := Measure.map Spec.toVec volume

/-- The probability law on velocities whose density is proportional to `w`. -/
noncomputable def Spec.velocityLaw (w : Vec → ℝ) : Measure Vec :=
  (∫⁻ v, ENNReal.ofReal (w v) ∂Spec.vecVolume)⁻¹ • Spec.vecVolume.withDensity fun v => ENNReal.ofReal (w v)

end PNDL
