import Verif.Model.Frame

/-! Two-body kinematics, independently of the formulas of the code.  Speeds are square roots of energies. -/
namespace PNDL.Spec

/-- Component of the velocity along the beam. -/
noncomputable def par (mu E : ℝ) : ℝ := mu * Real.sqrt E

/-- Square of the component across the beam. -/
noncomputable def perpSq (mu E : ℝ) : ℝ := E * (1 - mu ^ 2)

/-- `(muL, EL)` is the velocity `(muC, EC)` seen from a frame in which the centre of mass moves along the beam with the speed
`√Ein / (A + 1)`. -/
def Boosted (Ein A muC EC muL EL : ℝ) : Prop :=
  par muL EL = par muC EC + Real.sqrt Ein / (A + 1) ∧ perpSq muL EL = perpSq muC EC

/-- The lab cosine of a particle emitted with cosine `x` in the centre of mass, `g` the ratio of the speed of the centre of mass to
the speed of the particle in it. -/
noncomputable def labCos (g x : ℝ) : ℝ := (g + x) / Real.sqrt (1 + 2 * g * x + g ^ 2)

/-- Unit vectors. -/
def IsUnit3 (u : Vec) : Prop := u.x ^ 2 + u.y ^ 2 + u.z ^ 2 = 1

end PNDL.Spec
