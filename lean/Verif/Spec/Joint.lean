import Verif.Spec.Law
import Mathlib.MeasureTheory.Measure.Lebesgue.Basic

/-! What "the sampled cosines and energies have the joint density reported" means. -/
namespace PNDL
open MeasureTheory

/-- The cosine and the energy a call returns, as a pair. -/
def Spec.asPair (r : Res (ℝ × ℝ × Nat)) : Res ((ℝ × ℝ) × Nat) := r.map fun x => ((x.1, x.2.1), x.2.2)

/-- The law with density `p mu e` for cosines in `[-1, 1]` and energies in `[a, b]`. -/
noncomputable def Spec.jointLaw (a b : ℝ) (p : ℝ → ℝ → ℝ) : Measure (ℝ × ℝ) :=
  (volume.restrict (Set.Icc (-1) 1 ×ˢ Set.Icc a b)).withDensity fun q => ENNReal.ofReal (p q.1 q.2)

/-- The cosines and energies a call returns have, on `[-1, 1] × [a, b]`, the joint density that `pdf` reports there. -/
def Spec.SamplesJoint (run : Nat → Tape → Res (ℝ × ℝ × Nat)) (a b : ℝ) (pdf : ℝ → ℝ → Res (Option ℝ)) : Prop :=
  ∃ p : ℝ → ℝ → ℝ, (∀ mu e, -1 ≤ mu → mu ≤ 1 → a ≤ e → e ≤ b → pdf mu e = .ok (some (p mu e))) ∧
    Spec.Samples (fun fuel ω => Spec.asPair (run fuel ω)) (Spec.jointLaw a b p)

/-- The law with density `p mu e` on the region `R` of cosines and energies. -/
noncomputable def Spec.regionLaw (R : Set (ℝ × ℝ)) (p : ℝ → ℝ → ℝ) : Measure (ℝ × ℝ) :=
  (volume.restrict R).withDensity fun q => ENNReal.ofReal (p q.1 q.2)

/-- The cosines and energies a call returns have, on the region `R`, the joint density that `pdf` reports there. -/
def Spec.SamplesRegion (run : Nat → Tape → Res (ℝ × ℝ × Nat)) (R : Set (ℝ × ℝ)) (pdf : ℝ → ℝ → Res (Option ℝ)) : Prop :=
  ∃ p : ℝ → ℝ → ℝ, (∀ mu e, (mu, e) ∈ R → pdf mu e = .ok (some (p mu e))) ∧
    Spec.Samples (fun fuel ω => Spec.asPair (run fuel ω)) (Spec.regionLaw R p)

end PNDL
