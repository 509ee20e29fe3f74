import Verif.Spec.Law
import Verif.Spec.Joint
import Verif.Model.Spndl

/-! What "successive calls give independent samples" means. -/
namespace PNDL
open MeasureTheory

/-- `run fuel ω k` is a sampling method reading the stream `ω` from position `k` on.  Calling it `n` times in a row, each call reading on where the one
before stopped, gives `n` independent samples of `μ`: the probability that all the calls return (within some bound on their loops), the first with a value
in `S 0`, the second with one in `S 1`, and so on, is the product of the measures of these sets. -/
def Spec.SamplesMany {α : Type} [MeasurableSpace α] (run : Nat → Tape → Nat → Res (α × Nat)) (n k : Nat) (μ : Measure α) : Prop :=
  ∀ S : Nat → Set α, (∀ i, MeasurableSet (S i)) →
    Spec.iid {ω | ∃ fuel xs k', collect (run fuel) ω n k = .ok (xs, k') ∧ xs.length = n ∧ ∀ i x, xs[i]? = some x → x ∈ S i} =
      ∏ i ∈ Finset.range n, μ (S i)

/-- The same for cosines and energies with the joint density that `pdf` reports on `[-1, 1] × [a, b]`. -/
def Spec.SamplesManyJoint (run : Nat → Tape → Nat → Res (ℝ × ℝ × Nat)) (n k : Nat) (a b : ℝ) (pdf : ℝ → ℝ → Res (Option ℝ)) : Prop :=
  ∃ p : ℝ → ℝ → ℝ, (∀ mu e, -1 ≤ mu → mu ≤ 1 → a ≤ e → e ≤ b → pdf mu e = .ok (some (p mu e))) ∧
    Spec.SamplesMany (fun fuel ω k => Spec.asPair (run fuel ω k)) n k (Spec.jointLaw a b p)

/-- The same on a region of cosines and energies. -/
def Spec.SamplesManyRegion (run : Nat → Tape → Nat → Res (ℝ × ℝ × Nat)) (n k : Nat) (R : Set (ℝ × ℝ)) (pdf : ℝ → ℝ → Res (Option ℝ)) : Prop :=
  ∃ p : ℝ → ℝ → ℝ, (∀ mu e, (mu, e) ∈ R → pdf mu e = .ok (some (p mu e))) ∧
    Spec.SamplesMany (fun fuel ω k => Spec.asPair (run fuel ω k)) n k (Spec.regionLaw R p)

/-- Successive calls give independent samples of one probability law, wherever on the stream the first begins and however many there are.  (With one call
this says that `μ` is the law of a call, so `μ` is the law that C103–C126 give.) -/
def Spec.Independent {α : Type} [MeasurableSpace α] (run : Nat → Tape → Nat → Res (α × Nat)) : Prop :=
  ∃ μ : Measure α, IsProbabilityMeasure μ ∧ ∀ n k, Spec.SamplesMany run n k μ

end PNDL
