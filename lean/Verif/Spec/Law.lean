import Verif.Model.Tape
import Mathlib.Probability.ProductMeasure
import Mathlib.MeasureTheory.Measure.Lebesgue.Basic

/-! What "the sampled values are distributed according to …" means: the random numbers handed to a sampling method are
independent and uniform on `[0, 1]`, and the probability that the call returns a value in a set is the measure of that set. -/
namespace PNDL
open MeasureTheory

/-- The uniform distribution on `[0, 1]`. -/
noncomputable def Spec.unif : Measure ℝ := volume.restrict (Set.Icc 0 1)

/-- A stream of independent random numbers, uniform on `[0, 1]`. -/
noncomputable def Spec.iid : Measure Tape := Measure.infinitePi fun _ => Spec.unif

/-- `run fuel ω` is a sampling method reading the stream `ω`, its loops bounded by `fuel`.  It samples from `μ`: for every
measurable set of values, the probability that the call returns (within some bound) and its result is in the set is the
measure of the set. -/
def Spec.Samples {α β : Type} [MeasurableSpace α] (run : Nat → Tape → Res (α × β)) (μ : Measure α) : Prop :=
  ∀ S : Set α, MeasurableSet S → Spec.iid {ω | ∃ fuel x k, run fuel ω = .ok (x, k) ∧ x ∈ S} = μ S

/-- It samples from the density `p` on `[a, b]`. -/
def Spec.SamplesDensity {β : Type} (run : Nat → Tape → Res (ℝ × β)) (a b : ℝ) (p : ℝ → ℝ) : Prop :=
  Spec.Samples run ((volume.restrict (Set.Icc a b)).withDensity fun x => ENNReal.ofReal (p x))

/-- It samples from the density that `pdf` reports: `pdf` gives a number for every value in `[a, b]`, and that is the density
of the returned values (in particular, with probability one a value is returned and it is in `[a, b]`, whenever the density
is normalised). -/
def Spec.SamplesReported {β : Type} (run : Nat → Tape → Res (ℝ × β)) (a b : ℝ) (pdf : ℝ → Res ℝ) : Prop :=
  ∃ p : ℝ → ℝ, (∀ x, a ≤ x → x ≤ b → pdf x = .ok (p x)) ∧ Spec.SamplesDensity run a b p

end PNDL
