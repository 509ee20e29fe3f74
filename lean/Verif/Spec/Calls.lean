import Verif.Spec.Many
import Verif.Spec.Law
import Verif.Model.Spndl

/-! What "successive calls are independent" means for a sampler that need not always return. -/
namespace PNDL
open MeasureTheory

/-- `run fuel ω k` is a sampling method reading the stream `ω` from position `k` on, `fuel` bounding its loops.  The probability that one call, at position `k`,
returns (within some bound) a value in `S`. -/
noncomputable def Spec.chance {α : Type} (run : Nat → Tape → Nat → Res (α × Nat)) (k : Nat) (S : Set α) : ENNReal :=
  Spec.iid {ω | ∃ fuel x k', run fuel ω k = .ok (x, k') ∧ x ∈ S}

/-- The probability that `n` calls in a row, each reading on where the one before stopped, the first at position `k`, all return, the first with a value in `S 0`,
the second with one in `S 1`, and so on. -/
noncomputable def Spec.chanceAll {α : Type} (run : Nat → Tape → Nat → Res (α × Nat)) (n k : Nat) (S : Nat → Set α) : ENNReal :=
  Spec.iid {ω | ∃ fuel xs k', collect (run fuel) ω n k = .ok (xs, k') ∧ xs.length = n ∧ ∀ i x, xs[i]? = some x → x ∈ S i}

/-- Successive calls are independent and identically distributed: whatever the number of calls, the position of the first and the (measurable) sets, the
probability that all return in their sets is the product of the probabilities of single calls, made anywhere. -/
def Spec.IndependentCalls {α : Type} [MeasurableSpace α] (run : Nat → Tape → Nat → Res (α × Nat)) : Prop :=
  ∀ n k (j : Nat → Nat) (S : Nat → Set α), (∀ i, MeasurableSet (S i)) → Spec.chanceAll run n k S = ∏ i ∈ Finset.range n, Spec.chance run (j i) (S i)

/-- The chances of a single call, made anywhere, are a measure (of total mass the chance that it returns), and successive calls are independent samples of it. -/
def Spec.OneLaw {α : Type} [MeasurableSpace α] (run : Nat → Tape → Nat → Res (α × Nat)) : Prop :=
  ∃ μ : Measure α, (∀ k S, MeasurableSet S → Spec.chance run k S = μ S) ∧ ∀ n k, Spec.SamplesMany run n k μ

end PNDL
