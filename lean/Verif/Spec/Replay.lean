import Verif.Spec.Joint

/-! What "a call uses the random numbers it consumes, in order, and no others" means. -/
namespace PNDL

/-- `run fuel ω k` is a sampling method reading the stream `ω` from position `k` on, `fuel` bounding its loops.  Whenever it returns a value having consumed `n`
numbers, then on any other stream, at any other position, with the same `n` numbers there - whatever precedes or follows them - and with any larger bound, it
returns the same value and again consumes `n` numbers. -/
def Spec.Replay {α : Type} (run : Nat → Tape → Nat → Res (α × Nat)) : Prop :=
  ∀ fuel ω k x k', run fuel ω k = .ok (x, k') → ∃ n, k' = k + n ∧
    ∀ fuel' ω' j, fuel ≤ fuel' → (∀ i, i < n → ω' (j + i) = ω (k + i)) → run fuel' ω' j = .ok (x, j + n)

/-- The same for methods that return a cosine and an energy. -/
def Spec.ReplayPair (run : Nat → Tape → Nat → Res (ℝ × ℝ × Nat)) : Prop := Spec.Replay fun fuel ω k => Spec.asPair (run fuel ω k)

end PNDL
