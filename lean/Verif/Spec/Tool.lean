import Verif.Model.Spndl

/-! What the array saved by the sampling program should hold. -/
namespace PNDL

/-- `cols` holds the first `n` samples of a stream, an energy and a cosine to a column: the first call of the sampling method begins with the first number
of the stream, and each call begins where the one before stopped. -/
def Spec.Successive (sample : Nat → Res (ℝ × ℝ × Nat)) (n : Nat) (cols : List (ℝ × ℝ)) : Prop :=
  cols.length = n ∧ ∃ pos : Nat → Nat, pos 0 = 0 ∧
    ∀ i, i < n → ∃ mu e, sample (pos i) = .ok (mu, e, pos (i + 1)) ∧ cols[i]? = some (e, mu)

/-- The program ended with status 0, having saved `cols`. -/
def Spec.Saved (r : Res ToolOut) (cols : List (ℝ × ℝ)) : Prop := r = .ok ⟨0, some cols⟩

/-- The program ended with status 1 and saved nothing. -/
def Spec.Refused (r : Res ToolOut) : Prop := r = .ok ⟨1, none⟩

end PNDL
