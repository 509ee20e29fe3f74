/-! Specification of message wrapping. -/
namespace PNDL.Spec

/-- `t` is `s` with some characters turned into line breaks; a changed character was a space, or it sits at a multiple
of 80 and the text had no space left before it. -/
def WrapOf (s t : List Char) : Prop :=
  t.length = s.length ∧ ∀ (i : Nat) (c : Char), s[i]? = some c →
    t[i]? = some c ∨ (t[i]? = some '\n' ∧ (c = ' ' ∨ (80 ∣ i ∧ 0 < i ∧ ∀ j : Nat, j ≤ i → t[j]? ≠ some ' ')))

end PNDL.Spec
