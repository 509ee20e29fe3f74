import Verif.Model.Prelude
import Mathlib.Order.Basic
import Mathlib.Order.Lattice
import Mathlib.Tactic.SplitIfs

/-! Helper lemmas about checked indexing and the binary search. -/
namespace PNDL

variable {α : Type _}

theorem getAt_eq_ok {l : List α} {i : Nat} {a : α} : getAt l i = .ok a ↔ l[i]? = some a := by
  unfold getAt; cases h : l[i]? <;> simp

theorem getAt_of_lt {l : List α} {i : Nat} (h : i < l.length) : getAt l i = .ok l[i] := by
  simp [getAt, h]

theorem getAt_of_le {l : List α} {i : Nat} (h : l.length ≤ i) : getAt l i = .error .ub := by
  simp [getAt, List.getElem?_eq_none h]

theorem getAt_exists {l : List α} {i : Nat} (h : i < l.length) : ∃ a, getAt l i = .ok a ∧ l[i]? = some a :=
  ⟨l[i], getAt_of_lt h, by simp [h]⟩

theorem back_eq_ok {l : List α} {a : α} : back l = .ok a ↔ l.getLast? = some a := by
  unfold back; cases h : l.getLast? <;> simp

theorem front_eq_ok {l : List α} {a : α} : front l = .ok a ↔ l[0]? = some a := getAt_eq_ok

theorem subIdx_of_le {a b : Nat} (h : b ≤ a) : subIdx a b = .ok (a - b) := by simp [subIdx, h]

theorem cdiv_of_ne {K : Type _} [Div K] [OfNat K 0] [DecidableEq K] {a b : K} (h : b ≠ 0) :
    cdiv a b = .ok (a / b) := by simp [cdiv, h]

theorem cdiv_zero {K : Type _} [Div K] [OfNat K 0] [DecidableEq K] {a : K} :
    cdiv a (0 : K) = .error .nonfinite := by simp [cdiv]

/-- Correctness of the bisection loop. -/
theorem bisect_spec (p : α → Bool) (l : List α)
    (hp : ∀ (i j : Nat) (a b : α), i ≤ j → l[i]? = some a → l[j]? = some b → p b = true → p a = true) :
    ∀ fuel first len, len ≤ fuel → first + len ≤ l.length →
      first ≤ bisect p l fuel first len ∧ bisect p l fuel first len ≤ first + len ∧
      ∀ (i : Nat) (a : α), l[i]? = some a → first ≤ i → i < first + len →
        (p a = true ↔ i < bisect p l fuel first len) := by
  intro fuel
  induction fuel with
  | zero =>
    intro first len h1 h2
    simp only [bisect]
    refine ⟨le_refl _, by omega, ?_⟩
    intros; omega
  | succ fuel ih =>
    intro first len h1 h2
    rw [bisect]
    split
    · refine ⟨le_refl _, by omega, ?_⟩
      intros; omega
    · rename_i hlen
      have hm : first + len / 2 < l.length := by omega
      have hs : l[first + len / 2]? = some l[first + len / 2] := by simp [hm]
      rw [hs]
      simp only
      split
      · rename_i hpa
        obtain ⟨q1, q2, q3⟩ := ih (first + len / 2 + 1) (len - len / 2 - 1) (by omega) (by omega)
        refine ⟨by omega, by omega, ?_⟩
        intro i a hi h3 h4
        by_cases hi2 : i ≤ first + len / 2
        · constructor
          · intro _; omega
          · intro _; exact hp _ _ _ _ hi2 hi hs hpa
        · exact q3 i a hi (by omega) (by omega)
      · rename_i hpa
        obtain ⟨q1, q2, q3⟩ := ih first (len / 2) (by omega) (by omega)
        refine ⟨by omega, by omega, ?_⟩
        intro i a hi h3 h4
        by_cases hi2 : i < first + len / 2
        · exact q3 i a hi h3 hi2
        · constructor
          · intro hpa2; exact absurd (hp _ _ _ _ (by omega) hs hi hpa2) hpa
          · intro _; omega

section order
variable [LinearOrder α]

theorem pairwise_le_getElem? {l : List α} (hs : l.Pairwise (· ≤ ·)) {i j : Nat} {a b : α}
    (hij : i ≤ j) (ha : l[i]? = some a) (hb : l[j]? = some b) : a ≤ b := by
  rcases Nat.lt_or_ge i j with h | h
  · have hj : j < l.length := by
      by_contra hc; simp [List.getElem?_eq_none (Nat.le_of_not_lt hc)] at hb
    have := List.pairwise_iff_getElem.mp hs i j (by omega) hj h
    have e1 : l[i]? = some l[i] := by simp [show i < l.length by omega]
    have e2 : l[j]? = some l[j] := by simp [hj]
    rw [e1] at ha; rw [e2] at hb
    cases ha; cases hb; exact this
  · have : i = j := by omega
    subst this
    rw [ha] at hb; cases hb; exact le_refl _

theorem pairwise_lt_getElem? {l : List α} (hs : l.Pairwise (· < ·)) {i j : Nat} {a b : α}
    (hij : i < j) (ha : l[i]? = some a) (hb : l[j]? = some b) : a < b := by
  have hj : j < l.length := by
    by_contra hc; simp [List.getElem?_eq_none (Nat.le_of_not_lt hc)] at hb
  have := List.pairwise_iff_getElem.mp hs i j (by omega) hj hij
  have e1 : l[i]? = some l[i] := by simp [show i < l.length by omega]
  have e2 : l[j]? = some l[j] := by simp [hj]
  rw [e1] at ha; rw [e2] at hb
  cases ha; cases hb; exact this

theorem lowerBoundRange_spec {l : List α} (hs : l.Pairwise (· ≤ ·)) {lo hi : Nat} (x : α)
    (h1 : lo ≤ hi) (h2 : hi ≤ l.length) :
    lo ≤ lowerBoundRange l lo hi x ∧ lowerBoundRange l lo hi x ≤ hi ∧
      ∀ (i : Nat) (a : α), l[i]? = some a → lo ≤ i → i < hi → (a < x ↔ i < lowerBoundRange l lo hi x) := by
  have := bisect_spec (fun a => decide (a < x)) l (by
    intro i j a b hij ha hb hpb
    simp only [decide_eq_true_eq] at hpb ⊢
    exact lt_of_le_of_lt (pairwise_le_getElem? hs hij ha hb) hpb) (hi - lo) lo (hi - lo) (le_refl _) (by omega)
  obtain ⟨q1, q2, q3⟩ := this
  unfold lowerBoundRange
  refine ⟨q1, by omega, ?_⟩
  intro i a h3 h4 h5
  have := q3 i a h3 h4 (by omega)
  simpa using this

theorem lowerBound_le {l : List α} (hs : l.Pairwise (· ≤ ·)) (x : α) : lowerBound l x ≤ l.length :=
  (lowerBoundRange_spec hs x (Nat.zero_le _) (le_refl _)).2.1

theorem lowerBound_iff {l : List α} (hs : l.Pairwise (· ≤ ·)) (x : α) {i : Nat} {a : α} (h : l[i]? = some a) :
    a < x ↔ i < lowerBound l x := by
  have hi : i < l.length := by
    by_contra hc; simp [List.getElem?_eq_none (Nat.le_of_not_lt hc)] at h
  exact (lowerBoundRange_spec hs x (Nat.zero_le _) (le_refl _)).2.2 i a h (Nat.zero_le _) hi

/-- The lower bound is unique: any partition point is the lower bound. -/
theorem lowerBound_unique {l : List α} (hs : l.Pairwise (· ≤ ·)) (x : α) {n : Nat} (hn : n ≤ l.length)
    (h : ∀ (i : Nat) (a : α), l[i]? = some a → (a < x ↔ i < n)) : lowerBound l x = n := by
  rcases Nat.lt_trichotomy (lowerBound l x) n with h1 | h1 | h1
  · have hlt : lowerBound l x < l.length := by omega
    have e : l[lowerBound l x]? = some l[lowerBound l x] := by simp [hlt]
    have := (lowerBound_iff hs x e).mp ((h _ _ e).mpr h1)
    omega
  · exact h1
  · have h2 := lowerBound_le hs x
    have hlt : n < l.length := by omega
    have e : l[n]? = some l[n] := by simp [hlt]
    have := (h _ _ e).mp ((lowerBound_iff hs x e).mpr h1)
    omega

theorem isSorted_iff {l : List α} : isSorted l = true ↔ l.Pairwise (· ≤ ·) := by
  induction l with
  | nil => simp [isSorted]
  | cons a l ih =>
    cases l with
    | nil => simp [isSorted]
    | cons b l =>
      rw [isSorted, Bool.and_eq_true, ih]
      simp only [Bool.not_eq_true', decide_eq_false_iff_not, not_lt, List.pairwise_cons, List.mem_cons, forall_eq_or_imp]
      constructor
      · rintro ⟨h1, h2, h3⟩
        exact ⟨⟨h1, fun c hc => le_trans h1 (h2 c hc)⟩, h2, h3⟩
      · rintro ⟨⟨h1, _⟩, h2, h3⟩
        exact ⟨h1, h2, h3⟩

end order
end PNDL
