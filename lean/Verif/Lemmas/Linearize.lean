import Verif.Spec.Linearize
import Verif.Lemmas.Tab1D

/-! The loop of `linearize` on a zipper, its invariants and its termination. -/
namespace PNDL
open Spec

section
variable {X : Type} (ops : GridOps X) (f : X → ℝ) (tol : ℝ)

/-- Chord condition between neighbouring points: the loop moves on. -/
def Ok (p q : X × ℝ) : Prop := ops.adj p.1 q.1 ∨ ¬ needsSplit tol (0.5 * (p.2 + q.2)) (f (ops.mid p.1 q.1))

open Classical in
/-- The loop on a zipper. -/
noncomputable def zipLoop : Nat → List (X × ℝ) → X × ℝ → List (X × ℝ) → Res (List (X × ℝ))
  | 0, _, _, _ => .error .diverge
  | _ + 1, pre, p, [] => .ok (pre ++ [p])
  | fuel + 1, pre, p, q :: post =>
    if Ok ops f tol p q then zipLoop fuel (pre ++ [p]) q post
    else zipLoop fuel pre p ((ops.mid p.1 q.1, f (ops.mid p.1 q.1)) :: q :: post)

theorem getAt_mid {α : Type _} (l1 : List α) (a : α) (l2 : List α) : getAt (l1 ++ a :: l2) l1.length = .ok a := by
  simp [getAt]

theorem getAt_mid' {α : Type _} (l1 : List α) (a b : α) (l2 : List α) : getAt (l1 ++ a :: b :: l2) (l1.length + 1) = .ok b := by
  simp [getAt]

theorem insertIdx_mid {α : Type _} (l1 : List α) (a m : α) (l2 : List α) :
    (l1 ++ a :: l2).insertIdx (l1.length + 1) m = l1 ++ a :: m :: l2 := by
  induction l1 with
  | nil => simp
  | cons c l1 ih => simpa using ih

theorem linLoop_zip : ∀ (fuel : Nat) (pre : List (X × ℝ)) (p : X × ℝ) (post : List (X × ℝ)),
    linLoop ops f tol fuel ((pre ++ p :: post).map Prod.fst) ((pre ++ p :: post).map Prod.snd) pre.length =
      (zipLoop ops f tol fuel pre p post).map (fun l => (l.map Prod.fst, l.map Prod.snd)) := by
  intro fuel
  induction fuel with
  | zero => intro pre p post; rfl
  | succ fuel ih =>
    intro pre p post
    cases post with
    | nil =>
      unfold linLoop
      rw [if_neg (by simp)]
      rfl
    | cons q post =>
      unfold linLoop
      rw [if_pos (by simp)]
      have e1 : getAt ((pre ++ p :: q :: post).map Prod.fst) pre.length = .ok p.1 := by
        simpa using getAt_mid (pre.map Prod.fst) p.1 _
      have e2 : getAt ((pre ++ p :: q :: post).map Prod.fst) (pre.length + 1) = .ok q.1 := by
        simpa using getAt_mid' (pre.map Prod.fst) p.1 q.1 _
      have e3 : getAt ((pre ++ p :: q :: post).map Prod.snd) pre.length = .ok p.2 := by
        simpa using getAt_mid (pre.map Prod.snd) p.2 _
      have e4 : getAt ((pre ++ p :: q :: post).map Prod.snd) (pre.length + 1) = .ok q.2 := by
        simpa using getAt_mid' (pre.map Prod.snd) p.2 q.2 _
      have hadv : linLoop ops f tol fuel ((pre ++ p :: q :: post).map Prod.fst) ((pre ++ p :: q :: post).map Prod.snd) (pre.length + 1) =
          (zipLoop ops f tol fuel (pre ++ [p]) q post).map (fun l => (l.map Prod.fst, l.map Prod.snd)) := by
        have := ih (pre ++ [p]) q post
        simpa [List.append_assoc] using this
      simp only [e1, e2, e3, e4, bind, Except.bind, zipLoop]
      by_cases h1 : ops.adj p.1 q.1
      · rw [if_pos h1, if_pos (show Ok ops f tol p q from Or.inl h1), hadv]
      · rw [if_neg h1]
        by_cases h2 : needsSplit tol (0.5 * (p.2 + q.2)) (f (ops.mid p.1 q.1))
        · rw [if_pos h2, if_neg (show ¬ Ok ops f tol p q by unfold Ok; tauto)]
          have i1 : ((pre ++ p :: q :: post).map Prod.fst).insertIdx (pre.length + 1) (ops.mid p.1 q.1) =
              (pre ++ p :: (ops.mid p.1 q.1, f (ops.mid p.1 q.1)) :: q :: post).map Prod.fst := by
            simpa using insertIdx_mid (pre.map Prod.fst) p.1 (ops.mid p.1 q.1) _
          have i2 : ((pre ++ p :: q :: post).map Prod.snd).insertIdx (pre.length + 1) (f (ops.mid p.1 q.1)) =
              (pre ++ p :: (ops.mid p.1 q.1, f (ops.mid p.1 q.1)) :: q :: post).map Prod.snd := by
            simpa using insertIdx_mid (pre.map Prod.snd) p.2 (f (ops.mid p.1 q.1)) _
          rw [i1, i2, ih]
        · rw [if_neg h2, if_pos (show Ok ops f tol p q from Or.inr h2), hadv]

/-- Invariants of the loop. -/
theorem zipLoop_spec : ∀ (fuel : Nat) (pre : List (X × ℝ)) (p : X × ℝ) (post l : List (X × ℝ)),
    zipLoop ops f tol fuel pre p post = .ok l → (pre ++ [p]).IsChain (Ok ops f tol) →
      l.IsChain (Ok ops f tol) ∧ (pre ++ p :: post).Sublist l ∧ ∀ r ∈ l, r ∈ pre ++ p :: post ∨ r.2 = f r.1 := by
  intro fuel
  induction fuel with
  | zero => intro pre p post l h; simp [zipLoop] at h
  | succ fuel ih =>
    intro pre p post l h hc
    cases post with
    | nil =>
      simp only [zipLoop, Except.ok.injEq] at h
      subst h
      exact ⟨hc, List.Sublist.refl _, fun r hr => Or.inl hr⟩
    | cons q post =>
      simp only [zipLoop] at h
      split at h
      · rename_i h1
        have hc' : (pre ++ [p] ++ [q]).IsChain (Ok ops f tol) := by
          rw [List.append_assoc]
          refine List.isChain_append_cons_cons.mpr ⟨hc, h1, List.isChain_singleton q⟩
        obtain ⟨r1, r2, r3⟩ := ih _ _ _ _ h hc'
        refine ⟨r1, by simpa using r2, by simpa using r3⟩
      · obtain ⟨r1, r2, r3⟩ := ih _ _ _ _ h hc
        refine ⟨r1, List.Sublist.trans ?_ r2, ?_⟩
        · refine (List.Sublist.refl pre).append ?_
          exact ((List.Sublist.refl _).cons _).cons_cons _
        · intro r hr
          rcases r3 r hr with h2 | h2
          · simp only [List.mem_append, List.mem_cons] at h2 ⊢
            rcases h2 with h2 | h2 | h2 | h2
            · exact Or.inl (Or.inl h2)
            · exact Or.inl (Or.inr (Or.inl h2))
            · right; rw [h2]
            · exact Or.inl (Or.inr (Or.inr h2))
          · exact Or.inr h2

/-- Order is preserved when mid points of abscissae in `D` lie between the ends (and are in `D`). -/
theorem zipLoop_sorted [LinearOrder X] (D : X → Prop)
    (hmid : ∀ a b, D a → D b → a ≤ b → ¬ ops.adj a b → D (ops.mid a b) ∧ a ≤ ops.mid a b ∧ ops.mid a b ≤ b) :
    ∀ (fuel : Nat) (pre : List (X × ℝ)) (p : X × ℝ) (post l : List (X × ℝ)),
    zipLoop ops f tol fuel pre p post = .ok l → (∀ r ∈ pre ++ p :: post, D r.1) → (pre ++ p :: post).Pairwise (fun a b => a.1 ≤ b.1) →
      l.Pairwise (fun a b => a.1 ≤ b.1) ∧ ∀ r ∈ l, D r.1 := by
  intro fuel
  induction fuel with
  | zero => intro pre p post l h; simp [zipLoop] at h
  | succ fuel ih =>
    intro pre p post l h hD hs
    cases post with
    | nil => simp only [zipLoop, Except.ok.injEq] at h; subst h; exact ⟨hs, hD⟩
    | cons q post =>
      simp only [zipLoop] at h
      split at h
      · exact ih _ _ _ _ h (by simpa using hD) (by simpa using hs)
      · rename_i h1
        have h2 : ¬ ops.adj p.1 q.1 := fun hc => h1 (Or.inl hc)
        have hle : p.1 ≤ q.1 := by
          simp only [List.pairwise_append, List.pairwise_cons] at hs
          exact hs.2.1.1 q (by simp)
        obtain ⟨m0, m1, m2⟩ := hmid p.1 q.1 (hD p (by simp)) (hD q (by simp)) hle h2
        refine ih _ _ _ _ h ?_ ?_
        · intro r hr
          simp only [List.mem_append, List.mem_cons] at hr
          rcases hr with hr | hr | hr | hr
          · exact hD r (by simp [hr])
          · exact hD r (by simp [hr])
          · rw [hr]; exact m0
          · exact hD r (by simp [hr])
        simp only [List.pairwise_append, List.pairwise_cons, List.mem_cons] at hs ⊢
        obtain ⟨s1, ⟨s2, s3, s4⟩, s5⟩ := hs
        refine ⟨s1, ⟨?_, ?_, s3, s4⟩, ?_⟩
        · rintro r (rfl | rfl | hr)
          · exact m1
          · exact s2 _ (Or.inl rfl)
          · exact s2 _ (Or.inr hr)
        · rintro r (rfl | hr)
          · exact m2
          · exact m2.trans (s3 _ hr)
        · rintro r hr b (rfl | rfl | rfl | hb)
          · exact s5 r hr _ (Or.inl rfl)
          · exact (s5 r hr p (Or.inl rfl)).trans m1
          · exact s5 r hr _ (Or.inr (Or.inl rfl))
          · exact s5 r hr _ (Or.inr (Or.inr hb))

/-- Termination: if `N` counts the numbers between two abscissae and splitting loses at least one of them. -/
def measure (N : X → X → ℕ) : X × ℝ → List (X × ℝ) → ℕ
  | _, [] => 1
  | p, q :: post => (2 * N p.1 q.1 + 1) + measure N q post

theorem zipLoop_terminates (P : X → X → Prop) (N : X → X → ℕ)
    (hN : ∀ a b, P a b → ¬ ops.adj a b → P a (ops.mid a b) ∧ P (ops.mid a b) b ∧ N a (ops.mid a b) + N (ops.mid a b) b < N a b) :
    ∀ (fuel : Nat) (pre : List (X × ℝ)) (p : X × ℝ) (post : List (X × ℝ)), (p :: post).IsChain (fun a b => P a.1 b.1) →
      measure N p post ≤ fuel → ∃ l, zipLoop ops f tol fuel pre p post = .ok l := by
  intro fuel
  induction fuel with
  | zero => intro pre p post _ h; cases post <;> simp [measure] at h
  | succ fuel ih =>
    intro pre p post hc hm
    cases post with
    | nil => exact ⟨_, rfl⟩
    | cons q post =>
      simp only [measure] at hm
      simp only [zipLoop]
      have hpq : P p.1 q.1 := hc.rel
      have htail : (q :: post).IsChain (fun a b => P a.1 b.1) := hc.tail
      split
      · exact ih _ _ _ htail (by omega)
      · rename_i h1
        have h2 : ¬ ops.adj p.1 q.1 := fun hc => h1 (Or.inl hc)
        obtain ⟨n1, n2, n3⟩ := hN p.1 q.1 hpq h2
        refine ih _ _ _ ?_ ?_
        · exact List.IsChain.cons_cons n1 (List.IsChain.cons_cons n2 htail)
        · simp only [measure]
          omega

end

/-- `linPoints` on the zipper. -/
theorem linPoints_zip {X : Type} [LinearOrder X] (ops : GridOps X) (f : X → ℝ) (tol : ℝ) (fuel : Nat) (ix : List X) (iy : List ℝ)
    (hne : ix ≠ []) (hl : ix.length = iy.length) (hs : ix.Pairwise (· ≤ ·)) :
    ∃ p post, ix.zip iy = p :: post ∧ (p :: post).Pairwise (fun a b => a.1 ≤ b.1) ∧ (∀ r ∈ p :: post, r.1 ∈ ix) ∧
      linPoints ops f tol fuel ix iy = (zipLoop ops f tol fuel [] p post).map (fun l => (l.map Prod.fst, l.map Prod.snd)) := by
  obtain ⟨a, ax, rfl⟩ := List.exists_cons_of_ne_nil hne
  obtain ⟨b, ay, rfl⟩ := List.exists_cons_of_ne_nil (l := iy) (by rintro rfl; simp at hl)
  have e1 : ((a :: ax).zip (b :: ay)).map Prod.fst = a :: ax := List.map_fst_zip (by omega)
  have e2 : ((a :: ax).zip (b :: ay)).map Prod.snd = b :: ay := List.map_snd_zip (by omega)
  have hp : ((a :: ax).zip (b :: ay)).Pairwise (fun a b => a.1 ≤ b.1) := by
    rw [← e1, List.pairwise_map] at hs
    exact hs
  refine ⟨(a, b), ax.zip ay, rfl, hp, ?_, ?_⟩
  · intro r hr
    rw [← e1]
    exact List.mem_map_of_mem (f := Prod.fst) hr
  · unfold linPoints
    rw [if_neg (by simpa using hl), if_neg (by simp [isSorted_iff.mpr hs])]
    have := linLoop_zip ops f tol fuel [] (a, b) (ax.zip ay)
    simp only [List.nil_append, List.length_nil] at this
    rw [← this]
    congr 1
    · exact e1.symm
    · exact e2.symm

theorem needsSplit_iff (tol a r : ℝ) : ¬ needsSplit tol a r ↔ |a - r| ≤ tol * |r| := by
  unfold needsSplit
  by_cases h : r = 0
  · subst h
    simp
  · rw [if_neg h, abs_div, gt_iff_lt, not_lt, div_le_iff₀ (abs_pos.mpr h)]

/-! ### Floating point mid points -/

/-- Smallest positive number. -/
noncomputable def eta : ℝ := (2 : ℝ) ^ (-1074 : ℤ)

theorem eta_pos : 0 < eta := by unfold eta; positivity

theorem isDouble_iff {r : ℝ} : IsDouble r ↔ ∃ (m : ℤ) (e : ℕ), |m| < 2 ^ 53 ∧ r = m * 2 ^ e * eta := Iff.rfl

theorem Spec.IsDouble.two_mul {r : ℝ} (h : IsDouble r) : IsDouble (2 * r) := by
  obtain ⟨m, e, hm, rfl⟩ := h
  exact ⟨m, e + 1, hm, by rw [pow_succ]; ring⟩

/-- Doubles are multiples of `eta`. -/
theorem Spec.IsDouble.int_mul {r : ℝ} (h : IsDouble r) : ∃ k : ℤ, r = k * eta := by
  obtain ⟨m, e, _, rfl⟩ := isDouble_iff.mp h
  exact ⟨m * 2 ^ e, by push_cast; ring⟩

/-- A double is either twice a double or an odd multiple of `eta` below `2^53 eta`. -/
theorem Spec.IsDouble.half {r : ℝ} (h : IsDouble r) : IsDouble (r / 2) ∨ ∃ m : ℤ, |m| < 2 ^ 53 ∧ Odd m ∧ r = m * eta := by
  obtain ⟨m, e, hm, rfl⟩ := isDouble_iff.mp h
  cases e with
  | succ e => left; exact isDouble_iff.mpr ⟨m, e, hm, by rw [pow_succ]; ring⟩
  | zero =>
    rcases Int.even_or_odd m with ⟨k, hk⟩ | ho
    · left
      refine isDouble_iff.mpr ⟨k, 0, ?_, ?_⟩
      · rw [abs_lt] at hm ⊢; omega
      · rw [hk]; push_cast; ring
    · right; exact ⟨m, hm, ho, by simp⟩

theorem isDouble_small {k : ℤ} (h : |k| ≤ 2 ^ 53) : IsDouble (k * eta) := by
  rcases lt_or_eq_of_le h with h | h
  · exact isDouble_iff.mpr ⟨k, 0, h, by simp⟩
  · rcases eq_or_eq_neg_of_abs_eq h with rfl | rfl
    · exact isDouble_iff.mpr ⟨2 ^ 52, 1, by norm_num, by push_cast; ring⟩
    · exact isDouble_iff.mpr ⟨-2 ^ 52, 1, by norm_num, by push_cast; ring⟩

section
variable {fl : ℝ → ℝ} (hfl : IsRoundToNearest fl)
include hfl

/-- Rounding does not cross doubles. -/
theorem fl_le {r d : ℝ} (hd : IsDouble d) (h : r ≤ d) : fl r ≤ d := by
  by_contra hc
  rw [not_le] at hc
  have := (hfl r).2 d hd
  rw [abs_of_nonneg (by linarith), abs_of_nonneg (by linarith)] at this
  linarith

theorem le_fl {r d : ℝ} (hd : IsDouble d) (h : d ≤ r) : d ≤ fl r := by
  by_contra hc
  rw [not_le] at hc
  have := (hfl r).2 d hd
  rw [abs_of_nonpos (by linarith), abs_of_nonpos (by linarith)] at this
  linarith

theorem fl_self {d : ℝ} (hd : IsDouble d) : fl d = d := le_antisymm (fl_le hfl hd le_rfl) (le_fl hfl hd le_rfl)

/-- The rounded sum of two non-adjacent doubles lies strictly between twice the one and twice the other. -/
theorem sum_between {a b c : ℝ} (ha : IsDouble a) (hb : IsDouble b) (hc : IsDouble c) (h1 : a < c) (h2 : c < b) :
    2 * a < fl (a + b) ∧ fl (a + b) < 2 * b := by
  have n := (hfl (a + b)).2 (2 * c) hc.two_mul
  have l := le_fl hfl ha.two_mul (show 2 * a ≤ a + b by linarith)
  have u := fl_le hfl hb.two_mul (show a + b ≤ 2 * b by linarith)
  constructor
  · refine lt_of_le_of_ne l fun he => ?_
    rw [← he, abs_of_neg (by linarith)] at n
    rcases abs_cases (2 * c - (a + b)) with ⟨e, _⟩ | ⟨e, _⟩ <;> rw [e] at n <;> linarith
  · refine lt_of_le_of_ne u fun he => ?_
    rw [he, abs_of_pos (by linarith)] at n
    rcases abs_cases (2 * c - (a + b)) with ⟨e, _⟩ | ⟨e, _⟩ <;> rw [e] at n <;> linarith

/-- The computed mid point of two non-adjacent doubles is a double strictly between them. -/
theorem mid_between {a b c : ℝ} (ha : IsDouble a) (hb : IsDouble b) (hc : IsDouble c) (h1 : a < c) (h2 : c < b) :
    IsDouble (fl (0.5 * fl (a + b))) ∧ a < fl (0.5 * fl (a + b)) ∧ fl (0.5 * fl (a + b)) < b := by
  refine ⟨(hfl _).1, ?_⟩
  obtain ⟨l, u⟩ := sum_between hfl ha hb hc h1 h2
  have hs := (hfl (a + b)).1
  obtain ⟨s, hs'⟩ : ∃ s, s = fl (a + b) := ⟨_, rfl⟩
  rw [← hs'] at hs l u ⊢
  have e : (0.5 : ℝ) * s = s / 2 := by ring
  rw [e]
  rcases hs.half with hh | ⟨m, hm, ho, hr⟩
  · rw [fl_self hfl hh]
    constructor <;> linarith
  · -- subnormal range: everything is an integer multiple of eta, and sums are exact
    obtain ⟨A, hA⟩ := ha.int_mul
    obtain ⟨B, hB⟩ := hb.int_mul
    have hη := eta_pos
    obtain ⟨k, hk⟩ := ho
    have lA : 2 * A < m := by
      have : (2 * A : ℝ) * eta < m * eta := by rw [← hr, mul_assoc, ← hA]; exact l
      exact_mod_cast lt_of_mul_lt_mul_right this hη.le
    have uB : m < 2 * B := by
      have : (m : ℝ) * eta < (2 * B : ℝ) * eta := by rw [← hr, mul_assoc, ← hB]; exact u
      exact_mod_cast lt_of_mul_lt_mul_right this hη.le
    rw [abs_lt] at hm
    have dk : IsDouble ((k : ℝ) * eta) := isDouble_small (by rw [abs_le]; constructor <;> omega)
    have dk1 : IsDouble (((k + 1 : ℤ) : ℝ) * eta) := isDouble_small (by rw [abs_le]; constructor <;> omega)
    have hs2 : s / 2 = (k : ℝ) * eta + eta / 2 := by rw [hr, hk]; push_cast; ring
    -- A < k and k + 1 < B, or the sum would have been rounded elsewhere
    have hAB : A < k ∧ k + 1 < B ∨ A = k ∧ k + 1 < B ∨ A < k ∧ k + 1 = B ∨ A = k ∧ k + 1 = B := by omega
    have hbad1 : ¬ (A = k) := by
      intro hAk
      have hB2 : A + 2 ≤ B := by
        by_contra hcon
        have : B = A + 1 := by omega
        obtain ⟨C, hC⟩ := hc.int_mul
        have c1 : A < C := by
          have : (A : ℝ) * eta < C * eta := by rw [← hA, ← hC]; exact h1
          exact_mod_cast lt_of_mul_lt_mul_right this hη.le
        have c2 : C < B := by
          have : (C : ℝ) * eta < B * eta := by rw [← hB, ← hC]; exact h2
          exact_mod_cast lt_of_mul_lt_mul_right this hη.le
        omega
      have := le_fl hfl dk1.two_mul (show 2 * (((k + 1 : ℤ) : ℝ) * eta) ≤ a + b by
        rw [hA, hB, hAk]
        have hB3 : ((k : ℝ) + 2) ≤ B := by rw [← hAk]; exact_mod_cast hB2
        push_cast
        nlinarith)
      rw [← hs', hr, hk] at this
      push_cast at this
      nlinarith
    have hbad2 : ¬ (k + 1 = B) := by
      intro hBk
      have hB2 : A + 2 ≤ B := by
        by_contra hcon
        omega
      have := fl_le hfl dk.two_mul (show a + b ≤ 2 * ((k : ℝ) * eta) by
        rw [hA, hB, ← hBk]
        have hB3 : (A : ℝ) ≤ k - 1 := by
          have : A ≤ k - 1 := by omega
          exact_mod_cast this
        push_cast
        nlinarith)
      rw [← hs', hr, hk] at this
      push_cast at this
      nlinarith
    have f1 := le_fl hfl dk (show (k : ℝ) * eta ≤ s / 2 by rw [hs2]; linarith)
    have f2 := fl_le hfl dk1 (show s / 2 ≤ ((k + 1 : ℤ) : ℝ) * eta by rw [hs2]; push_cast; linarith)
    have g1 : A + 1 ≤ k := by omega
    have g2 : k + 2 ≤ B := by omega
    have g1' : (A : ℝ) + 1 ≤ k := by exact_mod_cast g1
    have g2' : (k : ℝ) + 2 ≤ B := by exact_mod_cast g2
    rw [hA, hB]
    push_cast at f2
    constructor <;> nlinarith

end

/-- Doubles between two numbers are finitely many. -/
theorem doubles_finite (a b : ℝ) : {d | IsDouble d ∧ a < d ∧ d < b}.Finite := by
  have hη := eta_pos
  have : {d | IsDouble d ∧ a < d ∧ d < b} ⊆ (fun k : ℤ => (k : ℝ) * eta) '' (Set.Icc ⌊a / eta⌋ ⌈b / eta⌉) := by
    rintro d ⟨hd, h1, h2⟩
    obtain ⟨k, rfl⟩ := hd.int_mul
    refine ⟨k, ⟨?_, ?_⟩, rfl⟩
    · apply Int.floor_le_iff.mpr
      rw [div_lt_iff₀ hη]
      nlinarith
    · apply Int.le_ceil_iff.mpr
      rw [lt_div_iff₀ hη]
      nlinarith
  exact ((Set.finite_Icc _ _).image _).subset this

/-- Rounding to nearest exists. -/
theorem exists_rounding : ∃ fl, IsRoundToNearest fl := by
  have h0 : IsDouble 0 := ⟨0, 0, by norm_num, by simp⟩
  have : ∀ r : ℝ, ∃ d, IsDouble d ∧ ∀ d', IsDouble d' → |d - r| ≤ |d' - r| := by
    intro r
    have hf := doubles_finite (r - (|r| + 1)) (r + (|r| + 1))
    have hne : (0 : ℝ) ∈ {d | IsDouble d ∧ r - (|r| + 1) < d ∧ d < r + (|r| + 1)} :=
      ⟨h0, by linarith [le_abs_self r], by linarith [neg_abs_le r]⟩
    obtain ⟨d, ⟨hd, hd1, hd2⟩, hmin⟩ := Set.exists_min_image _ (fun d => |d - r|) hf ⟨0, hne⟩
    refine ⟨d, hd, fun d' hd' => ?_⟩
    by_cases hin : r - (|r| + 1) < d' ∧ d' < r + (|r| + 1)
    · exact hmin d' ⟨hd', hin⟩
    · have h3 := hmin 0 hne
      simp only [zero_sub, abs_neg] at h3
      refine h3.trans ?_
      by_contra hcon
      rw [not_le, abs_lt] at hcon
      exact hin ⟨by linarith, by linarith⟩
  choose fl h using this
  exact ⟨fl, h⟩

end PNDL
