import Verif.Props.CrossSection

/-! Totality and sign of the indexed evaluation of a cross section. -/
namespace PNDL
open Spec

set_option linter.unusedSectionVars false

variable {K : Type _} [Field K] [LinearOrder K] [IsStrictOrderedRing K]

/-- A cross section with one value per grid point from its index on. -/
structure FullXS (s : XS K) : Prop where
  notSingle : s.single = false
  below : s.index < s.grid.length
  aligned : s.index + s.values.length = s.grid.length

theorem Spec.GoodXS.full {s : XS K} (h : GoodXS s) : FullXS s := ⟨h.notSingle, h.below, h.aligned⟩

/-- A constant on a grid that is not empty. -/
def ConstXS (s : XS K) : Prop := s.single = true ∧ (∃ v, s.values[0]? = some v ∧ 0 ≤ v) ∧ 0 < s.grid.length

/-- `i` brackets `E` (nothing is asked when `i` is the last index or beyond). -/
def Brackets (grid : List K) (E : K) (i : Nat) : Prop := ∀ a b, grid[i]? = some a → grid[i + 1]? = some b → a ≤ E ∧ E ≤ b

/-- The shape of the indexed evaluation: 0, the last value, or a point on a chord of one interval. -/
theorem evalIdx_cases {s : XS K} (hg : FullXS s) (hs : s.grid.Pairwise (· < ·)) (E : K) (i : Nat) :
    (i < s.index ∧ s.evalIdx E i = .ok 0) ∨ (s.index ≤ i ∧ s.grid.length - 1 ≤ i ∧ ∃ v, s.values.getLast? = some v ∧ s.evalIdx E i = .ok v) ∨
      (s.index ≤ i ∧ ∃ a b sl sh, s.grid[i]? = some a ∧ s.grid[i + 1]? = some b ∧ a < b ∧ s.values[i - s.index]? = some sl ∧
        s.values[i - s.index + 1]? = some sh ∧ s.evalIdx E i = .ok ((E - a) / (b - a) * (sh - sl) + sl)) := by
  have hb := hg.below
  have ha := hg.aligned
  by_cases h1 : i < s.index
  · left; exact ⟨h1, by simp [XS.evalIdx, hg.notSingle, h1]⟩
  right
  have hpe : s.pastEnd i = true ↔ s.grid.length - 1 ≤ i := by
    unfold XS.pastEnd
    rw [decide_eq_true_eq]
    omega
  by_cases h2 : s.grid.length - 1 ≤ i
  · left
    obtain ⟨v, hv⟩ := last_exists (l := s.values) (by omega)
    refine ⟨by omega, h2, v, hv, ?_⟩
    simp [XS.evalIdx, hg.notSingle, h1, hpe.mpr h2, back_eq_ok.mpr hv]
  · right
    obtain ⟨a, k1⟩ := getElem?_of_lt (l := s.grid) (i := i) (by omega)
    obtain ⟨b, k2⟩ := getElem?_of_lt (l := s.grid) (i := i + 1) (by omega)
    obtain ⟨sl, k3⟩ := getElem?_of_lt (l := s.values) (i := i - s.index) (by omega)
    obtain ⟨sh, k4⟩ := getElem?_of_lt (l := s.values) (i := i - s.index + 1) (by omega)
    have hab := pairwise_lt_getElem? hs (Nat.lt_succ_self i) k1 k2
    have hne : b - a ≠ 0 := by
      have := sub_pos.mpr hab
      exact this.ne'
    have hp : ¬ s.pastEnd i = true := by rw [hpe]; exact h2
    refine ⟨by omega, a, b, sl, sh, k1, k2, hab, k3, k4, ?_⟩
    unfold XS.evalIdx
    rw [if_neg (by simp [hg.notSingle]), if_neg h1, if_neg hp]
    simp only [getAt_eq_ok.mpr k1, getAt_eq_ok.mpr k2, getAt_eq_ok.mpr k3, getAt_eq_ok.mpr k4, bind, Except.bind, xsLin,
      cdiv_of_ne hne, pure, Except.pure]

theorem evalIdx_total {s : XS K} (hg : FullXS s ∨ ConstXS s) (hs : s.grid.Pairwise (· < ·)) (E : K) (i : Nat) : ∃ v, s.evalIdx E i = .ok v := by
  rcases hg with hg | ⟨h1, ⟨v, hv, _⟩, h3⟩
  · rcases evalIdx_cases hg hs E i with ⟨_, h⟩ | ⟨_, _, v, _, h⟩ | ⟨_, a, b, sl, sh, _, _, _, _, _, h⟩
    · exact ⟨_, h⟩
    · exact ⟨_, h⟩
    · exact ⟨_, h⟩
  · obtain ⟨e0, he⟩ := getElem?_of_lt h3
    unfold XS.evalIdx XS.evalSingle
    rw [if_pos h1]
    simp only [front_eq_ok.mpr he, front_eq_ok.mpr hv, bind, Except.bind]
    split
    · exact ⟨_, rfl⟩
    · exact ⟨_, rfl⟩

theorem evalIdx_nonneg {s : XS K} (hg : GoodXS s ∨ ConstXS s) (hs : s.grid.Pairwise (· < ·)) (E : K) (i : Nat) (hbr : Brackets s.grid E i) (v : K)
    (hv : s.evalIdx E i = .ok v) : 0 ≤ v := by
  rcases hg with hg | ⟨h1, ⟨w, hw, hw0⟩, h3⟩
  · rcases evalIdx_cases hg.full hs E i with ⟨_, h⟩ | ⟨_, _, w, hw, h⟩ | ⟨_, a, b, sl, sh, k1, k2, hab, k3, k4, h⟩
    · rw [h] at hv; cases hv; exact le_rfl
    · rw [h] at hv; cases hv; exact hg.nonneg _ (List.mem_of_getLast? hw)
    · rw [h] at hv; cases hv
      obtain ⟨q1, q2⟩ := hbr a b k1 k2
      have := (lin_between (sl := sl) (sh := sh) hab q1 q2).1
      have m1 := hg.nonneg _ (List.mem_of_getElem? k3)
      have m2 := hg.nonneg _ (List.mem_of_getElem? k4)
      exact (le_min m1 m2).trans this
  · obtain ⟨e0, he⟩ := getElem?_of_lt h3
    unfold XS.evalIdx XS.evalSingle at hv
    rw [if_pos h1] at hv
    simp only [front_eq_ok.mpr he, front_eq_ok.mpr hw, bind, Except.bind] at hv
    split at hv
    · cases hv; exact le_rfl
    · cases hv; exact hw0

theorem evalIdx_nonneg_ok {s : XS K} (hg : GoodXS s ∨ ConstXS s) (hs : s.grid.Pairwise (· < ·)) (E : K) (i : Nat) (hbr : Brackets s.grid E i) :
    ∃ v, s.evalIdx E i = .ok v ∧ 0 ≤ v := by
  obtain ⟨v, hv⟩ := evalIdx_total (hg.imp_left GoodXS.full) hs E i
  exact ⟨v, hv, evalIdx_nonneg hg hs E i hbr v hv⟩

/-- The index the grid returns brackets the energy, from the first grid energy on. -/
theorem lowerIndex_brackets {grid : List ℝ} (hs : grid.Pairwise (· < ·)) {E mn : ℝ} {i : Nat} (h0 : grid[0]? = some mn) (hE : mn ≤ E)
    (h : IsLowerIndex grid E i) : Brackets grid E i := by
  intro a b ha hb
  obtain ⟨mx, hmx⟩ := last_exists (l := grid) (by have := lt_length_of_some h0; omega)
  obtain ⟨h1, h2, h3⟩ := h
  rcases eq_or_lt_of_le hE with heq | hlt
  · have := h1 mn h0 heq.ge
    subst this
    rw [h0] at ha
    cases ha
    exact ⟨hE, heq ▸ (pairwise_lt_getElem? hs (Nat.lt_succ_self 0) h0 hb).le⟩
  · rcases le_or_gt mx E with h4 | h4
    · have := h2 mn mx h0 hmx hlt h4
      have hl := lt_length_of_some hb
      omega
    · obtain ⟨a', b', k1, k2, k3, k4⟩ := h3 mn mx h0 hmx hlt h4
      rw [ha] at k1; rw [hb] at k2
      cases k1; cases k2
      exact ⟨k3.le, k4⟩

end PNDL
