import Verif.Model.Bracket
import Verif.Spec.Grid
import Verif.Spec.Tab1D
import Verif.Lemmas.Tab1D
import Verif.Props.CrossSection

/-! C67: the incoming-energy bracketing. -/
namespace PNDL
open Spec

/-- C67: on a sorted grid of at least two energies the two indices exist, the weight is in `[0, 1]`, both energies are
neighbours of `E` and the weighted mean of the two energies is `E` clipped to the grid. -/
theorem C67_bracket (grid : List ℝ) (E first last : ℝ) (hs : grid.Pairwise (· ≤ ·)) (hn : 2 ≤ grid.length)
    (h0 : grid[0]? = some first) (h1 : grid.getLast? = some last) :
    ∃ l f e0 e1, bracketIn grid E = .ok (l, f) ∧ l + 1 < grid.length ∧ grid[l]? = some e0 ∧ grid[l + 1]? = some e1 ∧
      0 ≤ f ∧ f ≤ 1 ∧ e0 + f * (e1 - e0) = clip E first last ∧
      (first < E → E ≤ last → e0 < E ∧ E ≤ e1) ∧ (E ≤ first → l = 0 ∧ f = 0) ∧ (last < E → l + 2 = grid.length ∧ f = 1) := by
  have hlast : grid[grid.length - 1]? = some last := by rw [← List.getLast?_eq_getElem?]; exact h1
  have hfl : first ≤ last := pairwise_le_getElem? hs (Nat.zero_le _) h0 hlast
  by_cases hA : E ≤ first
  · have hz : lowerBound grid E = 0 := by
      by_contra hc
      exact absurd ((lowerBound_iff hs E h0).mpr (Nat.pos_of_ne_zero hc)) (not_lt.mpr hA)
    obtain ⟨e1, he1⟩ := getElem?_of_lt (l := grid) (i := 0 + 1) (by omega)
    refine ⟨0, 0, first, e1, ?_, by omega, h0, he1, le_rfl, zero_le_one, ?_, fun h => absurd hA (not_le.mpr h),
      fun _ => ⟨rfl, rfl⟩, fun h => absurd (hfl.trans_lt h) (not_lt.mpr hA)⟩
    · unfold bracketIn
      rw [if_pos hz]
    · unfold clip
      simp only [zero_mul, add_zero]
      rw [min_eq_left (hA.trans hfl), max_eq_left hA]
  · rw [not_le] at hA
    by_cases hB : last < E
    · have hz : lowerBound grid E = grid.length := by
        have hle := lowerBound_le hs E
        have := (lowerBound_iff hs E hlast).mp hB
        omega
      obtain ⟨e0, he0⟩ := getElem?_of_lt (l := grid) (i := grid.length - 2) (by omega)
      have he1 : grid[grid.length - 2 + 1]? = some last := by rw [show grid.length - 2 + 1 = grid.length - 1 by omega]; exact hlast
      refine ⟨grid.length - 2, 1, e0, last, ?_, by omega, he0, he1, zero_le_one, le_rfl, ?_,
        fun _ h => absurd hB (not_lt.mpr h), fun h => absurd hA (not_lt.mpr h), fun _ => ⟨by omega, rfl⟩⟩
      · unfold bracketIn
        rw [if_neg (by omega), if_pos hz, subIdx_of_le hn]
        rfl
      · unfold clip
        rw [min_eq_right hB.le, max_eq_right hfl]; ring
    · rw [not_lt] at hB
      obtain ⟨i, x1, x2, e3, e1, e2, e4, e5⟩ := bracket_index hs h0 h1 hA hB
      have hlt := lt_length_of_some e2
      have hd : 0 < x2 - x1 := by linarith
      refine ⟨i, (E - x1) / (x2 - x1), x1, x2, ?_, hlt, e1, e2, by apply div_nonneg <;> linarith,
        by rw [div_le_one hd]; linarith, ?_, fun _ _ => ⟨e4, e5⟩, fun h => absurd hA (not_lt.mpr h),
        fun h => absurd hB (not_le.mpr h)⟩
      · unfold bracketIn
        rw [e3, if_neg (by omega), if_neg (by omega), subIdx_of_le (by omega)]
        simp only [bind, Except.bind, Nat.add_sub_cancel, getAt_eq_ok.mpr e1, getAt_eq_ok.mpr e2, rdiv_ok hd.ne']
        rfl
      · unfold clip
        rw [min_eq_left hB, max_eq_right hA.le]
        field_simp
        ring

/-- C67: both chosen energies are neighbours of `E` unless `E` lies outside the grid, where the table used (weight 1) is the
end one. -/
theorem C67_neighbours (grid : List ℝ) (E : ℝ) (l : Nat) (f : ℝ) (hs : grid.Pairwise (· ≤ ·)) (hn : 2 ≤ grid.length)
    (h : bracketIn grid E = .ok (l, f)) : (f < 1 → Neighbour grid E l) ∧ (0 < f → Neighbour grid E (l + 1)) := by
  obtain ⟨first, h0⟩ := getElem?_of_lt (l := grid) (i := 0) (by omega)
  obtain ⟨last, h1⟩ := last_exists (l := grid) (by omega)
  have hlast : grid[grid.length - 1]? = some last := by rw [← List.getLast?_eq_getElem?]; exact h1
  obtain ⟨l', f', e0, e1, hb, hlt, g0, g1, f0, f1, _, hmid, hlo, hhi⟩ := C67_bracket grid E first last hs hn h0 h1
  rw [hb] at h
  cases h
  by_cases hA : E ≤ first
  · obtain ⟨rfl, rfl⟩ := hlo hA
    refine ⟨fun _ => ⟨first, h0, ?_⟩, fun hc => absurd hc (lt_irrefl _)⟩
    intro a ha
    obtain ⟨j, hj⟩ := List.mem_iff_getElem?.mp ha
    have := pairwise_le_getElem? hs (Nat.zero_le _) h0 hj
    constructor <;> rintro ⟨p, q⟩ <;> linarith
  · rw [not_le] at hA
    by_cases hB : last < E
    · obtain ⟨hl, rfl⟩ := hhi hB
      refine ⟨fun hc => absurd hc (lt_irrefl _), fun _ => ⟨last, ?_, ?_⟩⟩
      · rw [show l + 1 = grid.length - 1 by omega]; exact hlast
      · intro a ha
        obtain ⟨j, hj⟩ := List.mem_iff_getElem?.mp ha
        have := pairwise_le_getElem? hs (by have := lt_length_of_some hj; omega) hj hlast
        constructor <;> rintro ⟨p, q⟩ <;> linarith
    · obtain ⟨a1, a2⟩ := hmid hA (not_lt.mp hB)
      refine ⟨fun _ => ⟨e0, g0, ?_⟩, fun _ => ⟨e1, g1, ?_⟩⟩ <;>
      · intro a ha
        obtain ⟨j, hj⟩ := List.mem_iff_getElem?.mp ha
        rcases Nat.lt_or_ge l j with hlj | hlj
        · have := pairwise_le_getElem? hs (show l + 1 ≤ j from hlj) g1 hj
          constructor <;> rintro ⟨p, q⟩ <;> linarith
        · have := pairwise_le_getElem? hs hlj hj g0
          constructor <;> rintro ⟨p, q⟩ <;> linarith

/-- C67: with a single energy the search is out of range above it; at or below it the index of the second table is one no
vector of one element has. -/
theorem C67_single (e E : ℝ) :
    (e < E → bracketIn [e] E = .error .ub) ∧
    (E ≤ e → bracketIn [e] E = .ok (0, 0) ∧ ∀ {α : Type} (x : α), getAt [x] (0 + 1) = .error .ub) := by
  have hs : [e].Pairwise (· ≤ ·) := List.pairwise_singleton _ _
  have hi := lowerBound_iff hs E (i := 0) (a := e) rfl
  have hle := lowerBound_le hs E
  simp only [List.length_cons, List.length_nil] at hle
  constructor
  · intro h
    have h1 : lowerBound [e] E = 1 := by have := hi.mp h; omega
    unfold bracketIn
    rw [h1]
    rfl
  · intro h
    have h1 : lowerBound [e] E = 0 := by
      by_contra hc
      exact absurd (hi.mpr (by omega)) (not_lt.mpr h)
    unfold bracketIn
    rw [h1]
    exact ⟨rfl, fun _ => rfl⟩

example : bracketIn [1, 3, 5] 4 = .ok (1, 1 / 2) := by
  norm_num [bracketIn, lowerBound, lowerBoundRange, bisect, subIdx, getAt, bind, Except.bind, rdiv, pure, Except.pure]

end PNDL
