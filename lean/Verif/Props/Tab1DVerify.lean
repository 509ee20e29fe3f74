import Verif.Props.Tab1D

/-! C18 (continued): exactly which points an interpolation law accepts. -/
namespace PNDL
open Spec

namespace Spec
/-- No two of the values lie on different sides of zero (zero counting as positive). -/
def SameSide (l : List ℝ) : Prop := ∀ a ∈ l, ∀ b ∈ l, a < 0 → b < 0

/-- The points a law accepts: as many ordinates as abscissae, at least one, sorted; no repeated abscissa for histograms; logarithms
only of values on one side of zero. -/
def LawAccepts (r : Interpolation) (xs ys : List ℝ) : Prop :=
  xs.length = ys.length ∧ xs ≠ [] ∧ xs.Pairwise (· ≤ ·) ∧
  match r with
  | .histogram => xs.Pairwise (· < ·)
  | .linLin => True
  | .linLog => SameSide xs
  | .logLin => SameSide ys
  | .logLog => SameSide xs ∧ SameSide ys
end Spec

theorem hasSignChange_iff {l : List ℝ} (h : l ≠ []) :
    (Interpolation.hasSignChange l = .ok false ∧ SameSide l) ∨ (Interpolation.hasSignChange l = .ok true ∧ ¬ SameSide l) := by
  cases l with
  | nil => exact absurd rfl h
  | cons a l =>
    simp only [Interpolation.hasSignChange, front, getAt, List.getElem?_cons_zero, bind, Except.bind, pure, Except.pure]
    by_cases hs : SameSide (a :: l)
    · left
      refine ⟨?_, hs⟩
      congr 1
      rw [List.any_eq_false]
      intro b hb
      have h1 := hs a (by simp) b hb
      have h2 := hs b hb a (by simp)
      simp only [decide_eq_true_eq, not_not]
      exact ⟨h2, h1⟩
    · right
      refine ⟨?_, hs⟩
      congr 1
      rw [List.any_eq_true]
      by_contra hc
      apply hs
      intro u hu v hv hlt
      have : ∀ b ∈ a :: l, (b < 0 ↔ a < 0) := by
        intro b hb
        by_contra hn
        exact hc ⟨b, hb, by simpa using hn⟩
      exact (this v hv).mpr ((this u hu).mp hlt)

theorem hasAdjacentEqual_iff : ∀ {l : List ℝ}, l.Pairwise (· ≤ ·) → (Interpolation.hasAdjacentEqual l = false ↔ l.Pairwise (· < ·)) := by
  intro l
  induction l with
  | nil => intro _; simp [Interpolation.hasAdjacentEqual]
  | cons a l ih =>
    intro h
    cases l with
    | nil => simp [Interpolation.hasAdjacentEqual]
    | cons b l =>
      rw [List.pairwise_cons] at h
      simp only [Interpolation.hasAdjacentEqual, Bool.or_eq_false_iff, decide_eq_false_iff_not, ih h.2]
      constructor
      · rintro ⟨h1, h2⟩
        refine List.pairwise_cons.mpr ⟨?_, h2⟩
        have hab : a < b := lt_of_le_of_ne (h.1 b (by simp)) h1
        intro c hc
        rcases List.mem_cons.mp hc with rfl | hc
        · exact hab
        · exact hab.trans ((List.pairwise_cons.mp h2).1 c hc)
      · intro h2
        exact ⟨((List.pairwise_cons.mp h2).1 b (by simp)).ne, (List.pairwise_cons.mp h2).2⟩

/-- A region is built exactly from the points its law accepts, unchanged; anything else throws `PNDLException`. -/
theorem C18_law (r : Interpolation) (xs ys : List ℝ) :
    (LawAccepts r xs ys ∧ Region.make r xs ys = .ok ⟨r, xs, ys⟩) ∨ (¬ LawAccepts r xs ys ∧ Region.make r xs ys = .error .exc) := by
  unfold Region.make LawAccepts
  by_cases h1 : xs.length = ys.length
  swap
  · right; exact ⟨fun h => h1 h.1, by rw [if_pos h1]⟩
  by_cases h2 : xs = []
  · right; exact ⟨fun h => h.2.1 h2, by rw [if_neg (by omega), if_pos (by simp [h2])]⟩
  have h2' : ys ≠ [] := by intro hc; rw [hc] at h1; simp at h1; exact h2 h1
  have h2'' : xs.length ≠ 0 := by simpa using h2
  by_cases h3 : xs.Pairwise (· ≤ ·)
  swap
  · right
    refine ⟨fun h => h3 h.2.2.1, ?_⟩
    rw [if_neg (by omega), if_neg h2'', if_pos]
    cases hs : isSorted xs with
    | false => rfl
    | true => exact absurd (isSorted_iff.mp hs) h3
  have h3' := isSorted_iff.mpr h3
  rw [if_neg (by omega), if_neg h2'', if_neg (by simp [h3'])]
  have hx := hasSignChange_iff h2
  have hy := hasSignChange_iff h2'
  have ha := hasAdjacentEqual_iff h3
  cases r with
  | histogram =>
    cases hb : Interpolation.hasAdjacentEqual xs with
    | false => left; simp [Interpolation.verifyX, Interpolation.verifyY, hb, bind, Except.bind, pure, Except.pure, h1, h2, h3, ha.mp hb]
    | true =>
      right
      have hn : ¬ xs.Pairwise (· < ·) := fun hc => by rw [ha.mpr hc] at hb; cases hb
      simp [Interpolation.verifyX, hb, bind, Except.bind, hn]
  | linLin => left; simp [Interpolation.verifyX, Interpolation.verifyY, h3', bind, Except.bind, pure, Except.pure, h1, h2, h3]
  | linLog =>
    rcases hx with ⟨e, s⟩ | ⟨e, s⟩
    · left; simp [Interpolation.verifyX, Interpolation.verifyY, e, bind, Except.bind, pure, Except.pure, h1, h2, h3, s]
    · right; simp [Interpolation.verifyX, Interpolation.verifyY, e, bind, Except.bind, s]
  | logLin =>
    rcases hy with ⟨e, s⟩ | ⟨e, s⟩
    · left; simp [Interpolation.verifyX, Interpolation.verifyY, e, bind, Except.bind, pure, Except.pure, h1, h2, h3, s]
    · right; simp [Interpolation.verifyX, Interpolation.verifyY, e, bind, Except.bind, s]
  | logLog =>
    rcases hx with ⟨e, s⟩ | ⟨e, s⟩
    · rcases hy with ⟨e', s'⟩ | ⟨e', s'⟩
      · left; simp [Interpolation.verifyX, Interpolation.verifyY, e, e', bind, Except.bind, pure, Except.pure, h1, h2, h3, s, s']
      · right; simp [Interpolation.verifyX, Interpolation.verifyY, e, e', bind, Except.bind, s']
    · right; simp [Interpolation.verifyX, Interpolation.verifyY, e, bind, Except.bind, s]

/-- Every region of a constructed table satisfies its law's requirements. -/
theorem C18_regions (nbt : List Nat) (int : List Interpolation) (x y : List ℝ) (t : Tab1D) (h : Tab1D.make nbt int x y = .ok t) :
    ∀ g ∈ t.regions, LawAccepts g.interp g.xs g.ys := by
  have hb : ∀ (bps : List (Nat × Interpolation)) (low : Nat) (gs : List Region), buildRegions x y bps low = .ok gs →
      ∀ g ∈ gs, LawAccepts g.interp g.xs g.ys := by
    intro bps
    induction bps with
    | nil => intro low gs h g hg; simp only [buildRegions] at h; cases h; simp at hg
    | cons p rest ih =>
      obtain ⟨hi, r⟩ := p
      intro low gs h
      simp only [buildRegions, bind, Except.bind, pure, Except.pure] at h
      cases h1 : slice x low hi with
      | error e => rw [h1] at h; cases h
      | ok xs =>
        cases h2 : slice y low hi with
        | error e => rw [h1, h2] at h; cases h
        | ok ys =>
          simp only [h1, h2] at h
          rcases C18_law r xs ys with ⟨hl, hm⟩ | ⟨hl, hm⟩
          · simp only [hm] at h
            cases h3 : nextLow x hi with
            | error e => rw [h3] at h; cases h
            | ok l' =>
              simp only [h3] at h
              cases h4 : buildRegions x y rest l' with
              | error e => rw [h4] at h; cases h
              | ok gs' =>
                simp only [h4] at h
                cases h
                intro g hg
                rcases List.mem_cons.mp hg with rfl | hg
                · exact hl
                · exact ih _ _ h4 g hg
          · rw [hm] at h; cases h
  unfold Tab1D.make at h
  by_cases h1 : nbt.length = int.length
  swap
  · rw [if_pos h1] at h; cases h
  rw [if_neg (by omega)] at h
  by_cases h2 : x.length = y.length
  swap
  · rw [if_pos h2] at h; cases h
  rw [if_neg (by omega)] at h
  by_cases h3 : isSorted x = false
  · rw [if_pos h3] at h; cases h
  rw [if_neg h3] at h
  cases h4 : buildRegions x y (nbt.zip int) 0 with
  | error e => simp [h4, bind, Except.bind] at h
  | ok gs =>
    simp only [h4, bind, Except.bind, pure, Except.pure] at h
    cases h
    exact hb _ _ _ h4

/-- A table with one law is accepted exactly when the law accepts its points. -/
theorem C18_one_law (r : Interpolation) (x y : List ℝ) (hn : x ≠ []) :
    (∃ t, Tab1D.make [x.length] [r] x y = .ok t) ↔ LawAccepts r x y := by
  constructor
  · rintro ⟨t, h⟩
    have hpos : 1 ≤ x.length := by cases x with | nil => exact absurd rfl hn | cons a l => simp
    obtain ⟨gs, rfl, hxy, hs, ht, _, _⟩ := make_ok (single_valid _ hpos) h
    obtain ⟨nxt, gs'', rfl, q1, q2, q3, q4⟩ := tiles_head ht
    have := C18_regions _ _ _ _ _ h _ (List.mem_cons_self)
    simp only [points, List.drop_zero] at this
    rw [List.take_of_length_le (le_refl _), List.take_of_length_le (by omega)] at this
    exact this
  · intro h
    unfold Tab1D.make
    have hl : x.length = y.length := h.1
    have hs : isSorted x = true := isSorted_iff.mpr h.2.2.1
    have hpos : x.length ≠ 0 := by simpa using hn
    rw [if_neg (by simp), if_neg (by omega), if_neg (by simp [hs])]
    have hm : Region.make r x y = .ok ⟨r, x, y⟩ := by
      rcases C18_law r x y with ⟨_, hm⟩ | ⟨hl, _⟩
      · exact hm
      · exact absurd h hl
    have hsx : slice x 0 x.length = .ok x := by simp [slice]
    have hsy : slice y 0 x.length = .ok y := by simp [slice, hl]
    have hnx : ∃ l', nextLow x x.length = .ok l' := by
      unfold nextLow
      simp [subIdx_of_le (show 1 ≤ x.length by omega), bind, Except.bind, pure, Except.pure]
    obtain ⟨l', hl'⟩ := hnx
    simp [buildRegions, hsx, hsy, hm, hl', bind, Except.bind, pure, Except.pure]

/-- Non-vacuity: both signs in one logarithmic table are refused, in either order; either sign alone is accepted. -/
example : ¬ LawAccepts .logLin [1, 2] [-1, 1] ∧ ¬ LawAccepts .logLin [1, 2] [1, -1] ∧ LawAccepts .logLin [1, 2] [-1, -2] := by
  refine ⟨?_, ?_, rfl, by simp, by norm_num, ?_⟩ <;> simp only [LawAccepts, SameSide] <;> norm_num

end PNDL
