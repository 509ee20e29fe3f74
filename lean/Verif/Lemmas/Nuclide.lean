import Verif.Model.Nuclide
import Verif.Spec.Nuclide
import Verif.Lemmas.Prelude

namespace PNDL
open Spec

theorem elementsTable_length : elementsTable.length = 118 := by decide +kernel

/-- The largest tabulated mass of element `Z`, as a total function. -/
def largestOf (Z : Nat) : Nat := ((elementsTable[Z - 1]?).map ElemInfo.largest).getD 0

theorem largest_ok {Z : Nat} (h1 : 1 ≤ Z) (h2 : Z ≤ 118) : (Element.mk Z).largest = .ok (largestOf Z) := by
  have hl : Z - 1 < elementsTable.length := by rw [elementsTable_length]; omega
  simp [Element.largest, Element.info, subIdx, h1, getAt_of_lt hl, largestOf, hl, bind, Except.bind, pure, Except.pure]

theorem table_facts : ∀ i : Fin 118, ((elementsTable[i.val]?).map ElemInfo.largest).getD 0 < 300 ∧
    i.val + 1 < ((elementsTable[i.val]?).map ElemInfo.largest).getD 0 := by decide +kernel

theorem largest_lt {Z : Nat} (h1 : 1 ≤ Z) (h2 : Z ≤ 118) : largestOf Z < 300 :=
  (table_facts ⟨Z - 1, by omega⟩).1

theorem largest_gt {Z : Nat} (h1 : 1 ≤ Z) (h2 : Z ≤ 118) : Z < largestOf Z := by
  have := (table_facts ⟨Z - 1, by omega⟩).2
  simp only at this
  unfold largestOf; omega

theorem Element.ofZ_ok {Z : Nat} {e : Element} : Element.ofZ Z = .ok e ↔ 1 ≤ Z ∧ Z ≤ 118 ∧ e = ⟨Z⟩ := by
  unfold Element.ofZ nElem
  split
  · simp; omega
  · simp; constructor
    · rintro rfl; exact ⟨by omega, by omega, rfl⟩
    · rintro ⟨_, _, rfl⟩; rfl

theorem Isotope.ofZA_ok {Z A : Nat} {i : Isotope} :
    Isotope.ofZA Z A = .ok i ↔ 1 ≤ Z ∧ Z ≤ 118 ∧ Z ≤ A ∧ A < 300 ∧ i = ⟨⟨Z⟩, A⟩ := by
  unfold Isotope.ofZA Isotope.check
  by_cases h : 1 ≤ Z ∧ Z ≤ 118
  · rw [Element.ofZ_ok.mpr ⟨h.1, h.2, rfl⟩]
    simp only [bind, Except.bind]
    split
    · simp; omega
    · split
      · simp; omega
      · simp; constructor
        · rintro rfl; exact ⟨by omega, by omega, by omega, by omega, rfl⟩
        · rintro ⟨_, _, _, _, rfl⟩; rfl
  · have : Element.ofZ Z = .error .exc := by unfold Element.ofZ nElem; rw [if_pos (by omega)]
    rw [this]; simp [bind, Except.bind]; omega

theorem Isotope.ofZA_err {Z A : Nat} (h : ¬ (1 ≤ Z ∧ Z ≤ 118 ∧ Z ≤ A ∧ A < 300)) :
    Isotope.ofZA Z A = .error .exc := by
  unfold Isotope.ofZA Isotope.check Element.ofZ nElem
  simp only [bind, Except.bind]
  split <;> rename_i h1
  · split at h1
    · simp at h1; rw [h1]
    · simp at h1
  · split at h1
    · simp at h1
    · simp at h1; subst h1
      simp only
      split
      · rfl
      · split
        · rfl
        · exact absurd ⟨by omega, by omega, by omega, by omega⟩ h

/-- Closed form of the decode loop when it runs exactly `k` times and stops. -/
theorem decodeLoop_steps (L A' : Nat) (hstop : ¬ (A' > L ∧ A' > 100)) :
    ∀ k f lvl, k < f ∨ k = f → lvl < 256 → (∀ j, 1 ≤ j → j ≤ k → A' + 100 * j > L ∧ A' + 100 * j > 100) →
      decodeLoop L f (A' + 100 * k) lvl = (A', (lvl + k) % 256) := by
  intro k
  induction k with
  | zero =>
    intro f lvl hf hl _
    cases f with
    | zero => simp [decodeLoop, Nat.mod_eq_of_lt hl]
    | succ f => rw [decodeLoop]; simp only [Nat.mul_zero, Nat.add_zero, if_neg hstop]; rw [Nat.mod_eq_of_lt hl]
  | succ k ih =>
    intro f lvl hf hl hj
    cases f with
    | zero => omega
    | succ f =>
      rw [decodeLoop, if_pos (hj (k + 1) (by omega) (le_refl _))]
      rw [show A' + 100 * (k + 1) - 100 = A' + 100 * k by omega]
      rw [ih f _ (by omega) (Nat.mod_lt _ (by decide)) (fun j h1 h2 => hj j h1 (by omega))]
      congr 1
      omega

/-- The final mass never exceeds the start and is congruent to it mod 100. -/
theorem decodeLoop_shape (L : Nat) : ∀ f A lvl, A ≤ f → lvl < 256 →
    ∃ k, A = (decodeLoop L f A lvl).1 + 100 * k ∧ (decodeLoop L f A lvl).2 = (lvl + k) % 256 ∧
      ¬ ((decodeLoop L f A lvl).1 > L ∧ (decodeLoop L f A lvl).1 > 100) ∧
      (∀ j, 1 ≤ j → j ≤ k → (decodeLoop L f A lvl).1 + 100 * j > L ∧ (decodeLoop L f A lvl).1 + 100 * j > 100) := by
  intro f
  induction f with
  | zero =>
    intro A lvl h hl
    refine ⟨0, by simp [decodeLoop], by simp [decodeLoop, Nat.mod_eq_of_lt hl], ?_, ?_⟩
    · simp [decodeLoop]; omega
    · intros; omega
  | succ f ih =>
    intro A lvl h hl
    rw [decodeLoop]
    split
    · rename_i hc
      obtain ⟨k, h1, h2, h3, h4⟩ := ih (A - 100) ((lvl + 1) % 2 ^ 8) (by omega) (Nat.mod_lt _ (by decide))
      refine ⟨k + 1, by omega, by rw [h2]; omega, h3, ?_⟩
      intro j hj1 hj2
      by_cases hjk : j ≤ k
      · exact h4 j hj1 hjk
      · have : j = k + 1 := by omega
        subst this; omega
    · rename_i hc
      refine ⟨0, by simp, by simp [Nat.mod_eq_of_lt hl], hc, ?_⟩
      intros; omega

/-- Unfolding of `Nuclide(ZAID)` in terms of the table. -/
theorem Nuclide.ofZaid_eq (z : ZAID) (h1 : 1 ≤ z.Z) (h2 : z.Z ≤ 118) :
    Nuclide.ofZaid z =
      if z.A > 300 then
        let r := decodeLoop (largestOf z.Z) (sub32 z.A 400) (sub32 z.A 400) 1
        if r.1 > largestOf z.Z then .error .exc
        else (Isotope.ofZA z.Z r.1).map (fun i => ⟨i, r.2⟩)
      else (Isotope.ofZA z.Z z.A).map (fun i => ⟨i, 0⟩) := by
  unfold Nuclide.ofZaid
  rw [Element.ofZ_ok.mpr ⟨h1, h2, rfl⟩]
  simp only [bind, Except.bind, largest_ok h1 h2, pure, Except.pure]
  by_cases hA : z.A > 300
  · simp only [if_pos hA]
    by_cases hL : (decodeLoop (largestOf z.Z) (sub32 z.A 400) (sub32 z.A 400) 1).1 > largestOf z.Z
    · simp only [if_pos hL]
    · simp only [if_neg hL]
      cases Isotope.ofZA z.Z _ <;> simp [Except.map]
  · simp only [if_neg hA]
    cases Isotope.ofZA z.Z _ <;> simp [Except.map]

end PNDL
