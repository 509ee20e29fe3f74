import Verif.Model.Exception
import Verif.Spec.Exception
import Verif.Lemmas.Base

/-! C68: exception message wrapping. -/
namespace PNDL
open Spec

theorem breakIndex_spec (s : List Char) (start : Nat) : ∀ ind, ind < s.length →
    ∃ i, breakIndex s start ind = .ok i ∧
      ((i ≤ ind ∧ s[i]? = some ' ') ∨ (i = start ∧ ∀ j, j ≤ ind → s[j]? ≠ some ' ')) := by
  intro ind
  induction ind with
  | zero =>
    intro h
    obtain ⟨c, hc, hc'⟩ := getAt_exists h
    simp only [breakIndex, hc, bind, Except.bind, pure, Except.pure]
    by_cases hs : c = ' '
    · subst hs; exact ⟨0, by simp, Or.inl ⟨le_refl _, hc'⟩⟩
    · refine ⟨start, by simp [hs], Or.inr ⟨rfl, ?_⟩⟩
      intro j hj
      have : j = 0 := by omega
      subst this; rw [hc']; simpa using hs
  | succ ind ih =>
    intro h
    obtain ⟨c, hc, hc'⟩ := getAt_exists h
    simp only [breakIndex, hc, bind, Except.bind, pure, Except.pure]
    by_cases hs : c = ' '
    · subst hs; exact ⟨ind + 1, by simp, Or.inl ⟨le_refl _, hc'⟩⟩
    · obtain ⟨i, hi, hi2⟩ := ih (by omega)
      refine ⟨i, by simp [hs, hi], ?_⟩
      rcases hi2 with ⟨a, b⟩ | ⟨a, b⟩
      · exact Or.inl ⟨by omega, b⟩
      · refine Or.inr ⟨a, ?_⟩
        intro j hj
        by_cases hj2 : j ≤ ind
        · exact b j hj2
        · have : j = ind + 1 := by omega
          subst this; rw [hc']; simpa using hs

theorem breakLoop_spec (s0 : List Char) : ∀ n b s, WrapOf s0 s → 80 * (b + n) < s.length →
    (∀ i : Nat, s0[i]? ≠ some ' ' → s[i]? ≠ some ' ') →
    ∃ t, breakLoop n b s = .ok t ∧ WrapOf s0 t := by
  intro n
  induction n with
  | zero => intro b s hw _ _; exact ⟨s, rfl, hw⟩
  | succ n ih =>
    intro b s hw hlen hsp
    obtain ⟨i, hi, hi2⟩ := breakIndex_spec s (80 * (b + 1)) (80 * (b + 1)) (by omega)
    have hil : i < s.length := by
      rcases hi2 with ⟨a, _⟩ | ⟨a, _⟩ <;> omega
    have hstep : breakStep s b = .ok (s.set i '\n') := by
      simp [breakStep, hi, hil, bind, Except.bind, pure, Except.pure]
    have hsp' : ∀ j : Nat, s[j]? ≠ some ' ' → (s.set i '\n')[j]? ≠ some ' ' := by
      intro j hj
      rw [List.getElem?_set]
      split
      · simp
      · exact hj
    have hw' : WrapOf s0 (s.set i '\n') := by
      refine ⟨by simp [hw.1], ?_⟩
      intro k c hk
      have hk2 := hw.2 k c hk
      by_cases hki : i = k
      · subst hki
        have e : (s.set i '\n')[i]? = some '\n' := by simp [hil]
        right
        refine ⟨e, ?_⟩
        rcases hk2 with h1 | ⟨_, h2⟩
        · rcases hi2 with ⟨_, h3⟩ | ⟨h3, h4⟩
          · left; rw [h1] at h3; simpa using h3
          · right
            refine ⟨⟨b + 1, h3⟩, by omega, ?_⟩
            intro j hj
            exact hsp' j (h4 j (by omega))
        · rcases h2 with h2 | ⟨h2, h3, h4⟩
          · exact Or.inl h2
          · exact Or.inr ⟨h2, h3, fun j hj => hsp' j (h4 j hj)⟩
      · have e : (s.set i '\n')[k]? = s[k]? := by rw [List.getElem?_set]; simp [hki]
        rw [e]
        rcases hk2 with h1 | ⟨h1, h2⟩
        · exact Or.inl h1
        · refine Or.inr ⟨h1, ?_⟩
          rcases h2 with h2 | ⟨h2, h3, h4⟩
          · exact Or.inl h2
          · exact Or.inr ⟨h2, h3, fun j hj => hsp' j (h4 j hj)⟩
    obtain ⟨t, ht, ht2⟩ := ih (b + 1) (s.set i '\n') hw' (by simp; omega)
      (fun j hj => hsp' j (hsp j hj))
    exact ⟨t, by simp [breakLoop, hstep, bind, Except.bind, ht], ht2⟩

/-- Wrapping never reads or writes out of range, keeps the length, and changes only single characters to line breaks:
spaces, or — only where no space is left before a column that is a multiple of 80 — that one character. -/
theorem C68_wrap_safe (mssg : List Char) : ∃ t, wrapMessage mssg = .ok t ∧ WrapOf mssg t := by
  have hrefl : WrapOf mssg mssg := ⟨rfl, fun i c h => Or.inl h⟩
  unfold wrapMessage
  simp only
  by_cases h : ((mssg.length / 80 : Nat) : Int) - (if mssg.length % 80 = 0 then 1 else 0) > 0
  · rw [if_pos h]
    refine breakLoop_spec mssg _ 0 mssg hrefl ?_ (fun _ h => h)
    split at h <;> rename_i h80 <;> simp only [h80, if_true, if_false] <;> omega
  · rw [if_neg h]; exact ⟨mssg, rfl, hrefl⟩

/-- Messages of up to 80 characters are not changed at all. -/
theorem C68_short_unchanged (mssg : List Char) (h : mssg.length ≤ 80) : wrapMessage mssg = .ok mssg := by
  unfold wrapMessage
  simp only
  rw [if_neg]
  split <;> omega

/-- Adding to an exception keeps every earlier message verbatim: the old `what()` text is a suffix of the new one,
after any number of additions. -/
theorem C68_earlier_messages_kept (m : List Char) (adds : List (List Char × List Char × List Char)) :
    ∃ w, whatAfter m adds = .ok w ∧ m <:+ w := by
  induction adds generalizing m with
  | nil => exact ⟨m, rfl, List.suffix_refl _⟩
  | cons a rest ih =>
    obtain ⟨hdr, ftr, mssg⟩ := a
    obtain ⟨t, ht, _⟩ := C68_wrap_safe mssg
    obtain ⟨w, hw, hs⟩ := ih (renderMessage hdr ftr t ++ m)
    refine ⟨w, by simp [whatAfter, addToMessage, ht, bind, Except.bind, pure, Except.pure, hw], ?_⟩
    exact (List.suffix_append _ _).trans hs

/-- Every added message appears (wrapped) in the final text. -/
theorem C68_every_message_present (m : List Char) (adds : List (List Char × List Char × List Char))
    (a : List Char × List Char × List Char) (ha : a ∈ adds) :
    ∃ w t, whatAfter m adds = .ok w ∧ wrapMessage a.2.2 = .ok t ∧ renderMessage a.1 a.2.1 t <:+: w := by
  induction adds generalizing m with
  | nil => simp at ha
  | cons x rest ih =>
    obtain ⟨hdr, ftr, mssg⟩ := x
    obtain ⟨t, ht, _⟩ := C68_wrap_safe mssg
    have hstep : ∀ w, whatAfter (renderMessage hdr ftr t ++ m) rest = .ok w →
        whatAfter m ((hdr, ftr, mssg) :: rest) = .ok w := by
      intro w hw; simp [whatAfter, addToMessage, ht, bind, Except.bind, pure, Except.pure, hw]
    simp only [List.mem_cons] at ha
    rcases ha with rfl | ha
    · obtain ⟨w, hw, hs⟩ := C68_earlier_messages_kept (renderMessage hdr ftr t ++ m) rest
      exact ⟨w, t, hstep w hw, ht, ((List.prefix_append _ _).isInfix).trans hs.isInfix⟩
    · obtain ⟨w, t', hw, ht', hinf⟩ := ih (renderMessage hdr ftr t ++ m) ha
      exact ⟨w, t', hstep w hw, ht', hinf⟩

/-- The fall-back really loses text: an 81-character message without spaces has its last character overwritten. -/
theorem C68_character_lost : wrapMessage (List.replicate 81 'a') = .ok (List.replicate 80 'a' ++ ['\n']) := by
  decide +kernel

example : wrapMessage (List.replicate 70 'a' ++ [' '] ++ List.replicate 30 'b') =
    .ok (List.replicate 70 'a' ++ ['\n'] ++ List.replicate 30 'b') := by decide +kernel

end PNDL
