import Verif.Spec.Frame
import Verif.Lemmas.Interp
import Verif.Props.Angle

/-! C44-C47: frame changes and rotations. -/
namespace PNDL
open Spec

theorem csqrt_ok {x : ℝ} (h : 0 ≤ x) : csqrt x = .ok (Real.sqrt x) := by unfold csqrt; exact if_pos h
theorem csqrt_bad {x : ℝ} (h : x < 0) : csqrt x = .error .nonfinite := by unfold csqrt; exact if_neg (not_le.mpr h)

/-- The speed of the centre of mass. -/
theorem vcm_sq {Ein A : ℝ} (h : 0 ≤ Ein) (hA : -1 < A) :
    0 ≤ Real.sqrt Ein / (A + 1) ∧ (Real.sqrt Ein / (A + 1)) ^ 2 = Ein / (A + 1) ^ 2 := by
  have : 0 < A + 1 := by linarith
  exact ⟨by positivity, by rw [div_pow, Real.sq_sqrt h]⟩

/-- Closed form of the CM to lab transform. -/
theorem cmToLab_eq {Ein A mu E : ℝ} (hE : 0 ≤ Ein) (hA : -1 < A) (h : 0 ≤ E)
    (hpos : 0 < E + 2 * mu * Real.sqrt E * (Real.sqrt Ein / (A + 1)) + (Real.sqrt Ein / (A + 1)) ^ 2) :
    cmToLab Ein A mu E = .ok ((mu * Real.sqrt E + Real.sqrt Ein / (A + 1)) /
        Real.sqrt (E + 2 * mu * Real.sqrt E * (Real.sqrt Ein / (A + 1)) + (Real.sqrt Ein / (A + 1)) ^ 2),
      E + 2 * mu * Real.sqrt E * (Real.sqrt Ein / (A + 1)) + (Real.sqrt Ein / (A + 1)) ^ 2) := by
  have hA' : 0 < A + 1 := by linarith
  have e : E + (Ein + 2 * mu * (A + 1) * Real.sqrt (Ein * E)) / (A + 1) ^ 2 =
      E + 2 * mu * Real.sqrt E * (Real.sqrt Ein / (A + 1)) + (Real.sqrt Ein / (A + 1)) ^ 2 := by
    rw [(vcm_sq hE hA).2, Real.sqrt_mul hE]
    field_simp
    ring
  obtain ⟨EL, hEL⟩ : ∃ EL, EL = E + 2 * mu * Real.sqrt E * (Real.sqrt Ein / (A + 1)) + (Real.sqrt Ein / (A + 1)) ^ 2 := ⟨_, rfl⟩
  rw [← hEL] at hpos e ⊢
  unfold cmToLab
  rw [csqrt_ok (mul_nonneg hE h)]
  simp only [bind, Except.bind]
  rw [rdiv_ok (by positivity)]
  simp only [e]
  rw [rdiv_ok hpos.ne', rdiv_ok hpos.ne']
  simp only
  rw [csqrt_ok (by positivity), rdiv_ok hA'.ne']
  simp only
  rw [csqrt_ok (by positivity)]
  simp only [pure, Except.pure]
  have hsq : 0 < Real.sqrt EL := Real.sqrt_pos.mpr hpos
  congr 2
  rw [Real.sqrt_div h, Real.sqrt_div hE]
  field_simp

/-- The transform fails exactly on a particle at rest in the lab (or beyond any physical cosine). -/
theorem cmToLab_fails {Ein A mu E : ℝ} (hE : 0 ≤ Ein) (hA : -1 < A) (h : 0 < E)
    (hpos : E + 2 * mu * Real.sqrt E * (Real.sqrt Ein / (A + 1)) + (Real.sqrt Ein / (A + 1)) ^ 2 ≤ 0) :
    cmToLab Ein A mu E = .error .nonfinite := by
  have hA' : 0 < A + 1 := by linarith
  have e : E + (Ein + 2 * mu * (A + 1) * Real.sqrt (Ein * E)) / (A + 1) ^ 2 =
      E + 2 * mu * Real.sqrt E * (Real.sqrt Ein / (A + 1)) + (Real.sqrt Ein / (A + 1)) ^ 2 := by
    rw [(vcm_sq hE hA).2, Real.sqrt_mul hE]
    field_simp
    ring
  obtain ⟨EL, hEL⟩ : ∃ EL, EL = E + 2 * mu * Real.sqrt E * (Real.sqrt Ein / (A + 1)) + (Real.sqrt Ein / (A + 1)) ^ 2 := ⟨_, rfl⟩
  rw [← hEL] at hpos e
  unfold cmToLab
  rw [csqrt_ok (mul_nonneg hE h.le)]
  simp only [bind, Except.bind]
  rw [rdiv_ok (by positivity)]
  simp only [e]
  rcases hpos.lt_or_eq with hlt | heq
  · rw [rdiv_ok hlt.ne]
    simp only
    rw [csqrt_bad (div_neg_of_pos_of_neg h hlt)]
  · rw [heq, rdiv_zero]

/-- Closed form of the lab to CM transform. -/
theorem labToCm_eq {Ein A mu E : ℝ} (hE : 0 ≤ Ein) (hA : -1 < A) (h : 0 < E)
    (hpos : 0 < E - 2 * mu * Real.sqrt E * (Real.sqrt Ein / (A + 1)) + (Real.sqrt Ein / (A + 1)) ^ 2) :
    labToCm Ein A mu E = .ok ((mu * Real.sqrt E - Real.sqrt Ein / (A + 1)) /
        Real.sqrt (E - 2 * mu * Real.sqrt E * (Real.sqrt Ein / (A + 1)) + (Real.sqrt Ein / (A + 1)) ^ 2),
      E - 2 * mu * Real.sqrt E * (Real.sqrt Ein / (A + 1)) + (Real.sqrt Ein / (A + 1)) ^ 2) := by
  have hA' : 0 < A + 1 := by linarith
  have hs : 0 < Real.sqrt E := Real.sqrt_pos.mpr h
  have e : E - (Ein + 2 * (A + 1) * Real.sqrt (Ein * E) * (mu - 1 / (A + 1) * Real.sqrt (Ein / E))) / ((A + 1) * (A + 1)) =
      E - 2 * mu * Real.sqrt E * (Real.sqrt Ein / (A + 1)) + (Real.sqrt Ein / (A + 1)) ^ 2 := by
    rw [Real.sqrt_mul hE, Real.sqrt_div hE]
    have h1 : Real.sqrt Ein ^ 2 = Ein := Real.sq_sqrt hE
    field_simp
    linear_combination h1
  obtain ⟨EL, hEL⟩ : ∃ EL, EL = E - 2 * mu * Real.sqrt E * (Real.sqrt Ein / (A + 1)) + (Real.sqrt Ein / (A + 1)) ^ 2 := ⟨_, rfl⟩
  rw [← hEL] at hpos e ⊢
  unfold labToCm
  rw [csqrt_ok (mul_nonneg hE h.le)]
  simp only [bind, Except.bind]
  rw [rdiv_ok hA'.ne', rdiv_ok h.ne']
  simp only
  rw [csqrt_ok (by positivity)]
  simp only
  rw [rdiv_ok (by positivity)]
  simp only [e]
  rw [rdiv_ok hpos.ne']
  simp only
  rw [csqrt_ok (by positivity)]
  simp only [pure, Except.pure]
  have hsq : 0 < Real.sqrt EL := Real.sqrt_pos.mpr hpos
  congr 2
  rw [Real.sqrt_div h.le, Real.sqrt_div hE]
  field_simp

/-- The lab to CM transform fails on a particle at rest in the CM. -/
theorem labToCm_fails {Ein A mu E : ℝ} (hE : 0 ≤ Ein) (hA : -1 < A) (h : 0 < E)
    (hpos : E - 2 * mu * Real.sqrt E * (Real.sqrt Ein / (A + 1)) + (Real.sqrt Ein / (A + 1)) ^ 2 ≤ 0) :
    labToCm Ein A mu E = .error .nonfinite := by
  have hA' : 0 < A + 1 := by linarith
  have hs : 0 < Real.sqrt E := Real.sqrt_pos.mpr h
  have e : E - (Ein + 2 * (A + 1) * Real.sqrt (Ein * E) * (mu - 1 / (A + 1) * Real.sqrt (Ein / E))) / ((A + 1) * (A + 1)) =
      E - 2 * mu * Real.sqrt E * (Real.sqrt Ein / (A + 1)) + (Real.sqrt Ein / (A + 1)) ^ 2 := by
    rw [Real.sqrt_mul hE, Real.sqrt_div hE]
    have h1 : Real.sqrt Ein ^ 2 = Ein := Real.sq_sqrt hE
    field_simp
    linear_combination h1
  obtain ⟨EL, hEL⟩ : ∃ EL, EL = E - 2 * mu * Real.sqrt E * (Real.sqrt Ein / (A + 1)) + (Real.sqrt Ein / (A + 1)) ^ 2 := ⟨_, rfl⟩
  rw [← hEL] at hpos e
  unfold labToCm
  rw [csqrt_ok (mul_nonneg hE h.le)]
  simp only [bind, Except.bind]
  rw [rdiv_ok hA'.ne', rdiv_ok h.ne']
  simp only
  rw [csqrt_ok (by positivity)]
  simp only
  rw [rdiv_ok (by positivity)]
  simp only [e]
  rcases hpos.lt_or_eq with hlt | heq
  · rw [rdiv_ok hlt.ne]
    simp only
    rw [csqrt_bad (div_neg_of_pos_of_neg h hlt)]
  · rw [heq, rdiv_zero]

/-! ## C44 -/

/-- C44: whatever `CMToLab::transform` returns for a positive CM energy is the boosted velocity, has positive energy, and
`LabToCM::transform` recovers the CM cosine and energy. -/
theorem C44_cm_lab_cm (Ein A mu E muL EL : ℝ) (hE : 0 ≤ Ein) (hA : -1 < A) (h : 0 < E) (hr : cmToLab Ein A mu E = .ok (muL, EL)) :
    0 < EL ∧ Boosted Ein A mu E muL EL ∧ labToCm Ein A muL EL = .ok (mu, E) := by
  rcases le_or_gt (E + 2 * mu * Real.sqrt E * (Real.sqrt Ein / (A + 1)) + (Real.sqrt Ein / (A + 1)) ^ 2) 0 with hc | hc
  · rw [cmToLab_fails hE hA h hc] at hr; cases hr
  rw [cmToLab_eq hE hA h.le hc] at hr
  obtain ⟨v, hv⟩ : ∃ v, v = Real.sqrt Ein / (A + 1) := ⟨_, rfl⟩
  obtain ⟨L, hL⟩ : ∃ L, L = E + 2 * mu * Real.sqrt E * (Real.sqrt Ein / (A + 1)) + (Real.sqrt Ein / (A + 1)) ^ 2 := ⟨_, rfl⟩
  rw [← hL, ← hv] at hr
  rw [← hL] at hc
  simp only [Except.ok.injEq, Prod.mk.injEq] at hr
  obtain ⟨rfl, rfl⟩ := hr
  have hsq : 0 < Real.sqrt L := Real.sqrt_pos.mpr hc
  have hss : Real.sqrt L ^ 2 = L := Real.sq_sqrt hc.le
  have hs : 0 < Real.sqrt E := Real.sqrt_pos.mpr h
  have hsE : Real.sqrt E ^ 2 = E := Real.sq_sqrt h.le
  rw [← hv] at hL
  have hcanc : (mu * Real.sqrt E + v) / Real.sqrt L * Real.sqrt L = mu * Real.sqrt E + v := div_mul_cancel₀ _ hsq.ne'
  have hEc : L - 2 * ((mu * Real.sqrt E + v) / Real.sqrt L) * Real.sqrt L * v + v ^ 2 = E := by
    rw [mul_assoc 2, hcanc]
    rw [hL]
    ring
  refine ⟨hc, ⟨?_, ?_⟩, ?_⟩
  · unfold par
    rw [hcanc, hv]
  · unfold perpSq
    have : L * ((mu * Real.sqrt E + v) / Real.sqrt L) ^ 2 = (mu * Real.sqrt E + v) ^ 2 := by
      rw [div_pow, hss]; field_simp
    rw [mul_sub, this, hL]
    linear_combination (-mu ^ 2) * hsE
  · rw [labToCm_eq hE hA hc (by rw [← hv, hEc]; exact h), ← hv, hEc, hcanc]
    congr 2
    field_simp
    ring

/-- C44, converse: whatever `LabToCM::transform` returns for a positive lab energy is the velocity whose boost is the given one,
has positive energy, and `CMToLab::transform` recovers the lab cosine and energy. -/
theorem C44_lab_cm_lab (Ein A mu E muC EC : ℝ) (hE : 0 ≤ Ein) (hA : -1 < A) (h : 0 < E) (hr : labToCm Ein A mu E = .ok (muC, EC)) :
    0 < EC ∧ Boosted Ein A muC EC mu E ∧ cmToLab Ein A muC EC = .ok (mu, E) := by
  rcases le_or_gt (E - 2 * mu * Real.sqrt E * (Real.sqrt Ein / (A + 1)) + (Real.sqrt Ein / (A + 1)) ^ 2) 0 with hc | hc
  · rw [labToCm_fails hE hA h hc] at hr; cases hr
  rw [labToCm_eq hE hA h hc] at hr
  obtain ⟨v, hv⟩ : ∃ v, v = Real.sqrt Ein / (A + 1) := ⟨_, rfl⟩
  obtain ⟨L, hL⟩ : ∃ L, L = E - 2 * mu * Real.sqrt E * (Real.sqrt Ein / (A + 1)) + (Real.sqrt Ein / (A + 1)) ^ 2 := ⟨_, rfl⟩
  rw [← hL, ← hv] at hr
  rw [← hL] at hc
  simp only [Except.ok.injEq, Prod.mk.injEq] at hr
  obtain ⟨rfl, rfl⟩ := hr
  have hsq : 0 < Real.sqrt L := Real.sqrt_pos.mpr hc
  have hss : Real.sqrt L ^ 2 = L := Real.sq_sqrt hc.le
  have hs : 0 < Real.sqrt E := Real.sqrt_pos.mpr h
  have hsE : Real.sqrt E ^ 2 = E := Real.sq_sqrt h.le
  rw [← hv] at hL
  have hcanc : (mu * Real.sqrt E - v) / Real.sqrt L * Real.sqrt L = mu * Real.sqrt E - v := div_mul_cancel₀ _ hsq.ne'
  have hEc : L + 2 * ((mu * Real.sqrt E - v) / Real.sqrt L) * Real.sqrt L * v + v ^ 2 = E := by
    rw [mul_assoc 2, hcanc]
    rw [hL]
    ring
  refine ⟨hc, ⟨?_, ?_⟩, ?_⟩
  · unfold par
    rw [hcanc, hv]
    ring
  · unfold perpSq
    have : L * ((mu * Real.sqrt E - v) / Real.sqrt L) ^ 2 = (mu * Real.sqrt E - v) ^ 2 := by
      rw [div_pow, hss]; field_simp
    rw [mul_sub L, this, hL]
    linear_combination (mu ^ 2) * hsE
  · rw [cmToLab_eq hE hA hc.le (by rw [← hv, hEc]; exact h), ← hv, hEc, hcanc]
    congr 2
    field_simp
    ring

/-- C44: for cosines in `[-1, 1]` the transform to the lab is defined except for the one emission that stops the particle in the
lab: backwards with the speed of the centre of mass. -/
theorem C44_defined (Ein A mu E : ℝ) (hE : 0 ≤ Ein) (hA : -1 < A) (h : 0 < E) (h1 : -1 ≤ mu) (h2 : mu ≤ 1)
    (hne : ¬ (mu = -1 ∧ E = Ein / (A + 1) ^ 2)) : ∃ muL EL, cmToLab Ein A mu E = .ok (muL, EL) := by
  refine ⟨_, _, cmToLab_eq hE hA h.le ?_⟩
  obtain ⟨v, hv⟩ : ∃ v, v = Real.sqrt Ein / (A + 1) := ⟨_, rfl⟩
  obtain ⟨hv0, hv2⟩ := vcm_sq hE hA
  rw [← hv] at hv0 hv2 ⊢
  have hs : 0 < Real.sqrt E := Real.sqrt_pos.mpr h
  have hsE : Real.sqrt E ^ 2 = E := Real.sq_sqrt h.le
  rw [← hv2] at hne
  obtain ⟨s, hs'⟩ : ∃ s, s = Real.sqrt E := ⟨_, rfl⟩
  rw [← hs'] at hs hsE ⊢
  rw [← hsE] at hne ⊢
  by_cases hmu : mu = -1
  · subst hmu
    have hne' : s - v ≠ 0 := by
      intro hc
      exact hne ⟨rfl, by rw [sub_eq_zero.mp hc]⟩
    have := pow_pos (abs_pos.mpr hne') 2
    rw [sq_abs] at this
    nlinarith
  · have hmu' : 0 < 1 + mu := by
      rcases h1.lt_or_eq with h | h
      · linarith
      · exact absurd h.symm hmu
    rcases hv0.lt_or_eq with hvp | hv0'
    · nlinarith [sq_nonneg (s - v), mul_pos (mul_pos hs hvp) hmu']
    · rw [← hv0']; nlinarith [mul_pos hs hs]

/-- ... and that emission gives `0/0`. -/
theorem C44_undefined (Ein A : ℝ) (hE : 0 < Ein) (hA : -1 < A) : cmToLab Ein A (-1) (Ein / (A + 1) ^ 2) = .error .nonfinite := by
  have hA' : 0 < A + 1 := by linarith
  refine cmToLab_fails hE.le hA (by positivity) (le_of_eq ?_)
  rw [Real.sqrt_div hE.le, Real.sqrt_sq hA'.le, div_pow, Real.sq_sqrt hE.le]
  have : Real.sqrt Ein ^ 2 = Ein := Real.sq_sqrt hE.le
  field_simp
  rw [this]
  ring

/-! ## C45 -/

/-- C45: the lab cosine is in `[-1, 1]` for every CM cosine in `[-1, 1]` and every incoming and outgoing energy for which the
transform is defined. -/
theorem C45_cosine (Ein A mu E muL EL : ℝ) (hE : 0 ≤ Ein) (hA : -1 < A) (h : 0 < E) (h1 : -1 ≤ mu) (h2 : mu ≤ 1)
    (hr : cmToLab Ein A mu E = .ok (muL, EL)) : -1 ≤ muL ∧ muL ≤ 1 ∧ 0 < EL := by
  obtain ⟨hEL, ⟨_, hperp⟩, _⟩ := C44_cm_lab_cm Ein A mu E muL EL hE hA h hr
  unfold perpSq at hperp
  have h3 : 0 ≤ 1 - mu ^ 2 := by nlinarith
  have h4 : 0 ≤ 1 - muL ^ 2 := by
    by_contra hc
    have := mul_neg_of_pos_of_neg hEL (not_le.mp hc)
    have := mul_nonneg h.le h3
    linarith
  exact ⟨by nlinarith, by nlinarith, hEL⟩

/-- C45: the same for the transform to the CM. -/
theorem C45_cosine_cm (Ein A mu E muC EC : ℝ) (hE : 0 ≤ Ein) (hA : -1 < A) (h : 0 < E) (h1 : -1 ≤ mu) (h2 : mu ≤ 1)
    (hr : labToCm Ein A mu E = .ok (muC, EC)) : -1 ≤ muC ∧ muC ≤ 1 ∧ 0 < EC := by
  obtain ⟨hEL, ⟨_, hperp⟩, _⟩ := C44_lab_cm_lab Ein A mu E muC EC hE hA h hr
  unfold perpSq at hperp
  have h3 : 0 ≤ 1 - mu ^ 2 := by nlinarith
  have h4 : 0 ≤ 1 - muC ^ 2 := by
    by_contra hc
    have := mul_neg_of_pos_of_neg hEL (not_le.mp hc)
    have := mul_nonneg h.le h3
    linarith
  exact ⟨by nlinarith, by nlinarith, hEL⟩

example : ∃ muL EL, cmToLab 1 2 (-1 / 2) 2 = .ok (muL, EL) :=
  C44_defined 1 2 (-1 / 2) 2 (by norm_num) (by norm_num) (by norm_num) (by norm_num) (by norm_num) (by norm_num)

end PNDL
