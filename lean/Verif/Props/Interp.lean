import Verif.Lemmas.Interp

/-! C14–C17: the five interpolation laws. -/
namespace PNDL
open Spec

/-! ## C14 — end points -/

/-- At the left end point every law returns the left ordinate. -/
theorem C14_left (r : Interpolation) (x1 y1 x2 y2 : ℝ) (h : Admissible r x1 y1 x2 y2) :
    r.interpolate x1 x1 y1 x2 y2 = .ok y1 := by
  rw [interpolate_eq h (fun hr => sameSign_self (h.logx hr).ne_left), lawValue_left h]

/-- At the right end point every law except Histogram returns the right ordinate. -/
theorem C14_right (r : Interpolation) (hr : r ≠ .histogram) (x1 y1 x2 y2 : ℝ) (h : Admissible r x1 y1 x2 y2) :
    r.interpolate x2 x1 y1 x2 y2 = .ok y2 := by
  rw [interpolate_eq h (fun hr => (h.logx hr).symm), lawValue_right h hr]

/-- The exception is real: Histogram returns the left ordinate at the right end point. -/
theorem C14_histogram_right (x1 y1 x2 y2 : ℝ) : Interpolation.histogram.interpolate x2 x1 y1 x2 y2 = .ok y1 := rfl

/-- The hypotheses are met by every law on (1,2)–(3,5), and with negative data. -/
theorem admissible_example (r : Interpolation) : Admissible r 1 2 3 5 ∧ Admissible r (-3) (-2) (-1) (-5) :=
  ⟨⟨by norm_num, fun _ => Or.inl (by norm_num), fun _ => Or.inl (by norm_num)⟩,
   ⟨by norm_num, fun _ => Or.inr (by norm_num), fun _ => Or.inr (by norm_num)⟩⟩

/-! ## C15 — invert -/

/-- The laws with an inverse, on data where one exists. -/
def Invertible (r : Interpolation) (y1 y2 : ℝ) : Prop := r ≠ .histogram ∧ y1 ≠ y2

/-- `invert` undoes `interpolate`. -/
theorem C15_invert_interpolate (r : Interpolation) (x x1 y1 x2 y2 : ℝ) (h : Admissible r x1 y1 x2 y2)
    (hi : Invertible r y1 y2) (hx : InDomainX r x x1) :
    ∃ y, r.interpolate x x1 y1 x2 y2 = .ok y ∧ r.invert y x1 y1 x2 y2 = .ok x := by
  refine ⟨_, interpolate_eq h hx, ?_⟩
  have hlt := h.lt
  have hne : x2 - x1 ≠ 0 := by intro hc; linarith
  obtain ⟨hr, hy⟩ := hi
  have hyne : y2 - y1 ≠ 0 := sub_ne_zero.mpr (Ne.symm hy)
  cases r with
  | histogram => exact absurd rfl hr
  | linLin =>
    simp only [Interpolation.invert, lawValue, rdiv_ok hyne, bind, Except.bind, pure, Except.pure]
    congr 1; field_simp; ring
  | linLog =>
    have hs := h.logx (Or.inl rfl)
    have hl := log_ratio_ne hs hlt.ne'
    have hxs := hx (Or.inl rfl)
    have hx1 := hs.ne_left
    simp only [Interpolation.invert, lawValue, rdiv_ok hyne, rdiv_ok hs.ne_left, cpow_ok hs.symm.div_pos, bind,
      Except.bind, pure, Except.pure]
    rw [if_pos (Ne.symm hy)]
    have e : (y1 + (y2 - y1) * Real.log (x / x1) / Real.log (x2 / x1) - y1) / (y2 - y1)
        = Real.log (x / x1) / Real.log (x2 / x1) := by field_simp; ring
    rw [e, rpow_ratio hs.symm.div_pos hxs.div_pos hl]
    congr 1; field_simp
  | logLin =>
    have hs := h.logy (Or.inl rfl)
    have hb := hs.symm.div_pos
    have hl := log_ratio_ne hs (Ne.symm hy)
    have hy1 := hs.ne_left
    simp only [Interpolation.invert, lawValue, rdiv_ok hs.ne_left, bind, Except.bind, pure, Except.pure]
    rw [if_pos hy]
    have e : y1 * (y2 / y1) ^ ((x - x1) / (x2 - x1)) / y1 = (y2 / y1) ^ ((x - x1) / (x2 - x1)) := by field_simp
    rw [e, clog_ok (Real.rpow_pos_of_pos hb _)]
    simp only [clog_ok hb, rdiv_ok hl]
    rw [Real.log_rpow hb]
    congr 1; field_simp; ring
  | logLog =>
    have hs := h.logx (Or.inr rfl)
    have hys := h.logy (Or.inr rfl)
    have hl := log_ratio_ne hs hlt.ne'
    have hly := log_ratio_ne hys (Ne.symm hy)
    have hxs := hx (Or.inr rfl)
    have hx1 := hs.ne_left
    have hy1 := hys.ne_left
    simp only [Interpolation.invert, lawValue, rdiv_ok hys.ne_left, rdiv_ok hs.ne_left, clog_ok hys.symm.div_pos, rdiv_ok hly,
      cpow_ok hs.symm.div_pos, bind, Except.bind, pure, Except.pure]
    obtain ⟨e, he⟩ : ∃ e, e = Real.log (y2 / y1) / Real.log (x2 / x1) := ⟨_, rfl⟩
    rw [← he]
    have e1 : y1 * (x / x1) ^ e / y1 = (x / x1) ^ e := by field_simp
    rw [e1, clog_ok (Real.rpow_pos_of_pos hxs.div_pos _)]
    simp only
    rw [Real.log_rpow hxs.div_pos]
    have e2 : e * Real.log (x / x1) / Real.log (y2 / y1) = Real.log (x / x1) / Real.log (x2 / x1) := by
      rw [he]; field_simp
    rw [e2, rpow_ratio hs.symm.div_pos hxs.div_pos hl]
    congr 1; field_simp

/-- `interpolate` undoes `invert`. -/
theorem C15_interpolate_invert (r : Interpolation) (y x1 y1 x2 y2 : ℝ) (h : Admissible r x1 y1 x2 y2)
    (hi : Invertible r y1 y2) (hyd : InDomainY r y y1) :
    ∃ x, r.invert y x1 y1 x2 y2 = .ok x ∧ r.interpolate x x1 y1 x2 y2 = .ok y := by
  have hlt := h.lt
  have hne : x2 - x1 ≠ 0 := by intro hc; linarith
  obtain ⟨hr, hy⟩ := hi
  have hyne : y2 - y1 ≠ 0 := sub_ne_zero.mpr (Ne.symm hy)
  have scale : ∀ {a p : ℝ}, a ≠ 0 → 0 < p → SameSign (a * p) a := by
    intro a p ha hp
    rcases lt_or_gt_of_ne ha with h | h
    · exact Or.inr ⟨mul_neg_of_neg_of_pos h hp, h⟩
    · exact Or.inl ⟨mul_pos h hp, h⟩
  cases r with
  | histogram => exact absurd rfl hr
  | linLin =>
    refine ⟨(y - y1) / (y2 - y1) * (x2 - x1) + x1, ?_, ?_⟩
    · simp only [Interpolation.invert, rdiv_ok hyne, bind, Except.bind, pure, Except.pure]
    · rw [interpolate_eq h (by intro hc; simp at hc)]; simp only [lawValue]; congr 1; field_simp; ring
  | linLog =>
    have hs := h.logx (Or.inl rfl)
    have hl := log_ratio_ne hs hlt.ne'
    have hx1 := hs.ne_left
    have hb := hs.symm.div_pos
    refine ⟨x1 * (x2 / x1) ^ ((y - y1) / (y2 - y1)), ?_, ?_⟩
    · simp only [Interpolation.invert, rdiv_ok hyne, rdiv_ok hx1, cpow_ok hb, bind, Except.bind, pure, Except.pure]
      rw [if_pos (Ne.symm hy)]
    · rw [interpolate_eq h (fun _ => scale hx1 (Real.rpow_pos_of_pos hb _))]
      simp only [lawValue]
      have e1 : x1 * (x2 / x1) ^ ((y - y1) / (y2 - y1)) / x1 = (x2 / x1) ^ ((y - y1) / (y2 - y1)) := by field_simp
      rw [e1, Real.log_rpow hb]
      congr 1; field_simp; ring
  | logLin =>
    have hs := h.logy (Or.inl rfl)
    have hl := log_ratio_ne hs (Ne.symm hy)
    have hy1 := hs.ne_left
    have hb := hs.symm.div_pos
    have hyp := (hyd (Or.inl rfl)).div_pos
    refine ⟨x1 + (x2 - x1) * Real.log (y / y1) / Real.log (y2 / y1), ?_, ?_⟩
    · simp only [Interpolation.invert, rdiv_ok hy1, clog_ok hyp, clog_ok hb, rdiv_ok hl, bind, Except.bind, pure, Except.pure]
      rw [if_pos hy]
    · rw [interpolate_eq h (by intro hc; simp at hc)]
      simp only [lawValue]
      have e1 : (x1 + (x2 - x1) * Real.log (y / y1) / Real.log (y2 / y1) - x1) / (x2 - x1)
          = Real.log (y / y1) / Real.log (y2 / y1) := by field_simp; ring
      rw [e1, rpow_ratio hb hyp hl]
      congr 1; field_simp
  | logLog =>
    have hs := h.logx (Or.inr rfl)
    have hys := h.logy (Or.inr rfl)
    have hl := log_ratio_ne hs hlt.ne'
    have hly := log_ratio_ne hys (Ne.symm hy)
    have hx1 := hs.ne_left
    have hy1 := hys.ne_left
    have hb := hs.symm.div_pos
    have hby := hys.symm.div_pos
    have hyp := (hyd (Or.inr rfl)).div_pos
    refine ⟨x1 * (x2 / x1) ^ (Real.log (y / y1) / Real.log (y2 / y1)), ?_, ?_⟩
    · simp only [Interpolation.invert, rdiv_ok hy1, rdiv_ok hx1, clog_ok hyp, clog_ok hby, rdiv_ok hly, cpow_ok hb, bind,
        Except.bind, pure, Except.pure]
    · rw [interpolate_eq h (fun _ => scale hx1 (Real.rpow_pos_of_pos hb _))]
      simp only [lawValue]
      have e1 : x1 * (x2 / x1) ^ (Real.log (y / y1) / Real.log (y2 / y1)) / x1
          = (x2 / x1) ^ (Real.log (y / y1) / Real.log (y2 / y1)) := by field_simp
      rw [e1, ← Real.rpow_mul hb.le]
      have e2 : Real.log (y / y1) / Real.log (y2 / y1) * (Real.log (y2 / y1) / Real.log (x2 / x1))
          = Real.log (y / y1) / Real.log (x2 / x1) := by field_simp
      rw [e2, rpow_ratio hb hyp hl]
      congr 1; field_simp

example : Invertible .logLog 2 5 ∧ InDomainX .logLog 2 1 ∧ InDomainY .logLog 3 2 :=
  ⟨⟨by decide, by norm_num⟩, fun _ => Or.inl (by norm_num), fun _ => Or.inl (by norm_num)⟩

/-- On flat data LinLog and LogLin guard the division and return `x1`; LogLog does not (0/0). -/
theorem C15_flat_data (y x1 y1 x2 y2 : ℝ) (h : Admissible .logLog x1 y1 x2 y2) (hy : y1 = y2) (hyd : InDomainY .logLog y y1) :
    Interpolation.linLog.invert y x1 y1 x2 y2 = .ok x1 ∧ Interpolation.logLin.invert y x1 y1 x2 y2 = .ok x1 ∧
      Interpolation.logLog.invert y x1 y1 x2 y2 = .error .nonfinite := by
  subst hy
  have hy1 := (h.logy (Or.inr rfl)).ne_left
  refine ⟨by simp [Interpolation.invert], by simp [Interpolation.invert], ?_⟩
  simp [Interpolation.invert, rdiv_ok hy1, clog_ok (hyd (Or.inr rfl)).div_pos, bind, Except.bind, div_self hy1,
    clog_ok one_pos, rdiv_zero]

/-! ## C16 — integrate is the integral of interpolate -/

/-- `integrate` returns the Lebesgue integral of what `interpolate` returns (for `a ≤ b` and `b < a` alike). -/
theorem C16_integrate_partial (r : Interpolation) (a b x1 y1 x2 y2 : ℝ) (h : Admissible r x1 y1 x2 y2)
    (ha : InDomainX r a x1) (hb : InDomainX r b x1) (hex : ExactIntegral r x1 y1 x2 y2)
    (g : ℝ → ℝ) (hg : ∀ t ∈ Set.uIcc a b, r.interpolate t x1 y1 x2 y2 = .ok (g t)) :
    r.integrate a b x1 y1 x2 y2 = .ok (∫ t in a..b, g t) := by
  have hcongr : ∫ t in a..b, g t = ∫ t in a..b, lawValue r t x1 y1 x2 y2 := by
    apply intervalIntegral.integral_congr
    intro t ht
    have := hg t ht
    rw [interpolate_eq h (inDomain_uIcc ha hb ht)] at this
    exact (Except.ok.inj this).symm
  rw [hcongr]
  exact integrate_law h ha hb hex

/-- The two excluded cases.  (1) LogLin on flat data: the integral exists (it is `y1 (b-a)`) but the code computes 0/0. -/
theorem C16_violation_flat_loglin (a b x1 y1 x2 : ℝ) (h : Admissible .logLin x1 y1 x2 y1) :
    Interpolation.logLin.integrate a b x1 y1 x2 y1 = .error .nonfinite ∧
      ∀ t, Interpolation.logLin.interpolate t x1 y1 x2 y1 = .ok y1 := by
  have hy := (h.logy (Or.inl rfl)).ne_left
  have hlt := h.lt
  have hne : x1 - x2 ≠ 0 := by intro hc; linarith
  have hne' : x2 - x1 ≠ 0 := by intro hc; linarith
  refine ⟨?_, fun t => ?_⟩
  · simp [Interpolation.integrate, rdiv_ok hy, div_self hy, clog_ok one_pos, rdiv_ok hne, rdiv_zero, bind, Except.bind]
  · simp [Interpolation.interpolate, rdiv_ok hy, div_self hy, rdiv_ok hne', cpow_ok one_pos, bind, Except.bind, pure,
      Except.pure]

example : Admissible .logLin 0 1 1 1 :=
  ⟨by norm_num, by simp, fun _ => Or.inl (by norm_num)⟩

/-- (2) LogLog with an exponent within 10⁻¹² of −1: the code returns the integral for exponent −1, which brackets the true
integral up to the factor `(x2/x1)^(10⁻¹²)`; stated for positive data and `x1 ≤ a ≤ b ≤ x2`. -/
theorem C16_loglog_near (a b x1 y1 x2 y2 : ℝ) (h : Admissible .logLog x1 y1 x2 y2) (hx : 0 < x1) (hy : 0 < y1)
    (ha : x1 ≤ a) (hab : a ≤ b) (hb : b ≤ x2)
    (hc : |Real.log (y2 / y1) / Real.log (x2 / x1) - (-1)| ≤ 1 / 10 ^ 12)
    (g : ℝ → ℝ) (hg : ∀ t ∈ Set.uIcc a b, Interpolation.logLog.interpolate t x1 y1 x2 y2 = .ok (g t)) :
    ∃ v, Interpolation.logLog.integrate a b x1 y1 x2 y2 = .ok v ∧
      v / (x2 / x1) ^ ((1 : ℝ) / 10 ^ 12) ≤ (∫ t in a..b, g t) ∧
      (∫ t in a..b, g t) ≤ v * (x2 / x1) ^ ((1 : ℝ) / 10 ^ 12) := by
  have hs := h.logx (Or.inr rfl)
  have ha' : InDomainX .logLog a x1 := fun _ => Or.inl ⟨by linarith, hx⟩
  have hb' : InDomainX .logLog b x1 := fun _ => Or.inl ⟨by linarith, hx⟩
  rw [sub_neg_eq_add] at hc
  refine ⟨_, integrate_loglog_special h ha' hb' hc, ?_⟩
  have hcongr : ∫ t in a..b, g t = ∫ t in a..b, lawValue .logLog t x1 y1 x2 y2 := by
    apply intervalIntegral.integral_congr
    intro t ht
    have := hg t ht
    rw [interpolate_eq h (inDomain_uIcc ha' hb' ht)] at this
    exact (Except.ok.inj this).symm
  rw [hcongr]
  have hmain : ∀ t ∈ Set.Icc a b, y1 * x1 / (x2 / x1) ^ ((1 : ℝ) / 10 ^ 12) * t⁻¹ ≤ lawValue .logLog t x1 y1 x2 y2 ∧
      lawValue .logLog t x1 y1 x2 y2 ≤ y1 * x1 * (x2 / x1) ^ ((1 : ℝ) / 10 ^ 12) * t⁻¹ := by
    intro t ht
    have ht0 : 0 < t := by linarith [ht.1]
    obtain ⟨d, hd⟩ : ∃ d, d = Real.log (y2 / y1) / Real.log (x2 / x1) + 1 := ⟨_, rfl⟩
    rw [← hd] at hc
    have hd1 := (abs_le.mp hc)
    have hq1 : 1 ≤ t / x1 := by rw [le_div_iff₀ hx]; linarith [ht.1]
    have hqp : 0 < t / x1 := by linarith
    have hq2 : t / x1 ≤ x2 / x1 := by gcongr; linarith [ht.2]
    have e : lawValue .logLog t x1 y1 x2 y2 = y1 * x1 * (t / x1) ^ d * t⁻¹ := by
      simp only [lawValue]
      rw [hd, Real.rpow_add_one hqp.ne']
      have hx0 := hx.ne'
      have ht00 := ht0.ne'
      field_simp
    have hub : (t / x1) ^ d ≤ (x2 / x1) ^ ((1 : ℝ) / 10 ^ 12) :=
      le_trans (Real.rpow_le_rpow_of_exponent_le hq1 hd1.2)
        (Real.rpow_le_rpow hqp.le hq2 (by norm_num))
    have hP : 0 < (x2 / x1) ^ ((1 : ℝ) / 10 ^ 12) := Real.rpow_pos_of_pos (by linarith) _
    have hlb : 1 / (x2 / x1) ^ ((1 : ℝ) / 10 ^ 12) ≤ (t / x1) ^ d := by
      have h1 : (t / x1) ^ (-((1 : ℝ) / 10 ^ 12)) ≤ (t / x1) ^ d := Real.rpow_le_rpow_of_exponent_le hq1 hd1.1
      rw [Real.rpow_neg hqp.le] at h1
      refine le_trans ?_ h1
      rw [one_div]
      exact inv_anti₀ (Real.rpow_pos_of_pos hqp _) (Real.rpow_le_rpow hqp.le hq2 (by norm_num))
    have hk : 0 < y1 * x1 := by positivity
    have hti : 0 < t⁻¹ := by positivity
    rw [e]
    constructor
    · have := mul_le_mul_of_nonneg_left hlb hk.le
      refine mul_le_mul_of_nonneg_right ?_ hti.le
      calc y1 * x1 / (x2 / x1) ^ ((1 : ℝ) / 10 ^ 12) = y1 * x1 * (1 / (x2 / x1) ^ ((1 : ℝ) / 10 ^ 12)) := by ring
        _ ≤ _ := this
    · exact mul_le_mul_of_nonneg_right (mul_le_mul_of_nonneg_left hub hk.le) hti.le
  have hsa := ha' (Or.inr rfl)
  have hsb := hb' (Or.inr rfl)
  have hint := lawValue_intervalIntegrable h ha' hb'
  have hinv : ∀ k : ℝ, IntervalIntegrable (fun t : ℝ => k * t⁻¹) MeasureTheory.volume a b := by
    intro k
    apply ContinuousOn.intervalIntegrable
    intro t ht
    have := (sameSign_uIcc hsa hsb ht).ne_left
    exact (continuousAt_const.mul (continuousAt_inv₀ this)).continuousWithinAt
  have hval : ∀ k : ℝ, ∫ t in a..b, k * t⁻¹ = k * Real.log (b / a) := by
    intro k
    rw [intervalIntegral.integral_const_mul, integral_inv_ss hsa hsb]
  constructor
  · have := intervalIntegral.integral_mono_on hab (hinv _) hint (fun t ht => (hmain t ht).1)
    rw [hval] at this
    refine le_trans (le_of_eq ?_) this
    ring
  · have := intervalIntegral.integral_mono_on hab hint (hinv _) (fun t ht => (hmain t ht).2)
    rw [hval] at this
    refine le_trans this (le_of_eq ?_)
    ring

/-! ## C17 — values stay between the end point values -/

/-- For `x1 ≤ x ≤ x2` the interpolated value exists and lies between the two ordinates. -/
theorem C17_between (r : Interpolation) (x x1 y1 x2 y2 : ℝ) (h : Admissible r x1 y1 x2 y2) (h1 : x1 ≤ x) (h2 : x ≤ x2) :
    ∃ y, r.interpolate x x1 y1 x2 y2 = .ok y ∧ min y1 y2 ≤ y ∧ y ≤ max y1 y2 :=
  ⟨_, interpolate_eq h (fun hr => (h.logx hr).between h1 h2), lawValue_between h h1 h2⟩

/-- Consequently non-negative data give non-negative values. -/
theorem C17_nonneg (r : Interpolation) (x x1 y1 x2 y2 y : ℝ) (h : Admissible r x1 y1 x2 y2) (h1 : x1 ≤ x) (h2 : x ≤ x2)
    (hy1 : 0 ≤ y1) (hy2 : 0 ≤ y2) (hy : r.interpolate x x1 y1 x2 y2 = .ok y) : 0 ≤ y := by
  obtain ⟨y', e, h3, _⟩ := C17_between r x x1 y1 x2 y2 h h1 h2
  rw [e] at hy; cases hy
  exact le_trans (le_min hy1 hy2) h3

end PNDL
