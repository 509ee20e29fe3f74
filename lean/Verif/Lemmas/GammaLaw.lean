import Verif.Lemmas.Law
import Mathlib.Analysis.SpecialFunctions.Gamma.Basic
import Mathlib.Analysis.SpecialFunctions.Gaussian.GaussianIntegral
import Mathlib.MeasureTheory.Function.Jacobian
import Mathlib.Analysis.SpecialFunctions.Trigonometric.Inverse
import Mathlib.MeasureTheory.Group.LIntegral

/-! Exponential and gamma distributed numbers made of uniform ones. -/
namespace PNDL
open MeasureTheory Spec Set
open scoped ENNReal

/-- `∫ s^(a-1) e^(-s) f(s) ds` over the positive numbers. -/
noncomputable def gInt (a : ℝ) (f : ℝ → ℝ≥0∞) : ℝ≥0∞ := ∫⁻ s in Ioi (0 : ℝ), ENNReal.ofReal (s ^ (a - 1) * Real.exp (-s)) * f s

theorem ofReal_assoc {a : ℝ} (ha : 0 ≤ a) (b : ℝ) (c : ℝ≥0∞) : ENNReal.ofReal a * (ENNReal.ofReal b * c) = ENNReal.ofReal (a * b) * c := by
  rw [← mul_assoc, ← ENNReal.ofReal_mul ha]

theorem unif_eq_Ioo : Spec.unif = volume.restrict (Ioo 0 1) := (Measure.restrict_congr_set Ioo_ae_eq_Icc).symm

theorem unif_eq_Ioc : Spec.unif = volume.restrict (Ioc 0 1) := (Measure.restrict_congr_set Ioc_ae_eq_Icc).symm

/-- `-log ξ` is exponentially distributed. -/
theorem unif_log (f : ℝ → ℝ≥0∞) : ∫⁻ x, f (-Real.log x) ∂Spec.unif = gInt 1 f := by
  rw [unif_eq_Ioo]
  have himg : (fun s => Real.exp (-s)) '' Ioi (0 : ℝ) = Ioo 0 1 := by
    ext x
    constructor
    · rintro ⟨s, hs, rfl⟩
      exact ⟨Real.exp_pos _, by rw [Real.exp_lt_one_iff]; simpa using hs⟩
    · rintro ⟨h0, h1⟩
      exact ⟨-Real.log x, by simpa using Real.log_neg h0 h1, by simp [Real.exp_log h0]⟩
  have hd : ∀ s ∈ Ioi (0 : ℝ), HasDerivWithinAt (fun s => Real.exp (-s)) (-Real.exp (-s)) (Ioi 0) s := by
    intro s _
    have := ((hasDerivAt_id s).neg.exp).hasDerivWithinAt (s := Ioi (0 : ℝ))
    simpa using this
  have hinj : InjOn (fun s : ℝ => Real.exp (-s)) (Ioi 0) := fun a _ b _ h => by simpa using h
  rw [← himg, lintegral_image_eq_lintegral_abs_deriv_mul measurableSet_Ioi hd hinj, gInt]
  refine setLIntegral_congr_fun measurableSet_Ioi fun s _ => ?_
  simp only [abs_neg, Real.abs_exp, Real.log_exp, neg_neg, sub_self, Real.rpow_zero, one_mul]

/-- The mass of `s^(a-1) e^(-s)`. -/
theorem gInt_one {a : ℝ} (ha : 0 < a) : gInt a (fun _ => 1) = ENNReal.ofReal (Real.Gamma a) := by
  rw [Real.Gamma_eq_integral ha, ofReal_integral_eq_lintegral_ofReal (Real.GammaIntegral_convergent ha)]
  · unfold gInt
    refine setLIntegral_congr_fun measurableSet_Ioi fun s _ => ?_
    simp only [mul_one]
    rw [mul_comm]
  · refine (ae_restrict_iff' measurableSet_Ioi).mpr (Filter.Eventually.of_forall fun s hs => ?_)
    have : (0 : ℝ) < s := hs
    show 0 ≤ Real.exp (-s) * s ^ (a - 1)
    positivity

/-- The mass of `t^(a-1)` on `(0, u)`. -/
theorem pow_mass {a u : ℝ} (ha : 0 < a) (hu : 0 < u) : ∫⁻ t in Ioo 0 u, ENNReal.ofReal (t ^ (a - 1)) = ENNReal.ofReal (u ^ a / a) := by
  have hint : IntervalIntegrable (fun t : ℝ => t ^ (a - 1)) volume 0 u := intervalIntegral.intervalIntegrable_rpow' (by linarith)
  have h1 : ∫ t in (0 : ℝ)..u, t ^ (a - 1) = u ^ a / a := by
    rw [integral_rpow (Or.inl (by linarith))]
    rw [show a - 1 + 1 = a by ring, Real.zero_rpow ha.ne']
    ring
  rw [← h1, intervalIntegral.integral_of_le hu.le, ofReal_integral_eq_lintegral_ofReal]
  · rw [Measure.restrict_congr_set Ioo_ae_eq_Ioc]
  · exact (intervalIntegrable_iff_integrableOn_Ioc_of_le hu.le).mp hint
  · refine (ae_restrict_iff' measurableSet_Ioc).mpr (Filter.Eventually.of_forall fun s hs => ?_)
    have : (0 : ℝ) < s := hs.1
    show 0 ≤ s ^ (a - 1)
    positivity

/-- Shifting: `∫_{s>0} h(s+t) ds = ∫_{u>t} h(u) du`. -/
theorem lintegral_shift (t : ℝ) (h : ℝ → ℝ≥0∞) : ∫⁻ s in Ioi (0 : ℝ), h (s + t) = ∫⁻ u in Ioi t, h u := by
  have hm : ∀ s : ℝ, (Ioi (0 : ℝ)).indicator (fun s => h (s + t)) s = (Ioi t).indicator h (s + t) := by
    intro s
    by_cases hs : 0 < s
    · rw [indicator_of_mem (show s ∈ Ioi (0 : ℝ) from hs), indicator_of_mem (show s + t ∈ Ioi t by simpa using hs)]
    · rw [indicator_of_notMem (show s ∉ Ioi (0 : ℝ) from hs), indicator_of_notMem (show s + t ∉ Ioi t by simpa using hs)]
  rw [← lintegral_indicator measurableSet_Ioi, ← lintegral_indicator measurableSet_Ioi]
  simp only [hm]
  exact lintegral_add_right_eq_self _ t

/-- Tonelli on the wedge `0 < t < u`. -/
theorem wedge_swap {h : ℝ → ℝ → ℝ≥0∞} (hh : Measurable (Function.uncurry h)) :
    ∫⁻ t in Ioi (0 : ℝ), ∫⁻ u in Ioi t, h t u = ∫⁻ u in Ioi (0 : ℝ), ∫⁻ t in Ioo 0 u, h t u := by
  have e1 : ∫⁻ t in Ioi (0 : ℝ), ∫⁻ u in Ioi t, h t u = ∫⁻ t in Ioi (0 : ℝ), ∫⁻ u in Ioi (0 : ℝ), ({p : ℝ × ℝ | p.1 < p.2}.indicator (Function.uncurry h) (t, u)) := by
    refine setLIntegral_congr_fun measurableSet_Ioi fun t ht => ?_
    have ht' : (0 : ℝ) < t := ht
    rw [← lintegral_indicator measurableSet_Ioi, ← lintegral_indicator measurableSet_Ioi]
    refine lintegral_congr fun u => ?_
    by_cases hu : t < u
    · rw [indicator_of_mem (show u ∈ Ioi t from hu), indicator_of_mem (show u ∈ Ioi (0 : ℝ) from ht'.trans hu), indicator_of_mem (show (t, u) ∈ {p : ℝ × ℝ | p.1 < p.2} from hu)]
      rfl
    · rw [indicator_of_notMem (show u ∉ Ioi t from hu)]
      by_cases hu0 : 0 < u
      · rw [indicator_of_mem (show u ∈ Ioi (0 : ℝ) from hu0), indicator_of_notMem (show (t, u) ∉ {p : ℝ × ℝ | p.1 < p.2} from hu)]
      · rw [indicator_of_notMem (show u ∉ Ioi (0 : ℝ) from hu0)]
  rw [e1, lintegral_lintegral_swap]
  · refine setLIntegral_congr_fun measurableSet_Ioi fun u hu => ?_
    have hu' : (0 : ℝ) < u := hu
    rw [← lintegral_indicator measurableSet_Ioi, ← lintegral_indicator measurableSet_Ioo]
    refine lintegral_congr fun t => ?_
    by_cases ht : 0 < t
    · rw [indicator_of_mem (show t ∈ Ioi (0 : ℝ) from ht)]
      by_cases htu : t < u
      · rw [indicator_of_mem (show (t, u) ∈ {p : ℝ × ℝ | p.1 < p.2} from htu), indicator_of_mem (show t ∈ Ioo 0 u from ⟨ht, htu⟩)]
        rfl
      · rw [indicator_of_notMem (show (t, u) ∉ {p : ℝ × ℝ | p.1 < p.2} from htu), indicator_of_notMem (show t ∉ Ioo 0 u from fun h => htu h.2)]
    · rw [indicator_of_notMem (show t ∉ Ioi (0 : ℝ) from ht), indicator_of_notMem (show t ∉ Ioo 0 u from fun h => ht h.1)]
  · exact (hh.indicator (measurableSet_lt measurable_fst measurable_snd)).aemeasurable

/-- Adding an exponential number to a gamma number. -/
theorem gInt_add {a : ℝ} (ha : 0 < a) {f : ℝ → ℝ≥0∞} (hf : Measurable f) :
    gInt 1 (fun s => gInt a fun t => f (s + t)) = ENNReal.ofReal (1 / a) * gInt (a + 1) f := by
  have hf2 : Measurable fun p : ℝ × ℝ => f (p.1 + p.2) := hf.comp (measurable_fst.add measurable_snd)
  have hg : Measurable fun p : ℝ × ℝ => ENNReal.ofReal (p.2 ^ (a - 1) * Real.exp (-p.2)) := by fun_prop
  have he : Measurable fun p : ℝ × ℝ => ENNReal.ofReal (Real.exp (-p.1)) := by fun_prop
  unfold gInt
  simp only [sub_self, Real.rpow_zero, one_mul, add_sub_cancel_right]
  have e1 : ∀ s : ℝ, ENNReal.ofReal (Real.exp (-s)) * ∫⁻ t in Ioi (0 : ℝ), ENNReal.ofReal (t ^ (a - 1) * Real.exp (-t)) * f (s + t) =
      ∫⁻ t in Ioi (0 : ℝ), ENNReal.ofReal (Real.exp (-s)) * (ENNReal.ofReal (t ^ (a - 1) * Real.exp (-t)) * f (s + t)) := by
    intro s
    rw [lintegral_const_mul' _ _ ENNReal.ofReal_ne_top]
  simp only [e1]
  rw [lintegral_lintegral_swap (he.mul (hg.mul hf2)).aemeasurable]
  have e2 : ∀ t ∈ Ioi (0 : ℝ), ∫⁻ s in Ioi (0 : ℝ), ENNReal.ofReal (Real.exp (-s)) * (ENNReal.ofReal (t ^ (a - 1) * Real.exp (-t)) * f (s + t)) =
      ∫⁻ u in Ioi t, ENNReal.ofReal (t ^ (a - 1)) * (ENNReal.ofReal (Real.exp (-u)) * f u) := by
    intro t ht
    have ht' : (0 : ℝ) < t := ht
    rw [← lintegral_shift t]
    refine lintegral_congr fun s => ?_
    rw [← mul_assoc, ← mul_assoc, ← ENNReal.ofReal_mul (Real.exp_pos _).le, ← ENNReal.ofReal_mul (by positivity)]
    congr 2
    rw [neg_add, Real.exp_add]
    ring
  rw [setLIntegral_congr_fun measurableSet_Ioi e2, wedge_swap]
  · rw [← lintegral_const_mul' _ _ ENNReal.ofReal_ne_top]
    refine setLIntegral_congr_fun measurableSet_Ioi fun u hu => ?_
    have hu' : (0 : ℝ) < u := hu
    show ∫⁻ t in Ioo 0 u, ENNReal.ofReal (t ^ (a - 1)) * (ENNReal.ofReal (Real.exp (-u)) * f u) = _
    rw [lintegral_mul_const _ (by fun_prop), pow_mass ha hu', ← mul_assoc, ← mul_assoc, ← ENNReal.ofReal_mul (by positivity), ← ENNReal.ofReal_mul (by positivity)]
    congr 2
    ring
  · exact ((by fun_prop : Measurable fun p : ℝ × ℝ => ENNReal.ofReal (p.1 ^ (a - 1)))).mul
      ((by fun_prop : Measurable fun p : ℝ × ℝ => ENNReal.ofReal (Real.exp (-p.2))).mul (hf.comp measurable_snd))

/-- `s cos²(πz/2)` for a uniform `z`: the arcsine law on `(0, s)`. -/
theorem unif_cos {s : ℝ} (hs : 0 < s) (f : ℝ → ℝ≥0∞) :
    ∫⁻ z, f (s * Real.cos (Real.pi * z / 2) ^ 2) ∂Spec.unif = ∫⁻ t in Ioo 0 s, ENNReal.ofReal (1 / (Real.pi * (Real.sqrt t * Real.sqrt (s - t)))) * f t := by
  have hpi := Real.pi_pos
  rw [unif_eq_Ioo]
  have trig : ∀ z ∈ Ioo (0 : ℝ) 1, 0 < Real.cos (Real.pi * z / 2) ∧ 0 < Real.sin (Real.pi * z / 2) := by
    rintro z ⟨h0, h1⟩
    constructor
    · exact Real.cos_pos_of_mem_Ioo ⟨by nlinarith, by nlinarith⟩
    · exact Real.sin_pos_of_pos_of_lt_pi (by positivity) (by nlinarith)
  have himg : (fun z => s * Real.cos (Real.pi * z / 2) ^ 2) '' Ioo (0 : ℝ) 1 = Ioo 0 s := by
    ext t
    constructor
    · rintro ⟨z, hz, rfl⟩
      obtain ⟨hc, hsn⟩ := trig z hz
      have := Real.sin_sq_add_cos_sq (Real.pi * z / 2)
      refine ⟨by positivity, ?_⟩
      show s * Real.cos (Real.pi * z / 2) ^ 2 < s
      nlinarith [mul_pos hs (pow_pos hsn 2)]
    · rintro ⟨h0, h1⟩
      have hq : 0 < t / s := div_pos h0 hs
      have hq1 : t / s < 1 := (div_lt_one hs).mpr h1
      have hr0 : 0 < Real.sqrt (t / s) := Real.sqrt_pos.mpr hq
      have hr1 : Real.sqrt (t / s) < 1 := by rw [Real.sqrt_lt' one_pos]; simpa using hq1
      refine ⟨2 / Real.pi * Real.arccos (Real.sqrt (t / s)), ⟨?_, ?_⟩, ?_⟩
      · have := Real.arccos_pos.mpr hr1
        positivity
      · have := Real.arccos_lt_pi_div_two.mpr hr0
        calc 2 / Real.pi * Real.arccos (Real.sqrt (t / s)) < 2 / Real.pi * (Real.pi / 2) := mul_lt_mul_of_pos_left this (by positivity)
          _ = 1 := by field_simp
      · show s * Real.cos (Real.pi * (2 / Real.pi * Real.arccos (Real.sqrt (t / s))) / 2) ^ 2 = t
        rw [show Real.pi * (2 / Real.pi * Real.arccos (Real.sqrt (t / s))) / 2 = Real.arccos (Real.sqrt (t / s)) by field_simp,
          Real.cos_arccos (by linarith) hr1.le, Real.sq_sqrt hq.le]
        field_simp
  have hd : ∀ z ∈ Ioo (0 : ℝ) 1, HasDerivWithinAt (fun z => s * Real.cos (Real.pi * z / 2) ^ 2)
      (-(s * Real.pi * (Real.cos (Real.pi * z / 2) * Real.sin (Real.pi * z / 2)))) (Ioo 0 1) z := by
    intro z _
    have h1 : HasDerivAt (fun z : ℝ => Real.pi * z / 2) (Real.pi / 2) z := by
      simpa using ((hasDerivAt_id z).const_mul Real.pi).div_const 2
    have h2 := ((h1.cos.pow 2).const_mul s).hasDerivWithinAt (s := Ioo (0 : ℝ) 1)
    refine h2.congr_deriv ?_
    simp only [Nat.cast_ofNat]
    ring
  have hinj : InjOn (fun z : ℝ => s * Real.cos (Real.pi * z / 2) ^ 2) (Ioo 0 1) := by
    intro x hx y hy h
    obtain ⟨hcx, _⟩ := trig x hx
    obtain ⟨hcy, _⟩ := trig y hy
    have h2 : Real.cos (Real.pi * x / 2) ^ 2 = Real.cos (Real.pi * y / 2) ^ 2 := mul_left_cancel₀ hs.ne' h
    have h3 : Real.cos (Real.pi * x / 2) = Real.cos (Real.pi * y / 2) := (pow_left_inj₀ hcx.le hcy.le two_ne_zero).mp h2
    have h4 := Real.injOn_cos ⟨by have := hx.1; positivity, by nlinarith [hx.2]⟩ ⟨by have := hy.1; positivity, by nlinarith [hy.2]⟩ h3
    have : Real.pi * x = Real.pi * y := by linarith
    exact mul_left_cancel₀ hpi.ne' this
  rw [← himg, lintegral_image_eq_lintegral_abs_deriv_mul measurableSet_Ioo hd hinj]
  refine setLIntegral_congr_fun measurableSet_Ioo fun z hz => ?_
  obtain ⟨hc, hsn⟩ := trig z hz
  have hsub : s - s * Real.cos (Real.pi * z / 2) ^ 2 = s * Real.sin (Real.pi * z / 2) ^ 2 := by
    have := Real.sin_sq_add_cos_sq (Real.pi * z / 2)
    linear_combination -s * this
  simp only [hsub]
  rw [Real.sqrt_mul hs.le, Real.sqrt_mul hs.le, Real.sqrt_sq hc.le, Real.sqrt_sq hsn.le, ← mul_assoc, ← ENNReal.ofReal_mul (abs_nonneg _), abs_neg,
    abs_of_pos (by positivity)]
  have hss := Real.mul_self_sqrt hs.le
  have hs0 : 0 < Real.sqrt s := Real.sqrt_pos.mpr hs
  rw [show s * Real.pi * (Real.cos (Real.pi * z / 2) * Real.sin (Real.pi * z / 2)) *
      (1 / (Real.pi * (Real.sqrt s * Real.cos (Real.pi * z / 2) * (Real.sqrt s * Real.sin (Real.pi * z / 2))))) = 1 by
    rw [mul_one_div, div_eq_one_iff_eq (by positivity)]
    linear_combination -(Real.pi * (Real.cos (Real.pi * z / 2) * Real.sin (Real.pi * z / 2))) * hss]
  simp

/-- `-log ξ₁ cos²(π ξ₂/2)` has the gamma law of parameter one half. -/
theorem gInt_half {f : ℝ → ℝ≥0∞} (hf : Measurable f) :
    gInt 1 (fun s => ∫⁻ z, f (s * Real.cos (Real.pi * z / 2) ^ 2) ∂Spec.unif) = ENNReal.ofReal (1 / Real.sqrt Real.pi) * gInt (1 / 2) f := by
  have hpi := Real.pi_pos
  have hsp : 0 < Real.sqrt Real.pi := Real.sqrt_pos.mpr hpi
  have e1 : gInt 1 (fun s => ∫⁻ z, f (s * Real.cos (Real.pi * z / 2) ^ 2) ∂Spec.unif) =
      ∫⁻ s in Ioi (0 : ℝ), ∫⁻ t in Ioo 0 s, ENNReal.ofReal (Real.exp (-s)) * (ENNReal.ofReal (1 / (Real.pi * (Real.sqrt t * Real.sqrt (s - t)))) * f t) := by
    unfold gInt
    refine setLIntegral_congr_fun measurableSet_Ioi fun s hs => ?_
    simp only [sub_self, Real.rpow_zero, one_mul]
    rw [unif_cos hs, lintegral_const_mul' _ _ ENNReal.ofReal_ne_top]
  rw [e1, ← wedge_swap]
  · unfold gInt
    rw [← lintegral_const_mul' _ _ ENNReal.ofReal_ne_top]
    refine setLIntegral_congr_fun measurableSet_Ioi fun t ht => ?_
    have ht' : (0 : ℝ) < t := ht
    have hst : 0 < Real.sqrt t := Real.sqrt_pos.mpr ht'
    show ∫⁻ u in Ioi t, ENNReal.ofReal (Real.exp (-u)) * (ENNReal.ofReal (1 / (Real.pi * (Real.sqrt t * Real.sqrt (u - t)))) * f t) = _
    rw [← lintegral_shift t]
    have e2 : ∀ s ∈ Ioi (0 : ℝ), ENNReal.ofReal (Real.exp (-(s + t))) * (ENNReal.ofReal (1 / (Real.pi * (Real.sqrt t * Real.sqrt (s + t - t)))) * f t) =
        ENNReal.ofReal (1 / Real.pi * (t ^ ((1 : ℝ) / 2 - 1) * Real.exp (-t))) * f t * (ENNReal.ofReal (s ^ ((1 : ℝ) / 2 - 1) * Real.exp (-s)) * 1) := by
      intro s hs
      have hs' : (0 : ℝ) < s := hs
      have hpw : ∀ x : ℝ, 0 < x → x ^ ((1 : ℝ) / 2 - 1) = 1 / Real.sqrt x := by
        intro x hx
        rw [show (1 : ℝ) / 2 - 1 = -(1 / 2) by norm_num, Real.rpow_neg hx.le, ← Real.sqrt_eq_rpow, one_div]
      rw [hpw s hs', hpw t ht', add_sub_cancel_right, mul_one]
      rw [mul_comm (ENNReal.ofReal _ * f t), ofReal_assoc (by positivity), ofReal_assoc (by positivity)]
      congr 2
      have hss : 0 < Real.sqrt s := Real.sqrt_pos.mpr hs'
      rw [neg_add, Real.exp_add]
      field_simp
    rw [setLIntegral_congr_fun measurableSet_Ioi e2, lintegral_const_mul _ (by fun_prop)]
    have := gInt_one (a := 1 / 2) (by norm_num)
    unfold gInt at this
    rw [this, Real.Gamma_one_half_eq, mul_comm, ofReal_assoc (by positivity), ofReal_assoc (by positivity)]
    congr 2
    have := Real.mul_self_sqrt hpi.le
    field_simp
    linear_combination this
  · exact ((by fun_prop : Measurable fun p : ℝ × ℝ => ENNReal.ofReal (Real.exp (-p.2)))).mul
      ((by fun_prop : Measurable fun p : ℝ × ℝ => ENNReal.ofReal (1 / (Real.pi * (Real.sqrt p.1 * Real.sqrt (p.2 - p.1))))).mul (hf.comp measurable_fst))

/-- Rescaling a gamma number. -/
theorem gInt_scale {a T : ℝ} (hT : 0 < T) (f : ℝ → ℝ≥0∞) :
    gInt a (fun u => f (T * u)) = ∫⁻ e in Ioi (0 : ℝ), ENNReal.ofReal ((e / T) ^ (a - 1) * Real.exp (-e / T) / T) * f e := by
  have himg : (fun e => e / T) '' Ioi (0 : ℝ) = Ioi 0 := by
    ext x
    constructor
    · rintro ⟨s, hs, rfl⟩; exact div_pos hs hT
    · intro hx; exact ⟨x * T, mul_pos hx hT, by field_simp⟩
  have hd : ∀ e ∈ Ioi (0 : ℝ), HasDerivWithinAt (fun e => e / T) (1 / T) (Ioi 0) e := fun e _ =>
    ((hasDerivAt_id e).div_const T).hasDerivWithinAt
  have hinj : InjOn (fun e : ℝ => e / T) (Ioi 0) := fun a _ b _ h => by
    have h' : a / T = b / T := h
    rwa [div_left_inj' hT.ne'] at h'
  unfold gInt
  conv_lhs => rw [← himg]
  rw [lintegral_image_eq_lintegral_abs_deriv_mul measurableSet_Ioi hd hinj]
  refine setLIntegral_congr_fun measurableSet_Ioi fun e he => ?_
  have he' : (0 : ℝ) < e := he
  simp only [mul_div_cancel₀ _ hT.ne']
  rw [ofReal_assoc (by positivity), abs_of_pos (by positivity)]
  congr 2
  rw [neg_div]
  ring

end PNDL
