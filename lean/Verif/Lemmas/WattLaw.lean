import Verif.Lemmas.GammaLaw
import Mathlib.Analysis.SpecialFunctions.Trigonometric.DerivHyp
import Mathlib.MeasureTheory.Integral.IntervalIntegral.FundThmCalculus

/-! The Watt spectrum as a Maxwellian velocity plus a fixed velocity in a random direction. -/
namespace PNDL
open MeasureTheory Spec Set
open scoped ENNReal

/-- An affine function of a uniform number. -/
theorem unif_affine {m d : ℝ} (hd : 0 < d) (f : ℝ → ℝ≥0∞) :
    ∫⁻ v, f (m + (2 * v - 1) * d) ∂Spec.unif = ENNReal.ofReal (1 / (2 * d)) * ∫⁻ e in Ioo (m - d) (m + d), f e := by
  have himg : (fun e => (e - m + d) / (2 * d)) '' Ioo (m - d) (m + d) = Ioo 0 1 := by
    ext v
    constructor
    · rintro ⟨e, ⟨h0, h1⟩, rfl⟩
      exact ⟨div_pos (by linarith) (by linarith), (div_lt_one (by linarith)).mpr (by linarith)⟩
    · rintro ⟨h0, h1⟩
      refine ⟨m + (2 * v - 1) * d, ⟨by nlinarith, by nlinarith⟩, ?_⟩
      show (m + (2 * v - 1) * d - m + d) / (2 * d) = v
      field_simp
      ring
  have hder : ∀ e ∈ Ioo (m - d) (m + d), HasDerivWithinAt (fun e => (e - m + d) / (2 * d)) (1 / (2 * d)) (Ioo (m - d) (m + d)) e := by
    intro e _
    exact ((((hasDerivAt_id e).sub_const m).add_const d).div_const (2 * d)).hasDerivWithinAt
  have hinj : InjOn (fun e : ℝ => (e - m + d) / (2 * d)) (Ioo (m - d) (m + d)) := fun x _ y _ h => by
    have h' : (x - m + d) / (2 * d) = (y - m + d) / (2 * d) := h
    rw [div_left_inj' (by positivity)] at h'
    linarith
  rw [unif_eq_Ioo, ← himg, lintegral_image_eq_lintegral_abs_deriv_mul measurableSet_Ioo hder hinj, ← lintegral_const_mul' _ _ ENNReal.ofReal_ne_top]
  refine setLIntegral_congr_fun measurableSet_Ioo fun e _ => ?_
  have : m + (2 * ((e - m + d) / (2 * d)) - 1) * d = e := by field_simp; ring
  simp only [this]
  rw [abs_of_pos (by positivity)]

/-- A gamma number of parameter three halves as the square of a speed. -/
theorem gInt_speed {a : ℝ} (ha : 0 < a) (h : ℝ → ℝ≥0∞) :
    gInt (3 / 2) h = ∫⁻ r in Ioi (0 : ℝ), ENNReal.ofReal (2 * r ^ 2 / (a * Real.sqrt a) * Real.exp (-r ^ 2 / a)) * h (r ^ 2 / a) := by
  have himg : (fun r => r ^ 2 / a) '' Ioi (0 : ℝ) = Ioi 0 := by
    ext u
    constructor
    · rintro ⟨r, hr, rfl⟩
      have : (0 : ℝ) < r := hr
      show 0 < r ^ 2 / a
      positivity
    · intro hu
      have hu' : 0 < u := hu
      exact ⟨Real.sqrt (u * a), Real.sqrt_pos.mpr (by positivity), by
        show Real.sqrt (u * a) ^ 2 / a = u
        rw [Real.sq_sqrt (by positivity)]; field_simp⟩
  have hder : ∀ r ∈ Ioi (0 : ℝ), HasDerivWithinAt (fun r => r ^ 2 / a) (2 * r / a) (Ioi 0) r := by
    intro r _
    have := (((hasDerivAt_id r).pow 2).div_const a).hasDerivWithinAt (s := Ioi (0 : ℝ))
    simpa using this
  have hinj : InjOn (fun r : ℝ => r ^ 2 / a) (Ioi 0) := fun x hx y hy h => by
    have h' : x ^ 2 / a = y ^ 2 / a := h
    rw [div_left_inj' ha.ne'] at h'
    exact (pow_left_inj₀ (le_of_lt hx) (le_of_lt hy) two_ne_zero).mp h'
  unfold gInt
  conv_lhs => rw [← himg]
  rw [lintegral_image_eq_lintegral_abs_deriv_mul measurableSet_Ioi hder hinj]
  refine setLIntegral_congr_fun measurableSet_Ioi fun r hr => ?_
  have hr' : (0 : ℝ) < r := hr
  have hsa : 0 < Real.sqrt a := Real.sqrt_pos.mpr ha
  show ENNReal.ofReal |2 * r / a| * (ENNReal.ofReal ((r ^ 2 / a) ^ ((3 : ℝ) / 2 - 1) * Real.exp (-(r ^ 2 / a))) * h (r ^ 2 / a)) = _
  rw [ofReal_assoc (abs_nonneg _), abs_of_pos (by positivity)]
  congr 2
  rw [show (3 : ℝ) / 2 - 1 = 1 / 2 by norm_num, ← Real.sqrt_eq_rpow, Real.sqrt_div (by positivity), Real.sqrt_sq hr'.le, neg_div]
  field_simp

theorem speed_mass {a l u : ℝ} (ha : 0 < a) (hl : 0 ≤ l) (hlu : l ≤ u) :
    ∫⁻ r in Ioo l u, ENNReal.ofReal (r * Real.exp (-r ^ 2 / a)) = ENNReal.ofReal (a / 2 * (Real.exp (-l ^ 2 / a) - Real.exp (-u ^ 2 / a))) := by
  have hd : ∀ x ∈ uIcc l u, HasDerivAt (fun r : ℝ => -(a / 2) * Real.exp (-r ^ 2 / a)) (x * Real.exp (-x ^ 2 / a)) x := by
    intro x _
    have h1 : HasDerivAt (fun r : ℝ => -r ^ 2 / a) (-(2 * x) / a) x := by
      have := (((hasDerivAt_id x).pow 2).neg).div_const a
      simpa using this
    refine (h1.exp.const_mul (-(a / 2))).congr_deriv ?_
    field_simp
  have hint : IntervalIntegrable (fun r : ℝ => r * Real.exp (-r ^ 2 / a)) volume l u := by apply Continuous.intervalIntegrable; fun_prop
  have h1 := intervalIntegral.integral_eq_sub_of_hasDerivAt hd hint
  rw [show a / 2 * (Real.exp (-l ^ 2 / a) - Real.exp (-u ^ 2 / a)) = ∫ r in l..u, r * Real.exp (-r ^ 2 / a) by rw [h1]; ring,
    intervalIntegral.integral_of_le hlu, ofReal_integral_eq_lintegral_ofReal]
  · rw [Measure.restrict_congr_set Ioo_ae_eq_Ioc]
  · exact (intervalIntegrable_iff_integrableOn_Ioc_of_le hlu).mp hint
  · refine (ae_restrict_iff' measurableSet_Ioc).mpr (Filter.Eventually.of_forall fun r hr => ?_)
    have : 0 ≤ r := hl.trans hr.1.le
    show 0 ≤ r * Real.exp (-r ^ 2 / a)
    positivity

/-- Which speeds lead to the energy `e`. -/
theorem speed_window {c e r : ℝ} (hc : 0 < c) (hr : 0 < r) (he : 0 < e) :
    (r ^ 2 + c ^ 2 - 2 * c * r < e ∧ e < r ^ 2 + c ^ 2 + 2 * c * r) ↔ r ∈ Ioo |Real.sqrt e - c| (Real.sqrt e + c) := by
  have hs : 0 < Real.sqrt e := Real.sqrt_pos.mpr he
  have hss : Real.sqrt e ^ 2 = e := Real.sq_sqrt he.le
  obtain ⟨s, hsd⟩ : ∃ s, s = Real.sqrt e := ⟨_, rfl⟩
  rw [← hsd] at hs hss ⊢
  rw [← hss]
  constructor
  · rintro ⟨h1, h2⟩
    have g1 : |r - c| < |s| := sq_lt_sq.mp (by nlinarith)
    have g2 : |s| < |r + c| := sq_lt_sq.mp (by nlinarith)
    rw [abs_of_pos hs] at g1 g2
    rw [abs_of_pos (by linarith)] at g2
    rw [abs_lt] at g1
    exact ⟨by rw [abs_lt]; constructor <;> linarith, by linarith⟩
  · rintro ⟨h1, h2⟩
    rw [abs_lt] at h1
    constructor
    · have : (r - c) ^ 2 < s ^ 2 := by
        apply sq_lt_sq.mpr
        rw [abs_of_pos hs, abs_lt]
        constructor <;> linarith
      nlinarith
    · nlinarith

/-- The sum of an isotropic Maxwellian velocity and a fixed one has a Watt energy. -/
theorem gInt_watt {a c : ℝ} (ha : 0 < a) (hc : 0 < c) {f : ℝ → ℝ≥0∞} (hf : Measurable f) :
    gInt (3 / 2) (fun u => ∫⁻ v, f (a * u + c ^ 2 + (2 * v - 1) * (2 * c * Real.sqrt (a * u))) ∂Spec.unif) =
      ∫⁻ e in Ioi (0 : ℝ), ENNReal.ofReal (Real.exp (-(e + c ^ 2) / a) * Real.sinh (2 * c * Real.sqrt e / a) / (2 * c * Real.sqrt a)) * f e := by
  have hsa : 0 < Real.sqrt a := Real.sqrt_pos.mpr ha
  obtain ⟨κ, hκ⟩ : ∃ κ, κ = 1 / (2 * c * (a * Real.sqrt a)) := ⟨_, rfl⟩
  have hκ0 : 0 < κ := by rw [hκ]; positivity
  let W : Set (ℝ × ℝ) := {p | p.1 ^ 2 + c ^ 2 - 2 * c * p.1 < p.2 ∧ p.2 < p.1 ^ 2 + c ^ 2 + 2 * c * p.1}
  have hW : MeasurableSet W := by
    exact (measurableSet_lt (by fun_prop) measurable_snd).inter (measurableSet_lt measurable_snd (by fun_prop))
  let g : ℝ × ℝ → ℝ≥0∞ := fun p => ENNReal.ofReal (κ * (p.1 * Real.exp (-p.1 ^ 2 / a))) * f p.2
  have hg : Measurable g := (by fun_prop : Measurable fun p : ℝ × ℝ => ENNReal.ofReal (κ * (p.1 * Real.exp (-p.1 ^ 2 / a)))).mul (hf.comp measurable_snd)
  rw [gInt_speed ha]
  have e1 : ∀ r ∈ Ioi (0 : ℝ), ENNReal.ofReal (2 * r ^ 2 / (a * Real.sqrt a) * Real.exp (-r ^ 2 / a)) *
      (∫⁻ v, f (a * (r ^ 2 / a) + c ^ 2 + (2 * v - 1) * (2 * c * Real.sqrt (a * (r ^ 2 / a)))) ∂Spec.unif) = ∫⁻ e, W.indicator g (r, e) := by
    intro r hr
    have hr' : (0 : ℝ) < r := hr
    rw [mul_div_cancel₀ _ ha.ne', Real.sqrt_sq hr'.le, unif_affine (by positivity), ofReal_assoc (by positivity)]
    rw [← lintegral_indicator measurableSet_Ioo, ← lintegral_const_mul' _ _ ENNReal.ofReal_ne_top]
    refine lintegral_congr fun e => ?_
    by_cases h : e ∈ Ioo (r ^ 2 + c ^ 2 - 2 * c * r) (r ^ 2 + c ^ 2 + 2 * c * r)
    · rw [indicator_of_mem h, indicator_of_mem (show (r, e) ∈ W from h)]
      show _ = ENNReal.ofReal (κ * (r * Real.exp (-r ^ 2 / a))) * f e
      congr 2
      rw [hκ]
      field_simp
    · rw [indicator_of_notMem h, indicator_of_notMem (show (r, e) ∉ W from h), mul_zero]
  rw [setLIntegral_congr_fun measurableSet_Ioi e1, lintegral_lintegral_swap (f := fun r e => W.indicator g (r, e)) (hg.indicator hW).aemeasurable]
  have e2 : ∀ e : ℝ, ∫⁻ r in Ioi (0 : ℝ), W.indicator g (r, e) = (Ioi (0 : ℝ)).indicator (fun e =>
      ENNReal.ofReal (Real.exp (-(e + c ^ 2) / a) * Real.sinh (2 * c * Real.sqrt e / a) / (2 * c * Real.sqrt a)) * f e) e := by
    intro e
    by_cases he : 0 < e
    · rw [indicator_of_mem (show e ∈ Ioi (0 : ℝ) from he)]
      have hs : 0 < Real.sqrt e := Real.sqrt_pos.mpr he
      have hss : Real.sqrt e ^ 2 = e := Real.sq_sqrt he.le
      have e3 : ∫⁻ r in Ioi (0 : ℝ), W.indicator g (r, e) =
          ∫⁻ r in Ioo |Real.sqrt e - c| (Real.sqrt e + c), ENNReal.ofReal (r * Real.exp (-r ^ 2 / a)) * (ENNReal.ofReal κ * f e) := by
        rw [← lintegral_indicator measurableSet_Ioi, ← lintegral_indicator measurableSet_Ioo]
        refine lintegral_congr fun r => ?_
        by_cases hr : 0 < r
        · rw [indicator_of_mem (show r ∈ Ioi (0 : ℝ) from hr)]
          by_cases hw : r ∈ Ioo |Real.sqrt e - c| (Real.sqrt e + c)
          · rw [indicator_of_mem hw, indicator_of_mem (show (r, e) ∈ W from (speed_window hc hr he).mpr hw)]
            show ENNReal.ofReal (κ * (r * Real.exp (-r ^ 2 / a))) * f e = _
            rw [ofReal_assoc (by positivity), mul_comm κ]
          · rw [indicator_of_notMem hw, indicator_of_notMem (show (r, e) ∉ W from fun h => hw ((speed_window hc hr he).mp h))]
        · rw [indicator_of_notMem (show r ∉ Ioi (0 : ℝ) from hr), indicator_of_notMem (fun h => hr ((abs_nonneg _).trans_lt h.1))]
      have hle : |Real.sqrt e - c| ≤ Real.sqrt e + c := by rw [abs_le]; constructor <;> linarith
      rw [e3, lintegral_mul_const _ (by fun_prop), speed_mass ha (abs_nonneg _) hle, sq_abs]
      have hsplit : a / 2 * (Real.exp (-(Real.sqrt e - c) ^ 2 / a) - Real.exp (-(Real.sqrt e + c) ^ 2 / a)) =
          a * (Real.exp (-(e + c ^ 2) / a) * Real.sinh (2 * c * Real.sqrt e / a)) := by
        rw [Real.sinh_eq, show -(Real.sqrt e - c) ^ 2 / a = -(e + c ^ 2) / a + 2 * c * Real.sqrt e / a by rw [sub_sq, hss]; ring,
          show -(Real.sqrt e + c) ^ 2 / a = -(e + c ^ 2) / a + -(2 * c * Real.sqrt e / a) by rw [add_sq, hss]; ring, Real.exp_add, Real.exp_add]
        ring
      have hsh : 0 < Real.sinh (2 * c * Real.sqrt e / a) := Real.sinh_pos_iff.mpr (by positivity)
      rw [hsplit, ofReal_assoc (by positivity)]
      congr 2
      rw [hκ]
      field_simp
    · rw [indicator_of_notMem (show e ∉ Ioi (0 : ℝ) from he)]
      have : ∀ r : ℝ, W.indicator g (r, e) = 0 := fun r => by
        refine indicator_of_notMem (fun h => he ?_) _
        have h1 : r ^ 2 + c ^ 2 - 2 * c * r < e := h.1
        nlinarith [sq_nonneg (r - c)]
      simp only [this, lintegral_zero]
  simp only [e2]
  rw [lintegral_indicator measurableSet_Ioi]

end PNDL
