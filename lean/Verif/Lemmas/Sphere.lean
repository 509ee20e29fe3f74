import Verif.Spec.Velocity
import Verif.Lemmas.Law
import Mathlib.Analysis.SpecialFunctions.PolarCoord
import Mathlib.MeasureTheory.Group.FundamentalDomain
import Mathlib.MeasureTheory.Function.JacobianOneDim
import Mathlib.MeasureTheory.Integral.IntervalIntegral.Periodic

/-! Integration over velocities in terms of the square of the speed, the cosine to an axis and the azimuth. -/
namespace PNDL
open MeasureTheory Spec Set
open scoped ENNReal Real

theorem measurable_toVec : Measurable toVec := fun _ h => h

theorem measurable_x : Measurable Vec.x := by
  intro s hs
  exact (measurable_fst.comp measurable_fst) hs

theorem measurable_y : Measurable Vec.y := by
  intro s hs
  exact (measurable_snd.comp measurable_fst) hs

theorem measurable_z : Measurable Vec.z := by
  intro s hs
  exact measurable_snd hs

theorem measurable_vec {γ : Type} [MeasurableSpace γ] {a b c : γ → ℝ} (ha : Measurable a) (hb : Measurable b) (hc : Measurable c) :
    Measurable fun t => Vec.mk (a t) (b t) (c t) :=
  measurable_toVec.comp ((ha.prodMk hb).prodMk hc)

/-- An integral over a period, from another origin. -/
theorem lintegral_period {f : ℝ → ℝ≥0∞} {T : ℝ} (hT : 0 < T) (hf : ∀ x, f (x + T) = f x) (a b : ℝ) :
    ∫⁻ x in Ioc a (a + T), f x = ∫⁻ x in Ioc b (b + T), f x := by
  refine (isAddFundamentalDomain_Ioc hT a).setLIntegral_eq (isAddFundamentalDomain_Ioc hT b) f ?_
  rintro ⟨g, hg⟩ x
  obtain ⟨n, rfl⟩ := hg
  show f (n • T + x) = f x
  rw [add_comm]
  have : Function.Periodic f T := hf
  exact this.zsmul n x

/-- Polar coordinates with the angle as the sampler measures it. -/
theorem lintegral_polar (f : ℝ × ℝ → ℝ≥0∞) (hf : Measurable f) :
    ∫⁻ p, f p = ∫⁻ r in Ioi (0 : ℝ), ∫⁻ x, ENNReal.ofReal (2 * π * r) * f (r * Real.sin (2 * π * x), -(r * Real.cos (2 * π * x))) ∂Spec.unif := by
  rw [← lintegral_comp_polarCoord_symm, polarCoord_target, Measure.volume_eq_prod, ← Measure.prod_restrict, lintegral_prod]
  · refine setLIntegral_congr_fun measurableSet_Ioi fun r hr => ?_
    have hr : 0 < r := hr
    simp only [polarCoord_symm_apply, smul_eq_mul]
    obtain ⟨g, hg⟩ : ∃ g : ℝ → ℝ≥0∞, g = fun t => ENNReal.ofReal r * f (r * Real.cos t, r * Real.sin t) := ⟨_, rfl⟩
    have hgm : Measurable g := by
      rw [hg]
      exact (hf.comp ((Real.measurable_cos.const_mul r).prodMk (Real.measurable_sin.const_mul r))).const_mul _
    have e1 : ∫⁻ t in Ioo (-π) π, ENNReal.ofReal r * f (r * Real.cos t, r * Real.sin t) = ∫⁻ t in Ioc (-π) (-π + 2 * π), g t := by
      rw [hg, show -π + 2 * π = π by ring]
      exact setLIntegral_congr Ioo_ae_eq_Ioc
    rw [e1, lintegral_period (by positivity) (fun x => by rw [hg]; simp only [Real.cos_add_two_pi, Real.sin_add_two_pi]) (-π) (-(π / 2))]
    have himg : (fun x : ℝ => 2 * π * x - π / 2) '' Ioc 0 1 = Ioc (-(π / 2)) (-(π / 2) + 2 * π) := by
      have hpi := Real.pi_pos
      ext t
      constructor
      · rintro ⟨x, ⟨h0, h1⟩, rfl⟩
        constructor <;> dsimp only <;> nlinarith
      · rintro ⟨h0, h1⟩
        refine ⟨(t + π / 2) / (2 * π), ⟨by apply div_pos <;> linarith, by rw [div_le_one (by positivity)]; linarith⟩, ?_⟩
        field_simp
        ring
    rw [← himg, lintegral_image_eq_lintegral_abs_deriv_mul (f' := fun _ => 2 * π) measurableSet_Ioc (fun x _ => by
      have := ((hasDerivAt_id x).const_mul (2 * π)).sub_const (π / 2)
      simp only [id_eq, mul_one] at this
      exact this.hasDerivWithinAt) (fun x _ y _ hxy => by
        have hpi := Real.pi_pos
        have hxy : 2 * π * x - π / 2 = 2 * π * y - π / 2 := hxy
        have : 2 * π * x = 2 * π * y := by linarith
        exact mul_left_cancel₀ (by positivity) this), Spec.unif, Measure.restrict_congr_set (Ioc_ae_eq_Icc (α := ℝ) (μ := volume)).symm]
    refine setLIntegral_congr_fun measurableSet_Ioc fun x _ => ?_
    have hpi := Real.pi_pos
    rw [hg]
    simp only
    rw [Real.cos_sub_pi_div_two, Real.sin_sub_pi_div_two, abs_of_pos (by positivity), ← mul_assoc, ← ENNReal.ofReal_mul (by positivity), mul_neg]
  · refine Measurable.aemeasurable ?_
    simp only [polarCoord_symm_apply]
    refine (measurable_fst.ennreal_ofReal).smul (hf.comp ?_)
    fun_prop

/-- The upper half plane in terms of the distance to the origin and the cosine to the axis. -/
theorem lintegral_halfplane (f : ℝ × ℝ → ℝ≥0∞) (hf : Measurable f) :
    ∫⁻ z : ℝ, ∫⁻ q in Ioi (0 : ℝ), ENNReal.ofReal q * f (z, q) = ∫⁻ r in Ioi (0 : ℝ), ∫⁻ m in Ioo (-1 : ℝ) 1, ENNReal.ofReal (r ^ 2) * f (r * m, r * Real.sqrt (1 - m * m)) := by
  have hpi := Real.pi_pos
  obtain ⟨F, hF⟩ : ∃ F : ℝ × ℝ → ℝ≥0∞, F = {p : ℝ × ℝ | 0 < p.2}.indicator fun p => ENNReal.ofReal p.2 * f p := ⟨_, rfl⟩
  have hFm : Measurable F := by
    rw [hF]
    exact (measurable_snd.ennreal_ofReal.mul hf).indicator (measurableSet_lt measurable_const measurable_snd)
  have e0 : ∫⁻ z : ℝ, ∫⁻ q in Ioi (0 : ℝ), ENNReal.ofReal q * f (z, q) = ∫⁻ p, F p := by
    rw [Measure.volume_eq_prod, lintegral_prod _ hFm.aemeasurable]
    refine lintegral_congr fun z => ?_
    rw [← lintegral_indicator measurableSet_Ioi]
    refine lintegral_congr fun q => ?_
    rw [hF]
    by_cases h : 0 < q
    · rw [indicator_of_mem (show q ∈ Ioi (0 : ℝ) from h), indicator_of_mem (show (z, q) ∈ {p : ℝ × ℝ | 0 < p.2} from h)]
    · rw [indicator_of_notMem (show q ∉ Ioi (0 : ℝ) from h), indicator_of_notMem (show (z, q) ∉ {p : ℝ × ℝ | 0 < p.2} from h)]
  rw [e0, ← lintegral_comp_polarCoord_symm, polarCoord_target, Measure.volume_eq_prod, ← Measure.prod_restrict, lintegral_prod]
  · refine setLIntegral_congr_fun measurableSet_Ioi fun r hr => ?_
    have hr : 0 < r := hr
    simp only [polarCoord_symm_apply, smul_eq_mul]
    have himg : Real.cos '' Ioo 0 π = Ioo (-1) 1 := by
      ext m
      constructor
      · rintro ⟨t, ⟨h0, h1⟩, rfl⟩
        refine ⟨?_, ?_⟩
        · rw [← Real.cos_pi]; exact Real.cos_lt_cos_of_nonneg_of_le_pi h0.le le_rfl h1
        · rw [← Real.cos_zero]; exact Real.cos_lt_cos_of_nonneg_of_le_pi le_rfl h1.le h0
      · rintro ⟨h0, h1⟩
        exact ⟨Real.arccos m, ⟨Real.arccos_pos.mpr h1, by
          rcases (Real.arccos_le_pi m).lt_or_eq with h | h
          · exact h
          · rw [Real.arccos_eq_pi] at h; linarith⟩, Real.cos_arccos h0.le h1.le⟩
    rw [← himg, lintegral_image_eq_lintegral_abs_deriv_mul (f' := fun t => -Real.sin t) measurableSet_Ioo
      (fun t _ => (Real.hasDerivAt_cos t).hasDerivWithinAt) (Real.injOn_cos.mono Ioo_subset_Icc_self)]
    have hsplit : ∫⁻ t in Ioo (-π) π, ENNReal.ofReal r * F (r * Real.cos t, r * Real.sin t) =
        ∫⁻ t in Ioo 0 π, ENNReal.ofReal r * F (r * Real.cos t, r * Real.sin t) := by
      rw [← lintegral_indicator measurableSet_Ioo, ← lintegral_indicator measurableSet_Ioo]
      refine lintegral_congr fun t => ?_
      by_cases h : t ∈ Ioo 0 π
      · rw [indicator_of_mem h, indicator_of_mem (show t ∈ Ioo (-π) π from ⟨by linarith [h.1], h.2⟩)]
      · rw [indicator_of_notMem h]
        by_cases h' : t ∈ Ioo (-π) π
        · rw [indicator_of_mem h', hF, indicator_of_notMem, mul_zero]
          intro hc
          have hc : 0 < r * Real.sin t := hc
          have ht : t ≤ 0 := by
            by_contra hc'
            exact h ⟨not_le.mp hc', h'.2⟩
          have := Real.sin_nonpos_of_nonpos_of_neg_pi_le ht h'.1.le
          nlinarith
        · rw [indicator_of_notMem h']
    rw [hsplit]
    refine setLIntegral_congr_fun measurableSet_Ioo fun t ht => ?_
    have hs : 0 < Real.sin t := Real.sin_pos_of_pos_of_lt_pi ht.1 ht.2
    have hsq : Real.sqrt (1 - Real.cos t * Real.cos t) = Real.sin t := by
      rw [Real.sqrt_eq_iff_mul_self_eq (by nlinarith [Real.sin_sq_add_cos_sq t]) hs.le]
      nlinarith [Real.sin_sq_add_cos_sq t]
    have hrs : 0 < r * Real.sin t := mul_pos hr hs
    rw [hF, indicator_of_mem (show (r * Real.cos t, r * Real.sin t) ∈ {p : ℝ × ℝ | 0 < p.2} from hrs), hsq, abs_neg, abs_of_pos hs,
      ← mul_assoc, ← mul_assoc, ← ENNReal.ofReal_mul hr.le, ← ENNReal.ofReal_mul hs.le]
    congr 2
    ring
  · refine Measurable.aemeasurable ?_
    simp only [polarCoord_symm_apply]
    refine (measurable_fst.ennreal_ofReal).smul (hFm.comp ?_)
    fun_prop

/-- The speed in terms of the square of the reduced speed. -/
theorem lintegral_speed {c : ℝ} (hc : 0 < c) (f : ℝ → ℝ≥0∞) :
    ∫⁻ r in Ioi (0 : ℝ), ENNReal.ofReal (r ^ 2) * f r = ∫⁻ s in Ioi (0 : ℝ), ENNReal.ofReal (c ^ 3 / 2 * Real.sqrt s) * f (c * Real.sqrt s) := by
  have himg : (fun s => c * Real.sqrt s) '' Ioi 0 = Ioi 0 := by
    ext r
    constructor
    · rintro ⟨s, hs, rfl⟩; exact mul_pos hc (Real.sqrt_pos.mpr hs)
    · intro hr
      have hr : 0 < r := hr
      refine ⟨(r / c) ^ 2, pow_pos (div_pos hr hc) 2, ?_⟩
      simp only
      rw [Real.sqrt_sq (div_pos hr hc).le]
      field_simp
  conv_lhs => rw [← himg]
  rw [lintegral_image_eq_lintegral_abs_deriv_mul (f' := fun s => c * (1 / (2 * Real.sqrt s))) measurableSet_Ioi
    (fun s hs => ((Real.hasDerivAt_sqrt (ne_of_gt hs)).const_mul c).hasDerivWithinAt) (fun s hs t ht hst => by
      have hs : 0 < s := hs
      have ht : 0 < t := ht
      have : Real.sqrt s = Real.sqrt t := mul_left_cancel₀ hc.ne' hst
      rwa [Real.sqrt_inj hs.le ht.le] at this)]
  refine setLIntegral_congr_fun measurableSet_Ioi fun s hs => ?_
  have hs : 0 < s := hs
  have hq := Real.sqrt_pos.mpr hs
  have hqq : Real.sqrt s ^ 2 = s := Real.sq_sqrt hs.le
  rw [abs_of_pos (by positivity), ← mul_assoc, ← ENNReal.ofReal_mul (by positivity)]
  congr 2
  field_simp

/-- The velocity of reduced speed squared `s` with cosine `m` to the axis and azimuth `2πx`, as the sampler builds it. -/
noncomputable def velOf (c s m x : ℝ) : Vec :=
  ⟨c * Real.sqrt s * Real.sqrt (1 - m * m) * Real.sin (2 * π * x), -(c * Real.sqrt s * Real.sqrt (1 - m * m) * Real.cos (2 * π * x)), c * Real.sqrt s * m⟩

theorem measurable_velOf (c : ℝ) : Measurable fun q : (ℝ × ℝ) × ℝ => velOf c q.1.1 q.1.2 q.2 := by
  unfold velOf
  exact measurable_vec (by fun_prop) (by fun_prop) (by fun_prop)

/-- **Integration over velocities.** -/
theorem lintegral_velocity {c : ℝ} (hc : 0 < c) (f : Vec → ℝ≥0∞) (hf : Measurable f) :
    ∫⁻ v, f v ∂vecVolume = ∫⁻ s in Ioi (0 : ℝ), ∫⁻ m in Ioo (-1 : ℝ) 1, ∫⁻ x, ENNReal.ofReal (π * c ^ 3 * Real.sqrt s) * f (velOf c s m x) ∂Spec.unif := by
  have hpi := Real.pi_pos
  have hft : Measurable fun p : (ℝ × ℝ) × ℝ => f (toVec p) := hf.comp measurable_toVec
  rw [vecVolume, lintegral_map hf measurable_toVec, Measure.volume_eq_prod, lintegral_prod_symm _ hft.aemeasurable]
  -- polar coordinates around the axis
  obtain ⟨g, hg⟩ : ∃ g : ℝ × ℝ → ℝ≥0∞, g = fun p => ∫⁻ x, f (toVec ((p.2 * Real.sin (2 * π * x), -(p.2 * Real.cos (2 * π * x))), p.1)) ∂Spec.unif := ⟨_, rfl⟩
  have hgm : Measurable g := by
    rw [hg]
    have : Measurable fun q : (ℝ × ℝ) × ℝ => f (toVec ((q.1.2 * Real.sin (2 * π * q.2), -(q.1.2 * Real.cos (2 * π * q.2))), q.1.1)) :=
      hft.comp (by fun_prop)
    exact this.lintegral_prod_right'
  have e1 : ∫⁻ z : ℝ, ∫⁻ p : ℝ × ℝ, f (toVec (p, z)) = ENNReal.ofReal (2 * π) * ∫⁻ z : ℝ, ∫⁻ q in Ioi (0 : ℝ), ENNReal.ofReal q * g (z, q) := by
    rw [← lintegral_const_mul' _ _ ENNReal.ofReal_ne_top]
    refine lintegral_congr fun z => ?_
    rw [lintegral_polar (fun p => f (toVec (p, z))) (hft.comp (measurable_id.prodMk measurable_const)), ← lintegral_const_mul' _ _ ENNReal.ofReal_ne_top]
    refine lintegral_congr fun q => ?_
    rw [lintegral_const_mul' _ _ ENNReal.ofReal_ne_top, hg, ENNReal.ofReal_mul (by positivity), mul_assoc]
  rw [e1, lintegral_halfplane g hgm]
  have e2 : ∀ r : ℝ, ∫⁻ m in Ioo (-1 : ℝ) 1, ENNReal.ofReal (r ^ 2) * g (r * m, r * Real.sqrt (1 - m * m)) =
      ENNReal.ofReal (r ^ 2) * ∫⁻ m in Ioo (-1 : ℝ) 1, g (r * m, r * Real.sqrt (1 - m * m)) := fun r => lintegral_const_mul' _ _ ENNReal.ofReal_ne_top
  simp only [e2]
  rw [lintegral_speed hc, ← lintegral_const_mul' _ _ ENNReal.ofReal_ne_top]
  refine lintegral_congr fun s => ?_
  rw [← mul_assoc, ← ENNReal.ofReal_mul (by positivity), ← lintegral_const_mul' _ _ ENNReal.ofReal_ne_top]
  refine lintegral_congr fun m => ?_
  rw [lintegral_const_mul' _ _ ENNReal.ofReal_ne_top, hg, show 2 * π * (c ^ 3 / 2 * Real.sqrt s) = π * c ^ 3 * Real.sqrt s by ring]
  rfl

end PNDL
