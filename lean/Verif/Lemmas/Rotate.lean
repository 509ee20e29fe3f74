import Verif.Lemmas.Sphere
import Mathlib.MeasureTheory.Measure.Haar.InnerProductSpace
import Mathlib.Analysis.InnerProductSpace.Projection.Reflection

/-! Integrals over velocities do not depend on the direction of the axes. -/
namespace PNDL
open MeasureTheory Spec Set
open scoped ENNReal Real

/-- The volume of velocities is the one of Euclidean space. -/
theorem mp_vec : MeasurePreserving (fun y : EuclideanSpace ℝ (Fin 3) => Vec.mk (y 0) (y 1) (y 2)) volume vecVolume := by
  have h1 := PiLp.volume_preserving_ofLp (Fin 3)
  have h2 := volume_preserving_piFinSuccAbove (fun _ : Fin 3 => ℝ) 2
  have h3 : MeasurePreserving (Prod.map id MeasurableEquiv.finTwoArrow : ℝ × (Fin 2 → ℝ) → ℝ × (ℝ × ℝ)) volume volume :=
    (MeasurePreserving.id volume).prod (volume_preserving_finTwoArrow ℝ)
  have h4 : MeasurePreserving (Prod.swap : ℝ × (ℝ × ℝ) → (ℝ × ℝ) × ℝ) volume volume := Measure.measurePreserving_swap
  have h5 : MeasurePreserving toVec volume vecVolume := ⟨measurable_toVec, rfl⟩
  have := h5.comp (h4.comp (h3.comp (h2.comp h1)))
  exact this

theorem measurable_dot (w : Vec) : Measurable fun v : Vec => w.dot v := by
  unfold Vec.dot
  have := measurable_x
  have := measurable_y
  have := measurable_z
  fun_prop

theorem measurable_sqr : Measurable fun v : Vec => v.dot v := by
  unfold Vec.dot
  have := measurable_x
  have := measurable_y
  have := measurable_z
  fun_prop

/-- Turning the axes: an integral that sees a vector `w` only through its inner product with the velocity may take it along the axis. -/
theorem lintegral_turn (w : Vec) {h : ℝ × ℝ → ℝ≥0∞} (hh : Measurable h) :
    ∫⁻ v, h (v.dot v, w.dot v) ∂vecVolume = ∫⁻ v, h (v.dot v, w.mag * v.z) ∂vecVolume := by
  have m1 : Measurable fun v : Vec => h (v.dot v, w.dot v) := hh.comp (measurable_sqr.prodMk (measurable_dot w))
  have m2 : Measurable fun v : Vec => h (v.dot v, w.mag * v.z) := hh.comp (measurable_sqr.prodMk (measurable_const.mul measurable_z))
  rw [← mp_vec.lintegral_comp m1, ← mp_vec.lintegral_comp m2]
  obtain ⟨a, ha⟩ : ∃ a : EuclideanSpace ℝ (Fin 3), a = WithLp.toLp 2 ![w.x, w.y, w.z] := ⟨_, rfl⟩
  obtain ⟨b, hb⟩ : ∃ b : EuclideanSpace ℝ (Fin 3), b = WithLp.toLp 2 ![0, 0, w.mag] := ⟨_, rfl⟩
  have hn : ‖a‖ = ‖b‖ := by
    rw [EuclideanSpace.norm_eq, EuclideanSpace.norm_eq, ha, hb]
    simp only [Fin.sum_univ_three, Real.norm_eq_abs, sq_abs]
    simp only [Matrix.cons_val_zero, Matrix.cons_val_one, Matrix.cons_val]
    congr 1
    unfold Vec.mag
    rw [Real.sq_sqrt (by nlinarith [sq_nonneg w.x, sq_nonneg w.y, sq_nonneg w.z])]
    ring
  obtain ⟨R, hR⟩ : ∃ R : EuclideanSpace ℝ (Fin 3) ≃ₗᵢ[ℝ] EuclideanSpace ℝ (Fin 3), R = (ℝ ∙ (a - b))ᗮ.reflection := ⟨_, rfl⟩
  have hRa : R a = b := by rw [hR]; exact Submodule.reflection_sub hn
  have hin : ∀ u v : EuclideanSpace ℝ (Fin 3), inner ℝ u v = u 0 * v 0 + u 1 * v 1 + u 2 * v 2 := by
    intro u v
    rw [PiLp.inner_apply, Fin.sum_univ_three]
    simp only [RCLike.inner_apply, conj_trivial]
    ring
  have e1 : ∀ y : EuclideanSpace ℝ (Fin 3), h ((Vec.mk (y 0) (y 1) (y 2)).dot (Vec.mk (y 0) (y 1) (y 2)), w.dot (Vec.mk (y 0) (y 1) (y 2))) =
      h (inner ℝ y y, inner ℝ a y) := by
    intro y
    rw [hin, hin, ha]
    rfl
  have e2 : ∀ y : EuclideanSpace ℝ (Fin 3), h ((Vec.mk (y 0) (y 1) (y 2)).dot (Vec.mk (y 0) (y 1) (y 2)), w.mag * y 2) =
      h (inner ℝ y y, inner ℝ b y) := by
    intro y
    rw [hin, hin, hb]
    simp only [Matrix.cons_val_zero, Matrix.cons_val_one, Matrix.cons_val, zero_mul, zero_add]
    rfl
  simp only [e1, e2]
  have m3 : Measurable fun y : EuclideanSpace ℝ (Fin 3) => h (inner ℝ y y, inner ℝ b y) := hh.comp (by fun_prop)
  rw [← R.measurePreserving.lintegral_comp m3]
  refine lintegral_congr fun y => ?_
  rw [LinearIsometryEquiv.inner_map_map, ← hRa, LinearIsometryEquiv.inner_map_map]

/-! ### Translations -/

theorem lintegral_translate (w : Vec) {f : Vec → ℝ≥0∞} (hf : Measurable f) : ∫⁻ v, f (v.add w) ∂vecVolume = ∫⁻ v, f v ∂vecVolume := by
  have m : Measurable fun v : Vec => f (v.add w) := hf.comp (measurable_vec (measurable_x.add_const _) (measurable_y.add_const _) (measurable_z.add_const _))
  rw [← mp_vec.lintegral_comp hf, ← mp_vec.lintegral_comp m,
    ← lintegral_add_right_eq_self (fun y : EuclideanSpace ℝ (Fin 3) => f (Vec.mk (y 0) (y 1) (y 2))) (WithLp.toLp 2 ![w.x, w.y, w.z])]
  rfl

theorem lintegral_mirror (w : Vec) {f : Vec → ℝ≥0∞} (hf : Measurable f) : ∫⁻ v, f (w.sub v) ∂vecVolume = ∫⁻ v, f v ∂vecVolume := by
  have m : Measurable fun v : Vec => f (w.sub v) := hf.comp (measurable_vec (measurable_x.const_sub _) (measurable_y.const_sub _) (measurable_z.const_sub _))
  have m' : Measurable fun v : Vec => f (v.add w) := hf.comp (measurable_vec (measurable_x.add_const _) (measurable_y.add_const _) (measurable_z.add_const _))
  rw [← lintegral_translate w hf, ← mp_vec.lintegral_comp m', ← mp_vec.lintegral_comp m,
    ← (LinearIsometryEquiv.neg ℝ (E := EuclideanSpace ℝ (Fin 3))).measurePreserving.lintegral_comp
      (show Measurable fun y : EuclideanSpace ℝ (Fin 3) => f ((Vec.mk (y 0) (y 1) (y 2)).add w) from m'.comp mp_vec.measurable)]
  refine lintegral_congr fun y => ?_
  have : w.sub (Vec.mk (y 0) (y 1) (y 2)) = (Vec.mk ((-y) 0) ((-y) 1) ((-y) 2)).add w := by
    unfold Vec.sub Vec.add
    simp only [PiLp.neg_apply, Vec.mk.injEq]
    refine ⟨by ring, by ring, by ring⟩
  rw [this]
  rfl

instance : SFinite vecVolume := by unfold vecVolume; infer_instance

/-! ### Averages over directions -/

theorem velOf_unit {s m : ℝ} (hs : 0 < s) (h1 : -1 < m) (h2 : m < 1) (x : ℝ) : (velOf 1 s m x).dot (velOf 1 s m x) = s := by
  have h := Real.sin_sq_add_cos_sq (2 * π * x)
  have hq : Real.sqrt s ^ 2 = s := Real.sq_sqrt hs.le
  have hm : Real.sqrt (1 - m * m) ^ 2 = 1 - m * m := Real.sq_sqrt (by nlinarith)
  unfold velOf Vec.dot
  simp only
  linear_combination (Real.sqrt s ^ 2 * Real.sqrt (1 - m * m) ^ 2) * h + Real.sqrt s ^ 2 * hm + hq

theorem velOf_scale (s m x : ℝ) (w : Vec) : w.dot (velOf 1 s m x) = Real.sqrt s * w.dot (velOf 1 1 m x) := by
  unfold velOf Vec.dot
  simp only [Real.sqrt_one]
  ring

/-- **Archimedes**: the component along any vector of a direction uniform on the sphere is uniform. -/
theorem sphere_average (w : Vec) {f : ℝ → ℝ≥0∞} (hf : Measurable f) :
    ∫⁻ m in Ioo (-1 : ℝ) 1, ∫⁻ x, f (w.dot (velOf 1 1 m x)) ∂Spec.unif = ∫⁻ m in Ioo (-1 : ℝ) 1, f (w.mag * m) := by
  obtain ⟨h, hh⟩ : ∃ h : ℝ × ℝ → ℝ≥0∞, h = fun q => (Iio (1 : ℝ)).indicator (fun s => f (q.2 / Real.sqrt s)) q.1 := ⟨_, rfl⟩
  have mh : Measurable h := by
    have : h = (Prod.fst ⁻¹' Iio (1 : ℝ)).indicator fun q : ℝ × ℝ => f (q.2 / Real.sqrt q.1) := by
      rw [hh]
      funext q
      by_cases hq : q.1 ∈ Iio (1 : ℝ)
      · rw [indicator_of_mem hq, indicator_of_mem (show q ∈ Prod.fst ⁻¹' Iio (1 : ℝ) from hq)]
      · rw [indicator_of_notMem hq, indicator_of_notMem (show q ∉ Prod.fst ⁻¹' Iio (1 : ℝ) from hq)]
    rw [this]
    exact (hf.comp (by fun_prop)).indicator (measurable_fst measurableSet_Iio)
  have key := lintegral_turn w mh
  have m1 : Measurable fun v : Vec => h (v.dot v, w.dot v) := mh.comp (measurable_sqr.prodMk (measurable_dot w))
  have m2 : Measurable fun v : Vec => h (v.dot v, w.mag * v.z) := mh.comp (measurable_sqr.prodMk (measurable_const.mul measurable_z))
  rw [lintegral_velocity one_pos _ m1, lintegral_velocity one_pos _ m2] at key
  have step : ∀ (u : Vec), ∫⁻ s in Ioi (0 : ℝ), ∫⁻ m in Ioo (-1 : ℝ) 1, ∫⁻ x, ENNReal.ofReal (π * 1 ^ 3 * Real.sqrt s) *
      h ((velOf 1 s m x).dot (velOf 1 s m x), u.dot (velOf 1 s m x)) ∂Spec.unif =
      (∫⁻ s in Ioo (0 : ℝ) 1, ENNReal.ofReal (π * Real.sqrt s)) * ∫⁻ m in Ioo (-1 : ℝ) 1, ∫⁻ x, f (u.dot (velOf 1 1 m x)) ∂Spec.unif := by
    intro u
    rw [← lintegral_mul_const _ (by fun_prop)]
    rw [← lintegral_indicator measurableSet_Ioi, ← lintegral_indicator measurableSet_Ioo]
    refine lintegral_congr fun s => ?_
    by_cases hs : s ∈ Ioo (0 : ℝ) 1
    · rw [indicator_of_mem hs, indicator_of_mem (show s ∈ Ioi (0 : ℝ) from hs.1), ← lintegral_const_mul' _ _ ENNReal.ofReal_ne_top]
      refine setLIntegral_congr_fun measurableSet_Ioo fun m hm => ?_
      rw [← lintegral_const_mul' _ _ ENNReal.ofReal_ne_top]
      refine lintegral_congr fun x => ?_
      have hq := Real.sqrt_pos.mpr hs.1
      rw [velOf_unit hs.1 hm.1 hm.2, hh, one_pow, mul_one]
      dsimp only
      rw [indicator_of_mem (show s ∈ Iio (1 : ℝ) from hs.2), velOf_scale, mul_div_cancel_left₀ _ hq.ne']
    · rw [indicator_of_notMem hs]
      by_cases h0 : 0 < s
      · rw [indicator_of_mem (show s ∈ Ioi (0 : ℝ) from h0), ← lintegral_zero (μ := volume.restrict (Ioo (-1 : ℝ) 1))]
        refine setLIntegral_congr_fun measurableSet_Ioo fun m hm => ?_
        rw [← lintegral_zero (μ := Spec.unif)]
        refine lintegral_congr fun x => ?_
        rw [velOf_unit h0 hm.1 hm.2, hh]
        dsimp only
        rw [indicator_of_notMem (show s ∉ Iio (1 : ℝ) from fun hc => hs ⟨h0, hc⟩), mul_zero]
      · rw [indicator_of_notMem (show s ∉ Ioi (0 : ℝ) from h0)]
  have e2 : ∀ s m x, w.mag * (velOf 1 s m x).z = (Vec.mk 0 0 w.mag).dot (velOf 1 s m x) := by
    intro s m x
    unfold Vec.dot
    simp only [zero_mul, zero_add]
  simp only [e2] at key
  rw [step w, step ⟨0, 0, w.mag⟩] at key
  have hK : (∫⁻ s in Ioo (0 : ℝ) 1, ENNReal.ofReal (π * Real.sqrt s)) ≠ 0 := by
    intro h0
    rw [lintegral_eq_zero_iff (by fun_prop)] at h0
    have h1 : ∀ᵐ s ∂volume.restrict (Ioo (0 : ℝ) 1), False := by
      filter_upwards [h0, ae_restrict_mem measurableSet_Ioo] with s a b
      have a : ENNReal.ofReal (π * Real.sqrt s) = 0 := a
      rw [ENNReal.ofReal_eq_zero] at a
      have : 0 < π * Real.sqrt s := mul_pos Real.pi_pos (Real.sqrt_pos.mpr b.1)
      linarith
    rw [Filter.eventually_false_iff_eq_bot, ae_eq_bot, Measure.restrict_eq_zero] at h1
    simp at h1
  have hK' : (∫⁻ s in Ioo (0 : ℝ) 1, ENNReal.ofReal (π * Real.sqrt s)) ≠ ⊤ := by
    refine ne_of_lt (lt_of_le_of_lt (setLIntegral_mono (g := fun _ => ENNReal.ofReal π) measurable_const fun s hs => ?_) ?_)
    · refine ENNReal.ofReal_le_ofReal ?_
      have : Real.sqrt s ≤ 1 := Real.sqrt_le_one.mpr hs.2.le
      nlinarith [Real.pi_pos]
    · rw [setLIntegral_const]
      simp
  have key := (ENNReal.mul_right_inj hK hK').mp key
  rw [key]
  refine setLIntegral_congr_fun measurableSet_Ioo fun m _ => ?_
  have : ∀ x, (Vec.mk 0 0 w.mag).dot (velOf 1 1 m x) = w.mag * m := by
    intro x
    rw [← e2]
    unfold velOf
    simp only [Real.sqrt_one, one_mul]
  simp only [this]
  rw [lintegral_const, Spec.unif]
  simp

end PNDL
