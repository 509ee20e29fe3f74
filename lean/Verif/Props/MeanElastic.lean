import Verif.Props.ElasticLaw
import Mathlib.MeasureTheory.Integral.IntervalIntegral.FundThmCalculus
import Mathlib.Analysis.SpecialFunctions.Sqrt

/-! C171: the mean energy and the mean laboratory cosine after elastic scattering, isotropic in the centre of mass, off a target at rest. -/
namespace PNDL
open MeasureTheory Spec Set
open scoped ENNReal Real

private theorem rad_eq (A m : ℝ) : A ^ 2 + 2 * A * m + 1 = (A + m) ^ 2 + (1 - m ^ 2) := by ring

private theorem rad_pos {A m : ℝ} (h1 : -1 < m) (h2 : m < 1) : 0 < A ^ 2 + 2 * A * m + 1 := by
  rw [rad_eq]; nlinarith [sq_nonneg (A + m)]

theorem abs_restCosine_le {A m : ℝ} (h1 : -1 ≤ m) (h2 : m ≤ 1) : |restCosine A m| ≤ 1 := by
  have hr : (1 + A * m) ^ 2 ≤ A ^ 2 + 2 * A * m + 1 := by nlinarith [sq_nonneg A, mul_nonneg (sq_nonneg A) (by nlinarith : 0 ≤ 1 - m ^ 2)]
  unfold restCosine
  rw [abs_div, abs_of_nonneg (Real.sqrt_nonneg _)]
  exact div_le_one_of_le₀ (by rw [← Real.sqrt_sq_eq_abs]; exact Real.sqrt_le_sqrt hr) (Real.sqrt_nonneg _)

/-- An antiderivative of the laboratory cosine. -/
noncomputable def cosPrim (A m : ℝ) : ℝ :=
  ((A ^ 2 + 2 * A * m + 1) * Real.sqrt (A ^ 2 + 2 * A * m + 1) / 3 + (1 - A ^ 2) * Real.sqrt (A ^ 2 + 2 * A * m + 1)) / (2 * A)

theorem cosPrim_deriv {A m : ℝ} (hA : 0 < A) (h1 : -1 < m) (h2 : m < 1) : HasDerivAt (cosPrim A) (restCosine A m / A * A) m := by
  have hp := rad_pos (A := A) h1 h2
  have hl : HasDerivAt (fun x : ℝ => A ^ 2 + 2 * A * x + 1) (2 * A) m := by
    have := ((hasDerivAt_id m).const_mul (2 * A)).const_add (A ^ 2) |>.add_const 1
    simpa using this
  have hs := hl.sqrt hp.ne'
  have h := (((hl.mul hs).div_const 3).add (hs.const_mul (1 - A ^ 2))).div_const (2 * A)
  refine h.congr_deriv ?_
  unfold restCosine
  obtain ⟨s, hsd⟩ : ∃ s, s = Real.sqrt (A ^ 2 + 2 * A * m + 1) := ⟨_, rfl⟩
  have hs0 : 0 < s := by rw [hsd]; exact Real.sqrt_pos.mpr hp
  have hss : A ^ 2 + 2 * A * m + 1 = s ^ 2 := by rw [hsd, Real.sq_sqrt hp.le]
  rw [← hsd, hss]
  have : A * m = (s ^ 2 - 1 - A ^ 2) / 2 := by linarith
  rw [this]
  field_simp
  ring

theorem restCosine_integrable (A : ℝ) : IntervalIntegrable (restCosine A) volume (-1) 1 := by
  rw [intervalIntegrable_iff_integrableOn_Icc_of_le (by norm_num)]
  refine Integrable.mono' (g := fun _ => (1 : ℝ)) (integrable_const _) (measurable_restCosine A).aestronglyMeasurable ?_
  rw [ae_restrict_iff' measurableSet_Icc]
  exact Filter.Eventually.of_forall fun m hm => by rw [Real.norm_eq_abs]; exact abs_restCosine_le hm.1 hm.2

theorem restCosine_integral {A : ℝ} (hA : 0 < A) : ∫ m in (-1 : ℝ)..1, restCosine A m = cosPrim A 1 - cosPrim A (-1) := by
  refine intervalIntegral.integral_eq_sub_of_hasDerivAt_of_le (by norm_num) ?_ ?_ (restCosine_integrable A)
  · unfold cosPrim
    fun_prop
  · intro m hm
    have := cosPrim_deriv hA hm.1 hm.2
    rwa [div_mul_cancel₀ _ hA.ne'] at this

theorem restCosine_integral_heavy {A : ℝ} (hA : 1 ≤ A) : ∫ m in (-1 : ℝ)..1, restCosine A m = 4 / (3 * A) := by
  have h0 : 0 < A := by linarith
  rw [restCosine_integral h0]
  unfold cosPrim
  rw [show A ^ 2 + 2 * A * 1 + 1 = (A + 1) ^ 2 by ring, show A ^ 2 + 2 * A * -1 + 1 = (A - 1) ^ 2 by ring,
    Real.sqrt_sq (by linarith), Real.sqrt_sq (by linarith)]
  field_simp
  ring

theorem restCosine_integral_light {A : ℝ} (h0 : 0 < A) (hA : A ≤ 1) : ∫ m in (-1 : ℝ)..1, restCosine A m = 2 - 2 * A ^ 2 / 3 := by
  rw [restCosine_integral h0]
  unfold cosPrim
  rw [show A ^ 2 + 2 * A * 1 + 1 = (A + 1) ^ 2 by ring, show A ^ 2 + 2 * A * -1 + 1 = (1 - A) ^ 2 by ring,
    Real.sqrt_sq (by linarith), Real.sqrt_sq (by linarith)]
  field_simp
  ring

/-- The law of isotropic scattering and the mean of a bounded quantity. -/
private theorem iso_joint (d : AngleDist) (hv : ValidDist d) (hl : ∀ law ∈ d.laws, law = .isotropic) (A kT tar E : ℝ) (hA : 0 < A) (hE : 0 < E)
    (ht : tar * kT ≤ E) (b : Option Broadener) (k : Nat) :
      Samples (fun fuel ω => asPair ((Elastic.ofDist d A kT true tar b fuel).sample E ω k))
        ((ENNReal.ofReal (1 / 2) • volume.restrict (Icc (-1) 1)).map fun m => (restCosine A m, restEnergy A E m)) := by
  obtain ⟨p, h1, h2⟩ := C121_joint_partial d hv (fun law h => by rw [hl law h]; trivial) A kT tar E hA hE ht b k
  have : (volume.restrict (Icc (-1 : ℝ) 1)).withDensity (fun m => ENNReal.ofReal (p m)) = ENNReal.ofReal (1 / 2) • volume.restrict (Icc (-1) 1) := by
    rw [← withDensity_const]
    refine withDensity_congr_ae ?_
    rw [Filter.EventuallyEq, ae_restrict_iff' measurableSet_Icc]
    refine Filter.Eventually.of_forall fun m hm => ?_
    have h3 := h1 m hm.1 hm.2
    rw [iso_dist_pdf d hv hl E m hm.1 hm.2] at h3
    rw [← Except.ok.inj h3]
  rwa [this] at h2

private theorem iso_mean (A E : ℝ) (g : ℝ × ℝ → ℝ) (hg : Measurable g) :
    ∫ q, g q ∂(ENNReal.ofReal (1 / 2) • volume.restrict (Icc (-1 : ℝ) 1)).map (fun m => (restCosine A m, restEnergy A E m)) =
      1 / 2 * ∫ m in (-1 : ℝ)..1, g (restCosine A m, restEnergy A E m) := by
  rw [integral_map ((measurable_restCosine A).prodMk (measurable_restEnergy A E)).aemeasurable hg.aestronglyMeasurable, integral_smul_measure,
    ENNReal.toReal_ofReal (by norm_num), smul_eq_mul, intervalIntegral.integral_of_le (by norm_num), integral_Icc_eq_integral_Ioc]

/-- **C171** Elastic scattering, isotropic in the centre of mass, off a target at rest that is not lighter than the neutron: the mean
laboratory cosine is `2/(3A)` and the mean outgoing energy `E (A²+1)/(A+1)²`, the middle of `[((A-1)/(A+1))² E, E]`. -/
theorem C171_mean (d : AngleDist) (hv : ValidDist d) (hl : ∀ law ∈ d.laws, law = .isotropic) (A kT tar E : ℝ) (hA : 1 ≤ A) (hE : 0 < E)
    (ht : tar * kT ≤ E) (b : Option Broadener) : ∃ law : Measure (ℝ × ℝ),
      (∀ k, Samples (fun fuel ω => asPair ((Elastic.ofDist d A kT true tar b fuel).sample E ω k)) law) ∧
      ∫ q, q.1 ∂law = 2 / (3 * A) ∧ ∫ q, q.2 ∂law = (((A - 1) / (A + 1)) ^ 2 * E + E) / 2 := by
  have h0 : 0 < A := by linarith
  refine ⟨_, fun k => iso_joint d hv hl A kT tar E h0 hE ht b k, ?_, ?_⟩
  · rw [iso_mean A E _ measurable_fst, restCosine_integral_heavy hA]; field_simp; norm_num
  · rw [iso_mean A E _ measurable_snd]
    have : ∫ m in (-1 : ℝ)..1, (restCosine A m, restEnergy A E m).2 = 2 * E * (A ^ 2 + 1) / (A + 1) ^ 2 := by
      simp only [restEnergy]
      rw [intervalIntegral.integral_div, intervalIntegral.integral_const_mul, intervalIntegral.integral_add, intervalIntegral.integral_add,
        intervalIntegral.integral_const_mul, integral_id]
      · simp; ring
      all_goals exact Continuous.intervalIntegrable (by fun_prop) _ _
    rw [this]
    field_simp
    ring

/-- **C171** The same for a target lighter than the neutron (hydrogen, with a weight ratio just below 1): the mean laboratory cosine is
`1 - A²/3`. -/
theorem C171_light (d : AngleDist) (hv : ValidDist d) (hl : ∀ law ∈ d.laws, law = .isotropic) (A kT tar E : ℝ) (hA : 0 < A) (h1 : A ≤ 1)
    (hE : 0 < E) (ht : tar * kT ≤ E) (b : Option Broadener) : ∃ law : Measure (ℝ × ℝ),
      (∀ k, Samples (fun fuel ω => asPair ((Elastic.ofDist d A kT true tar b fuel).sample E ω k)) law) ∧
      ∫ q, q.1 ∂law = 1 - A ^ 2 / 3 := by
  refine ⟨_, fun k => iso_joint d hv hl A kT tar E hA hE ht b k, ?_⟩
  rw [iso_mean A E _ measurable_fst, restCosine_integral_light hA h1]; ring

/-- **C171** Any angular distribution: the mean energy after elastic scattering off a target at rest follows from the mean cosine of the
density the distribution reports. -/
theorem C171_energy (d : AngleDist) (hv : ValidDist d) (hl : ∀ law ∈ d.laws, SoundLaw law) (A kT tar E : ℝ) (hA : 0 < A) (hE : 0 < E)
    (ht : tar * kT ≤ E) (b : Option Broadener) : ∃ (p : ℝ → ℝ) (law : Measure (ℝ × ℝ)), (∀ mu, -1 ≤ mu → mu ≤ 1 → d.pdf E mu = .ok (p mu)) ∧
      (∀ k, Samples (fun fuel ω => asPair ((Elastic.ofDist d A kT true tar b fuel).sample E ω k)) law) ∧
      ∫ q, q.2 ∂law = E * (A ^ 2 + 1 + 2 * A * ∫ m in (-1 : ℝ)..1, p m * m) / (A + 1) ^ 2 := by
  obtain ⟨p, h1, h2, h3⟩ := dist_faithful d hv (fun law h => sound_faithful (hl law h)) E
  refine ⟨p, _, fun mu a b => (h1 mu a b).1, (rest_closed hA hE ht h3 densityOn_inside).samples, ?_⟩
  have hprob : IsProbabilityMeasure (densityOn (-1) 1 p) := h3.prob
  rw [integral_map ((measurable_restCosine A).prodMk (measurable_restEnergy A E)).aemeasurable measurable_snd.aestronglyMeasurable]
  have hm : ∫ m, m ∂densityOn (-1) 1 p = ∫ m in (-1 : ℝ)..1, p m * m := by
    unfold densityOn
    rw [integral_withDensity_eq_integral_toReal_smul₀ h2.ennreal_ofReal (Filter.Eventually.of_forall fun _ => ENNReal.ofReal_lt_top),
      intervalIntegral.integral_of_le (by norm_num), ← integral_Icc_eq_integral_Ioc]
    refine setIntegral_congr_fun measurableSet_Icc fun m hm => ?_
    simp only [smul_eq_mul]
    rw [ENNReal.toReal_ofReal (h1 m hm.1 hm.2).2]
  have hint : Integrable (fun m : ℝ => m) (densityOn (-1) 1 p) := by
    refine Integrable.mono' (g := fun _ => (1 : ℝ)) (integrable_const _) measurable_id.aestronglyMeasurable ?_
    filter_upwards [densityOn_inside (p := p)] with m hm
    rw [Real.norm_eq_abs, abs_le]; exact ⟨hm.1.le, hm.2⟩
  have e : ∀ m, restEnergy A E m = E * (A ^ 2 + 1) / (A + 1) ^ 2 + E * (2 * A) / (A + 1) ^ 2 * m := by
    intro m; unfold restEnergy; ring
  simp only [e]
  rw [integral_add (integrable_const _) (hint.const_mul _), integral_const_mul, hm, integral_const]
  simp only [probReal_univ, smul_eq_mul]
  ring

/-- The isotropic distribution the library uses when a file gives none, off carbon-like matter of weight ratio 12 at 1 MeV: the mean cosine is
1/18 and the mean energy 145/169. -/
example (b : Option Broadener) : ∃ law : Measure (ℝ × ℝ),
    (∀ k, Samples (fun fuel ω => asPair ((Elastic.ofDist ⟨[1 / 10 ^ 5], [.isotropic]⟩ 12 (1 / 10 ^ 8) true 400 b fuel).sample 1 ω k)) law) ∧
    ∫ q, q.1 ∂law = 1 / 18 ∧ ∫ q, q.2 ∂law = 145 / 169 := by
  have hv : ValidDist ⟨[1 / 10 ^ 5], [.isotropic]⟩ := ⟨by simp, by simp, by simp⟩
  obtain ⟨law, a1, a2, a3⟩ := C171_mean ⟨[1 / 10 ^ 5], [.isotropic]⟩ hv (by simp) 12 (1 / 10 ^ 8) 400 1 (by norm_num) (by norm_num) (by norm_num) b
  exact ⟨law, a1, by rw [a2]; norm_num, by rw [a3]; norm_num⟩

end PNDL
