import Verif.Lemmas.BetaLaw
import Verif.Props.Law

/-! C104: the N-body law draws from the joint density it reports. -/
namespace PNDL
open MeasureTheory Spec Set
open scoped ENNReal

/-- The density of cosine and energy `√e (Em - e)^(b-1)`, up to a constant. -/
theorem nbody_law {m : Nat} {Y : Tape → ℝ} {b Em : ℝ} (hb : 0 < b) (hE : 0 < Em) (hY : IsGamma m Y b) :
    ∃ κ : ℝ≥0∞, κ ≠ ∞ ∧ ∀ (S : Set (ℝ × ℝ)), MeasurableSet S →
      Spec.iid {ω | (2 * ω (3 + m) - 1, (-(Real.log (ω 1) + Real.log (ω 2) * Real.cos (Real.pi * ω 0 / 2) * Real.cos (Real.pi * ω 0 / 2))) /
        (-(Real.log (ω 1) + Real.log (ω 2) * Real.cos (Real.pi * ω 0 / 2) * Real.cos (Real.pi * ω 0 / 2)) + Y (dropT 3 ω)) * Em) ∈ S} =
      κ * ∫⁻ q in S, ENNReal.ofReal (Real.sqrt q.2 * (Em - q.2) ^ (b - 1)) ∂(volume.restrict (Icc (-1 : ℝ) 1)).prod (volume.restrict (Icc 0 Em)) := by
  obtain ⟨C, hC, hpair⟩ := isGamma_pair isGamma_maxwell hY
  obtain ⟨K, hK⟩ : ∃ K : ℝ, K = 1 / 2 * (1 / Em * (Em ^ (b - 1) * Real.sqrt Em)⁻¹) := ⟨_, rfl⟩
  have hK0 : 0 ≤ K := by rw [hK]; positivity
  refine ⟨C * ENNReal.ofReal (Real.Gamma (3 / 2 + b)) * ENNReal.ofReal K,
    ENNReal.mul_ne_top (ENNReal.mul_ne_top hC ENNReal.ofReal_ne_top) ENNReal.ofReal_ne_top, fun S hS => ?_⟩
  have hind : Measurable (S.indicator (1 : ℝ × ℝ → ℝ≥0∞)) := measurable_one.indicator hS
  have hH : Measurable fun p : ℝ × ℝ × Tape => S.indicator (1 : ℝ × ℝ → ℝ≥0∞) (2 * p.2.2 0 - 1, p.1 / (p.1 + p.2.1) * Em) := by
    refine hind.comp (Measurable.prodMk ?_ ?_)
    · exact ((((measurable_pi_apply 0).comp (measurable_snd.comp measurable_snd)).const_mul 2).sub_const 1)
    · exact (measurable_fst.div (measurable_fst.add (measurable_fst.comp measurable_snd))).mul_const Em
  have hev := hpair _ hH
  have mX := isGamma_maxwell.1
  have hmeas : MeasurableSet {ω : Tape | (2 * ω (3 + m) - 1, (-(Real.log (ω 1) + Real.log (ω 2) * Real.cos (Real.pi * ω 0 / 2) * Real.cos (Real.pi * ω 0 / 2))) /
        (-(Real.log (ω 1) + Real.log (ω 2) * Real.cos (Real.pi * ω 0 / 2) * Real.cos (Real.pi * ω 0 / 2)) + Y (dropT 3 ω)) * Em) ∈ S} := by
    have : Measurable fun ω : Tape => ((2 * ω (3 + m) - 1, (-(Real.log (ω 1) + Real.log (ω 2) * Real.cos (Real.pi * ω 0 / 2) * Real.cos (Real.pi * ω 0 / 2))) /
        (-(Real.log (ω 1) + Real.log (ω 2) * Real.cos (Real.pi * ω 0 / 2) * Real.cos (Real.pi * ω 0 / 2)) + Y (dropT 3 ω)) * Em) : ℝ × ℝ) :=
      ((((measurable_pi_apply (X := fun _ : Nat => ℝ) (3 + m)).const_mul 2).sub_const 1)).prodMk ((mX.div (mX.add (measurable_of_dropT hY.1 3))).mul_const Em)
    exact this hS
  rw [← lintegral_indicator_one hmeas]
  -- the probability of `S` given the ratio
  let f : ℝ → ℝ≥0∞ := fun r => ∫⁻ ω, S.indicator (1 : ℝ × ℝ → ℝ≥0∞) (2 * ω 0 - 1, r * Em) ∂Spec.iid
  have hf : ∀ r, f r = ENNReal.ofReal (1 / 2) * ∫⁻ mu in Icc (-1 : ℝ) 1, S.indicator (1 : ℝ × ℝ → ℝ≥0∞) (mu, r * Em) := by
    intro r
    have h1 : f r = ∫⁻ v, S.indicator (1 : ℝ × ℝ → ℝ≥0∞) (2 * v - 1, r * Em) ∂Spec.unif :=
      draw1 (F := fun v => S.indicator (1 : ℝ × ℝ → ℝ≥0∞) (2 * v - 1, r * Em)) (hind.comp (by fun_prop))
    have h2 := unif_affine (m := 0) (d := 1) one_pos fun mu => S.indicator (1 : ℝ × ℝ → ℝ≥0∞) (mu, r * Em)
    simp only [zero_add, mul_one, zero_sub] at h2
    rw [h1, h2, Measure.restrict_congr_set Ioo_ae_eq_Icc]
  have hfm : Measurable f := by
    have : Measurable fun p : ℝ × Tape => S.indicator (1 : ℝ × ℝ → ℝ≥0∞) (2 * p.2 0 - 1, p.1 * Em) :=
      hind.comp (((((measurable_pi_apply 0).comp measurable_snd).const_mul 2).sub_const 1).prodMk (measurable_fst.mul_const Em))
    exact this.lintegral_prod_right'
  have e1 : ∫⁻ ω, ({ω : Tape | (2 * ω (3 + m) - 1, (-(Real.log (ω 1) + Real.log (ω 2) * Real.cos (Real.pi * ω 0 / 2) * Real.cos (Real.pi * ω 0 / 2))) /
        (-(Real.log (ω 1) + Real.log (ω 2) * Real.cos (Real.pi * ω 0 / 2) * Real.cos (Real.pi * ω 0 / 2)) + Y (dropT 3 ω)) * Em) ∈ S}).indicator 1 ω ∂Spec.iid =
      C * gInt (3 / 2) fun x => gInt b fun y => f (x / (x + y)) := hev
  rw [e1, gInt_beta (by norm_num) hb hfm]
  -- from the ratio to the energy
  have himg : (fun e => e / Em) '' Ioo 0 Em = Ioo (0 : ℝ) 1 := by
    ext r
    constructor
    · rintro ⟨e, ⟨h0, h1⟩, rfl⟩; exact ⟨div_pos h0 hE, (div_lt_one hE).mpr h1⟩
    · rintro ⟨h0, h1⟩
      exact ⟨r * Em, ⟨by positivity, by nlinarith⟩, by show r * Em / Em = r; field_simp⟩
  have hder : ∀ e ∈ Ioo 0 Em, HasDerivWithinAt (fun e => e / Em) (1 / Em) (Ioo 0 Em) e := fun e _ =>
    ((hasDerivAt_id e).div_const Em).hasDerivWithinAt
  have hinj : InjOn (fun e : ℝ => e / Em) (Ioo 0 Em) := fun p _ q _ h => by
    have h' : p / Em = q / Em := h
    rwa [div_left_inj' hE.ne'] at h'
  have e2 : ∫⁻ r in Ioo (0 : ℝ) 1, ENNReal.ofReal (r ^ ((3 : ℝ) / 2 - 1) * (1 - r) ^ (b - 1)) * f r =
      ENNReal.ofReal K * ∫⁻ e in Icc 0 Em, ∫⁻ mu in Icc (-1 : ℝ) 1, ENNReal.ofReal (Real.sqrt e * (Em - e) ^ (b - 1)) * S.indicator 1 (mu, e) := by
    rw [← himg, lintegral_image_eq_lintegral_abs_deriv_mul measurableSet_Ioo hder hinj, ← lintegral_const_mul' _ _ ENNReal.ofReal_ne_top,
      Measure.restrict_congr_set Ioo_ae_eq_Ioc, ← Measure.restrict_congr_set Ioo_ae_eq_Ioc]
    rw [← Measure.restrict_congr_set (Ioo_ae_eq_Icc (a := (0 : ℝ)) (b := Em) (μ := volume))]
    refine setLIntegral_congr_fun measurableSet_Ioo fun e he => ?_
    obtain ⟨h0, h1⟩ := he
    have h1' : 0 < Em - e := by linarith
    have hsE : 0 < Real.sqrt Em := Real.sqrt_pos.mpr hE
    show ENNReal.ofReal |1 / Em| * (ENNReal.ofReal ((e / Em) ^ ((3 : ℝ) / 2 - 1) * (1 - e / Em) ^ (b - 1)) * f (e / Em)) = _
    have hpw : 0 ≤ 1 / Em * ((e / Em) ^ ((3 : ℝ) / 2 - 1) * (1 - e / Em) ^ (b - 1)) := by
      have : 0 ≤ (1 - e / Em) ^ (b - 1) := Real.rpow_nonneg (by rw [sub_nonneg]; exact ((div_lt_one hE).mpr h1).le) _
      positivity
    rw [hf, div_mul_cancel₀ _ hE.ne', lintegral_const_mul' _ _ ENNReal.ofReal_ne_top, ofReal_assoc (abs_nonneg _), abs_of_pos (by positivity),
      ofReal_assoc hpw, ofReal_assoc hK0]
    congr 2
    rw [show (3 : ℝ) / 2 - 1 = 1 / 2 by norm_num, ← Real.sqrt_eq_rpow, Real.sqrt_div h0.le, show 1 - e / Em = (Em - e) / Em by field_simp,
      Real.div_rpow h1'.le hE.le, hK]
    have : 0 < Em ^ (b - 1) := Real.rpow_pos_of_pos hE _
    field_simp
  rw [e2]
  have e3 : ∫⁻ q in S, ENNReal.ofReal (Real.sqrt q.2 * (Em - q.2) ^ (b - 1)) ∂(volume.restrict (Icc (-1 : ℝ) 1)).prod (volume.restrict (Icc 0 Em)) =
      ∫⁻ e in Icc 0 Em, ∫⁻ mu in Icc (-1 : ℝ) 1, ENNReal.ofReal (Real.sqrt e * (Em - e) ^ (b - 1)) * S.indicator 1 (mu, e) := by
    rw [← lintegral_indicator hS]
    have hq : ∀ q : ℝ × ℝ, S.indicator (fun q => ENNReal.ofReal (Real.sqrt q.2 * (Em - q.2) ^ (b - 1))) q =
        ENNReal.ofReal (Real.sqrt q.2 * (Em - q.2) ^ (b - 1)) * S.indicator 1 q := by
      intro q
      by_cases h : q ∈ S
      · rw [indicator_of_mem h, indicator_of_mem h]; simp
      · rw [indicator_of_notMem h, indicator_of_notMem h]; simp
    simp only [hq]
    exact lintegral_prod_symm' _ ((by fun_prop : Measurable fun q : ℝ × ℝ => ENNReal.ofReal (Real.sqrt q.2 * (Em - q.2) ^ (b - 1))).mul hind)
  rw [e3, mul_assoc, mul_assoc]

/-- The reported density has the shape `C √e (Em - e)^(3n/2 - 4)`. -/
theorem nbody_shape {n : Nat} {Ap A Q E Em : ℝ} (hn : n = 3 ∨ n = 4 ∨ n = 5) (hemax : (⟨n, Ap, A, Q⟩ : NBody).emax E = Em) {p : ℝ → ℝ} (hE : 0 < Em)
    (hp : ∀ x, 0 ≤ x → x ≤ Em → (⟨n, Ap, A, Q⟩ : NBody).pdf E x = .ok (p x)) :
    ∃ C : ℝ, ∀ x, 0 ≤ x → x ≤ Em → p x = C * (Real.sqrt x * (Em - x) ^ (3 * (n : ℝ) / 2 - 4)) := by
  have hn0 : (0 : ℝ) < 3 * (n : ℝ) / 2 - 4 := by
    rcases hn with rfl | rfl | rfl <;> norm_num
  obtain ⟨CR, hCR⟩ : ∃ CR : Res ℝ, CR = (
    if n = 3 then rdiv 4 (Real.pi * Em * Em)
    else if n = 4 then do let p ← cpow Em (7 / 2); rdiv 105 (32 * p)
    else if n = 5 then do let p ← cpow Em 5; rdiv 256 (14 * Real.pi * p)
    else .ok 0 : Res ℝ) := ⟨_, rfl⟩
  have hform : ∀ x, (⟨n, Ap, A, Q⟩ : NBody).pdf E x = (do
      let C ← CR
      let s ← csqrt x
      let p ← cpow (Em - x) (3 * (n : ℝ) / 2 - 4)
      return C * s * p) := by
    intro x
    rw [hCR]
    unfold NBody.pdf
    simp only [hemax]
  cases CR with
  | error e =>
    have := hp 0 le_rfl hE.le
    rw [hform] at this
    cases this
  | ok C =>
    refine ⟨C, fun x h0 h1 => ?_⟩
    have := hp x h0 h1
    rw [hform] at this
    simp only [bind, Except.bind, csqrt_ok h0] at this
    rw [cpow_nonneg (by linarith) hn0] at this
    simp only [pure, Except.pure, Except.ok.injEq] at this
    rw [← this]
    ring

/-- What `sample_angle_energy` returns for draws strictly between 0 and 1. -/
theorem nbody_value {n : Nat} {Ap A Q E : ℝ} (hn : n = 3 ∨ n = 4 ∨ n = 5) : ∃ (m : Nat) (Y : Tape → ℝ), IsGamma m Y (3 * (n : ℝ) / 2 - 3) ∧
    (∀ ω ω' : Tape, (∀ i < m, ω i = ω' i) → Y ω = Y ω') ∧
    ∀ (ω : Tape) (k : Nat), OpenTape ω → (⟨n, Ap, A, Q⟩ : NBody).sample E ω k =
      .ok (2 * dropT k ω (3 + m) - 1, (-(Real.log (dropT k ω 1) + Real.log (dropT k ω 2) * Real.cos (Real.pi * dropT k ω 0 / 2) * Real.cos (Real.pi * dropT k ω 0 / 2))) /
        (-(Real.log (dropT k ω 1) + Real.log (dropT k ω 2) * Real.cos (Real.pi * dropT k ω 0 / 2) * Real.cos (Real.pi * dropT k ω 0 / 2)) + Y (dropT 3 (dropT k ω))) *
          (⟨n, Ap, A, Q⟩ : NBody).emax E, k + (3 + m + 1)) := by
  have lneg : ∀ (ω : Tape), OpenTape ω → ∀ i, 0 < -Real.log (ω i) := fun ω h i => by
    have := Real.log_neg (h i).1 (h i).2
    linarith
  have xpos : ∀ (ω : Tape), OpenTape ω → ∀ i j c, 0 < -(Real.log (ω i) + Real.log (ω j) * c * c) := fun ω h i j c => by
    have h1 := lneg ω h i
    have h2 := mul_nonneg (lneg ω h j).le (mul_self_nonneg c)
    nlinarith
  have spec : ∀ (ω : Tape), OpenTape ω → ∀ k, maxwellianSpectrum ω k = .ok (-(Real.log (ω (k + 1)) + Real.log (ω (k + 2)) * Real.cos (Real.pi * ω k / 2) * Real.cos (Real.pi * ω k / 2))) := by
    intro ω h k
    unfold maxwellianSpectrum
    simp only [clog_ok (h (k + 1)).1, clog_ok (h (k + 2)).1, bind, Except.bind]
    rfl
  rcases hn with rfl | rfl | rfl
  · refine ⟨3, _, by rw [show (3 * ((3 : ℕ) : ℝ) / 2 - 3 : ℝ) = 3 / 2 by norm_num]; exact isGamma_maxwell, fun ω ω' h => ?_, fun ω k h => ?_⟩
    · simp only [h 0 (by norm_num), h 1 (by norm_num), h 2 (by norm_num)]
    unfold NBody.sample
    rw [spec ω h k]
    simp only [bind, Except.bind, if_pos, spec ω h (k + 3), pure, Except.pure]
    rw [rdiv_ok (by have := xpos ω h (k + 1) (k + 2) (Real.cos (Real.pi * ω k / 2)); have := xpos ω h (k + 3 + 1) (k + 3 + 2) (Real.cos (Real.pi * ω (k + 3) / 2)); linarith)]
    rfl
  · refine ⟨1 + 1 + 1, _, by rw [show (3 * ((4 : ℕ) : ℝ) / 2 - 3 : ℝ) = 1 + 1 + 1 by norm_num]; exact isGamma_add (by norm_num) (isGamma_add (by norm_num) isGamma_one), fun ω ω' h => ?_, fun ω k h => ?_⟩
    · simp only [dropT_apply, Nat.add_zero, Nat.zero_add, Nat.reduceAdd, h 0 (by norm_num), h 1 (by norm_num), h 2 (by norm_num)]
    have h0 := (h (k + 3)).1
    have h1 := (h (k + 3 + 1)).1
    have h2 := (h (k + 3 + 2)).1
    unfold NBody.sample
    rw [spec ω h k]
    simp only [bind, Except.bind, pure, Except.pure]
    rw [if_neg (by norm_num), if_pos trivial, clog_ok (by positivity)]
    simp only
    rw [Real.log_mul (by positivity) h2.ne', Real.log_mul h0.ne' h1.ne']
    rw [rdiv_ok (by have := xpos ω h (k + 1) (k + 2) (Real.cos (Real.pi * ω k / 2)); have := lneg ω h (k + 3); have := lneg ω h (k + 3 + 1); have := lneg ω h (k + 3 + 2); linarith)]
    simp only [dropT_apply, Nat.add_zero, Nat.zero_add, Nat.reduceAdd, ← Nat.add_assoc]
    congr 4
    ring
  · refine ⟨2 + 1 + 1 + 1 + 1, _, by rw [show (3 * ((5 : ℕ) : ℝ) / 2 - 3 : ℝ) = 1 / 2 + 1 + 1 + 1 + 1 by norm_num]
                                     exact isGamma_add (by norm_num) (isGamma_add (by norm_num) (isGamma_add (by norm_num) (isGamma_add (by norm_num) isGamma_half))), fun ω ω' h => ?_, fun ω k h => ?_⟩
    · simp only [dropT_apply, Nat.add_zero, Nat.zero_add, Nat.reduceAdd, h 0 (by norm_num), h 1 (by norm_num), h 2 (by norm_num), h 3 (by norm_num), h 4 (by norm_num), h 5 (by norm_num)]
    have h0 := (h (k + 3)).1
    have h1 := (h (k + 3 + 1)).1
    have h2 := (h (k + 3 + 2)).1
    have h3 := (h (k + 3 + 3)).1
    unfold NBody.sample
    rw [spec ω h k]
    simp only [bind, Except.bind, pure, Except.pure]
    rw [if_neg (by norm_num), if_neg (by norm_num), if_pos trivial, clog_ok (by positivity)]
    simp only
    rw [clog_ok (h (k + 3 + 4)).1]
    simp only
    rw [Real.log_mul (by positivity) h3.ne', Real.log_mul (by positivity) h2.ne', Real.log_mul h0.ne' h1.ne']
    rw [rdiv_ok (by
      have := xpos ω h (k + 1) (k + 2) (Real.cos (Real.pi * ω k / 2)); have := lneg ω h (k + 3); have := lneg ω h (k + 3 + 1)
      have := lneg ω h (k + 3 + 2); have := lneg ω h (k + 3 + 3)
      have := mul_nonneg (lneg ω h (k + 3 + 4)).le (sq_nonneg (Real.cos (0.5 * Real.pi * ω (k + 3 + 5))))
      linarith)]
    simp only [dropT_apply, Nat.add_zero, Nat.zero_add, Nat.reduceAdd, ← Nat.add_assoc]
    rw [show 0.5 * Real.pi * ω (k + 8) = Real.pi * ω (k + 8) / 2 by ring]
    congr 4
    ring

/-- **C104** `NBody::sample_angle_energy`: with independent uniform random numbers, the returned pairs of cosine and energy have the
joint density that `NBody::pdf` reports, on all cosines and all energies up to the maximum. -/
theorem C104_nbody (n : Nat) (Ap A Q : ℝ) (d : NBody) (hd : NBody.make n Ap A Q = .ok d) (E : ℝ)
    (hE : 0 < (Ap - 1) / Ap * (A / (A + 1) * E + Q)) (k : Nat) :
    ∃ p : ℝ → ℝ, (∀ x, 0 ≤ x → x ≤ (Ap - 1) / Ap * (A / (A + 1) * E + Q) → d.pdf E x = .ok (p x)) ∧
      Samples (fun _ ω => (d.sample E ω k).map fun r => ((r.1, r.2.1), r.2.2))
        ((volume.restrict (Icc (-1) 1 ×ˢ Icc 0 ((Ap - 1) / Ap * (A / (A + 1) * E + Q)))).withDensity fun q : ℝ × ℝ => ENNReal.ofReal (p q.2)) := by
  have hn := ((C43_accepts n Ap A Q).mp ⟨d, hd⟩).1
  obtain ⟨p, hp, hone⟩ := C70_normalised n Ap A Q d hd E hE
  have hd' : d = ⟨n, Ap, A, Q⟩ := by
    rcases C43_make n Ap A Q with h | h <;> rw [h] at hd <;> cases hd; rfl
  subst hd'
  obtain ⟨Em, hEm⟩ : ∃ Em, Em = (Ap - 1) / Ap * (A / (A + 1) * E + Q) := ⟨_, rfl⟩
  have hemax : (⟨n, Ap, A, Q⟩ : NBody).emax E = Em := hEm.symm
  rw [← hEm] at hE hp hone ⊢
  refine ⟨p, fun x h0 h1 => (hp x h0 h1).1, ?_⟩
  obtain ⟨C, hC⟩ := nbody_shape hn hemax hE fun x h0 h1 => (hp x h0 h1).1
  have hpos : ∀ x, 0 < x → x < Em → 0 < Real.sqrt x * (Em - x) ^ (3 * (n : ℝ) / 2 - 4) := fun x h0 h1 =>
    mul_pos (Real.sqrt_pos.mpr h0) (Real.rpow_pos_of_pos (by linarith) _)
  have hn0 : (0 : ℝ) < 3 * (n : ℝ) / 2 - 4 := by
    rcases hn with rfl | rfl | rfl <;> norm_num
  have hC0 : 0 ≤ C := by
    have h1 := (hp (Em / 2) (by linarith) (by linarith)).2
    rw [hC _ (by linarith) (by linarith)] at h1
    exact nonneg_of_mul_nonneg_left h1 (hpos _ (by linarith) (by linarith))
  -- the total of the reported density
  obtain ⟨μ, hμ⟩ : ∃ μ : Measure (ℝ × ℝ), μ = (volume.restrict (Icc (-1 : ℝ) 1)).prod (volume.restrict (Icc 0 Em)) := ⟨_, rfl⟩
  have hcont : IntervalIntegrable (fun x : ℝ => C * (Real.sqrt x * (Em - x) ^ (3 * (n : ℝ) / 2 - 4))) volume 0 Em := by
    apply Continuous.intervalIntegrable
    have : Continuous fun x : ℝ => (Em - x) ^ (3 * (n : ℝ) / 2 - 4) := (continuous_const.sub continuous_id).rpow_const fun _ => Or.inr hn0.le
    fun_prop
  have hone' : ∫⁻ x in Icc 0 Em, ENNReal.ofReal (C * (Real.sqrt x * (Em - x) ^ (3 * (n : ℝ) / 2 - 4))) = ENNReal.ofReal (1 / 2) := by
    rw [lintegral_of_integral hE.le hcont fun x hx =>
      mul_nonneg hC0 (mul_nonneg (Real.sqrt_nonneg _) (Real.rpow_nonneg (by linarith [hx.2]) _))]
    congr 1
    have : ∫ x in (0 : ℝ)..Em, p x = ∫ x in (0 : ℝ)..Em, C * (Real.sqrt x * (Em - x) ^ (3 * (n : ℝ) / 2 - 4)) := by
      refine intervalIntegral.integral_congr fun x hx => ?_
      rw [uIcc_of_le hE.le] at hx
      exact hC x hx.1 hx.2
    rw [← this]
    rw [intervalIntegral.integral_const, smul_eq_mul] at hone
    linarith
  have htot : ENNReal.ofReal C * ∫⁻ q, ENNReal.ofReal (Real.sqrt q.2 * (Em - q.2) ^ (3 * (n : ℝ) / 2 - 4)) ∂μ = 1 := by
    rw [hμ, lintegral_prod_symm' _ (by fun_prop)]
    simp only [lintegral_const, Measure.restrict_apply_univ, Real.volume_Icc]
    rw [lintegral_mul_const _ (by fun_prop), ← mul_assoc, ← lintegral_const_mul _ (by fun_prop)]
    simp only [← ENNReal.ofReal_mul hC0]
    rw [hone', ← ENNReal.ofReal_mul (by norm_num)]
    norm_num
  -- the law of the sampled pairs, up to a constant
  obtain ⟨m, Y, hY, _, hval⟩ := nbody_value (Ap := Ap) (A := A) (Q := Q) (E := E) hn
  obtain ⟨κ, hκ, hlaw⟩ := nbody_law (m := m) (Y := Y) (b := 3 * (n : ℝ) / 2 - 3) (Em := Em) (by linarith) hE hY
  have hb : 3 * (n : ℝ) / 2 - 3 - 1 = 3 * (n : ℝ) / 2 - 4 := by ring
  simp only [hb, ← hμ] at hlaw
  have hκC : κ = ENNReal.ofReal C := by
    have h1 := hlaw univ .univ
    simp only [mem_univ, Measure.restrict_univ, ofPred_true, measure_univ] at h1
    have h2 : κ * (ENNReal.ofReal C * ∫⁻ q, ENNReal.ofReal (Real.sqrt q.2 * (Em - q.2) ^ (3 * (n : ℝ) / 2 - 4)) ∂μ) = ENNReal.ofReal C := by
      rw [mul_left_comm, ← h1, mul_one]
    rw [← h2, htot, mul_one]
  intro S hS
  have hevent : Spec.iid {ω : Tape | ∃ (_ : Nat) (x : ℝ × ℝ) (k' : Nat), ((⟨n, Ap, A, Q⟩ : NBody).sample E ω k).map (fun r => ((r.1, r.2.1), r.2.2)) = .ok (x, k') ∧ x ∈ S} =
      Spec.iid (dropT k ⁻¹' {ω | (2 * ω (3 + m) - 1, (-(Real.log (ω 1) + Real.log (ω 2) * Real.cos (Real.pi * ω 0 / 2) * Real.cos (Real.pi * ω 0 / 2))) /
        (-(Real.log (ω 1) + Real.log (ω 2) * Real.cos (Real.pi * ω 0 / 2) * Real.cos (Real.pi * ω 0 / 2)) + Y (dropT 3 ω)) * Em) ∈ S}) := by
    refine measure_congr ?_
    filter_upwards [iid_open] with ω hω
    have hk' := hval ω k hω
    rw [hemax] at hk'
    refine propext ⟨?_, ?_⟩
    · rintro ⟨_, x, k'', h1, h2⟩
      rw [hk'] at h1
      cases h1
      exact h2
    · intro h
      exact ⟨0, _, _, by rw [hk']; rfl, h⟩
  have hmeas : MeasurableSet {ω : Tape | (2 * ω (3 + m) - 1, (-(Real.log (ω 1) + Real.log (ω 2) * Real.cos (Real.pi * ω 0 / 2) * Real.cos (Real.pi * ω 0 / 2))) /
        (-(Real.log (ω 1) + Real.log (ω 2) * Real.cos (Real.pi * ω 0 / 2) * Real.cos (Real.pi * ω 0 / 2)) + Y (dropT 3 ω)) * Em) ∈ S} := by
    have mX := isGamma_maxwell.1
    have : Measurable fun ω : Tape => ((2 * ω (3 + m) - 1, (-(Real.log (ω 1) + Real.log (ω 2) * Real.cos (Real.pi * ω 0 / 2) * Real.cos (Real.pi * ω 0 / 2))) /
        (-(Real.log (ω 1) + Real.log (ω 2) * Real.cos (Real.pi * ω 0 / 2) * Real.cos (Real.pi * ω 0 / 2)) + Y (dropT 3 ω)) * Em) : ℝ × ℝ) :=
      ((((measurable_pi_apply (X := fun _ : Nat => ℝ) (3 + m)).const_mul 2).sub_const 1)).prodMk ((mX.div (mX.add (measurable_of_dropT hY.1 3))).mul_const Em)
    exact this hS
  refine hevent.trans ?_
  rw [← Measure.map_apply (measurable_dropT k) hmeas, iid_drop, hlaw S hS, hκC]
  have hμ' : μ = volume.restrict (Icc (-1 : ℝ) 1 ×ˢ Icc 0 Em) := by
    rw [hμ, Measure.prod_restrict, ← Measure.volume_eq_prod]
  rw [withDensity_apply _ hS, ← lintegral_const_mul' _ _ ENNReal.ofReal_ne_top, hμ', Measure.restrict_restrict hS]
  refine setLIntegral_congr_fun (hS.inter (measurableSet_Icc.prod measurableSet_Icc)) fun q hq => ?_
  show _ = ENNReal.ofReal (p q.2)
  rw [← ENNReal.ofReal_mul hC0, hC q.2 hq.2.2.1 hq.2.2.2]

-- the hypotheses are met for each number of bodies
example (n : Nat) (hn : n = 3 ∨ n = 4 ∨ n = 5) : ∃ d, NBody.make n 3 2 1 = .ok d ∧ (0 : ℝ) < (3 - 1) / 3 * (2 / (2 + 1) * 1 + 1) := by
  obtain ⟨d, h⟩ := (C43_accepts n 3 2 1).mpr ⟨hn, by norm_num, by norm_num⟩
  exact ⟨d, h, by norm_num⟩

end PNDL
