import Verif.Lemmas.Loop
import Verif.Lemmas.Sphere
import Verif.Lemmas.BetaLaw
import Verif.Props.Target
import Verif.Props.JointLaw

/-! C119: the law of the sampled target velocities (src/elastic_svt.cpp). -/
namespace PNDL
open MeasureTheory Spec Set
open scoped ENNReal Real

/-- A gamma distributed function of the first draws, normalised. -/
theorem gamma_law {n : Nat} {Y : Tape → ℝ} {a : ℝ} (h : IsGamma n Y a) (ha : 0 < a) {f : ℝ → ℝ≥0∞} (hf : Measurable f) :
    ∫⁻ ω, f (Y ω) ∂Spec.iid = ENNReal.ofReal (1 / Real.Gamma a) * gInt a f := by
  obtain ⟨hY, C, hC, hlaw⟩ := h
  have hG := Real.Gamma_pos_of_pos ha
  have h1 := hlaw (fun p => f p.1) (hf.comp measurable_fst)
  simp only [lintegral_const, measure_univ, mul_one] at h1
  have h2 := hlaw (fun _ => 1) measurable_const
  simp only [lintegral_const, measure_univ, mul_one] at h2
  rw [gInt_one ha] at h2
  rw [h1]
  congr 1
  have h3 := ENNReal.eq_inv_of_mul_eq_one_left h2.symm
  rw [h3, ← ENNReal.ofReal_inv_of_pos hG, one_div]

/-- Integrals of the mixture of the two laws of the reduced speed squared. -/
theorem speed_mix {y : ℝ} (hy : 0 ≤ y) {f : ℝ → ℝ≥0∞} (hf : Measurable f) :
    ENNReal.ofReal (2 / (Real.sqrt π * y + 2)) * (ENNReal.ofReal (1 / Real.Gamma 2) * gInt 2 f) +
      ENNReal.ofReal (1 - 2 / (Real.sqrt π * y + 2)) * (ENNReal.ofReal (1 / Real.Gamma (3 / 2)) * gInt (3 / 2) f) =
    ∫⁻ s in Ioi (0 : ℝ), ENNReal.ofReal (2 / (Real.sqrt π * y + 2) * (Real.exp (-s) * Real.sqrt s * (Real.sqrt s + y))) * f s := by
  have hsp : 0 < Real.sqrt π := Real.sqrt_pos.mpr Real.pi_pos
  have hd : 0 < Real.sqrt π * y + 2 := by positivity
  have g2 : Real.Gamma 2 = 1 := by norm_num
  have g3 : Real.Gamma (3 / 2) = Real.sqrt π / 2 := by
    rw [show (3 / 2 : ℝ) = 1 / 2 + 1 by norm_num, Real.Gamma_add_one (by norm_num), Real.Gamma_one_half_eq]
    ring
  have hle : 2 / (Real.sqrt π * y + 2) ≤ 1 := by rw [div_le_one hd]; nlinarith
  unfold gInt
  rw [← lintegral_const_mul' _ _ ENNReal.ofReal_ne_top, ← lintegral_const_mul' _ _ ENNReal.ofReal_ne_top,
    ← lintegral_const_mul' _ _ ENNReal.ofReal_ne_top, ← lintegral_const_mul' _ _ ENNReal.ofReal_ne_top, ← lintegral_add_left (by fun_prop)]
  refine setLIntegral_congr_fun measurableSet_Ioi fun s hs => ?_
  have hs : 0 < s := hs
  have hq := Real.sqrt_nonneg s
  have hqq : Real.sqrt s * Real.sqrt s = s := Real.mul_self_sqrt hs.le
  have r1 : s ^ ((2 : ℝ) - 1) = s := by rw [show (2 : ℝ) - 1 = 1 by norm_num, Real.rpow_one]
  have r2 : s ^ ((3 / 2 : ℝ) - 1) = Real.sqrt s := by rw [show (3 / 2 : ℝ) - 1 = 1 / 2 by norm_num, ← Real.sqrt_eq_rpow]
  have he := Real.exp_pos (-s)
  rw [g2, g3, r1, r2, ← mul_assoc, ← mul_assoc, ← mul_assoc, ← mul_assoc, ← ENNReal.ofReal_mul (by positivity), ← ENNReal.ofReal_mul (by positivity),
    ← ENNReal.ofReal_mul (by linarith), ← ENNReal.ofReal_mul (by
      have : 0 ≤ 1 / (Real.sqrt π / 2) := by positivity
      exact mul_nonneg (by linarith) this), ← add_mul, ← ENNReal.ofReal_add (by positivity) (by
      have : 0 ≤ 1 / (Real.sqrt π / 2) := by positivity
      exact mul_nonneg (mul_nonneg (by linarith) this) (by positivity))]
  congr 2
  field_simp
  nlinarith [hqq]

/-- The number drawn for `x_sqrd`, as a sampler. -/
noncomputable def svtSpeed (P : ℝ) : Nat → Tape → Nat → Res (ℝ × Nat) := fun _ ω k => (svtX P ω k).1.map fun x => (x, (svtX P ω k).2)

theorem speed_closed {y : ℝ} (hy : 0 ≤ y) : ∃ ν : Measure ℝ, Closed (svtSpeed (2 / (Real.sqrt π * y + 2))) ν ∧
    ∀ f : ℝ → ℝ≥0∞, Measurable f → ∫⁻ s, f s ∂ν =
      ∫⁻ s in Ioi (0 : ℝ), ENNReal.ofReal (2 / (Real.sqrt π * y + 2) * (Real.exp (-s) * Real.sqrt s * (Real.sqrt s + y))) * f s := by
  classical
  have hsp : 0 < Real.sqrt π := Real.sqrt_pos.mpr Real.pi_pos
  obtain ⟨P, hP⟩ : ∃ P, P = 2 / (Real.sqrt π * y + 2) := ⟨_, rfl⟩
  have hP0 : 0 ≤ P := by rw [hP]; positivity
  have hP1 : P ≤ 1 := by rw [hP, div_le_one (by positivity)]; nlinarith
  rw [← hP]
  -- the two samplers
  have m0 : ∀ i, Measurable fun ω : Tape => ω i := fun i => measurable_pi_apply (X := fun _ : Nat => ℝ) i
  have hg1 : IsGamma 2 (fun ω : Tape => -Real.log (ω 0) + -Real.log (dropT 1 ω 0)) (1 + 1) := isGamma_add one_pos isGamma_one
  have hg2 := isGamma_maxwell
  obtain ⟨Y1, hY1⟩ : ∃ Y : Tape → ℝ, Y = fun ω => -Real.log (ω 0) + -Real.log (dropT 1 ω 0) := ⟨_, rfl⟩
  obtain ⟨Y2, hY2⟩ : ∃ Y : Tape → ℝ, Y = fun ω => -(Real.log (ω 1) + Real.log (ω 2) * Real.cos (Real.pi * ω 0 / 2) * Real.cos (Real.pi * ω 0 / 2)) := ⟨_, rfl⟩
  rw [← hY1] at hg1
  rw [← hY2] at hg2
  obtain ⟨run1, hrun1⟩ : ∃ run : Nat → Tape → Nat → Res (ℝ × Nat), run = fun _ ω k => (do let l ← clog (ω k * ω (k + 1)); return (-l, k + 2)) := ⟨_, rfl⟩
  obtain ⟨run2, hrun2⟩ : ∃ run : Nat → Tape → Nat → Res (ℝ × Nat), run = fun _ ω k => (do
    let c := Real.cos (Real.pi / 2 * ω k)
    let l1 ← clog (ω (k + 1))
    let l2 ← clog (ω (k + 2))
    return (-l1 - l2 * c * c, k + 3)) := ⟨_, rfl⟩
  have c1 : Closed run1 (Spec.iid.map Y1) := by
    refine closed_fixed (n := 2) ?_ hg1.1 ?_ ?_
    · rw [hrun1]
      intro fuel ω k
      simp only [dropT_apply, Nat.add_zero, Nat.zero_add]
      cases clog (ω k * ω (k + 1)) <;> rfl
    · intro ω ω' h
      rw [hY1]
      simp only [dropT_apply]
      rw [h 0 (by omega), h (1 + 0) (by omega)]
    · filter_upwards [iid_open] with ω hω
      intro fuel
      rw [hrun1, hY1]
      have h0 := (hω 0).1
      have h1 := (hω 1).1
      simp only [Nat.zero_add, bind, Except.bind, clog_ok (mul_pos h0 h1), pure, Except.pure, dropT_apply, Nat.add_zero]
      rw [Real.log_mul h0.ne' h1.ne', neg_add]
  have c2 : Closed run2 (Spec.iid.map Y2) := by
    refine closed_fixed (n := 3) ?_ hg2.1 ?_ ?_
    · rw [hrun2]
      intro fuel ω k
      simp only [dropT_apply, Nat.add_zero, Nat.zero_add]
      cases clog (ω (k + 1)) with
      | error e => rfl
      | ok l1 => cases clog (ω (k + 2)) <;> rfl
    · intro ω ω' h
      rw [hY2]
      simp only
      rw [h 0 (by omega), h 1 (by omega), h 2 (by omega)]
    · filter_upwards [iid_open] with ω hω
      intro fuel
      rw [hrun2, hY2]
      simp only [Nat.zero_add, bind, Except.bind, clog_ok (hω 1).1, clog_ok (hω 2).1, pure, Except.pure]
      rw [show Real.pi / 2 * ω 0 = Real.pi * ω 0 / 2 by ring]
      congr 2
      ring
  have hA : MeasurableSet {x : ℝ | x < P} := measurableSet_Iio
  have hch := closed_choice hA c1 c2
  have pr1 := c1.prob
  have pr2 := c2.prob
  have u1 : Spec.unif {x : ℝ | x < P} = ENNReal.ofReal P := by
    rw [Spec.unif, Measure.restrict_apply hA]
    have : {x : ℝ | x < P} ∩ Icc 0 1 = Ico 0 P := by
      ext x
      simp only [mem_inter_iff, mem_ofPred_eq, mem_Icc, mem_Ico]
      constructor
      · rintro ⟨a, b, _⟩; exact ⟨b, a⟩
      · rintro ⟨a, b⟩; exact ⟨b, a, by linarith⟩
    rw [this, Real.volume_Ico, sub_zero]
  have u2 : Spec.unif {x : ℝ | x < P}ᶜ = ENNReal.ofReal (1 - P) := by
    rw [prob_compl_eq_one_sub hA, u1, ENNReal.ofReal_sub _ hP0, ENNReal.ofReal_one]
  rw [u1, u2] at hch
  refine ⟨_, hch.of_eq (run' := svtSpeed P) fun fuel ω k => ?_, fun f hf => ?_⟩
  · unfold svtSpeed svtX
    rw [hrun1, hrun2]
    by_cases h : ω k < P
    · simp only [if_pos h, mem_ofPred_eq]
      rw [show k + 1 + 1 = k + 2 by ring]
      cases clog (ω (k + 1) * ω (k + 2)) <;> rfl
    · simp only [if_neg h, mem_ofPred_eq]
      rw [show k + 1 + 1 = k + 2 by ring, show k + 1 + 2 = k + 3 by ring]
      cases clog (ω (k + 2)) with
      | error e => rfl
      | ok l1 => cases clog (ω (k + 3)) <;> rfl
  · rw [lintegral_add_measure, lintegral_smul_measure, lintegral_smul_measure, lintegral_map hf hg1.1, lintegral_map hf hg2.1, gamma_law hg1 (by norm_num) hf,
      gamma_law hg2 (by norm_num) hf, smul_eq_mul, smul_eq_mul, show (1 + 1 : ℝ) = 2 by norm_num, hP]
    exact speed_mix hy hf

/-! ### The loop -/

/-- The relative speed over the sum of the speeds, in reduced units. -/
noncomputable def svtRatio (y : ℝ) (q : ℝ × ℝ) : ℝ := Real.sqrt (y * y + q.1 - 2 * y * Real.sqrt q.1 * q.2) / (Real.sqrt q.1 + y)

theorem measurable_svtRatio (y : ℝ) : Measurable (svtRatio y) := by
  unfold svtRatio
  fun_prop

/-- One attempt. -/
noncomputable def svtAtt (P : ℝ) : Nat → Tape → Nat → Res (((ℝ × ℝ) × ℝ) × Nat) := fun fuel ω k =>
  (svtSpeed P fuel ω k).map fun r => (((r.1, 2 * ω r.2 - 1), ω (r.2 + 1)), r.2 + 2)

/-- The pair the loop returns. -/
noncomputable def svtPair (y P : ℝ) (fuel : Nat) (ω : Tape) (k : Nat) : Res ((ℝ × ℝ) × Nat) := (svtLoop y P ω fuel k).map fun r => ((r.1, r.2.1), r.2.2)

theorem att_closed {P : ℝ} {ν : Measure ℝ} (h : Closed (svtSpeed P) ν) :
    Closed (svtAtt P) ((ν.prod (Spec.unif.map fun x => 2 * x - 1)).prod Spec.unif) := by
  have hpr := h.prob
  have hm : Measurable fun x : ℝ => 2 * x - 1 := by fun_prop
  have c1 : Closed (fun (_ : Nat) (ω : Tape) (k : Nat) => ((Except.ok (2 * ω k - 1) : Res ℝ)).map fun x => (x, k + 1)) (Spec.unif.map fun x => 2 * x - 1) :=
    closed_one (g := fun x => .ok (2 * x - 1)) hm fun _ _ _ => rfl
  have c2 : Closed (fun (_ : Nat) (ω : Tape) (k : Nat) => ((Except.ok (ω k) : Res ℝ)).map fun x => (x, k + 1)) (Spec.unif.map id) :=
    closed_one (g := fun x => .ok x) measurable_id fun _ _ _ => rfl
  rw [Measure.map_id] at c2
  have p1 := c1.prob
  have h1 := closed_bind h (c1.lift ν)
  have h2 := closed_bind h1 (c2.lift _)
  refine h2.of_eq (run' := svtAtt P) fun fuel ω k => ?_
  unfold svtAtt
  cases svtSpeed P fuel ω k with
  | error e => rfl
  | ok r => rfl

theorem svtX_shift (P : ℝ) (ω : Tape) (k : Nat) : svtX P ω k = ((svtX P (dropT k ω) 0).1, k + (svtX P (dropT k ω) 0).2) := by
  unfold svtX
  simp only [dropT_apply, Nat.add_zero, Nat.zero_add]
  by_cases h : ω k < P
  · simp only [if_pos h]
  · simp only [if_neg h]

open Classical in
/-- The decision at the end of an attempt. -/
noncomputable def svtTry (y : ℝ) (rx : Res ℝ) (mu xi : ℝ) : Res ℝ :=
  rx.bind fun x2 => (svtAccept x2 y mu).bind fun p => if xi < p then .ok x2 else .error .nonfinite

theorem svtLoop_succ (y P : ℝ) (ω : Tape) (fuel k : Nat) : svtLoop y P ω (fuel + 1) k =
    match svtTry y (svtX P ω k).1 (2 * ω (svtX P ω k).2 - 1) (ω ((svtX P ω k).2 + 1)) with
    | .ok x2 => .ok (x2, 2 * ω (svtX P ω k).2 - 1, (svtX P ω k).2 + 2)
    | .error _ => svtLoop y P ω fuel ((svtX P ω k).2 + 2) := rfl

theorem svtPair_shifts (y P : ℝ) : Shifts (svtPair y P) := by
  intro fuel
  induction fuel with
  | zero => intro ω k; rfl
  | succ fuel ih =>
    intro ω k
    unfold svtPair at ih ⊢
    rw [svtLoop_succ, svtLoop_succ, svtX_shift P ω k]
    obtain ⟨o, ho⟩ : ∃ o, o = svtX P (dropT k ω) 0 := ⟨_, rfl⟩
    rw [← ho]
    obtain ⟨rx, n⟩ := o
    simp only [dropT_apply, Nat.add_assoc]
    cases hb : svtTry y rx (2 * ω (k + n) - 1) (ω (k + (n + 1))) with
    | ok x2 => rfl
    | error e =>
      simp only
      rw [ih ω (k + (n + 2)), ih (dropT k ω) (n + 2), dropT_dropT]
      cases svtLoop y P (dropT (k + (n + 2)) ω) fuel 0 with
      | error e => rfl
      | ok r => simp only [Except.map, Nat.add_assoc]

/-- What the loop does after an attempt, for streams of numbers strictly between 0 and 1. -/
theorem svt_step {y P : ℝ} (hy : 0 ≤ y) {ω : Tape} (hω : OpenTape ω) : ∃ x2 m, svtAtt P 0 ω 0 = .ok (((x2, 2 * ω m - 1), ω (m + 1)), m + 2) ∧ (∀ s, svtAtt P s ω 0 = svtAtt P 0 ω 0) ∧
    0 < x2 ∧ ∀ fuel, svtPair y P (fuel + 1) ω 0 = if ω (m + 1) < svtRatio y (x2, 2 * ω m - 1) then .ok ((x2, 2 * ω m - 1), m + 2) else svtPair y P fuel ω (m + 2) := by
  obtain ⟨x2, m, hx, hd, hp⟩ := svtX_spec (P := P) hω 0
  refine ⟨x2, m, ?_, fun s => rfl, hp, fun fuel => ?_⟩
  · unfold svtAtt svtSpeed
    rw [hx]
    rfl
  · have hm1 : -1 ≤ 2 * ω m - 1 := by linarith [(hω m).1]
    have hm2 : 2 * ω m - 1 ≤ 1 := by linarith [(hω m).2]
    obtain ⟨b1, b2⟩ := svt_rel_bounds hp.le hy hm1 hm2
    have hacc : svtAccept x2 y (2 * ω m - 1) = .ok (svtRatio y (x2, 2 * ω m - 1)) := by
      unfold svtAccept svtRatio
      have : 0 < Real.sqrt x2 + y := by have := Real.sqrt_pos.mpr hp; linarith
      simp only [bind, Except.bind, csqrt_ok hp.le, csqrt_ok b1, rdiv_ok this.ne']
    unfold svtPair
    simp only [svtLoop, hx, Except.bind, hacc]
    by_cases h : ω (m + 1) < svtRatio y (x2, 2 * ω m - 1)
    · simp only [if_pos h]; rfl
    · simp only [if_neg h]

theorem svtRatio_bounds {y : ℝ} (hy : 0 ≤ y) {q : ℝ × ℝ} (h0 : 0 < q.1) (h1 : -1 < q.2) (h2 : q.2 < 1) : 0 < svtRatio y q ∧ svtRatio y q ≤ 1 := by
  obtain ⟨b1, b2⟩ := svt_rel_bounds h0.le hy h1.le h2.le
  have hs := Real.sqrt_pos.mpr h0
  have hss : Real.sqrt q.1 ^ 2 = q.1 := Real.sq_sqrt h0.le
  unfold svtRatio
  refine ⟨div_pos (Real.sqrt_pos.mpr ?_) (by linarith), (div_le_one (by linarith)).mpr b2⟩
  have : y * y + q.1 - 2 * y * Real.sqrt q.1 * q.2 = (y - Real.sqrt q.1 * q.2) ^ 2 + Real.sqrt q.1 ^ 2 * (1 - q.2 ^ 2) := by rw [← hss]; rw [Real.sqrt_sq hs.le]; ring
  rw [this]
  have h3 : 0 < 1 - q.2 ^ 2 := by nlinarith
  nlinarith [sq_nonneg (y - Real.sqrt q.1 * q.2), mul_pos (pow_pos hs 2) h3]

/-- The law of the pair the loop returns. -/
theorem pair_closed {y : ℝ} (hy : 0 ≤ y) : ∃ (ρ : Measure (ℝ × ℝ)) (K : ℝ≥0∞), Closed (svtPair y (2 / (Real.sqrt π * y + 2))) ρ ∧
    ∀ f : ℝ × ℝ → ℝ≥0∞, Measurable f → ∫⁻ q, f q ∂ρ = K * ∫⁻ s in Ioi (0 : ℝ), ∫⁻ m in Ioo (-1 : ℝ) 1,
      ENNReal.ofReal (Real.exp (-s) * Real.sqrt s * Real.sqrt (y * y + s - 2 * y * Real.sqrt s * m)) * f (s, m) := by
  obtain ⟨ν, hν, hνf⟩ := speed_closed hy
  have hsp : 0 < Real.sqrt π := Real.sqrt_pos.mpr Real.pi_pos
  obtain ⟨P, hP⟩ : ∃ P, P = 2 / (Real.sqrt π * y + 2) := ⟨_, rfl⟩
  have hP0 : 0 < P := by rw [hP]; positivity
  rw [← hP] at hν hνf ⊢
  have hpr := hν.prob
  have hatt := att_closed hν
  have hU : Measurable fun x : ℝ => 2 * x - 1 := by fun_prop
  obtain ⟨U, hUd⟩ : ∃ U : Measure ℝ, U = Spec.unif.map fun x => 2 * x - 1 := ⟨_, rfl⟩
  have pU : IsProbabilityMeasure U := by rw [hUd]; exact Measure.isProbabilityMeasure_map hU.aemeasurable
  have hUf : ∀ f : ℝ → ℝ≥0∞, Measurable f → ∫⁻ m, f m ∂U = ENNReal.ofReal (1 / 2) * ∫⁻ m in Ioo (-1 : ℝ) 1, f m := by
    intro f hf
    have himg : (fun x : ℝ => 2 * x - 1) '' Ioo 0 1 = Ioo (-1) 1 := by
      ext m
      constructor
      · rintro ⟨x, ⟨a, b⟩, rfl⟩; constructor <;> dsimp only <;> linarith
      · rintro ⟨a, b⟩; exact ⟨(m + 1) / 2, ⟨by linarith, by linarith⟩, by dsimp only; ring⟩
    rw [hUd, lintegral_map hf hU, ← himg, lintegral_image_eq_lintegral_abs_deriv_mul (f' := fun _ => 2) measurableSet_Ioo (fun x _ => by
      have := ((hasDerivAt_id x).const_mul 2).sub_const (1 : ℝ)
      simp only [id_eq, mul_one] at this
      exact this.hasDerivWithinAt) (fun x _ z _ hxz => by
        have hxz : 2 * x - 1 = 2 * z - 1 := hxz
        linarith), lintegral_const_mul' _ _ ENNReal.ofReal_ne_top, ← mul_assoc, ← ENNReal.ofReal_mul (by norm_num), unif_eq_Ioo]
    norm_num
  rw [← hUd] at hatt
  -- the accepted attempts
  obtain ⟨A, hA⟩ : ∃ A : Set ((ℝ × ℝ) × ℝ), A = {q | q.2 < svtRatio y q.1} := ⟨_, rfl⟩
  have mA : MeasurableSet A := by rw [hA]; exact measurableSet_lt measurable_snd ((measurable_svtRatio y).comp measurable_fst)
  have hgood : ∀ᵐ q ∂ν.prod U, 0 < q.1 ∧ -1 < q.2 ∧ q.2 < 1 := by
    have g1 : ∀ᵐ s ∂ν, 0 < s := by
      have := hνf ((Ioi (0 : ℝ))ᶜ.indicator 1) (measurable_one.indicator measurableSet_Ioi.compl)
      rw [lintegral_indicator_one measurableSet_Ioi.compl] at this
      rw [ae_iff]
      show ν {s | ¬ 0 < s} = 0
      refine this.trans ?_
      rw [← lintegral_zero (μ := volume.restrict (Ioi (0 : ℝ)))]
      refine setLIntegral_congr_fun measurableSet_Ioi fun s hs => ?_
      rw [indicator_of_notMem (by simpa using hs), mul_zero]
    have g2 : ∀ᵐ m ∂U, -1 < m ∧ m < 1 := by
      have := hUf ((Ioo (-1 : ℝ) 1)ᶜ.indicator 1) (measurable_one.indicator measurableSet_Ioo.compl)
      rw [lintegral_indicator_one measurableSet_Ioo.compl] at this
      rw [ae_iff]
      show U {m | ¬ (-1 < m ∧ m < 1)} = 0
      refine this.trans ?_
      have : ∫⁻ m in Ioo (-1 : ℝ) 1, (Ioo (-1 : ℝ) 1)ᶜ.indicator (1 : ℝ → ℝ≥0∞) m = 0 := by
        rw [← lintegral_zero (μ := volume.restrict (Ioo (-1 : ℝ) 1))]
        refine setLIntegral_congr_fun measurableSet_Ioo fun m hm => ?_
        exact indicator_of_notMem (by simpa using hm) _
      rw [this, mul_zero]
    filter_upwards [Measure.quasiMeasurePreserving_fst.ae g1, Measure.quasiMeasurePreserving_snd.ae g2] with q a b
    exact ⟨a, b⟩
  have hsec : ∀ p : ℝ, 0 ≤ p → p ≤ 1 → Spec.unif {x | x < p} = ENNReal.ofReal p := by
    intro p p0 p1
    rw [Spec.unif, Measure.restrict_apply (show MeasurableSet {x : ℝ | x < p} from measurableSet_Iio)]
    have : {x : ℝ | x < p} ∩ Icc 0 1 = Ico 0 p := by
      ext x
      simp only [mem_inter_iff, mem_ofPred_eq, mem_Icc, mem_Ico]
      constructor
      · rintro ⟨a, b, _⟩; exact ⟨b, a⟩
      · rintro ⟨a, b⟩; exact ⟨b, a, by linarith⟩
    rw [this, Real.volume_Ico, sub_zero]
  have hAf : ∀ f : ℝ × ℝ → ℝ≥0∞, Measurable f → ∫⁻ q, f q ∂(((ν.prod U).prod Spec.unif).restrict A).map Prod.fst = ∫⁻ q, ENNReal.ofReal (svtRatio y q) * f q ∂ν.prod U := by
    intro f hf
    rw [lintegral_map hf measurable_fst, ← lintegral_indicator mA, lintegral_prod (fun q => A.indicator (fun a => f a.1) q) ((hf.comp measurable_fst).indicator mA).aemeasurable]
    refine lintegral_congr_ae ?_
    filter_upwards [hgood] with q hq
    obtain ⟨r1, r2⟩ := svtRatio_bounds hy hq.1 hq.2.1 hq.2.2
    have : ∀ x : ℝ, A.indicator (fun a => f a.1) (q, x) = {x : ℝ | x < svtRatio y q}.indicator (fun _ => f q) x := by
      intro x
      rw [hA]
      by_cases h : x < svtRatio y q
      · rw [indicator_of_mem (show (q, x) ∈ {q : (ℝ × ℝ) × ℝ | q.2 < svtRatio y q.1} from h), indicator_of_mem (show x ∈ {x : ℝ | x < svtRatio y q} from h)]
      · rw [indicator_of_notMem (show (q, x) ∉ {q : (ℝ × ℝ) × ℝ | q.2 < svtRatio y q.1} from h), indicator_of_notMem (show x ∉ {x : ℝ | x < svtRatio y q} from h)]
    simp only [this]
    rw [lintegral_indicator (show MeasurableSet {x : ℝ | x < svtRatio y q} from measurableSet_Iio), setLIntegral_const, mul_comm]
    congr 1
    exact hsec _ r1.le r2
  have hpos : ((ν.prod U).prod Spec.unif) A ≠ 0 := by
    intro h0
    have h1 := hAf (fun _ => 1) measurable_const
    rw [lintegral_const, one_mul, Measure.map_apply measurable_fst .univ, preimage_univ, Measure.restrict_apply_univ, h0] at h1
    simp only [mul_one] at h1
    have h2 := (lintegral_eq_zero_iff (measurable_svtRatio y).ennreal_ofReal).mp h1.symm
    have h3 : ∀ᵐ q ∂ν.prod U, False := by
      filter_upwards [h2, hgood] with q a b
      have := (svtRatio_bounds hy b.1 b.2.1 b.2.2).1
      have a : ENNReal.ofReal (svtRatio y q) = 0 := a
      rw [ENNReal.ofReal_eq_zero] at a
      linarith
    have h4 : (ν.prod U) univ = 0 := by
      have := ae_iff.mp h3
      simp at this
    rw [measure_univ] at h4
    exact one_ne_zero h4
  have hcl := closed_loop hatt mA hpos (v := Prod.fst) measurable_fst (loop := fun _ => svtPair y P) (fun _ => svtPair_shifts y P) (fun s ω z h => by cases h)
    (by
      filter_upwards [iid_open] with ω hω
      intro s x n h hx fuel
      obtain ⟨x2, m, a, b, c, d⟩ := svt_step (P := P) hy hω
      rw [b s, a] at h
      cases h
      rw [hA] at hx
      have hx : ω (m + 1) < svtRatio y (x2, 2 * ω m - 1) := hx
      rw [d fuel, if_pos hx])
    (by
      filter_upwards [iid_open] with ω hω
      intro s x n h hx fuel
      obtain ⟨x2, m, a, b, c, d⟩ := svt_step (P := P) hy hω
      rw [b s, a] at h
      cases h
      rw [hA] at hx
      have hx : ¬ ω (m + 1) < svtRatio y (x2, 2 * ω m - 1) := hx
      rw [d fuel, if_neg hx])
    (by
      filter_upwards [iid_open] with ω hω
      intro s e h
      obtain ⟨x2, m, a, b, c, d⟩ := svt_step (P := P) hy hω
      rw [b s, a] at h
      cases h)
  refine ⟨_, ((ν.prod U).prod Spec.unif A)⁻¹ * ENNReal.ofReal (P * (1 / 2)), hcl, fun f hf => ?_⟩
  have hrm : Measurable fun q : ℝ × ℝ => ENNReal.ofReal (svtRatio y q) * f q := (measurable_svtRatio y).ennreal_ofReal.mul hf
  rw [lintegral_smul_measure, hAf f hf, smul_eq_mul, lintegral_prod _ hrm.aemeasurable, hνf _ hrm.lintegral_prod_right', mul_assoc]
  congr 1
  rw [← lintegral_const_mul' _ _ ENNReal.ofReal_ne_top]
  refine setLIntegral_congr_fun measurableSet_Ioi fun s hs => ?_
  have hs : 0 < s := hs
  have hq := Real.sqrt_pos.mpr hs
  rw [hUf (fun m => ENNReal.ofReal (svtRatio y (s, m)) * f (s, m)) (hrm.comp (measurable_const.prodMk measurable_id)), ← mul_assoc, ← ENNReal.ofReal_mul (by positivity), ← lintegral_const_mul' _ _ ENNReal.ofReal_ne_top,
    ← lintegral_const_mul' _ _ ENNReal.ofReal_ne_top]
  refine lintegral_congr fun m => ?_
  rw [ofReal_assoc (by positivity), ofReal_assoc (by positivity)]
  congr 2
  unfold svtRatio
  have : Real.sqrt s + y ≠ 0 := by positivity
  dsimp only
  field_simp

/-! ### The velocity -/

/-- The weight of the target velocity `v` seen by a neutron of energy `E` flying along the third axis (speeds in units where the energy of the
neutron is the square of its speed): a Maxwellian for a nucleus `awr` times as heavy at temperature `kT`, times the relative speed. -/
noncomputable def Spec.freeGas (E kT awr : ℝ) (v : Vec) : ℝ :=
  Real.exp (-(awr * (v.x ^ 2 + v.y ^ 2 + v.z ^ 2) / kT)) * Real.sqrt (v.x ^ 2 + v.y ^ 2 + (v.z - Real.sqrt E) ^ 2)

theorem measurable_freeGas (E kT awr : ℝ) : Measurable (freeGas E kT awr) := by
  unfold freeGas
  have hx := measurable_x
  have hy := measurable_y
  have hz := measurable_z
  fun_prop

/-- A law proportional to a weight is the normalised one. -/
theorem velocityLaw_of {w : Vec → ℝ} {κ : Measure Vec} [IsProbabilityMeasure κ] {K : ℝ≥0∞} (hw : Measurable w)
    (h : ∀ f : Vec → ℝ≥0∞, Measurable f → ∫⁻ v, f v ∂κ = K * ∫⁻ v, ENNReal.ofReal (w v) * f v ∂vecVolume) : κ = velocityLaw w := by
  have h1 := h (fun _ => 1) measurable_const
  simp only [lintegral_const, measure_univ, mul_one] at h1
  have hK := ENNReal.eq_inv_of_mul_eq_one_left h1.symm
  refine Measure.ext fun S hS => ?_
  rw [velocityLaw, Measure.smul_apply, smul_eq_mul, withDensity_apply _ hS, ← hK, ← lintegral_indicator_one hS, h _ (measurable_one.indicator hS),
    ← lintegral_indicator hS]
  congr 1
  refine lintegral_congr fun v => ?_
  by_cases hv : v ∈ S
  · rw [indicator_of_mem hv, indicator_of_mem hv]; simp
  · rw [indicator_of_notMem hv, indicator_of_notMem hv, mul_zero]

theorem rotate_axis {mu x : ℝ} (h1 : -1 ≤ mu) (h2 : mu ≤ 1) (h3 : 0 ≤ x) (h4 : x ≤ 1) :
    (Vec.mk 0 0 1).rotate mu (2 * π * x) = .ok ⟨Real.sqrt (1 - mu * mu) * Real.sin (2 * π * x), -(Real.sqrt (1 - mu * mu) * Real.cos (2 * π * x)), mu⟩ := by
  have hpi := Real.pi_pos
  unfold Vec.rotate
  have e1 : (if mu < -1 then (-1 : ℝ) else if mu > 1 then 1 else mu) = mu := by rw [if_neg (by linarith), if_neg (by linarith)]
  have e2 : (if 2 * π * x < 0 then (0 : ℝ) else if 2 * π * x > 2 * π then 2 * π else 2 * π * x) = 2 * π * x := by
    rw [if_neg (by have : 0 ≤ 2 * π * x := by positivity
                   linarith), if_neg (by nlinarith)]
  have e3 : ¬ |1 - (1 : ℝ) * 1| > 1 / 10 ^ 10 := by norm_num
  have h0 : 0 ≤ 1 - mu * mu := by nlinarith
  simp only [e1, e2, bind, Except.bind, csqrt_ok h0]
  rw [if_neg e3]
  have e4 : csqrt (1 - (0 : ℝ) * 0) = .ok 1 := by rw [csqrt_ok (by norm_num)]; norm_num
  rw [e4]
  simp only [rdiv_ok one_ne_zero, pure, Except.pure]
  congr 2 <;> ring

/-- The sampler of target velocities leaves the rest of the stream untouched and returns velocities with the free gas law. -/
theorem svt_closed {E kT awr : ℝ} (hE : 0 ≤ E) (hkT : 0 < kT) (hA : 0 < awr) :
    Closed (fun fuel ω k => svtSample fuel E kT awr ω k) (velocityLaw (freeGas E kT awr)) := by
  have hq : 0 ≤ awr * E / kT := by positivity
  obtain ⟨y, hy⟩ : ∃ y, y = Real.sqrt (awr * E / kT) := ⟨_, rfl⟩
  have hy0 : 0 ≤ y := by rw [hy]; exact Real.sqrt_nonneg _
  have hy2 : y ^ 2 = awr * E / kT := by rw [hy]; exact Real.sq_sqrt hq
  have hden : 0 < Real.sqrt π * y + 2 := by positivity
  obtain ⟨c, hc⟩ : ∃ c, c = Real.sqrt (kT / awr) := ⟨_, rfl⟩
  have hc0 : 0 < c := by rw [hc]; exact Real.sqrt_pos.mpr (by positivity)
  have hc2 : c ^ 2 = kT / awr := by rw [hc]; exact Real.sq_sqrt (by positivity)
  have hsE : Real.sqrt E = c * y := by
    rw [Real.sqrt_eq_iff_mul_self_eq hE (by positivity)]
    have : c * y * (c * y) = c ^ 2 * y ^ 2 := by ring
    rw [this, hc2, hy2]; field_simp
  obtain ⟨ρ, K, hρ, hρf⟩ := pair_closed hy0
  have hρp := hρ.prob
  have c2 : Closed (fun (_ : Nat) (ω : Tape) (k : Nat) => ((Except.ok (ω k) : Res ℝ)).map fun x => (x, k + 1)) (Spec.unif.map id) :=
    closed_one (g := fun x => .ok x) measurable_id fun _ _ _ => rfl
  rw [Measure.map_id] at c2
  have h1 := closed_bind hρ (c2.lift ρ)
  -- the values drawn are in range
  have hin : ∀ᵐ q ∂ρ.prod Spec.unif, (0 < q.1.1 ∧ -1 < q.1.2 ∧ q.1.2 < 1) ∧ 0 ≤ q.2 ∧ q.2 ≤ 1 := by
    have g1 : ∀ᵐ q ∂ρ, q ∈ Ioi (0 : ℝ) ×ˢ Ioo (-1 : ℝ) 1 := by
      have hm : MeasurableSet (Ioi (0 : ℝ) ×ˢ Ioo (-1 : ℝ) 1) := measurableSet_Ioi.prod measurableSet_Ioo
      have := hρf ((Ioi (0 : ℝ) ×ˢ Ioo (-1 : ℝ) 1)ᶜ.indicator 1) (measurable_one.indicator hm.compl)
      rw [lintegral_indicator_one hm.compl] at this
      rw [ae_iff]
      refine Eq.trans (show _ = ρ (Ioi (0 : ℝ) ×ˢ Ioo (-1 : ℝ) 1)ᶜ from rfl) (this.trans ?_)
      have : ∫⁻ s in Ioi (0 : ℝ), ∫⁻ m in Ioo (-1 : ℝ) 1, ENNReal.ofReal (Real.exp (-s) * Real.sqrt s * Real.sqrt (y * y + s - 2 * y * Real.sqrt s * m)) *
          (Ioi (0 : ℝ) ×ˢ Ioo (-1 : ℝ) 1)ᶜ.indicator 1 (s, m) = 0 := by
        rw [← lintegral_zero (μ := volume.restrict (Ioi (0 : ℝ)))]
        refine setLIntegral_congr_fun measurableSet_Ioi fun s hs => ?_
        rw [← lintegral_zero (μ := volume.restrict (Ioo (-1 : ℝ) 1))]
        refine setLIntegral_congr_fun measurableSet_Ioo fun m hm => ?_
        rw [indicator_of_notMem, mul_zero]
        rw [mem_compl_iff, not_not]
        exact ⟨hs, hm⟩
      rw [this, mul_zero]
    have g2 : ∀ᵐ x ∂Spec.unif, x ∈ Icc (0 : ℝ) 1 := ae_restrict_mem measurableSet_Icc
    filter_upwards [Measure.quasiMeasurePreserving_fst.ae g1, Measure.quasiMeasurePreserving_snd.ae g2] with q a b
    exact ⟨a, b⟩
  obtain ⟨F, hF⟩ : ∃ F : (ℝ × ℝ) × ℝ → Res Vec, F = fun q => (do
    let r ← rdiv (q.1.1 * kT) awr
    let st ← csqrt r
    let ut ← (Vec.mk 0 0 1).rotate q.1.2 (2 * π * q.2)
    return ut.smul st) := ⟨_, rfl⟩
  have hFv : ∀ᵐ q ∂ρ.prod Spec.unif, F q = .ok (velOf c q.1.1 q.1.2 q.2) := by
    filter_upwards [hin] with q ⟨⟨a1, a2, a3⟩, a4, a5⟩
    have hr : 0 ≤ q.1.1 * kT / awr := by positivity
    have hst : Real.sqrt (q.1.1 * kT / awr) = c * Real.sqrt q.1.1 := by
      rw [hc, ← Real.sqrt_mul (by positivity)]
      congr 1
      ring
    rw [hF]
    simp only [bind, Except.bind, rdiv_ok hA.ne', csqrt_ok hr, rotate_axis a2.le a3.le a4 a5, pure, Except.pure, hst]
    unfold Vec.smul velOf
    simp only
    congr 2 <;> ring
  have h2 := closed_map h1 (measurable_velOf c) hFv
  have hprob := h2.prob
  have hlaw : (ρ.prod Spec.unif).map (fun q => velOf c q.1.1 q.1.2 q.2) = velocityLaw (freeGas E kT awr) := by
    refine velocityLaw_of (K := K * ENNReal.ofReal (1 / (π * c ^ 4))) (measurable_freeGas E kT awr) fun f hf => ?_
    have hfv : Measurable fun q : (ℝ × ℝ) × ℝ => f (velOf c q.1.1 q.1.2 q.2) := hf.comp (measurable_velOf c)
    rw [lintegral_map hf (measurable_velOf c), lintegral_prod _ hfv.aemeasurable, hρf _ hfv.lintegral_prod_right',
      lintegral_velocity hc0 (fun v => ENNReal.ofReal (freeGas E kT awr v) * f v) ((measurable_freeGas E kT awr).ennreal_ofReal.mul hf), mul_assoc]
    congr 1
    rw [← lintegral_const_mul' _ _ ENNReal.ofReal_ne_top]
    refine setLIntegral_congr_fun measurableSet_Ioi fun s hs => ?_
    have hs : 0 < s := hs
    have hss : Real.sqrt s ^ 2 = s := Real.sq_sqrt hs.le
    dsimp only
    rw [← lintegral_const_mul' _ _ ENNReal.ofReal_ne_top]
    refine setLIntegral_congr_fun measurableSet_Ioo fun m hm => ?_
    have hpi := Real.pi_pos
    rw [← lintegral_const_mul' _ _ ENNReal.ofReal_ne_top, ← lintegral_const_mul' _ _ ENNReal.ofReal_ne_top]
    refine lintegral_congr fun x => ?_
    have hmm : Real.sqrt (1 - m * m) ^ 2 = 1 - m * m := Real.sq_sqrt (by nlinarith [hm.1, hm.2])
    have htr := Real.sin_sq_add_cos_sq (2 * π * x)
    have w1 : (velOf c s m x).x ^ 2 + (velOf c s m x).y ^ 2 + (velOf c s m x).z ^ 2 = c ^ 2 * s := by
      unfold velOf
      simp only
      linear_combination (c ^ 2 * Real.sqrt s ^ 2 * Real.sqrt (1 - m * m) ^ 2) * htr + c ^ 2 * Real.sqrt s ^ 2 * hmm + c ^ 2 * hss
    have w2 : (velOf c s m x).x ^ 2 + (velOf c s m x).y ^ 2 + ((velOf c s m x).z - Real.sqrt E) ^ 2 = c ^ 2 * (y * y + s - 2 * y * Real.sqrt s * m) := by
      rw [hsE]
      unfold velOf
      simp only
      linear_combination (c ^ 2 * Real.sqrt s ^ 2 * Real.sqrt (1 - m * m) ^ 2) * htr + c ^ 2 * Real.sqrt s ^ 2 * hmm + c ^ 2 * hss
    have w3 : freeGas E kT awr (velOf c s m x) = Real.exp (-s) * (c * Real.sqrt (y * y + s - 2 * y * Real.sqrt s * m)) := by
      unfold freeGas
      rw [w1, w2, Real.sqrt_mul (by positivity), Real.sqrt_sq hc0.le, hc2]
      congr 3
      field_simp
    rw [w3, ofReal_assoc (by positivity), ofReal_assoc (by positivity)]
    congr 2
    field_simp
  rw [← hlaw]
  refine h2.of_eq (run' := fun fuel ω k => svtSample fuel E kT awr ω k) fun fuel ω k => ?_
  unfold svtSample svtPair
  rw [rdiv_ok hkT.ne']
  simp only [Except.bind]
  rw [csqrt_ok hq, ← hy]
  simp only [bind, Except.bind, rdiv_ok hden.ne']
  obtain ⟨o, ho⟩ : ∃ o, o = svtLoop y (2 / (Real.sqrt π * y + 2)) ω fuel k := ⟨_, rfl⟩
  rw [← ho]
  cases o with
  | error e => rfl
  | ok r =>
    obtain ⟨x2, mu, k1⟩ := r
    rw [hF]
    simp only [Except.map, bind, Except.bind, rdiv_ok hA.ne', pure, Except.pure]
    cases csqrt (x2 * kT / awr) with
    | error e => rfl
    | ok st =>
      simp only
      cases (Vec.mk 0 0 1).rotate mu (2 * π * ω k1) with
      | error e => rfl
      | ok u => rfl

/-- **C119** (free gas) The target velocities sampled for a neutron of energy `E` flying along the third axis have a density proportional to the
Maxwellian of the target times the relative speed, for every energy, temperature and mass: the method ends with probability one and nothing is
left out or favoured. -/
theorem C119_svt (E kT awr : ℝ) (hE : 0 ≤ E) (hkT : 0 < kT) (hA : 0 < awr) (k : Nat) :
    Samples (fun fuel ω => svtSample fuel E kT awr ω k) (velocityLaw (freeGas E kT awr)) :=
  (svt_closed hE hkT hA).samples k

/-- The law is a probability. -/
theorem C119_mass (E kT awr : ℝ) (hE : 0 ≤ E) (hkT : 0 < kT) (hA : 0 < awr) : IsProbabilityMeasure (velocityLaw (freeGas E kT awr)) :=
  (svt_closed hE hkT hA).prob

/-- Non-vacuity: a neutron at energy 1 on a target of mass ratio 12 at temperature 1, the stream read from position 3 on. -/
example : Samples (fun fuel ω => svtSample fuel 1 1 12 ω 3) (velocityLaw (freeGas 1 1 12)) ∧ velocityLaw (freeGas 1 1 12) Set.univ = 1 :=
  ⟨C119_svt 1 1 12 (by norm_num) (by norm_num) (by norm_num) 3, (C119_mass 1 1 12 (by norm_num) (by norm_num) (by norm_num)).measure_univ⟩

end PNDL
