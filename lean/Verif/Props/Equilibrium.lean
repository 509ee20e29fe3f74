import Verif.Props.GasLaw

/-! C123: elastic scattering off the free gas is in balance with the gas (src/elastic.cpp with src/elastic_svt.cpp). -/
namespace PNDL
open MeasureTheory Spec Set
open scoped ENNReal Real

/-- The rate of collisions of a neutron of energy `E` with the free gas, up to a constant factor. -/
noncomputable def Spec.gasRate (E kT A : ℝ) : ℝ≥0∞ := ∫⁻ v, ENNReal.ofReal (freeGas E kT A v) ∂vecVolume

/-- The density, up to a constant factor, of neutrons in thermal equilibrium with the gas. -/
noncomputable def Spec.maxwellian (kT E : ℝ) : ℝ≥0∞ := ENNReal.ofReal (Real.exp (-(E / kT)) * Real.sqrt E)

/-- The probability that a neutron of energy `E` leaves the collision with an energy in `T`. -/
noncomputable def Spec.transfer (d : AngleDist) (A kT tar : ℝ) (k : Nat) (E : ℝ) (T : Set ℝ) : ℝ≥0∞ :=
  Spec.iid {ω | ∃ fuel mu e k', (Elastic.ofDist d A kT false tar (some (svtSample fuel)) fuel).sample E ω k = .ok (mu, e, k') ∧ e ∈ T}

/-- The average over directions, for a neutron flying along the third axis. -/
noncomputable def hitAvg (A : ℝ) (T : Set ℝ) (E : ℝ) (v : Vec) : ℝ≥0∞ :=
  dirAvg (A / (A + 1)) T (((Vec.mk 0 0 (Real.sqrt E)).sub v).dot ((Vec.mk 0 0 (Real.sqrt E)).sub v))
    ((cmVelocity A ⟨0, 0, Real.sqrt E⟩ v).dot (cmVelocity A ⟨0, 0, Real.sqrt E⟩ v))

theorem measurable_hitAvg (A : ℝ) {T : Set ℝ} (hT : MeasurableSet T) (E : ℝ) : Measurable (hitAvg A T E) := by
  have h1 : Measurable fun v : Vec => (Vec.mk 0 0 (Real.sqrt E)).sub v :=
    measurable_vec (measurable_const.sub measurable_x) (measurable_const.sub measurable_y) (measurable_const.sub measurable_z)
  exact (measurable_dirAvg (A / (A + 1)) hT).comp ((measurable_sqr.comp h1).prodMk (measurable_sqr.comp (measurable_cmv A (Real.sqrt E))))

theorem gasRate_inv {E kT A : ℝ} (hE : 0 ≤ E) (hkT : 0 < kT) (hA : 0 < A) : gasRate E kT A * (gasRate E kT A)⁻¹ = 1 := by
  have h := (C119_mass E kT A hE hkT hA).measure_univ
  unfold velocityLaw at h
  rw [Measure.smul_apply, withDensity_apply _ .univ, Measure.restrict_univ, smul_eq_mul] at h
  rw [mul_comm]
  exact h

/-- The law of the energy for isotropic scattering in the centre of mass. -/
theorem iso_closed (d : AngleDist) (hv : ValidDist d) (hl : ∀ law ∈ d.laws, law = .isotropic) (E : ℝ) :
    Closed (fun fuel ω k => d.sample fuel E ω k) (densityOn (-1) 1 fun _ => 1 / 2) := by
  obtain ⟨p, h1, _, h3⟩ := dist_faithful d hv (fun law h => sound_faithful (by rw [hl law h]; trivial)) E
  have : densityOn (-1) 1 p = densityOn (-1) 1 fun _ => 1 / 2 := densityOn_congr fun x a b => by
    have := (h1 x a b).1
    rw [iso_dist_pdf d hv hl E x a b] at this
    exact (Except.ok.inj this).symm
  rwa [this] at h3

/-- Rate times probability of transfer. -/
theorem rate_transfer (d : AngleDist) (hv : ValidDist d) (hl : ∀ law ∈ d.laws, law = .isotropic) {A kT tar E : ℝ} (hA : 0 < A) (hkT : 0 < kT) (hE : 0 ≤ E) (k : Nat)
    {T : Set ℝ} (hT : MeasurableSet T) :
    gasRate E kT A * transfer d A kT tar k E T = ∫⁻ v, ENNReal.ofReal (freeGas E kT A v) * hitAvg A T E v ∂vecVolume := by
  have hiso := iso_closed d hv hl E
  have hp := hiso.prob
  have hc := gas_closed (bf := svtSample) (tar := tar) (useTar := false) hA hE (fun hc => absurd hc.1 (by simp)) (svt_closed hE hkT hA) (freeGas_ae E kT A) hiso
  have hs := hc.samples k (univ ×ˢ T) (MeasurableSet.univ.prod hT)
  have hset : {ω | ∃ fuel x k', asPair ((Elastic.ofDist d A kT false tar (some (svtSample fuel)) fuel).sample E ω k) = .ok (x, k') ∧ x ∈ univ ×ˢ T} =
      {ω | ∃ fuel mu e k', (Elastic.ofDist d A kT false tar (some (svtSample fuel)) fuel).sample E ω k = .ok (mu, e, k') ∧ e ∈ T} := by
    ext ω
    simp only [mem_ofPred_eq]
    constructor
    · rintro ⟨fuel, x, k', h1, h2⟩
      unfold asPair at h1
      cases hr : (Elastic.ofDist d A kT false tar (some (svtSample fuel)) fuel).sample E ω k with
      | error e => rw [hr] at h1; cases h1
      | ok r =>
        rw [hr] at h1
        cases h1
        exact ⟨fuel, r.1, r.2.1, r.2.2, hr, h2.2⟩
    · rintro ⟨fuel, mu, e, k', h1, h2⟩
      exact ⟨fuel, (mu, e), k', by unfold asPair; rw [h1]; rfl, trivial, h2⟩
  rw [hset] at hs
  have hP : transfer d A kT tar k E T = ∫⁻ v, hitAvg A T E v ∂velocityLaw (freeGas E kT A) := by
    unfold transfer
    have := (svt_closed hE hkT hA).prob
    have mT : Measurable (T.indicator (1 : ℝ → ℝ≥0∞)) := measurable_one.indicator hT
    have mE : Measurable (outEnergy A E) := measurable_sqr.comp (measurable_scattered measurable_axisA measurable_axisB A E)
    have mI : Measurable fun q : (Vec × ℝ) × ℝ => T.indicator (1 : ℝ → ℝ≥0∞) (outEnergy A E q) := mT.comp mE
    have mJ : Measurable fun r : Vec × ℝ => ∫⁻ x, T.indicator (1 : ℝ → ℝ≥0∞) (outEnergy A E (r, x)) ∂Spec.unif := mI.lintegral_prod_right'
    rw [hs, Measure.map_apply (measurable_outcome A E) (MeasurableSet.univ.prod hT)]
    have hpre : (fun q : (Vec × ℝ) × ℝ => cosEnergy (scattered axisA axisB A E q.1.1 q.1.2 q.2)) ⁻¹' (univ ×ˢ T) = outEnergy A E ⁻¹' T := by
      ext q
      simp only [mem_preimage, mem_prod, mem_univ, true_and]
      rfl
    rw [hpre, ← lintegral_indicator_one (mE hT)]
    have hind : (outEnergy A E ⁻¹' T).indicator (1 : (Vec × ℝ) × ℝ → ℝ≥0∞) = fun q => T.indicator (1 : ℝ → ℝ≥0∞) (outEnergy A E q) := rfl
    rw [hind, lintegral_prod _ mI.aemeasurable, lintegral_prod _ mJ.aemeasurable]
    refine lintegral_congr_ae ?_
    filter_upwards [freeGas_ae E kT A] with v hv
    have mK : Measurable fun m : ℝ => ∫⁻ x, T.indicator (1 : ℝ → ℝ≥0∞) (outEnergy A E ((v, m), x)) ∂Spec.unif := mJ.comp measurable_prodMk_left
    unfold hitAvg
    rw [← energy_average (a := axisA) (b := axisB) (fun u hu => axes_frame hu) hA (v := v) (by rw [rel_eq]; exact hv) hT]
    unfold densityOn
    rw [lintegral_withDensity_eq_lintegral_mul _ (by fun_prop) mK, restrict_Ioo_eq_restrict_Icc]
    simp only [Pi.mul_apply]
    rw [lintegral_const_mul _ mK]
    rfl
  rw [hP, lintegral_velocityLaw (measurable_freeGas E kT A) (measurable_hitAvg A hT E), ← mul_assoc]
  have := gasRate_inv hE hkT hA
  unfold gasRate at this
  unfold gasRate
  rw [this, one_mul]

/-- The rate of transfer between two sets of energies, in terms of the pairs of velocities. -/
theorem flow_pairs (d : AngleDist) (hv : ValidDist d) (hl : ∀ law ∈ d.laws, law = .isotropic) {A kT tar : ℝ} (hA : 0 < A) (hkT : 0 < kT) (k : Nat)
    {S T : Set ℝ} (hS : MeasurableSet S) (hT : MeasurableSet T) (hS0 : S ⊆ Ioi 0) :
    ENNReal.ofReal (2 * π) * ∫⁻ E in S, maxwellian kT E * gasRate E kT A * transfer d A kT tar k E T = pairRate A kT S T := by
  obtain ⟨Φ, hΦ⟩ : ∃ Φ : ℝ → ℝ≥0∞, Φ = fun s => ∫⁻ vt, ENNReal.ofReal (pairWeight A kT ⟨0, 0, Real.sqrt s⟩ vt) * hitAvg A T s vt ∂vecVolume := ⟨_, rfl⟩
  have hx := measurable_x
  have hy := measurable_y
  have hz := measurable_z
  have mΦ : Measurable Φ := by
    rw [hΦ]
    have m1 : Measurable fun p : ℝ × Vec => (Vec.mk 0 0 (Real.sqrt p.1), p.2) :=
      (measurable_vec measurable_const measurable_const (by fun_prop)).prodMk measurable_snd
    have m2 : Measurable fun p : Vec × Vec => ENNReal.ofReal (pairWeight A kT p.1 p.2) *
        dirAvg (A / (A + 1)) T ((p.1.sub p.2).dot (p.1.sub p.2)) ((cmVec A p.1 p.2).dot (cmVec A p.1 p.2)) :=
      (measurable_pairWeight A kT).ennreal_ofReal.mul ((measurable_dirAvg _ hT).comp
        ((measurable_pair measurable_subs measurable_subs).prodMk (measurable_pair (measurable_cm A) (measurable_cm A))))
    exact (m2.comp m1).lintegral_prod_right'
  -- the integrand
  have e1 : ∀ E, 0 ≤ E → maxwellian kT E * gasRate E kT A * transfer d A kT tar k E T = ENNReal.ofReal (Real.sqrt E) * Φ E := by
    intro E hE
    rw [mul_assoc, rate_transfer d hv hl hA hkT hE k hT, hΦ]
    unfold maxwellian
    rw [mul_comm (Real.exp _), ENNReal.ofReal_mul (Real.sqrt_nonneg E), mul_assoc]
    congr 1
    rw [← lintegral_const_mul' _ _ ENNReal.ofReal_ne_top]
    refine lintegral_congr fun v => ?_
    rw [← mul_assoc, ← ENNReal.ofReal_mul (Real.exp_pos _).le]
    congr 2
    unfold freeGas pairWeight Vec.dot Vec.sub
    simp only
    have hq := Real.mul_self_sqrt hE
    rw [mul_zero, zero_add, zero_add, hq]
    congr 4 <;> ring
  -- turning the axis
  have e2 : ∀ vn : Vec, ∫⁻ vt, ENNReal.ofReal (pairWeight A kT vn vt) *
      dirAvg (A / (A + 1)) T ((vn.sub vt).dot (vn.sub vt)) ((cmVec A vn vt).dot (cmVec A vn vt)) ∂vecVolume = Φ (vn.dot vn) := by
    intro vn
    obtain ⟨h, hh⟩ : ∃ h : ℝ × ℝ → ℝ≥0∞, h = fun p => ENNReal.ofReal (Real.exp (-(vn.dot vn / kT)) *
      (Real.exp (-(A * p.1 / kT)) * Real.sqrt (vn.dot vn + p.1 - 2 * p.2))) *
      dirAvg (A / (A + 1)) T (vn.dot vn + p.1 - 2 * p.2) ((vn.dot vn + A ^ 2 * p.1 + 2 * A * p.2) / (A + 1) ^ 2) := ⟨_, rfl⟩
    have mh : Measurable h := by
      rw [hh]
      refine Measurable.mul (by fun_prop) ?_
      exact (measurable_dirAvg (A / (A + 1)) hT).comp (show Measurable fun p : ℝ × ℝ => (vn.dot vn + p.1 - 2 * p.2, (vn.dot vn + A ^ 2 * p.1 + 2 * A * p.2) / (A + 1) ^ 2) by fun_prop)
    have t := lintegral_turn vn mh
    have hA1 : A + 1 ≠ 0 := by linarith
    have f1 : ∀ vt : Vec, h (vt.dot vt, vn.dot vt) = ENNReal.ofReal (pairWeight A kT vn vt) *
      dirAvg (A / (A + 1)) T ((vn.sub vt).dot (vn.sub vt)) ((cmVec A vn vt).dot (cmVec A vn vt)) := by
      intro vt
      rw [hh]
      dsimp only
      have g1 : (vn.sub vt).dot (vn.sub vt) = vn.dot vn + vt.dot vt - 2 * vn.dot vt := by
        unfold Vec.sub Vec.dot; simp only; ring
      have g2 : (cmVec A vn vt).dot (cmVec A vn vt) = (vn.dot vn + A ^ 2 * vt.dot vt + 2 * A * vn.dot vt) / (A + 1) ^ 2 := by
        unfold cmVec Vec.dot; simp only; field_simp; ring
      unfold pairWeight
      rw [g1, g2]
    have f2 : ∀ vt : Vec, h (vt.dot vt, vn.mag * vt.z) = ENNReal.ofReal (pairWeight A kT ⟨0, 0, Real.sqrt (vn.dot vn)⟩ vt) * hitAvg A T (vn.dot vn) vt := by
      intro vt
      rw [hh]
      dsimp only
      have hm : vn.mag = Real.sqrt (vn.dot vn) := rfl
      have hq := Real.mul_self_sqrt (dot_self_nonneg vn)
      unfold hitAvg pairWeight
      rw [hm]
      generalize vn.dot vn = s at *
      have g0 : (Vec.mk 0 0 (Real.sqrt s)).dot ⟨0, 0, Real.sqrt s⟩ = s := by
        unfold Vec.dot; simp only; linarith
      have g1 : ((Vec.mk 0 0 (Real.sqrt s)).sub vt).dot ((Vec.mk 0 0 (Real.sqrt s)).sub vt) = s + vt.dot vt - 2 * (Real.sqrt s * vt.z) := by
        unfold Vec.sub Vec.dot; simp only; linear_combination hq
      have g2 : (cmVelocity A ⟨0, 0, Real.sqrt s⟩ vt).dot (cmVelocity A ⟨0, 0, Real.sqrt s⟩ vt) = (s + A ^ 2 * vt.dot vt + 2 * A * (Real.sqrt s * vt.z)) / (A + 1) ^ 2 := by
        unfold cmVelocity Vec.dot; simp only; field_simp; linear_combination hq
      rw [g0, g1, g2]
    simp only [f1, f2] at t
    rw [t, hΦ]
  have mS : Measurable fun s : ℝ => S.indicator (1 : ℝ → ℝ≥0∞) s * Φ s := (measurable_one.indicator hS).mul mΦ
  have hr := lintegral_radial mS
  unfold pairRate
  have e3 : ∀ vn : Vec, ∫⁻ vt, S.indicator (1 : ℝ → ℝ≥0∞) (vn.dot vn) * (ENNReal.ofReal (pairWeight A kT vn vt) *
      dirAvg (A / (A + 1)) T ((vn.sub vt).dot (vn.sub vt)) ((cmVec A vn vt).dot (cmVec A vn vt))) ∂vecVolume = S.indicator (1 : ℝ → ℝ≥0∞) (vn.dot vn) * Φ (vn.dot vn) := by
    intro vn
    rw [← e2 vn, lintegral_const_mul']
    by_cases hm : vn.dot vn ∈ S
    · rw [indicator_of_mem hm]; exact ENNReal.one_ne_top
    · rw [indicator_of_notMem hm]; exact ENNReal.zero_ne_top
  simp only [e3]
  rw [hr]
  congr 1
  rw [← lintegral_indicator hS, ← lintegral_indicator measurableSet_Ioi]
  refine lintegral_congr fun s => ?_
  by_cases hm : s ∈ S
  · rw [indicator_of_mem hm, indicator_of_mem (hS0 hm), indicator_of_mem hm, Pi.one_apply, one_mul]
    exact e1 s (le_of_lt (hS0 hm))
  · rw [indicator_of_notMem hm]
    by_cases h0 : s ∈ Ioi (0 : ℝ)
    · rw [indicator_of_mem h0, indicator_of_notMem hm, zero_mul, mul_zero]
    · rw [indicator_of_notMem h0]

/-- **C123** Detailed balance: in a gas of neutrons in thermal equilibrium with the target, the collisions that take neutrons from energies in `S` to
energies in `T` are as frequent as those that take them from `T` to `S`. -/
theorem C123_balance (d : AngleDist) (hv : ValidDist d) (hl : ∀ law ∈ d.laws, law = .isotropic) (A kT tar : ℝ) (hA : 0 < A) (hkT : 0 < kT) (k : Nat)
    (S T : Set ℝ) (hS : MeasurableSet S) (hT : MeasurableSet T) (hS0 : S ⊆ Ioi 0) (hT0 : T ⊆ Ioi 0) :
    ∫⁻ E in S, maxwellian kT E * gasRate E kT A * transfer d A kT tar k E T = ∫⁻ E in T, maxwellian kT E * gasRate E kT A * transfer d A kT tar k E S := by
  have h1 := flow_pairs d hv hl (tar := tar) hA hkT k hS hT hS0
  have h2 := flow_pairs d hv hl (tar := tar) hA hkT k hT hS hT0
  rw [pairRate_symm hA hS hT, ← h2] at h1
  have hpi := Real.pi_pos
  refine (ENNReal.mul_right_inj ?_ ENNReal.ofReal_ne_top).mp h1
  rw [ne_eq, ENNReal.ofReal_eq_zero, not_le]
  positivity

/-- With probability one the collision returns a positive energy. -/
theorem C123_certain (d : AngleDist) (hv : ValidDist d) (hl : ∀ law ∈ d.laws, law = .isotropic) (A kT tar E : ℝ) (hA : 0 < A) (hkT : 0 < kT) (hE : 0 ≤ E) (k : Nat) :
    transfer d A kT tar k E (Ioi 0) = 1 := by
  have hiso := iso_closed d hv hl E
  have hp := hiso.prob
  have hp' := (svt_closed hE hkT hA).prob
  have hc := gas_closed (bf := svtSample) (tar := tar) (useTar := false) hA hE (fun hc => absurd hc.1 (by simp)) (svt_closed hE hkT hA) (freeGas_ae E kT A) hiso
  have hr := rate_transfer d hv hl (tar := tar) hA hkT hE k (T := Ioi 0) measurableSet_Ioi
  have havg : ∀ v, ENNReal.ofReal (freeGas E kT A v) * hitAvg A (Ioi 0) E v = ENNReal.ofReal (freeGas E kT A v) := by
    intro v
    by_cases h0 : 0 < relEnergy E v
    · have hw := dot_self_nonneg (cmVelocity A ⟨0, 0, Real.sqrt E⟩ v)
      have hone : hitAvg A (Ioi 0) E v = 1 := by
        unfold hitAvg dirAvg
        rw [rel_eq]
        generalize (cmVelocity A ⟨0, 0, Real.sqrt E⟩ v).dot (cmVelocity A ⟨0, 0, Real.sqrt E⟩ v) = w at *
        generalize relEnergy E v = q at *
        have ha : 0 < A / (A + 1) := by positivity
        obtain ⟨S, hS⟩ : ∃ S, S = A / (A + 1) * Real.sqrt q := ⟨_, rfl⟩
        have hS0 : 0 < S := by rw [hS]; exact mul_pos ha (Real.sqrt_pos.mpr h0)
        have hS2 : S ^ 2 = (A / (A + 1)) ^ 2 * q := by rw [hS, mul_pow, Real.sq_sqrt h0.le]
        have hw2 := Real.sq_sqrt hw
        have hw0 := Real.sqrt_nonneg w
        rw [← hS2, ← hS]
        have : ∀ c ∈ Ioo (-1 : ℝ) 1, (Ioi (0 : ℝ)).indicator (1 : ℝ → ℝ≥0∞) (w + S ^ 2 + 2 * S * (Real.sqrt w * c)) = 1 := by
          intro c hc
          refine indicator_of_mem ?_ _
          rw [mem_Ioi]
          obtain ⟨c1, c2⟩ := hc
          rcases hw0.eq_or_lt with h | h
          · rw [← h]; nlinarith
          · have : 0 < S * Real.sqrt w * (1 + c) := mul_pos (mul_pos hS0 h) (by linarith)
            nlinarith [sq_nonneg (Real.sqrt w - S)]
        rw [setLIntegral_congr_fun measurableSet_Ioo this, setLIntegral_const, Real.volume_Ioo, one_mul, ← ENNReal.ofReal_mul (by norm_num)]
        norm_num
      rw [hone, mul_one]
    · have : freeGas E kT A v = 0 := by
        unfold freeGas
        unfold relEnergy at h0
        rw [Real.sqrt_eq_zero_of_nonpos (not_lt.mp h0), mul_zero]
      rw [this]; simp
  simp only [havg] at hr
  have hi := gasRate_inv hE hkT hA
  have h0 : gasRate E kT A ≠ 0 := by intro h; rw [h, zero_mul] at hi; exact zero_ne_one hi
  have h1 : gasRate E kT A ≠ ⊤ := by intro h; rw [h, ENNReal.inv_top, mul_zero] at hi; exact zero_ne_one hi
  have hr : gasRate E kT A * transfer d A kT tar k E (Ioi 0) = gasRate E kT A * 1 := by rw [hr, mul_one]; rfl
  exact (ENNReal.mul_right_inj h0 h1).mp hr

/-- The equilibrium distribution is stationary: as many neutrons are scattered into the energies in `S` as are scattered out of them. -/
theorem C123_equilibrium (d : AngleDist) (hv : ValidDist d) (hl : ∀ law ∈ d.laws, law = .isotropic) (A kT tar : ℝ) (hA : 0 < A) (hkT : 0 < kT) (k : Nat)
    (S : Set ℝ) (hS : MeasurableSet S) (hS0 : S ⊆ Ioi 0) :
    ∫⁻ E in Ioi (0 : ℝ), maxwellian kT E * gasRate E kT A * transfer d A kT tar k E S = ∫⁻ E in S, maxwellian kT E * gasRate E kT A := by
  rw [← C123_balance d hv hl A kT tar hA hkT k S (Ioi 0) hS measurableSet_Ioi hS0 subset_rfl]
  refine setLIntegral_congr_fun hS fun E hE => ?_
  rw [C123_certain d hv hl A kT tar E hA hkT (le_of_lt (hS0 hE)) k, mul_one]

theorem radial_finite {c r : ℝ} (hc : 0 < c) (hr : 0 ≤ r) : ∫⁻ v : Vec, ENNReal.ofReal (Real.exp (-(c * v.dot v)) * (v.dot v) ^ r) ∂vecVolume < ⊤ := by
  have hm : Measurable fun s : ℝ => ENNReal.ofReal (Real.exp (-(c * s)) * s ^ r) := by fun_prop
  rw [lintegral_radial hm]
  refine ENNReal.mul_lt_top ENNReal.ofReal_lt_top ?_
  have hi := integrableOn_rpow_mul_exp_neg_mul_rpow (s := 1 / 2 + r) (p := 1) (b := c) (by linarith) one_pos hc
  have := hi.lintegral_lt_top
  refine lt_of_le_of_lt (le_of_eq ?_) this
  refine setLIntegral_congr_fun measurableSet_Ioi fun s hs => ?_
  have hs : 0 < s := hs
  rw [← ENNReal.ofReal_mul (Real.sqrt_nonneg s), Real.rpow_one, Real.rpow_add hs, ← Real.sqrt_eq_rpow]
  congr 1
  rw [neg_mul]
  ring

/-- The total rate of collisions is finite. -/
theorem C123_finite (A kT : ℝ) (hA : 0 < A) (hkT : 0 < kT) : ∫⁻ E in Ioi (0 : ℝ), maxwellian kT E * gasRate E kT A < ⊤ := by
  obtain ⟨d, hv, hl⟩ : ∃ d : AngleDist, ValidDist d ∧ ∀ law ∈ d.laws, law = .isotropic := ⟨⟨[1, 200], [.isotropic, .isotropic]⟩, ⟨by simp, by simp, by norm_num⟩, by simp⟩
  have h := flow_pairs d hv hl (tar := 0) hA hkT 0 (S := Ioi 0) (T := Ioi 0) measurableSet_Ioi measurableSet_Ioi subset_rfl
  have e : ∫⁻ E in Ioi (0 : ℝ), maxwellian kT E * gasRate E kT A * transfer d A kT 0 0 E (Ioi 0) = ∫⁻ E in Ioi (0 : ℝ), maxwellian kT E * gasRate E kT A := by
    refine setLIntegral_congr_fun measurableSet_Ioi fun E hE => ?_
    rw [C123_certain d hv hl A kT 0 E hA hkT (le_of_lt hE) 0, mul_one]
  rw [e] at h
  have hpi := Real.pi_pos
  have hlt : pairRate A kT (Ioi 0) (Ioi 0) < ⊤ := by
    obtain ⟨G, hG⟩ : ∃ G : ℝ → ℝ → Vec → ℝ≥0∞, G = fun c r v => ENNReal.ofReal (Real.exp (-(c * v.dot v)) * (v.dot v) ^ r) := ⟨_, rfl⟩
    have mG : ∀ c r, Measurable (G c r) := fun c r => by
      rw [hG]
      exact (show Measurable fun s : ℝ => ENNReal.ofReal (Real.exp (-(c * s)) * s ^ r) by fun_prop).comp measurable_sqr
    have fG : ∀ c r, 0 < c → 0 ≤ r → ∫⁻ v, G c r v ∂vecVolume < ⊤ := fun c r hc hr => by rw [hG]; exact radial_finite hc hr
    have bound : ∀ vn vt : Vec, (Ioi (0 : ℝ)).indicator (1 : ℝ → ℝ≥0∞) (vn.dot vn) * (ENNReal.ofReal (pairWeight A kT vn vt) *
        dirAvg (A / (A + 1)) (Ioi 0) ((vn.sub vt).dot (vn.sub vt)) ((cmVec A vn vt).dot (cmVec A vn vt))) ≤
        G (1 / kT) (1 / 2) vn * G (A / kT) 0 vt + G (1 / kT) 0 vn * G (A / kT) (1 / 2) vt := by
      intro vn vt
      have b1 : (Ioi (0 : ℝ)).indicator (1 : ℝ → ℝ≥0∞) (vn.dot vn) ≤ 1 := indicator_le_self' (fun _ _ => zero_le) _
      have b2 : dirAvg (A / (A + 1)) (Ioi 0) ((vn.sub vt).dot (vn.sub vt)) ((cmVec A vn vt).dot (cmVec A vn vt)) ≤ 1 := by
        unfold dirAvg
        have : ∀ t : ℝ, (Ioi (0 : ℝ)).indicator (1 : ℝ → ℝ≥0∞) t ≤ 1 := fun t => indicator_le_self' (fun _ _ => zero_le) _
        refine (mul_le_mul_right (lintegral_mono fun c => this _) _).trans ?_
        rw [setLIntegral_const, Real.volume_Ioo, one_mul, ← ENNReal.ofReal_mul (by norm_num)]
        norm_num
      have b3 : ENNReal.ofReal (pairWeight A kT vn vt) ≤ G (1 / kT) (1 / 2) vn * G (A / kT) 0 vt + G (1 / kT) 0 vn * G (A / kT) (1 / 2) vt := by
        rw [hG]
        dsimp only
        have n1 := dot_self_nonneg vn
        have n2 := dot_self_nonneg vt
        rw [← ENNReal.ofReal_mul (by positivity), ← ENNReal.ofReal_mul (by positivity), ← ENNReal.ofReal_add (by positivity) (by positivity)]
        refine ENNReal.ofReal_le_ofReal ?_
        unfold pairWeight
        rw [Real.rpow_zero, Real.rpow_zero, ← Real.sqrt_eq_rpow, ← Real.sqrt_eq_rpow]
        have tri : Real.sqrt ((vn.sub vt).dot (vn.sub vt)) ≤ Real.sqrt (vn.dot vn) + Real.sqrt (vt.dot vt) := by
          rw [Real.sqrt_le_left (by positivity)]
          have q1 := Real.sq_sqrt n1
          have q2 := Real.sq_sqrt n2
          have cs : -(vn.dot vt) ≤ Real.sqrt (vn.dot vn) * Real.sqrt (vt.dot vt) := by
            rw [← Real.sqrt_mul n1]
            refine Real.le_sqrt_of_sq_le ?_
            unfold Vec.dot
            nlinarith [sq_nonneg (vn.x * vt.y - vn.y * vt.x), sq_nonneg (vn.y * vt.z - vn.z * vt.y), sq_nonneg (vn.z * vt.x - vn.x * vt.z)]
          have ex : (vn.sub vt).dot (vn.sub vt) = vn.dot vn + vt.dot vt - 2 * vn.dot vt := by unfold Vec.sub Vec.dot; simp only; ring
          rw [ex]
          nlinarith
        have x1 : Real.exp (-(vn.dot vn / kT)) = Real.exp (-(1 / kT * vn.dot vn)) := by congr 1; ring
        have x2 : Real.exp (-(A * vt.dot vt / kT)) = Real.exp (-(A / kT * vt.dot vt)) := by congr 1; ring
        rw [x1, x2]
        have p1 := Real.exp_pos (-(1 / kT * vn.dot vn))
        have p2 := Real.exp_pos (-(A / kT * vt.dot vt))
        have := mul_le_mul_of_nonneg_left tri (mul_pos p1 p2).le
        nlinarith
      calc _ ≤ 1 * (ENNReal.ofReal (pairWeight A kT vn vt) * 1) := mul_le_mul' b1 (mul_le_mul' le_rfl b2)
        _ ≤ _ := by rw [one_mul, mul_one]; exact b3
    have c1 : 0 < 1 / kT := by positivity
    have c2 : 0 < A / kT := by positivity
    unfold pairRate
    refine lt_of_le_of_lt (lintegral_mono fun vn => lintegral_mono fun vt => bound vn vt) ?_
    have inner : ∀ vn, ∫⁻ vt, (G (1 / kT) (1 / 2) vn * G (A / kT) 0 vt + G (1 / kT) 0 vn * G (A / kT) (1 / 2) vt) ∂vecVolume =
        G (1 / kT) (1 / 2) vn * ∫⁻ vt, G (A / kT) 0 vt ∂vecVolume + G (1 / kT) 0 vn * ∫⁻ vt, G (A / kT) (1 / 2) vt ∂vecVolume := by
      intro vn
      rw [lintegral_add_left ((mG _ _).const_mul _), lintegral_const_mul _ (mG _ _), lintegral_const_mul _ (mG _ _)]
    simp only [inner]
    rw [lintegral_add_left ((mG _ _).mul_const _), lintegral_mul_const _ (mG _ _), lintegral_mul_const _ (mG _ _)]
    exact ENNReal.add_lt_top.mpr ⟨ENNReal.mul_lt_top (fG _ _ c1 (by norm_num)) (fG _ _ c2 le_rfl), ENNReal.mul_lt_top (fG _ _ c1 le_rfl) (fG _ _ c2 (by norm_num))⟩
  rw [← h] at hlt
  refine lt_of_le_of_ne le_top fun ht => ?_
  rw [ht, ENNReal.mul_top (by rw [ne_eq, ENNReal.ofReal_eq_zero, not_le]; positivity)] at hlt
  exact lt_irrefl _ hlt

/-- Non-vacuity: a target of mass ratio 12 with the default isotropic angular distribution; collisions from energies between 1 and 2 to energies between 5 and 7. -/
example : ∫⁻ E in Ioo (1 : ℝ) 2, maxwellian 3 E * gasRate E 3 12 * transfer ⟨[1, 200], [.isotropic, .isotropic]⟩ 12 3 400 0 E (Ioo 5 7) =
    ∫⁻ E in Ioo (5 : ℝ) 7, maxwellian 3 E * gasRate E 3 12 * transfer ⟨[1, 200], [.isotropic, .isotropic]⟩ 12 3 400 0 E (Ioo 1 2) :=
  C123_balance _ ⟨by simp, by simp, by norm_num⟩ (by simp) 12 3 400 (by norm_num) (by norm_num) 0 _ _ measurableSet_Ioo measurableSet_Ioo
    (fun _ h => lt_trans (by norm_num) h.1) (fun _ h => lt_trans (by norm_num) h.1)

end PNDL
