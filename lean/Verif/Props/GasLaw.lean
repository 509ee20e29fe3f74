import Verif.Lemmas.Collision

/-! C122: the law of elastically scattered neutrons off a moving target (src/elastic.cpp with src/elastic_svt.cpp). -/
namespace PNDL
open MeasureTheory Spec Set
open scoped ENNReal Real

/-- A sampler that returns the same values draws from the same law. -/
theorem Closed.of_ok {α : Type} [MeasurableSpace α] {run run' : Nat → Tape → Nat → Res (α × Nat)} {μ : Measure α} (h : Closed run μ) (hs : Shifts run')
    (he : ∀ fuel ω y, run' fuel ω 0 = .ok y ↔ run fuel ω 0 = .ok y) : Closed run' μ := by
  obtain ⟨_, X, N, hX, hN, hr, hl⟩ := h
  refine ⟨hs, X, N, hX, hN, ?_, hl⟩
  filter_upwards [hr] with ω ⟨⟨f0, a⟩, b⟩
  exact ⟨⟨f0, fun fuel hf => (he _ _ _).mpr (a fuel hf)⟩, fun fuel y hy => b fuel y ((he _ _ _).mp hy)⟩

/-- A collision reads the stream from its position on. -/
theorem collide_shift {e : Elastic} {E : ℝ} (hang : ∀ ω k, e.angle E ω k = (e.angle E (dropT k ω) 0).map fun r => (r.1, k + r.2)) (vn vt : Vec) (ω : Tape) (k : Nat) :
    e.collide E vn vt ω k = (e.collide E vn vt (dropT k ω) 0).map fun r => (r.1, r.2.1, k + r.2.2) := by
  unfold Elastic.collide
  simp only [bind, Except.bind]
  cases (vn.add (vt.smul e.awr)).sdiv (e.awr + 1) with
  | error e => rfl
  | ok W =>
    simp only
    cases (vn.sub W).sdiv (vn.sub W).mag with
    | error e => rfl
    | ok U =>
      simp only
      rw [hang ω k]
      cases e.angle E (dropT k ω) 0 with
      | error e => rfl
      | ok r =>
        simp only [Except.map, dropT_apply]
        cases U.rotate r.1 (2 * π * ω (k + r.2)) with
        | error e => rfl
        | ok D =>
          simp only
          cases ((D.smul (vn.sub W).mag).add W).sdiv ((D.smul (vn.sub W).mag).add W).mag with
          | error e => rfl
          | ok u => rfl

theorem measurable_outcome (A E : ℝ) : Measurable fun q : (Vec × ℝ) × ℝ => cosEnergy (scattered axisA axisB A E q.1.1 q.1.2 q.2) :=
  measurable_cosEnergy.comp (measurable_scattered measurable_axisA measurable_axisB A E)

theorem rel_eq (E : ℝ) (v : Vec) : ((Vec.mk 0 0 (Real.sqrt E)).sub v).dot ((Vec.mk 0 0 (Real.sqrt E)).sub v) = relEnergy E v := by
  unfold relEnergy Vec.sub Vec.dot
  simp only
  ring

theorem dot_self_nonneg (v : Vec) : 0 ≤ v.dot v := by
  unfold Vec.dot
  nlinarith [mul_self_nonneg v.x, mul_self_nonneg v.y, mul_self_nonneg v.z]

/-- The energy after the collision, as a function of the quantities drawn. -/
noncomputable def outEnergy (A E : ℝ) (q : (Vec × ℝ) × ℝ) : ℝ :=
  (scattered axisA axisB A E q.1.1 q.1.2 q.2).dot (scattered axisA axisB A E q.1.1 q.1.2 q.2)

/-- Almost no collision stops the neutron. -/
theorem moving_ae {A E : ℝ} (hA : 0 < A) {μ : Measure Vec} [IsProbabilityMeasure μ] (hμ : ∀ᵐ v ∂μ, 0 < relEnergy E v) {p : ℝ → ℝ}
    [IsProbabilityMeasure (densityOn (-1) 1 p)] :
    ∀ᵐ q ∂(μ.prod (densityOn (-1) 1 p)).prod Spec.unif, outEnergy A E q ≠ 0 := by
  have mE : Measurable (outEnergy A E) := measurable_sqr.comp (measurable_scattered measurable_axisA measurable_axisB A E)
  have m0 : Measurable (({0} : Set ℝ).indicator (1 : ℝ → ℝ≥0∞)) := measurable_one.indicator (measurableSet_singleton 0)
  have mI : Measurable fun q : (Vec × ℝ) × ℝ => ({0} : Set ℝ).indicator (1 : ℝ → ℝ≥0∞) (outEnergy A E q) := m0.comp mE
  have key : ∫⁻ q, ({0} : Set ℝ).indicator (1 : ℝ → ℝ≥0∞) (outEnergy A E q) ∂(μ.prod (densityOn (-1) 1 p)).prod Spec.unif = 0 := by
    rw [lintegral_prod _ mI.aemeasurable]
    have mJ : Measurable fun r : Vec × ℝ => ∫⁻ x, ({0} : Set ℝ).indicator (1 : ℝ → ℝ≥0∞) (outEnergy A E (r, x)) ∂Spec.unif := mI.lintegral_prod_right'
    rw [lintegral_prod _ mJ.aemeasurable]
    rw [← lintegral_zero (μ := μ)]
    refine lintegral_congr_ae ?_
    filter_upwards [hμ] with v hv
    have mK : Measurable fun m : ℝ => ∫⁻ x, ({0} : Set ℝ).indicator (1 : ℝ → ℝ≥0∞) (outEnergy A E ((v, m), x)) ∂Spec.unif := mJ.comp measurable_prodMk_left
    have h := energy_average (a := axisA) (b := axisB) (fun u hu => axes_frame hu) hA (v := v) (by rw [rel_eq]; exact hv) (measurableSet_singleton (0 : ℝ))
    rw [dirAvg_zero hA (by rw [rel_eq]; exact hv) (dot_self_nonneg _), mul_eq_zero] at h
    rcases h with h | h
    · rw [ENNReal.ofReal_eq_zero] at h; norm_num at h
    · have h : ∫⁻ m in Ioo (-1 : ℝ) 1, ∫⁻ x, ({0} : Set ℝ).indicator (1 : ℝ → ℝ≥0∞) (outEnergy A E ((v, m), x)) ∂Spec.unif = 0 := h
      rw [lintegral_eq_zero_iff mK] at h
      refine (lintegral_eq_zero_iff mK).mpr ?_
      refine (withDensity_absolutelyContinuous _ _).ae_le ?_
      rw [restrict_Ioo_eq_restrict_Icc] at h
      exact h
  rw [lintegral_eq_zero_iff mI] at key
  filter_upwards [key] with q hq h0
  have hq : ({0} : Set ℝ).indicator (1 : ℝ → ℝ≥0∞) (outEnergy A E q) = 0 := hq
  rw [h0, indicator_of_mem (mem_singleton 0)] at hq
  exact one_ne_zero hq

theorem sample_broadened {d : AngleDist} {A kT tar E : ℝ} {useTar : Bool} {b : Broadener} (hE : 0 ≤ E) (ht : ¬ (useTar = true ∧ E ≥ tar * kT)) (fuel : Nat)
    (ω : Tape) (k : Nat) : (Elastic.ofDist d A kT useTar tar (some b) fuel).sample E ω k = (b E kT A ω k).bind fun r =>
      (Elastic.ofDist d A kT useTar tar (some b) fuel).collide E ⟨0, 0, Real.sqrt E⟩ r.1 ω r.2 := by
  have hz : (Vec.mk 0 0 1).smul (Real.sqrt E) = Vec.mk 0 0 (Real.sqrt E) := by
    unfold Vec.smul; simp only [zero_mul, one_mul]
  unfold Elastic.sample
  rw [csqrt_ok hE]
  simp only [bind, Except.bind, hz]
  exact if_neg ht

/-- Elastic scattering off a target whose velocity is drawn by any sampler, with any law of the centre-of-mass cosine. -/
theorem gas_closed_any {d : AngleDist} {A kT tar E : ℝ} {useTar : Bool} {bf : Nat → Broadener} {μ : Measure Vec} {ν : Measure ℝ} (hA : 0 < A) (hE : 0 ≤ E)
    (ht : ¬ (useTar = true ∧ E ≥ tar * kT)) (hb : Closed (fun fuel ω k => bf fuel E kT A ω k) μ) (hμ : ∀ᵐ v ∂μ, 0 < relEnergy E v)
    (hd : Closed (fun fuel ω k => d.sample fuel E ω k) ν) (hν : ∀ᵐ m ∂ν, -1 ≤ m ∧ m ≤ 1) (hmove : ∀ᵐ q ∂(μ.prod ν).prod Spec.unif, outEnergy A E q ≠ 0) :
    Closed (fun fuel ω k => asPair ((Elastic.ofDist d A kT useTar tar (some (bf fuel)) fuel).sample E ω k))
      (((μ.prod ν).prod Spec.unif).map fun q => cosEnergy (scattered axisA axisB A E q.1.1 q.1.2 q.2)) := by
  have hp1 := hb.prob
  have hp2 := hd.prob
  have c2 : Closed (fun (_ : Nat) (ω : Tape) (k : Nat) => ((Except.ok (ω k) : Res ℝ)).map fun x => (x, k + 1)) (Spec.unif.map id) :=
    closed_one (g := fun x => .ok x) measurable_id fun _ _ _ => rfl
  rw [Measure.map_id] at c2
  have h1 := closed_bind (closed_bind hb (hd.lift μ)) (c2.lift (μ.prod ν))
  have h2 := closed_map h1 (F := gasHit A kT E) (measurable_outcome A E) (by
    have a1 : ∀ᵐ q ∂(μ.prod ν).prod Spec.unif, 0 < relEnergy E q.1.1 :=
      Measure.quasiMeasurePreserving_fst.ae (Measure.quasiMeasurePreserving_fst.ae hμ)
    have a2 : ∀ᵐ q ∂(μ.prod ν).prod Spec.unif, -1 ≤ q.1.2 ∧ q.1.2 ≤ 1 :=
      Measure.quasiMeasurePreserving_fst.ae (Measure.quasiMeasurePreserving_snd.ae hν)
    have a3 : ∀ᵐ q ∂(μ.prod ν).prod Spec.unif, q.2 ∈ Icc (0 : ℝ) 1 :=
      Measure.quasiMeasurePreserving_snd.ae (ae_restrict_mem measurableSet_Icc)
    filter_upwards [a1, a2, a3, hmove] with q b1 b2 b3 b4
    refine gasHit_ok hA b2.1 b2.2 b3.1 b3.2 ?_ b4
    rw [cm_rel hA, mag_smul (by positivity), rel_eq]
    exact mul_ne_zero (by positivity) (Real.sqrt_pos.mpr b1).ne')
  refine h2.of_ok (run' := fun fuel ω k => asPair ((Elastic.ofDist d A kT useTar tar (some (bf fuel)) fuel).sample E ω k)) ?_ ?_
  · intro fuel ω k
    unfold asPair
    simp only [sample_broadened hE ht]
    have hsb : bf fuel E kT A ω k = (bf fuel E kT A (dropT k ω) 0).map fun r => (r.1, k + r.2) := hb.shift fuel ω k
    rw [hsb]
    cases bf fuel E kT A (dropT k ω) 0 with
    | error e => rfl
    | ok r =>
      simp only [Except.map, Except.bind]
      have hang : ∀ ω k, (Elastic.ofDist d A kT useTar tar (some (bf fuel)) fuel).angle E ω k =
          ((Elastic.ofDist d A kT useTar tar (some (bf fuel)) fuel).angle E (dropT k ω) 0).map fun r => (r.1, k + r.2) :=
        fun ω k => hd.shift fuel ω k
      rw [collide_shift hang _ r.1 ω (k + r.2), collide_shift hang _ r.1 (dropT k ω) r.2, dropT_dropT]
      cases Elastic.collide _ E _ r.1 (dropT (k + r.2) ω) 0 with
      | error e => rfl
      | ok y => simp only [Except.map, Nat.add_assoc, bind, Except.bind, pure, Except.pure]
  · intro fuel ω y
    simp only [sample_broadened hE ht]
    unfold asPair gasHit
    simp only [Elastic.ofDist, Elastic.collide, bind, Except.bind, pure, Except.pure]
    cases bf fuel E kT A ω 0 with
    | error e => exact Iff.rfl
    | ok r =>
      simp only
      cases hW : ((Vec.mk 0 0 (Real.sqrt E)).add (r.1.smul A)).sdiv (A + 1) with
      | error e =>
        cases hd2 : d.sample fuel E ω r.2 <;> simp only [Except.map, hW] <;> simp
      | ok W =>
        cases hU : ((Vec.mk 0 0 (Real.sqrt E)).sub W).sdiv ((Vec.mk 0 0 (Real.sqrt E)).sub W).mag with
        | error e =>
          cases hd2 : d.sample fuel E ω r.2 <;> simp only [Except.map, hW, hU] <;> simp
        | ok U =>
          cases hd2 : d.sample fuel E ω r.2 with
          | error e => simp only [Except.map, hU]
          | ok r2 =>
            cases hD : U.rotate r2.1 (2 * π * ω r2.2) with
            | error e => simp only [Except.map, hW, hU, hD]
            | ok D =>
              cases hu : ((D.smul ((Vec.mk 0 0 (Real.sqrt E)).sub W).mag).add W).sdiv ((D.smul ((Vec.mk 0 0 (Real.sqrt E)).sub W).mag).add W).mag with
              | error e => simp only [Except.map, hW, hU, hD, hu]
              | ok u => simp only [Except.map, hW, hU, hD, hu]

/-- The same for cosines with a density. -/
theorem gas_closed {d : AngleDist} {A kT tar E : ℝ} {useTar : Bool} {bf : Nat → Broadener} {μ : Measure Vec} {p : ℝ → ℝ} (hA : 0 < A) (hE : 0 ≤ E)
    (ht : ¬ (useTar = true ∧ E ≥ tar * kT)) (hb : Closed (fun fuel ω k => bf fuel E kT A ω k) μ) (hμ : ∀ᵐ v ∂μ, 0 < relEnergy E v)
    (hd : Closed (fun fuel ω k => d.sample fuel E ω k) (densityOn (-1) 1 p)) :
    Closed (fun fuel ω k => asPair ((Elastic.ofDist d A kT useTar tar (some (bf fuel)) fuel).sample E ω k))
      (((μ.prod (densityOn (-1) 1 p)).prod Spec.unif).map fun q => cosEnergy (scattered axisA axisB A E q.1.1 q.1.2 q.2)) := by
  have hp1 := hb.prob
  have hp2 := hd.prob
  exact gas_closed_any hA hE ht hb hμ hd (densityOn_inside.mono fun _ h => ⟨h.1.le, h.2⟩) (moving_ae hA hμ)

/-- The free gas does not move with the neutron. -/
theorem freeGas_ae (E kT awr : ℝ) : ∀ᵐ v ∂velocityLaw (freeGas E kT awr), 0 < relEnergy E v := by
  unfold velocityLaw
  refine Measure.ae_smul_measure ?_ _
  rw [ae_withDensity_iff (measurable_freeGas E kT awr).ennreal_ofReal]
  refine Filter.Eventually.of_forall fun v hv => ?_
  by_contra hc
  apply hv
  rw [ENNReal.ofReal_eq_zero]
  unfold freeGas
  unfold relEnergy at hc
  rw [Real.sqrt_eq_zero_of_nonpos (not_lt.mp hc), mul_zero]

/-- **C122** Scattering off a free gas: the cosine and energy returned are those of the velocity `W + |V| d`, where the target velocity has the free-gas
law, `W` is the velocity of the centre of mass, `V` that of the neutron relative to it and `d` is the direction at the centre-of-mass cosine drawn from
the reported angular density and a uniform azimuth from that of `V` — the three draws being independent. -/
theorem C122_free_gas_partial (d : AngleDist) (hv : ValidDist d) (hl : ∀ law ∈ d.laws, SoundLaw law) (A kT tar E : ℝ) (useTar : Bool) (hA : 0 < A) (hkT : 0 < kT)
    (hE : 0 ≤ E) (ht : useTar = true → E < tar * kT) (k : Nat) :
    ∃ (p : ℝ → ℝ) (a b : Vec → Vec), (∀ mu, -1 ≤ mu → mu ≤ 1 → d.pdf E mu = .ok (p mu)) ∧ (∀ u : Vec, u.dot u = 1 → Frame3 u (a u) (b u)) ∧
      Samples (fun fuel ω => asPair ((Elastic.ofDist d A kT useTar tar (some (svtSample fuel)) fuel).sample E ω k))
        ((((velocityLaw (freeGas E kT A)).prod ((volume.restrict (Icc (-1) 1)).withDensity fun m => ENNReal.ofReal (p m))).prod Spec.unif).map
          fun q => cosEnergy (scattered a b A E q.1.1 q.1.2 q.2)) := by
  obtain ⟨p, h1, _, h3⟩ := dist_faithful d hv (fun law h => sound_faithful (hl law h)) E
  refine ⟨p, axisA, axisB, fun mu a b => (h1 mu a b).1, fun u hu => axes_frame ?_, ?_⟩
  · unfold IsUnit3
    unfold Vec.dot at hu
    linarith
  · exact (gas_closed (bf := svtSample) hA hE (fun hc => absurd (ht hc.1) (not_lt.mpr hc.2)) (svt_closed hE hkT hA) (freeGas_ae E kT A) h3).samples k

theorem dbrc_gas_closed (d : AngleDist) (hv : ValidDist d) (hl : ∀ law ∈ d.laws, SoundLaw law) (tar : ℝ) (useTar : Bool)
    (s : XS ℝ) (σ : ℝ → ℝ) (hσ : ∀ e, s.eval e = .ok (σ e)) (hg : GoodXS s) (h0 : s.index = 0) (hs : s.grid.Pairwise (· < ·))
    (e0 : ℝ) (he0 : s.grid[0]? = some e0) (hpos : 0 < e0) (h32 : s.grid.length < 2 ^ 32) (nbins : Nat) (hn : 1 ≤ nbins) (hn2 : nbins < 2 ^ 32 - 1)
    (g : EGrid) (hgrid : EGrid.make s.grid nbins = .ok g) (E kT A lo hi : ℝ) (hE : 0 ≤ E) (hkT : 0 < kT) (hA : 0 < A) (ht : useTar = true → E < tar * kT)
    (hlo : lo = max 0 (Real.sqrt (A * E / kT) - 4) ^ 2 * kT / A) (hhi : hi = (Real.sqrt (A * E / kT) + 4) ^ 2 * kT / A)
    (hcover : e0 ≤ lo) (E1 E2 : ℝ) (h1 : lo ≤ E1) (h12 : E1 < E2) (h2 : E2 ≤ hi) (hx : ∀ e, E1 < e → e < E2 → 0 < σ e) :
    ∃ (p : ℝ → ℝ) (a b : Vec → Vec), (∀ mu, -1 ≤ mu → mu ≤ 1 → d.pdf E mu = .ok (p mu)) ∧ (∀ u : Vec, u.dot u = 1 → Frame3 u (a u) (b u)) ∧
      Closed (fun fuel ω k => asPair ((Elastic.ofDist d A kT useTar tar (some (dbrcSample g s fuel fuel)) fuel).sample E ω k))
        ((((velocityLaw fun v => if lo ≤ relEnergy E v ∧ relEnergy E v ≤ hi then freeGas E kT A v * σ (relEnergy E v) else 0).prod
          ((volume.restrict (Icc (-1) 1)).withDensity fun m => ENNReal.ofReal (p m))).prod Spec.unif).map
          fun q => cosEnergy (scattered a b A E q.1.1 q.1.2 q.2)) := by
  obtain ⟨p, p1, _, p3⟩ := dist_faithful d hv (fun law h => sound_faithful (hl law h)) E
  have hcl := dbrc_law s σ hσ hg h0 hs e0 he0 hpos h32 nbins hn hn2 g hgrid E kT A lo hi hE hkT hA hlo hhi hcover E1 E2 h1 h12 h2 hx
  refine ⟨p, axisA, axisB, fun mu a b => (p1 mu a b).1, fun u hu => axes_frame ?_, ?_⟩
  · unfold IsUnit3
    unfold Vec.dot at hu
    linarith
  · refine (gas_closed (bf := fun fuel => dbrcSample g s fuel fuel) hA hE (fun hc => absurd (ht hc.1) (not_lt.mpr hc.2)) hcl ?_ p3)
    have mσ : Measurable σ := by
      have := measurable_eval s
      simp only [hσ, okVal] at this
      exact this
    have mrel : Measurable (relEnergy E) := by
      have hx := measurable_x
      have hy := measurable_y
      have hz := measurable_z
      unfold relEnergy
      fun_prop
    have mw : Measurable fun v : Vec => if lo ≤ relEnergy E v ∧ relEnergy E v ≤ hi then freeGas E kT A v * σ (relEnergy E v) else 0 := by
      refine Measurable.ite ?_ ((measurable_freeGas E kT A).mul (mσ.comp mrel)) measurable_const
      exact mrel measurableSet_Icc
    unfold velocityLaw
    refine Measure.ae_smul_measure ?_ _
    rw [ae_withDensity_iff mw.ennreal_ofReal]
    refine Filter.Eventually.of_forall fun v hv => ?_
    by_contra hc
    apply hv
    rw [if_neg (fun hw => hc (lt_of_lt_of_le hpos (hcover.trans hw.1))), ENNReal.ofReal_zero]

/-- The same with the Doppler broadening rejection correction: the target velocities are those of C120. -/
theorem C122_dbrc_partial (d : AngleDist) (hv : ValidDist d) (hl : ∀ law ∈ d.laws, SoundLaw law) (tar : ℝ) (useTar : Bool)
    (s : XS ℝ) (σ : ℝ → ℝ) (hσ : ∀ e, s.eval e = .ok (σ e)) (hg : GoodXS s) (h0 : s.index = 0) (hs : s.grid.Pairwise (· < ·))
    (e0 : ℝ) (he0 : s.grid[0]? = some e0) (hpos : 0 < e0) (h32 : s.grid.length < 2 ^ 32) (nbins : Nat) (hn : 1 ≤ nbins) (hn2 : nbins < 2 ^ 32 - 1)
    (g : EGrid) (hgrid : EGrid.make s.grid nbins = .ok g) (E kT A lo hi : ℝ) (hE : 0 ≤ E) (hkT : 0 < kT) (hA : 0 < A) (ht : useTar = true → E < tar * kT)
    (hlo : lo = max 0 (Real.sqrt (A * E / kT) - 4) ^ 2 * kT / A) (hhi : hi = (Real.sqrt (A * E / kT) + 4) ^ 2 * kT / A)
    (hcover : e0 ≤ lo) (E1 E2 : ℝ) (h1 : lo ≤ E1) (h12 : E1 < E2) (h2 : E2 ≤ hi) (hx : ∀ e, E1 < e → e < E2 → 0 < σ e) (k : Nat) :
    ∃ (p : ℝ → ℝ) (a b : Vec → Vec), (∀ mu, -1 ≤ mu → mu ≤ 1 → d.pdf E mu = .ok (p mu)) ∧ (∀ u : Vec, u.dot u = 1 → Frame3 u (a u) (b u)) ∧
      Samples (fun fuel ω => asPair ((Elastic.ofDist d A kT useTar tar (some (dbrcSample g s fuel fuel)) fuel).sample E ω k))
        ((((velocityLaw fun v => if lo ≤ relEnergy E v ∧ relEnergy E v ≤ hi then freeGas E kT A v * σ (relEnergy E v) else 0).prod
          ((volume.restrict (Icc (-1) 1)).withDensity fun m => ENNReal.ofReal (p m))).prod Spec.unif).map
          fun q => cosEnergy (scattered a b A E q.1.1 q.1.2 q.2)) := by
  obtain ⟨p, a, b, q1, q2, hc⟩ := dbrc_gas_closed d hv hl tar useTar s σ hσ hg h0 hs e0 he0 hpos h32 nbins hn hn2 g hgrid E kT A lo hi hE hkT hA ht hlo hhi hcover E1 E2 h1 h12 h2 hx
  exact ⟨p, a, b, q1, q2, hc.samples k⟩

/-- Non-vacuity: the default isotropic angular distribution, mass ratio 12, a neutron of energy 2 below the threshold 400 kT. -/
example : ∃ (p : ℝ → ℝ) (a b : Vec → Vec), (∀ mu, -1 ≤ mu → mu ≤ 1 → (AngleDist.mk [1, 200] [.isotropic, .isotropic]).pdf 2 mu = .ok (p mu)) ∧
    (∀ u : Vec, u.dot u = 1 → Frame3 u (a u) (b u)) ∧
    Samples (fun fuel ω => asPair ((Elastic.ofDist ⟨[1, 200], [.isotropic, .isotropic]⟩ 12 1 true 400 (some (svtSample fuel)) fuel).sample 2 ω 0))
      ((((velocityLaw (freeGas 2 1 12)).prod ((volume.restrict (Icc (-1) 1)).withDensity fun m => ENNReal.ofReal (p m))).prod Spec.unif).map
        fun q => cosEnergy (scattered a b 12 2 q.1.1 q.1.2 q.2)) :=
  C122_free_gas_partial _ ⟨by simp, by simp, by norm_num⟩ (fun law h => by
    have : law = .isotropic := by simpa using h
    rw [this]; trivial) 12 1 400 2 true (by norm_num) (by norm_num) (by norm_num) (fun _ => by norm_num) 0

end PNDL
