import Verif.Lemmas.GammaLaw
import Verif.Lemmas.WattLaw
import Verif.Lemmas.Compose
import Verif.Props.Density

/-! C103: the rejection-sampled spectra draw from the density they report. -/
namespace PNDL
open MeasureTheory Spec Set
open scoped ENNReal

/-! ### The acceptance loop -/

/-- The loop accepts, at the `m`-th attempt, what its `m`-th candidate is. -/
theorem rejLoop_event {cand : Nat → Res ℝ} {n : Nat} {du : ℝ} {k : Nat} (S : Set ℝ) :
    (∃ fuel e k', rejLoop cand n du fuel k = .ok (e, k') ∧ e ∈ S) ↔
      ∃ m, (∃ e, cand (k + m * n) = .ok e ∧ 0 ≤ e ∧ e ≤ du ∧ e ∈ S) ∧ ∀ j < m, ¬ Accepts du (cand (k + j * n)) := by
  constructor
  · rintro ⟨fuel, e, k', h, hS⟩
    obtain ⟨h0, h1, m, _, _, hc, hj⟩ := rejLoop_ok h
    exact ⟨m, ⟨e, hc, h0, h1, hS⟩, hj⟩
  · rintro ⟨m, ⟨e, hc, h0, h1, hS⟩, hj⟩
    obtain ⟨⟨e', k'⟩, hr⟩ := rejLoop_stops (m := m) (k := k) ⟨e, hc, h0, h1⟩ (m + 1) (by omega)
    obtain ⟨a0, a1, m', hm', _, hc', hj'⟩ := rejLoop_ok hr
    have : m' = m := by
      rcases lt_trichotomy m' m with h | h | h
      · exact absurd ⟨e', hc', a0, a1⟩ (hj m' h)
      · exact h
      · exact absurd ⟨e, hc, h0, h1⟩ (hj' m h)
    subst this
    rw [hc] at hc'
    cases hc'
    exact ⟨_, _, _, hr, hS⟩

/-- Rejection sampling: if the candidates have density `q` on `[0, du]`, the loop samples from `q` normalised. -/
theorem rejLoop_samples {cand : Tape → Nat → Res ℝ} {n : Nat} {du : ℝ} (k : Nat) {q p : ℝ → ℝ} {c : ℝ}
    (hshift : ∀ ω j, cand ω j = cand (dropT j ω) 0)
    (hwithin : ∀ ω ω' : Tape, (∀ i < n, ω i = ω' i) → cand ω 0 = cand ω' 0)
    (hmeas : ∀ S, MeasurableSet S → MeasurableSet {ω | ∃ e, cand ω 0 = .ok e ∧ e ∈ S})
    (hlaw : ∀ S, MeasurableSet S → S ⊆ Icc 0 du → Spec.iid {ω | ∃ e, cand ω 0 = .ok e ∧ e ∈ S} = ∫⁻ x in S, ENNReal.ofReal (q x))
    (hc : 0 < c) (hp : ∀ x ∈ Icc 0 du, p x = c * q x) (hone : ∫⁻ x in Icc 0 du, ENNReal.ofReal (p x) = 1) :
    SamplesDensity (fun fuel ω => rejLoop (cand ω) n du fuel k) 0 du p := by
  have hscale : ∀ S, MeasurableSet S → S ⊆ Icc 0 du → ∫⁻ x in S, ENNReal.ofReal (p x) = ENNReal.ofReal c * ∫⁻ x in S, ENNReal.ofReal (q x) := by
    intro S hS hsub
    rw [← lintegral_const_mul' _ _ ENNReal.ofReal_ne_top]
    refine setLIntegral_congr_fun hS fun x hx => ?_
    show ENNReal.ofReal (p x) = _
    rw [hp x (hsub hx), ENNReal.ofReal_mul hc.le]
  intro S hS
  obtain ⟨A, hA⟩ : ∃ A : Set Tape, A = {ω | ∃ e, cand ω 0 = .ok e ∧ e ∈ Icc 0 du} := ⟨_, rfl⟩
  obtain ⟨B, hB⟩ : ∃ B : Set Tape, B = {ω | ∃ e, cand ω 0 = .ok e ∧ e ∈ S ∩ Icc 0 du} := ⟨_, rfl⟩
  have mA : MeasurableSet A := hA ▸ hmeas _ measurableSet_Icc
  have mB : MeasurableSet B := hB ▸ hmeas _ (hS.inter measurableSet_Icc)
  have hBA : B ⊆ A := by
    rw [hA, hB]
    rintro ω ⟨e, h1, h2⟩
    exact ⟨e, h1, h2.2⟩
  have wA : Within n A := by
    rw [hA]
    rintro ω ω' h ⟨e, h1, h2⟩
    exact ⟨e, by rw [← hwithin ω ω' h]; exact h1, h2⟩
  have pA : Spec.iid A = (ENNReal.ofReal c)⁻¹ := by
    rw [hA, hlaw _ measurableSet_Icc subset_rfl]
    rw [hscale _ measurableSet_Icc subset_rfl] at hone
    exact ENNReal.eq_inv_of_mul_eq_one_left (by rw [mul_comm]; exact hone)
  have hc0 : ENNReal.ofReal c ≠ 0 := by simpa using hc
  have pA0 : Spec.iid A ≠ 0 := by rw [pA]; simp
  have heq : {ω : Tape | ∃ fuel x k', rejLoop (cand ω) n du fuel k = .ok (x, k') ∧ x ∈ S} =
      {ω | ∃ m, dropT (k + m * n) ω ∈ B ∧ ∀ j < m, dropT (k + j * n) ω ∉ A} := by
    ext ω
    simp only [mem_ofPred_eq]
    rw [rejLoop_event]
    refine exists_congr fun m => ?_
    rw [hB, hA]
    simp only [mem_ofPred_eq, ← hshift]
    refine and_congr (exists_congr fun e => ?_) (forall₂_congr fun j hj => not_congr ?_)
    · constructor
      · rintro ⟨a, b, c, d⟩; exact ⟨a, d, b, c⟩
      · rintro ⟨a, d, b, c⟩; exact ⟨a, b, c, d⟩
    · exact Iff.rfl
  show Spec.iid {ω : Tape | ∃ fuel x k', rejLoop (cand ω) n du fuel k = .ok (x, k') ∧ x ∈ S} = _
  rw [heq, iid_reject n k A B mA mB hBA wA pA0, pA, withDensity_apply _ hS, Measure.restrict_restrict hS,
    hscale _ (hS.inter measurableSet_Icc) inter_subset_right, ENNReal.div_eq_inv_mul, inv_inv, hB, hlaw _ (hS.inter measurableSet_Icc) inter_subset_right]

/-- What the loop leaves of the stream is independent of what it returns. -/
theorem rejLoop_closed {cand : Tape → Nat → Res ℝ} {n : Nat} {du : ℝ} {q p : ℝ → ℝ} {c : ℝ}
    (hshift : ∀ ω j, cand ω j = cand (dropT j ω) 0)
    (hwithin : ∀ ω ω' : Tape, (∀ i < n, ω i = ω' i) → cand ω 0 = cand ω' 0)
    (hmeas : ∀ S, MeasurableSet S → MeasurableSet {ω | ∃ e, cand ω 0 = .ok e ∧ e ∈ S})
    (hlaw : ∀ S, MeasurableSet S → S ⊆ Icc 0 du → Spec.iid {ω | ∃ e, cand ω 0 = .ok e ∧ e ∈ S} = ∫⁻ x in S, ENNReal.ofReal (q x))
    (hc : 0 < c) (hp : ∀ x ∈ Icc 0 du, p x = c * q x) (hone : ∫⁻ x in Icc 0 du, ENNReal.ofReal (p x) = 1) :
    Closed (fun fuel ω k => rejLoop (cand ω) n du fuel k) (densityOn 0 du p) := by
  classical
  obtain ⟨v, hv⟩ : ∃ v : Tape → ℝ, v = fun ω => match cand ω 0 with | .ok e => e | .error _ => 0 := ⟨_, rfl⟩
  have hvok : ∀ {ω e}, cand ω 0 = .ok e → v ω = e := fun h => by rw [hv]; simp only [h]
  have mv : Measurable v := by
    intro S hS
    have h1 := hmeas S hS
    have h2 := (hmeas univ .univ).compl
    have : v ⁻¹' S = {ω | ∃ e, cand ω 0 = .ok e ∧ e ∈ S} ∪ (if (0 : ℝ) ∈ S then {ω | ∃ e, cand ω 0 = .ok e ∧ e ∈ univ}ᶜ else ∅) := by
      ext ω
      rw [hv]
      cases h : cand ω 0 with
      | ok e => by_cases h0 : (0 : ℝ) ∈ S <;> simp [h, h0]
      | error e => by_cases h0 : (0 : ℝ) ∈ S <;> simp [h, h0]
    rw [this]
    refine h1.union ?_
    split
    · exact h2
    · exact .empty
  have wcand : ∀ ω ω' : Tape, (∀ i < n, ω i = ω' i) → v ω = v ω' := fun ω ω' h => by rw [hv]; simp only [hwithin ω ω' h]
  obtain ⟨A, hA⟩ : ∃ A : Set Tape, A = {ω | ∃ e, cand ω 0 = .ok e ∧ e ∈ Icc 0 du} := ⟨_, rfl⟩
  have pA0 : Spec.iid A ≠ 0 := by
    rw [hA, hlaw _ measurableSet_Icc subset_rfl]
    intro h0
    have : ∫⁻ x in Icc 0 du, ENNReal.ofReal (p x) = ENNReal.ofReal c * ∫⁻ x in Icc 0 du, ENNReal.ofReal (q x) := by
      rw [← lintegral_const_mul' _ _ ENNReal.ofReal_ne_top]
      refine setLIntegral_congr_fun measurableSet_Icc fun x hx => ?_
      show ENNReal.ofReal (p x) = _
      rw [hp x hx, ENNReal.ofReal_mul hc.le]
    rw [hone, h0, mul_zero] at this
    exact one_ne_zero this
  refine (closed_reject (run := fun fuel ω k => rejLoop (cand ω) n du fuel k) (n := n) (A := A) (v := v) (hA ▸ hmeas _ measurableSet_Icc) ?_ mv wcand pA0
    ⟨.diverge, fun ω k => rfl⟩ ?_ ?_).congr (k := 0) (rejLoop_samples 0 hshift hwithin hmeas hlaw hc hp hone)
  · rw [hA]
    rintro ω ω' h ⟨e, h1, h2⟩
    exact ⟨e, by rw [← hwithin ω ω' h]; exact h1, h2⟩
  · intro fuel ω k h
    rw [hA] at h
    obtain ⟨e, h1, h2⟩ := h
    rw [hvok h1]
    rw [← hshift] at h1
    simp only [rejLoop, h1]
    rw [if_pos ⟨h2.1, h2.2⟩]
  · intro fuel ω k h
    rw [hA] at h
    show rejLoop (cand ω) n du (fuel + 1) k = rejLoop (cand ω) n du fuel (k + n)
    cases hc : cand ω k with
    | error e => simp only [rejLoop, hc]
    | ok e =>
      simp only [rejLoop, hc]
      rw [if_neg fun h2 : e ≥ 0 ∧ e ≤ du => h ⟨e, by rw [← hshift]; exact hc, h2.1, h2.2⟩]

/-! ### Evaporation -/

/-- `-log(1 - gξ)` is an exponential number conditioned to be below `w`. -/
theorem unif_trunc {w : ℝ} (hw : 0 < w) (f : ℝ → ℝ≥0∞) :
    ∫⁻ x, f (-Real.log (1 - (1 - Real.exp (-w)) * x)) ∂Spec.unif =
      ENNReal.ofReal (1 / (1 - Real.exp (-w))) * ∫⁻ s in Ioo 0 w, ENNReal.ofReal (Real.exp (-s)) * f s := by
  have hg : 0 < 1 - Real.exp (-w) := by
    have : Real.exp (-w) < 1 := by rw [Real.exp_lt_one_iff]; linarith
    linarith
  obtain ⟨g, hgd⟩ : ∃ g, g = 1 - Real.exp (-w) := ⟨_, rfl⟩
  rw [← hgd] at hg ⊢
  have himg : (fun s => (1 - Real.exp (-s)) / g) '' Ioo 0 w = Ioo 0 1 := by
    ext x
    constructor
    · rintro ⟨s, ⟨h0, h1⟩, rfl⟩
      have e1 : Real.exp (-s) < 1 := by rw [Real.exp_lt_one_iff]; linarith
      have e2 : Real.exp (-w) < Real.exp (-s) := Real.exp_lt_exp.mpr (by linarith)
      exact ⟨div_pos (by linarith) hg, (div_lt_one hg).mpr (by linarith)⟩
    · rintro ⟨h0, h1⟩
      have hx : Real.exp (-w) < 1 - g * x := by nlinarith
      have hx0 : 0 < 1 - g * x := (Real.exp_pos _).trans hx
      have hx1 : 1 - g * x < 1 := by nlinarith
      refine ⟨-Real.log (1 - g * x), ⟨by simpa using Real.log_neg hx0 hx1, ?_⟩, ?_⟩
      · have := Real.log_lt_log (Real.exp_pos _) hx
        rw [Real.log_exp] at this
        linarith
      · simp only [neg_neg, Real.exp_log hx0]
        field_simp
        ring
  have hd : ∀ s ∈ Ioo 0 w, HasDerivWithinAt (fun s => (1 - Real.exp (-s)) / g) (Real.exp (-s) / g) (Ioo 0 w) s := by
    intro s _
    have := ((((hasDerivAt_id s).neg.exp).const_sub 1).div_const g).hasDerivWithinAt (s := Ioo 0 w)
    simpa using this
  have hinj : InjOn (fun s : ℝ => (1 - Real.exp (-s)) / g) (Ioo 0 w) := fun a _ b _ h => by
    have h' : (1 - Real.exp (-a)) / g = (1 - Real.exp (-b)) / g := h
    rw [div_left_inj' hg.ne'] at h'
    have : Real.exp (-a) = Real.exp (-b) := by linarith
    simpa using this
  rw [unif_eq_Ioo, ← himg, lintegral_image_eq_lintegral_abs_deriv_mul measurableSet_Ioo hd hinj, ← lintegral_const_mul' _ _ ENNReal.ofReal_ne_top]
  refine setLIntegral_congr_fun measurableSet_Ioo fun s hs => ?_
  have : -Real.log (1 - g * ((1 - Real.exp (-s)) / g)) = s := by
    rw [mul_div_cancel₀ _ hg.ne', sub_sub_cancel, Real.log_exp, neg_neg]
  simp only [this]
  rw [ofReal_assoc (by positivity), abs_of_pos (by positivity)]
  congr 2
  ring

/-- An integral over the positive numbers of a function that counts a set of them. -/
theorem lintegral_count {S : Set ℝ} (hS : MeasurableSet S) (h0 : ∀ x ∈ S, 0 ≤ x) (f : ℝ → ℝ) :
    ∫⁻ e in Ioi (0 : ℝ), ENNReal.ofReal (f e) * S.indicator 1 e = ∫⁻ e in S, ENNReal.ofReal (f e) := by
  have : ∀ e, ENNReal.ofReal (f e) * S.indicator 1 e = S.indicator (fun e => ENNReal.ofReal (f e)) e := by
    intro e
    by_cases h : e ∈ S
    · rw [indicator_of_mem h, indicator_of_mem h]; simp
    · rw [indicator_of_notMem h, indicator_of_notMem h]; simp
  simp only [this]
  rw [Measure.restrict_congr_set Ioi_ae_eq_Ici, lintegral_indicator hS, Measure.restrict_restrict hS]
  congr 2
  exact inter_eq_left.mpr h0

theorem ae_unif {P : ℝ → Prop} (h : ∀ x, 0 < x → x < 1 → P x) : ∀ᵐ x ∂Spec.unif, P x := by
  rw [unif_eq_Ioo]
  exact (ae_restrict_iff' measurableSet_Ioo).mpr (Filter.Eventually.of_forall fun x hx => h x hx.1 hx.2)

theorem evapCand_iff {T du : ℝ} (hT : 0 < T) (ω : Tape) (k : Nat) (e : ℝ) : evapCand T du ω k = .ok e ↔
    0 < (1 - (1 - Real.exp (-(du / T))) * ω k) * (1 - (1 - Real.exp (-(du / T))) * ω (k + 1)) ∧
      e = -T * Real.log ((1 - (1 - Real.exp (-(du / T))) * ω k) * (1 - (1 - Real.exp (-(du / T))) * ω (k + 1))) := by
  unfold evapCand
  simp only [evapG_ok hT.ne', bind, Except.bind, pure, Except.pure]
  by_cases h : 0 < (1 - (1 - Real.exp (-(du / T))) * ω k) * (1 - (1 - Real.exp (-(du / T))) * ω (k + 1))
  · rw [clog_ok h]
    simp only [Except.ok.injEq]
    exact ⟨fun he => ⟨h, he.symm⟩, fun he => he.2.symm⟩
  · rw [clog_bad h]
    simp only
    exact ⟨fun he => (by cases he), fun he => absurd he.1 h⟩

/-- The candidates of `Evaporation::sample_energy` have a density proportional to `e exp(-e/T)` below the restriction. -/
theorem evap_law {T du : ℝ} (hT : 0 < T) (hdu : 0 < du) (S : Set ℝ) (hS : MeasurableSet S) (hsub : S ⊆ Icc 0 du) :
    Spec.iid {ω | ∃ e, evapCand T du ω 0 = .ok e ∧ e ∈ S} =
      ∫⁻ x in S, ENNReal.ofReal ((1 / (1 - Real.exp (-(du / T)))) ^ 2 * (x / T * Real.exp (-x / T) / T)) := by
  obtain ⟨w, hw⟩ : ∃ w, w = du / T := ⟨_, rfl⟩
  have hw0 : 0 < w := hw ▸ div_pos hdu hT
  obtain ⟨g, hg⟩ : ∃ g, g = 1 - Real.exp (-w) := ⟨_, rfl⟩
  have hg0 : 0 < g := by
    have : Real.exp (-w) < 1 := by rw [Real.exp_lt_one_iff]; linarith
    rw [hg]; linarith
  have hg1 : g < 1 := by rw [hg]; linarith [Real.exp_pos (-w)]
  let D : Set (ℝ × ℝ) := {p | 0 < (1 - g * p.1) * (1 - g * p.2) ∧ -T * Real.log ((1 - g * p.1) * (1 - g * p.2)) ∈ S}
  have hD : MeasurableSet D := by
    have m1 : Measurable fun p : ℝ × ℝ => (1 - g * p.1) * (1 - g * p.2) := by fun_prop
    exact (measurableSet_lt measurable_const m1).inter (((Real.measurable_log.comp m1).const_mul (-T)) hS)
  have hset : {ω : Tape | ∃ e, evapCand T du ω 0 = .ok e ∧ e ∈ S} = (fun ω : Tape => (ω 0, ω 1)) ⁻¹' D := by
    ext ω
    simp only [mem_ofPred_eq, mem_preimage, D, evapCand_iff hT, ← hw, ← hg, Nat.zero_add]
    constructor
    · rintro ⟨e, ⟨h1, rfl⟩, h2⟩; exact ⟨h1, h2⟩
    · rintro ⟨h1, h2⟩; exact ⟨_, ⟨h1, rfl⟩, h2⟩
  have hmd : Measurable fun ω : Tape => (ω 0, ω 1) := (measurable_pi_apply 0).prodMk (measurable_pi_apply 1)
  have e1 : Spec.iid ((fun ω : Tape => (ω 0, ω 1)) ⁻¹' D) = ∫⁻ x, ∫⁻ y, D.indicator 1 (x, y) ∂Spec.unif ∂Spec.unif := by
    rw [← lintegral_indicator_one (hmd hD), ← draw2 (measurable_one.indicator hD)]
    rfl
  have e2 : ∀ᵐ x ∂Spec.unif, ∫⁻ y, D.indicator 1 (x, y) ∂Spec.unif =
      ∫⁻ y, S.indicator (1 : ℝ → ℝ≥0∞) (T * (-Real.log (1 - g * x) + -Real.log (1 - g * y))) ∂Spec.unif := by
    refine ae_unif fun x hx0 hx1 => lintegral_congr_ae (ae_unif fun y hy0 hy1 => ?_)
    have hx : 0 < 1 - g * x := by nlinarith
    have hy : 0 < 1 - g * y := by nlinarith
    have hv : T * (-Real.log (1 - g * x) + -Real.log (1 - g * y)) = -T * Real.log ((1 - g * x) * (1 - g * y)) := by
      rw [Real.log_mul hx.ne' hy.ne']; ring
    show D.indicator 1 (x, y) = S.indicator (1 : ℝ → ℝ≥0∞) (T * (-Real.log (1 - g * x) + -Real.log (1 - g * y)))
    rw [hv]
    by_cases h : -T * Real.log ((1 - g * x) * (1 - g * y)) ∈ S
    · rw [indicator_of_mem h, indicator_of_mem (show (x, y) ∈ D from ⟨mul_pos hx hy, h⟩)]; rfl
    · rw [indicator_of_notMem h, indicator_of_notMem (show (x, y) ∉ D from fun hd => h hd.2)]
  let h : ℝ → ℝ≥0∞ := fun u => S.indicator 1 (T * u)
  have hh : Measurable h := (measurable_one.indicator hS).comp (by fun_prop : Measurable fun u : ℝ => T * u)
  have hz : ∀ u, w < u → h u = 0 := fun u hu => by
    refine indicator_of_notMem (fun hm => ?_) _
    have := (hsub hm).2
    rw [hw, div_lt_iff₀ hT] at hu
    linarith
  -- the restriction to `(0, w)` can be dropped where `h` is zero
  have drop : ∀ s, 0 ≤ s → ∫⁻ t in Ioo 0 w, ENNReal.ofReal (Real.exp (-t)) * h (s + t) = ∫⁻ t in Ioi (0 : ℝ), ENNReal.ofReal (Real.exp (-t)) * h (s + t) := by
    intro s hs
    rw [Measure.restrict_congr_set Ioo_ae_eq_Ioc, ← lintegral_indicator measurableSet_Ioc, ← lintegral_indicator measurableSet_Ioi]
    refine lintegral_congr fun t => ?_
    by_cases ht : 0 < t
    · rw [indicator_of_mem (show t ∈ Ioi (0 : ℝ) from ht)]
      by_cases htw : t ≤ w
      · rw [indicator_of_mem (show t ∈ Ioc 0 w from ⟨ht, htw⟩)]
      · rw [indicator_of_notMem (show t ∉ Ioc 0 w from fun h => htw h.2), hz _ (by linarith), mul_zero]
    · rw [indicator_of_notMem (show t ∉ Ioi (0 : ℝ) from ht), indicator_of_notMem (show t ∉ Ioc 0 w from fun h => ht h.1)]
  rw [hset, e1, lintegral_congr_ae e2]
  have e3 : ∀ x, ∫⁻ y, S.indicator (1 : ℝ → ℝ≥0∞) (T * (-Real.log (1 - g * x) + -Real.log (1 - g * y))) ∂Spec.unif =
      ENNReal.ofReal (1 / g) * ∫⁻ t in Ioo 0 w, ENNReal.ofReal (Real.exp (-t)) * h (-Real.log (1 - g * x) + t) := by
    intro x
    rw [hg]
    exact unif_trunc hw0 fun t => h (-Real.log (1 - (1 - Real.exp (-w)) * x) + t)
  simp only [e3]
  rw [lintegral_const_mul' _ _ ENNReal.ofReal_ne_top]
  have e4 := unif_trunc hw0 fun s => ∫⁻ t in Ioo 0 w, ENNReal.ofReal (Real.exp (-t)) * h (s + t)
  rw [← hg] at e4
  rw [e4]
  have e5 : ∫⁻ s in Ioo 0 w, ENNReal.ofReal (Real.exp (-s)) * ∫⁻ t in Ioo 0 w, ENNReal.ofReal (Real.exp (-t)) * h (s + t) = gInt 2 h := by
    have := gInt_add one_pos hh
    rw [show (1 : ℝ) + 1 = 2 by norm_num, div_one, ENNReal.ofReal_one, one_mul] at this
    rw [← this]
    unfold gInt
    simp only [sub_self, Real.rpow_zero, one_mul]
    rw [Measure.restrict_congr_set Ioo_ae_eq_Ioc, ← lintegral_indicator measurableSet_Ioc, ← lintegral_indicator measurableSet_Ioi]
    refine lintegral_congr fun s => ?_
    by_cases hs : 0 < s
    · rw [indicator_of_mem (show s ∈ Ioi (0 : ℝ) from hs)]
      by_cases hsw : s ≤ w
      · rw [indicator_of_mem (show s ∈ Ioc 0 w from ⟨hs, hsw⟩), ← Measure.restrict_congr_set (Ioo_ae_eq_Ioc (a := (0 : ℝ)) (b := w) (μ := volume)), drop s hs.le]
      · rw [indicator_of_notMem (show s ∉ Ioc 0 w from fun h => hsw h.2)]
        have : ∫⁻ t in Ioi (0 : ℝ), ENNReal.ofReal (Real.exp (-t)) * h (s + t) = 0 := by
          rw [setLIntegral_congr_fun measurableSet_Ioi (g := fun _ => 0)]
          · simp
          · intro t ht
            have ht' : (0 : ℝ) < t := ht
            show _ * h (s + t) = 0
            rw [hz _ (by linarith), mul_zero]
        rw [this, mul_zero]
    · rw [indicator_of_notMem (show s ∉ Ioi (0 : ℝ) from hs), indicator_of_notMem (show s ∉ Ioc 0 w from fun h => hs h.1)]
  rw [e5, gInt_scale hT, lintegral_count hS (fun x hx => (hsub hx).1), ← mul_assoc, ← ENNReal.ofReal_mul (by positivity), ← lintegral_const_mul' _ _ ENNReal.ofReal_ne_top]
  refine setLIntegral_congr_fun hS fun x _ => ?_
  show ENNReal.ofReal _ * ENNReal.ofReal _ = ENNReal.ofReal _
  rw [← ENNReal.ofReal_mul (by positivity), ← hw, ← hg, show (2 : ℝ) - 1 = 1 by norm_num, Real.rpow_one]
  congr 1
  ring

/-- A density whose integral over `[a, b]` is one. -/
theorem lintegral_of_integral {p : ℝ → ℝ} {a b : ℝ} (hab : a ≤ b) (hi : IntervalIntegrable p volume a b) (h0 : ∀ x ∈ Icc a b, 0 ≤ p x) :
    ∫⁻ x in Icc a b, ENNReal.ofReal (p x) = ENNReal.ofReal (∫ x in a..b, p x) := by
  rw [intervalIntegral.integral_of_le hab, ← integral_Icc_eq_integral_Ioc, ofReal_integral_eq_lintegral_ofReal]
  · exact (intervalIntegrable_iff_integrableOn_Icc_of_le hab).mp hi
  · exact (ae_restrict_iff' measurableSet_Icc).mpr (Filter.Eventually.of_forall h0)

theorem evap_closed (temp : Tab1D) (U E T : ℝ) (hT : temp.eval E = .ok T) (hpos : 0 < T) (hdu : U < E) :
    ∃ p : ℝ → ℝ, (∀ x, 0 ≤ x → x ≤ E - U → evapPdf temp U E x = .ok (p x) ∧ 0 ≤ p x) ∧ Measurable p ∧
      Closed (fun fuel ω k => evapSample temp U fuel E ω k) (densityOn 0 (E - U) p) := by
  have hdu' : 0 < E - U := by linarith
  have hq : 0 < (E - U) / T := div_pos hdu' hpos
  obtain ⟨I, hI⟩ : ∃ I, I = T * T * (1 - Real.exp (-((E - U) / T)) * (1 + (E - U) / T)) := ⟨_, rfl⟩
  have hI0 : 0 < I := by
    have h1 : (E - U) / T + 1 < Real.exp ((E - U) / T) := Real.add_one_lt_exp hq.ne'
    have h2 : Real.exp (-((E - U) / T)) * Real.exp ((E - U) / T) = 1 := by rw [← Real.exp_add]; simp
    have h3 := Real.exp_pos (-((E - U) / T))
    rw [hI]
    have : Real.exp (-((E - U) / T)) * (1 + (E - U) / T) < 1 := by rw [← h2]; exact mul_lt_mul_of_pos_left (by linarith) h3
    have : 0 < 1 - Real.exp (-((E - U) / T)) * (1 + (E - U) / T) := by linarith
    positivity
  have hg0 : 0 < 1 - Real.exp (-((E - U) / T)) := by
    have : Real.exp (-((E - U) / T)) < 1 := by rw [Real.exp_lt_one_iff]; linarith
    linarith
  refine ⟨fun x => x / I * Real.exp (-x / T), ?_, by fun_prop, ?_⟩
  · intro x h0 h1
    refine ⟨?_, mul_nonneg (div_nonneg h0 hI0.le) (Real.exp_pos _).le⟩
    unfold evapPdf
    rw [if_neg (by rw [not_or, not_lt, not_lt]; exact ⟨h0, h1⟩)]
    simp only [hT, bind, Except.bind, rdiv_ok hpos.ne', ← hI, rdiv_ok hI0.ne']
    rfl
  · have hrun : (fun fuel (ω : Tape) k => evapSample temp U fuel E ω k) = fun fuel ω k => rejLoop (evapCand T (E - U) ω) 2 (E - U) fuel k := by
      funext fuel ω k
      unfold evapSample
      rw [hT]
      rfl
    rw [hrun]
    refine rejLoop_closed (c := T * T * (1 - Real.exp (-((E - U) / T))) ^ 2 / I)
      (q := fun x => (1 / (1 - Real.exp (-((E - U) / T)))) ^ 2 * (x / T * Real.exp (-x / T) / T)) (fun ω j => rfl) ?_ ?_ ?_ ?_ ?_ ?_
    · intro ω ω' h
      unfold evapCand
      rw [h 0 (by omega), h (0 + 1) (by omega)]
    · intro S hS
      have m1 : Measurable fun ω : Tape => (1 - (1 - Real.exp (-((E - U) / T))) * ω 0) * (1 - (1 - Real.exp (-((E - U) / T))) * ω (0 + 1)) :=
        (((measurable_pi_apply 0).const_mul _).const_sub 1).mul (((measurable_pi_apply (0 + 1)).const_mul _).const_sub 1)
      have := (measurableSet_lt (measurable_const (a := (0 : ℝ))) m1).inter (((Real.measurable_log.comp m1).const_mul (-T)) hS)
      convert this using 1
      ext ω
      simp only [mem_ofPred_eq, evapCand_iff hpos]
      constructor
      · rintro ⟨e, ⟨h1, rfl⟩, h2⟩; exact ⟨h1, h2⟩
      · rintro ⟨h1, h2⟩; exact ⟨_, ⟨h1, rfl⟩, h2⟩
    · exact fun S hS hsub => evap_law hpos hdu' S hS hsub
    · positivity
    · intro x _
      field_simp
    · rw [lintegral_of_integral hdu'.le (by apply Continuous.intervalIntegrable; fun_prop)
        (fun x hx => mul_nonneg (div_nonneg hx.1 hI0.le) (Real.exp_pos _).le)]
      have : ∀ x : ℝ, x / I * Real.exp (-x / T) = I⁻¹ * (x * Real.exp (-x / T)) := fun x => by ring
      simp only [this, intervalIntegral.integral_const_mul, evap_integral T _ hpos, ← hI, inv_mul_cancel₀ hI0.ne', ENNReal.ofReal_one]

/-- **C103** `Evaporation::sample_energy`: with independent uniform random numbers, the returned energies have the density that
`Evaporation::pdf` reports; the sampling ends with probability one. -/
theorem C103_evaporation (temp : Tab1D) (U E T : ℝ) (hT : temp.eval E = .ok T) (hpos : 0 < T) (hdu : U < E) (k : Nat) :
    SamplesReported (fun fuel ω => evapSample temp U fuel E ω k) 0 (E - U) (evapPdf temp U E) := by
  obtain ⟨p, h1, _, h3⟩ := evap_closed temp U E T hT hpos hdu
  exact ⟨p, fun x a b => (h1 x a b).1, h3.samples k⟩

/-! ### Maxwellian -/

/-- `-(log ξ₁ + log ξ₂ cos²(π ξ₃/2))` has the gamma law of parameter three halves. -/
theorem unif_maxwell {F : ℝ → ℝ≥0∞} (hF : Measurable F) :
    ∫⁻ x, ∫⁻ y, ∫⁻ z, F (-Real.log x + -Real.log y * Real.cos (Real.pi * z / 2) ^ 2) ∂Spec.unif ∂Spec.unif ∂Spec.unif =
      ENNReal.ofReal (2 / Real.sqrt Real.pi) * gInt (3 / 2) F := by
  have hsp : 0 < Real.sqrt Real.pi := Real.sqrt_pos.mpr Real.pi_pos
  have e1 : ∀ s : ℝ, ∫⁻ y, ∫⁻ z, F (s + -Real.log y * Real.cos (Real.pi * z / 2) ^ 2) ∂Spec.unif ∂Spec.unif =
      ENNReal.ofReal (1 / Real.sqrt Real.pi) * gInt (1 / 2) (fun t => F (s + t)) := by
    intro s
    rw [unif_log (fun r => ∫⁻ z, F (s + r * Real.cos (Real.pi * z / 2) ^ 2) ∂Spec.unif)]
    exact gInt_half (f := fun t => F (s + t)) (hF.comp (measurable_const_add s))
  simp only [e1]
  rw [lintegral_const_mul' _ _ ENNReal.ofReal_ne_top, unif_log (fun s => gInt (1 / 2) fun t => F (s + t)), gInt_add (by norm_num) hF,
    ofReal_assoc (by positivity)]
  rw [show (1 : ℝ) / √Real.pi * (1 / (1 / 2)) = 2 / √Real.pi by ring, show (1 : ℝ) / 2 + 1 = 3 / 2 by norm_num]

theorem maxwellCand_iff (T : ℝ) (ω : Tape) (k : Nat) (e : ℝ) : maxwellCand T ω k = .ok e ↔
    (0 < ω k ∧ 0 < ω (k + 1)) ∧ e = -T * (Real.log (ω k) + Real.log (ω (k + 1)) * Real.cos (Real.pi * ω (k + 2) / 2) * Real.cos (Real.pi * ω (k + 2) / 2)) := by
  unfold maxwellCand
  by_cases h : 0 < ω k
  · by_cases h2 : 0 < ω (k + 1)
    · simp only [clog_ok h, clog_ok h2, bind, Except.bind, pure, Except.pure, Except.ok.injEq]
      exact ⟨fun he => ⟨⟨h, h2⟩, he.symm⟩, fun he => he.2.symm⟩
    · simp only [clog_ok h, clog_bad h2, bind, Except.bind]
      exact ⟨fun he => (by cases he), fun he => absurd he.1.2 h2⟩
  · simp only [clog_bad h, bind, Except.bind]
    exact ⟨fun he => (by cases he), fun he => absurd he.1.1 h⟩

/-- The tapes whose first draws give a candidate in `S`, as a set of triples. -/
def maxwellSet (T : ℝ) (S : Set ℝ) : Set (ℝ × ℝ × ℝ) :=
  {p | (0 < p.1 ∧ 0 < p.2.1) ∧ -T * (Real.log p.1 + Real.log p.2.1 * Real.cos (Real.pi * p.2.2 / 2) * Real.cos (Real.pi * p.2.2 / 2)) ∈ S}

theorem maxwellSet_meas (T : ℝ) {S : Set ℝ} (hS : MeasurableSet S) : MeasurableSet (maxwellSet T S) := by
  have m : Measurable fun p : ℝ × ℝ × ℝ => -T * (Real.log p.1 + Real.log p.2.1 * Real.cos (Real.pi * p.2.2 / 2) * Real.cos (Real.pi * p.2.2 / 2)) := by
    have := Real.measurable_log
    have := Real.measurable_cos
    fun_prop
  exact ((measurableSet_lt (measurable_const (a := (0 : ℝ))) measurable_fst).inter
    (measurableSet_lt (measurable_const (a := (0 : ℝ))) (measurable_fst.comp measurable_snd))).inter (m hS)

theorem maxwell_event (T : ℝ) (S : Set ℝ) : {ω : Tape | ∃ e, maxwellCand T ω 0 = .ok e ∧ e ∈ S} = (fun ω : Tape => (ω 0, ω 1, ω 2)) ⁻¹' maxwellSet T S := by
  ext ω
  simp only [mem_ofPred_eq, mem_preimage, maxwellSet, maxwellCand_iff, Nat.zero_add]
  constructor
  · rintro ⟨e, ⟨h1, rfl⟩, h2⟩; exact ⟨h1, h2⟩
  · rintro ⟨h1, h2⟩; exact ⟨_, ⟨h1, rfl⟩, h2⟩

theorem measurable_draw3 : Measurable fun ω : Tape => (ω 0, ω 1, ω 2) :=
  (measurable_pi_apply 0).prodMk ((measurable_pi_apply 1).prodMk (measurable_pi_apply 2))

/-- The candidates of `Maxwellian::sample_energy` have a density proportional to `√e exp(-e/T)`. -/
theorem maxwell_law {T : ℝ} (hT : 0 < T) (S : Set ℝ) (hS : MeasurableSet S) (h0 : ∀ x ∈ S, 0 ≤ x) :
    Spec.iid {ω | ∃ e, maxwellCand T ω 0 = .ok e ∧ e ∈ S} =
      ∫⁻ x in S, ENNReal.ofReal (2 / Real.sqrt Real.pi * (Real.sqrt (x / T) * Real.exp (-x / T) / T)) := by
  have hm := maxwellSet_meas T hS
  have hsp : 0 < Real.sqrt Real.pi := Real.sqrt_pos.mpr Real.pi_pos
  have e1 : Spec.iid ((fun ω : Tape => (ω 0, ω 1, ω 2)) ⁻¹' maxwellSet T S) =
      ∫⁻ x, ∫⁻ y, ∫⁻ z, (maxwellSet T S).indicator 1 (x, y, z) ∂Spec.unif ∂Spec.unif ∂Spec.unif := by
    rw [← lintegral_indicator_one (measurable_draw3 hm), ← draw3 (measurable_one.indicator hm)]
    rfl
  have e2 : ∀ᵐ x ∂Spec.unif, ∫⁻ y, ∫⁻ z, (maxwellSet T S).indicator 1 (x, y, z) ∂Spec.unif ∂Spec.unif =
      ∫⁻ y, ∫⁻ z, S.indicator (1 : ℝ → ℝ≥0∞) (T * (-Real.log x + -Real.log y * Real.cos (Real.pi * z / 2) ^ 2)) ∂Spec.unif ∂Spec.unif := by
    refine ae_unif fun x hx0 _ => lintegral_congr_ae (ae_unif fun y hy0 _ => lintegral_congr fun z => ?_)
    have hv : T * (-Real.log x + -Real.log y * Real.cos (Real.pi * z / 2) ^ 2) =
      -T * (Real.log x + Real.log y * Real.cos (Real.pi * z / 2) * Real.cos (Real.pi * z / 2)) := by ring
    rw [hv]
    by_cases h : -T * (Real.log x + Real.log y * Real.cos (Real.pi * z / 2) * Real.cos (Real.pi * z / 2)) ∈ S
    · rw [indicator_of_mem h, indicator_of_mem (show (x, y, z) ∈ maxwellSet T S from ⟨⟨hx0, hy0⟩, h⟩)]; rfl
    · rw [indicator_of_notMem h, indicator_of_notMem (show (x, y, z) ∉ maxwellSet T S from fun hd => h hd.2)]
  rw [maxwell_event, e1, lintegral_congr_ae e2,
    unif_maxwell (F := fun u => S.indicator 1 (T * u)) ((measurable_one.indicator hS).comp (measurable_const_mul T)),
    gInt_scale hT, lintegral_count hS h0, ← lintegral_const_mul' _ _ ENNReal.ofReal_ne_top]
  refine setLIntegral_congr_fun hS fun x hx => ?_
  show ENNReal.ofReal _ * ENNReal.ofReal _ = ENNReal.ofReal _
  rw [← ENNReal.ofReal_mul (by positivity), show (3 : ℝ) / 2 - 1 = 1 / 2 by norm_num, ← Real.sqrt_eq_rpow]

/-- The right normalisation of the Maxwellian spectrum below `du`. -/
noncomputable def Spec.maxwellMass (T du : ℝ) : ℝ := ∫ e in (0 : ℝ)..du, Real.sqrt e * Real.exp (-e / T)

theorem maxwellMass_pos {T du : ℝ} (hdu : 0 < du) : 0 < maxwellMass T du := by
  refine intervalIntegral.intervalIntegral_pos_of_pos_on (by apply Continuous.intervalIntegrable; fun_prop) (fun x hx => ?_) hdu
  have := Real.sqrt_pos.mpr hx.1
  positivity

theorem maxwell_closed (temp : Tab1D) (U E T : ℝ) (hT : temp.eval E = .ok T) (hpos : 0 < T) (hdu : U < E) :
    Closed (fun fuel ω k => maxwellSample temp U fuel E ω k) (densityOn 0 (E - U)
      (fun e => Real.sqrt e * Real.exp (-e / T) / maxwellMass T (E - U))) := by
  have hdu' : 0 < E - U := by linarith
  have hM := maxwellMass_pos (T := T) hdu'
  have hsp : 0 < Real.sqrt Real.pi := Real.sqrt_pos.mpr Real.pi_pos
  have hsT : 0 < Real.sqrt T := Real.sqrt_pos.mpr hpos
  have hrun : (fun fuel (ω : Tape) k => maxwellSample temp U fuel E ω k) = fun fuel ω k => rejLoop (maxwellCand T ω) 3 (E - U) fuel k := by
    funext fuel ω k
    unfold maxwellSample
    rw [hT]
    rfl
  rw [hrun]
  refine rejLoop_closed (c := Real.sqrt Real.pi / 2 * (Real.sqrt T * T) / maxwellMass T (E - U))
    (q := fun x => 2 / Real.sqrt Real.pi * (Real.sqrt (x / T) * Real.exp (-x / T) / T)) (fun ω j => rfl) ?_ ?_ ?_ ?_ ?_ ?_
  · intro ω ω' h
    unfold maxwellCand
    rw [h 0 (by omega), h (0 + 1) (by omega), h (0 + 2) (by omega)]
  · intro S hS
    rw [maxwell_event]
    exact measurable_draw3 (maxwellSet_meas T hS)
  · exact fun S hS hsub => maxwell_law hpos S hS fun x hx => (hsub hx).1
  · positivity
  · intro x hx
    simp only [Real.sqrt_div hx.1]
    field_simp
  · rw [lintegral_of_integral hdu'.le (by apply Continuous.intervalIntegrable; fun_prop)
      (fun x hx => div_nonneg (mul_nonneg (Real.sqrt_nonneg _) (Real.exp_pos _).le) hM.le)]
    rw [intervalIntegral.integral_div]
    unfold maxwellMass at hM ⊢
    rw [div_self hM.ne', ENNReal.ofReal_one]

/-- **C103** `Maxwellian::sample_energy` draws from the Maxwellian spectrum `√e exp(-e/T)` cut at `E - U` and normalised.
(`Maxwellian::pdf` reports another normalisation: C69, and `C103_violation_maxwell`.) -/
theorem C103_maxwell_partial (temp : Tab1D) (U E T : ℝ) (hT : temp.eval E = .ok T) (hpos : 0 < T) (hdu : U < E) (k : Nat) :
    SamplesDensity (fun fuel ω => maxwellSample temp U fuel E ω k) 0 (E - U)
      (fun e => Real.sqrt e * Real.exp (-e / T) / maxwellMass T (E - U)) :=
  (maxwell_closed temp U E T hT hpos hdu).samples k

/-- Two densities a method samples from have the same total. -/
theorem Spec.SamplesDensity.total {β : Type} {run : Nat → Tape → Res (ℝ × β)} {a b : ℝ} {p q : ℝ → ℝ} (hp : SamplesDensity run a b p)
    (hq : SamplesDensity run a b q) : ∫⁻ x in Icc a b, ENNReal.ofReal (p x) = ∫⁻ x in Icc a b, ENNReal.ofReal (q x) := by
  have h := (hp univ .univ).symm.trans (hq univ .univ)
  rwa [withDensity_apply _ .univ, withDensity_apply _ .univ, Measure.restrict_univ] at h

theorem Spec.SamplesDensity.congr {β : Type} {run : Nat → Tape → Res (ℝ × β)} {a b : ℝ} {p q : ℝ → ℝ} (hp : SamplesDensity run a b p)
    (h : ∀ x ∈ Icc a b, p x = q x) : SamplesDensity run a b q := by
  intro S hS
  rw [hp S hS, withDensity_apply _ hS, withDensity_apply _ hS, Measure.restrict_restrict hS]
  refine setLIntegral_congr_fun (hS.inter measurableSet_Icc) fun x hx => ?_
  show ENNReal.ofReal (p x) = ENNReal.ofReal (q x)
  rw [h x hx.2]

/-- Violation of C103 for every Maxwellian: the energies are distributed as reported only if `E - U = T`. -/
theorem C103_violation_maxwell (temp : Tab1D) (U E T : ℝ) (hT : temp.eval E = .ok T) (hpos : 0 < T) (hdu : U < E) (k : Nat)
    (hI0 : Real.sqrt Real.pi / 2 * erf ((E - U) / T) - Real.sqrt ((E - U) / T) * Real.exp (-((E - U) / T)) ≠ 0) :
    SamplesReported (fun fuel ω => maxwellSample temp U fuel E ω k) 0 (E - U) (maxwellPdf temp U E) ↔ E - U = T := by
  have hdu' : 0 < E - U := by linarith
  have hM := maxwellMass_pos (T := T) hdu'
  have hTp : 0 < T ^ (3 / 2 : ℝ) := Real.rpow_pos_of_pos hpos _
  have hs := C103_maxwell_partial temp U E T hT hpos hdu k
  obtain ⟨I, hI⟩ : ∃ I, I = T ^ (3 / 2 : ℝ) * (Real.sqrt Real.pi / 2 * erf ((E - U) / T) - Real.sqrt ((E - U) / T) * Real.exp (-((E - U) / T))) := ⟨_, rfl⟩
  have hI1 : I ≠ 0 := hI ▸ mul_ne_zero hTp.ne' hI0
  have hval := maxwellPdf_eq temp U E T hT hpos hdu I hI hI1
  have hcont : ∀ J : ℝ, IntervalIntegrable (fun x => Real.sqrt x / J * Real.exp (-x / T)) volume 0 (E - U) := fun J => by
    apply Continuous.intervalIntegrable; fun_prop
  have hmass : ∀ J : ℝ, ∫ x in (0 : ℝ)..(E - U), Real.sqrt x / J * Real.exp (-x / T) = maxwellMass T (E - U) / J := by
    intro J
    have : ∀ x : ℝ, Real.sqrt x / J * Real.exp (-x / T) = J⁻¹ * (Real.sqrt x * Real.exp (-x / T)) := fun x => by ring
    simp only [this, intervalIntegral.integral_const_mul]
    unfold maxwellMass
    rw [inv_mul_eq_div]
  have hone : ∫⁻ x in Icc 0 (E - U), ENNReal.ofReal (Real.sqrt x * Real.exp (-x / T) / maxwellMass T (E - U)) = 1 := by
    have : ∀ x : ℝ, Real.sqrt x * Real.exp (-x / T) / maxwellMass T (E - U) = Real.sqrt x / maxwellMass T (E - U) * Real.exp (-x / T) := fun x => by ring
    simp only [this]
    rw [lintegral_of_integral hdu'.le (hcont _) (fun x _ => mul_nonneg (div_nonneg (Real.sqrt_nonneg _) hM.le) (Real.exp_pos _).le), hmass,
      div_self hM.ne', ENNReal.ofReal_one]
  rw [← C69_violation_maxwell temp U E T hT hpos hdu hI0]
  constructor
  · rintro ⟨p, hp, hsp⟩
    have hp' : ∀ x ∈ Icc 0 (E - U), p x = Real.sqrt x / I * Real.exp (-x / T) := by
      intro x hx
      have := hp x hx.1 hx.2
      rw [hval x hx.1 hx.2] at this
      exact (Except.ok.inj this).symm
    have ht := (hsp.congr hp').total hs
    rw [hone] at ht
    rcases lt_or_gt_of_ne hI1 with hneg | hposI
    · exfalso
      have : ∀ x ∈ Icc 0 (E - U), ENNReal.ofReal (Real.sqrt x / I * Real.exp (-x / T)) = 0 := fun x _ => by
        rw [ENNReal.ofReal_eq_zero]
        exact mul_nonpos_of_nonpos_of_nonneg (div_nonpos_of_nonneg_of_nonpos (Real.sqrt_nonneg _) hneg.le) (Real.exp_pos _).le
      rw [setLIntegral_congr_fun measurableSet_Icc this] at ht
      simp at ht
    · rw [lintegral_of_integral hdu'.le (hcont I) (fun x _ => mul_nonneg (div_nonneg (Real.sqrt_nonneg _) hposI.le) (Real.exp_pos _).le), hmass] at ht
      refine ⟨_, hval, hcont I, ?_⟩
      rw [hmass]
      have := congrArg ENNReal.toReal ht
      rwa [ENNReal.toReal_ofReal (by positivity), ENNReal.toReal_one] at this
  · intro h
    have h1 := h.unique hdu'.le ⟨_, hval, hcont I, rfl⟩
    rw [hmass, eq_comm, div_eq_one_iff_eq hI1] at h1
    refine ⟨_, hval, hs.congr fun x _ => ?_⟩
    rw [h1]
    ring

/-! ### Watt -/

theorem wattCand_iff (a b : ℝ) (ω : Tape) (k : Nat) (e : ℝ) : wattCand a b ω k = .ok e ↔
    (0 < ω k ∧ 0 < ω (k + 1)) ∧ 0 ≤ a * a * b * (-a * (Real.log (ω k) + Real.log (ω (k + 1)) * Real.cos (Real.pi * ω (k + 2) / 2) * Real.cos (Real.pi * ω (k + 2) / 2))) ∧
      e = -a * (Real.log (ω k) + Real.log (ω (k + 1)) * Real.cos (Real.pi * ω (k + 2) / 2) * Real.cos (Real.pi * ω (k + 2) / 2)) + 0.25 * a * a * b +
        (2 * ω (k + 3) - 1) * Real.sqrt (a * a * b * (-a * (Real.log (ω k) + Real.log (ω (k + 1)) * Real.cos (Real.pi * ω (k + 2) / 2) * Real.cos (Real.pi * ω (k + 2) / 2)))) := by
  unfold wattCand
  by_cases h : 0 < ω k
  · by_cases h2 : 0 < ω (k + 1)
    · simp only [clog_ok h, clog_ok h2, bind, Except.bind, pure, Except.pure]
      by_cases h3 : 0 ≤ a * a * b * (-a * (Real.log (ω k) + Real.log (ω (k + 1)) * Real.cos (Real.pi * ω (k + 2) / 2) * Real.cos (Real.pi * ω (k + 2) / 2)))
      · rw [csqrt_ok h3]
        simp only [Except.ok.injEq]
        exact ⟨fun he => ⟨⟨h, h2⟩, h3, he.symm⟩, fun he => he.2.2.symm⟩
      · unfold csqrt
        rw [if_neg h3]
        exact ⟨fun he => (by cases he), fun he => absurd he.2.1 h3⟩
    · simp only [clog_ok h, clog_bad h2, bind, Except.bind]
      exact ⟨fun he => (by cases he), fun he => absurd he.1.2 h2⟩
  · simp only [clog_bad h, bind, Except.bind]
    exact ⟨fun he => (by cases he), fun he => absurd he.1.1 h⟩

/-- The energy of the Maxwellian part of a Watt candidate. -/
noncomputable def wattW (a : ℝ) (p : ℝ × ℝ × ℝ × ℝ) : ℝ :=
  -a * (Real.log p.1 + Real.log p.2.1 * Real.cos (Real.pi * p.2.2.1 / 2) * Real.cos (Real.pi * p.2.2.1 / 2))

theorem wattW_meas (a : ℝ) : Measurable (wattW a) := by
  have := Real.measurable_log
  have := Real.measurable_cos
  unfold wattW
  fun_prop

/-- The tapes whose first draws give a candidate in `S`, as a set of quadruples. -/
def wattSet (a b : ℝ) (S : Set ℝ) : Set (ℝ × ℝ × ℝ × ℝ) :=
  {p | (0 < p.1 ∧ 0 < p.2.1) ∧ 0 ≤ a * a * b * wattW a p ∧ wattW a p + 0.25 * a * a * b + (2 * p.2.2.2 - 1) * Real.sqrt (a * a * b * wattW a p) ∈ S}

theorem wattSet_meas (a b : ℝ) {S : Set ℝ} (hS : MeasurableSet S) : MeasurableSet (wattSet a b S) := by
  have m := wattW_meas a
  have m2 : Measurable fun p : ℝ × ℝ × ℝ × ℝ => wattW a p + 0.25 * a * a * b + (2 * p.2.2.2 - 1) * Real.sqrt (a * a * b * wattW a p) := by fun_prop
  exact ((measurableSet_lt (measurable_const (a := (0 : ℝ))) measurable_fst).inter
    (measurableSet_lt (measurable_const (a := (0 : ℝ))) (measurable_fst.comp measurable_snd))).inter
    ((measurableSet_le (measurable_const (a := (0 : ℝ))) (m.const_mul (a * a * b))).inter (m2 hS))

theorem watt_event (a b : ℝ) (S : Set ℝ) :
    {ω : Tape | ∃ e, wattCand a b ω 0 = .ok e ∧ e ∈ S} = (fun ω : Tape => (ω 0, ω 1, ω 2, ω 3)) ⁻¹' wattSet a b S := by
  ext ω
  simp only [mem_ofPred_eq, mem_preimage, wattSet, wattW, wattCand_iff, Nat.zero_add]
  constructor
  · rintro ⟨e, ⟨h1, h2, rfl⟩, h3⟩; exact ⟨h1, h2, h3⟩
  · rintro ⟨h1, h2, h3⟩; exact ⟨_, ⟨h1, h2, rfl⟩, h3⟩

theorem measurable_draw4 : Measurable fun ω : Tape => (ω 0, ω 1, ω 2, ω 3) :=
  (measurable_pi_apply 0).prodMk ((measurable_pi_apply 1).prodMk ((measurable_pi_apply 2).prodMk (measurable_pi_apply 3)))

/-- The candidates of `Watt::sample_energy` have a density proportional to `exp(-e/a) sinh √(b e)`. -/
theorem watt_law {a b : ℝ} (ha : 0 < a) (hb : 0 < b) (S : Set ℝ) (hS : MeasurableSet S) (h0 : ∀ x ∈ S, 0 ≤ x) :
    Spec.iid {ω | ∃ e, wattCand a b ω 0 = .ok e ∧ e ∈ S} =
      ∫⁻ x in S, ENNReal.ofReal (2 / Real.sqrt Real.pi * (Real.exp (-(a * b / 4)) * (Real.exp (-x / a) * Real.sinh (Real.sqrt (b * x))) / (Real.sqrt a * (a * Real.sqrt b)))) := by
  have hm := wattSet_meas a b hS
  have hsp : 0 < Real.sqrt Real.pi := Real.sqrt_pos.mpr Real.pi_pos
  have hsb : 0 < Real.sqrt b := Real.sqrt_pos.mpr hb
  have hsa : 0 < Real.sqrt a := Real.sqrt_pos.mpr ha
  have hbb : Real.sqrt b ^ 2 = b := Real.sq_sqrt hb.le
  obtain ⟨c, hc⟩ : ∃ c, c = a * Real.sqrt b / 2 := ⟨_, rfl⟩
  have hc0 : 0 < c := by rw [hc]; positivity
  have hc2 : c ^ 2 = 0.25 * a * a * b := by rw [hc, div_pow, mul_pow, hbb]; ring
  have e1 : Spec.iid ((fun ω : Tape => (ω 0, ω 1, ω 2, ω 3)) ⁻¹' wattSet a b S) =
      ∫⁻ x, ∫⁻ y, ∫⁻ z, ∫⁻ v, (wattSet a b S).indicator 1 (x, y, z, v) ∂Spec.unif ∂Spec.unif ∂Spec.unif ∂Spec.unif := by
    rw [← lintegral_indicator_one (measurable_draw4 hm), ← draw4 (measurable_one.indicator hm)]
    rfl
  let F : ℝ → ℝ≥0∞ := fun u => ∫⁻ v, S.indicator 1 (a * u + c ^ 2 + (2 * v - 1) * (2 * c * Real.sqrt (a * u))) ∂Spec.unif
  have hF : Measurable F := by
    have : Measurable fun p : ℝ × ℝ => S.indicator (1 : ℝ → ℝ≥0∞) (a * p.1 + c ^ 2 + (2 * p.2 - 1) * (2 * c * Real.sqrt (a * p.1))) :=
      (measurable_one.indicator hS).comp (by fun_prop)
    exact this.lintegral_prod_right'
  have e2 : ∀ᵐ x ∂Spec.unif, ∫⁻ y, ∫⁻ z, ∫⁻ v, (wattSet a b S).indicator 1 (x, y, z, v) ∂Spec.unif ∂Spec.unif ∂Spec.unif =
      ∫⁻ y, ∫⁻ z, F (-Real.log x + -Real.log y * Real.cos (Real.pi * z / 2) ^ 2) ∂Spec.unif ∂Spec.unif := by
    refine ae_unif fun x hx0 hx1 => lintegral_congr_ae (ae_unif fun y hy0 hy1 => lintegral_congr fun z => lintegral_congr fun v => ?_)
    obtain ⟨u, hu⟩ : ∃ u, u = -Real.log x + -Real.log y * Real.cos (Real.pi * z / 2) ^ 2 := ⟨_, rfl⟩
    have hu0 : 0 ≤ u := by
      have l1 := Real.log_neg hx0 hx1
      have l2 := Real.log_neg hy0 hy1
      have := mul_nonneg (neg_nonneg.mpr l2.le) (sq_nonneg (Real.cos (Real.pi * z / 2)))
      rw [hu]; linarith
    have hw : wattW a (x, y, z, v) = a * u := by
      rw [hu]; unfold wattW; ring
    have hsq : Real.sqrt (a * a * b * (a * u)) = 2 * c * Real.sqrt (a * u) := by
      rw [Real.sqrt_mul (by positivity), show a * a * b = (2 * c) ^ 2 by rw [mul_pow, hc2]; ring, Real.sqrt_sq (by positivity)]
    have hmem : (x, y, z, v) ∈ wattSet a b S ↔ a * u + c ^ 2 + (2 * v - 1) * (2 * c * Real.sqrt (a * u)) ∈ S := by
      unfold wattSet
      simp only [mem_ofPred_eq, hw, hsq, hc2]
      exact ⟨fun h => h.2.2, fun h => ⟨⟨hx0, hy0⟩, by positivity, h⟩⟩
    rw [← hu]
    by_cases h : a * u + c ^ 2 + (2 * v - 1) * (2 * c * Real.sqrt (a * u)) ∈ S
    · rw [indicator_of_mem h, indicator_of_mem (hmem.mpr h)]; rfl
    · rw [indicator_of_notMem h, indicator_of_notMem (fun hd => h (hmem.mp hd))]
  rw [watt_event, e1, lintegral_congr_ae e2, unif_maxwell hF, gInt_watt ha hc0 (measurable_one.indicator hS), lintegral_count hS h0,
    ← lintegral_const_mul' _ _ ENNReal.ofReal_ne_top]
  refine setLIntegral_congr_fun hS fun x hx => ?_
  show ENNReal.ofReal _ * ENNReal.ofReal _ = ENNReal.ofReal _
  rw [← ENNReal.ofReal_mul (by positivity)]
  congr 2
  rw [show 2 * c * Real.sqrt x / a = Real.sqrt (b * x) by rw [Real.sqrt_mul hb.le, hc]; field_simp,
    show -(x + c ^ 2) / a = -(a * b / 4) + -x / a by rw [hc2]; field_simp; ring, Real.exp_add, hc]
  field_simp

theorem watt_closed (ta tb : Tab1D) (U E a b : ℝ) (ha : ta.eval E = .ok a) (hb : tb.eval E = .ok b) (ha0 : 0 < a) (hb0 : 0 < b) (hdu : U < E) :
    ∃ p : ℝ → ℝ, (∀ x, 0 ≤ x → x ≤ E - U → wattPdf ta tb U E x = .ok (p x) ∧ 0 ≤ p x) ∧ Measurable p ∧
      Closed (fun fuel ω k => wattSample ta tb U fuel E ω k) (densityOn 0 (E - U) p) := by
  have hdu' : 0 < E - U := by linarith
  have hsp : 0 < Real.sqrt Real.pi := Real.sqrt_pos.mpr Real.pi_pos
  have hsb : 0 < Real.sqrt b := Real.sqrt_pos.mpr hb0
  have hsa : 0 < Real.sqrt a := Real.sqrt_pos.mpr ha0
  obtain ⟨I, hI0, hint, hval⟩ := wattPdf_eq ta tb U E a b ha hb ha0 hb0 hdu
  refine ⟨_, fun x h0 h1 => ⟨hval x h0 h1, mul_nonneg (div_nonneg (Real.exp_pos _).le hI0.le) (Real.sinh_nonneg_iff.mpr (Real.sqrt_nonneg _))⟩, ?_, ?_⟩
  · have := Real.continuous_sinh.measurable
    fun_prop
  have hrun : (fun fuel (ω : Tape) k => wattSample ta tb U fuel E ω k) = fun fuel ω k => rejLoop (wattCand a b ω) 4 (E - U) fuel k := by
    funext fuel ω k
    unfold wattSample
    rw [ha, hb]
    rfl
  rw [hrun]
  have hE := Real.exp_pos (-(a * b / 4))
  refine rejLoop_closed (c := Real.sqrt Real.pi / 2 * (Real.sqrt a * (a * Real.sqrt b)) / (Real.exp (-(a * b / 4)) * I)) (fun ω j => rfl) ?_ ?_
    (fun S hS hsub => watt_law ha0 hb0 S hS fun x hx => (hsub hx).1) ?_ ?_ ?_
  · intro ω ω' h
    unfold wattCand
    rw [h 0 (by omega), h (0 + 1) (by omega), h (0 + 2) (by omega), h (0 + 3) (by omega)]
  · intro S hS
    rw [watt_event]
    exact measurable_draw4 (wattSet_meas a b hS)
  · positivity
  · intro x hx
    field_simp
  · rw [lintegral_of_integral hdu'.le]
    · have : ∀ x : ℝ, Real.exp (-x / a) / I * Real.sinh (Real.sqrt (b * x)) = I⁻¹ * (Real.exp (-x / a) * Real.sinh (Real.sqrt (b * x))) := fun x => by ring
      simp only [this, intervalIntegral.integral_const_mul, hint, inv_mul_cancel₀ hI0.ne', ENNReal.ofReal_one]
    · apply Continuous.intervalIntegrable
      have := Real.continuous_sinh
      fun_prop
    · intro x hx
      exact mul_nonneg (div_nonneg (Real.exp_pos _).le hI0.le) (Real.sinh_nonneg_iff.mpr (Real.sqrt_nonneg _))

/-- **C103** `Watt::sample_energy`: with independent uniform random numbers, the returned energies have the density that
`Watt::pdf` reports; the sampling ends with probability one. -/
theorem C103_watt (ta tb : Tab1D) (U E a b : ℝ) (ha : ta.eval E = .ok a) (hb : tb.eval E = .ok b) (ha0 : 0 < a) (hb0 : 0 < b) (hdu : U < E) (k : Nat) :
    SamplesReported (fun fuel ω => wattSample ta tb U fuel E ω k) 0 (E - U) (wattPdf ta tb U E) := by
  obtain ⟨p, h1, _, h3⟩ := watt_closed ta tb U E a b ha hb ha0 hb0 hdu
  exact ⟨p, fun x a b => (h1 x a b).1, h3.samples k⟩

-- the hypotheses are met: constant tables of temperature 2 and rate 3, restriction energy below the incident energy
example : SamplesReported (fun fuel ω => evapSample (constTab 2) (-1) fuel 0 ω 0) 0 (0 - -1) (evapPdf (constTab 2) (-1) 0) ∧
    SamplesReported (fun fuel ω => wattSample (constTab 2) (constTab 3) (-1) fuel 0 ω 0) 0 (0 - -1) (wattPdf (constTab 2) (constTab 3) (-1) 0) :=
  ⟨C103_evaporation _ _ _ 2 (constTab_eval 2) (by norm_num) (by norm_num) 0,
   C103_watt _ _ _ _ 2 3 (constTab_eval 2) (constTab_eval 3) (by norm_num) (by norm_num) (by norm_num) 0⟩

end PNDL
