import Verif.Props.JointLaw

/-! Pairs drawn one after the other: an energy by inverting a cumulative, then a cosine that depends on it. -/
namespace PNDL
open MeasureTheory Spec Set
open scoped ENNReal

/-- Two densities that differ for countably many energies only are the same law. -/
theorem jointLaw_congr {a b : ℝ} {p q : ℝ → ℝ → ℝ} {F : Set ℝ} (hF : F.Countable)
    (h : ∀ mu e, -1 ≤ mu → mu ≤ 1 → a ≤ e → e ≤ b → e ∉ F → p mu e = q mu e) : jointLaw a b p = jointLaw a b q := by
  unfold jointLaw
  refine withDensity_congr_ae ?_
  have hne : ∀ᵐ x : ℝ × ℝ ∂volume, x.2 ∉ F := by
    rw [Measure.volume_eq_prod]
    exact Measure.quasiMeasurePreserving_snd.ae (hF.ae_notMem volume)
  filter_upwards [ae_restrict_mem (measurableSet_Icc.prod measurableSet_Icc), ae_restrict_of_ae hne] with x hx hn
  rw [h _ _ hx.1.1 hx.1.2 hx.2.1 hx.2.2 hn]

/-- The energy is `h` of the first number, the cosine `c` of the first number and those that follow. -/
theorem joint_draw {h : ℝ → ℝ} {a b : ℝ} {G : ℝ → ℝ} {c : ℝ × Tape → ℝ} {K : ℝ → ℝ → ℝ} (hh : Measurable h)
    (hG : AEMeasurable G (volume.restrict (Icc a b))) (hG0 : ∀ x, a ≤ x → x ≤ b → 0 ≤ G x) (hlaw : Spec.unif.map h = densityOn a b G)
    (hc : Measurable c) (hK : Measurable fun q : ℝ × ℝ => K q.2 q.1)
    (hcond : ∀ᵐ xi ∂Spec.unif, Spec.iid.map (fun ω => c (xi, ω)) = densityOn (-1) 1 (K (h xi))) :
    Spec.iid.map (fun ω => (c (ω 0, dropT 1 ω), h (ω 0))) = jointLaw a b fun mu e => G e * K e mu := by
  have hX : Measurable fun ω : Tape => (c (ω 0, dropT 1 ω), h (ω 0)) :=
    (hc.comp ((measurable_pi_apply 0).prodMk (measurable_dropT 1))).prodMk (hh.comp (measurable_pi_apply 0))
  refine Measure.ext fun S hS => ?_
  rw [Measure.map_apply hX hS]
  have hind : Measurable (S.indicator (1 : ℝ × ℝ → ℝ≥0∞)) := measurable_one.indicator hS
  obtain ⟨Φ, hΦ⟩ : ∃ Φ : ℝ → ℝ≥0∞, Φ = fun e => ∫⁻ mu in Icc (-1 : ℝ) 1, ENNReal.ofReal (K e mu) * S.indicator 1 (mu, e) := ⟨_, rfl⟩
  have hΦm : Measurable Φ := by
    rw [hΦ]
    have : Measurable fun p : ℝ × ℝ => ENNReal.ofReal (K p.1 p.2) * S.indicator (1 : ℝ × ℝ → ℝ≥0∞) (p.2, p.1) :=
      (hK.comp measurable_swap).ennreal_ofReal.mul (hind.comp measurable_swap)
    exact this.lintegral_prod_right'
  rw [← lintegral_indicator_one (hX hS)]
  have e1 : ∫⁻ ω, ((fun ω : Tape => (c (ω 0, dropT 1 ω), h (ω 0))) ⁻¹' S).indicator 1 ω ∂Spec.iid =
      ∫⁻ x, ∫⁻ ω, S.indicator 1 (c (x, ω), h x) ∂Spec.iid ∂Spec.unif := by
    refine (lintegral_cons (f := fun ω : Tape => S.indicator 1 (c (ω 0, dropT 1 ω), h (ω 0))) (hind.comp hX)).trans ?_
    refine lintegral_congr fun x => lintegral_congr fun ω => ?_
    show S.indicator 1 (c (x, dropT (0 + 1) (consT x ω)), h x) = _
    rw [dropT_consT, dropT_zero]
  rw [e1]
  have e2 : ∫⁻ x, ∫⁻ ω, S.indicator 1 (c (x, ω), h x) ∂Spec.iid ∂Spec.unif = ∫⁻ x, Φ (h x) ∂Spec.unif := by
    refine lintegral_congr_ae ?_
    filter_upwards [hcond] with x hx
    have hcx : Measurable fun ω : Tape => c (x, ω) := hc.comp (measurable_const.prodMk measurable_id)
    have hSx : Measurable fun mu : ℝ => S.indicator (1 : ℝ × ℝ → ℝ≥0∞) (mu, h x) := hind.comp (measurable_id.prodMk measurable_const)
    rw [← lintegral_map (f := fun mu : ℝ => S.indicator (1 : ℝ × ℝ → ℝ≥0∞) (mu, h x)) hSx hcx, hx, densityOn,
      lintegral_withDensity_eq_lintegral_mul _ (show Measurable fun mu => ENNReal.ofReal (K (h x) mu) from
        (hK.comp (measurable_id.prodMk measurable_const)).ennreal_ofReal) hSx, hΦ]
    rfl
  rw [e2, ← lintegral_map hΦm hh, hlaw, densityOn, lintegral_withDensity_eq_lintegral_mul₀ hG.ennreal_ofReal hΦm.aemeasurable]
  unfold jointLaw
  rw [withDensity_apply _ hS, ← lintegral_indicator hS]
  have hae : AEMeasurable (fun q : ℝ × ℝ => ENNReal.ofReal (G q.2) * (ENNReal.ofReal (K q.2 q.1) * S.indicator 1 q))
      ((volume.restrict (Icc (-1 : ℝ) 1)).prod (volume.restrict (Icc a b))) :=
    (hG.ennreal_ofReal.comp_quasiMeasurePreserving Measure.quasiMeasurePreserving_snd).mul (hK.ennreal_ofReal.mul hind).aemeasurable
  have e3 : ∫⁻ q, S.indicator (fun q => ENNReal.ofReal (G q.2 * K q.2 q.1)) q ∂volume.restrict (Icc (-1 : ℝ) 1 ×ˢ Icc a b) =
      ∫⁻ q, ENNReal.ofReal (G q.2) * (ENNReal.ofReal (K q.2 q.1) * S.indicator 1 q) ∂(volume.restrict (Icc (-1 : ℝ) 1)).prod (volume.restrict (Icc a b)) := by
    rw [Measure.prod_restrict, ← Measure.volume_eq_prod]
    refine lintegral_congr_ae ?_
    filter_upwards [ae_restrict_mem (measurableSet_Icc.prod measurableSet_Icc)] with q hq
    by_cases h : q ∈ S
    · rw [indicator_of_mem h, indicator_of_mem h, ENNReal.ofReal_mul (hG0 _ hq.2.1 hq.2.2)]; simp
    · rw [indicator_of_notMem h, indicator_of_notMem h]; simp
  rw [e3, lintegral_prod_symm _ hae]
  refine lintegral_congr fun e => ?_
  rw [Pi.mul_apply, hΦ]
  exact (lintegral_const_mul' _ _ ENNReal.ofReal_ne_top).symm

/-- The same with the energies carried from `[mn, mx]` to `[lo, hi]`. -/
theorem joint_stretch {h : ℝ → ℝ} {mn mx lo hi : ℝ} (hw : mn < mx) (hlh : lo < hi) {G : ℝ → ℝ} {c : ℝ × Tape → ℝ} {K : ℝ → ℝ → ℝ} (hh : Measurable h)
    (hG : IntervalIntegrable G volume mn mx) (hG0 : ∀ x, 0 ≤ G x) (hlaw : Spec.unif.map h = densityOn mn mx G)
    (hc : Measurable c) (hK : Measurable fun q : ℝ × ℝ => K q.2 q.1)
    (hcond : ∀ᵐ xi ∂Spec.unif, Spec.iid.map (fun ω => c (xi, ω)) = densityOn (-1) 1 (K (h xi))) :
    Spec.iid.map (fun ω => (c (ω 0, dropT 1 ω), lo + (h (ω 0) - mn) / (mx - mn) * (hi - lo))) =
      jointLaw lo hi (fun mu e => (mx - mn) / (hi - lo) * G ((e - lo) / (hi - lo) * (mx - mn) + mn) * K ((e - lo) / (hi - lo) * (mx - mn) + mn) mu) ∧
    AEMeasurable (fun q : ℝ × ℝ => (mx - mn) / (hi - lo) * G ((q.2 - lo) / (hi - lo) * (mx - mn) + mn) * K ((q.2 - lo) / (hi - lo) * (mx - mn) + mn) q.1)
      (volume.restrict (Icc (-1) 1 ×ˢ Icc lo hi)) := by
  have haff : Measurable fun x : ℝ => lo + (x - mn) / (mx - mn) * (hi - lo) := by fun_prop
  have hinv : Measurable fun y : ℝ => (y - lo) / (hi - lo) * (mx - mn) + mn := by fun_prop
  have hK' : Measurable fun q : ℝ × ℝ => K ((q.2 - lo) / (hi - lo) * (mx - mn) + mn) q.1 :=
    hK.comp (measurable_fst.prodMk (hinv.comp measurable_snd))
  have hG' : AEMeasurable (fun y => (mx - mn) / (hi - lo) * G ((y - lo) / (hi - lo) * (mx - mn) + mn)) (volume.restrict (Icc lo hi)) := by
    have := (stretch_integrable hw hlh hG).const_mul ((mx - mn) / (hi - lo))
    exact ((intervalIntegrable_iff_integrableOn_Icc_of_le hlh.le).mp this).aemeasurable
  refine ⟨?_, ?_⟩
  · refine joint_draw (h := fun x => lo + (h x - mn) / (mx - mn) * (hi - lo)) (G := fun y => (mx - mn) / (hi - lo) * G ((y - lo) / (hi - lo) * (mx - mn) + mn))
      (K := fun y => K ((y - lo) / (hi - lo) * (mx - mn) + mn)) (haff.comp hh) hG' (fun x _ _ => ?_) ?_ hc hK' ?_
    · exact mul_nonneg (div_nonneg (by linarith) (by linarith)) (hG0 _)
    · rw [← densityOn_affine hw hlh, ← hlaw, Measure.map_map haff hh]
      rfl
    · filter_upwards [hcond] with xi hxi
      rw [hxi]
      have e : (lo + (h xi - mn) / (mx - mn) * (hi - lo) - lo) / (hi - lo) * (mx - mn) + mn = h xi := by
        have h1 : mx - mn ≠ 0 := by intro h; linarith
        have h2 : hi - lo ≠ 0 := by intro h; linarith
        field_simp
        ring
      rw [e]
  · rw [Measure.volume_eq_prod, ← Measure.prod_restrict]
    exact (hG'.comp_quasiMeasurePreserving Measure.quasiMeasurePreserving_snd).mul hK'.aemeasurable

/-- Three draws. -/
theorem closed_three {α : Type} [MeasurableSpace α] {body : ℝ → ℝ → ℝ → Res α} {g : ℝ → ℝ → ℝ → α} (hg : Measurable fun ω : Tape => g (ω 0) (ω 1) (ω 2))
    (hb : ∀ x y z, 0 ≤ x → x ≤ 1 → 0 ≤ y → y ≤ 1 → 0 ≤ z → z ≤ 1 → body x y z = .ok (g x y z)) :
    Closed (fun _ ω k => (body (ω k) (ω (k + 1)) (ω (k + 2))).map fun x => (x, k + 3)) (Spec.iid.map fun ω => g (ω 0) (ω 1) (ω 2)) := by
  refine closed_fixed (n := 3) (X := fun ω => g (ω 0) (ω 1) (ω 2)) ?_ hg (fun ω ω' h => by rw [h 0 (by omega), h 1 (by omega), h 2 (by omega)]) ?_
  · intro fuel ω k
    simp only [dropT_apply, Nat.add_zero, Nat.zero_add]
    cases body (ω k) (ω (k + 1)) (ω (k + 2)) <;> rfl
  · filter_upwards [iid_open] with ω hω
    intro fuel
    simp only [Nat.zero_add]
    rw [hb _ _ _ (hω 0).1.le (hω 0).2.le (hω 1).1.le (hω 1).2.le (hω 2).1.le (hω 2).2.le]
    rfl

/-- Mixtures of two joint laws. -/
theorem jointLaw_mix {a b f : ℝ} {p q : ℝ → ℝ → ℝ} (f0 : 0 ≤ f) (f1 : f ≤ 1)
    (hp : AEMeasurable (fun x : ℝ × ℝ => p x.1 x.2) (volume.restrict (Icc (-1) 1 ×ˢ Icc a b)))
    (hq : AEMeasurable (fun x : ℝ × ℝ => q x.1 x.2) (volume.restrict (Icc (-1) 1 ×ˢ Icc a b)))
    (hp0 : ∀ mu e, -1 ≤ mu → mu ≤ 1 → a ≤ e → e ≤ b → 0 ≤ p mu e) (hq0 : ∀ mu e, -1 ≤ mu → mu ≤ 1 → a ≤ e → e ≤ b → 0 ≤ q mu e) :
    jointLaw a b (fun mu e => (1 - f) * p mu e + f * q mu e) = ENNReal.ofReal (1 - f) • jointLaw a b p + ENNReal.ofReal f • jointLaw a b q := by
  have := mixLaw_joint (a := a) (b := b) [(1 - f, p), (f, q)] (by
    intro x hx
    simp only [List.mem_cons, List.not_mem_nil, or_false] at hx
    rcases hx with rfl | rfl
    · exact ⟨by linarith, hp, hp0⟩
    · exact ⟨f0, hq, hq0⟩)
  simp only [List.map_cons, List.map_nil, mixLaw, List.sum_cons, List.sum_nil, add_zero] at this
  exact this.symm

end PNDL
