import Verif.Props.JointLaw
import Verif.Props.Jacobian
import Mathlib.MeasureTheory.Function.Jacobian
import Mathlib.LinearAlgebra.Determinant
import Mathlib.Analysis.Calculus.FDeriv.Prod

/-! C117: what is drawn in the centre of mass and reported in the laboratory. -/
namespace PNDL
open MeasureTheory Spec Set
open scoped ENNReal

/-- The lab cosines and energies of the particles whose energy in a frame moving with speed `v` along the beam is in `[a, b]`. -/
def Spec.labRegion (v a b : ℝ) : Set (ℝ × ℝ) :=
  {q | (-1 ≤ q.1 ∧ q.1 ≤ 1) ∧ 0 < q.2 ∧ 0 < cmEnergy v q.1 q.2 ∧ a ≤ cmEnergy v q.1 q.2 ∧ cmEnergy v q.1 q.2 ≤ b}

/-- Cosine and energy seen from a frame moving with speed `v` along the beam. -/
noncomputable def boost (v : ℝ) (q : ℝ × ℝ) : ℝ × ℝ := (cmCos v q.1 q.2, cmEnergy v q.1 q.2)

/-- Moving particles not along the beam. -/
def offAxis : Set (ℝ × ℝ) := Ioo (-1) 1 ×ˢ Ioi 0

theorem offAxis_measurable : MeasurableSet offAxis := measurableSet_Ioo.prod measurableSet_Ioi

theorem boost_measurable (v : ℝ) : Measurable (boost v) := by
  unfold boost cmCos cmEnergy
  fun_prop

theorem boost_energy_pos (v : ℝ) {q : ℝ × ℝ} (hq : q ∈ offAxis) : 0 < cmEnergy v q.1 q.2 := by
  obtain ⟨⟨h1, h2⟩, h3⟩ := hq
  have hs : 0 < Real.sqrt q.2 := Real.sqrt_pos.mpr h3
  have hss : Real.sqrt q.2 ^ 2 = q.2 := Real.sq_sqrt (le_of_lt h3)
  have hm : 0 < 1 - q.1 ^ 2 := by nlinarith
  have e : cmEnergy v q.1 q.2 = Real.sqrt q.2 ^ 2 * (1 - q.1 ^ 2) + (q.1 * Real.sqrt q.2 - v) ^ 2 := by
    unfold cmEnergy
    linear_combination -hss
  rw [e]
  have := mul_pos (pow_pos hs 2) hm
  positivity

theorem boost_mem (v : ℝ) {q : ℝ × ℝ} (hq : q ∈ offAxis) : boost v q ∈ offAxis := by
  have hp := boost_energy_pos v hq
  obtain ⟨⟨h1, h2⟩, h3⟩ := hq
  have hs : 0 < Real.sqrt q.2 := Real.sqrt_pos.mpr h3
  have hss : Real.sqrt q.2 ^ 2 = q.2 := Real.sq_sqrt (le_of_lt h3)
  have hm : 0 < 1 - q.1 ^ 2 := by nlinarith
  have hc := Real.sqrt_pos.mpr hp
  have hcc := Real.sq_sqrt hp.le
  have hlt : (q.1 * Real.sqrt q.2 - v) ^ 2 < Real.sqrt (cmEnergy v q.1 q.2) ^ 2 := by
    rw [hcc]
    unfold cmEnergy
    have := mul_pos (pow_pos hs 2) hm
    nlinarith
  have habs := abs_lt_of_sq_lt_sq' hlt hc.le
  refine ⟨⟨?_, ?_⟩, hp⟩
  · show -1 < (q.1 * Real.sqrt q.2 - v) / _
    rw [lt_div_iff₀ hc]
    linarith [habs.1]
  · show (q.1 * Real.sqrt q.2 - v) / _ < 1
    rw [div_lt_one hc]
    exact habs.2

theorem boost_back (v : ℝ) {q : ℝ × ℝ} (hq : q ∈ offAxis) : boost (-v) (boost v q) = q := by
  have hp := boost_energy_pos v hq
  have h3 : 0 < q.2 := hq.2
  have hs : 0 < Real.sqrt q.2 := Real.sqrt_pos.mpr h3
  have hss : Real.sqrt q.2 ^ 2 = q.2 := Real.sq_sqrt h3.le
  have hc := Real.sqrt_pos.mpr hp
  have hpar : cmCos v q.1 q.2 * Real.sqrt (cmEnergy v q.1 q.2) = q.1 * Real.sqrt q.2 - v := div_mul_cancel₀ _ hc.ne'
  have e2 : cmEnergy (-v) (cmCos v q.1 q.2) (cmEnergy v q.1 q.2) = q.2 := by
    have : cmEnergy (-v) (cmCos v q.1 q.2) (cmEnergy v q.1 q.2) =
        cmEnergy v q.1 q.2 + 2 * (cmCos v q.1 q.2 * Real.sqrt (cmEnergy v q.1 q.2)) * v + v ^ 2 := by
      rw [cmEnergy]
      ring
    rw [this, hpar]
    unfold cmEnergy
    ring
  refine Prod.ext ?_ e2
  show (cmCos v q.1 q.2 * Real.sqrt (cmEnergy v q.1 q.2) - -v) / Real.sqrt (cmEnergy (-v) (cmCos v q.1 q.2) (cmEnergy v q.1 q.2)) = q.1
  rw [e2, hpar]
  field_simp
  ring

theorem boost_inj (v : ℝ) : InjOn (boost v) offAxis := fun x hx y hy h => by
  rw [← boost_back v hx, ← boost_back v hy, h]

theorem boost_fderiv (v : ℝ) {q : ℝ × ℝ} (hq : q ∈ offAxis) :
    ∃ L : ℝ × ℝ →L[ℝ] ℝ × ℝ, HasFDerivAt (boost v) L q ∧ L.det = Real.sqrt (q.2 / cmEnergy v q.1 q.2) := by
  have hp := boost_energy_pos v hq
  have h3 : 0 < q.2 := hq.2
  obtain ⟨a, b, c, d, ha, hb, hc, hd, hj⟩ := C72_joint v q.1 q.2 h3 hp
  have hdiff : DifferentiableAt ℝ (boost v) q := by
    have hs : DifferentiableAt ℝ (fun x : ℝ × ℝ => Real.sqrt x.2) q := differentiableAt_snd.sqrt h3.ne'
    have he : DifferentiableAt ℝ (fun x : ℝ × ℝ => cmEnergy v x.1 x.2) q := by
      unfold cmEnergy
      exact ((differentiableAt_snd.sub ((((differentiableAt_const _).mul differentiableAt_fst).mul hs).mul_const v)).add_const _)
    refine DifferentiableAt.prodMk ?_ he
    have hn : DifferentiableAt ℝ (fun x : ℝ × ℝ => x.1 * Real.sqrt x.2 - v) q := (differentiableAt_fst.mul hs).sub_const v
    have hde : DifferentiableAt ℝ (fun x : ℝ × ℝ => Real.sqrt (cmEnergy v x.1 x.2)) q := he.sqrt hp.ne'
    have := hn.mul (hde.inv (Real.sqrt_pos.mpr hp).ne')
    refine this.congr_of_eventuallyEq (Filter.Eventually.of_forall fun x => ?_)
    exact div_eq_mul_inv _ _
  refine ⟨fderiv ℝ (boost v) q, hdiff.hasFDerivAt, ?_⟩
  have hL := hdiff.hasFDerivAt
  have h10 : fderiv ℝ (boost v) q (1, 0) = (a, c) := by
    have h1 : HasDerivAt (fun m : ℝ => (m, q.2)) ((1 : ℝ), (0 : ℝ)) q.1 := (hasDerivAt_id q.1).prodMk (hasDerivAt_const _ _)
    have h2 : HasDerivAt (fun m : ℝ => boost v (m, q.2)) (fderiv ℝ (boost v) q (1, 0)) q.1 := HasFDerivAt.comp_hasDerivAt (f := fun m : ℝ => (m, q.2)) (l := boost v) q.1 hL h1
    exact h2.unique (ha.prodMk hc)
  have h01 : fderiv ℝ (boost v) q (0, 1) = (b, d) := by
    have h1 : HasDerivAt (fun e : ℝ => (q.1, e)) ((0 : ℝ), (1 : ℝ)) q.2 := (hasDerivAt_const _ _).prodMk (hasDerivAt_id q.2)
    have h2 : HasDerivAt (fun e : ℝ => boost v (q.1, e)) (fderiv ℝ (boost v) q (0, 1)) q.2 := HasFDerivAt.comp_hasDerivAt (f := fun e : ℝ => (q.1, e)) (l := boost v) q.2 hL h1
    exact h2.unique (hb.prodMk hd)
  have hdet : (fderiv ℝ (boost v) q).det = a * d - b * c := by
    rw [ContinuousLinearMap.det, ← LinearMap.det_toMatrix (Module.Basis.finTwoProd ℝ), Matrix.det_fin_two]
    simp [LinearMap.toMatrix_apply, h10, h01]
  rw [hdet]
  unfold jointJacobian at hj
  rw [rdiv_ok hp.ne'] at hj
  simp only [bind, Except.bind] at hj
  rw [csqrt_ok (div_nonneg h3.le hp.le)] at hj
  simpa using hj.symm

/-- A set that meets the beam axis, or the particles at rest, is as good as what is left of it. -/
theorem offAxis_ae {R : Set (ℝ × ℝ)} (hR : ∀ q ∈ R, (-1 ≤ q.1 ∧ q.1 ≤ 1) ∧ 0 ≤ q.2) : (R ∩ offAxis : Set (ℝ × ℝ)) =ᵐ[volume] R := by
  have h1 : ∀ᵐ q : ℝ × ℝ, q.1 ≠ -1 ∧ q.1 ≠ 1 ∧ q.2 ≠ 0 := by
    rw [Measure.volume_eq_prod]
    have a : ∀ c : ℝ, ∀ᵐ x : ℝ, x ≠ c := fun c => by
      rw [ae_iff]
      simp
    filter_upwards [Measure.quasiMeasurePreserving_fst.ae (a (-1)), Measure.quasiMeasurePreserving_fst.ae (a 1), Measure.quasiMeasurePreserving_snd.ae (a 0)] with q u v w
    exact ⟨u, v, w⟩
  filter_upwards [h1] with q ⟨u, v, w⟩
  refine propext ⟨fun h => h.1, fun h => ⟨h, ?_⟩⟩
  obtain ⟨⟨h1, h2⟩, h3⟩ := hR q h
  exact ⟨⟨lt_of_le_of_ne h1 (Ne.symm u), lt_of_le_of_ne h2 v⟩, lt_of_le_of_ne h3 (Ne.symm w)⟩

theorem labRegion_measurable (v a b : ℝ) : MeasurableSet (labRegion v a b) := by
  have hE : Measurable fun q : ℝ × ℝ => cmEnergy v q.1 q.2 := measurable_snd.comp (boost_measurable v)
  exact ((measurableSet_le measurable_const measurable_fst).inter (measurableSet_le measurable_fst measurable_const)).inter
    ((measurableSet_lt measurable_const measurable_snd).inter ((measurableSet_lt measurable_const hE).inter
      ((measurableSet_le measurable_const hE).inter (measurableSet_le hE measurable_const))))

theorem joint_boost (v a b : ℝ) (ha : 0 ≤ a) (p : ℝ → ℝ → ℝ) :
    (jointLaw a b p).map (boost (-v)) =
      regionLaw (labRegion v a b) fun mu e => p (cmCos v mu e) (cmEnergy v mu e) * Real.sqrt (e / cmEnergy v mu e) := by
  ext B hB
  rw [Measure.map_apply (boost_measurable _) hB]
  unfold jointLaw regionLaw
  rw [withDensity_apply _ (boost_measurable _ hB), withDensity_apply _ hB, Measure.restrict_restrict (boost_measurable _ hB), Measure.restrict_restrict hB]
  have hae1 := offAxis_ae (R := boost (-v) ⁻¹' B ∩ Icc (-1) 1 ×ˢ Icc a b) (fun q hq => ⟨hq.2.1, ha.trans hq.2.2.1⟩)
  have hae2 := offAxis_ae (R := B ∩ labRegion v a b) (fun q hq => ⟨hq.2.1, hq.2.2.1.le⟩)
  rw [← Measure.restrict_congr_set hae1, ← Measure.restrict_congr_set hae2]
  have himg : boost (-v) ⁻¹' B ∩ Icc (-1) 1 ×ˢ Icc a b ∩ offAxis = boost v '' (B ∩ labRegion v a b ∩ offAxis) := by
    ext q
    constructor
    · rintro ⟨⟨h1, h2⟩, h3⟩
      have hb := boost_back (-v) h3
      rw [neg_neg] at hb
      have hm := boost_mem (-v) h3
      have he : cmEnergy v (boost (-v) q).1 (boost (-v) q).2 = q.2 := congrArg Prod.snd hb
      refine ⟨boost (-v) q, ⟨⟨h1, ⟨⟨hm.1.1.le, hm.1.2.le⟩, hm.2, ?_, ?_, ?_⟩⟩, hm⟩, hb⟩
      · rw [he]; exact h3.2
      · rw [he]; exact h2.2.1
      · rw [he]; exact h2.2.2
    · rintro ⟨x, ⟨⟨h1, h2⟩, h3⟩, rfl⟩
      have hm := boost_mem v h3
      refine ⟨⟨?_, ⟨hm.1.1.le, hm.1.2.le⟩, h2.2.2.2⟩, hm⟩
      show boost (-v) (boost v x) ∈ B
      rw [boost_back v h3]
      exact h1
  have hR : MeasurableSet (B ∩ labRegion v a b ∩ offAxis) := (hB.inter (labRegion_measurable v a b)).inter offAxis_measurable
  choose! L hL hdet using fun q (hq : q ∈ offAxis) => boost_fderiv v hq
  rw [himg, lintegral_image_eq_lintegral_abs_det_fderiv_mul volume hR (fun x hx => (hL x hx.2).hasFDerivWithinAt) ((boost_inj v).mono inter_subset_right)]
  refine setLIntegral_congr_fun hR fun x hx => ?_
  dsimp only
  rw [hdet x hx.2, abs_of_nonneg (Real.sqrt_nonneg _), mul_comm, ENNReal.ofReal_mul' (Real.sqrt_nonneg _)]
  rfl

theorem frame_closed (d : Nat → AE) (A q E a b : ℝ) (hE : 0 ≤ E) (hA : -1 < A) (ha : 0 ≤ a) (h : FaithfulAE d E a b) :
    ∃ p : ℝ → ℝ → ℝ, (∀ mu e, (mu, e) ∈ labRegion (Real.sqrt E / (A + 1)) a b → (⟨A, q, d 0⟩ : CMDist).pdf E mu e = .ok (some (p mu e))) ∧
      Closed (fun fuel ω k => asPair ((⟨A, q, d fuel⟩ : CMDist).sample E ω k)) (regionLaw (labRegion (Real.sqrt E / (A + 1)) a b) p) := by
  obtain ⟨p, h1, h2, h3⟩ := h
  obtain ⟨v, hv⟩ : ∃ v, v = Real.sqrt E / (A + 1) := ⟨_, rfl⟩
  rw [← hv]
  refine ⟨fun mu e => p (cmCos v mu e) (cmEnergy v mu e) * Real.sqrt (e / cmEnergy v mu e), ?_, ?_⟩
  · rintro mu e ⟨m, m3, m4, m5, m6⟩
    have hmap := C72_map E A mu e hE hA m3 (by rw [← hv]; exact m4)
    rw [← hv] at hmap
    have hcos := C45_cosine_cm E A mu e _ _ hE hA m3 m.1 m.2 hmap
    have := C71_joint (⟨A, q, d 0⟩ : CMDist) E mu e (p (cmCos v mu e) (cmEnergy v mu e)) hE hA m3 (by rw [← hv]; exact m4)
      (by rw [← hv]; exact (h1 0 _ _ hcos.1 hcos.2.1 m5 m6).1)
    rw [← hv] at this
    exact this
  · rw [← joint_boost v a b ha p]
    have hcl := closed_map h3 (F := fun x => cmToLab E A x.1 x.2) (f := boost (-v)) (boost_measurable _) (by
      have hmem : ∀ᵐ x ∂(volume.restrict (Icc (-1) 1 ×ˢ Icc a b) : Measure (ℝ × ℝ)), x ∈ offAxis := by
        rw [← Measure.restrict_congr_set (offAxis_ae (R := Icc (-1) 1 ×ˢ Icc a b) (fun q hq => ⟨hq.1, ha.trans hq.2.1⟩))]
        filter_upwards [ae_restrict_mem ((measurableSet_Icc.prod measurableSet_Icc).inter offAxis_measurable)] with x hx using hx.2
      have hmem' : ∀ᵐ x ∂jointLaw a b p, x ∈ offAxis := (withDensity_absolutelyContinuous _ _).ae_le hmem
      filter_upwards [hmem'] with x hx
      have hpos := boost_energy_pos (-v) hx
      have h0 : 0 < x.2 := hx.2
      have e1 : cmEnergy (-v) x.1 x.2 = x.2 + 2 * x.1 * Real.sqrt x.2 * (Real.sqrt E / (A + 1)) + (Real.sqrt E / (A + 1)) ^ 2 := by
        unfold cmEnergy
        rw [hv]
        ring
      rw [cmToLab_eq hE hA h0.le (by rw [← e1]; exact hpos), ← e1, ← hv]
      unfold boost cmCos
      rw [sub_neg_eq_add])
    refine hcl.of_eq (run' := fun fuel ω k => asPair ((⟨A, q, d fuel⟩ : CMDist).sample E ω k)) fun fuel ω k => ?_
    unfold CMDist.sample asPair
    cases (d fuel).sample E ω k with
    | error e => rfl
    | ok r =>
      simp only [bind, Except.bind, Except.map]
      cases cmToLab E A r.1 r.2.1 <;> rfl

/-- **C117** Cosines and energies drawn in the centre of mass with the density the centre of mass distribution reports, for energies in
`[a, b]`, come out in the laboratory with the density the laboratory distribution reports, on exactly the cosines and energies whose
centre of mass energy is in `[a, b]`. -/
theorem C117_law (d : Nat → AE) (A q E a b : ℝ) (hE : 0 ≤ E) (hA : -1 < A) (ha : 0 ≤ a) (h : FaithfulAE d E a b) (k : Nat) :
    SamplesRegion (fun fuel ω => (⟨A, q, d fuel⟩ : CMDist).sample E ω k) (labRegion (Real.sqrt E / (A + 1)) a b) ((⟨A, q, d 0⟩ : CMDist).pdf E) := by
  obtain ⟨p, h1, h2⟩ := frame_closed d A q E a b hE hA ha h
  exact ⟨p, h1, h2.samples k⟩

theorem constTab_above (c : ℝ) {x : ℝ} (hx : 1 ≤ x) : (constTab c).eval x = .ok c := by
  have h : ¬ x ≤ 0 := by linarith
  simp [constTab, Tab1D.eval, Region.eval, front, back, getAt, bind, Except.bind, h, hx]

/-- An isotropic evaporation spectrum in the centre of mass of a neutron of energy 8 and a target of mass 1: the region is the disc of
velocities around `√2` of radius 3. -/
example (k : Nat) : SamplesRegion (fun fuel ω => (⟨1, 0, (Law.uncorrelated evapU).toAE fuel⟩ : CMDist).sample 8 ω k) (labRegion (Real.sqrt 8 / 2) 0 9)
    ((⟨1, 0, (Law.uncorrelated evapU).toAE 0⟩ : CMDist).pdf 8) := by
  have hs : SoundOne (.uncorrelated evapU) 8 0 9 := by
    refine ⟨⟨rfl, by simp [evapU], by simp [evapU]⟩, ?_, 2, constTab_above 2 (by norm_num), by norm_num, by norm_num, le_rfl, by norm_num⟩
    intro law hl
    simp only [evapU, List.mem_cons, List.not_mem_nil, or_false] at hl
    subst hl
    trivial
  have := C117_law (fun fuel => (Law.uncorrelated evapU).toAE fuel) 1 0 8 0 9 (by norm_num) (by norm_num) le_rfl (one_faithful hs) k
  rwa [show (1 : ℝ) + 1 = 2 by norm_num] at this

end PNDL
