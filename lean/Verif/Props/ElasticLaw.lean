import Verif.Props.SvtLaw
import Verif.Props.Elastic
import Verif.Props.AngleLaw
import Verif.Props.EnergyLaw

/-! C121: the law of elastically scattered neutrons when the target is taken at rest (src/elastic.cpp). -/
namespace PNDL
open MeasureTheory Spec Set
open scoped ENNReal Real

/-- Elastic scattering with the angular distribution `d`, `fuel` bounding its rejection loops. -/
noncomputable def Elastic.ofDist (d : AngleDist) (awr kT : ℝ) (useTar : Bool) (tar : ℝ) (b : Option Broadener) (fuel : Nat) : Elastic :=
  ⟨fun E ω k => d.sample fuel E ω k, awr, kT, useTar, tar, b⟩

/-- Two-body kinematics, target at rest: the energy after a deflection by the centre-of-mass cosine `m`. -/
noncomputable def Spec.restEnergy (A E m : ℝ) : ℝ := E * (A ^ 2 + 2 * A * m + 1) / (A + 1) ^ 2

/-- Two-body kinematics, target at rest: the laboratory cosine. -/
noncomputable def Spec.restCosine (A m : ℝ) : ℝ := (1 + A * m) / Real.sqrt (A ^ 2 + 2 * A * m + 1)

/-- The collision for given values of the two quantities drawn. -/
noncomputable def restHit (A kT tar : ℝ) (b : Option Broadener) (E : ℝ) (q : ℝ × ℝ) : Res (ℝ × ℝ) :=
  ((Elastic.mk (fun _ _ k => .ok (q.1, k)) A kT true tar b).sample E (fun _ => q.2) 0).map fun r => (r.1, r.2.1)

theorem restHit_ok {A kT tar E : ℝ} (hA : 0 < A) (hE : 0 < E) (b : Option Broadener) (ht : tar * kT ≤ E) (m x : ℝ) (h1 : -1 ≤ m) (h2 : m ≤ 1)
    (h3 : A = 1 → -1 < m) :
    restHit A kT tar b E (m, x) = .ok (restCosine A m, restEnergy A E m) := by
  obtain ⟨mu, Eo, h⟩ := C48_defined (Elastic.mk (fun _ _ k => .ok (m, k)) A kT true tar b) hA E hE (fun _ => x) 0 m 0 ⟨rfl, ht⟩ rfl
    (fun hc => absurd hc.2 (not_le.mpr (h3 hc.1)))
  obtain ⟨m', k1, a1, a2, _, _, _, _, a3⟩ := C48_target_at_rest _ hA E hE (fun _ => x) 0 mu Eo _ ⟨rfl, ht⟩ h
  cases a1
  have hc : clip m (-1) 1 = m := by unfold clip; rw [min_eq_left h2, max_eq_right h1]
  rw [hc] at a2 a3
  simp only at a2 a3
  unfold restHit
  rw [h]
  have hA1 : 0 < A + 1 := by linarith
  have hq : 0 < A ^ 2 + 2 * A * m + 1 := by
    by_cases h : A = 1
    · have := h3 h
      nlinarith [sq_nonneg (A - 1)]
    · have : 0 < (A - 1) ^ 2 := lt_of_le_of_ne (sq_nonneg _) (Ne.symm (pow_ne_zero 2 (sub_ne_zero.mpr h)))
      nlinarith
  have hs : Real.sqrt Eo = Real.sqrt E * Real.sqrt (A ^ 2 + 2 * A * m + 1) / (A + 1) := by
    rw [a2, Real.sqrt_div (by positivity), Real.sqrt_mul hE.le, Real.sqrt_sq hA1.le]
  rw [hs] at a3
  have hE' := Real.sqrt_pos.mpr hE
  have hq' := Real.sqrt_pos.mpr hq
  simp only [Except.map, Except.ok.injEq, Prod.mk.injEq]
  refine ⟨?_, a2⟩
  unfold restCosine
  rw [eq_div_iff hq'.ne']
  have hne : Real.sqrt E / (A + 1) ≠ 0 := by positivity
  refine mul_right_cancel₀ hne ?_
  linear_combination a3

theorem measurable_restEnergy (A E : ℝ) : Measurable (restEnergy A E) := by unfold restEnergy; fun_prop

theorem measurable_restCosine (A : ℝ) : Measurable (restCosine A) := by unfold restCosine; fun_prop

/-- The samples of elastic scattering from a target at rest, for any law of the centre-of-mass cosine (without an atom at -1 if the masses are equal). -/
theorem rest_closed_any {d : AngleDist} {A kT tar E : ℝ} {b : Option Broadener} {ν : Measure ℝ} (hA : 0 < A) (hE : 0 < E) (ht : tar * kT ≤ E)
    (hd : Closed (fun fuel ω k => d.sample fuel E ω k) ν) (hν : ∀ᵐ m ∂ν, -1 ≤ m ∧ m ≤ 1 ∧ (A = 1 → -1 < m)) :
    Closed (fun fuel ω k => asPair ((Elastic.ofDist d A kT true tar b fuel).sample E ω k)) (ν.map fun m => (restCosine A m, restEnergy A E m)) := by
  have hp := hd.prob
  have c2 : Closed (fun (_ : Nat) (ω : Tape) (k : Nat) => ((Except.ok (ω k) : Res ℝ)).map fun x => (x, k + 1)) (Spec.unif.map id) :=
    closed_one (g := fun x => .ok x) measurable_id fun _ _ _ => rfl
  rw [Measure.map_id] at c2
  have h1 := closed_bind hd (c2.lift ν)
  have hm : Measurable fun q : ℝ × ℝ => (restCosine A q.1, restEnergy A E q.1) :=
    ((measurable_restCosine A).comp measurable_fst).prodMk ((measurable_restEnergy A E).comp measurable_fst)
  have h2 := closed_map h1 (F := restHit A kT tar b E) hm (by
    have : ∀ᵐ q ∂ν.prod Spec.unif, -1 ≤ q.1 ∧ q.1 ≤ 1 ∧ (A = 1 → -1 < q.1) := Measure.quasiMeasurePreserving_fst.ae hν
    filter_upwards [this] with q hq
    exact restHit_ok hA hE b ht q.1 q.2 hq.1 hq.2.1 hq.2.2)
  have hl : (ν.prod Spec.unif).map (fun q : ℝ × ℝ => (restCosine A q.1, restEnergy A E q.1)) = ν.map fun m => (restCosine A m, restEnergy A E m) := by
    have hmm : Measurable fun m => (restCosine A m, restEnergy A E m) := (measurable_restCosine A).prodMk (measurable_restEnergy A E)
    have : (fun q : ℝ × ℝ => (restCosine A q.1, restEnergy A E q.1)) = (fun m => (restCosine A m, restEnergy A E m)) ∘ Prod.fst := rfl
    rw [this, ← Measure.map_map hmm measurable_fst, Measure.map_fst_prod, measure_univ, one_smul]
  rw [hl] at h2
  refine h2.of_eq (run' := fun fuel ω k => asPair ((Elastic.ofDist d A kT true tar b fuel).sample E ω k)) fun fuel ω k => ?_
  have hA1 : A + 1 ≠ 0 := by linarith
  obtain ⟨w, hw⟩ : ∃ w : Vec, (((Vec.mk 0 0 1).smul (Real.sqrt E)).add ((Vec.mk 0 0 0).smul A)).sdiv (A + 1) = .ok w := ⟨_, sdiv_ok hA1⟩
  obtain ⟨U, hU⟩ : ∃ U : Vec, (((Vec.mk 0 0 1).smul (Real.sqrt E)).sub w).sdiv (((Vec.mk 0 0 1).smul (Real.sqrt E)).sub w).mag = .ok U := by
    refine ⟨_, sdiv_ok fun h0 => ?_⟩
    have hs := mag_sq (((Vec.mk 0 0 1).smul (Real.sqrt E)).sub w)
    rw [h0] at hs
    rw [sdiv_ok hA1] at hw
    cases hw
    simp only [Vec.add, Vec.smul, Vec.sub, mul_zero, zero_mul, add_zero, zero_div, sub_zero, one_mul] at hs
    have hE' := Real.sqrt_pos.mpr hE
    have : Real.sqrt E - Real.sqrt E / (A + 1) = Real.sqrt E * A / (A + 1) := by field_simp; ring
    rw [this] at hs
    have : 0 < Real.sqrt E * A / (A + 1) := by positivity
    nlinarith
  unfold restHit asPair
  simp only [Elastic.sample, Elastic.ofDist, Elastic.collide, csqrt_ok hE.le, bind, Except.bind, ht, ge_iff_le, and_self, if_true, hw, hU]
  cases d.sample fuel E ω k with
  | error e => rfl
  | ok r =>
    simp only [Except.map, pure, Except.pure]
    cases U.rotate r.1 (2 * π * ω r.2) with
    | error e => rfl
    | ok D =>
      simp only
      cases ((D.smul (((Vec.mk 0 0 1).smul (Real.sqrt E)).sub w).mag).add w).sdiv ((D.smul (((Vec.mk 0 0 1).smul (Real.sqrt E)).sub w).mag).add w).mag with
      | error e => rfl
      | ok u => rfl

/-- The same for a law without an atom at -1. -/
theorem rest_closed {d : AngleDist} {A kT tar E : ℝ} {b : Option Broadener} {ν : Measure ℝ} (hA : 0 < A) (hE : 0 < E) (ht : tar * kT ≤ E)
    (hd : Closed (fun fuel ω k => d.sample fuel E ω k) ν) (hν : ∀ᵐ m ∂ν, -1 < m ∧ m ≤ 1) :
    Closed (fun fuel ω k => asPair ((Elastic.ofDist d A kT true tar b fuel).sample E ω k)) (ν.map fun m => (restCosine A m, restEnergy A E m)) :=
  rest_closed_any hA hE ht hd (hν.mono fun _ h => ⟨h.1.le, h.2, fun _ => h.1⟩)

/-- Cosines with a density are above -1. -/
theorem densityOn_inside {p : ℝ → ℝ} : ∀ᵐ m ∂densityOn (-1) 1 p, -1 < m ∧ m ≤ 1 := by
  refine (withDensity_absolutelyContinuous _ _).ae_le ?_
  have h1 : ∀ᵐ m ∂(volume.restrict (Icc (-1 : ℝ) 1)), m ≠ -1 := ae_restrict_of_ae (by
    rw [ae_iff]; simp)
  filter_upwards [h1, ae_restrict_mem measurableSet_Icc] with m a b
  exact ⟨lt_of_le_of_ne b.1 (Ne.symm a), b.2⟩

theorem restEnergy_affine {A E : ℝ} (hA : 0 < A) (m : ℝ) :
    restEnergy A E m = ((A - 1) / (A + 1)) ^ 2 * E + (m - (-1)) / (1 - (-1)) * (E - ((A - 1) / (A + 1)) ^ 2 * E) := by
  unfold restEnergy
  field_simp
  ring

/-- The law of the energy. -/
theorem rest_energy_closed {d : AngleDist} {A kT tar E : ℝ} {b : Option Broadener} {p : ℝ → ℝ} (hA : 0 < A) (hE : 0 < E) (ht : tar * kT ≤ E)
    (hd : Closed (fun fuel ω k => d.sample fuel E ω k) (densityOn (-1) 1 p)) :
    Closed (fun fuel ω k => ((Elastic.ofDist d A kT true tar b fuel).sample E ω k).map fun r => (r.2.1, r.2.2))
      (densityOn (((A - 1) / (A + 1)) ^ 2 * E) E fun e => p (((A + 1) ^ 2 * e / E - A ^ 2 - 1) / (2 * A)) * ((A + 1) ^ 2 / (2 * A * E))) := by
  have h1 := rest_closed (b := b) hA hE ht hd densityOn_inside
  have h2 := closed_map h1 (F := fun q => .ok q.2) measurable_snd (Filter.Eventually.of_forall fun _ => rfl)
  have hA1 : 0 < A + 1 := by linarith
  have hlt : ((A - 1) / (A + 1)) ^ 2 * E < E := by
    have : ((A - 1) / (A + 1)) ^ 2 < 1 := by
      rw [div_pow, div_lt_one (by positivity)]; nlinarith
    nlinarith
  have hmm : Measurable fun m => (restCosine A m, restEnergy A E m) := (measurable_restCosine A).prodMk (measurable_restEnergy A E)
  rw [Measure.map_map measurable_snd hmm] at h2
  have e1 : (Prod.snd ∘ fun m => (restCosine A m, restEnergy A E m)) =
      fun m => ((A - 1) / (A + 1)) ^ 2 * E + (m - (-1)) / (1 - (-1)) * (E - ((A - 1) / (A + 1)) ^ 2 * E) := by
    funext m
    exact restEnergy_affine hA m
  rw [e1, densityOn_affine (by norm_num) hlt] at h2
  have e2 : (fun y => (1 - -1) / (E - ((A - 1) / (A + 1)) ^ 2 * E) *
      p ((y - ((A - 1) / (A + 1)) ^ 2 * E) / (E - ((A - 1) / (A + 1)) ^ 2 * E) * (1 - -1) + -1)) =
      fun e => p (((A + 1) ^ 2 * e / E - A ^ 2 - 1) / (2 * A)) * ((A + 1) ^ 2 / (2 * A * E)) := by
    funext y
    have hw : E - ((A - 1) / (A + 1)) ^ 2 * E = 4 * A * E / (A + 1) ^ 2 := by field_simp; ring
    rw [hw, mul_comm]
    congr 1
    · congr 1
      field_simp
      ring
    · field_simp
      norm_num
  rw [e2] at h2
  refine h2.of_eq (run' := fun fuel ω k => ((Elastic.ofDist d A kT true tar b fuel).sample E ω k).map fun r => (r.2.1, r.2.2)) fun fuel ω k => ?_
  unfold asPair
  cases (Elastic.ofDist d A kT true tar b fuel).sample E ω k <;> rfl

/-- **C121** With the target at rest, the energies returned by elastic scattering have on `[((A-1)/(A+1))² E, E]` the density that follows from the
angular density reported in the centre of mass and two-body kinematics. -/
theorem C121_energy_partial (d : AngleDist) (hv : ValidDist d) (hl : ∀ law ∈ d.laws, SoundLaw law) (A kT tar E : ℝ) (hA : 0 < A) (hE : 0 < E)
    (ht : tar * kT ≤ E) (b : Option Broadener) (k : Nat) :
    ∃ p : ℝ → ℝ, (∀ mu, -1 ≤ mu → mu ≤ 1 → d.pdf E mu = .ok (p mu)) ∧
      SamplesDensity (fun fuel ω => ((Elastic.ofDist d A kT true tar b fuel).sample E ω k).map fun r => (r.2.1, r.2.2)) (((A - 1) / (A + 1)) ^ 2 * E) E
        fun e => p (((A + 1) ^ 2 * e / E - A ^ 2 - 1) / (2 * A)) * ((A + 1) ^ 2 / (2 * A * E)) := by
  obtain ⟨p, h1, _, h3⟩ := dist_faithful d hv (fun law h => sound_faithful (hl law h)) E
  exact ⟨p, fun mu a b => (h1 mu a b).1, (rest_energy_closed hA hE ht h3).samples k⟩

/-- Cosine and energy together: what two-body kinematics makes of a cosine drawn from the reported angular density. -/
theorem C121_joint_partial (d : AngleDist) (hv : ValidDist d) (hl : ∀ law ∈ d.laws, SoundLaw law) (A kT tar E : ℝ) (hA : 0 < A) (hE : 0 < E)
    (ht : tar * kT ≤ E) (b : Option Broadener) (k : Nat) :
    ∃ p : ℝ → ℝ, (∀ mu, -1 ≤ mu → mu ≤ 1 → d.pdf E mu = .ok (p mu)) ∧
      Samples (fun fuel ω => asPair ((Elastic.ofDist d A kT true tar b fuel).sample E ω k))
        (((volume.restrict (Icc (-1) 1)).withDensity fun m => ENNReal.ofReal (p m)).map fun m => (restCosine A m, restEnergy A E m)) := by
  obtain ⟨p, h1, _, h3⟩ := dist_faithful d hv (fun law h => sound_faithful (hl law h)) E
  exact ⟨p, fun mu a b => (h1 mu a b).1, (rest_closed hA hE ht h3 densityOn_inside).samples k⟩

theorem iso_dist_pdf (d : AngleDist) (hv : ValidDist d) (hl : ∀ law ∈ d.laws, law = .isotropic) (E mu : ℝ) (h1 : -1 ≤ mu) (h2 : mu ≤ 1) :
    d.pdf E mu = .ok (1 / 2) := by
  have hpos : 0 < d.energy.length := List.length_pos_iff.mpr hv.ne
  obtain ⟨mn, hmn⟩ := getElem?_of_lt (l := d.energy) (i := 0) (by omega)
  obtain ⟨mx, hmx⟩ := last_exists hpos
  have hi : AngleLaw.isotropic.pdf mu = .ok (1 / 2) := by
    show Except.ok (isoPdf mu) = _
    unfold isoPdf
    rw [if_neg (by push Not; exact ⟨h1, h2⟩)]
    norm_num
  rcases AngleDist.find_cases hv E mn mx hmn hmx with ⟨law, _, a2, a3⟩ | ⟨law, _, a2, a3⟩ | ⟨i, e0, e1, a, b, _, _, he0, he1, ha, hb, b0, b1, a3⟩
  · unfold AngleDist.pdf
    rw [a3, hl law (List.mem_of_getElem? a2)]
    exact hi
  · unfold AngleDist.pdf
    rw [a3, hl law (List.mem_of_getLast? a2)]
    exact hi
  · unfold AngleDist.pdf
    rw [a3, hl a (List.mem_of_getElem? ha), hl b (List.mem_of_getElem? hb)]
    simp only [bind, Except.bind, hi, pure, Except.pure, Except.ok.injEq]
    ring

/-- Isotropic scattering in the centre of mass: the energy is uniform on `[((A-1)/(A+1))² E, E]`. -/
theorem C121_isotropic (d : AngleDist) (hv : ValidDist d) (hl : ∀ law ∈ d.laws, law = .isotropic) (A kT tar E : ℝ) (hA : 0 < A) (hE : 0 < E)
    (ht : tar * kT ≤ E) (b : Option Broadener) (k : Nat) :
    SamplesDensity (fun fuel ω => ((Elastic.ofDist d A kT true tar b fuel).sample E ω k).map fun r => (r.2.1, r.2.2))
      (((A - 1) / (A + 1)) ^ 2 * E) E fun _ => 1 / (E - ((A - 1) / (A + 1)) ^ 2 * E) := by
  obtain ⟨p, h1, h2⟩ := C121_energy_partial d hv (fun law h => by rw [hl law h]; trivial) A kT tar E hA hE ht b k
  have hA1 : 0 < A + 1 := by linarith
  have hcongr := densityOn_congr (a := ((A - 1) / (A + 1)) ^ 2 * E) (b := E)
    (p := fun e => p (((A + 1) ^ 2 * e / E - A ^ 2 - 1) / (2 * A)) * ((A + 1) ^ 2 / (2 * A * E)))
    (q := fun _ => 1 / (E - ((A - 1) / (A + 1)) ^ 2 * E)) (by
    intro e a b
    have hw : E - ((A - 1) / (A + 1)) ^ 2 * E = 4 * A * E / (A + 1) ^ 2 := by field_simp; ring
    have a' : (A - 1) ^ 2 ≤ (A + 1) ^ 2 * e / E := by
      rw [le_div_iff₀ hE]
      rw [div_pow, div_mul_eq_mul_div, div_le_iff₀ (by positivity)] at a
      linarith
    have b' : (A + 1) ^ 2 * e / E ≤ (A + 1) ^ 2 := by
      rw [div_le_iff₀ hE]
      exact mul_le_mul_of_nonneg_left b (by positivity)
    have hm1 : -1 ≤ ((A + 1) ^ 2 * e / E - A ^ 2 - 1) / (2 * A) := by
      rw [le_div_iff₀ (by positivity)]; nlinarith
    have hm2 : ((A + 1) ^ 2 * e / E - A ^ 2 - 1) / (2 * A) ≤ 1 := by
      rw [div_le_one (by positivity)]; nlinarith
    have h3 := h1 _ hm1 hm2
    rw [iso_dist_pdf d hv hl E _ hm1 hm2] at h3
    have h3 := Except.ok.inj h3
    rw [← h3, hw]
    field_simp
    norm_num)
  unfold SamplesDensity at h2 ⊢
  unfold densityOn at hcongr
  rw [← hcongr]
  exact h2

/-- Non-vacuity: the default (isotropic) angular distribution and a target of mass ratio 12. -/
example : SamplesDensity (fun fuel ω => ((Elastic.ofDist ⟨[1, 200], [.isotropic, .isotropic]⟩ 12 1 true 400 none fuel).sample 1000 ω 0).map fun r => (r.2.1, r.2.2))
    ((((12 : ℝ) - 1) / (12 + 1)) ^ 2 * 1000) 1000 fun _ => 1 / (1000 - ((12 - 1) / (12 + 1)) ^ 2 * 1000) :=
  C121_isotropic _ ⟨by simp, by simp, by norm_num⟩ (by simp) 12 1 400 1000 (by norm_num) (by norm_num) (by norm_num) none 0

end PNDL
