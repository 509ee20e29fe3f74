import Verif.Model.CMDist
import Verif.Props.FrameAngle
import Mathlib.Analysis.SpecialFunctions.Sqrt
import Mathlib.Analysis.Calculus.Deriv.Inv
import Mathlib.Analysis.Calculus.Deriv.MeanValue

/-! C71, C72, C74: Jacobians of the frame change, distributions given in the centre of mass, level scattering. -/
namespace PNDL
open Spec

/-! ## C72 -/

/-- The derivative of the lab cosine with respect to the CM cosine. -/
theorem labCos_hasDerivAt (g x : ℝ) (hD : 0 < 1 + 2 * g * x + g ^ 2) :
    HasDerivAt (labCos g) ((1 + g * x) / ((1 + 2 * g * x + g ^ 2) * Real.sqrt (1 + 2 * g * x + g ^ 2))) x := by
  have hs : 0 < Real.sqrt (1 + 2 * g * x + g ^ 2) := Real.sqrt_pos.mpr hD
  have hss : Real.sqrt (1 + 2 * g * x + g ^ 2) ^ 2 = 1 + 2 * g * x + g ^ 2 := Real.sq_sqrt hD.le
  have h1 : HasDerivAt (fun x : ℝ => g + x) 1 x := (hasDerivAt_id x).const_add g
  have h2 : HasDerivAt (fun x : ℝ => 1 + 2 * g * x + g ^ 2) (2 * g) x := by
    have := (((hasDerivAt_id x).const_mul (2 * g)).const_add 1).add_const (g ^ 2)
    simpa using this
  have h3 := h1.div (h2.sqrt hD.ne') hs.ne'
  unfold labCos
  refine h3.congr_deriv ?_
  obtain ⟨s, hs'⟩ : ∃ s, s = Real.sqrt (1 + 2 * g * x + g ^ 2) := ⟨_, rfl⟩
  rw [← hs'] at hs hss ⊢
  rw [← hss]
  field_simp
  linear_combination hss

/-- **C72** The Jacobian computed from `Q` is the derivative of the CM cosine with respect to the lab cosine: the reciprocal of the derivative
of the kinematic map at the CM cosine `x`, away from the two singular directions. -/
theorem C72_angle_from_Q (Ein A Q g x : ℝ) (hg : frameG Ein A Q = .ok g) (h1 : -1 < x) (h2 : x < 1) (hmu : g + x ≠ 0)
    (hr : 1 + g * x ≠ 0) :
    ∃ d, HasDerivAt (labCos g) d x ∧ d ≠ 0 ∧ angleJacobianQ Ein A Q (labCos g x) x = .ok d⁻¹ := by
  have hx2 : 0 < 1 - x * x := by nlinarith
  have hD : 0 < 1 + 2 * g * x + g ^ 2 := by nlinarith [sq_nonneg (g + x)]
  have hs : 0 < Real.sqrt (1 + 2 * g * x + g ^ 2) := Real.sqrt_pos.mpr hD
  have hss : Real.sqrt (1 + 2 * g * x + g ^ 2) ^ 2 = 1 + 2 * g * x + g ^ 2 := Real.sq_sqrt hD.le
  refine ⟨_, labCos_hasDerivAt g x hD, div_ne_zero hr (mul_pos hD hs).ne', ?_⟩
  have hq : 0 < Real.sqrt (1 - x * x) := Real.sqrt_pos.mpr hx2
  have hsin : 1 - labCos g x * labCos g x = (1 - x * x) / (1 + 2 * g * x + g ^ 2) := by
    unfold labCos
    rw [div_mul_div_comm, ← sq, ← sq, hss, eq_div_iff hD.ne', sub_mul, div_mul_cancel₀ _ hD.ne']
    ring
  have hmm : labCos g x * labCos g x = (g + x) ^ 2 / (1 + 2 * g * x + g ^ 2) := by
    unfold labCos
    rw [div_mul_div_comm, ← sq, ← sq, hss]
  unfold angleJacobianQ
  rw [hg]
  simp only [bind, Except.bind]
  rw [csqrt_ok hx2.le]
  simp only
  rw [hsin, csqrt_ok (div_nonneg hx2.le hD.le)]
  simp only
  rw [hmm, Real.sqrt_div hx2.le]
  obtain ⟨s, hs'⟩ : ∃ s, s = Real.sqrt (1 + 2 * g * x + g ^ 2) := ⟨_, rfl⟩
  obtain ⟨q, hq'⟩ : ∃ q, q = Real.sqrt (1 - x * x) := ⟨_, rfl⟩
  rw [← hs'] at hs hss ⊢
  rw [← hq'] at hq ⊢
  rw [rdiv_ok (by
    refine mul_ne_zero (mul_ne_zero (div_ne_zero (pow_ne_zero 2 hmu) hD.ne') hr) (div_pos hq hs).ne')]
  congr 1
  rw [inv_div]
  field_simp

/-- **C72** The `g` used is the ratio of the speed of the centre of mass to the speed of the emitted particle in it, for a two-body reaction:
the particle takes the share `A/(A+1)` of the energy `A Ein/(A+1) + Q`. -/
theorem C72_speed_ratio (Ein A Q : ℝ) (hE : 0 < Ein) (hA : 0 < A) (hQ : 0 < A * Ein / (A + 1) + Q) :
    frameG Ein A Q = .ok (Real.sqrt Ein / (A + 1) / Real.sqrt (A / (A + 1) * (A * Ein / (A + 1) + Q))) := by
  have hA1 : 0 < A + 1 := by linarith
  unfold frameG
  simp only [bind, Except.bind]
  rw [rdiv_ok hA1.ne', rdiv_ok (by positivity)]
  simp only
  rw [rdiv_ok hQ.ne']
  simp only
  have hnn : 0 ≤ 1 / (A * A) * (A * Ein / (A + 1) / (A * Ein / (A + 1) + Q)) := by positivity
  rw [csqrt_ok hnn]
  congr 1
  rw [Real.sqrt_eq_iff_mul_self_eq hnn (by positivity)]
  rw [← sq (Real.sqrt Ein / (A + 1) / _), div_pow, div_pow, Real.sq_sqrt hE.le, Real.sq_sqrt (by positivity)]
  obtain ⟨W, hW⟩ : ∃ W, W = A * Ein / (A + 1) + Q := ⟨_, rfl⟩
  rw [← hW] at hQ ⊢
  field_simp

/-- **C72** The Jacobian computed from the outgoing energy is the derivative of the CM cosine with respect to the lab cosine at fixed CM energy. -/
theorem C72_angle_from_energy (Ein A mu E x Ec : ℝ) (hE : 0 ≤ Ein) (hA : -1 < A) (h : 0 < E) (hc : labToCm Ein A mu E = .ok (x, Ec))
    (hr : mu * (Real.sqrt Ein / (A + 1)) ≠ Real.sqrt E) :
    labCos (Real.sqrt Ein / (A + 1) / Real.sqrt Ec) x = mu ∧
    ∃ d, HasDerivAt (labCos (Real.sqrt Ein / (A + 1) / Real.sqrt Ec)) d x ∧ d ≠ 0 ∧ angleJacobianE Ein A mu E = .ok d⁻¹ := by
  have hA' : 0 < A + 1 := by linarith
  have hsE : 0 < Real.sqrt E := Real.sqrt_pos.mpr h
  by_cases hpos : 0 < E - 2 * mu * Real.sqrt E * (Real.sqrt Ein / (A + 1)) + (Real.sqrt Ein / (A + 1)) ^ 2
  swap
  · rw [labToCm_fails hE hA h (not_lt.mp hpos)] at hc
    cases hc
  rw [labToCm_eq hE hA h hpos] at hc
  simp only [Except.ok.injEq, Prod.mk.injEq] at hc
  obtain ⟨hx, hEc⟩ := hc
  rw [hEc] at hpos hx
  have e : E - (Ein + 2 * (A + 1) * Real.sqrt (Ein * E) * (mu - 1 / (A + 1) * Real.sqrt (Ein / E))) / ((A + 1) * (A + 1)) = Ec := by
    rw [← hEc, Real.sqrt_mul hE, Real.sqrt_div hE]
    have h1 : Real.sqrt Ein ^ 2 = Ein := Real.sq_sqrt hE
    field_simp
    linear_combination h1
  have hden : mu / (A + 1) * Real.sqrt (Ein / E) = mu * (Real.sqrt Ein / (A + 1)) / Real.sqrt E := by
    rw [Real.sqrt_div hE]; field_simp
  have hJ : angleJacobianE Ein A mu E = rdiv (Real.sqrt (E / Ec)) (1 - mu * (Real.sqrt Ein / (A + 1)) / Real.sqrt E) := by
    unfold angleJacobianE
    rw [csqrt_ok (mul_nonneg hE h.le)]
    simp only [bind, Except.bind]
    rw [rdiv_ok hA'.ne', rdiv_ok h.ne']
    simp only
    rw [csqrt_ok (by positivity)]
    simp only
    rw [rdiv_ok (by positivity)]
    simp only [e]
    rw [rdiv_ok hpos.ne']
    simp only
    rw [csqrt_ok (by positivity), rdiv_ok hA'.ne']
    simp only
    rw [hden]
  rw [hJ]
  clear hJ hden e
  have hcE : Real.sqrt Ec ^ 2 = Ec := Real.sq_sqrt hpos.le
  have hsq : Real.sqrt E ^ 2 = E := Real.sq_sqrt h.le
  have hc0 : 0 < Real.sqrt Ec := Real.sqrt_pos.mpr hpos
  rw [Real.sqrt_div h.le]
  obtain ⟨v, hv⟩ : ∃ v, v = Real.sqrt Ein / (A + 1) := ⟨_, rfl⟩
  obtain ⟨s, hs⟩ : ∃ s, s = Real.sqrt E := ⟨_, rfl⟩
  obtain ⟨c, hc⟩ : ∃ c, c = Real.sqrt Ec := ⟨_, rfl⟩
  rw [← hv, ← hs] at hEc
  rw [← hv, ← hs, ← hc] at hx
  rw [← hv, ← hs] at hr
  rw [← hs] at hsE hsq
  rw [← hc] at hc0 hcE
  rw [← hv, ← hs, ← hc]
  subst hx
  have hD : 1 + 2 * (v / c) * ((mu * s - v) / c) + (v / c) ^ 2 = (s / c) ^ 2 := by
    field_simp
    linear_combination hcE + hEc.symm - hsq
  have hDs : Real.sqrt (1 + 2 * (v / c) * ((mu * s - v) / c) + (v / c) ^ 2) = s / c := by
    rw [hD, Real.sqrt_sq (div_pos hsE hc0).le]
  have hDpos : 0 < 1 + 2 * (v / c) * ((mu * s - v) / c) + (v / c) ^ 2 := by rw [hD]; positivity
  have hfac : 1 + v / c * ((mu * s - v) / c) = s * (s - mu * v) / c ^ 2 := by
    field_simp
    linear_combination hcE + hEc.symm - hsq
  have hne : s - mu * v ≠ 0 := sub_ne_zero.mpr (Ne.symm hr)
  refine ⟨?_, _, labCos_hasDerivAt _ _ hDpos, ?_, ?_⟩
  · unfold labCos
    rw [hDs]
    field_simp
    ring
  · rw [hfac]
    exact div_ne_zero (div_ne_zero (mul_ne_zero hsE.ne' hne) (pow_ne_zero 2 hc0.ne')) (mul_pos hDpos (by rw [hDs]; positivity)).ne'
  · rw [hfac, hDs, hD]
    have h1 : 1 - mu * v / s ≠ 0 := by
      intro h0
      apply hne
      field_simp at h0
      linarith
    rw [rdiv_ok h1]
    congr 1
    rw [inv_div]
    have h2 : 1 - mu * v / s = (s - mu * v) / s := by field_simp
    rw [h2]
    field_simp

/-- The CM energy of a particle of lab cosine `mu` and energy `E`, `v` being the speed of the centre of mass. -/
noncomputable def Spec.cmEnergy (v mu E : ℝ) : ℝ := E - 2 * mu * Real.sqrt E * v + v ^ 2

/-- Its CM cosine. -/
noncomputable def Spec.cmCos (v mu E : ℝ) : ℝ := (mu * Real.sqrt E - v) / Real.sqrt (cmEnergy v mu E)

/-- **C72** The map whose determinant is meant is the one `LabToCM::transform` computes. -/
theorem C72_map (Ein A mu E : ℝ) (hE : 0 ≤ Ein) (hA : -1 < A) (h : 0 < E) (hc : 0 < cmEnergy (Real.sqrt Ein / (A + 1)) mu E) :
    labToCm Ein A mu E = .ok (cmCos (Real.sqrt Ein / (A + 1)) mu E, cmEnergy (Real.sqrt Ein / (A + 1)) mu E) :=
  labToCm_eq hE hA h hc

/-- **C72** The Jacobian of the joint density is the determinant of the derivative of (CM cosine, CM energy) with respect to (lab cosine, lab
energy). -/
theorem C72_joint (v mu E : ℝ) (h : 0 < E) (hc : 0 < cmEnergy v mu E) :
    ∃ a b c d, HasDerivAt (fun m => cmCos v m E) a mu ∧ HasDerivAt (fun e => cmCos v mu e) b E ∧
      HasDerivAt (fun m => cmEnergy v m E) c mu ∧ HasDerivAt (fun e => cmEnergy v mu e) d E ∧
      jointJacobian E (cmEnergy v mu E) = .ok (a * d - b * c) := by
  have hs : 0 < Real.sqrt E := Real.sqrt_pos.mpr h
  have hss : Real.sqrt E ^ 2 = E := Real.sq_sqrt h.le
  have hq : 0 < Real.sqrt (cmEnergy v mu E) := Real.sqrt_pos.mpr hc
  have hqq : Real.sqrt (cmEnergy v mu E) ^ 2 = cmEnergy v mu E := Real.sq_sqrt hc.le
  -- energy
  have d1 : HasDerivAt (fun m => cmEnergy v m E) (-(2 * Real.sqrt E * v)) mu := by
    unfold cmEnergy
    have := ((((hasDerivAt_id mu).const_mul 2).mul_const (Real.sqrt E)).mul_const v).const_sub E |>.add_const (v ^ 2)
    refine this.congr_deriv ?_
    ring
  have d2 : HasDerivAt (fun e => cmEnergy v mu e) (1 - mu * v / Real.sqrt E) E := by
    unfold cmEnergy
    have hsq := Real.hasDerivAt_sqrt h.ne'
    have := ((hasDerivAt_id E).sub ((hsq.const_mul (2 * mu)).mul_const v)).add_const (v ^ 2)
    refine this.congr_deriv ?_
    field_simp
  have n1 : HasDerivAt (fun m : ℝ => m * Real.sqrt E - v) (Real.sqrt E) mu := by
    have := ((hasDerivAt_id mu).mul_const (Real.sqrt E)).sub_const v
    simpa using this
  have n2 : HasDerivAt (fun e : ℝ => mu * Real.sqrt e - v) (mu / (2 * Real.sqrt E)) E := by
    have := ((Real.hasDerivAt_sqrt h.ne').const_mul mu).sub_const v
    refine this.congr_deriv ?_
    field_simp
  have m1 := n1.div (d1.sqrt hc.ne') hq.ne'
  have m2 := n2.div (d2.sqrt hc.ne') hq.ne'
  refine ⟨_, _, _, _, m1, m2, d1, d2, ?_⟩
  unfold jointJacobian
  rw [rdiv_ok hc.ne']
  simp only [bind, Except.bind]
  rw [csqrt_ok (div_nonneg h.le hc.le), Real.sqrt_div h.le]
  congr 1
  have hC : Real.sqrt (cmEnergy v mu E) ^ 2 = Real.sqrt E ^ 2 - 2 * mu * Real.sqrt E * v + v ^ 2 := by
    rw [hqq, hss]; rfl
  obtain ⟨s, hs'⟩ : ∃ s, s = Real.sqrt E := ⟨_, rfl⟩
  obtain ⟨q, hq'⟩ : ∃ q, q = Real.sqrt (cmEnergy v mu E) := ⟨_, rfl⟩
  rw [← hs', ← hq'] at hC
  rw [← hs'] at hs
  rw [← hq'] at hq
  rw [← hs', ← hq']
  field_simp
  ring_nf

/-- Non-vacuity of the C72 theorems: `g = 1/2`, CM cosine 0. -/
example : ∃ d, HasDerivAt (labCos (1 / 2)) d 0 ∧ d ≠ 0 ∧ angleJacobianQ 1 2 0 (labCos (1 / 2) 0) 0 = .ok d⁻¹ :=
  C72_angle_from_Q 1 2 0 (1 / 2) 0 frameG_half (by norm_num) (by norm_num) (by norm_num) (by norm_num)

/-! ## C71 -/

/-- The derivative of the lab cosine with respect to the CM cosine. -/
noncomputable def Spec.labCosD (g x : ℝ) : ℝ := deriv (labCos g) x

/-- The Jacobian is even in the lab cosine. -/
theorem angleJacobianQ_even (E A Q mu x : ℝ) : angleJacobianQ E A Q (-mu) x = angleJacobianQ E A Q mu x := by
  unfold angleJacobianQ
  simp only [neg_mul_neg]

theorem cmPart_eq (d : CMDist) (E mu g x p : ℝ) (hg : frameG E d.awr d.q = .ok g) (h1 : -1 < x) (h2 : x < 1) (hmu : mu ≠ 0)
    (hr : 1 + g * x ≠ 0) (hx : labCos g x = mu ∨ labCos g x = -mu) (hp : d.dist.anglePdf E x = .ok (some p)) :
    d.part E mu (some x) = .ok (p / labCosD g x) := by
  have hgx : g + x ≠ 0 := by
    intro h0
    unfold labCos at hx
    rw [h0, zero_div] at hx
    rcases hx with h | h
    · exact hmu h.symm
    · exact hmu (by linarith)
  obtain ⟨t, ht, _, hj⟩ := C72_angle_from_Q E d.awr d.q g x hg h1 h2 hgx hr
  have hj' : angleJacobianQ E d.awr d.q mu x = .ok t⁻¹ := by
    rcases hx with h | h
    · rw [← h]; exact hj
    · rw [← hj, h, angleJacobianQ_even]
  unfold CMDist.part
  simp only [hp, bind, Except.bind, hj', pure, Except.pure]
  rw [labCosD, ht.deriv, div_eq_mul_inv]

/-- When two CM cosines scatter into the lab cosine `mu` or its opposite, the reported density is the sum of their contributions, with the
signed derivatives. -/
theorem cmAngle_two (d : CMDist) (E mu g x y p q : ℝ) (hg : frameG E d.awr d.q = .ok g) (hmu : mu ≠ 0) (m1 : -1 ≤ mu) (m2 : mu ≤ 1)
    (hc : (1 - mu * mu) / (mu * mu) * g * g ≠ 1) (hne : x ≠ y)
    (x1 : -1 < x) (x2 : x < 1) (xr : 1 + g * x ≠ 0) (hx : labCos g x = mu ∨ labCos g x = -mu) (hp : d.dist.anglePdf E x = .ok (some p))
    (y1 : -1 < y) (y2 : y < 1) (yr : 1 + g * y ≠ 0) (hy : labCos g y = mu ∨ labCos g y = -mu) (hq : d.dist.anglePdf E y = .ok (some q)) :
    d.anglePdf E mu = .ok (some (p / labCosD g x + q / labCosD g y)) := by
  have pos : ∀ z : ℝ, -1 < z → z < 1 → 0 < 1 + 2 * g * z + g ^ 2 := fun z a b => by nlinarith [sq_nonneg (g + z)]
  have comp : ∀ z : ℝ, -1 < z → z < 1 → (labCos g z = mu ∨ labCos g z = -mu) →
      ∃ o1 o2, labToCmAngle E d.awr d.q mu = .ok (o1, o2) ∧ (o1 = some z ∨ o2 = some z) := by
    intro z a b h
    rcases h with h | h
    · exact C46_complete_partial E d.awr d.q mu g z hg hmu m1 m2 (pos z a b) h hc
    · rw [← C46_violation_even]
      exact C46_complete_partial E d.awr d.q (-mu) g z hg (neg_ne_zero.mpr hmu) (by linarith) (by linarith) (pos z a b) h
        (by rw [neg_mul_neg]; exact hc)
  obtain ⟨o1, o2, ho, hox⟩ := comp x x1 x2 hx
  obtain ⟨o1', o2', ho', hoy⟩ := comp y y1 y2 hy
  rw [ho] at ho'
  simp only [Except.ok.injEq, Prod.mk.injEq] at ho'
  obtain ⟨rfl, rfl⟩ := ho'
  have e1 := cmPart_eq d E mu g x p hg x1 x2 hmu xr hx hp
  have e2 := cmPart_eq d E mu g y q hg y1 y2 hmu yr hy hq
  have key : (o1 = some x ∧ o2 = some y) ∨ (o1 = some y ∧ o2 = some x) := by
    rcases hox with h | h <;> rcases hoy with h' | h'
    · rw [h] at h'; exact absurd (Option.some.inj h') hne
    · exact .inl ⟨h, h'⟩
    · exact .inr ⟨h', h⟩
    · rw [h] at h'; exact absurd (Option.some.inj h') hne
  unfold CMDist.anglePdf
  rcases key with ⟨rfl, rfl⟩ | ⟨rfl, rfl⟩
  · simp only [ho, bind, Except.bind, e1, e2, pure, Except.pure]
  · simp only [ho, bind, Except.bind, e1, e2, pure, Except.pure, add_comm]

theorem labCosD_eq (g x : ℝ) (hD : 0 < 1 + 2 * g * x + g ^ 2) :
    labCosD g x = (1 + g * x) / ((1 + 2 * g * x + g ^ 2) * Real.sqrt (1 + 2 * g * x + g ^ 2)) :=
  (labCos_hasDerivAt g x hD).deriv

/-- For a slow centre of mass each lab cosine comes from exactly one CM cosine. -/
theorem C71_one_cosine (g mu : ℝ) (g0 : 0 ≤ g) (g1 : g < 1) (m1 : -1 < mu) (m2 : mu < 1) :
    ∃! x, (-1 < x ∧ x < 1) ∧ labCos g x = mu := by
  have pos : ∀ z : ℝ, -1 < z → z < 1 → 0 < 1 + 2 * g * z + g ^ 2 := fun z a b => by nlinarith [sq_nonneg (g + z)]
  have mono : StrictMonoOn (labCos g) (Set.Ioo (-1) 1) := by
    apply strictMonoOn_of_deriv_pos (convex_Ioo _ _)
    · intro z hz
      exact (labCos_hasDerivAt g z (pos z hz.1 hz.2)).continuousAt.continuousWithinAt
    · intro z hz
      rw [interior_Ioo] at hz
      have := labCosD_eq g z (pos z hz.1 hz.2)
      rw [labCosD] at this
      rw [this]
      apply div_pos
      · nlinarith [hz.1, hz.2]
      · exact mul_pos (pos z hz.1 hz.2) (Real.sqrt_pos.mpr (pos z hz.1 hz.2))
  have hm : 0 < 1 - mu ^ 2 := by nlinarith
  have hm' : mu ^ 2 < 1 := by linarith
  have hgg : g ^ 2 < 1 := by nlinarith
  have hR : 0 < 1 - g ^ 2 * (1 - mu ^ 2) := by nlinarith [sq_nonneg mu, sq_nonneg g]
  obtain ⟨r, hr⟩ : ∃ r, r = Real.sqrt (1 - g ^ 2 * (1 - mu ^ 2)) := ⟨_, rfl⟩
  have hr2 : r ^ 2 = 1 - g ^ 2 * (1 - mu ^ 2) := by rw [hr]; exact Real.sq_sqrt hR.le
  have hr0 : 0 < r := by rw [hr]; exact Real.sqrt_pos.mpr hR
  -- x = -g (1 - mu^2) + mu r
  have hs : 0 < g * mu + r := by
    by_contra h
    have h' : r ≤ -(g * mu) := by linarith
    have : r ^ 2 ≤ (g * mu) ^ 2 := by nlinarith
    nlinarith
  have hD : 1 + 2 * g * (-g * (1 - mu ^ 2) + mu * r) + g ^ 2 = (g * mu + r) ^ 2 := by linear_combination -hr2
  have hx2 : 1 - (-g * (1 - mu ^ 2) + mu * r) ^ 2 = (1 - mu ^ 2) * (g * mu + r) ^ 2 := by
    linear_combination (-1 : ℝ) * hr2
  have hxx : (-g * (1 - mu ^ 2) + mu * r) ^ 2 < 1 := by nlinarith [mul_pos hm (pow_pos hs 2)]
  refine ⟨-g * (1 - mu ^ 2) + mu * r, ⟨⟨by nlinarith, by nlinarith⟩, ?_⟩, ?_⟩
  · unfold labCos
    rw [hD, Real.sqrt_sq hs.le, div_eq_iff hs.ne']
    ring
  · rintro y ⟨⟨y1, y2⟩, hy⟩
    apply mono.injOn ⟨y1, y2⟩ ⟨by nlinarith, by nlinarith⟩
    rw [hy]
    unfold labCos
    rw [hD, Real.sqrt_sq hs.le, eq_div_iff hs.ne']
    ring

/-- C71, for a centre of mass slower than the emitted particle in it (`0 ≤ g < 1`) and away from the singular cosines: with `x`, `y` the CM
cosines that scatter into `mu` and into `-mu`, the reported value is `p(x) |dx/dmu|` plus the same for `y`: the density at `mu` plus the
density at `-mu`.  Missing: the value claimed is the first term alone (`C71_violation_overcount`); `g ≥ 1` (`C71_violation_negative`). -/
theorem C71_symmetrised_partial (d : CMDist) (E mu g x y p q : ℝ) (hg : frameG E d.awr d.q = .ok g) (g0 : 0 ≤ g) (g1 : g < 1)
    (hmu : mu ≠ 0) (m1 : -1 < mu) (m2 : mu < 1) (hc : (1 - mu * mu) / (mu * mu) * g * g ≠ 1)
    (x1 : -1 < x) (x2 : x < 1) (hx : labCos g x = mu) (hp : d.dist.anglePdf E x = .ok (some p))
    (y1 : -1 < y) (y2 : y < 1) (hy : labCos g y = -mu) (hq : d.dist.anglePdf E y = .ok (some q)) :
    d.anglePdf E mu = .ok (some (p * |labCosD g x|⁻¹ + q * |labCosD g y|⁻¹)) := by
  have pos : ∀ z : ℝ, -1 < z → z < 1 → 0 < 1 + 2 * g * z + g ^ 2 := fun z a b => by nlinarith [sq_nonneg (g + z)]
  have posr : ∀ z : ℝ, -1 < z → z < 1 → 0 < 1 + g * z := fun z a b => by nlinarith
  have posd : ∀ z : ℝ, -1 < z → z < 1 → 0 < labCosD g z := fun z a b => by
    rw [labCosD_eq g z (pos z a b)]
    exact div_pos (posr z a b) (mul_pos (pos z a b) (Real.sqrt_pos.mpr (pos z a b)))
  have hne : x ≠ y := by
    rintro rfl
    rw [hx] at hy
    exact hmu (by linarith)
  rw [cmAngle_two d E mu g x y p q hg hmu m1.le m2.le hc hne x1 x2 (posr x x1 x2).ne' (.inl hx) hp y1 y2 (posr y y1 y2).ne' (.inr hy) hq,
    abs_of_pos (posd x x1 x2), abs_of_pos (posd y y1 y2), div_eq_mul_inv, div_eq_mul_inv]

/-- The full claim is false of the code: the density at `mu` is over-reported whenever something is scattered into `-mu`. -/
theorem C71_violation_overcount (d : CMDist) (E mu g x y p q : ℝ) (hg : frameG E d.awr d.q = .ok g) (g0 : 0 ≤ g) (g1 : g < 1)
    (hmu : mu ≠ 0) (m1 : -1 < mu) (m2 : mu < 1) (hc : (1 - mu * mu) / (mu * mu) * g * g ≠ 1)
    (x1 : -1 < x) (x2 : x < 1) (hx : labCos g x = mu) (hp : d.dist.anglePdf E x = .ok (some p))
    (y1 : -1 < y) (y2 : y < 1) (hy : labCos g y = -mu) (hq : d.dist.anglePdf E y = .ok (some q)) (hq0 : 0 < q) :
    ∃ v, d.anglePdf E mu = .ok (some v) ∧ p * |labCosD g x|⁻¹ < v := by
  refine ⟨_, C71_symmetrised_partial d E mu g x y p q hg g0 g1 hmu m1 m2 hc x1 x2 hx hp y1 y2 hy hq, ?_⟩
  have pos : 0 < 1 + 2 * g * y + g ^ 2 := by nlinarith [sq_nonneg (g + y)]
  have hd : labCosD g y ≠ 0 := by
    rw [labCosD_eq g y pos]
    exact div_ne_zero (by nlinarith) (mul_pos pos (Real.sqrt_pos.mpr pos)).ne'
  have : 0 < q * |labCosD g y|⁻¹ := mul_pos hq0 (inv_pos.mpr (abs_pos.mpr hd))
  linarith

/-- The full claim is false of the code: forward and backward are never distinguished. -/
theorem C71_violation_even (d : CMDist) (E mu : ℝ) : d.anglePdf E (-mu) = d.anglePdf E mu := by
  have hp : ∀ o, d.part E (-mu) o = d.part E mu o := by
    intro o
    unfold CMDist.part
    simp only [angleJacobianQ_even]
  unfold CMDist.anglePdf
  rw [C46_violation_even]
  simp only [hp]

/-- The full claim is false of the code: a distribution that has no angular density is reported to have the density 0, whenever a result is
returned. -/
theorem C71_violation_absent (d : CMDist) (E mu : ℝ) (h : ∀ x, d.dist.anglePdf E x = .ok none) (v : Option ℝ)
    (hv : d.anglePdf E mu = .ok v) : v = some 0 := by
  have hp : ∀ o, d.part E mu o = .ok 0 := by
    intro o
    unfold CMDist.part
    cases o with
    | none => rfl
    | some x => simp only [h, bind, Except.bind]
  unfold CMDist.anglePdf at hv
  obtain ⟨w, hw⟩ : ∃ w, w = labToCmAngle E d.awr d.q mu := ⟨_, rfl⟩
  rw [← hw] at hv
  cases w with
  | error e => cases hv
  | ok w =>
    simp only [bind, Except.bind, hp, pure, Except.pure, Except.ok.injEq, add_zero] at hv
    exact hv.symm

open Classical in
/-- A CM distribution with all its weight behind the cosine `-1/2`. -/
noncomputable def Spec.backDist : AE where
  sample := fun _ _ k => .ok (-1, 1, k)
  anglePdf := fun _ x => .ok (some (if x < -1 / 2 then 2 else 0))
  pdf := fun _ _ _ => .ok none

/-- The full claim is false of the code: for a centre of mass faster than the emitted particle the reported density can be negative. -/
theorem C71_violation_negative : ∃ v, (⟨1, -3, backDist⟩ : CMDist).anglePdf 8 (7 / Real.sqrt 65) = .ok (some v) ∧ v < 0 := by
  have h65 : (0 : ℝ) < Real.sqrt 65 := Real.sqrt_pos.mpr (by norm_num)
  have hs65 : Real.sqrt 65 ^ 2 = 65 := Real.sq_sqrt (by norm_num)
  have hmm : 7 / Real.sqrt 65 * (7 / Real.sqrt 65) = 49 / 65 := by
    rw [← sq, div_pow, hs65]; norm_num
  have hmu : (0 : ℝ) < 7 / Real.sqrt 65 := by positivity
  have hlab : ∀ x : ℝ, 0 < 2 + x → (2 + x) ^ 2 * 65 = 49 * (1 + 2 * 2 * x + 2 ^ 2) → labCos 2 x = 7 / Real.sqrt 65 := by
    intro x hx h
    unfold labCos
    have : Real.sqrt (1 + 2 * 2 * x + 2 ^ 2) = (2 + x) * Real.sqrt 65 / 7 := by
      rw [Real.sqrt_eq_iff_mul_self_eq (by nlinarith [sq_nonneg (2 + x)]) (by positivity), ← sq ((2 + x) * Real.sqrt 65 / 7), div_pow, mul_pow, hs65]
      linarith
    rw [this]
    field_simp
  have hD : (0 : ℝ) < 1 + 2 * 2 * (-3 / 5) + 2 ^ 2 := by norm_num
  refine ⟨_, cmAngle_two ⟨1, -3, backDist⟩ 8 (7 / Real.sqrt 65) 2 (-3 / 5) (-5 / 13) 2 0 frameG_two hmu.ne' (by linarith) ?_ ?_ (by norm_num)
    (by norm_num) (by norm_num) (by norm_num) (.inl (hlab _ (by norm_num) (by norm_num))) ?_
    (by norm_num) (by norm_num) (by norm_num) (.inl (hlab _ (by norm_num) (by norm_num))) ?_, ?_⟩
  · nlinarith
  · rw [hmm]; norm_num
  · simp only [backDist]; norm_num
  · simp only [backDist]; norm_num
  · rw [zero_div, add_zero, labCosD_eq _ _ hD]
    apply div_neg_of_pos_of_neg (by norm_num)
    exact div_neg_of_neg_of_pos (by norm_num) (mul_pos hD (Real.sqrt_pos.mpr hD))

/-- **C71** The joint density is the CM density at the CM image of the lab cosine and energy times the determinant of the frame change. -/
theorem C71_joint (d : CMDist) (E mu Eout p : ℝ) (hE : 0 ≤ E) (hA : -1 < d.awr) (h : 0 < Eout)
    (hc : 0 < cmEnergy (Real.sqrt E / (d.awr + 1)) mu Eout)
    (hp : d.dist.pdf E (cmCos (Real.sqrt E / (d.awr + 1)) mu Eout) (cmEnergy (Real.sqrt E / (d.awr + 1)) mu Eout) = .ok (some p)) :
    d.pdf E mu Eout = .ok (some (p * Real.sqrt (Eout / cmEnergy (Real.sqrt E / (d.awr + 1)) mu Eout))) := by
  unfold CMDist.pdf
  rw [C72_map E d.awr mu Eout hE hA h hc]
  simp only [bind, Except.bind, hp]
  unfold jointJacobian
  rw [rdiv_ok hc.ne']
  simp only [bind, Except.bind]
  rw [csqrt_ok (div_nonneg h.le hc.le)]
  rfl

/-- **C71** What is sampled is the CM sample seen from a frame in which the centre of mass moves along the beam, and is in range. -/
theorem C71_sample (d : CMDist) (E mu Ec : ℝ) (ω : Tape) (k k' : Nat) (hs : d.dist.sample E ω k = .ok (mu, Ec, k'))
    (hE : 0 ≤ E) (hA : -1 < d.awr) (hEc : 0 < Ec) (h1 : -1 ≤ mu) (h2 : mu ≤ 1) (hne : ¬ (mu = -1 ∧ Ec = E / (d.awr + 1) ^ 2)) :
    ∃ muL EL, d.sample E ω k = .ok (muL, EL, k') ∧ Boosted E d.awr mu Ec muL EL ∧ 0 < EL ∧ -1 ≤ muL ∧ muL ≤ 1 := by
  obtain ⟨muL, EL, h⟩ := C44_defined E d.awr mu Ec hE hA hEc h1 h2 hne
  obtain ⟨a, b, c⟩ := C45_cosine E d.awr mu Ec muL EL hE hA hEc h1 h2 h
  refine ⟨muL, EL, ?_, (C44_cm_lab_cm E d.awr mu Ec muL EL hE hA hEc h).2.1, c, a, b⟩
  unfold CMDist.sample
  simp only [hs, bind, Except.bind, pure, Except.pure, h]

/-- Non-vacuity of the C71 theorems: `g = 1/2`, isotropic in the centre of mass. -/
example : ∃ mu x y v : ℝ, (-1 < x ∧ x < 1) ∧ labCos (1 / 2) x = mu ∧ labCos (1 / 2) y = -mu ∧
    (⟨2, 0, ⟨fun _ _ k => .ok (0, 1, k), fun _ _ => .ok (some (1 / 2)), fun _ _ _ => .ok none⟩⟩ : CMDist).anglePdf 1 mu = .ok (some v) ∧
    1 / 2 * |labCosD (1 / 2) x|⁻¹ < v := by
  obtain ⟨x, ⟨hx, hx'⟩, _⟩ := C71_one_cosine (1 / 2) (1 / 2) (by norm_num) (by norm_num) (by norm_num) (by norm_num)
  obtain ⟨y, ⟨hy, hy'⟩, _⟩ := C71_one_cosine (1 / 2) (-(1 / 2)) (by norm_num) (by norm_num) (by norm_num) (by norm_num)
  obtain ⟨v, hv, hlt⟩ := C71_violation_overcount
    ⟨2, 0, ⟨fun _ _ k => .ok (0, 1, k), fun _ _ => .ok (some (1 / 2)), fun _ _ _ => .ok none⟩⟩ 1 (1 / 2) (1 / 2) x y (1 / 2) (1 / 2) frameG_half
    (by norm_num) (by norm_num) (by norm_num) (by norm_num) (by norm_num) (by norm_num) hx.1 hx.2 hx' rfl hy.1 hy.2 hy' rfl (by norm_num)
  exact ⟨1 / 2, x, y, v, hx, hx', hy', hv, hlt⟩

/-! ## C74 -/

/-- **C74** The constructor throws exactly for a target mass that is not positive. -/
theorem C74_make_throws (Q awr : ℝ) : Level.make Q awr = .error .exc ↔ awr ≤ 0 := by
  unfold Level.make
  by_cases h : awr ≤ 0
  · rw [if_pos h]; exact ⟨fun _ => h, fun _ => rfl⟩
  · rw [if_neg h, rdiv_ok (by linarith), rdiv_ok (by linarith)]
    simp only [bind, Except.bind, pure, Except.pure]
    exact ⟨fun e => (by cases e), fun e => absurd e h⟩

/-- **C74** The neutron (mass 1) and the recoil (mass `A`), with opposite momenta in the centre of mass, share the energy
`A/(A+1) E - |Q|`. -/
theorem C74_energy (Q awr E Eout : ℝ) (l : Level) (k k' : Nat) (h : Level.make Q awr = .ok l) (hs : l.sample E k = .ok (Eout, k')) :
    Eout + Eout / awr = awr / (awr + 1) * E - |Q| ∧ k' = k := by
  have hA : 0 < awr := by
    by_contra hn
    rw [(C74_make_throws Q awr).mpr (not_lt.mp hn)] at h
    cases h
  unfold Level.make at h
  rw [if_neg (not_le.mpr hA), rdiv_ok hA.ne', rdiv_ok (by linarith)] at h
  simp only [bind, Except.bind, pure, Except.pure, Except.ok.injEq] at h
  subst h
  unfold Level.sample at hs
  simp only [Except.ok.injEq, Prod.mk.injEq] at hs
  obtain ⟨rfl, rfl⟩ := hs
  refine ⟨?_, rfl⟩
  have : awr + 1 ≠ 0 := by linarith
  field_simp

/-- **C74** The outgoing energy is non-negative exactly at and above the threshold of the level. -/
theorem C74_threshold (Q awr E Eout : ℝ) (l : Level) (k k' : Nat) (h : Level.make Q awr = .ok l) (hs : l.sample E k = .ok (Eout, k')) :
    0 ≤ Eout ↔ (awr + 1) / awr * |Q| ≤ E := by
  have hA : 0 < awr := by
    by_contra hn
    rw [(C74_make_throws Q awr).mpr (not_lt.mp hn)] at h
    cases h
  obtain ⟨he, _⟩ := C74_energy Q awr E Eout l k k' h hs
  have h1 : Eout * ((awr + 1) / awr) = awr / (awr + 1) * E - |Q| := by rw [← he]; field_simp
  have h2 : 0 < (awr + 1) / awr := by positivity
  have h3 : awr / (awr + 1) * E - |Q| = awr / (awr + 1) * (E - (awr + 1) / awr * |Q|) := by
    field_simp
  have h4 : 0 < awr / (awr + 1) := by positivity
  rw [h3] at h1
  constructor
  · intro h0
    have : 0 ≤ awr / (awr + 1) * (E - (awr + 1) / awr * |Q|) := by rw [← h1]; positivity
    have := nonneg_of_mul_nonneg_right this h4
    linarith
  · intro h0
    have : 0 ≤ Eout * ((awr + 1) / awr) := by rw [h1]; exact mul_nonneg h4.le (by linarith)
    exact nonneg_of_mul_nonneg_left this h2

/-- Non-vacuity of the C74 theorems. -/
example : ∃ l, Level.make (-1) 2 = .ok l ∧ l.sample 3 0 = .ok (2 / 3, 0) := by
  refine ⟨⟨3 / 2, 4 / 9⟩, ?_, ?_⟩
  · unfold Level.make
    rw [if_neg (by norm_num), rdiv_ok (by norm_num), rdiv_ok (by norm_num)]
    norm_num [bind, Except.bind, pure, Except.pure]
  · unfold Level.sample; norm_num

end PNDL
