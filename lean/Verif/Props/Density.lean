import Verif.Props.Spectra
import Verif.Props.Frame
import Verif.Props.Mixture
import Mathlib.MeasureTheory.Integral.IntervalIntegral.FundThmCalculus
import Mathlib.MeasureTheory.Integral.IntervalIntegral.IntegrationByParts
import Mathlib.Analysis.SpecialFunctions.Integrals.Basic
import Mathlib.Analysis.SpecialFunctions.Sqrt
import Mathlib.Analysis.SpecialFunctions.Trigonometric.DerivHyp
import Mathlib.Analysis.SpecialFunctions.Pow.Continuity

/-! C69, C70: densities integrate to one. -/
namespace PNDL
open Spec MeasureTheory intervalIntegral

/-- `f` is defined on `[a, b]` and its integral over it is `v`. -/
def Spec.HasIntegral (f : ℝ → Res ℝ) (a b v : ℝ) : Prop :=
  ∃ p : ℝ → ℝ, (∀ x, a ≤ x → x ≤ b → f x = .ok (p x)) ∧ IntervalIntegrable p volume a b ∧ ∫ x in a..b, p x = v

theorem Spec.HasIntegral.unique {f : ℝ → Res ℝ} {a b v w : ℝ} (hab : a ≤ b) (h : HasIntegral f a b v) (h' : HasIntegral f a b w) : v = w := by
  obtain ⟨p, h1, _, h2⟩ := h
  obtain ⟨q, h3, _, h4⟩ := h'
  rw [← h2, ← h4]
  apply intervalIntegral.integral_congr
  intro x hx
  rw [Set.uIcc_of_le hab] at hx
  have := h1 x hx.1 hx.2
  rw [h3 x hx.1 hx.2] at this
  exact (Except.ok.inj this).symm

theorem gauss_continuous : Continuous (fun t : ℝ => Real.exp (-t ^ 2)) := by fun_prop

theorem erf_hasDerivAt (x : ℝ) : HasDerivAt erf (2 / Real.sqrt Real.pi * Real.exp (-x ^ 2)) x := by
  unfold erf
  exact (gauss_continuous.integral_hasStrictDerivAt 0 x).hasDerivAt.const_mul _

theorem erf_continuous : Continuous erf := continuous_iff_continuousAt.mpr fun x => (erf_hasDerivAt x).continuousAt

theorem erf_zero : erf 0 = 0 := by unfold erf; simp

theorem erf_neg (x : ℝ) : erf (-x) = -erf x := by
  unfold erf
  have h := intervalIntegral.integral_comp_neg (a := 0) (b := x) (fun t : ℝ => Real.exp (-t ^ 2))
  simp only [neg_sq, neg_zero] at h
  rw [intervalIntegral.integral_symm, ← h]
  ring

theorem erf_strictMono : StrictMono erf := by
  apply strictMono_of_deriv_pos
  intro x
  rw [(erf_hasDerivAt x).deriv]
  have : 0 < Real.sqrt Real.pi := Real.sqrt_pos.mpr Real.pi_pos
  positivity

/-! ## C69: evaporation -/

theorem evap_integral (T du : ℝ) (hT : 0 < T) :
    ∫ E in (0 : ℝ)..du, E * Real.exp (-E / T) = T * T * (1 - Real.exp (-(du / T)) * (1 + du / T)) := by
  have hd : ∀ x ∈ Set.uIcc 0 du, HasDerivAt (fun E : ℝ => -T * (E + T) * Real.exp (-E / T)) (x * Real.exp (-x / T)) x := by
    intro x _
    have h1 : HasDerivAt (fun E : ℝ => -T * (E + T)) (-T) x := by
      simpa using ((hasDerivAt_id x).add_const T).const_mul (-T)
    have h2 : HasDerivAt (fun E : ℝ => Real.exp (-E / T)) (Real.exp (-x / T) * (-1 / T)) x :=
      (((hasDerivAt_id x).neg).div_const T).exp
    refine (h1.mul h2).congr_deriv ?_
    field_simp
    ring
  rw [integral_eq_sub_of_hasDerivAt hd (by apply Continuous.intervalIntegrable; fun_prop), neg_div]
  simp only [neg_zero, zero_div, Real.exp_zero]
  field_simp
  ring

/-- **C69** The evaporation spectrum integrates to one over the allowed energies. -/
theorem C69_evaporation (temp : Tab1D) (U E T : ℝ) (hT : temp.eval E = .ok T) (hpos : 0 < T) (hdu : U < E) :
    HasIntegral (evapPdf temp U E) 0 (E - U) 1 := by
  have hq : 0 < (E - U) / T := div_pos (by linarith) hpos
  obtain ⟨I, hI⟩ : ∃ I, I = T * T * (1 - Real.exp (-((E - U) / T)) * (1 + (E - U) / T)) := ⟨_, rfl⟩
  have hI0 : 0 < I := by
    have h1 : (E - U) / T + 1 < Real.exp ((E - U) / T) := Real.add_one_lt_exp hq.ne'
    have h2 : Real.exp (-((E - U) / T)) * Real.exp ((E - U) / T) = 1 := by rw [← Real.exp_add]; simp
    have h3 := Real.exp_pos (-((E - U) / T))
    rw [hI]
    have : Real.exp (-((E - U) / T)) * (1 + (E - U) / T) < 1 := by rw [← h2]; exact mul_lt_mul_of_pos_left (by linarith) h3
    have : 0 < 1 - Real.exp (-((E - U) / T)) * (1 + (E - U) / T) := by linarith
    positivity
  refine ⟨fun x => x / I * Real.exp (-x / T), ?_, ?_, ?_⟩
  · intro x h0 h1
    unfold evapPdf
    rw [if_neg (by rw [not_or, not_lt, not_lt]; exact ⟨h0, h1⟩)]
    simp only [hT, bind, Except.bind, rdiv_ok hpos.ne', ← hI, rdiv_ok hI0.ne']
    rfl
  · apply Continuous.intervalIntegrable; fun_prop
  · have : ∀ x : ℝ, x / I * Real.exp (-x / T) = I⁻¹ * (x * Real.exp (-x / T)) := fun x => by ring
    simp only [this, intervalIntegral.integral_const_mul, evap_integral T _ hpos, ← hI]
    exact inv_mul_cancel₀ hI0.ne'

/-! ## C69: Watt -/

theorem watt_integral (a b du : ℝ) (ha : 0 < a) (hb : 0 < b) (hdu : 0 ≤ du) :
    ∫ E in (0 : ℝ)..du, Real.exp (-E / a) * Real.sinh (Real.sqrt (b * E)) =
      0.5 * Real.sqrt (Real.pi * a * a * a * b / 4) * Real.exp (a * b / 4) *
        (erf (Real.sqrt (du / a) - Real.sqrt (a * b / 4)) + erf (Real.sqrt (du / a) + Real.sqrt (a * b / 4))) -
        a * Real.exp (-(du / a)) * Real.sinh (Real.sqrt (b * du)) := by
  have hpi : 0 < Real.sqrt Real.pi := Real.sqrt_pos.mpr Real.pi_pos
  obtain ⟨F, hF⟩ : ∃ F : ℝ → ℝ, F = fun E => 0.5 * Real.sqrt (Real.pi * a * a * a * b / 4) * Real.exp (a * b / 4) *
        (erf (Real.sqrt (E / a) - Real.sqrt (a * b / 4)) + erf (Real.sqrt (E / a) + Real.sqrt (a * b / 4))) -
        a * Real.exp (-(E / a)) * Real.sinh (Real.sqrt (b * E)) := ⟨_, rfl⟩
  have hcont : Continuous F := by
    rw [hF]
    have := erf_continuous
    fun_prop
  have hder : ∀ x ∈ Set.Ioo 0 du, HasDerivAt F (Real.exp (-x / a) * Real.sinh (Real.sqrt (b * x))) x := by
    intro x hx
    have hx0 : 0 < x := hx.1
    have hxa : 0 < x / a := div_pos hx0 ha
    have hbx : 0 < b * x := mul_pos hb hx0
    have d1 : HasDerivAt (fun E : ℝ => Real.sqrt (E / a)) (1 / a / (2 * Real.sqrt (x / a))) x :=
      ((hasDerivAt_id x).div_const a).sqrt hxa.ne'
    have d2 : HasDerivAt (fun E : ℝ => Real.sqrt (b * E)) (b / (2 * Real.sqrt (b * x))) x := by
      have := ((hasDerivAt_id x).const_mul b).sqrt hbx.ne'
      simpa using this
    have e1 := (erf_hasDerivAt (Real.sqrt (x / a) - Real.sqrt (a * b / 4))).comp x (d1.sub_const (Real.sqrt (a * b / 4)))
    have e2 := (erf_hasDerivAt (Real.sqrt (x / a) + Real.sqrt (a * b / 4))).comp x (d1.add_const (Real.sqrt (a * b / 4)))
    have d3 : HasDerivAt (fun E : ℝ => Real.exp (-(E / a))) (Real.exp (-(x / a)) * (-(1 / a))) x :=
      (((hasDerivAt_id x).div_const a).neg).exp
    have d4 := d2.sinh
    have key := ((e1.add e2).const_mul (0.5 * Real.sqrt (Real.pi * a * a * a * b / 4) * Real.exp (a * b / 4))).sub
      ((d3.const_mul a).mul d4)
    rw [hF]
    refine key.congr_deriv ?_
    -- the two exponentials
    have hab : 0 ≤ a * b / 4 := by positivity
    have sx : Real.sqrt (x / a) ^ 2 = x / a := Real.sq_sqrt hxa.le
    have sab : Real.sqrt (a * b / 4) ^ 2 = a * b / 4 := Real.sq_sqrt hab
    have cross : 2 * (Real.sqrt (x / a) * Real.sqrt (a * b / 4)) = Real.sqrt (b * x) := by
      rw [← Real.sqrt_mul hxa.le]
      symm
      rw [Real.sqrt_eq_iff_mul_self_eq hbx.le (by positivity)]
      have : 2 * Real.sqrt (x / a * (a * b / 4)) * (2 * Real.sqrt (x / a * (a * b / 4))) = 4 * Real.sqrt (x / a * (a * b / 4)) ^ 2 := by ring
      rw [this, Real.sq_sqrt (by positivity)]
      field_simp
    have x1 : Real.exp (-(Real.sqrt (x / a) - Real.sqrt (a * b / 4)) ^ 2) =
        Real.exp (-(x / a)) * Real.exp (Real.sqrt (b * x)) * Real.exp (-(a * b / 4)) := by
      rw [← Real.exp_add, ← Real.exp_add]
      congr 1
      linear_combination -sx - sab + cross
    have x2 : Real.exp (-(Real.sqrt (x / a) + Real.sqrt (a * b / 4)) ^ 2) =
        Real.exp (-(x / a)) * Real.exp (-Real.sqrt (b * x)) * Real.exp (-(a * b / 4)) := by
      rw [← Real.exp_add, ← Real.exp_add]
      congr 1
      linear_combination -sx - sab - cross
    rw [x1, x2]
    have xc : Real.exp (a * b / 4) * Real.exp (-(a * b / 4)) = 1 := by rw [← Real.exp_add]; simp
    have pref : Real.sqrt (Real.pi * a * a * a * b / 4) = Real.sqrt Real.pi * (a * Real.sqrt (a * b / 4)) := by
      rw [Real.sqrt_eq_iff_mul_self_eq (by positivity) (by positivity)]
      have : Real.sqrt Real.pi * (a * Real.sqrt (a * b / 4)) * (Real.sqrt Real.pi * (a * Real.sqrt (a * b / 4))) =
        Real.sqrt Real.pi ^ 2 * a ^ 2 * Real.sqrt (a * b / 4) ^ 2 := by ring
      rw [this, Real.sq_sqrt Real.pi_pos.le, sab]; ring
    rw [pref, Real.cosh_eq, neg_div]
    have hsx : 0 < Real.sqrt (x / a) := Real.sqrt_pos.mpr hxa
    have hsb : 0 < Real.sqrt (b * x) := Real.sqrt_pos.mpr hbx
    have sbx : Real.sqrt (b * x) ^ 2 = b * x := Real.sq_sqrt hbx.le
    have ratio : Real.sqrt (a * b / 4) * Real.sqrt (b * x) = b * a / 2 * Real.sqrt (x / a) := by
      rw [← cross]
      linear_combination (2 * Real.sqrt (x / a)) * sab
    obtain ⟨A, hA⟩ : ∃ A, A = Real.exp (-(x / a)) := ⟨_, rfl⟩
    obtain ⟨B, hB⟩ : ∃ B, B = Real.exp (Real.sqrt (b * x)) := ⟨_, rfl⟩
    obtain ⟨C, hC⟩ : ∃ C, C = Real.exp (-Real.sqrt (b * x)) := ⟨_, rfl⟩
    obtain ⟨D, hD⟩ : ∃ D, D = Real.exp (a * b / 4) := ⟨_, rfl⟩
    obtain ⟨D', hD'⟩ : ∃ D', D' = Real.exp (-(a * b / 4)) := ⟨_, rfl⟩
    obtain ⟨S, hS⟩ : ∃ S, S = Real.sinh (Real.sqrt (b * x)) := ⟨_, rfl⟩
    rw [← hD, ← hD'] at xc
    rw [← hA, ← hB, ← hC, ← hD, ← hD', ← hS]
    obtain ⟨s, hs⟩ : ∃ s, s = Real.sqrt (x / a) := ⟨_, rfl⟩
    obtain ⟨w, hw⟩ : ∃ w, w = Real.sqrt (b * x) := ⟨_, rfl⟩
    obtain ⟨h, hh⟩ : ∃ h, h = Real.sqrt (a * b / 4) := ⟨_, rfl⟩
    rw [← hs, ← hw, ← hh] at ratio
    rw [← hs] at hsx
    rw [← hw] at hsb
    rw [← hs, ← hw, ← hh]
    have hD'2 : D' = D⁻¹ := by
      have : D ≠ 0 := by intro h0; rw [h0] at xc; norm_num at xc
      field_simp
      linarith
    have hDne : D ≠ 0 := by intro h0; rw [h0] at xc; norm_num at xc
    rw [hD'2]
    have hr : h = b * a / 2 * s / w := by rw [eq_div_iff hsb.ne']; exact ratio
    rw [hr]
    field_simp
    ring
  have hint : IntervalIntegrable (fun E => Real.exp (-E / a) * Real.sinh (Real.sqrt (b * E))) volume 0 du := by
    apply Continuous.intervalIntegrable
    have := Real.continuous_sinh
    fun_prop
  rw [integral_eq_sub_of_hasDerivAt_of_le hdu hcont.continuousOn hder hint]
  have hF0 : F 0 = 0 := by
    rw [hF]
    simp only [zero_div, Real.sqrt_zero, zero_sub, zero_add, erf_neg, mul_zero, Real.sinh_zero]
    ring
  rw [hF0, hF, sub_zero]

/-- The value of `Watt::pdf` inside its range. -/
theorem wattPdf_eq (ta tb : Tab1D) (U E a b : ℝ) (ha : ta.eval E = .ok a) (hb : tb.eval E = .ok b) (ha0 : 0 < a) (hb0 : 0 < b) (hdu : U < E) :
    ∃ I, 0 < I ∧ ∫ x in (0 : ℝ)..(E - U), Real.exp (-x / a) * Real.sinh (Real.sqrt (b * x)) = I ∧
      ∀ x, 0 ≤ x → x ≤ E - U → wattPdf ta tb U E x = .ok (Real.exp (-x / a) / I * Real.sinh (Real.sqrt (b * x))) := by
  have hdu' : 0 < E - U := by linarith
  obtain ⟨I, hI⟩ : ∃ I, I = 0.5 * Real.sqrt (Real.pi * a * a * a * b / 4) * Real.exp (a * b / 4) *
        (erf (Real.sqrt ((E - U) / a) - Real.sqrt (a * b / 4)) + erf (Real.sqrt ((E - U) / a) + Real.sqrt (a * b / 4))) -
        a * Real.exp (-((E - U) / a)) * Real.sinh (Real.sqrt (b * (E - U))) := ⟨_, rfl⟩
  have hint := watt_integral a b (E - U) ha0 hb0 hdu'.le
  rw [← hI] at hint
  have hcont : Continuous fun E : ℝ => Real.exp (-E / a) * Real.sinh (Real.sqrt (b * E)) := by
    have := Real.continuous_sinh
    fun_prop
  have hI0 : 0 < I := by
    rw [← hint]
    apply intervalIntegral.intervalIntegral_pos_of_pos_on (hcont.intervalIntegrable _ _) _ hdu'
    intro x hx
    exact mul_pos (Real.exp_pos _) (Real.sinh_pos_iff.mpr (Real.sqrt_pos.mpr (mul_pos hb0 hx.1)))
  refine ⟨I, hI0, hint, ?_⟩
  · intro x h0 h1
    unfold wattPdf
    rw [if_neg (by rw [not_or, not_lt, not_lt]; exact ⟨h0, h1⟩)]
    simp only [ha, hb, bind, Except.bind]
    rw [csqrt_ok (by have := Real.pi_pos; positivity)]
    simp only
    rw [rdiv_ok ha0.ne']
    simp only
    rw [csqrt_ok (by positivity)]
    simp only
    rw [csqrt_ok (by positivity)]
    simp only
    rw [csqrt_ok (by positivity)]
    simp only
    rw [rdiv_ok ha0.ne']
    simp only [← hI]
    rw [rdiv_ok hI0.ne']
    simp only
    rw [csqrt_ok (by positivity)]
    rfl

/-- **C69** The Watt spectrum integrates to one over the allowed energies. -/
theorem C69_watt (ta tb : Tab1D) (U E a b : ℝ) (ha : ta.eval E = .ok a) (hb : tb.eval E = .ok b) (ha0 : 0 < a) (hb0 : 0 < b) (hdu : U < E) :
    HasIntegral (wattPdf ta tb U E) 0 (E - U) 1 := by
  obtain ⟨I, hI0, hint, hval⟩ := wattPdf_eq ta tb U E a b ha hb ha0 hb0 hdu
  refine ⟨fun x => Real.exp (-x / a) / I * Real.sinh (Real.sqrt (b * x)), hval, ?_, ?_⟩
  · apply Continuous.intervalIntegrable
    have := Real.continuous_sinh
    fun_prop
  · have : ∀ x : ℝ, Real.exp (-x / a) / I * Real.sinh (Real.sqrt (b * x)) = I⁻¹ * (Real.exp (-x / a) * Real.sinh (Real.sqrt (b * x))) :=
      fun x => by ring
    simp only [this, intervalIntegral.integral_const_mul, hint]
    exact inv_mul_cancel₀ hI0.ne'

/-! ## C69: Maxwellian -/

theorem rpow_three_half {T : ℝ} (hT : 0 < T) : T ^ (3 / 2 : ℝ) = T * Real.sqrt T := by
  rw [show (3 / 2 : ℝ) = 1 + 1 / 2 by norm_num, Real.rpow_add hT, Real.rpow_one, ← Real.sqrt_eq_rpow]

theorem maxwell_integral (T du : ℝ) (hT : 0 < T) (hdu : 0 ≤ du) :
    ∫ E in (0 : ℝ)..du, Real.sqrt E * Real.exp (-E / T) =
      T ^ (3 / 2 : ℝ) * (Real.sqrt Real.pi / 2 * erf (Real.sqrt (du / T)) - Real.sqrt (du / T) * Real.exp (-(du / T))) := by
  have hpi : 0 < Real.sqrt Real.pi := Real.sqrt_pos.mpr Real.pi_pos
  obtain ⟨F, hF⟩ : ∃ F : ℝ → ℝ, F = fun E => T ^ (3 / 2 : ℝ) * (Real.sqrt Real.pi / 2 * erf (Real.sqrt (E / T)) -
    Real.sqrt (E / T) * Real.exp (-(E / T))) := ⟨_, rfl⟩
  have hcont : Continuous F := by
    rw [hF]
    have := erf_continuous
    fun_prop
  have hder : ∀ x ∈ Set.Ioo 0 du, HasDerivAt F (Real.sqrt x * Real.exp (-x / T)) x := by
    intro x hx
    have hxT : 0 < x / T := div_pos hx.1 hT
    have d1 : HasDerivAt (fun E : ℝ => Real.sqrt (E / T)) (1 / T / (2 * Real.sqrt (x / T))) x :=
      ((hasDerivAt_id x).div_const T).sqrt hxT.ne'
    have d3 : HasDerivAt (fun E : ℝ => Real.exp (-(E / T))) (Real.exp (-(x / T)) * (-(1 / T))) x :=
      (((hasDerivAt_id x).div_const T).neg).exp
    have e1 := (erf_hasDerivAt (Real.sqrt (x / T))).comp x d1
    have key := ((e1.const_mul (Real.sqrt Real.pi / 2)).sub (d1.mul d3)).const_mul (T ^ (3 / 2 : ℝ))
    rw [hF]
    refine key.congr_deriv ?_
    have hs : 0 < Real.sqrt (x / T) := Real.sqrt_pos.mpr hxT
    have hss : Real.sqrt (x / T) ^ 2 = x / T := Real.sq_sqrt hxT.le
    have hxs : Real.sqrt x = Real.sqrt (x / T) * Real.sqrt T := by rw [← Real.sqrt_mul hxT.le, div_mul_cancel₀ _ hT.ne']
    rw [rpow_three_half hT, hss, neg_div, hxs]
    field_simp
    ring
  have hint : IntervalIntegrable (fun E => Real.sqrt E * Real.exp (-E / T)) volume 0 du := by
    apply Continuous.intervalIntegrable
    fun_prop
  rw [integral_eq_sub_of_hasDerivAt_of_le hdu hcont.continuousOn hder hint]
  have hF0 : F 0 = 0 := by
    rw [hF]
    simp [erf_zero]
  rw [hF0, hF, sub_zero]

/-- The value of `Maxwellian::pdf` inside its range. -/
theorem maxwellPdf_eq (temp : Tab1D) (U E T : ℝ) (hT : temp.eval E = .ok T) (hpos : 0 < T) (hdu : U < E) (I : ℝ)
    (hI : I = T ^ (3 / 2 : ℝ) * (Real.sqrt Real.pi / 2 * erf ((E - U) / T) - Real.sqrt ((E - U) / T) * Real.exp (-((E - U) / T))))
    (hI0 : I ≠ 0) (x : ℝ) (h0 : 0 ≤ x) (h1 : x ≤ E - U) : maxwellPdf temp U E x = .ok (Real.sqrt x / I * Real.exp (-x / T)) := by
  have hdu' : 0 < E - U := by linarith
  unfold maxwellPdf
  rw [if_neg (by rw [not_or, not_lt, not_lt]; exact ⟨h0, h1⟩)]
  simp only [hT, bind, Except.bind, cpow_ok hpos, rdiv_ok hpos.ne']
  rw [csqrt_ok (div_nonneg hdu'.le hpos.le)]
  simp only
  rw [csqrt_ok h0]
  simp only [← hI, rdiv_ok hI0]
  rfl

/-- C69, Maxwellian: the normalisation uses the error function of `(E - U)/T` where its square root is needed, so the reported density has the
integral shown: the ratio of the right normalisation to the one used. -/
theorem C69_maxwell_partial (temp : Tab1D) (U E T : ℝ) (hT : temp.eval E = .ok T) (hpos : 0 < T) (hdu : U < E)
    (hI0 : Real.sqrt Real.pi / 2 * erf ((E - U) / T) - Real.sqrt ((E - U) / T) * Real.exp (-((E - U) / T)) ≠ 0) :
    HasIntegral (maxwellPdf temp U E) 0 (E - U)
      ((Real.sqrt Real.pi / 2 * erf (Real.sqrt ((E - U) / T)) - Real.sqrt ((E - U) / T) * Real.exp (-((E - U) / T))) /
        (Real.sqrt Real.pi / 2 * erf ((E - U) / T) - Real.sqrt ((E - U) / T) * Real.exp (-((E - U) / T)))) := by
  have hdu' : 0 < E - U := by linarith
  have hTp : 0 < T ^ (3 / 2 : ℝ) := Real.rpow_pos_of_pos hpos _
  refine ⟨_, maxwellPdf_eq temp U E T hT hpos hdu _ rfl (mul_ne_zero hTp.ne' hI0), ?_, ?_⟩
  · apply Continuous.intervalIntegrable; fun_prop
  · have : ∀ x I : ℝ, Real.sqrt x / I * Real.exp (-x / T) = I⁻¹ * (Real.sqrt x * Real.exp (-x / T)) := fun x I => by ring
    simp only [this, intervalIntegral.integral_const_mul, maxwell_integral T _ hpos hdu'.le]
    rw [inv_mul_eq_div, mul_div_mul_left _ _ hTp.ne']

/-- The full claim is false of the code: the density is normalised only when the available energy equals the temperature. -/
theorem C69_violation_maxwell (temp : Tab1D) (U E T : ℝ) (hT : temp.eval E = .ok T) (hpos : 0 < T) (hdu : U < E)
    (hI0 : Real.sqrt Real.pi / 2 * erf ((E - U) / T) - Real.sqrt ((E - U) / T) * Real.exp (-((E - U) / T)) ≠ 0) :
    HasIntegral (maxwellPdf temp U E) 0 (E - U) 1 ↔ E - U = T := by
  have hdu' : 0 < E - U := by linarith
  have hq : 0 < (E - U) / T := div_pos hdu' hpos
  have hpi : 0 < Real.sqrt Real.pi := Real.sqrt_pos.mpr Real.pi_pos
  have base := C69_maxwell_partial temp U E T hT hpos hdu hI0
  constructor
  · intro h
    have e := h.unique hdu'.le base
    symm at e
    rw [div_eq_iff hI0, one_mul] at e
    have e2 : erf (Real.sqrt ((E - U) / T)) = erf ((E - U) / T) := by
      have : Real.sqrt Real.pi / 2 * erf (Real.sqrt ((E - U) / T)) = Real.sqrt Real.pi / 2 * erf ((E - U) / T) := by linarith
      exact mul_left_cancel₀ (by positivity) this
    have e3 := erf_strictMono.injective e2
    have e4 : (E - U) / T * ((E - U) / T) = (E - U) / T := by
      nth_rewrite 3 [← Real.mul_self_sqrt hq.le]
      rw [e3]
    have e5 : (E - U) / T = 1 := by
      have : (E - U) / T * ((E - U) / T - 1) = 0 := by linarith
      rcases mul_eq_zero.mp this with h | h
      · exact absurd h hq.ne'
      · linarith
    rwa [div_eq_one_iff_eq hpos.ne'] at e5
  · intro h
    have e5 : (E - U) / T = 1 := by rw [h, div_self hpos.ne']
    rw [e5, Real.sqrt_one] at base hI0
    rwa [div_self hI0] at base

/-- The full claim is false of the code: when the available energy is at most a quarter of the temperature the reported density is negative. -/
theorem C69_violation_maxwell_negative (temp : Tab1D) (U E T : ℝ) (hT : temp.eval E = .ok T) (hpos : 0 < T) (hdu : U < E)
    (hsmall : (E - U) / T ≤ 1 / 4) (x : ℝ) (h0 : 0 < x) (h1 : x ≤ E - U) : ∃ p, maxwellPdf temp U E x = .ok p ∧ p < 0 := by
  have hdu' : 0 < E - U := by linarith
  have hq : 0 < (E - U) / T := div_pos hdu' hpos
  have hpi : 0 < Real.sqrt Real.pi := Real.sqrt_pos.mpr Real.pi_pos
  obtain ⟨q, hq'⟩ : ∃ q, q = (E - U) / T := ⟨_, rfl⟩
  have hneg : Real.sqrt Real.pi / 2 * erf q - Real.sqrt q * Real.exp (-q) < 0 := by
    rw [← hq'] at hq hsmall
    have b1 : Real.sqrt Real.pi / 2 * erf q ≤ q := by
      unfold erf
      have : ∫ t in (0 : ℝ)..q, Real.exp (-t ^ 2) ≤ ∫ t in (0 : ℝ)..q, (1 : ℝ) := by
        apply intervalIntegral.integral_mono_on hq.le (gauss_continuous.intervalIntegrable _ _) (continuous_const.intervalIntegrable _ _)
        intro t _
        rw [Real.exp_le_one_iff]
        nlinarith [sq_nonneg t]
      rw [intervalIntegral.integral_const, smul_eq_mul, mul_one, sub_zero] at this
      have e : Real.sqrt Real.pi / 2 * (2 / Real.sqrt Real.pi * ∫ t in (0 : ℝ)..q, Real.exp (-t ^ 2)) = ∫ t in (0 : ℝ)..q, Real.exp (-t ^ 2) := by
        field_simp
      rw [e]; exact this
    have b2 : 1 - q ≤ Real.exp (-q) := by have := Real.add_one_le_exp (-q); linarith
    have hs : 0 < Real.sqrt q := Real.sqrt_pos.mpr hq
    have hss : Real.sqrt q ^ 2 = q := Real.sq_sqrt hq.le
    have hs2 : Real.sqrt q ≤ 1 / 2 := by
      rw [Real.sqrt_le_left (by norm_num)]; linarith
    nlinarith
  have hTp : 0 < T ^ (3 / 2 : ℝ) := Real.rpow_pos_of_pos hpos _
  refine ⟨_, maxwellPdf_eq temp U E T hT hpos hdu _ rfl ?_ x h0.le h1, ?_⟩
  · rw [← hq']; exact (mul_neg_of_pos_of_neg hTp hneg).ne
  · rw [← hq']
    exact mul_neg_of_neg_of_pos (div_neg_of_pos_of_neg (Real.sqrt_pos.mpr h0) (mul_neg_of_pos_of_neg hTp hneg)) (Real.exp_pos _)

/-- Non-vacuity of the C69 theorems: a constant temperature table. -/
example : HasIntegral (evapPdf (constTab 2) (-1) 0) 0 (0 - -1) 1 ∧ HasIntegral (wattPdf (constTab 2) (constTab 3) (-1) 0) 0 (0 - -1) 1 ∧
    ∃ p, maxwellPdf (constTab 4) (-1) 0 (1 / 2) = .ok p ∧ p < 0 :=
  ⟨C69_evaporation _ _ _ 2 (constTab_eval 2) (by norm_num) (by norm_num),
   C69_watt _ _ _ _ 2 3 (constTab_eval 2) (constTab_eval 3) (by norm_num) (by norm_num) (by norm_num),
   C69_violation_maxwell_negative _ _ _ 4 (constTab_eval 4) (by norm_num) (by norm_num) (by norm_num) _ (by norm_num) (by norm_num)⟩

/-! ## C70 -/

theorem cpow_nonneg {b e : ℝ} (hb : 0 ≤ b) (he : 0 < e) : cpow b e = .ok (b ^ e) := by
  rcases hb.lt_or_eq with h | h
  · exact cpow_ok h
  · subst h
    simp [cpow, he, Real.zero_rpow he.ne']

theorem half_rpow {c Em : ℝ} (hc : 0 ≤ c) (hE : 0 ≤ Em) (m : ℕ) : (Em * c ^ 2) ^ ((m : ℝ) / 2) = Em ^ ((m : ℝ) / 2) * c ^ m := by
  rw [Real.mul_rpow hE (by positivity), ← Real.rpow_natCast c 2, ← Real.rpow_mul hc, ← Real.rpow_natCast c m]
  congr 2
  push_cast
  ring

theorem nbody_integral (Em : ℝ) (hE : 0 < Em) (m : ℕ) :
    ∫ x in (0 : ℝ)..Em, Real.sqrt x * (Em - x) ^ ((m : ℝ) / 2) =
      2 * (Em * Real.sqrt Em * Em ^ ((m : ℝ) / 2)) * ∫ t in (0 : ℝ)..(Real.pi / 2), Real.sin t ^ 2 * Real.cos t ^ (m + 1) := by
  have hg : Continuous fun x : ℝ => Real.sqrt x * (Em - x) ^ ((m : ℝ) / 2) := by
    apply Real.continuous_sqrt.mul
    apply Continuous.rpow_const (by fun_prop)
    intro x; right; positivity
  have hd : ∀ t ∈ Set.uIcc 0 (Real.pi / 2), HasDerivAt (fun t : ℝ => Em * Real.sin t ^ 2) (2 * Em * Real.sin t * Real.cos t) t := by
    intro t _
    refine (((Real.hasDerivAt_sin t).pow 2).const_mul Em).congr_deriv ?_
    push_cast
    ring
  have key := integral_comp_mul_deriv hd (by fun_prop) hg
  simp only [Real.sin_zero, Real.sin_pi_div_two, Function.comp] at key
  rw [show Em * (0 : ℝ) ^ 2 = 0 by ring, show Em * (1 : ℝ) ^ 2 = Em by ring] at key
  rw [← key, ← intervalIntegral.integral_const_mul]
  apply intervalIntegral.integral_congr
  intro t ht
  have hpi := Real.pi_pos
  rw [Set.uIcc_of_le (by linarith)] at ht
  have hc : 0 ≤ Real.cos t := Real.cos_nonneg_of_mem_Icc ⟨by linarith [ht.1], ht.2⟩
  have hs : 0 ≤ Real.sin t := Real.sin_nonneg_of_nonneg_of_le_pi ht.1 (by linarith [ht.2])
  simp only
  rw [Real.sqrt_mul hE.le, Real.sqrt_sq hs, show Em - Em * Real.sin t ^ 2 = Em * Real.cos t ^ 2 by
    rw [Real.cos_sq']; ring, half_rpow hc hE.le]
  ring

theorem cos_pow_step (n : ℕ) : (∫ x in (0 : ℝ)..(Real.pi / 2), Real.cos x ^ (n + 2)) =
    (n + 1) / (n + 2) * ∫ x in (0 : ℝ)..(Real.pi / 2), Real.cos x ^ n := by
  rw [integral_cos_pow]
  simp [Real.cos_pi_div_two]

theorem sin_sq_cos_pow (n : ℕ) : (∫ x in (0 : ℝ)..(Real.pi / 2), Real.sin x ^ 2 * Real.cos x ^ n) =
    1 / (n + 2) * ∫ x in (0 : ℝ)..(Real.pi / 2), Real.cos x ^ n := by
  have h : ∀ x : ℝ, Real.sin x ^ 2 * Real.cos x ^ n = Real.cos x ^ n - Real.cos x ^ (n + 2) := by
    intro x; rw [Real.sin_sq]; ring
  simp only [h]
  rw [intervalIntegral.integral_sub (by apply Continuous.intervalIntegrable; fun_prop) (by apply Continuous.intervalIntegrable; fun_prop),
    cos_pow_step]
  have : (n : ℝ) + 2 ≠ 0 := by positivity
  field_simp
  ring

/-- **C70** The joint density of the N-body distribution integrates to one over all cosines and all allowed energies. -/
theorem C70_normalised (n : Nat) (Ap A Q : ℝ) (d : NBody) (hd : NBody.make n Ap A Q = .ok d) (E : ℝ)
    (hE : 0 < (Ap - 1) / Ap * (A / (A + 1) * E + Q)) :
    ∃ p : ℝ → ℝ, (∀ x, 0 ≤ x → x ≤ (Ap - 1) / Ap * (A / (A + 1) * E + Q) → d.pdf E x = .ok (p x) ∧ 0 ≤ p x) ∧
      ∫ _ in (-1 : ℝ)..1, (∫ x in (0 : ℝ)..((Ap - 1) / Ap * (A / (A + 1) * E + Q)), p x) = 1 := by
  have hn := ((C43_accepts n Ap A Q).mp ⟨d, hd⟩).1
  have hd' : d = ⟨n, Ap, A, Q⟩ := by
    rcases C43_make n Ap A Q with h | h <;> rw [h] at hd <;> cases hd; rfl
  subst hd'
  obtain ⟨Em, hEm⟩ : ∃ Em, Em = (Ap - 1) / Ap * (A / (A + 1) * E + Q) := ⟨_, rfl⟩
  have hemax : (⟨n, Ap, A, Q⟩ : NBody).emax E = Em := hEm.symm
  rw [← hEm] at hE ⊢
  have hpi := Real.pi_pos
  have hs0 : 0 < Real.sqrt Em := Real.sqrt_pos.mpr hE
  have hss : Real.sqrt Em * Real.sqrt Em = Em := Real.mul_self_sqrt hE.le
  -- the general shape
  have gen : ∀ (C : ℝ) (m : ℕ), 0 < m → 0 ≤ C → (3 * (n : ℝ) / 2 - 4 = (m : ℝ) / 2) →
      (if n = 3 then rdiv 4 (Real.pi * Em * Em)
        else if n = 4 then do let p ← cpow Em (7 / 2); rdiv 105 (32 * p)
        else if n = 5 then do let p ← cpow Em 5; rdiv 256 (14 * Real.pi * p)
        else .ok 0 : Res ℝ) = .ok C →
      C * (2 * (Em * Real.sqrt Em * Em ^ ((m : ℝ) / 2)) * ∫ t in (0 : ℝ)..(Real.pi / 2), Real.sin t ^ 2 * Real.cos t ^ (m + 1)) = 1 / 2 →
      ∃ p : ℝ → ℝ, (∀ x, 0 ≤ x → x ≤ Em → (⟨n, Ap, A, Q⟩ : NBody).pdf E x = .ok (p x) ∧ 0 ≤ p x) ∧
        ∫ _ in (-1 : ℝ)..1, (∫ x in (0 : ℝ)..Em, p x) = 1 := by
    intro C m hm hC hexp hif hval
    refine ⟨fun x => C * (Real.sqrt x * (Em - x) ^ ((m : ℝ) / 2)), fun x h0 h1 => ⟨?_, ?_⟩, ?_⟩
    · unfold NBody.pdf
      simp only [bind, Except.bind] at hif
      simp only [hemax, bind, Except.bind, csqrt_ok h0, hexp]
      rw [hif]
      simp only
      rw [cpow_nonneg (by linarith) (by positivity)]
      simp only [pure, Except.pure]
      congr 1
      ring
    · have : 0 ≤ (Em - x) ^ ((m : ℝ) / 2) := Real.rpow_nonneg (by linarith) _
      positivity
    · rw [intervalIntegral.integral_const_mul, nbody_integral Em hE m, hval]
      norm_num
  rcases hn with rfl | rfl | rfl
  · refine gen (4 / (Real.pi * Em * Em)) 1 (by norm_num) (by positivity) (by norm_num) ?_ ?_
    · rw [if_pos rfl, rdiv_ok (by positivity)]
    · rw [sin_sq_cos_pow, cos_pow_step 0]
      simp only [pow_zero, intervalIntegral.integral_const, smul_eq_mul, Nat.cast_one]
      rw [← Real.sqrt_eq_rpow]
      have : Em * Real.sqrt Em * Real.sqrt Em = Em * Em := by rw [mul_assoc, hss]
      rw [this]
      push_cast
      field_simp
      norm_num
      ring
  · refine gen (105 / (32 * Em ^ (7 / 2 : ℝ))) 4 (by norm_num) (by positivity) (by norm_num) ?_ ?_
    · rw [if_neg (by norm_num), if_pos rfl, cpow_ok hE]
      simp only [bind, Except.bind]
      rw [rdiv_ok (by positivity)]
    · rw [sin_sq_cos_pow, cos_pow_step 3, cos_pow_step 1]
      simp only [pow_one, integral_cos, Real.sin_pi_div_two, Real.sin_zero]
      have h7 : Em ^ (7 / 2 : ℝ) = Em * Real.sqrt Em * Em ^ (((4 : ℕ) : ℝ) / 2) := by
        rw [Real.sqrt_eq_rpow, show (7 / 2 : ℝ) = 1 + 1 / 2 + ((4 : ℕ) : ℝ) / 2 by norm_num, Real.rpow_add hE, Real.rpow_add hE, Real.rpow_one]
      rw [h7]
      have : 0 < Em ^ (((4 : ℕ) : ℝ) / 2) := Real.rpow_pos_of_pos hE _
      push_cast at this ⊢
      field_simp
      norm_num
  · refine gen (256 / (14 * Real.pi * Em ^ (5 : ℝ))) 7 (by norm_num) (by positivity) (by norm_num) ?_ ?_
    · rw [if_neg (by norm_num), if_neg (by norm_num), if_pos rfl, cpow_ok hE]
      simp only [bind, Except.bind]
      rw [rdiv_ok (by positivity)]
    · rw [sin_sq_cos_pow, cos_pow_step 6, cos_pow_step 4, cos_pow_step 2, cos_pow_step 0]
      simp only [pow_zero, intervalIntegral.integral_const, smul_eq_mul]
      have h7 : Em ^ (5 : ℝ) = Em * Real.sqrt Em * Em ^ (((7 : ℕ) : ℝ) / 2) := by
        rw [Real.sqrt_eq_rpow, show (5 : ℝ) = 1 + 1 / 2 + ((7 : ℕ) : ℝ) / 2 by norm_num, Real.rpow_add hE, Real.rpow_add hE, Real.rpow_one]
      rw [h7]
      have : 0 < Em ^ (((7 : ℕ) : ℝ) / 2) := Real.rpow_pos_of_pos hE _
      push_cast at this ⊢
      field_simp
      norm_num
      ring

/-- Non-vacuity of `C70_normalised`. -/
example : ∃ d, NBody.make 4 3 2 1 = .ok d ∧ (0 : ℝ) < (3 - 1) / 3 * (2 / (2 + 1) * 1 + 1) := by
  obtain ⟨d, h⟩ := (C43_accepts 4 3 2 1).mpr ⟨by norm_num, by norm_num, by norm_num⟩
  exact ⟨d, h, by norm_num⟩

end PNDL
