import Verif.Lemmas.Joint
import Verif.Props.Energy
import Verif.Props.Angle
import Mathlib.Analysis.SpecialFunctions.Arsinh

/-! C63 (range of correlated tables), C64 (Kalbach-Mann angular density), C81 (marginals), C82 (laws): `KalbachTable` and
`Kalbach`. -/
namespace PNDL
open Spec MeasureTheory

/-! ## Specification -/

/-- The Kalbach-Mann angular density (ENDF-6 manual, LAW=1, LANG=2). -/
noncomputable def Spec.kalbachMann (a r mu : ℝ) : ℝ := a / (2 * Real.sinh a) * (Real.cosh (a * mu) + r * Real.sinh (a * mu))

/-- What the constructors of KalbachTable guarantee. -/
structure Spec.ValidKT (t : KalbachTable) : Prop where
  pc : ValidPC t.toPC
  start : t.cdf[0]? = some 0
  lenR : t.R.length = t.energy.length
  lenA : t.A.length = t.energy.length

/-! ## Constructors -/

theorem checkJoint_check {energy pdf cdf cdf' : List ℝ} (r : Interpolation) (h : checkJoint energy pdf cdf = .ok cdf') :
    PCTable.check energy pdf cdf r = .ok ⟨energy, pdf, cdf', r⟩ ∧ cdf[0]? = some 0 ∧ cdf'.length = cdf.length := by
  unfold checkJoint at h
  split at h
  · cases h
  rename_i h1
  split at h
  · cases h
  rename_i h2
  obtain ⟨c0, hc0, h⟩ := bind_ok h
  split at h
  · cases h
  rename_i h3
  rw [not_not] at h3
  obtain ⟨last, hl, h⟩ := bind_ok h
  obtain ⟨c', hc', h⟩ := bind_ok h
  split at h
  · cases h
  rename_i h4
  cases h
  refine ⟨?_, by rw [← h3]; exact getAt_eq_ok.mp hc0, ?_⟩
  · unfold PCTable.check
    rw [if_neg h1, if_neg h2]
    simp only [hl, bind, Except.bind]
    rw [hc']
    simp only
    rw [if_neg h4]
  · split at hc'
    · split at hc'
      · cases hc'; simp [setLast]
      · cases hc'
    · cases hc'; rfl

theorem checkJoint_start {energy pdf cdf cdf' : List ℝ} (h : checkJoint energy pdf cdf = .ok cdf') :
    cdf'[0]? = some 0 := by
  obtain ⟨_, h0, hlen⟩ := checkJoint_check .linLin h
  unfold checkJoint at h
  split at h
  · cases h
  split at h
  · cases h
  obtain ⟨c0, hc0, h⟩ := bind_ok h
  split at h
  · cases h
  obtain ⟨last, hl, h⟩ := bind_ok h
  obtain ⟨c', hc', h⟩ := bind_ok h
  split at h
  · cases h
  cases h
  have hl' := back_eq_ok.mp hl
  split at hc'
  · split at hc'
    · rename_i hne hab
      cases hc'
      obtain ⟨b, hb⟩ := getElem?_of_lt (l := setLast cdf 1) (i := 0) (by rw [hlen]; exact lt_length_of_some h0)
      rcases setLast_get hb with ⟨h1, h2⟩ | ⟨_, h2⟩
      · rw [List.getLast?_eq_getElem?, ← h1, h0] at hl'
        cases hl'
        norm_num at hab
      · rw [hb, ← h2, h0]
    · cases hc'
  · cases hc'; exact h0

/-- Every table built from vectors is valid. -/
theorem KalbachTable.make_valid {energy pdf cdf R A : List ℝ} {r : Interpolation} {t : KalbachTable}
    (h : KalbachTable.make energy pdf cdf R A r = .ok t) :
    ValidKT t ∧ t.energy = energy ∧ t.pdf = pdf ∧ t.R = R ∧ t.A = A ∧ t.interp = r := by
  unfold KalbachTable.make at h
  split at h
  · cases h
  rename_i h1
  split at h
  · cases h
  rename_i h2
  obtain ⟨cdf', hc, h⟩ := bind_ok h
  cases h
  have hr : r = .histogram ∨ r = .linLin := by tauto
  push Not at h2
  obtain ⟨a1, a2, a3, a4⟩ := h2
  obtain ⟨b1, b2, b3⟩ := checkJoint_check r hc
  have hpos := lt_length_of_some b2
  have hne : energy ≠ [] := by intro he; rw [he] at a1; simp at a1; omega
  have hst := checkJoint_start hc
  exact ⟨⟨(PCTable.check_valid hr a1 a2 hne b1).1, hst, by simp only; omega, by simp only; omega⟩, rfl, rfl, rfl, rfl, rfl⟩

theorem xssSlice_length {xss s : List ℝ} {j n : Nat} (hs : xssSlice xss j n = .ok s) : s.length = n := by
  unfold xssSlice at hs
  split at hs
  · cases hs; simp [List.length_take, List.length_drop]; omega
  · cases hs

/-- Every table read from a file is valid. -/
theorem KalbachTable.makeAce_valid {xss : List ℝ} {i : Nat} {t : KalbachTable} (h : KalbachTable.makeAce xss i = .ok t) :
    ValidKT t := by
  unfold KalbachTable.makeAce at h
  obtain ⟨code, hcode, h⟩ := bind_ok h
  split at h
  · rename_i r hr
    split at h
    · cases h
    rename_i hrr
    obtain ⟨np, _, h⟩ := bind_ok h
    obtain ⟨es, h1, h⟩ := bind_ok h
    obtain ⟨ps, h2, h⟩ := bind_ok h
    obtain ⟨cs, h3, h⟩ := bind_ok h
    obtain ⟨rs, h4, h⟩ := bind_ok h
    obtain ⟨as, h5, h⟩ := bind_ok h
    obtain ⟨cs', hc, h⟩ := bind_ok h
    cases h
    have l1 := xssSlice_length h1
    have l2 := xssSlice_length h2
    have l3 := xssSlice_length h3
    have l4 := xssSlice_length h4
    have l5 := xssSlice_length h5
    obtain ⟨b1, b2, b3⟩ := checkJoint_check r hc
    have hpos := lt_length_of_some b2
    have hne : es ≠ [] := by intro he; rw [he] at l1; simp at l1; omega
    exact ⟨(PCTable.check_valid (by tauto) (by omega) (by omega) hne b1).1, checkJoint_start hc, by simp only; omega,
      by simp only; omega⟩
  · cases h

/-! ## C64: the Kalbach-Mann density -/

theorem sinh_ne {a : ℝ} (ha : a ≠ 0) : Real.sinh a ≠ 0 := fun h => ha (Real.sinh_eq_zero.mp h)

theorem div_sinh_pos {a : ℝ} (ha : a ≠ 0) : 0 < a / Real.sinh a := by
  rcases lt_or_gt_of_ne ha with h | h
  · exact div_pos_of_neg_of_neg h (Real.sinh_neg_iff.mpr h)
  · exact div_pos h (Real.sinh_pos_iff.mpr h)

/-- C64: for a non-zero slope the code evaluates the Kalbach-Mann density. -/
theorem C64_formula (mu a r : ℝ) (ha : a ≠ 0) : kalbachMuP mu a r = .ok (kalbachMann a r mu) := by
  rw [kalbachMuP, rdiv_ok (sinh_ne ha)]
  simp only [bind, Except.bind, pure, Except.pure, kalbachMann]
  congr 1
  have := sinh_ne ha
  field_simp

/-- With slope zero (an isotropic entry) the code divides zero by zero. -/
theorem C64_violation_zero_slope (mu r : ℝ) : kalbachMuP mu 0 r = .error .nonfinite := by
  rw [kalbachMuP, Real.sinh_zero, rdiv_zero]; rfl

theorem cosh_add_nonneg {x r : ℝ} (hr : |r| ≤ 1) : 0 ≤ Real.cosh x + r * Real.sinh x := by
  obtain ⟨h1, h2⟩ := abs_le.mp hr
  have e1 : Real.cosh x + r * Real.sinh x = (1 + r) / 2 * Real.exp x + (1 - r) / 2 * Real.exp (-x) := by
    rw [Real.cosh_eq, Real.sinh_eq]; ring
  rw [e1]
  have := Real.exp_pos x
  have := Real.exp_pos (-x)
  have h3 : 0 ≤ (1 + r) / 2 := by linarith
  have h4 : 0 ≤ (1 - r) / 2 := by linarith
  positivity

theorem kalbachMann_nonneg {a r mu : ℝ} (ha : a ≠ 0) (hr : |r| ≤ 1) : 0 ≤ kalbachMann a r mu := by
  unfold kalbachMann
  have h1 := div_sinh_pos ha
  have h2 : 0 ≤ a / (2 * Real.sinh a) := by
    rw [show a / (2 * Real.sinh a) = a / Real.sinh a / 2 by have := sinh_ne ha; field_simp]; linarith
  exact mul_nonneg h2 (cosh_add_nonneg hr)

/-- C64: for a non-zero slope and `|r| ≤ 1` the angular density is non-negative. -/
theorem C64_nonneg (mu a r : ℝ) (ha : a ≠ 0) (hr : |r| ≤ 1) : ∃ p, kalbachMuP mu a r = .ok p ∧ 0 ≤ p :=
  ⟨_, C64_formula mu a r ha, kalbachMann_nonneg ha hr⟩

/-- Without `|r| ≤ 1`, which no constructor checks, the density is negative somewhere. -/
theorem C64_violation_negative (a r : ℝ) (ha : a ≠ 0) (hr : 1 < r) : ∃ mu p, kalbachMuP mu a r = .ok p ∧ p < 0 := by
  obtain ⟨x, hx⟩ : ∃ x, x = -Real.log (1 + 2 / (r - 1)) := ⟨_, rfl⟩
  have hr' : 0 < r - 1 := by linarith
  refine ⟨x / a, _, C64_formula _ a r ha, ?_⟩
  unfold kalbachMann
  rw [show a * (x / a) = x by field_simp]
  have h1 := div_sinh_pos ha
  have h2 : 0 < a / (2 * Real.sinh a) := by
    rw [show a / (2 * Real.sinh a) = a / Real.sinh a / 2 by have := sinh_ne ha; field_simp]; linarith
  apply mul_neg_of_pos_of_neg h2
  have e1 : Real.cosh x + r * Real.sinh x = (1 + r) / 2 * Real.exp x - (r - 1) / 2 * Real.exp (-x) := by
    rw [Real.cosh_eq, Real.sinh_eq]; ring
  have hpos : (0 : ℝ) < 1 + 2 / (r - 1) := by positivity
  rw [e1, hx, neg_neg, Real.exp_log hpos, Real.exp_neg, Real.exp_log hpos]
  have e2 : 1 + 2 / (r - 1) = (r + 1) / (r - 1) := by field_simp; ring
  rw [e2, inv_div]
  have : (1 + r) / 2 * ((r - 1) / (r + 1)) - (r - 1) / 2 * ((r + 1) / (r - 1)) = -1 := by field_simp; ring
  linarith

theorem hasDeriv_sinh_mul (a s : ℝ) : HasDerivAt (fun s => Real.sinh (a * s)) (a * Real.cosh (a * s)) s := by
  have h1 : HasDerivAt (fun s : ℝ => a * s) a s := by simpa using (hasDerivAt_id s).const_mul a
  have := h1.sinh
  rwa [mul_comm] at this

theorem hasDeriv_cosh_mul (a s : ℝ) : HasDerivAt (fun s => Real.cosh (a * s)) (a * Real.sinh (a * s)) s := by
  have h1 : HasDerivAt (fun s : ℝ => a * s) a s := by simpa using (hasDerivAt_id s).const_mul a
  have := h1.cosh
  rwa [mul_comm] at this

theorem kalbachMann_continuous (a r : ℝ) : Continuous (kalbachMann a r) := by
  unfold kalbachMann
  have h1 := Real.continuous_cosh
  have h2 := Real.continuous_sinh
  fun_prop

/-- The cumulative of the density. -/
theorem kalbachMann_integral {a r : ℝ} (ha : a ≠ 0) (m : ℝ) : ∫ s in (-1 : ℝ)..m, kalbachMann a r s =
    (Real.sinh (a * m) + Real.sinh a + r * (Real.cosh (a * m) - Real.cosh a)) / (2 * Real.sinh a) := by
  have hd : ∀ s ∈ Set.uIcc (-1) m, HasDerivAt (fun s => (Real.sinh (a * s) + r * Real.cosh (a * s)) / (2 * Real.sinh a))
      (kalbachMann a r s) s := by
    intro s _
    have := ((hasDeriv_sinh_mul a s).add ((hasDeriv_cosh_mul a s).const_mul r)).div_const (2 * Real.sinh a)
    have e : kalbachMann a r s = (a * Real.cosh (a * s) + r * (a * Real.sinh (a * s))) / (2 * Real.sinh a) := by
      unfold kalbachMann; ring
    rw [e]; exact this
  rw [intervalIntegral.integral_eq_sub_of_hasDerivAt hd ((kalbachMann_continuous a r).intervalIntegrable _ _)]
  rw [show a * -1 = -a by ring, Real.sinh_neg, Real.cosh_neg]
  ring

/-- C64: for every non-zero slope the angular density integrates to 1 over `[-1, 1]`. -/
theorem C64_normalised (a r : ℝ) (ha : a ≠ 0) (G : ℝ → ℝ) (hG : ∀ mu, kalbachMuP mu a r = .ok (G mu)) :
    IntervalIntegrable G volume (-1) 1 ∧ ∫ mu in (-1 : ℝ)..1, G mu = 1 := by
  have hGe : G = kalbachMann a r := by
    funext mu
    have := hG mu
    rw [C64_formula mu a r ha] at this
    exact (Except.ok.inj this).symm
  rw [hGe]
  refine ⟨(kalbachMann_continuous a r).intervalIntegrable _ _, ?_⟩
  rw [kalbachMann_integral ha, mul_one]
  have := sinh_ne ha
  field_simp; ring

/-- The two components the cosine is sampled from: the even part, and the forward exponential. -/
noncomputable def Spec.kalbachEven (a mu : ℝ) : ℝ := kalbachMann a 0 mu
/-- See `kalbachEven`. -/
noncomputable def Spec.kalbachForward (a mu : ℝ) : ℝ := a * Real.exp (a * mu) / (Real.exp a - Real.exp (-a))

/-- C64: the density is the mixture of the two components with weights `1 - r` and `r`. -/
theorem C64_mixture (a r mu : ℝ) : kalbachMann a r mu = (1 - r) * kalbachEven a mu + r * kalbachForward a mu := by
  unfold kalbachEven kalbachForward kalbachMann
  have h1 : Real.exp (a * mu) = Real.cosh (a * mu) + Real.sinh (a * mu) := (Real.cosh_add_sinh _).symm
  have h2 : Real.exp a - Real.exp (-a) = 2 * Real.sinh a := by rw [Real.sinh_eq]; ring
  rw [h1, h2]; ring

theorem kalbachForward_eq {a mu : ℝ} : kalbachForward a mu = kalbachMann a 1 mu := by
  rw [C64_mixture a 1 mu]; ring

/-- C64: in the first branch (`xi1 > R`, probability `1 - R`) the cosine is in `[-1, 1]` and inverts the cumulative of the even
component. -/
theorem C64_cosine_even (R A xi1 xi2 : ℝ) (hA : A ≠ 0) (h : R < xi1) (h0 : 0 ≤ xi2) (h1 : xi2 ≤ 1) :
    ∃ mu, kalbachCosine R A xi1 xi2 = .ok mu ∧ -1 ≤ mu ∧ mu ≤ 1 ∧ ∫ s in (-1 : ℝ)..mu, kalbachEven A s = xi2 := by
  obtain ⟨T, hT⟩ : ∃ T, T = (2 * xi2 - 1) * Real.sinh A := ⟨_, rfl⟩
  have hpos : 0 < T + Real.sqrt (T * T + 1) := by
    have h2 : |T| < Real.sqrt (T * T + 1) := by
      rw [← Real.sqrt_sq_eq_abs]
      apply Real.sqrt_lt_sqrt (sq_nonneg _)
      nlinarith
    have := neg_abs_le T
    linarith
  have har : Real.log (T + Real.sqrt (T * T + 1)) = Real.arsinh T := by
    unfold Real.arsinh
    rw [show T * T + 1 = 1 + T ^ 2 by ring]
  obtain ⟨mu, hmu⟩ : ∃ mu, mu = 1 / A * Real.arsinh T := ⟨_, rfl⟩
  have hAm : A * mu = Real.arsinh T := by rw [hmu]; field_simp
  have habs : |Real.arsinh T| ≤ |A| := by
    have hTle : |T| ≤ |Real.sinh A| := by
      rw [hT, abs_mul]
      have : |2 * xi2 - 1| ≤ 1 := abs_le.mpr ⟨by linarith, by linarith⟩
      nlinarith [abs_nonneg (Real.sinh A)]
    have e1 : |Real.sinh A| = Real.sinh |A| := Real.abs_sinh A
    rw [e1] at hTle
    obtain ⟨q1, q2⟩ := abs_le.mp hTle
    rw [abs_le]
    constructor
    · have := Real.arsinh_le_arsinh.mpr q1
      rwa [Real.arsinh_neg, Real.arsinh_sinh] at this
    · have := Real.arsinh_le_arsinh.mpr q2
      rwa [Real.arsinh_sinh] at this
  have hmu1 : |mu| ≤ 1 := by
    have hp : 0 < |A| := abs_pos.mpr hA
    have : |A| * |mu| ≤ |A| * 1 := by rw [← abs_mul, hAm, mul_one]; exact habs
    exact le_of_mul_le_mul_left this hp
  refine ⟨mu, ?_, (abs_le.mp hmu1).1, (abs_le.mp hmu1).2, ?_⟩
  · rw [kalbachCosine, if_pos h, ← hT, rdiv_ok hA]
    simp only [bind, Except.bind, pure, Except.pure, hmu, clog_ok hpos, har]
  · unfold kalbachEven
    rw [kalbachMann_integral hA, hAm, Real.sinh_arsinh, hT]
    have := sinh_ne hA
    field_simp; ring

/-- C64: in the second branch (probability `R`) the cosine is in `[-1, 1]` and inverts the cumulative of the forward component. -/
theorem C64_cosine_forward (R A xi1 xi2 : ℝ) (hA : A ≠ 0) (h : xi1 ≤ R) (h0 : 0 ≤ xi2) (h1 : xi2 ≤ 1) :
    ∃ mu, kalbachCosine R A xi1 xi2 = .ok mu ∧ -1 ≤ mu ∧ mu ≤ 1 ∧ ∫ s in (-1 : ℝ)..mu, kalbachForward A s = xi2 := by
  obtain ⟨X, hX⟩ : ∃ X, X = xi2 * Real.exp A + (1 - xi2) * Real.exp (-A) := ⟨_, rfl⟩
  have p1 := Real.exp_pos A
  have p2 := Real.exp_pos (-A)
  have hpos : 0 < X := by
    rw [hX]
    rcases eq_or_lt_of_le h0 with h | h
    · rw [← h]; linarith
    · have := mul_pos h p1
      have := mul_nonneg (sub_nonneg.mpr h1) p2.le
      linarith
  obtain ⟨mu, hmu⟩ : ∃ mu, mu = 1 / A * Real.log X := ⟨_, rfl⟩
  have hAm : A * mu = Real.log X := by rw [hmu]; field_simp
  have habs : |Real.log X| ≤ |A| := by
    have b1 : X ≤ Real.exp |A| := by
      have u1 : Real.exp A ≤ Real.exp |A| := Real.exp_le_exp.mpr (le_abs_self A)
      have u2 : Real.exp (-A) ≤ Real.exp |A| := Real.exp_le_exp.mpr (neg_le_abs A)
      rw [hX]; nlinarith
    have b2 : Real.exp (-|A|) ≤ X := by
      have u1 : Real.exp (-|A|) ≤ Real.exp A := Real.exp_le_exp.mpr (neg_abs_le A)
      have u2 : Real.exp (-|A|) ≤ Real.exp (-A) := Real.exp_le_exp.mpr (neg_le_neg (le_abs_self A))
      rw [hX]; nlinarith
    rw [abs_le]
    exact ⟨(Real.le_log_iff_exp_le hpos).mpr b2, (Real.log_le_iff_le_exp hpos).mpr b1⟩
  have hmu1 : |mu| ≤ 1 := by
    have hp : 0 < |A| := abs_pos.mpr hA
    have : |A| * |mu| ≤ |A| * 1 := by rw [← abs_mul, hAm, mul_one]; exact habs
    exact le_of_mul_le_mul_left this hp
  refine ⟨mu, ?_, (abs_le.mp hmu1).1, (abs_le.mp hmu1).2, ?_⟩
  · rw [kalbachCosine, if_neg (not_lt.mpr h), ← hX, rdiv_ok hA, clog_ok hpos]
    simp only [bind, Except.bind, pure, Except.pure, hmu]
  · rw [funext (fun s => kalbachForward_eq (a := A) (mu := s)), kalbachMann_integral hA, hAm]
    have e1 : Real.sinh (Real.log X) + Real.sinh A + 1 * (Real.cosh (Real.log X) - Real.cosh A) = X - Real.exp (-A) := by
      have c1 := Real.cosh_add_sinh (Real.log X)
      have c2 := Real.cosh_sub_sinh A
      rw [Real.exp_log hpos] at c1
      linarith
    have e2 : 2 * Real.sinh A = Real.exp A - Real.exp (-A) := by rw [Real.sinh_eq]; ring
    have := sinh_ne hA
    rw [e1, div_eq_iff (by simpa using this), e2, hX]; ring

/-- C64: a non-zero slope is enough for the cosine to be defined and in `[-1, 1]` before the clamp, whatever `R`. -/
theorem C64_cosine_range (R A xi1 xi2 : ℝ) (hA : A ≠ 0) (h0 : 0 ≤ xi2) (h1 : xi2 ≤ 1) :
    ∃ mu, kalbachCosine R A xi1 xi2 = .ok mu ∧ -1 ≤ mu ∧ mu ≤ 1 := by
  rcases lt_or_ge R xi1 with h | h
  · obtain ⟨mu, a, b, c, _⟩ := C64_cosine_even R A xi1 xi2 hA h h0 h1
    exact ⟨mu, a, b, c⟩
  · obtain ⟨mu, a, b, c, _⟩ := C64_cosine_forward R A xi1 xi2 hA h h0 h1
    exact ⟨mu, a, b, c⟩

/-- With slope zero sampling divides by zero. -/
theorem C64_violation_zero_slope_sample (R xi1 xi2 : ℝ) : kalbachCosine R 0 xi1 xi2 = .error .nonfinite := by
  unfold kalbachCosine
  split_ifs <;> rw [rdiv_zero] <;> rfl

/-! ## C63: the joint density of a Kalbach table -/

theorem KalbachTable.node_eq {t : KalbachTable} (hv : ValidKT t) (hA : ∀ a ∈ t.A, a ≠ 0) (mu : ℝ) (l : Nat)
    (hl : l < t.energy.length) : t.node mu l = .ok (kalbachMann (t.A.getD l 0) (t.R.getD l 0) mu) := by
  have hlA := hv.lenA
  have hlR := hv.lenR
  have ea := getD_some (l := t.A) (i := l) (by omega)
  have er := getD_some (l := t.R) (i := l) (by omega)
  rw [KalbachTable.node, getAt_eq_ok.mpr ea, getAt_eq_ok.mpr er]
  exact C64_formula mu _ _ (hA _ (List.mem_of_getElem? ea))

/-- C63 for Kalbach tables with strictly increasing outgoing energies and non-zero slopes: the joint density is defined
everywhere except at the highest energy of a linearly interpolated table, is zero outside the table, and non-negative when
`|R| ≤ 1`.  Missing: the highest energy, equal energies, zero slopes; see the violations. -/
theorem C63_kalbach_pdf_partial (energy pdf cdf R A : List ℝ) (r : Interpolation) (t : KalbachTable)
    (ht : KalbachTable.make energy pdf cdf R A r = .ok t) (hs : energy.Pairwise (· < ·)) (hA : ∀ a ∈ A, a ≠ 0) (mn mx : ℝ)
    (hmn : t.minEnergy = .ok mn) (hmx : t.maxEnergy = .ok mx) (mu E : ℝ) (hE : E ≠ mx ∨ r = .histogram) :
    ∃ p, t.pdfAt mu E = .ok p ∧ (E < mn ∨ mx < E → p = 0) ∧ ((∀ q ∈ R, |q| ≤ 1) → 0 ≤ p) := by
  obtain ⟨hv, e1, e2, e3, e4, e5⟩ := KalbachTable.make_valid ht
  rw [← e4] at hA
  rw [← e1] at hs
  obtain ⟨p, h1, h2, h3⟩ := jointPdf_defined (pdf := t.pdf) (r := t.interp) (node := t.node mu) hs hv.pc.lenP
    (front_eq_ok.mp hmn) (back_eq_ok.mp hmx) (fun l hl => ⟨_, t.node_eq hv hA mu l hl⟩) E (by rw [e5]; exact hE)
  refine ⟨p, h1, h2, fun hR => h3 ?_ hv.pc.pdf_nonneg⟩
  intro l m hm
  rw [KalbachTable.node] at hm
  obtain ⟨a, ha, hm⟩ := bind_ok hm
  obtain ⟨q, hq, hm⟩ := bind_ok hm
  rw [C64_formula mu a q (hA a (List.mem_of_getElem? (getAt_eq_ok.mp ha)))] at hm
  cases hm
  exact kalbachMann_nonneg (hA a (List.mem_of_getElem? (getAt_eq_ok.mp ha)))
    (hR q (by rw [← e3]; exact List.mem_of_getElem? (getAt_eq_ok.mp hq)))

/-- C63: the value of the joint density: at a tabulated energy (other than the last one) the product of the tabulated density and
the Kalbach-Mann density there, in between the same product (histogram) or its linear interpolation. -/
theorem C63_kalbach_value (energy pdf cdf R A : List ℝ) (r : Interpolation) (t : KalbachTable)
    (ht : KalbachTable.make energy pdf cdf R A r = .ok t) (hA : ∀ a ∈ A, a ≠ 0) (mu E : ℝ) (l : Nat)
    (e0 e1 p0 p1 r0 r1 a0 a1 : ℝ) (h1 : energy[l]? = some e0) (h2 : energy[l + 1]? = some e1) (h3 : pdf[l]? = some p0)
    (h4 : pdf[l + 1]? = some p1) (h5 : R[l]? = some r0) (h6 : R[l + 1]? = some r1) (h7 : A[l]? = some a0)
    (h8 : A[l + 1]? = some a1) (b1 : e0 < E) (b2 : E < e1) :
    t.pdfAt mu E = .ok (if r = .histogram then kalbachMann a0 r0 mu * p0 else
      (E - e0) / (e1 - e0) * (kalbachMann a1 r1 mu * p1) + (e1 - E) / (e1 - e0) * (kalbachMann a0 r0 mu * p0)) := by
  obtain ⟨hv, q1, q2, q3, q4, q5⟩ := KalbachTable.make_valid ht
  have n0 : t.node mu l = .ok (kalbachMann a0 r0 mu) := by
    rw [KalbachTable.node, q3, q4, getAt_eq_ok.mpr h7, getAt_eq_ok.mpr h5]
    exact C64_formula mu _ _ (hA _ (List.mem_of_getElem? h7))
  have n1 : t.node mu (l + 1) = .ok (kalbachMann a1 r1 mu) := by
    rw [KalbachTable.node, q3, q4, getAt_eq_ok.mpr h8, getAt_eq_ok.mpr h6]
    exact C64_formula mu _ _ (hA _ (List.mem_of_getElem? h8))
  rw [KalbachTable.pdfAt, jointPdf_cell (energy := t.energy) hv.pc.values_sorted (by rw [q1]; exact h1)
    (by rw [q1]; exact h2) (by rw [q2]; exact h3) (by rw [q2]; exact h4) n0 n1 b1 b2, q5]
  have : e1 - e0 ≠ 0 := by intro h; linarith
  congr 1
  split_ifs
  · rfl
  · field_simp; ring

/-- The full claim is false of the code: every linearly interpolated Kalbach table with distinct energies reads beyond the end
of its vectors at its highest outgoing energy. -/
theorem C63_violation_kalbach (energy pdf cdf R A : List ℝ) (t : KalbachTable)
    (ht : KalbachTable.make energy pdf cdf R A .linLin = .ok t) (hs : energy.Pairwise (· < ·)) (mx : ℝ)
    (hmx : t.maxEnergy = .ok mx) (mu : ℝ) : t.pdfAt mu mx = .error .ub := by
  obtain ⟨hv, e1, e2, e3, e4, e5⟩ := KalbachTable.make_valid ht
  rw [KalbachTable.pdfAt, e5]
  exact jointPdf_last (by rw [e1]; exact hs) (back_eq_ok.mp hmx)

/-! ## C81: marginals -/

/-- C81: the integral of the joint density of a Kalbach table over the outgoing energies is its angular density.  `G` is the
joint density at the cosine, wherever it is defined. -/
theorem C81_kalbach_marginal (energy pdf cdf R A : List ℝ) (r : Interpolation) (t : KalbachTable)
    (ht : KalbachTable.make energy pdf cdf R A r = .ok t) (hA : ∀ a ∈ A, a ≠ 0) (mn mx mu : ℝ)
    (hmn : t.minEnergy = .ok mn) (hmx : t.maxEnergy = .ok mx) (G : ℝ → ℝ) (hG : ∀ E p, t.pdfAt mu E = .ok p → G E = p) :
    ∃ s, t.anglePdf mu = .ok s ∧ IntervalIntegrable G volume mn mx ∧ ∫ E in mn..mx, G E = s := by
  obtain ⟨hv, e1, e2, e3, e4, e5⟩ := KalbachTable.make_valid ht
  rw [← e4] at hA
  have hm := marginalPdf_eq (r := t.interp) (node := t.node mu) hv.pc.lenP hv.pc.ne (fun l hl => t.node_eq hv hA mu l hl)
  exact ⟨_, hm, joint_integral hv.pc.values_sorted hv.pc.lenP (front_eq_ok.mp hmn) (back_eq_ok.mp hmx)
    (fun l hl => ⟨_, t.node_eq hv hA mu l hl⟩) hm G hG⟩

/-- C81: on a consistent Kalbach table the angular density integrates to 1 over `[-1, 1]`. -/
theorem C81_kalbach_normalised (energy pdf cdf R A : List ℝ) (r : Interpolation) (t : KalbachTable)
    (ht : KalbachTable.make energy pdf cdf R A r = .ok t) (hA : ∀ a ∈ A, a ≠ 0) (hc : ConsistentPC t.toPC)
    (H : ℝ → ℝ) (hH : ∀ mu, t.anglePdf mu = .ok (H mu)) :
    IntervalIntegrable H volume (-1) 1 ∧ ∫ mu in (-1 : ℝ)..1, H mu = 1 := by
  obtain ⟨hv, e1, e2, e3, e4, e5⟩ := KalbachTable.make_valid ht
  rw [← e4] at hA
  refine marginal_normalised hv.pc hc t.node (fun l mu => kalbachMann (t.A.getD l 0) (t.R.getD l 0) mu)
    (fun mu l hl => t.node_eq hv hA mu l hl) (-1) 1 (fun l _ => (kalbachMann_continuous _ _).intervalIntegrable _ _) ?_ H hH
  intro l hl
  have hl' : l < t.A.length := by rw [hv.lenA]; exact hl
  have hne := hA _ (List.mem_of_getElem? (getD_some hl'))
  exact (C64_normalised _ _ hne _ (fun mu => C64_formula mu _ _ hne)).2

/-- C81: the angular density of a Kalbach table is non-negative when `|R| ≤ 1`. -/
theorem C81_kalbach_nonneg (energy pdf cdf R A : List ℝ) (r : Interpolation) (t : KalbachTable)
    (ht : KalbachTable.make energy pdf cdf R A r = .ok t) (hA : ∀ a ∈ A, a ≠ 0) (hR : ∀ q ∈ R, |q| ≤ 1) (mu : ℝ) :
    ∃ s, t.anglePdf mu = .ok s ∧ 0 ≤ s := by
  obtain ⟨hv, e1, e2, e3, e4, e5⟩ := KalbachTable.make_valid ht
  rw [← e4] at hA
  rw [← e3] at hR
  have hm := marginalPdf_eq (r := t.interp) (node := t.node mu) hv.pc.lenP hv.pc.ne (fun l hl => t.node_eq hv hA mu l hl)
  refine ⟨_, hm, marginalPdf_nonneg (g := fun l => kalbachMann (t.A.getD l 0) (t.R.getD l 0) mu) hv.pc.values_sorted hv.pc.lenP
    hv.pc.ne (fun l hl => t.node_eq hv hA mu l hl) ?_ hv.pc.pdf_nonneg hm⟩
  intro l hl
  have hl1 : l < t.A.length := by rw [hv.lenA]; exact hl
  have hl2 : l < t.R.length := by rw [hv.lenR]; exact hl
  exact kalbachMann_nonneg (hA _ (List.mem_of_getElem? (getD_some hl1))) (hR _ (List.mem_of_getElem? (getD_some hl2)))

end PNDL
