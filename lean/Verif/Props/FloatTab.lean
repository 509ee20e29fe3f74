import Verif.Model.FloatTab
import Verif.Props.FloatKin
import Verif.Props.PCTable

/-! C133: sampling a tabulated density in binary64 arithmetic. -/
namespace PNDL

open Classical in
/-- The accuracy claimed for a value sampled in a cell. -/
noncomputable def Spec.cellTol (r : Interpolation) (v0 v1 p0 p1 : ℝ) : ℝ :=
  (if r = .histogram ∨ p0 = p1 then (2 : ℝ) ^ (-51 : ℤ) * (v1 - v0) + (2 : ℝ) ^ (-1074 : ℤ)
    else (2 : ℝ) ^ (-47 : ℤ) * ((max p0 p1) ^ 2 / min p0 p1 * (v1 - v0) / |p1 - p0|)) + (2 : ℝ) ^ (-53 : ℤ) * max |v0| |v1|

open Spec

/-- With exact arithmetic this is the function of C32 and C33. -/
theorem sample_with (t : PCTable) (xi : ℝ) : t.sample xi = t.sampleWith histInterp linInterp xi := rfl

open Classical in
theorem PCTable.sampleWith_cases {t : PCTable} (hv : ValidPC t) {xi c00 : ℝ} (h0 : t.cdf[0]? = some c00) (h1 : c00 ≤ xi)
    (h2 : xi ≤ 1) :
    (∃ (l : Nat) (v : ℝ), t.cdf[l]? = some xi ∧ t.values[l]? = some v ∧ ∀ hist lin, t.sampleWith hist lin xi = .ok v) ∨
    (∃ (l : Nat) (v0 v1 p0 p1 c0 c1 : ℝ), t.values[l]? = some v0 ∧ t.values[l + 1]? = some v1 ∧ t.pdf[l]? = some p0 ∧
      t.pdf[l + 1]? = some p1 ∧ t.cdf[l]? = some c0 ∧ t.cdf[l + 1]? = some c1 ∧ c0 < xi ∧ xi < c1 ∧
      ∀ hist lin, t.sampleWith hist lin xi = if t.interp = .histogram ∨ p0 = p1 then hist xi v0 p0 c0 else lin xi v0 v1 p0 p1 c0) := by
  obtain ⟨hle, hlb⟩ := lowerBound_partition (l := t.cdf) (x := xi) (by
    intro i j a b hij ha hb hb2
    rcases min_le_iff.mp (hv.cdf_sorted i j a b hij ha hb) with h | h <;> linarith)
  obtain ⟨l, hl⟩ : ∃ l, l = lowerBound t.cdf xi := ⟨_, rfl⟩
  rw [← hl] at hle hlb
  have hpos : 0 < t.cdf.length := lt_length_of_some h0
  have hlast : t.cdf[t.cdf.length - 1]? = some 1 := by rw [← List.getLast?_eq_getElem?]; exact hv.cdf_last
  have hlt : l < t.cdf.length := by
    have := mt (hlb _ _ hlast).mpr (not_lt.mpr h2)
    omega
  obtain ⟨c, hc⟩ := getElem?_of_lt hlt
  have hcx : xi ≤ c := not_lt.mp (mt (hlb l c hc).mp (lt_irrefl _))
  by_cases he : xi = c
  · left
    obtain ⟨v, hvl⟩ := get_of_lenEq (hv.lenC.symm) hc
    refine ⟨l, v, by rw [hc, he], hvl, fun hist lin => ?_⟩
    rw [PCTable.sampleWith, ← hl]
    simp only [getAt_eq_ok.mpr hc, getAt_eq_ok.mpr hvl, bind, Except.bind]
    rw [if_pos he]
  · right
    have hl1 : 1 ≤ l := by
      rcases Nat.eq_zero_or_pos l with h | h
      · rw [h] at hc; rw [h0] at hc; cases hc; exact absurd (le_antisymm hcx h1) he
      · exact h
    obtain ⟨k, rfl⟩ : ∃ k, l = k + 1 := ⟨l - 1, by omega⟩
    obtain ⟨c0, hc0⟩ := getElem?_of_lt (l := t.cdf) (i := k) (by omega)
    obtain ⟨v0, hv0⟩ := get_of_lenEq hv.lenC.symm hc0
    obtain ⟨v1, hv1⟩ := get_of_lenEq hv.lenC.symm hc
    obtain ⟨p0, hp0⟩ := get_of_lenEq hv.lenP hv0
    obtain ⟨p1, hp1⟩ := get_of_lenEq hv.lenP hv1
    refine ⟨k, v0, v1, p0, p1, c0, c, hv0, hv1, hp0, hp1, hc0, hc, (hlb k c0 hc0).mpr (by omega),
      lt_of_le_of_ne hcx he, fun hist lin => ?_⟩
    rw [PCTable.sampleWith, ← hl]
    simp only [getAt_eq_ok.mpr hc, getAt_eq_ok.mpr hv0, getAt_eq_ok.mpr hv1, getAt_eq_ok.mpr hp0, getAt_eq_ok.mpr hp1,
      getAt_eq_ok.mpr hc0, bind, Except.bind, subIdx_of_le hl1, Nat.add_sub_cancel]
    rw [if_neg he]
    by_cases hr : t.interp = .histogram
    · simp [hr]
    · by_cases hp : p0 = p1
      · simp [hp]
      · simp [hr, hp]

section
variable {fl : ℝ → ℝ} (hfl : IsRoundToNearest fl)
include hfl

/-- The rounded root of the rounded square is not larger than the number. -/
theorem sqrt_sq_fl_le {c : ℝ} (hd : IsDouble c) (hc : (2 : ℝ) ^ (-500 : ℤ) ≤ c) : fl (Real.sqrt (fl (c * c))) ≤ c := by
  have hη := eta_pos
  have hsmall : (2 : ℝ) ^ (-1022 : ℤ) ≤ (2 : ℝ) ^ (-500 : ℤ) := zpow_le_zpow_right₀ (by norm_num) (by norm_num)
  obtain ⟨m, e, h1, h2, hcm⟩ := double_normal hd (hsmall.trans hc)
  have hcpos : 0 < c := lt_of_lt_of_le (by positivity) hc
  have hcc : (2 : ℝ) ^ (-1022 : ℤ) ≤ c * c := by
    refine le_trans ?_ (mul_le_mul hc hc (by positivity) hcpos.le)
    rw [← zpow_add₀ (by norm_num)]
    exact zpow_le_zpow_right₀ (by norm_num) (by norm_num)
  have hpe : (0 : ℝ) < 2 ^ e * eta := by positivity
  have herr := (abs_le.mp ((fl_error hfl (c * c)).2 (by
    rw [abs_of_pos (mul_pos hcpos hcpos)]
    refine le_trans (le_of_eq ?_) hcc
    unfold eta
    rw [← zpow_natCast, ← zpow_add₀ (by norm_num)]
    norm_num))).2
  rw [abs_of_pos (mul_pos hcpos hcpos), uround_eq] at herr
  obtain ⟨w, hw⟩ : ∃ w, w = Real.sqrt (fl (c * c)) := ⟨_, rfl⟩
  have hsq0 : 0 ≤ fl (c * c) := fl_nonneg hfl (mul_nonneg hcpos.le hcpos.le)
  have hww : w * w = fl (c * c) := by rw [hw, Real.mul_self_sqrt hsq0]
  have hw0 : 0 ≤ w := by rw [hw]; exact Real.sqrt_nonneg _
  rw [← hw]
  have hw1 : w < c + 2 ^ e * eta / 2 := by
    have hce : c = m * (2 ^ e * eta) := by rw [hcm]; ring
    have h53 : (m : ℝ) ≤ 2 ^ 53 := by exact_mod_cast h2.le
    by_contra hn
    have hsq := mul_self_le_mul_self (by positivity) (not_lt.mp hn)
    rw [hww] at hsq
    generalize (2 : ℝ) ^ e * eta = g at *
    have key : c * g + g * g / 4 ≤ c * c * (1 / 2 ^ 53) := by nlinarith
    have k2 : c * c * (1 / 2 ^ 53) ≤ c * g := by
      have : c * (1 / 2 ^ 53) ≤ g := by rw [hce]; nlinarith
      nlinarith
    have := mul_pos hpe hpe
    linarith
  by_contra hn
  rw [not_le] at hn
  have hno := no_double_between (m := m) h1 e (hfl w).1
  have hge : ((m : ℝ) + 1) * 2 ^ e * eta ≤ fl w := by
    by_contra hlt
    exact hno ⟨by rw [← hcm]; exact hn, not_le.mp hlt⟩
  have e1 : ((m : ℝ) + 1) * 2 ^ e * eta = c + 2 ^ e * eta := by rw [hcm]; ring
  have hbest := (hfl w).2 c hd
  rw [e1] at hge
  rcases le_total w c with h | h
  · exact absurd (fl_le hfl hd h) (not_le.mpr hn)
  · rw [abs_of_pos (show 0 < fl w - w by linarith), abs_of_nonpos (show c - w ≤ 0 by linarith)] at hbest
    linarith

/-- Inside a cell the computed value is not below the lower end. -/
theorem linInterpFl_ge {xi v0 v1 p0 p1 c0 s : ℝ} (dv : IsDouble v0) (dp : IsDouble p0)
    (hv : v0 ≤ v1) (h0 : 0 ≤ p0) (h1 : 0 ≤ p1) (hsm : p0 = 0 ∨ (2 : ℝ) ^ (-500 : ℤ) ≤ p0) (hx : c0 ≤ xi)
    (h : linInterpFl fl xi v0 v1 p0 p1 c0 = .ok s) : v0 ≤ s := by
  unfold linInterpFl at h
  obtain ⟨m, hm, h⟩ := bind_ok h
  obtain ⟨im, him, h⟩ := bind_ok h
  simp only [pure, Except.pure, Except.ok.injEq] at h
  have hB : fl (v1 - v0) ≠ 0 := by
    intro hz
    rw [rdivFl, hz, rdiv_zero] at hm
    simp [bind, Except.bind] at hm
  rw [rdivFl_ok hB] at hm
  have hm0 : m ≠ 0 := by
    intro hz
    rw [rdivFl, hz, rdiv_zero] at him
    simp [bind, Except.bind] at him
  rw [rdivFl_ok hm0] at him
  cases hm
  cases him
  have hBp : 0 ≤ fl (v1 - v0) := fl_nonneg hfl (by linarith)
  have hD : 0 ≤ fl (xi - c0) := fl_nonneg hfl (by linarith)
  obtain ⟨m, hm⟩ : ∃ m, m = fl (fl (p1 - p0) / fl (v1 - v0)) := ⟨_, rfl⟩
  rw [← hm] at h hm0
  have hq0 : 0 ≤ fl (p0 * p0) := fl_nonneg hfl (mul_self_nonneg p0)
  obtain ⟨arg, harg⟩ : ∃ a, a = fl (fl (p0 * p0) + fl (fl (2 * m) * fl (xi - c0))) := ⟨_, rfl⟩
  rw [← harg] at h
  have fin : 0 ≤ fl (1 / m) * fl (fl (Real.sqrt (max arg 0)) - p0) → v0 ≤ s := by
    intro hn
    rw [← h]
    exact le_fl hfl dv (by linarith [fl_nonneg hfl hn])
  apply fin
  rcases le_total p0 p1 with hp | hp
  · have hmn : 0 ≤ m := by rw [hm]; exact fl_nonneg hfl (div_nonneg (fl_nonneg hfl (by linarith)) hBp)
    have ha : fl (p0 * p0) ≤ max arg 0 := by
      refine le_trans ?_ (le_max_left _ _)
      rw [harg]
      refine le_fl hfl (hfl _).1 ?_
      have := fl_nonneg hfl (mul_nonneg (fl_nonneg hfl (show 0 ≤ 2 * m by linarith)) hD)
      linarith
    have hs : p0 ≤ fl (Real.sqrt (max arg 0)) := by
      rcases hsm with hz | hz
      · rw [hz]; exact fl_nonneg hfl (Real.sqrt_nonneg _)
      · exact (sqrt_sq_fl hfl dp hz).trans (fl_mono hfl (Real.sqrt_le_sqrt ha))
    exact mul_nonneg (fl_nonneg hfl (by positivity)) (fl_nonneg hfl (by linarith))
  · have hmn : m ≤ 0 := by rw [hm]; exact fl_nonpos hfl (div_nonpos_of_nonpos_of_nonneg (fl_nonpos hfl (by linarith)) hBp)
    have ha : max arg 0 ≤ fl (p0 * p0) := by
      refine max_le ?_ hq0
      rw [harg]
      refine fl_le hfl (hfl _).1 ?_
      have := fl_nonpos hfl (mul_nonpos_of_nonpos_of_nonneg (fl_nonpos hfl (show 2 * m ≤ 0 by linarith)) hD)
      linarith
    have hs : fl (Real.sqrt (max arg 0)) ≤ p0 := by
      rcases hsm with hz | hz
      · rw [hz, mul_zero, fl_self hfl isDouble_zero] at ha
        rw [Real.sqrt_eq_zero_of_nonpos ha, fl_self hfl isDouble_zero, hz]
      · exact (fl_mono hfl (Real.sqrt_le_sqrt ha)).trans (sqrt_sq_fl_le hfl dp hz)
    exact mul_nonneg_of_nonpos_of_nonpos (fl_nonpos hfl (div_nonpos_of_nonneg_of_nonpos zero_le_one hmn)) (fl_nonpos hfl (by linarith))

theorem histInterpFl_ge {xi v0 p0 c0 s : ℝ} (dv : IsDouble v0) (h0 : 0 ≤ p0) (hx : c0 ≤ xi)
    (h : histInterpFl fl xi v0 p0 c0 = .ok s) : v0 ≤ s := by
  unfold histInterpFl at h
  obtain ⟨q, hq, h⟩ := bind_ok h
  simp only [pure, Except.pure, Except.ok.injEq] at h
  have hp : p0 ≠ 0 := by
    intro hz
    rw [rdivFl, hz, rdiv_zero] at hq
    simp [bind, Except.bind] at hq
  rw [rdivFl_ok hp] at hq
  cases hq
  rw [← h]
  have := fl_nonneg hfl (div_nonneg (fl_nonneg hfl (show 0 ≤ xi - c0 by linarith)) h0)
  exact le_fl hfl dv (by linarith)

/-- **C133** (lower end) Whatever the rounding, a value sampled from a table the constructor accepted is not below the lower end of the cell the random
number selects; in particular it is not below `min_value()`. -/
theorem C133_lower (t : PCTable) (hv : ValidPC t) (dv : ∀ v ∈ t.values, IsDouble v) (dp : ∀ p ∈ t.pdf, IsDouble p)
    (hsm : ∀ p ∈ t.pdf, p = 0 ∨ (2 : ℝ) ^ (-500 : ℤ) ≤ p) (c00 xi s : ℝ) (hc : t.cdf[0]? = some c00) (h0 : c00 ≤ xi) (h1 : xi ≤ 1)
    (h : t.sampleFl fl xi = .ok s) :
    (∃ mn, t.minValue = .ok mn ∧ mn ≤ s) ∧ ∃ (l : Nat) (v c : ℝ), t.values[l]? = some v ∧ t.cdf[l]? = some c ∧ c ≤ xi ∧
      (c = xi ∨ ∃ c', t.cdf[l + 1]? = some c' ∧ xi < c') ∧ v ≤ s := by
  have hs := hv.values_sorted
  obtain ⟨mn, hmn⟩ := getElem?_of_lt (l := t.values) (i := 0) (List.length_pos_iff.mpr hv.ne)
  have key : ∃ (l : Nat) (v c : ℝ), t.values[l]? = some v ∧ t.cdf[l]? = some c ∧ c ≤ xi ∧
      (c = xi ∨ ∃ c', t.cdf[l + 1]? = some c' ∧ xi < c') ∧ v ≤ s := by
    rcases t.sampleWith_cases hv hc h0 h1 with ⟨l, v, e1, e2, e3⟩ | ⟨l, v0, v1, p0, p1, c0, c1, e1, e2, e3, e4, e5, e6, a, b, e⟩
    · rw [PCTable.sampleFl, e3] at h
      cases h
      exact ⟨l, _, xi, e2, e1, le_rfl, Or.inl rfl, le_rfl⟩
    · rw [PCTable.sampleFl, e] at h
      refine ⟨l, v0, c0, e1, e5, a.le, Or.inr ⟨c1, e6, b⟩, ?_⟩
      have dv0 := dv _ (List.mem_of_getElem? e1)
      have hp0 := hv.pdf_nonneg _ (List.mem_of_getElem? e3)
      by_cases hr : t.interp = .histogram ∨ p0 = p1
      · rw [if_pos hr] at h
        exact histInterpFl_ge hfl dv0 hp0 a.le h
      · rw [if_neg hr] at h
        exact linInterpFl_ge hfl dv0 (dp _ (List.mem_of_getElem? e3)) (pairwise_le_getElem? hs (by omega) e1 e2) hp0
          (hv.pdf_nonneg _ (List.mem_of_getElem? e4)) (hsm _ (List.mem_of_getElem? e3)) a.le h
  refine ⟨⟨mn, front_eq_ok.mpr hmn, ?_⟩, key⟩
  obtain ⟨l, v, c, e1, _, _, _, e5⟩ := key
  exact (pairwise_le_getElem? hs (Nat.zero_le _) hmn e1).trans e5

/-! ### Accuracy -/

/-- The value computed in a histogram cell is accurate to a few units in the last place of the offset and of the value. -/
theorem hist_accuracy {xi v0 p0 c0 : ℝ} (dv : IsDouble v0) (dxi : IsDouble xi) (dc : IsDouble c0) (hp : 0 < p0) (hx : c0 ≤ xi) :
    ∃ s, histInterpFl fl xi v0 p0 c0 = .ok s ∧ |s - (v0 + (xi - c0) / p0)| ≤
      (2 : ℝ) ^ (-51 : ℤ) * ((xi - c0) / p0) + (2 : ℝ) ^ (-53 : ℤ) * |v0 + (xi - c0) / p0| + (2 : ℝ) ^ (-1074 : ℤ) := by
  have hη := eta_pos
  refine ⟨_, by unfold histInterpFl; rw [rdivFl_ok hp.ne']; rfl, ?_⟩
  have e1 := fl_sub_error hfl dxi dc
  obtain ⟨D, hD⟩ : ∃ D, D = fl (xi - c0) := ⟨_, rfl⟩
  obtain ⟨q, hq⟩ : ∃ q, q = fl (D / p0) := ⟨_, rfl⟩
  obtain ⟨x, hxx⟩ : ∃ x, x = (xi - c0) / p0 := ⟨_, rfl⟩
  rw [← hD] at e1 ⊢
  rw [← hq, ← hxx]
  have hx0 : 0 ≤ x := by rw [hxx]; exact div_nonneg (by linarith) hp.le
  have e2 := (fl_error hfl (D / p0)).1
  rw [← hq] at e2
  have e3 := fl_add_error hfl dv (show IsDouble q by rw [hq]; exact (hfl _).1)
  have e1' : |D / p0 - x| ≤ uround * x := by
    rw [hxx, ← sub_div, abs_div, abs_of_pos hp, ← mul_div_assoc]
    refine div_le_div_of_nonneg_right ?_ hp.le
    rwa [abs_of_nonneg (show 0 ≤ xi - c0 by linarith)] at e1
  have e4 : |D / p0| ≤ 2 * x := by
    have := abs_sub_abs_le_abs_sub (D / p0) x
    rw [abs_of_nonneg hx0] at this
    rw [uround_eq] at e1'
    linarith
  have e5 : |q - x| ≤ 3 * uround * x + eta / 2 := by
    have := abs_sub_le q (D / p0) x
    have hu := uround_pos
    nlinarith
  have e6 : |v0 + q| ≤ |v0 + x| + |q - x| := by
    have := abs_add_le (v0 + x) (q - x)
    rwa [show v0 + x + (q - x) = v0 + q by ring] at this
  have e7 : |fl (v0 + q) - (v0 + x)| ≤ |fl (v0 + q) - (v0 + q)| + |q - x| := by
    have := abs_sub_le (fl (v0 + q)) (v0 + q) (v0 + x)
    rwa [show v0 + q - (v0 + x) = q - x by ring] at this
  have hu := uround_eq
  have c1 : (2 : ℝ) ^ (-51 : ℤ) = 4 * uround := by rw [hu]; norm_num
  have c2 : (2 : ℝ) ^ (-53 : ℤ) = uround := by rw [hu]; norm_num
  rw [c1, c2, show (2 : ℝ) ^ (-1074 : ℤ) = eta from rfl]
  have hup := uround_pos
  have hus : uround ≤ 1 / 8 := by rw [hu]; norm_num
  have a1 : uround * |v0 + q| ≤ uround * |v0 + x| + uround * |q - x| := by nlinarith
  have a2 : uround * |q - x| ≤ 1 / 8 * |q - x| := mul_le_mul_of_nonneg_right hus (abs_nonneg _)
  have a3 : 0 ≤ uround * x := mul_nonneg hup.le hx0
  linarith

omit hfl in
theorem near_of_abs {f : ℝ} (h : |f - 1| ≤ uround) : Near 1 1 f := by
  have hu := uround_pos
  have hu1 := one_sub_uround_pos
  rw [abs_le] at h
  refine ⟨zero_le_one, by linarith, by rw [pow_one]; linarith, ?_⟩
  rw [pow_one]
  nlinarith

omit hfl in
theorem Near.abs_sub_one {k : ℕ} {f : ℝ} (h : Near k 1 f) (hk : k * uround ≤ 1 / 2) : |f - 1| ≤ 2 * (k * uround) := by
  have hu := uround_pos
  have hb := one_add_mul_le_pow (a := -uround) (by rw [uround_eq]; norm_num) k
  rw [← sub_eq_add_neg, mul_neg, ← sub_eq_add_neg] at hb
  obtain ⟨_, h2, h3, h4⟩ := h
  rw [one_mul] at h3
  have hk0 : 0 ≤ k * uround := by positivity
  generalize (k : ℝ) * uround = w at *
  have h5 := mul_le_mul_of_nonneg_left hb h2
  rw [abs_le]
  constructor
  · linarith
  · by_contra hn
    rw [not_le] at hn
    nlinarith

/-- One rounding as a factor. -/
theorem fl_factor {r : ℝ} (h : r ≠ 0) (he : |fl r - r| ≤ uround * |r|) : ∃ f, fl r = r * f ∧ Near 1 1 f := by
  refine ⟨fl r / r, by rw [mul_div_cancel₀ _ h], near_of_abs ?_⟩
  rw [div_sub_one h, abs_div, div_le_iff₀ (abs_pos.mpr h)]
  exact he

theorem fl_factor' {r : ℝ} (h : (2 : ℝ) ^ (-1022 : ℤ) ≤ |r|) : ∃ f, fl r = r * f ∧ Near 1 1 f := by
  refine fl_factor hfl ?_ ((fl_error hfl r).2 ?_)
  · intro hz
    rw [hz, abs_zero] at h
    exact absurd h (not_le.mpr (by positivity))
  · refine le_trans (le_of_eq ?_) h
    unfold eta
    rw [← zpow_natCast, ← zpow_add₀ (by norm_num)]
    norm_num

omit hfl in
/-- Two different doubles of normal size are not too close to each other. -/
theorem double_gap {a b : ℝ} (da : IsDouble a) (db : IsDouble b) (ha : (2 : ℝ) ^ (-200 : ℤ) ≤ a) (hb : (2 : ℝ) ^ (-200 : ℤ) ≤ b) (hne : a ≠ b) :
    (2 : ℝ) ^ (-260 : ℤ) ≤ |a - b| := by
  have key : ∀ x y : ℝ, IsDouble x → IsDouble y → (2 : ℝ) ^ (-200 : ℤ) ≤ x → x < y → (2 : ℝ) ^ (-260 : ℤ) ≤ y - x := by
    intro x y dx dy hx hxy
    have hsmall : (2 : ℝ) ^ (-1022 : ℤ) ≤ (2 : ℝ) ^ (-200 : ℤ) := zpow_le_zpow_right₀ (by norm_num) (by norm_num)
    obtain ⟨m, e, h1, h2, hm⟩ := double_normal dx (hsmall.trans hx)
    have hη := eta_pos
    have hno := no_double_between (m := m) h1 e dy
    have hge : ((m : ℝ) + 1) * 2 ^ e * eta ≤ y := by
      by_contra hlt
      exact hno ⟨by rw [← hm]; exact hxy, not_le.mp hlt⟩
    have e1 : ((m : ℝ) + 1) * 2 ^ e * eta = x + 2 ^ e * eta := by rw [hm]; ring
    have hm53 : (m : ℝ) ≤ 2 ^ 53 := by
      have := (Int.cast_lt (R := ℝ)).mpr h2
      push_cast at this
      linarith
    have hpe : (0 : ℝ) < 2 ^ e * eta := mul_pos (pow_pos two_pos e) hη
    have h3 : x ≤ 2 ^ 53 * (2 ^ e * eta) := by
      rw [hm, mul_assoc]
      exact mul_le_mul_of_nonneg_right hm53 hpe.le
    have h4 : (2 : ℝ) ^ (-200 : ℤ) ≤ 2 ^ 53 * (2 ^ e * eta) := hx.trans h3
    have h5 : (2 : ℝ) ^ (-200 : ℤ) = 2 ^ 53 * (2 : ℝ) ^ (-253 : ℤ) := by
      rw [show (-200 : ℤ) = ((53 : ℕ) : ℤ) + -253 by norm_num, zpow_add₀ (by norm_num), zpow_natCast]
    have h6 : (2 : ℝ) ^ (-253 : ℤ) ≤ 2 ^ e * eta := by
      rw [h5] at h4
      exact le_of_mul_le_mul_left h4 (by positivity)
    have h7 : (2 : ℝ) ^ (-260 : ℤ) ≤ (2 : ℝ) ^ (-253 : ℤ) := zpow_le_zpow_right₀ (by norm_num) (by norm_num)
    calc (2 : ℝ) ^ (-260 : ℤ) ≤ 2 ^ e * eta := h7.trans h6
      _ ≤ y - x := by linarith
  rcases lt_or_gt_of_ne hne with h | h
  · rw [abs_sub_comm]
    exact (key a b da db ha h).trans (le_abs_self _)
  · exact (key b a db da hb h).trans (le_abs_self _)

set_option maxHeartbeats 1600000 in
omit hfl in
/-- The chain of absolute errors of the linear formula; `u` bounds each rounding and `e` the underflows. -/
theorem lin_chain {u e P pm Q R m X a p0 d z G H t q ah r sh dh w zh v0 s V : ℝ} (hu : 0 < u) (hu1 : u ≤ 1 / 1000) (he : 0 ≤ e)
    (hpm : 0 < pm) (hP : pm ≤ P) (hQ : Q * pm = P * P) (hm : m ≠ 0) (hR : R * |m| = Q) (heP : e ≤ u * (P * P)) (heP' : e ≤ u * P) (heR : e ≤ u * R)
    (hX : |X| ≤ P * P) (ha : a = p0 * p0 + X) (ha0 : pm * pm ≤ a) (ha1 : a ≤ P * P) (hp0 : 0 ≤ p0) (hp1 : p0 ≤ P) (hd : d = Real.sqrt a - p0) (hz : z = d / m)
    (hG : |G - 1| ≤ 10 * u) (ht : |t - X * G| ≤ u * |X * G| + e) (hq : |q - p0 * p0| ≤ u * (p0 * p0) + e)
    (hah : |ah - (q + t)| ≤ u * |q + t|) (hr : r = max ah 0) (hsh : |sh - Real.sqrt r| ≤ u * Real.sqrt r + e)
    (hdh : |dh - (sh - p0)| ≤ u * |sh - p0|) (hH : |H - 1| ≤ 8 * u) (hw : w = 1 / m * H * dh) (hzh : |zh - w| ≤ u * |w| + e)
    (hs : |s - (v0 + zh)| ≤ u * |v0 + zh|) (hV : |v0 + z| ≤ V) : |s - (v0 + z)| ≤ 64 * u * R + u * V := by
  have hP0 : 0 < P := lt_of_lt_of_le hpm hP
  have hPP : 0 < P * P := mul_pos hP0 hP0
  have hm' : 0 < |m| := abs_pos.mpr hm
  have hQP : P ≤ Q := by
    by_contra hn
    nlinarith
  have hQ0 : 0 < Q := lt_of_lt_of_le hP0 hQP
  have hR0 : 0 < R := by
    by_contra hn
    nlinarith
  have huP := mul_pos hu hPP
  -- t
  have hGle : |G| ≤ 2 := by
    have := abs_sub_abs_le_abs_sub G 1
    rw [abs_one] at this
    linarith
  have a1 : |X * G| ≤ 2 * (P * P) := by
    rw [abs_mul]
    nlinarith [abs_nonneg X, abs_nonneg G]
  have a2 : |X * G - X| ≤ 10 * u * (P * P) := by
    rw [show X * G - X = (G - 1) * X by ring, abs_mul]
    exact mul_le_mul hG hX (abs_nonneg _) (by positivity)
  have a3 : |t - X| ≤ 13 * u * (P * P) := by
    have h1 := abs_sub_le t (X * G) X
    have h2 := mul_le_mul_of_nonneg_left a1 hu.le
    linarith
  have hpp : p0 * p0 ≤ P * P := mul_self_le_mul_self hp0 hp1
  have a4 : |q - p0 * p0| ≤ 2 * u * (P * P) := by
    have h2 := mul_le_mul_of_nonneg_left hpp hu.le
    linarith
  have a5 : |q + t - a| ≤ 15 * u * (P * P) := by
    have h1 := abs_add_le (q - p0 * p0) (t - X)
    rw [show q - p0 * p0 + (t - X) = q + t - a by rw [ha]; ring] at h1
    linarith
  have hapos : 0 < a := lt_of_lt_of_le (mul_pos hpm hpm) ha0
  have huP1 : u * (P * P) ≤ 1 / 1000 * (P * P) := mul_le_mul_of_nonneg_right hu1 hPP.le
  have a6 : |q + t| ≤ 2 * (P * P) := by
    have := abs_sub_abs_le_abs_sub (q + t) a
    rw [abs_of_pos hapos] at this
    linarith
  have a7 : |ah - a| ≤ 17 * u * (P * P) := by
    have h1 := abs_sub_le ah (q + t) a
    have h2 := mul_le_mul_of_nonneg_left a6 hu.le
    linarith
  have a8 : |r - a| ≤ 17 * u * (P * P) := by
    have h1 := abs_max_sub_max_le_abs ah a 0
    rw [max_eq_left hapos.le, ← hr] at h1
    exact h1.trans a7
  have hr0 : 0 ≤ r := by rw [hr]; exact le_max_right _ _
  have a9 : r ≤ 2 * P * (2 * P) := by
    have := le_abs_self (r - a)
    linarith
  have a10 : Real.sqrt r ≤ 2 * P := by
    rw [Real.sqrt_le_left (by positivity)]
    linarith
  have a11 : pm ≤ Real.sqrt a := Real.le_sqrt_of_sq_le (by rw [sq]; exact ha0)
  have a12 : Real.sqrt a ≤ P := by
    rw [Real.sqrt_le_left hP0.le]
    linarith
  have a13 : |Real.sqrt r - Real.sqrt a| ≤ 17 * u * Q := by
    have h1 : |Real.sqrt r - Real.sqrt a| * (Real.sqrt r + Real.sqrt a) = |r - a| := by
      rw [← abs_of_nonneg (show 0 ≤ Real.sqrt r + Real.sqrt a by positivity), ← abs_mul]
      congr 1
      have := Real.mul_self_sqrt hr0
      have := Real.mul_self_sqrt hapos.le
      linarith
    have h2 : |Real.sqrt r - Real.sqrt a| * pm ≤ |r - a| := by
      rw [← h1]
      exact mul_le_mul_of_nonneg_left (by linarith [Real.sqrt_nonneg r]) (abs_nonneg _)
    have h3 : |Real.sqrt r - Real.sqrt a| * pm ≤ 17 * u * Q * pm := by
      rw [mul_assoc _ Q, hQ]
      exact h2.trans a8
    exact le_of_mul_le_mul_right h3 hpm
  have huPQ : u * P ≤ u * Q := mul_le_mul_of_nonneg_left hQP hu.le
  have huQ : u * Q ≤ 1 / 1000 * Q := mul_le_mul_of_nonneg_right hu1 hQ0.le
  have a14 : |sh - Real.sqrt a| ≤ 20 * u * Q := by
    have h1 := abs_sub_le sh (Real.sqrt r) (Real.sqrt a)
    have h2 := mul_le_mul_of_nonneg_left a10 hu.le
    linarith
  have a15 : |d| ≤ P := by
    rw [hd, abs_le]
    constructor <;> linarith
  have a16 : |sh - p0| ≤ 2 * Q := by
    have h1 := abs_add_le (sh - Real.sqrt a) d
    rw [show sh - Real.sqrt a + d = sh - p0 by rw [hd]; ring] at h1
    linarith
  have a17 : |dh - d| ≤ 22 * u * Q := by
    have h1 := abs_add_le (dh - (sh - p0)) (sh - Real.sqrt a)
    rw [show dh - (sh - p0) + (sh - Real.sqrt a) = dh - d by rw [hd]; ring] at h1
    have h2 := mul_le_mul_of_nonneg_left a16 hu.le
    linarith
  have a18 : |dh| ≤ 2 * Q := by
    have := abs_sub_abs_le_abs_sub dh d
    linarith
  have a19 : |H * dh - d| ≤ 38 * u * Q := by
    have h1 := abs_add_le ((H - 1) * dh) (dh - d)
    rw [show (H - 1) * dh + (dh - d) = H * dh - d by ring, abs_mul] at h1
    have h2 := mul_le_mul hH a18 (abs_nonneg _) (by positivity : (0 : ℝ) ≤ 8 * u)
    linarith
  have hQR : Q / |m| = R := by rw [← hR, mul_div_cancel_right₀ _ hm'.ne']
  have a20 : |w - z| ≤ 38 * u * R := by
    have : w - z = (H * dh - d) / m := by rw [hw, hz]; field_simp
    rw [this, abs_div, ← hQR, ← mul_div_assoc]
    exact div_le_div_of_nonneg_right a19 hm'.le
  have hHle : |H| ≤ 2 := by
    have := abs_sub_abs_le_abs_sub H 1
    rw [abs_one] at this
    linarith
  have a21 : |w| ≤ 4 * R := by
    have : w = (H * dh) / m := by rw [hw]; field_simp
    rw [this, abs_div, abs_mul, ← hQR, ← mul_div_assoc]
    refine div_le_div_of_nonneg_right ?_ hm'.le
    nlinarith [abs_nonneg H, abs_nonneg dh]
  have a22 : |zh - z| ≤ 43 * u * R := by
    have h1 := abs_sub_le zh w z
    have h2 := mul_le_mul_of_nonneg_left a21 hu.le
    linarith
  have a23 : |v0 + zh| ≤ V + |zh - z| := by
    have h1 := abs_add_le (v0 + z) (zh - z)
    rw [show v0 + z + (zh - z) = v0 + zh by ring] at h1
    linarith
  have h1 := abs_add_le (s - (v0 + zh)) (zh - z)
  rw [show s - (v0 + zh) + (zh - z) = s - (v0 + z) by ring] at h1
  have h2 := mul_le_mul_of_nonneg_left a23 hu.le
  have h3 := mul_le_mul_of_nonneg_right hu1 (abs_nonneg (zh - z))
  have h4 : 0 ≤ u * R := by positivity
  linarith

/-- The value computed in a cell of linear density: the error grows as the two densities get closer. -/
theorem lin_accuracy {xi v0 v1 p0 p1 c0 : ℝ} (dxi : IsDouble xi) (dv0 : IsDouble v0) (dv1 : IsDouble v1) (dp0 : IsDouble p0) (dp1 : IsDouble p1)
    (dc : IsDouble c0) (hne : p0 ≠ p1) (l0 : (2 : ℝ) ^ (-200 : ℤ) ≤ p0) (l1 : (2 : ℝ) ^ (-200 : ℤ) ≤ p1) (g0 : p0 ≤ (2 : ℝ) ^ (200 : ℤ)) (g1 : p1 ≤ (2 : ℝ) ^ (200 : ℤ))
    (lW : (2 : ℝ) ^ (-200 : ℤ) ≤ v1 - v0) (gW : v1 - v0 ≤ (2 : ℝ) ^ (200 : ℤ)) (hx : c0 < xi) (hcov : xi - c0 ≤ (v1 - v0) * (p0 + p1) / 2) :
    ∃ s x, linInterpFl fl xi v0 v1 p0 p1 c0 = .ok s ∧ linInterp xi v0 v1 p0 p1 c0 = .ok x ∧ v0 ≤ x ∧ x ≤ v1 ∧
      |s - x| ≤ (2 : ℝ) ^ (-47 : ℤ) * ((max p0 p1) ^ 2 / min p0 p1 * (v1 - v0) / |p1 - p0|) + (2 : ℝ) ^ (-53 : ℤ) * max |v0| |v1| := by
  have hη := eta_pos
  have hu := uround_pos
  have pz : ∀ z : ℤ, (0 : ℝ) < (2 : ℝ) ^ z := fun z => by positivity
  have hp0 : 0 < p0 := lt_of_lt_of_le (pz _) l0
  have hp1 : 0 < p1 := lt_of_lt_of_le (pz _) l1
  have hW : 0 < v1 - v0 := lt_of_lt_of_le (pz _) lW
  obtain ⟨x, hx1, hx2, hx3, _⟩ := cell_ok (r := .linLin) (show v0 ≤ v1 by linarith) hp0.le hp1.le hx le_rfl
    (show xi - c0 ≤ cellArea .linLin v0 v1 p0 p1 by unfold cellArea; rw [if_neg (by decide)]; exact hcov)
  rw [cellSample, if_neg (by simp [hne])] at hx1
  obtain ⟨W, hWd⟩ : ∃ W, W = v1 - v0 := ⟨_, rfl⟩
  obtain ⟨Δ, hΔ⟩ : ∃ Δ, Δ = p1 - p0 := ⟨_, rfl⟩
  have hΔ0 : Δ ≠ 0 := by rw [hΔ]; exact sub_ne_zero.mpr (Ne.symm hne)
  obtain ⟨m, hm⟩ : ∃ m, m = Δ / W := ⟨_, rfl⟩
  rw [← hWd] at hW lW gW hcov ⊢
  have hm0 : m ≠ 0 := by rw [hm]; exact div_ne_zero hΔ0 hW.ne'
  have hxeq : x = v0 + (Real.sqrt (max (p0 * p0 + 2 * m * (xi - c0)) 0) - p0) / m := by
    unfold linInterp at hx1
    rw [← hWd, ← hΔ, rdiv_ok hW.ne'] at hx1
    simp only [bind, Except.bind] at hx1
    rw [← hm, rdiv_ok hm0] at hx1
    simp only [pure, Except.pure, Except.ok.injEq] at hx1
    rw [← hx1]
    ring
  -- magnitudes
  have hΔgap : (2 : ℝ) ^ (-260 : ℤ) ≤ |Δ| := by rw [hΔ]; exact double_gap dp1 dp0 l1 l0 (Ne.symm hne)
  have hΔle : |Δ| ≤ max p0 p1 := by
    rw [hΔ, abs_le]
    constructor
    · linarith [le_max_left p0 p1]
    · linarith [le_max_right p0 p1]
  have hPle : max p0 p1 ≤ (2 : ℝ) ^ (200 : ℤ) := max_le g0 g1
  have habsm : |m| = |Δ| / W := by rw [hm, abs_div, abs_of_pos hW]
  have hmlo : (2 : ℝ) ^ (-460 : ℤ) ≤ |m| := by
    rw [habsm, le_div_iff₀ hW]
    refine le_trans (mul_le_mul_of_nonneg_left gW (pz _).le) ?_
    rw [← zpow_add₀ (by norm_num)]
    exact hΔgap
  have hmhi : |m| ≤ (2 : ℝ) ^ (400 : ℤ) := by
    rw [habsm, div_le_iff₀ hW]
    refine (hΔle.trans hPle).trans (le_trans (le_of_eq ?_) (mul_le_mul_of_nonneg_left lW (pz _).le))
    rw [← zpow_add₀ (by norm_num)]
    norm_num
  have dfl : ∀ r, IsDouble (fl r) := fun r => (hfl r).1
  -- the slope
  obtain ⟨f1, e1, n1⟩ := fl_factor hfl (r := Δ) hΔ0 (by rw [hΔ]; exact fl_sub_error hfl dp1 dp0)
  obtain ⟨f2, e2, n2⟩ := fl_factor hfl (r := W) hW.ne' (by rw [hWd]; exact fl_sub_error hfl dv1 dv0)
  have pos : ∀ {k : ℕ} {f : ℝ}, Near k 1 f → 0 < f := fun h => h.pos one_pos
  have half : ∀ {k : ℕ} {f : ℝ}, Near k 1 f → k ≤ 10 → 1 / 2 ≤ f := by
    intro k f h hk
    have hk' : (k : ℝ) ≤ 10 := by exact_mod_cast hk
    have hku : k * uround ≤ 1 / 4 := by
      have := mul_le_mul_of_nonneg_right hk' hu.le
      rw [uround_eq] at this ⊢
      linarith
    have := (abs_le.mp (h.abs_sub_one (by linarith))).1
    linarith
  have n12 : Near 2 1 (f1 / f2) := by
    have := n1.div n2 one_pos
    rwa [div_one] at this
  have hAB : fl Δ / fl W = m * (f1 / f2) := by
    rw [e1, e2, hm]
    have := (pos n2).ne'
    field_simp
  have shift : ∀ (z : ℤ) {r f : ℝ}, (2 : ℝ) ^ z ≤ |r| → 1 / 2 ≤ f → (2 : ℝ) ^ (z - 1) ≤ |r * f| := by
    intro z r f hr hf
    rw [abs_mul, abs_of_pos (show 0 < f by linarith), zpow_sub_one₀ (by norm_num), ← one_div]
    exact mul_le_mul hr hf (by norm_num) (abs_nonneg _)
  have up : ∀ (z : ℤ), -1022 ≤ z → (2 : ℝ) ^ (-1022 : ℤ) ≤ (2 : ℝ) ^ z := fun z h => zpow_le_zpow_right₀ (by norm_num) h
  obtain ⟨f3, e3, n3⟩ := fl_factor' hfl (r := m * (f1 / f2)) ((up _ (by norm_num)).trans (shift _ hmlo (half n12 (by norm_num))))
  obtain ⟨mh, hmh⟩ : ∃ mh, mh = fl (m * (f1 / f2)) := ⟨_, rfl⟩
  obtain ⟨F, hF⟩ : ∃ F, F = f1 / f2 * f3 := ⟨_, rfl⟩
  have nF : Near 3 1 F := by
    have := n12.mul n3
    rwa [one_mul, ← hF] at this
  have hmF : mh = m * F := by rw [hmh, e3, hF]; ring
  have hmh0 : mh ≠ 0 := by rw [hmF]; exact mul_ne_zero hm0 (pos nF).ne'
  -- twice the slope
  obtain ⟨f4, e4, n4⟩ := fl_factor' hfl (r := 2 * mh) (by
    have h1 := shift _ hmlo (half nF (by norm_num))
    rw [← hmF] at h1
    rw [abs_mul, abs_two]
    refine (up _ (show (-1022 : ℤ) ≤ -460 - 1 by norm_num)).trans (h1.trans ?_)
    linarith [abs_nonneg mh])
  have hxc : xi - c0 ≠ 0 := by linarith
  obtain ⟨f5, e5, n5⟩ := fl_factor hfl hxc (fl_sub_error hfl dxi dc)
  obtain ⟨X, hX⟩ : ∃ X, X = 2 * m * (xi - c0) := ⟨_, rfl⟩
  obtain ⟨G, hG⟩ : ∃ G, G = F * f4 * f5 := ⟨_, rfl⟩
  have nG : Near 5 1 G := by
    have := (nF.mul n4).mul n5
    rwa [one_mul, one_mul, ← hG] at this
  have hprod : fl (2 * mh) * fl (xi - c0) = X * G := by rw [e4, e5, hmF, hX, hG]; ring
  -- the reciprocal
  obtain ⟨f6, e6, n6⟩ := fl_factor' hfl (r := 1 / mh) (by
    rw [abs_div, abs_one, le_div_iff₀ (abs_pos.mpr hmh0), hmF, abs_mul, abs_of_pos (pos nF)]
    have hF2 : F ≤ 2 := by
      have := (abs_le.mp (nF.abs_sub_one (by rw [uround_eq]; norm_num))).2
      rw [uround_eq] at this
      norm_num at this
      linarith
    have h1 := mul_le_mul hmhi hF2 (pos nF).le (pz _).le
    refine le_trans (mul_le_mul_of_nonneg_left h1 (pz _).le) ?_
    rw [← mul_assoc, ← zpow_add₀ (by norm_num), show (-1022 + 400 : ℤ) = -622 by norm_num]
    calc (2 : ℝ) ^ (-622 : ℤ) * 2 = (2 : ℝ) ^ (-621 : ℤ) := by rw [show (-621 : ℤ) = -622 + 1 by norm_num, zpow_add_one₀ (by norm_num)]
      _ ≤ 1 := zpow_le_one_of_nonpos₀ (by norm_num) (by norm_num))
  obtain ⟨H, hH⟩ : ∃ H, H = 1 / F * f6 := ⟨_, rfl⟩
  have nH : Near 4 1 H := by
    have := ((Near.refl (x := 1) zero_le_one).div nF one_pos).mul n6
    rw [div_one, one_mul, ← hH] at this
    exact this.mono (by norm_num)
  have him : fl (1 / mh) = 1 / m * H := by
    rw [e6, hmF, hH]
    have := (pos nF).ne'
    field_simp
  -- the computed value
  obtain ⟨q, hq⟩ : ∃ q, q = fl (p0 * p0) := ⟨_, rfl⟩
  obtain ⟨t, ht⟩ : ∃ t, t = fl (X * G) := ⟨_, rfl⟩
  obtain ⟨ah, hah⟩ : ∃ a, a = fl (q + t) := ⟨_, rfl⟩
  obtain ⟨sh, hsh⟩ : ∃ a, a = fl (Real.sqrt (max ah 0)) := ⟨_, rfl⟩
  obtain ⟨dh, hdh⟩ : ∃ a, a = fl (sh - p0) := ⟨_, rfl⟩
  obtain ⟨zh, hzh⟩ : ∃ a, a = fl (1 / m * H * dh) := ⟨_, rfl⟩
  refine ⟨fl (v0 + zh), x, ?_, hx1, hx2, hx3, ?_⟩
  · unfold linInterpFl
    rw [← hΔ, ← hWd, rdivFl_ok (by rw [e2]; exact mul_ne_zero hW.ne' (pos n2).ne'), hAB, ← hmh]
    simp only [bind, Except.bind, pure, Except.pure]
    rw [rdivFl_ok hmh0]
    simp only []
    rw [him, hprod, ← hq, ← ht, ← hah, ← hsh, ← hdh, ← hzh]
  -- bounds of the exact quantities
  obtain ⟨P, hP⟩ : ∃ P, P = max p0 p1 := ⟨_, rfl⟩
  obtain ⟨pm, hpm⟩ : ∃ P, P = min p0 p1 := ⟨_, rfl⟩
  rw [← hP] at hΔle hPle ⊢
  rw [← hpm]
  have hpm0 : 0 < pm := by rw [hpm]; exact lt_min hp0 hp1
  have hP0 : (2 : ℝ) ^ (-200 : ℤ) ≤ P := by rw [hP]; exact l0.trans (le_max_left _ _)
  have hPpos : 0 < P := lt_of_lt_of_le (pz _) hP0
  have hpmP : pm ≤ P := by rw [hP, hpm]; exact min_le_max
  obtain ⟨a, ha⟩ : ∃ a, a = p0 * p0 + X := ⟨_, rfl⟩
  have hmW : m * W = p1 - p0 := by rw [hm, ← hΔ, div_mul_cancel₀ _ hW.ne']
  have hab : pm * pm ≤ a ∧ a ≤ P * P ∧ |X| ≤ P * P := by
    have hxpos : 0 ≤ xi - c0 := by linarith
    rcases lt_or_gt_of_ne hne with h | h
    · have hmp : 0 < m := by rw [hm, hΔ]; exact div_pos (by linarith) hW
      have h1 : 0 ≤ X := by rw [hX]; positivity
      have h2 : X ≤ p1 * p1 - p0 * p0 := by
        have := mul_le_mul_of_nonneg_left hcov (show 0 ≤ 2 * m by linarith)
        rw [← hX] at this
        have e : 2 * m * (W * (p0 + p1) / 2) = p1 * p1 - p0 * p0 := by rw [show 2 * m * (W * (p0 + p1) / 2) = m * W * (p0 + p1) by ring, hmW]; ring
        linarith
      have hPe : P = p1 := by rw [hP]; exact max_eq_right h.le
      have hpe : pm = p0 := by rw [hpm]; exact min_eq_left h.le
      rw [ha, hPe, hpe, abs_of_nonneg h1]
      refine ⟨by linarith, by linarith, ?_⟩
      have := mul_pos hp0 hp0
      linarith
    · have hmp : m < 0 := by rw [hm, hΔ]; exact div_neg_of_neg_of_pos (by linarith) hW
      have h1 : X ≤ 0 := by rw [hX]; exact mul_nonpos_of_nonpos_of_nonneg (by linarith) hxpos
      have h2 : p1 * p1 - p0 * p0 ≤ X := by
        have := mul_le_mul_of_nonpos_left hcov (show 2 * m ≤ 0 by linarith)
        rw [← hX] at this
        have e : 2 * m * (W * (p0 + p1) / 2) = p1 * p1 - p0 * p0 := by rw [show 2 * m * (W * (p0 + p1) / 2) = m * W * (p0 + p1) by ring, hmW]; ring
        linarith
      have hPe : P = p0 := by rw [hP]; exact max_eq_left h.le
      have hpe : pm = p1 := by rw [hpm]; exact min_eq_right h.le
      rw [ha, hPe, hpe, abs_of_nonpos h1]
      refine ⟨by linarith, by linarith, ?_⟩
      have := mul_pos hp1 hp1
      linarith
  obtain ⟨ha0, ha1, hXle⟩ := hab
  have hapos : 0 < a := lt_of_lt_of_le (mul_pos hpm0 hpm0) ha0
  have hxz : x = v0 + (Real.sqrt a - p0) / m := by rw [hxeq, ← hX, ← ha, max_eq_left hapos.le]
  obtain ⟨Q, hQ⟩ : ∃ Q, Q = P * P / pm := ⟨_, rfl⟩
  obtain ⟨R, hR⟩ : ∃ R, R = Q / |m| := ⟨_, rfl⟩
  have hQpm : Q * pm = P * P := by rw [hQ, div_mul_cancel₀ _ hpm0.ne']
  have hRm : R * |m| = Q := by rw [hR, div_mul_cancel₀ _ (abs_pos.mpr hm0).ne']
  have hRe : P ^ 2 / pm * W / |p1 - p0| = R := by
    rw [hR, hQ, habsm, ← hΔ, sq]
    have := abs_pos.mpr hΔ0
    field_simp
  have hQP : P ≤ Q := by
    rw [hQ, le_div_iff₀ hpm0]
    exact mul_le_mul_of_nonneg_left hpmP hPpos.le
  have hRW : W ≤ R := by
    rw [hR, le_div_iff₀ (abs_pos.mpr hm0), habsm, mul_div_cancel₀ _ hW.ne']
    exact hΔle.trans hQP
  have heu : ∀ y : ℝ, (2 : ℝ) ^ (-400 : ℤ) ≤ y → eta ≤ uround * y := by
    intro y hy
    refine le_trans ?_ (mul_le_mul_of_nonneg_left hy hu.le)
    rw [show uround = (2 : ℝ) ^ (-53 : ℤ) by rw [uround_eq]; norm_num, ← zpow_add₀ (by norm_num)]
    unfold eta
    exact zpow_le_zpow_right₀ (by norm_num) (by norm_num)
  have h400 : (2 : ℝ) ^ (-400 : ℤ) ≤ (2 : ℝ) ^ (-200 : ℤ) := zpow_le_zpow_right₀ (by norm_num) (by norm_num)
  have hPP : (2 : ℝ) ^ (-400 : ℤ) ≤ P * P := by
    refine le_trans (le_of_eq ?_) (mul_le_mul hP0 hP0 (pz _).le hPpos.le)
    rw [← zpow_add₀ (by norm_num)]
    norm_num
  have er : ∀ r, |fl r - r| ≤ uround * |r| + eta := fun r => (fl_error hfl r).1.trans (by linarith)
  have hpp : 0 ≤ p0 * p0 := mul_self_nonneg p0
  have hq' := er (p0 * p0)
  rw [abs_of_nonneg hpp, ← hq] at hq'
  have hs' := er (Real.sqrt (max ah 0))
  rw [abs_of_nonneg (Real.sqrt_nonneg _), ← hsh] at hs'
  have ku : ∀ k : ℕ, k ≤ 10 → (k : ℝ) * uround ≤ 1 / 2 := by
    intro k hk
    have hk' : (k : ℝ) ≤ 10 := by exact_mod_cast hk
    have := mul_le_mul_of_nonneg_right hk' hu.le
    rw [uround_eq] at this ⊢
    linarith
  have nG' := nG.abs_sub_one (ku _ (by norm_num))
  have nH' := nH.abs_sub_one (ku _ (by norm_num))
  push_cast at nG' nH'
  have main := lin_chain (u := uround) (e := eta) (P := P) (pm := pm) (Q := Q) (R := R) (m := m) (X := X) (a := a) (p0 := p0) (d := Real.sqrt a - p0)
    (z := (Real.sqrt a - p0) / m) (G := G) (H := H) (t := t) (q := q) (ah := ah) (r := max ah 0) (sh := sh) (dh := dh) (w := 1 / m * H * dh) (zh := zh)
    (v0 := v0) (s := fl (v0 + zh)) (V := max |v0| |v1|) hu (by rw [uround_eq]; norm_num) hη.le hpm0 hpmP hQpm hm0 hRm (heu _ hPP) (heu _ (h400.trans hP0))
    (heu _ (h400.trans (lW.trans hRW))) hXle ha ha0 ha1 hp0.le (by rw [hP]; exact le_max_left _ _) rfl rfl (by linarith) (by rw [ht]; exact er _) hq'
    (by rw [hah]; exact fl_add_error hfl (by rw [hq]; exact dfl _) (by rw [ht]; exact dfl _)) rfl hs'
    (by rw [hdh]; exact fl_sub_error hfl (by rw [hsh]; exact dfl _) dp0) (by linarith) rfl (by rw [hzh]; exact er _)
    (fl_add_error hfl dv0 (by rw [hzh]; exact dfl _)) (by rw [← hxz]; exact abs_le_max_abs_abs hx2 hx3)
  rw [← hxz] at main
  rw [hRe, show (2 : ℝ) ^ (-47 : ℤ) = 64 * uround by rw [uround_eq]; norm_num, show (2 : ℝ) ^ (-53 : ℤ) = uround by rw [uround_eq]; norm_num]
  exact main

/-- **C133** (accuracy, partial) For a table of doubles whose steps do not exceed the probabilities of the density, every double `xi` in `[0,1]` gives a value, and
it is within `cellTol` of the value of exact arithmetic, which lies in the cell.  Missing: the tolerance is small only if the two densities of a linear
cell are not close to each other; see the violations. -/
theorem C133_accuracy_partial (t : PCTable) (hv : ValidPC t) (hc : CoveredPC t) (dv : ∀ v ∈ t.values, IsDouble v) (dp : ∀ p ∈ t.pdf, IsDouble p)
    (dc : ∀ c ∈ t.cdf, IsDouble c)
    (hlin : t.interp = .linLin → ∀ (i : Nat) (v0 v1 p0 p1 : ℝ), t.values[i]? = some v0 → t.values[i + 1]? = some v1 → t.pdf[i]? = some p0 →
      t.pdf[i + 1]? = some p1 → p0 ≠ p1 → (2 : ℝ) ^ (-200 : ℤ) ≤ p0 ∧ p0 ≤ (2 : ℝ) ^ (200 : ℤ) ∧ (2 : ℝ) ^ (-200 : ℤ) ≤ p1 ∧ p1 ≤ (2 : ℝ) ^ (200 : ℤ) ∧
        (2 : ℝ) ^ (-200 : ℤ) ≤ v1 - v0 ∧ v1 - v0 ≤ (2 : ℝ) ^ (200 : ℤ))
    (xi : ℝ) (dxi : IsDouble xi) (h0 : 0 ≤ xi) (h1 : xi ≤ 1) :
    ∃ s x, t.sampleFl fl xi = .ok s ∧ t.sample xi = .ok x ∧
      ((∃ l : Nat, t.cdf[l]? = some xi ∧ t.values[l]? = some x ∧ s = x) ∨
       ∃ (l : Nat) (v0 v1 p0 p1 c0 c1 : ℝ), t.values[l]? = some v0 ∧ t.values[l + 1]? = some v1 ∧ t.pdf[l]? = some p0 ∧ t.pdf[l + 1]? = some p1 ∧
        t.cdf[l]? = some c0 ∧ t.cdf[l + 1]? = some c1 ∧ c0 < xi ∧ xi < c1 ∧ v0 ≤ x ∧ x ≤ v1 ∧ |s - x| ≤ cellTol t.interp v0 v1 p0 p1) := by
  classical
  have hs := hv.values_sorted
  rcases t.sampleWith_cases hv hc.start h0 h1 with ⟨l, v, e1, e2, e3⟩ | ⟨l, v0, v1, p0, p1, c0, c1, e1, e2, e3, e4, e5, e6, a, b, e⟩
  · exact ⟨v, v, e3 _ _, e3 _ _, Or.inl ⟨l, e1, e2, rfl⟩⟩
  · have dv0 := dv _ (List.mem_of_getElem? e1)
    have dv1 := dv _ (List.mem_of_getElem? e2)
    have dp0 := dp _ (List.mem_of_getElem? e3)
    have dp1 := dp _ (List.mem_of_getElem? e4)
    have dc0 := dc _ (List.mem_of_getElem? e5)
    have hle := pairwise_le_getElem? hs (show l ≤ l + 1 by omega) e1 e2
    have hp0 := hv.pdf_nonneg _ (List.mem_of_getElem? e3)
    have hp1 := hv.pdf_nonneg _ (List.mem_of_getElem? e4)
    have hst := hc.step l v0 v1 p0 p1 c0 c1 e1 e2 e3 e4 e5 e6
    by_cases hr : t.interp = .histogram ∨ p0 = p1
    · obtain ⟨x, hx, g1, g2, _⟩ := cell_ok hle hp0 hp1 a b.le hst
      rw [cellSample, if_pos hr] at hx
      have hpp : 0 < p0 := by
        rcases hp0.lt_or_eq with h | h
        · exact h
        · rw [← h, histInterp, rdiv_zero] at hx
          cases hx
      obtain ⟨s, hs1, hs2⟩ := hist_accuracy hfl dv0 dxi dc0 hpp a.le
      have hxe : x = v0 + (xi - c0) / p0 := by
        rw [histInterp, rdiv_ok hpp.ne'] at hx
        cases hx
        rfl
      rw [← hxe] at hs2
      have h3 := e (histInterpFl fl) (linInterpFl fl)
      have h4 := e histInterp linInterp
      rw [if_pos hr] at h3 h4
      refine ⟨s, x, h3.trans hs1, h4.trans hx, Or.inr ⟨l, v0, v1, p0, p1, c0, c1, e1, e2, e3, e4, e5, e6, a, b, g1, g2, ?_⟩⟩
      rw [cellTol, if_pos hr]
      have k1 : (xi - c0) / p0 ≤ v1 - v0 := by linarith
      have k2 := mul_le_mul_of_nonneg_left k1 (show (0 : ℝ) ≤ (2 : ℝ) ^ (-51 : ℤ) by positivity)
      have k3 := mul_le_mul_of_nonneg_left (abs_le_max_abs_abs g1 g2) (show (0 : ℝ) ≤ (2 : ℝ) ^ (-53 : ℤ) by positivity)
      exact hs2.trans (le_trans (add_le_add (add_le_add k2 k3) le_rfl) (le_of_eq (by ring)))
    · have hri : t.interp = .linLin := by
        rcases hv.rule with h | h
        · exact absurd (Or.inl h) hr
        · exact h
      have hne : p0 ≠ p1 := fun h => hr (Or.inr h)
      obtain ⟨r1, r2, r3, r4, r5, r6⟩ := hlin hri l v0 v1 p0 p1 e1 e2 e3 e4 hne
      have hcov : xi - c0 ≤ (v1 - v0) * (p0 + p1) / 2 := by
        rw [cellArea, if_neg (by rw [hri]; decide)] at hst
        linarith
      obtain ⟨s, x, hs1, hx1, g1, g2, hb⟩ := lin_accuracy hfl dxi dv0 dv1 dp0 dp1 dc0 hne r1 r3 r2 r4 r5 r6 a hcov
      have h3 := e (histInterpFl fl) (linInterpFl fl)
      have h4 := e histInterp linInterp
      rw [if_neg hr] at h3 h4
      refine ⟨s, x, h3.trans hs1, h4.trans hx1, Or.inr ⟨l, v0, v1, p0, p1, c0, c1, e1, e2, e3, e4, e5, e6, a, b, g1, g2, ?_⟩⟩
      rw [cellTol, if_neg hr]
      exact hb

/-! ### Violations -/

/-- The table of the first violation. -/
noncomputable def steepTable : PCTable :=
  ⟨[0, 5 / 4], [7205759403792794 * (2 : ℝ) ^ (-53 : ℤ), 7205759403792795 * (2 : ℝ) ^ (-53 : ℤ)], [0, 1], .linLin⟩

/-- **C133** (the claim that samples stay in the table is false of the code) A table of two points, `0` and `1.25`, whose densities are the double nearest
`0.8` and the next one, satisfies all that the constructor and C32 ask for, yet the largest random number is sampled as `2.5`, twice
`max_value()`, in any rounding to nearest. -/
theorem C133_violation_range :
    PCTable.make [0, 5 / 4] [7205759403792794 * (2 : ℝ) ^ (-53 : ℤ), 7205759403792795 * (2 : ℝ) ^ (-53 : ℤ)] [0, 1] .linLin = .ok steepTable ∧
    CoveredPC steepTable ∧ (∀ v ∈ steepTable.values ++ steepTable.pdf ++ steepTable.cdf, IsDouble v) ∧ steepTable.maxValue = .ok (5 / 4) ∧
    IsDouble (1 - (2 : ℝ) ^ (-53 : ℤ)) ∧ steepTable.sampleFl fl (1 - (2 : ℝ) ^ (-53 : ℤ)) = .ok (5 / 2) := by
  have d : ∀ (m : ℤ) (z : ℤ) (r : ℝ), |m| ≤ 2 ^ 53 → -1074 ≤ z → r = m * (2 : ℝ) ^ z → IsDouble r := fun m z r h1 h2 h => by
    rw [h]; exact isDouble_zpow h1 h2
  have de : ∀ (m : ℤ) (z : ℤ) (r : ℝ), |m| ≤ 2 ^ 53 → -1074 ≤ z → r = m * (2 : ℝ) ^ z → fl r = r := fun m z r h1 h2 h => fl_self hfl (d m z r h1 h2 h)
  refine ⟨?_, ⟨rfl, ?_⟩, ?_, rfl, d (2 ^ 53 - 1) (-53) _ (by norm_num) (by norm_num) (by norm_num), ?_⟩
  · norm_num [PCTable.make, PCTable.check, isSorted, back, bind, Except.bind, steepTable]
  · intro i v0 v1 p0 p1 c0 c1 h1 h2 h3 h4 h5 h6
    rcases i with _ | i
    · simp only [steepTable, List.getElem?_cons_zero, List.getElem?_cons_succ, Option.some.injEq] at h1 h2 h3 h4 h5 h6
      rw [← h1, ← h2, ← h3, ← h4, ← h5, ← h6, cellArea, if_neg (by simp [steepTable])]
      norm_num
    · simp [steepTable] at h2
  · intro v hv
    simp only [steepTable, List.mem_append, List.mem_cons, List.not_mem_nil, or_false] at hv
    rcases hv with ((rfl | rfl) | (rfl | rfl)) | (rfl | rfl)
    · exact isDouble_zero
    · exact d 5 (-2) _ (by norm_num) (by norm_num) (by norm_num)
    · exact d 7205759403792794 (-53) _ (by norm_num) (by norm_num) (by norm_num)
    · exact d 7205759403792795 (-53) _ (by norm_num) (by norm_num) (by norm_num)
    · exact isDouble_zero
    · exact isDouble_one
  · have hl : steepTable.sampleFl fl (1 - (2 : ℝ) ^ (-53 : ℤ)) =
        linInterpFl fl (1 - (2 : ℝ) ^ (-53 : ℤ)) 0 (5 / 4) (7205759403792794 * (2 : ℝ) ^ (-53 : ℤ)) (7205759403792795 * (2 : ℝ) ^ (-53 : ℤ)) 0 := by
      norm_num [PCTable.sampleFl, PCTable.sampleWith, steepTable, lowerBound, lowerBoundRange, bisect, getAt, bind, Except.bind, subIdx]
      exact fun h => by cases h
    rw [hl]
    unfold linInterpFl
    have f1 : fl (7205759403792795 * (2 : ℝ) ^ (-53 : ℤ) - 7205759403792794 * (2 : ℝ) ^ (-53 : ℤ)) = (2 : ℝ) ^ (-53 : ℤ) := by
      rw [show 7205759403792795 * (2 : ℝ) ^ (-53 : ℤ) - 7205759403792794 * (2 : ℝ) ^ (-53 : ℤ) = (2 : ℝ) ^ (-53 : ℤ) by ring]
      exact de 1 (-53) _ (by norm_num) (by norm_num) (by norm_num)
    have f2 : fl (5 / 4 - 0) = 5 / 4 := by rw [sub_zero]; exact de 5 (-2) _ (by norm_num) (by norm_num) (by norm_num)
    have f3 : fl ((2 : ℝ) ^ (-53 : ℤ) / (5 / 4)) = 7205759403792794 * (2 : ℝ) ^ (-106 : ℤ) := by
      have := fl_round hfl (m := 7205759403792794) (z := -106) (by norm_num) (by norm_num) (by norm_num) (r := (2 : ℝ) ^ (-53 : ℤ) / (5 / 4)) (by
        rw [abs_lt]
        constructor <;> norm_num)
      exact_mod_cast this
    have f4 : fl (1 / (7205759403792794 * (2 : ℝ) ^ (-106 : ℤ))) = 5 * (2 : ℝ) ^ (51 : ℤ) := by
      have := fl_round hfl (m := 5 * 2 ^ 50) (z := 1) (by norm_num) (by norm_num) (by norm_num) (r := 1 / (7205759403792794 * (2 : ℝ) ^ (-106 : ℤ))) (by
        rw [abs_lt]
        constructor <;> norm_num)
      rw [this]
      norm_num
    have f5 : fl (7205759403792794 * (2 : ℝ) ^ (-53 : ℤ) * (7205759403792794 * (2 : ℝ) ^ (-53 : ℤ))) = 5764607523034236 * (2 : ℝ) ^ (-53 : ℤ) := by
      have := fl_round hfl (m := 5764607523034236) (z := -53) (by norm_num) (by norm_num) (by norm_num)
        (r := 7205759403792794 * (2 : ℝ) ^ (-53 : ℤ) * (7205759403792794 * (2 : ℝ) ^ (-53 : ℤ))) (by
        rw [abs_lt]
        constructor <;> norm_num)
      exact_mod_cast this
    have f6 : fl (2 * (7205759403792794 * (2 : ℝ) ^ (-106 : ℤ))) = 7205759403792794 * (2 : ℝ) ^ (-105 : ℤ) := by
      rw [de 7205759403792794 (-105) _ (by norm_num) (by norm_num) (by norm_num)]
      norm_num
    have f7 : fl (1 - (2 : ℝ) ^ (-53 : ℤ) - 0) = 1 - (2 : ℝ) ^ (-53 : ℤ) := by
      rw [sub_zero]; exact de (2 ^ 53 - 1) (-53) _ (by norm_num) (by norm_num) (by norm_num)
    have f8 : fl (7205759403792794 * (2 : ℝ) ^ (-105 : ℤ) * (1 - (2 : ℝ) ^ (-53 : ℤ))) = 7205759403792793 * (2 : ℝ) ^ (-105 : ℤ) := by
      have := fl_round hfl (m := 7205759403792793) (z := -105) (by norm_num) (by norm_num) (by norm_num)
        (r := 7205759403792794 * (2 : ℝ) ^ (-105 : ℤ) * (1 - (2 : ℝ) ^ (-53 : ℤ))) (by
        rw [abs_lt]
        constructor <;> norm_num)
      exact_mod_cast this
    have f9 : fl (5764607523034236 * (2 : ℝ) ^ (-53 : ℤ) + 7205759403792793 * (2 : ℝ) ^ (-105 : ℤ)) = 5764607523034238 * (2 : ℝ) ^ (-53 : ℤ) := by
      have := fl_round hfl (m := 5764607523034238) (z := -53) (by norm_num) (by norm_num) (by norm_num)
        (r := 5764607523034236 * (2 : ℝ) ^ (-53 : ℤ) + 7205759403792793 * (2 : ℝ) ^ (-105 : ℤ)) (by
        rw [abs_lt]
        constructor <;> norm_num)
      exact_mod_cast this
    have f10 : fl (Real.sqrt (5764607523034238 * (2 : ℝ) ^ (-53 : ℤ))) = 7205759403792796 * (2 : ℝ) ^ (-53 : ℤ) := by
      have := fl_sqrt_round hfl (m := 7205759403792796) (z := -53) (by norm_num) (by norm_num) (by norm_num) (r := 5764607523034238 * (2 : ℝ) ^ (-53 : ℤ))
        (by positivity) (by norm_num) (by norm_num)
      exact_mod_cast this
    have f11 : fl (7205759403792796 * (2 : ℝ) ^ (-53 : ℤ) - 7205759403792794 * (2 : ℝ) ^ (-53 : ℤ)) = (2 : ℝ) ^ (-52 : ℤ) := by
      rw [de 2 (-53) _ (by norm_num) (by norm_num) (by push_cast; ring)]
      norm_num
    have f12 : fl (5 * (2 : ℝ) ^ (51 : ℤ) * (2 : ℝ) ^ (-52 : ℤ)) = 5 / 2 := by
      rw [de 5 (-1) _ (by norm_num) (by norm_num) (by norm_num)]
      norm_num
    have f13 : fl (0 + 5 / 2) = 5 / 2 := by
      rw [zero_add]; exact de 5 (-1) _ (by norm_num) (by norm_num) (by norm_num)
    rw [f1, f2, rdivFl_ok (by norm_num), f3]
    simp only [bind, Except.bind]
    rw [rdivFl_ok (by positivity), f4, f5, f6, f7, f8, f9, max_eq_left (by positivity), f10, f11]
    simp only [pure, Except.pure]
    rw [f12, f13]

/-- The table of the second violation: a density that is constant to all but the last bit. -/
noncomputable def flatTable : PCTable := ⟨[0, 1], [1, 1 + (2 : ℝ) ^ (-52 : ℤ)], [0, 1], .linLin⟩

/-- **C133** (the claim that samples follow the density is false of the code) On `[0, 1]` with the densities `1` and `1 + 2^-52` at the ends, every random number
in `(0, 1)` is sampled as `0` or as `1`: a distribution that is uniform to the last bit collapses to its end points. -/
theorem C133_violation_collapse :
    PCTable.make [0, 1] [1, 1 + (2 : ℝ) ^ (-52 : ℤ)] [0, 1] .linLin = .ok flatTable ∧
    CoveredPC flatTable ∧ (∀ v ∈ flatTable.values ++ flatTable.pdf ++ flatTable.cdf, IsDouble v) ∧
    ∀ xi, IsDouble xi → 0 < xi → xi < 1 → flatTable.sampleFl fl xi = .ok 0 ∨ flatTable.sampleFl fl xi = .ok 1 := by
  have d : ∀ (m : ℤ) (z : ℤ) (r : ℝ), |m| ≤ 2 ^ 53 → -1074 ≤ z → r = m * (2 : ℝ) ^ z → IsDouble r := fun m z r h1 h2 h => by
    rw [h]; exact isDouble_zpow h1 h2
  have de : ∀ (m : ℤ) (z : ℤ) (r : ℝ), |m| ≤ 2 ^ 53 → -1074 ≤ z → r = m * (2 : ℝ) ^ z → fl r = r := fun m z r h1 h2 h => fl_self hfl (d m z r h1 h2 h)
  refine ⟨?_, ⟨rfl, ?_⟩, ?_, ?_⟩
  · norm_num [PCTable.make, PCTable.check, isSorted, back, bind, Except.bind, flatTable]
  · intro i v0 v1 p0 p1 c0 c1 h1 h2 h3 h4 h5 h6
    rcases i with _ | i
    · simp only [flatTable, List.getElem?_cons_zero, List.getElem?_cons_succ, Option.some.injEq] at h1 h2 h3 h4 h5 h6
      rw [← h1, ← h2, ← h3, ← h4, ← h5, ← h6, cellArea, if_neg (by simp [flatTable])]
      norm_num
    · simp [flatTable] at h2
  · intro v hv
    simp only [flatTable, List.mem_append, List.mem_cons, List.not_mem_nil, or_false] at hv
    rcases hv with ((rfl | rfl) | (rfl | rfl)) | (rfl | rfl)
    · exact isDouble_zero
    · exact isDouble_one
    · exact isDouble_one
    · exact d (2 ^ 52 + 1) (-52) _ (by norm_num) (by norm_num) (by norm_num)
    · exact isDouble_zero
    · exact isDouble_one
  · intro xi dxi hx0 hx1
    have hl : flatTable.sampleFl fl xi = linInterpFl fl xi 0 1 1 (1 + (2 : ℝ) ^ (-52 : ℤ)) 0 := by
      have h1 : ¬ (1 : ℝ) < xi := by linarith
      simp [PCTable.sampleFl, PCTable.sampleWith, flatTable, lowerBound, lowerBoundRange, bisect, getAt, bind, Except.bind, subIdx, hx0, h1, hx1.ne]
    rw [hl]
    unfold linInterpFl
    have f1 : fl (1 + (2 : ℝ) ^ (-52 : ℤ) - 1) = (2 : ℝ) ^ (-52 : ℤ) := by
      rw [add_sub_cancel_left]; exact de 1 (-52) _ (by norm_num) (by norm_num) (by norm_num)
    have g1 : fl 1 = 1 := fl_self hfl isDouble_one
    have g0 : fl 0 = 0 := fl_self hfl isDouble_zero
    have f2 : fl (1 - 0) = 1 := by rw [sub_zero, g1]
    have f3 : fl ((2 : ℝ) ^ (-52 : ℤ) / 1) = (2 : ℝ) ^ (-52 : ℤ) := by
      rw [div_one]; exact de 1 (-52) _ (by norm_num) (by norm_num) (by norm_num)
    have f4 : fl (1 / (2 : ℝ) ^ (-52 : ℤ)) = (2 : ℝ) ^ (52 : ℤ) := by
      rw [de 1 52 _ (by norm_num) (by norm_num) (by norm_num)]
      norm_num
    have f5 : fl (1 * 1) = 1 := by rw [one_mul, g1]
    have f6 : fl (2 * (2 : ℝ) ^ (-52 : ℤ)) = (2 : ℝ) ^ (-51 : ℤ) := by
      rw [de 1 (-51) _ (by norm_num) (by norm_num) (by norm_num)]
      norm_num
    have f7 : fl (xi - 0) = xi := by rw [sub_zero]; exact fl_self hfl dxi
    rw [f1, f2, rdivFl_ok (by norm_num), f3]
    simp only [bind, Except.bind]
    rw [rdivFl_ok (by positivity), f4, f5, f6, f7]
    simp only [pure, Except.pure, Except.ok.injEq]
    have ht0 : 0 ≤ fl ((2 : ℝ) ^ (-51 : ℤ) * xi) := fl_nonneg hfl (by positivity)
    have ht1 : fl ((2 : ℝ) ^ (-51 : ℤ) * xi) ≤ (2 : ℝ) ^ (-51 : ℤ) := fl_le hfl (d 1 (-51) _ (by norm_num) (by norm_num) (by norm_num)) (by
      have := mul_le_mul_of_nonneg_left hx1.le (show (0 : ℝ) ≤ (2 : ℝ) ^ (-51 : ℤ) by positivity)
      rwa [mul_one] at this)
    obtain ⟨A, hA⟩ : ∃ A, A = fl (1 + fl ((2 : ℝ) ^ (-51 : ℤ) * xi)) := ⟨_, rfl⟩
    rw [← hA]
    have dA : IsDouble A := by rw [hA]; exact (hfl _).1
    have hA0 : 1 ≤ A := by rw [hA]; exact le_fl hfl isDouble_one (by linarith)
    have hA1 : A ≤ 1 + (2 : ℝ) ^ (-51 : ℤ) := by
      rw [hA]; exact fl_le hfl (d (2 ^ 51 + 1) (-51) _ (by norm_num) (by norm_num) (by norm_num)) (by linarith)
    have heta : (2 : ℝ) ^ 1022 * eta = (2 : ℝ) ^ (-52 : ℤ) := by
      unfold eta
      rw [← zpow_natCast, ← zpow_add₀ (by norm_num)]
      norm_num
    have gap : ∀ (k : ℤ), 0 ≤ k → ∀ x, IsDouble x → 1 + k * (2 : ℝ) ^ (-52 : ℤ) < x → 1 + (k + 1) * (2 : ℝ) ^ (-52 : ℤ) ≤ x := by
      intro k hk x dx hx
      have := no_double_between (m := 2 ^ 52 + k) (by linarith) 1022 dx
      by_contra hn
      refine this ⟨?_, ?_⟩
      · rw [mul_assoc, heta]
        push_cast
        refine lt_of_eq_of_lt ?_ hx
        rw [add_mul]
        norm_num
      · rw [mul_assoc, heta]
        push_cast
        refine lt_of_lt_of_eq (not_le.mp hn) ?_
        have e3 : (2 : ℝ) ^ (-52 : ℤ) * 4503599627370496 = 1 := by norm_num
        generalize (2 : ℝ) ^ (-52 : ℤ) = g at e3 ⊢
        norm_num
        linear_combination (-1) * e3
    rw [max_eq_left (by linarith)]
    have out : ∀ w, Real.sqrt A = w → fl w = 1 ∨ fl w = 1 + (2 : ℝ) ^ (-52 : ℤ) →
        fl (0 + fl ((2 : ℝ) ^ (52 : ℤ) * fl (fl (Real.sqrt A) - 1))) = 0 ∨ fl (0 + fl ((2 : ℝ) ^ (52 : ℤ) * fl (fl (Real.sqrt A) - 1))) = 1 := by
      intro w hw h
      rw [hw]
      rcases h with h | h
      · left
        rw [h, sub_self, g0, mul_zero, g0, add_zero, g0]
      · right
        rw [h, f1, ← zpow_add₀ (by norm_num)]
        norm_num [g1]
    refine out _ rfl ?_
    have hcases : A ≤ 1 + (2 : ℝ) ^ (-52 : ℤ) ∨ A = 1 + (2 : ℝ) ^ (-51 : ℤ) := by
      by_cases h : A ≤ 1 + (2 : ℝ) ^ (-52 : ℤ)
      · exact Or.inl h
      · right
        have := gap 1 (by norm_num) A dA (by push_cast; rw [one_mul]; exact not_le.mp h)
        refine le_antisymm hA1 (le_trans (le_of_eq ?_) this)
        norm_num
    rcases hcases with h | h
    · left
      have hw1 : 1 ≤ Real.sqrt A := Real.one_le_sqrt.mpr hA0
      have hw2 : Real.sqrt A < 1 + (2 : ℝ) ^ (-53 : ℤ) := by
        rw [Real.sqrt_lt' (by positivity)]
        refine lt_of_le_of_lt h ?_
        norm_num
      refine le_antisymm ?_ (le_fl hfl isDouble_one hw1)
      by_contra hn
      have h3 := gap 0 le_rfl (fl (Real.sqrt A)) (hfl _).1 (by push_cast; rw [zero_mul, add_zero]; exact not_le.mp hn)
      push_cast at h3
      rw [zero_add, one_mul] at h3
      have hb := (hfl (Real.sqrt A)).2 1 isDouble_one
      have e2 : (2 : ℝ) ^ (-52 : ℤ) = 2 * (2 : ℝ) ^ (-53 : ℤ) := by norm_num
      rw [abs_of_pos (by linarith), abs_of_nonpos (by linarith)] at hb
      linarith
    · right
      have := fl_sqrt_round hfl (m := 2 ^ 52 + 1) (z := -52) (by norm_num) (by norm_num) (by norm_num) (r := A) (by linarith)
        (by rw [h]; norm_num) (by rw [h]; norm_num)
      rw [this]
      norm_num

end

/-! ### Examples -/

/-- A triangular density, for the theorem on accuracy. -/
noncomputable def wedgeTable : PCTable := ⟨[0, 2], [1 / 4, 3 / 4], [0, 1], .linLin⟩

example (fl : ℝ → ℝ) (hfl : IsRoundToNearest fl) : ∃ s x, wedgeTable.sampleFl fl (1 / 2) = .ok s ∧ wedgeTable.sample (1 / 2) = .ok x ∧
    |s - x| ≤ (2 : ℝ) ^ (-43 : ℤ) := by
  have d : ∀ (m : ℤ) (z : ℤ) (r : ℝ), |m| ≤ 2 ^ 53 → -1074 ≤ z → r = m * (2 : ℝ) ^ z → IsDouble r := fun m z r h1 h2 h => by
    rw [h]; exact isDouble_zpow h1 h2
  have hm : PCTable.make [0, 2] [1 / 4, 3 / 4] [0, 1] .linLin = .ok wedgeTable := by
    norm_num [PCTable.make, PCTable.check, isSorted, back, bind, Except.bind, wedgeTable]
  have big : (1 : ℝ) ≤ (2 : ℝ) ^ (199 : ℤ) := one_le_zpow₀ (by norm_num) (by norm_num)
  have e200 : (2 : ℝ) ^ (200 : ℤ) = 2 * (2 : ℝ) ^ (199 : ℤ) := by rw [show (200 : ℤ) = 1 + 199 by norm_num, zpow_add₀ (by norm_num), zpow_one]
  have small : (2 : ℝ) ^ (-200 : ℤ) ≤ (2 : ℝ) ^ (-2 : ℤ) := zpow_le_zpow_right₀ (by norm_num) (by norm_num)
  have e2 : (2 : ℝ) ^ (-2 : ℤ) = 1 / 4 := by norm_num
  rw [e2] at small
  obtain ⟨s, x, h1, h2, h⟩ := C133_accuracy_partial hfl wedgeTable (PCTable.make_valid hm).1 ⟨rfl, by
      intro i v0 v1 p0 p1 c0 c1 h1 h2 h3 h4 h5 h6
      rcases i with _ | i
      · simp only [wedgeTable, List.getElem?_cons_zero, List.getElem?_cons_succ, Option.some.injEq] at h1 h2 h3 h4 h5 h6
        rw [← h1, ← h2, ← h3, ← h4, ← h5, ← h6, cellArea, if_neg (by simp [wedgeTable])]
        norm_num
      · simp [wedgeTable] at h2⟩
    (by
      intro v hv
      simp only [wedgeTable, List.mem_cons, List.not_mem_nil, or_false] at hv
      rcases hv with rfl | rfl
      · exact isDouble_zero
      · exact d 2 0 _ (by norm_num) (by norm_num) (by norm_num))
    (by
      intro v hv
      simp only [wedgeTable, List.mem_cons, List.not_mem_nil, or_false] at hv
      rcases hv with rfl | rfl
      · exact d 1 (-2) _ (by norm_num) (by norm_num) (by norm_num)
      · exact d 3 (-2) _ (by norm_num) (by norm_num) (by norm_num))
    (by
      intro v hv
      simp only [wedgeTable, List.mem_cons, List.not_mem_nil, or_false] at hv
      rcases hv with rfl | rfl
      · exact isDouble_zero
      · exact isDouble_one)
    (by
      intro _ i v0 v1 p0 p1 h1 h2 h3 h4 _
      rcases i with _ | i
      · simp only [wedgeTable, List.getElem?_cons_zero, List.getElem?_cons_succ, Option.some.injEq] at h1 h2 h3 h4
        rw [← h1, ← h2, ← h3, ← h4]
        refine ⟨small, ?_, ?_, ?_, ?_, ?_⟩
        · linarith
        · exact small.trans (by norm_num)
        · linarith
        · exact small.trans (by norm_num)
        · linarith
      · simp [wedgeTable] at h2)
    (1 / 2) (d 1 (-1) _ (by norm_num) (by norm_num) (by norm_num)) (by norm_num) (by norm_num)
  refine ⟨s, x, h1, h2, ?_⟩
  rcases h with ⟨l, hl, _, rfl⟩ | ⟨l, v0, v1, p0, p1, c0, c1, k1, k2, k3, k4, _, _, _, _, _, _, hb⟩
  · simp
  · rcases l with _ | i
    · simp only [wedgeTable, List.getElem?_cons_zero, List.getElem?_cons_succ, Option.some.injEq] at k1 k2 k3 k4
      rw [← k1, ← k2, ← k3, ← k4, cellTol, if_neg (by rintro (h | h) <;> [cases h; norm_num at h])] at hb
      refine hb.trans ?_
      norm_num
    · simp [wedgeTable] at k2

/-- The lower end, for the same table and any random number. -/
example (fl : ℝ → ℝ) (hfl : IsRoundToNearest fl) (xi s : ℝ) (h0 : 0 ≤ xi) (h1 : xi ≤ 1) (h : wedgeTable.sampleFl fl xi = .ok s) : 0 ≤ s := by
  have d : ∀ (m : ℤ) (z : ℤ) (r : ℝ), |m| ≤ 2 ^ 53 → -1074 ≤ z → r = m * (2 : ℝ) ^ z → IsDouble r := fun m z r h1 h2 h => by
    rw [h]; exact isDouble_zpow h1 h2
  have hm : PCTable.make [0, 2] [1 / 4, 3 / 4] [0, 1] .linLin = .ok wedgeTable := by
    norm_num [PCTable.make, PCTable.check, isSorted, back, bind, Except.bind, wedgeTable]
  have small : (2 : ℝ) ^ (-500 : ℤ) ≤ 1 / 4 :=
    (show (2 : ℝ) ^ (-500 : ℤ) ≤ (2 : ℝ) ^ (-2 : ℤ) from zpow_le_zpow_right₀ (by norm_num) (by norm_num)).trans (by norm_num)
  obtain ⟨⟨mn, e1, e2⟩, _⟩ := C133_lower hfl wedgeTable (PCTable.make_valid hm).1
    (by
      intro v hv
      simp only [wedgeTable, List.mem_cons, List.not_mem_nil, or_false] at hv
      rcases hv with rfl | rfl
      · exact isDouble_zero
      · exact d 2 0 _ (by norm_num) (by norm_num) (by norm_num))
    (by
      intro v hv
      simp only [wedgeTable, List.mem_cons, List.not_mem_nil, or_false] at hv
      rcases hv with rfl | rfl
      · exact d 1 (-2) _ (by norm_num) (by norm_num) (by norm_num)
      · exact d 3 (-2) _ (by norm_num) (by norm_num) (by norm_num))
    (by
      intro v hv
      simp only [wedgeTable, List.mem_cons, List.not_mem_nil, or_false] at hv
      rcases hv with rfl | rfl
      · exact Or.inr small
      · exact Or.inr (small.trans (by norm_num)))
    0 xi s rfl h0 h1 h
  cases e1
  exact e2

end PNDL
