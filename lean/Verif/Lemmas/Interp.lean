import Verif.Lemmas.Base
import Verif.Spec.Interp
import Mathlib.Analysis.SpecialFunctions.Integrals.Basic
import Mathlib.Analysis.SpecialFunctions.Pow.Deriv

/-! Closed forms, monotonicity and antiderivatives of the interpolation rules. -/
namespace PNDL
open Spec

theorem rdiv_ok {a b : ℝ} (h : b ≠ 0) : rdiv a b = .ok (a / b) := by simp [rdiv, h]
theorem rdiv_zero {a : ℝ} : rdiv a 0 = .error .nonfinite := by simp [rdiv]
theorem clog_ok {x : ℝ} (h : 0 < x) : clog x = .ok (Real.log x) := by simp [clog, h]
theorem clog_bad {x : ℝ} (h : ¬ 0 < x) : clog x = .error .nonfinite := by simp [clog, h]
theorem cpow_ok {b e : ℝ} (h : 0 < b) : cpow b e = .ok (b ^ e) := by simp [cpow, h]

theorem Spec.SameSign.div_pos {a b : ℝ} (h : SameSign a b) : 0 < a / b := by
  rcases h with ⟨h1, h2⟩ | ⟨h1, h2⟩
  · positivity
  · exact div_pos_of_neg_of_neg h1 h2

theorem Spec.SameSign.ne_right {a b : ℝ} (h : SameSign a b) : b ≠ 0 := by
  rcases h with ⟨_, h2⟩ | ⟨_, h2⟩ <;> linarith [h2]

theorem Spec.SameSign.symm {a b : ℝ} (h : SameSign a b) : SameSign b a := by
  rcases h with ⟨h1, h2⟩ | ⟨h1, h2⟩
  · exact Or.inl ⟨h2, h1⟩
  · exact Or.inr ⟨h2, h1⟩

theorem Spec.SameSign.ne_left {a b : ℝ} (h : SameSign a b) : a ≠ 0 := h.symm.ne_right

theorem Spec.SameSign.trans {a b c : ℝ} (h : SameSign a b) (h' : SameSign b c) : SameSign a c := by
  rcases h with ⟨h1, h2⟩ | ⟨h1, h2⟩ <;> rcases h' with ⟨h3, h4⟩ | ⟨h3, h4⟩
  · exact Or.inl ⟨h1, h4⟩
  · linarith
  · linarith
  · exact Or.inr ⟨h1, h4⟩

theorem sameSign_self {a : ℝ} (h : a ≠ 0) : SameSign a a := by
  rcases lt_or_gt_of_ne h with h | h
  · exact Or.inr ⟨h, h⟩
  · exact Or.inl ⟨h, h⟩

/-- Points between two points of one strict sign have that sign. -/
theorem Spec.SameSign.between {x1 x2 x : ℝ} (h : SameSign x1 x2) (h1 : x1 ≤ x) (h2 : x ≤ x2) : SameSign x x1 := by
  rcases h with ⟨a, b⟩ | ⟨a, b⟩
  · exact Or.inl ⟨by linarith, a⟩
  · exact Or.inr ⟨by linarith, a⟩

theorem log_ratio_ne {a b : ℝ} (h : SameSign a b) (hne : b ≠ a) : Real.log (b / a) ≠ 0 := by
  have hp := h.symm.div_pos
  have ha := h.ne_left
  refine Real.log_ne_zero_of_pos_of_ne_one hp ?_
  intro hc
  rw [div_eq_one_iff_eq ha] at hc
  exact hne hc

/-- The real formula of each law. -/
noncomputable def lawValue (r : Interpolation) (x x1 y1 x2 y2 : ℝ) : ℝ :=
  match r with
  | .histogram => y1
  | .linLin => (x - x1) / (x2 - x1) * (y2 - y1) + y1
  | .linLog => y1 + (y2 - y1) * Real.log (x / x1) / Real.log (x2 / x1)
  | .logLin => y1 * (y2 / y1) ^ ((x - x1) / (x2 - x1))
  | .logLog => y1 * (x / x1) ^ (Real.log (y2 / y1) / Real.log (x2 / x1))

theorem interpolate_eq {r : Interpolation} {x x1 y1 x2 y2 : ℝ} (h : Admissible r x1 y1 x2 y2) (hx : InDomainX r x x1) :
    r.interpolate x x1 y1 x2 y2 = .ok (lawValue r x x1 y1 x2 y2) := by
  have hlt := h.lt
  have hne : x2 - x1 ≠ 0 := by intro hc; linarith
  cases r with
  | histogram => rfl
  | linLin => simp [Interpolation.interpolate, lawValue, rdiv_ok hne, bind, Except.bind, pure, Except.pure]
  | linLog =>
    have hs := h.logx (Or.inl rfl)
    have hxs := hx (Or.inl rfl)
    simp [Interpolation.interpolate, lawValue, rdiv_ok hs.ne_left, clog_ok hxs.div_pos, clog_ok hs.symm.div_pos,
      rdiv_ok (log_ratio_ne hs hlt.ne'), bind, Except.bind, pure, Except.pure]
  | logLin =>
    have hs := h.logy (Or.inl rfl)
    simp [Interpolation.interpolate, lawValue, rdiv_ok hs.ne_left, cpow_ok hs.symm.div_pos, rdiv_ok hne,
      bind, Except.bind, pure, Except.pure]
  | logLog =>
    have hs := h.logx (Or.inr rfl)
    have hxs := hx (Or.inr rfl)
    have hys := h.logy (Or.inr rfl)
    simp [Interpolation.interpolate, lawValue, rdiv_ok hs.ne_left, rdiv_ok hys.ne_left, clog_ok hs.symm.div_pos,
      clog_ok hys.symm.div_pos, cpow_ok hxs.div_pos, rdiv_ok (log_ratio_ne hs hlt.ne'), bind, Except.bind, pure, Except.pure]

theorem lawValue_left {r : Interpolation} {x1 y1 x2 y2 : ℝ} (h : Admissible r x1 y1 x2 y2) :
    lawValue r x1 x1 y1 x2 y2 = y1 := by
  cases r with
  | histogram => rfl
  | linLin => simp [lawValue]
  | linLog => simp [lawValue, (h.logx (Or.inl rfl)).ne_left]
  | logLin => simp [lawValue]
  | logLog => simp [lawValue, (h.logx (Or.inr rfl)).ne_left]

theorem rpow_ratio {a c : ℝ} (ha : 0 < a) (hc : 0 < c) (h1 : Real.log a ≠ 0) : a ^ (Real.log c / Real.log a) = c := by
  rw [Real.rpow_def_of_pos ha, mul_div_cancel₀ _ h1, Real.exp_log hc]

theorem lawValue_right {r : Interpolation} {x1 y1 x2 y2 : ℝ} (h : Admissible r x1 y1 x2 y2) (hr : r ≠ .histogram) :
    lawValue r x2 x1 y1 x2 y2 = y2 := by
  have hlt := h.lt
  have hne : x2 - x1 ≠ 0 := by intro hc; linarith
  cases r with
  | histogram => exact absurd rfl hr
  | linLin => simp [lawValue, div_self hne]
  | linLog =>
    have := log_ratio_ne (h.logx (Or.inl rfl)) hlt.ne'
    simp only [lawValue]; field_simp; ring
  | logLin =>
    have := (h.logy (Or.inl rfl)).ne_left
    simp only [lawValue, div_self hne, Real.rpow_one]; field_simp
  | logLog =>
    have hx := (h.logx (Or.inr rfl))
    have hy := (h.logy (Or.inr rfl))
    have h0 := hy.ne_left
    simp only [lawValue]
    rw [rpow_ratio hx.symm.div_pos hy.symm.div_pos (log_ratio_ne hx hlt.ne')]
    field_simp

/-! ### Position of the argument inside the interval -/

/-- The fraction of the interval (in `x` or in `ln x`) at which `x` lies. -/
noncomputable def frac (r : Interpolation) (x x1 x2 : ℝ) : ℝ :=
  match r with
  | .histogram => 0
  | .linLin | .logLin => (x - x1) / (x2 - x1)
  | .linLog | .logLog => Real.log (x / x1) / Real.log (x2 / x1)

theorem lin_frac_mem {x x1 x2 : ℝ} (h : x1 < x2) (h1 : x1 ≤ x) (h2 : x ≤ x2) :
    0 ≤ (x - x1) / (x2 - x1) ∧ (x - x1) / (x2 - x1) ≤ 1 := by
  have : 0 < x2 - x1 := by linarith
  constructor
  · exact div_nonneg (by linarith) this.le
  · rw [div_le_one this]; linarith

theorem log_frac_mem {x x1 x2 : ℝ} (hs : SameSign x1 x2) (h : x1 < x2) (h1 : x1 ≤ x) (h2 : x ≤ x2) :
    0 ≤ Real.log (x / x1) / Real.log (x2 / x1) ∧ Real.log (x / x1) / Real.log (x2 / x1) ≤ 1 := by
  rcases hs with ⟨a, b⟩ | ⟨a, b⟩
  · have e1 : 0 < Real.log (x2 / x1) := Real.log_pos (by rw [lt_div_iff₀ a]; linarith)
    have e2 : 0 ≤ Real.log (x / x1) := Real.log_nonneg (by rw [le_div_iff₀ a]; linarith)
    have e3 : Real.log (x / x1) ≤ Real.log (x2 / x1) :=
      Real.log_le_log (div_pos (by linarith) a) (by gcongr)
    exact ⟨div_nonneg e2 e1.le, by rw [div_le_one e1]; exact e3⟩
  · have e1 : Real.log (x2 / x1) < 0 :=
      Real.log_neg (div_pos_of_neg_of_neg b a) (by rw [div_lt_one_of_neg a]; linarith)
    have e2 : Real.log (x / x1) ≤ 0 :=
      Real.log_nonpos (div_pos_of_neg_of_neg (by linarith) a).le (by rw [div_le_one_of_neg a]; linarith)
    have e3 : Real.log (x2 / x1) ≤ Real.log (x / x1) :=
      Real.log_le_log (div_pos_of_neg_of_neg b a) (by exact div_le_div_of_nonpos_of_le a.le h2)
    exact ⟨div_nonneg_of_nonpos e2 e1.le, by rw [div_le_one_of_neg e1]; exact e3⟩

theorem frac_mem {r : Interpolation} {x x1 y1 x2 y2 : ℝ} (h : Admissible r x1 y1 x2 y2) (h1 : x1 ≤ x) (h2 : x ≤ x2) :
    0 ≤ frac r x x1 x2 ∧ frac r x x1 x2 ≤ 1 := by
  cases r with
  | histogram => simp [frac]
  | linLin => exact lin_frac_mem h.lt h1 h2
  | logLin => exact lin_frac_mem h.lt h1 h2
  | linLog => exact log_frac_mem (h.logx (Or.inl rfl)) h.lt h1 h2
  | logLog => exact log_frac_mem (h.logx (Or.inr rfl)) h.lt h1 h2

/-- Every law is affine, or exponential, in the fraction. -/
theorem lawValue_frac_lin {r : Interpolation} (hr : r = .linLin ∨ r = .linLog) (x x1 y1 x2 y2 : ℝ) :
    lawValue r x x1 y1 x2 y2 = y1 + frac r x x1 x2 * (y2 - y1) := by
  rcases hr with rfl | rfl <;> simp only [lawValue, frac] <;> ring

theorem lawValue_frac_log {r : Interpolation} (hr : r = .logLin ∨ r = .logLog) {x x1 y1 x2 y2 : ℝ}
    (h : Admissible r x1 y1 x2 y2) (hx : InDomainX r x x1) :
    lawValue r x x1 y1 x2 y2 = y1 * (y2 / y1) ^ frac r x x1 x2 := by
  rcases hr with rfl | rfl
  · rfl
  · have hy := (h.logy (Or.inr rfl)).symm.div_pos
    have hxp := (hx (Or.inr rfl)).div_pos
    simp only [lawValue, frac]
    rw [Real.rpow_def_of_pos hxp, Real.rpow_def_of_pos hy]
    ring_nf

theorem affine_between {y1 y2 s : ℝ} (h0 : 0 ≤ s) (h1 : s ≤ 1) :
    min y1 y2 ≤ y1 + s * (y2 - y1) ∧ y1 + s * (y2 - y1) ≤ max y1 y2 := by
  rcases le_total y1 y2 with h | h
  · rw [min_eq_left h, max_eq_right h]; constructor <;> nlinarith
  · rw [min_eq_right h, max_eq_left h]; constructor <;> nlinarith

theorem rpow_frac_between {q s : ℝ} (hq : 0 < q) (h0 : 0 ≤ s) (h1 : s ≤ 1) :
    (1 ≤ q → 1 ≤ q ^ s ∧ q ^ s ≤ q) ∧ (q ≤ 1 → q ≤ q ^ s ∧ q ^ s ≤ 1) := by
  constructor
  · intro h
    refine ⟨Real.one_le_rpow h h0, ?_⟩
    calc q ^ s ≤ q ^ (1:ℝ) := Real.rpow_le_rpow_of_exponent_le h h1
      _ = q := Real.rpow_one q
  · intro h
    refine ⟨?_, Real.rpow_le_one hq.le h h0⟩
    calc q = q ^ (1:ℝ) := (Real.rpow_one q).symm
      _ ≤ q ^ s := Real.rpow_le_rpow_of_exponent_ge hq h h1

theorem exp_between {y1 y2 s : ℝ} (hs : SameSign y1 y2) (h0 : 0 ≤ s) (h1 : s ≤ 1) :
    min y1 y2 ≤ y1 * (y2 / y1) ^ s ∧ y1 * (y2 / y1) ^ s ≤ max y1 y2 := by
  have hq := hs.symm.div_pos
  obtain ⟨ha, hb⟩ := rpow_frac_between hq h0 h1
  have hy : y1 * (y2 / y1) = y2 := by have := hs.ne_left; field_simp
  rcases hs with ⟨p1, p2⟩ | ⟨p1, p2⟩
  · rcases le_total 1 (y2 / y1) with h | h
    · obtain ⟨e1, e2⟩ := ha h
      have f1 := mul_le_mul_of_nonneg_left e1 p1.le
      have f2 := mul_le_mul_of_nonneg_left e2 p1.le
      rw [hy] at f2; rw [mul_one] at f1
      exact ⟨le_trans (min_le_left _ _) f1, le_trans f2 (le_max_right _ _)⟩
    · obtain ⟨e1, e2⟩ := hb h
      have f1 := mul_le_mul_of_nonneg_left e1 p1.le
      have f2 := mul_le_mul_of_nonneg_left e2 p1.le
      rw [hy] at f1; rw [mul_one] at f2
      exact ⟨le_trans (min_le_right _ _) f1, le_trans f2 (le_max_left _ _)⟩
  · rcases le_total 1 (y2 / y1) with h | h
    · obtain ⟨e1, e2⟩ := ha h
      have f1 := mul_le_mul_of_nonpos_left e1 p1.le
      have f2 := mul_le_mul_of_nonpos_left e2 p1.le
      rw [hy] at f2; rw [mul_one] at f1
      exact ⟨le_trans (min_le_right _ _) f2, le_trans f1 (le_max_left _ _)⟩
    · obtain ⟨e1, e2⟩ := hb h
      have f1 := mul_le_mul_of_nonpos_left e1 p1.le
      have f2 := mul_le_mul_of_nonpos_left e2 p1.le
      rw [hy] at f1; rw [mul_one] at f2
      exact ⟨le_trans (min_le_left _ _) f2, le_trans f1 (le_max_right _ _)⟩

theorem lawValue_between {r : Interpolation} {x x1 y1 x2 y2 : ℝ} (h : Admissible r x1 y1 x2 y2) (h1 : x1 ≤ x)
    (h2 : x ≤ x2) : min y1 y2 ≤ lawValue r x x1 y1 x2 y2 ∧ lawValue r x x1 y1 x2 y2 ≤ max y1 y2 := by
  obtain ⟨f0, f1⟩ := frac_mem h h1 h2
  have hx : InDomainX r x x1 := fun hr => (h.logx hr).between h1 h2
  cases r with
  | histogram => exact ⟨min_le_left _ _, le_max_left _ _⟩
  | linLin => rw [lawValue_frac_lin (Or.inl rfl)]; exact affine_between f0 f1
  | linLog => rw [lawValue_frac_lin (Or.inr rfl)]; exact affine_between f0 f1
  | logLin => rw [lawValue_frac_log (Or.inl rfl) h hx]; exact exp_between (h.logy (Or.inl rfl)) f0 f1
  | logLog => rw [lawValue_frac_log (Or.inr rfl) h hx]; exact exp_between (h.logy (Or.inr rfl)) f0 f1

/-! ### The closed form of `integrate` -/

/-- The antiderivative each `integrate` uses. -/
noncomputable def anti (r : Interpolation) (t x1 y1 x2 y2 : ℝ) : ℝ :=
  match r with
  | .histogram => y1 * t
  | .linLin => (t - x1) ^ 2 * (y2 - y1) / (2 * (x2 - x1)) + t * y1
  | .linLog => t * ((y2 - y1) * Real.log (t / x1) + y1 * Real.log (x2 / x1) + y1 - y2) / Real.log (x2 / x1)
  | .logLin => y1 * (x2 - x1) / Real.log (y2 / y1) * (y2 / y1) ^ ((t - x1) / (x2 - x1))
  | .logLog => y1 / (Real.log (y2 / y1) / Real.log (x2 / x1) + 1) *
      (t * (t / x1) ^ (Real.log (y2 / y1) / Real.log (x2 / x1)))

/-- Non-degeneracy of the log-log exponent, and of the log-lin base. -/
def NonDegen (r : Interpolation) (x1 y1 x2 y2 : ℝ) : Prop :=
  (r = .logLin → y1 ≠ y2) ∧ (r = .logLog → Real.log (y2 / y1) / Real.log (x2 / x1) + 1 ≠ 0)

theorem anti_hasDerivAt {r : Interpolation} {t x1 y1 x2 y2 : ℝ} (h : Admissible r x1 y1 x2 y2) (ht : InDomainX r t x1)
    (hn : NonDegen r x1 y1 x2 y2) :
    HasDerivAt (fun s => anti r s x1 y1 x2 y2) (lawValue r t x1 y1 x2 y2) t := by
  have hlt := h.lt
  have hne : x2 - x1 ≠ 0 := by intro hc; linarith
  cases r with
  | histogram => simpa [anti, lawValue] using (hasDerivAt_id t).const_mul y1
  | linLin =>
    simp only [anti, lawValue]
    have e := (((((hasDerivAt_id t).sub_const x1).pow 2).mul_const (y2 - y1)).div_const (2 * (x2 - x1))).add
      ((hasDerivAt_id t).mul_const y1)
    refine e.congr_deriv ?_
    simp only [id]
    field_simp
    ring
  | linLog =>
    have hs := h.logx (Or.inl rfl)
    have hts := ht (Or.inl rfl)
    have hl := log_ratio_ne hs hlt.ne'
    have hx1 := hs.ne_left
    have ht0 := hts.ne_left
    have hd : HasDerivAt (fun s => Real.log (s / x1)) (1 / x1 / (t / x1)) t :=
      ((hasDerivAt_id t).div_const x1).log hts.div_pos.ne'
    have e := ((hasDerivAt_id t).mul ((((hd.const_mul (y2 - y1)).add_const (y1 * Real.log (x2 / x1))).add_const y1).sub_const y2)).div_const
      (Real.log (x2 / x1))
    simp only [anti, lawValue]
    refine e.congr_deriv ?_
    simp only [id]
    field_simp
    ring
  | logLin =>
    have hs := h.logy (Or.inl rfl)
    have hb := hs.symm.div_pos
    have hl := log_ratio_ne hs (hn.1 rfl).symm
    have hd : HasDerivAt (fun s => (s - x1) / (x2 - x1)) (1 / (x2 - x1)) t :=
      ((hasDerivAt_id t).sub_const x1).div_const (x2 - x1)
    have e := ((hd.const_rpow hb)).const_mul (y1 * (x2 - x1) / Real.log (y2 / y1))
    simp only [anti, lawValue]
    refine e.congr_deriv ?_
    field_simp
  | logLog =>
    have hs := h.logx (Or.inr rfl)
    have hts := ht (Or.inr rfl)
    have hden := hn.2 rfl
    have hx1 := hs.ne_left
    have ht0 := hts.ne_left
    simp only [anti, lawValue]
    obtain ⟨e, he⟩ : ∃ e, e = Real.log (y2 / y1) / Real.log (x2 / x1) := ⟨_, rfl⟩
    rw [← he] at hden ⊢
    have hd : HasDerivAt (fun s => s / x1) (1 / x1) t := (hasDerivAt_id t).div_const x1
    have hq := hts.div_pos
    have hd2 := hd.rpow_const (p := e) (Or.inl hq.ne')
    have hd3 := ((hasDerivAt_id t).mul hd2).const_mul (y1 / (e + 1))
    refine hd3.congr_deriv ?_
    simp only [id]
    have hsplit : (t / x1) ^ e = (t / x1) ^ (e - 1) * (t / x1) := by
      rw [← Real.rpow_add_one hq.ne']; ring_nf
    rw [hsplit]
    field_simp
    ring

theorem lawValue_continuousAt {r : Interpolation} {t x1 y1 x2 y2 : ℝ} (h : Admissible r x1 y1 x2 y2)
    (ht : InDomainX r t x1) : ContinuousAt (fun s => lawValue r s x1 y1 x2 y2) t := by
  have hlt := h.lt
  have hne : x2 - x1 ≠ 0 := by intro hc; linarith
  cases r with
  | histogram => exact continuousAt_const
  | linLin =>
    simp only [lawValue]
    exact (((continuousAt_id.sub continuousAt_const).div_const _).mul continuousAt_const).add continuousAt_const
  | linLog =>
    simp only [lawValue]
    have hts := ht (Or.inl rfl)
    have : ContinuousAt (fun s => Real.log (s / x1)) t := (continuousAt_id.div_const x1).log hts.div_pos.ne'
    exact continuousAt_const.add ((continuousAt_const.mul this).div_const _)
  | logLin =>
    simp only [lawValue]
    have hb := (h.logy (Or.inl rfl)).symm.div_pos
    exact continuousAt_const.mul ((Real.continuousAt_const_rpow hb.ne').comp
      ((continuousAt_id.sub continuousAt_const).div_const _))
  | logLog =>
    simp only [lawValue]
    have hts := ht (Or.inr rfl)
    exact continuousAt_const.mul ((continuousAt_id.div_const x1).rpow_const (Or.inl hts.div_pos.ne'))

theorem sameSign_uIcc {a b t c : ℝ} (ha : SameSign a c) (hb : SameSign b c) (ht : t ∈ Set.uIcc a b) : SameSign t c := by
  have h1 : min a b ≤ t := ht.1
  have h2 : t ≤ max a b := ht.2
  rcases ha with ⟨p1, p2⟩ | ⟨p1, p2⟩ <;> rcases hb with ⟨q1, q2⟩ | ⟨q1, q2⟩
  · exact Or.inl ⟨lt_of_lt_of_le (lt_min p1 q1) h1, p2⟩
  · linarith
  · linarith
  · exact Or.inr ⟨lt_of_le_of_lt h2 (max_lt p1 q1), p2⟩

theorem inDomain_uIcc {r : Interpolation} {a b t c : ℝ} (ha : InDomainX r a c) (hb : InDomainX r b c)
    (ht : t ∈ Set.uIcc a b) : InDomainX r t c := fun hr => sameSign_uIcc (ha hr) (hb hr) ht

theorem lawValue_intervalIntegrable {r : Interpolation} {a b x1 y1 x2 y2 : ℝ} (h : Admissible r x1 y1 x2 y2)
    (ha : InDomainX r a x1) (hb : InDomainX r b x1) :
    IntervalIntegrable (fun t => lawValue r t x1 y1 x2 y2) MeasureTheory.volume a b := by
  apply ContinuousOn.intervalIntegrable
  intro t ht
  exact (lawValue_continuousAt h (inDomain_uIcc ha hb ht)).continuousWithinAt

/-- The true integral of each law, by the fundamental theorem of calculus. -/
theorem integral_lawValue {r : Interpolation} {a b x1 y1 x2 y2 : ℝ} (h : Admissible r x1 y1 x2 y2)
    (ha : InDomainX r a x1) (hb : InDomainX r b x1) (hn : NonDegen r x1 y1 x2 y2) :
    ∫ t in a..b, lawValue r t x1 y1 x2 y2 = anti r b x1 y1 x2 y2 - anti r a x1 y1 x2 y2 :=
  intervalIntegral.integral_eq_sub_of_hasDerivAt
    (fun _ ht => anti_hasDerivAt h (inDomain_uIcc ha hb ht) hn) (lawValue_intervalIntegrable h ha hb)

theorem integrate_eq_anti {r : Interpolation} {a b x1 y1 x2 y2 : ℝ} (h : Admissible r x1 y1 x2 y2)
    (ha : InDomainX r a x1) (hb : InDomainX r b x1) (hn : NonDegen r x1 y1 x2 y2)
    (hfar : r = .logLog → 1 / 10 ^ 12 < |Real.log (y2 / y1) / Real.log (x2 / x1) + 1|) :
    r.integrate a b x1 y1 x2 y2 = .ok (anti r b x1 y1 x2 y2 - anti r a x1 y1 x2 y2) := by
  have hlt := h.lt
  have hne : x2 - x1 ≠ 0 := by intro hc; linarith
  have hne' : x1 - x2 ≠ 0 := by intro hc; linarith
  have hne2 : 2 * (x1 - x2) ≠ 0 := by intro hc; linarith
  cases r with
  | histogram => simp only [Interpolation.integrate, anti]; congr 1; ring
  | linLin =>
    simp only [Interpolation.integrate, anti, rdiv_ok hne2, bind, Except.bind, pure, Except.pure]
    congr 1
    field_simp
    ring
  | linLog =>
    have hs := h.logx (Or.inl rfl)
    have hl := log_ratio_ne hs hlt.ne'
    simp only [Interpolation.integrate, anti, rdiv_ok hs.ne_left, clog_ok (ha (Or.inl rfl)).div_pos,
      clog_ok (hb (Or.inl rfl)).div_pos, clog_ok hs.symm.div_pos, rdiv_ok hl, bind, Except.bind, pure, Except.pure]
  | logLin =>
    have hs := h.logy (Or.inl rfl)
    have hl := log_ratio_ne hs (hn.1 rfl).symm
    simp only [Interpolation.integrate, anti, rdiv_ok hs.ne_left, clog_ok hs.symm.div_pos, rdiv_ok hne', rdiv_ok hl,
      cpow_ok hs.symm.div_pos, bind, Except.bind, pure, Except.pure]
    rw [show (x1 - b) / (x1 - x2) = (b - x1) / (x2 - x1) by rw [← neg_sub b x1, ← neg_sub x2 x1, neg_div_neg_eq],
      show (x1 - a) / (x1 - x2) = (a - x1) / (x2 - x1) by rw [← neg_sub a x1, ← neg_sub x2 x1, neg_div_neg_eq]]
    congr 1; ring
  | logLog =>
    have hs := h.logx (Or.inr rfl)
    have hy := h.logy (Or.inr rfl)
    have hl := log_ratio_ne hs hlt.ne'
    simp only [Interpolation.integrate, anti, rdiv_ok hs.ne_left, rdiv_ok hy.ne_left, clog_ok hs.symm.div_pos,
      clog_ok hy.symm.div_pos, rdiv_ok hl, bind, Except.bind, pure, Except.pure]
    rw [if_neg (not_le.mpr (hfar rfl)), rdiv_ok (hn.2 rfl), cpow_ok (ha (Or.inr rfl)).div_pos,
      cpow_ok (hb (Or.inr rfl)).div_pos]
    simp only
    congr 1; ring

theorem integrate_loglog_special {a b x1 y1 x2 y2 : ℝ} (h : Admissible .logLog x1 y1 x2 y2) (ha : InDomainX .logLog a x1)
    (hb : InDomainX .logLog b x1) (hc : |Real.log (y2 / y1) / Real.log (x2 / x1) + 1| ≤ 1 / 10 ^ 12) :
    Interpolation.logLog.integrate a b x1 y1 x2 y2 = .ok (y1 * x1 * Real.log (b / a)) := by
  have hs := h.logx (Or.inr rfl)
  have hy := h.logy (Or.inr rfl)
  have hl := log_ratio_ne hs h.lt.ne'
  have ha' := ha (Or.inr rfl)
  have hb' := hb (Or.inr rfl)
  simp only [Interpolation.integrate, rdiv_ok hs.ne_left, rdiv_ok hy.ne_left, clog_ok hs.symm.div_pos,
    clog_ok hy.symm.div_pos, rdiv_ok hl, bind, Except.bind, pure, Except.pure]
  rw [if_pos hc, rdiv_ok ha'.ne_left]
  simp only [clog_ok (hb'.trans ha'.symm).div_pos]

theorem integral_inv_ss {a b c : ℝ} (ha : SameSign a c) (hb : SameSign b c) :
    ∫ t in a..b, t⁻¹ = Real.log (b / a) := by
  refine _root_.integral_inv ?_
  intro h0
  exact (sameSign_uIcc ha hb h0).ne_left rfl

theorem integrate_law {r : Interpolation} {a b x1 y1 x2 y2 : ℝ} (h : Admissible r x1 y1 x2 y2)
    (ha : InDomainX r a x1) (hb : InDomainX r b x1) (hex : ExactIntegral r x1 y1 x2 y2) :
    r.integrate a b x1 y1 x2 y2 = .ok (∫ t in a..b, lawValue r t x1 y1 x2 y2) := by
  by_cases hspec : r = .logLog ∧ Real.log (y2 / y1) / Real.log (x2 / x1) = -1
  · obtain ⟨rfl, he⟩ := hspec
    rw [integrate_loglog_special h ha hb (by rw [he]; norm_num)]
    have hx1 := (h.logx (Or.inr rfl)).ne_left
    have e : ∀ t, lawValue .logLog t x1 y1 x2 y2 = (y1 * x1) * t⁻¹ := by
      intro t
      simp only [lawValue]
      rw [he, Real.rpow_neg_one, inv_div]; ring
    simp only [e]
    rw [intervalIntegral.integral_const_mul, integral_inv_ss (ha (Or.inr rfl)) (hb (Or.inr rfl))]
  · have hn : NonDegen r x1 y1 x2 y2 := by
      refine ⟨hex.1, fun hr hc => hspec ⟨hr, by linarith⟩⟩
    rw [integral_lawValue h ha hb hn]
    refine integrate_eq_anti h ha hb hn ?_
    intro hr
    rcases hex.2 hr with h1 | h1
    · exact absurd ⟨hr, h1⟩ hspec
    · rwa [sub_neg_eq_add] at h1

end PNDL
