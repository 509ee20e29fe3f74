import Verif.Model.Float
import Verif.Lemmas.Float
import Verif.Props.CrossSection

/-! C128: linear interpolation and cross sections in binary64 arithmetic. -/
namespace PNDL
open Spec

section
variable {fl : ℝ → ℝ} (hfl : IsRoundToNearest fl)
include hfl

/-- The interpolation fraction. -/
theorem frac_fl {x x1 x2 : ℝ} (hx : IsDouble x) (hx1 : IsDouble x1) (hx2 : IsDouble x2) (h1 : x1 ≤ x) (h2 : x ≤ x2) (h12 : x1 < x2) :
    0 < fl (x2 - x1) ∧ 0 ≤ fl (fl (x - x1) / fl (x2 - x1)) ∧ fl (fl (x - x1) / fl (x2 - x1)) ≤ 1 ∧
      |fl (fl (x - x1) / fl (x2 - x1)) - (x - x1) / (x2 - x1)| ≤ 4 * uround := by
  have hb := fl_sub_pos hfl hx2 hx1 h12
  have ha : 0 ≤ fl (x - x1) := fl_nonneg hfl (by linarith)
  have hab : fl (x - x1) ≤ fl (x2 - x1) := fl_mono hfl (by linarith)
  have hq0 : 0 ≤ fl (x - x1) / fl (x2 - x1) := div_nonneg ha hb.le
  have hq1 : fl (x - x1) / fl (x2 - x1) ≤ 1 := (div_le_one hb).mpr hab
  refine ⟨hb, fl_nonneg hfl hq0, fl_le hfl isDouble_one hq1, ?_⟩
  have ea := fl_sub_error hfl hx hx1
  have eb := fl_sub_error hfl hx2 hx1
  have eq := (fl_error hfl (fl (x - x1) / fl (x2 - x1))).1
  have hη : eta ≤ uround ^ 2 := by
    unfold eta uround
    rw [← zpow_natCast, ← zpow_mul]
    exact zpow_le_zpow_right₀ (by norm_num) (by norm_num)
  have hη0 := eta_pos
  have hu := uround_pos
  have hu1 : uround ≤ 1 / 1000 := by rw [uround_eq]; norm_num
  generalize fl (x - x1) = a at *
  generalize fl (x2 - x1) = b at *
  rw [abs_of_nonneg hq0] at eq
  have hd : 0 < x2 - x1 := by linarith
  have hn : 0 ≤ x - x1 := by linarith
  have hnd : x - x1 ≤ x2 - x1 := by linarith
  generalize x2 - x1 = d at *
  generalize x - x1 = n at *
  rw [abs_of_nonneg hn] at ea
  rw [abs_of_pos hd] at eb
  rw [abs_le] at ea eb
  have hmid : |a / b - n / d| ≤ 5 / 2 * uround := by
    have e : a / b - n / d = (a * d - n * b) / (b * d) := by
      have := hd.ne'; have := hb.ne'
      field_simp
    rw [e, abs_div, abs_of_pos (mul_pos hb hd), div_le_iff₀ (mul_pos hb hd)]
    have h1 : a * d - n * b = (a - n) * d - n * (b - d) := by ring
    have h2 : |a * d - n * b| ≤ 2 * uround * (d * d) := by
      rw [h1, abs_le]
      have k1 : uround * n ≤ uround * d := mul_le_mul_of_nonneg_left hnd hu.le
      have k2 : (a - n) * d ≤ uround * d * d := mul_le_mul_of_nonneg_right (by linarith) hd.le
      have k3 : -(uround * d) * d ≤ (a - n) * d := mul_le_mul_of_nonneg_right (by linarith) hd.le
      have k4 : n * (b - d) ≤ d * (uround * d) :=
        (mul_le_mul_of_nonneg_left eb.2 hn).trans (mul_le_mul_of_nonneg_right hnd (by positivity))
      have k5 : -(d * (uround * d)) ≤ n * (b - d) := by
        have p1 : n * -(uround * d) ≤ n * (b - d) := mul_le_mul_of_nonneg_left eb.1 hn
        have p2 : n * (uround * d) ≤ d * (uround * d) := mul_le_mul_of_nonneg_right hnd (by positivity)
        linarith
      constructor <;> nlinarith
    refine h2.trans ?_
    have h3 : (1 - uround) * d ≤ b := by linarith [eb.1]
    have h4 : (1 - uround) * d * d ≤ b * d := mul_le_mul_of_nonneg_right h3 hd.le
    nlinarith [mul_pos hu (mul_pos hd hd)]
  have : |fl (a / b) - n / d| ≤ |fl (a / b) - a / b| + |a / b - n / d| := abs_sub_le _ _ _
  nlinarith

/-- C128 for `LinLin::interpolate` between two neighbouring points, with nonnegative tabulated values: the computed value is a number, is not
negative, does not exceed the larger tabulated value by more than two roundings, is on the side of `y1` where `y2` is, and differs
from the exact interpolant by at most `2^-50` of the larger tabulated value plus the smallest positive number. -/
theorem C128_interpolation {x x1 x2 y1 y2 : ℝ} (hx : IsDouble x) (hx1 : IsDouble x1) (hx2 : IsDouble x2) (hy1 : IsDouble y1) (hy2 : IsDouble y2)
    (h1 : x1 ≤ x) (h2 : x ≤ x2) (h12 : x1 < x2) (p1 : 0 ≤ y1) (p2 : 0 ≤ y2) :
    ∃ v, linFl fl x x1 y1 x2 y2 = .ok v ∧ IsDouble v ∧ 0 ≤ v ∧ v ≤ (1 + (2 : ℝ) ^ (-53 : ℤ)) ^ 2 * max y1 y2 ∧ (y1 ≤ y2 → y1 ≤ v) ∧ (y2 ≤ y1 → v ≤ y1) ∧
      |v - ((x - x1) / (x2 - x1) * (y2 - y1) + y1)| ≤ (2 : ℝ) ^ (-50 : ℤ) * max y1 y2 + (2 : ℝ) ^ (-1074 : ℤ) := by
  obtain ⟨hb, f0, f1, fe⟩ := frac_fl hfl hx hx1 hx2 h1 h2 h12
  refine ⟨_, by rw [linFl, cdiv_of_ne hb.ne']; rfl, (hfl _).1, ?_⟩
  have g0 : 0 ≤ (x - x1) / (x2 - x1) := div_nonneg (by linarith) (by linarith)
  have g1 : (x - x1) / (x2 - x1) ≤ 1 := (div_le_one (by linarith)).mpr (by linarith)
  generalize fl (fl (x - x1) / fl (x2 - x1)) = f at *
  generalize (x - x1) / (x2 - x1) = g at *
  have hu := uround_pos
  have hu1 : uround ≤ 1 / 1000 := by rw [uround_eq]; norm_num
  have hη0 := eta_pos
  have ed := fl_sub_error hfl hy2 hy1
  have hd : IsDouble (fl (y2 - y1)) := (hfl _).1
  have hd1 : -y1 ≤ fl (y2 - y1) := le_fl hfl hy1.neg (by linarith)
  have hd2 : y1 ≤ y2 → 0 ≤ fl (y2 - y1) := fun h => fl_nonneg hfl (by linarith)
  have hd3 : y2 ≤ y1 → fl (y2 - y1) ≤ 0 := fun h => fl_nonpos hfl (by linarith)
  generalize fl (y2 - y1) = d at *
  -- the product
  have ep := (fl_error hfl (f * d)).1
  have hp : IsDouble (fl (f * d)) := (hfl _).1
  have hp1 : y1 ≤ y2 → 0 ≤ fl (f * d) ∧ fl (f * d) ≤ d := fun h => ⟨fl_nonneg hfl (mul_nonneg f0 (hd2 h)), fl_le hfl hd (mul_le_of_le_one_left (hd2 h) f1)⟩
  have hp2 : y2 ≤ y1 → fl (f * d) ≤ 0 ∧ d ≤ fl (f * d) := fun h => ⟨fl_nonpos hfl (mul_nonpos_of_nonneg_of_nonpos f0 (hd3 h)), le_fl hfl hd (by nlinarith [hd3 h])⟩
  generalize fl (f * d) = p at *
  have ev := fl_add_error hfl hp hy1
  have hlow : 0 ≤ p + y1 := by
    rcases le_total y1 y2 with h | h
    · linarith [(hp1 h).1]
    · linarith [(hp2 h).2]
  have hside1 : y1 ≤ y2 → y1 ≤ fl (p + y1) := fun h => le_fl hfl hy1 (by linarith [(hp1 h).1])
  have hside2 : y2 ≤ y1 → fl (p + y1) ≤ y1 := fun h => fl_le hfl hy1 (by linarith [(hp2 h).1])
  have hv0 : 0 ≤ fl (p + y1) := fl_nonneg hfl hlow
  generalize fl (p + y1) = v at *
  rw [abs_of_nonneg hlow] at ev
  have hM : |y2 - y1| ≤ max y1 y2 := by
    rw [abs_le]
    constructor <;> [linarith [le_max_left y1 y2]; linarith [le_max_right y1 y2]]
  have hM0 : 0 ≤ max y1 y2 := le_max_of_le_left p1
  have hup : p + y1 ≤ (1 + uround) * max y1 y2 := by
    rcases le_total y1 y2 with h | h
    · rw [max_eq_right h]
      rw [abs_of_nonneg (show 0 ≤ y2 - y1 by linarith), abs_le] at ed
      nlinarith [(hp1 h).2, ed.2]
    · rw [max_eq_left h]
      nlinarith [(hp2 h).1]
  refine ⟨hv0, ?_, hside1, hside2, ?_⟩
  · show v ≤ (1 + uround) ^ 2 * max y1 y2
    have := (abs_le.mp ev).2
    nlinarith
  · have h50 : (2 : ℝ) ^ (-50 : ℤ) = 8 * uround := by rw [uround_eq]; norm_num
    rw [h50]
    show |v - (g * (y2 - y1) + y1)| ≤ 8 * uround * max y1 y2 + eta
    have hdM : |d| ≤ (1 + uround) * max y1 y2 := by
      have : |d| ≤ |d - (y2 - y1)| + |y2 - y1| := by
        have := abs_add_le (d - (y2 - y1)) (y2 - y1)
        rwa [sub_add_cancel] at this
      nlinarith
    generalize max y1 y2 = M at *
    have t1 : |v - (p + y1)| ≤ uround * ((1 + uround) * M) := ev.trans (mul_le_mul_of_nonneg_left hup hu.le)
    have t2 : |p - f * d| ≤ uround * ((1 + uround) * M) + eta / 2 := by
      refine ep.trans ?_
      have : |f * d| ≤ (1 + uround) * M := by
        rw [abs_mul, abs_of_nonneg f0]
        exact (mul_le_of_le_one_left (abs_nonneg d) f1).trans hdM
      have := mul_le_mul_of_nonneg_left this hu.le
      linarith
    have t3 : |f * d - g * d| ≤ 4 * uround * ((1 + uround) * M) := by
      rw [← sub_mul, abs_mul]
      exact mul_le_mul fe hdM (abs_nonneg _) (by positivity)
    have t4 : |g * d - g * (y2 - y1)| ≤ uround * M := by
      rw [← mul_sub, abs_mul, abs_of_nonneg g0]
      have a1 : |d - (y2 - y1)| ≤ uround * M := ed.trans (mul_le_mul_of_nonneg_left hM hu.le)
      exact (mul_le_of_le_one_left (abs_nonneg _) g1).trans a1
    have key : v - (g * (y2 - y1) + y1) = (v - (p + y1)) + (p - f * d) + (f * d - g * d) + (g * d - g * (y2 - y1)) := by ring
    rw [key]
    have s1 := abs_add_le ((v - (p + y1)) + (p - f * d) + (f * d - g * d)) (g * d - g * (y2 - y1))
    have s2 := abs_add_le ((v - (p + y1)) + (p - f * d)) (f * d - g * d)
    have s3 := abs_add_le (v - (p + y1)) (p - f * d)
    have hs : uround * ((1 + uround) * M) = uround * M + uround * (uround * M) := by ring
    have hs2 : uround * (uround * M) ≤ 1 / 1000 * (uround * M) := mul_le_mul_of_nonneg_right hu1 (by positivity)
    have hs3 : 4 * uround * ((1 + uround) * M) = 4 * (uround * M) + 4 * (uround * (uround * M)) := by ring
    nlinarith

/-- Between two tabulated points the computed value moves in one direction with the energy. -/
theorem C128_monotone {x x' x1 x2 y1 y2 : ℝ} (hx1 : IsDouble x1) (hx2 : IsDouble x2)
    (h1 : x1 ≤ x) (hxx : x ≤ x') (h12 : x1 < x2) (v v' : ℝ)
    (hv : linFl fl x x1 y1 x2 y2 = .ok v) (hv' : linFl fl x' x1 y1 x2 y2 = .ok v') : (y1 ≤ y2 → v ≤ v') ∧ (y2 ≤ y1 → v' ≤ v) := by
  have hb := fl_sub_pos hfl hx2 hx1 h12
  rw [linFl, cdiv_of_ne hb.ne'] at hv hv'
  cases hv; cases hv'
  have hf : fl (fl (x - x1) / fl (x2 - x1)) ≤ fl (fl (x' - x1) / fl (x2 - x1)) :=
    fl_mono hfl (div_le_div_of_nonneg_right (fl_mono hfl (by linarith)) hb.le)
  constructor
  · intro h
    have := fl_nonneg hfl (show 0 ≤ y2 - y1 by linarith)
    exact fl_mono hfl (by linarith [fl_mono hfl (mul_le_mul_of_nonneg_right hf this)])
  · intro h
    have := fl_nonpos hfl (show y2 - y1 ≤ 0 by linarith)
    exact fl_mono hfl (by linarith [fl_mono hfl (mul_le_mul_of_nonpos_right hf this)])

end

/-! ### Cross sections -/

theorem eval_with (s : XS ℝ) : s.eval = s.evalWith xsLin := rfl

/-- Evaluating a cross section selects a tabulated value or zero, or a pair of neighbouring points around the energy, whatever the linear
formula. -/
theorem evalWith_cases (s : XS ℝ) (hg : GoodXS s) (hs : s.grid.Pairwise (· ≤ ·)) (E : ℝ) :
    (∃ w, (w = 0 ∨ w ∈ s.values) ∧ ∀ lin, s.evalWith lin E = .ok w) ∨
    (∃ El Eh sl sh, El ∈ s.grid ∧ Eh ∈ s.grid ∧ sl ∈ s.values ∧ sh ∈ s.values ∧ El < E ∧ E < Eh ∧ ∀ lin, s.evalWith lin E = lin E El Eh sl sh) := by
  have hb := hg.below
  have ha := hg.aligned
  obtain ⟨et, ht⟩ := getElem?_of_lt hb
  obtain ⟨mx, hmx⟩ := last_exists (l := s.grid) (by omega)
  obtain ⟨vl, hvl⟩ := last_exists (l := s.values) (by omega)
  rcases lt_or_ge E et with h | h1
  · left
    refine ⟨0, Or.inl rfl, fun lin => ?_⟩
    simp [XS.evalWith, hg.notSingle, getAt_eq_ok.mpr ht, bind, Except.bind, h]
  rcases le_or_gt mx E with h2 | h2
  · left
    refine ⟨vl, Or.inr (List.mem_of_getLast? hvl), fun lin => ?_⟩
    simp only [XS.evalWith, hg.notSingle, getAt_eq_ok.mpr ht, back_eq_ok.mpr hmx, back_eq_ok.mpr hvl, bind, Except.bind]
    rw [if_neg (by simp), if_neg (not_lt.mpr h1), if_pos h2]
  obtain ⟨l, hl⟩ : ∃ l, l = lowerBoundRange s.grid s.index s.grid.length E := ⟨_, rfl⟩
  obtain ⟨l1, l2, l3⟩ := lowerBoundRange_spec hs E hb.le le_rfl
  rw [← hl] at l1 l2 l3
  have hlt : l < s.grid.length := by
    have := mt (l3 _ _ (getLast_get hmx) (by omega) (by omega)).mpr (not_lt.mpr h2.le)
    omega
  obtain ⟨v, hv⟩ := getElem?_of_lt hlt
  have hvE : E ≤ v := not_lt.mp (mt (l3 l v hv l1 hlt).mp (lt_irrefl _))
  have hev : ∀ lin, s.evalWith lin E = if E = v then getAt s.values (l - s.index) else (do
        let i ← subIdx (l - s.index) 1
        let El ← getAt s.grid (s.index + i)
        let Eh ← getAt s.grid (s.index + i + 1)
        let sl ← getAt s.values i
        let sh ← getAt s.values (i + 1)
        lin E El Eh sl sh) := by
    intro lin
    unfold XS.evalWith
    rw [if_neg (by simp [hg.notSingle])]
    simp only [getAt_eq_ok.mpr ht, back_eq_ok.mpr hmx, bind, Except.bind]
    rw [if_neg (not_lt.mpr h1), if_neg (not_le.mpr h2), ← hl]
    simp only [getAt_eq_ok.mpr hv]
  by_cases hEv : E = v
  · left
    obtain ⟨w, hw⟩ := getElem?_of_lt (l := s.values) (i := l - s.index) (by omega)
    exact ⟨w, Or.inr (List.mem_of_getElem? hw), fun lin => by rw [hev, if_pos hEv, getAt_eq_ok.mpr hw]⟩
  · right
    have hEv' : E < v := lt_of_le_of_ne hvE hEv
    have hpos : s.index < l := by
      rcases Nat.lt_or_ge s.index l with h | h
      · exact h
      · have : l = s.index := by omega
        rw [this, ht] at hv
        cases hv
        exact absurd h1 (not_le.mpr hEv')
    obtain ⟨k, hk⟩ : ∃ k, l = s.index + k + 1 := ⟨l - s.index - 1, by omega⟩
    obtain ⟨El, hEl⟩ := getElem?_of_lt (l := s.grid) (i := s.index + k) (by omega)
    obtain ⟨sl, hsl⟩ := getElem?_of_lt (l := s.values) (i := k) (by omega)
    obtain ⟨sh, hsh⟩ := getElem?_of_lt (l := s.values) (i := k + 1) (by omega)
    have hElE : El < E := (l3 _ _ hEl (by omega) (by omega)).mpr (by omega)
    rw [hk] at hv
    refine ⟨El, v, sl, sh, List.mem_of_getElem? hEl, List.mem_of_getElem? hv, List.mem_of_getElem? hsl, List.mem_of_getElem? hsh, hElE, hEv', fun lin => ?_⟩
    rw [hev, if_neg hEv, show l - s.index = k + 1 by omega, subIdx_of_le (by omega)]
    simp only [Nat.add_sub_cancel, getAt_eq_ok.mpr hEl, getAt_eq_ok.mpr hv, getAt_eq_ok.mpr hsl, getAt_eq_ok.mpr hsh, bind, Except.bind]

/-- **C128** A cross section evaluated in binary64 arithmetic (any rounding to nearest, no overflow), its energies and values being binary64 numbers: the
result is a binary64 number, never negative, and differs from the exact linear interpolant by at most `2^-50` of some tabulated value, plus the
smallest positive number; it never exceeds the largest tabulated value by more than two roundings. -/
theorem C128_cross_section (fl : ℝ → ℝ) (hfl : IsRoundToNearest fl) (s : XS ℝ) (hg : GoodXS s) (hs : s.grid.Pairwise (· ≤ ·))
    (hgrid : ∀ e ∈ s.grid, IsDouble e) (hvals : ∀ v ∈ s.values, IsDouble v) (E : ℝ) (hE : IsDouble E) :
    ∃ v w, s.evalFl fl E = .ok v ∧ s.eval E = .ok w ∧ IsDouble v ∧ 0 ≤ v ∧
      ∃ m ∈ s.values, |v - w| ≤ (2 : ℝ) ^ (-50 : ℤ) * m + (2 : ℝ) ^ (-1074 : ℤ) ∧ v ≤ (1 + (2 : ℝ) ^ (-53 : ℤ)) ^ 2 * m := by
  have small : (0 : ℝ) ≤ (2 : ℝ) ^ (-1074 : ℤ) := by positivity
  have h50 : (0 : ℝ) ≤ (2 : ℝ) ^ (-50 : ℤ) := by positivity
  have h53 : (0 : ℝ) ≤ (2 : ℝ) ^ (-53 : ℤ) := by positivity
  have hone : 1 ≤ (1 + (2 : ℝ) ^ (-53 : ℤ)) ^ 2 := by nlinarith
  have same : ∀ w m, 0 ≤ m → w ≤ m → |w - w| ≤ (2 : ℝ) ^ (-50 : ℤ) * m + (2 : ℝ) ^ (-1074 : ℤ) ∧ w ≤ (1 + (2 : ℝ) ^ (-53 : ℤ)) ^ 2 * m := by
    intro w m hm hw
    rw [sub_self, abs_zero]
    exact ⟨add_nonneg (mul_nonneg h50 hm) small, hw.trans (le_mul_of_one_le_left hm hone)⟩
  rw [eval_with]
  unfold XS.evalFl
  rcases evalWith_cases s hg hs E with ⟨w, hw, h⟩ | ⟨El, Eh, sl, sh, m1, m2, m3, m4, h1, h2, h⟩
  · refine ⟨w, w, h _, h _, ?_⟩
    rcases hw with rfl | hw
    · have := hg.below
      have := hg.aligned
      obtain ⟨m, hm⟩ := last_exists (l := s.values) (by omega)
      have hm := List.mem_of_getLast? hm
      exact ⟨isDouble_zero, le_rfl, m, hm, same 0 m (hg.nonneg m hm) (hg.nonneg m hm)⟩
    · exact ⟨hvals w hw, hg.nonneg w hw, w, hw, same w w (hg.nonneg w hw) le_rfl⟩
  · obtain ⟨v, q1, q2, q3, q4, _, _, q7⟩ := C128_interpolation hfl hE (hgrid _ m1) (hgrid _ m2) (hvals _ m3) (hvals _ m4) h1.le h2.le (h1.trans h2)
      (hg.nonneg _ m3) (hg.nonneg _ m4)
    refine ⟨v, (E - El) / (Eh - El) * (sh - sl) + sl, by rw [h, q1], ?_, q2, q3, max sl sh, ?_, q7, q4⟩
    · have : Eh - El ≠ 0 := by intro hh; linarith
      rw [h, xsLin, cdiv_of_ne this]
      rfl
    · rcases max_choice sl sh with e | e <;> rw [e] <;> assumption

/-- No number lies strictly between neighbours. -/
theorem no_double_between {m : ℤ} (hm : 2 ^ 52 ≤ m) (e : ℕ) {d : ℝ} (hd : IsDouble d) : ¬ (m * 2 ^ e * eta < d ∧ d < (m + 1) * 2 ^ e * eta) := by
  rintro ⟨h1, h2⟩
  have hη := eta_pos
  obtain ⟨k, e', hk, rfl⟩ := isDouble_iff.mp hd
  rcases Nat.lt_or_ge e' e with h | h
  · obtain ⟨c, rfl⟩ : ∃ c, e = e' + 1 + c := ⟨e - e' - 1, by omega⟩
    have hk' : (k : ℝ) < 2 ^ 53 := by exact_mod_cast (abs_lt.mp hk).2
    have hm' : (2 : ℝ) ^ 52 ≤ m := by exact_mod_cast hm
    have hc : (1 : ℝ) ≤ 2 ^ c := one_le_pow₀ (by norm_num)
    have : (k : ℝ) * 2 ^ e' * eta ≤ m * 2 ^ (e' + 1 + c) * eta := by
      refine mul_le_mul_of_nonneg_right ?_ hη.le
      rw [pow_add, pow_succ]
      have hp : (0 : ℝ) < 2 ^ e' := by positivity
      have : (k : ℝ) ≤ m * 2 * 2 ^ c := by nlinarith
      calc (k : ℝ) * 2 ^ e' ≤ (m * 2 * 2 ^ c) * 2 ^ e' := mul_le_mul_of_nonneg_right this hp.le
        _ = m * (2 ^ e' * 2 * 2 ^ c) := by ring
    linarith
  · obtain ⟨c, rfl⟩ : ∃ c, e' = e + c := ⟨e' - e, by omega⟩
    have hp : (0 : ℝ) < 2 ^ e * eta := by positivity
    have e1 : (k : ℝ) * 2 ^ (e + c) * eta = ((k * 2 ^ c : ℤ) : ℝ) * (2 ^ e * eta) := by push_cast; rw [pow_add]; ring
    rw [e1] at h1 h2
    rw [mul_assoc] at h1 h2
    have h1 : (m : ℝ) < ((k * 2 ^ c : ℤ) : ℝ) := lt_of_mul_lt_mul_right h1 hp.le
    have h2 : ((k * 2 ^ c : ℤ) : ℝ) < ((m + 1 : ℤ) : ℝ) := by push_cast at h2 ⊢; exact lt_of_mul_lt_mul_right h2 hp.le
    have h1 : m < k * 2 ^ c := by exact_mod_cast h1
    have h2 : k * 2 ^ c < m + 1 := by exact_mod_cast h2
    omega

/-- The default rounding of binary64 arithmetic: half way between two neighbours, the one with the even significand is taken (stated for positive
normal numbers). -/
def Spec.TiesToEven (fl : ℝ → ℝ) : Prop :=
  ∀ (m : ℤ) (e : ℕ), 2 ^ 52 ≤ m → m < 2 ^ 53 → fl ((m + 1 / 2) * 2 ^ e * (2 : ℝ) ^ (-1074 : ℤ)) = (if Even m then m else m + 1 : ℤ) * 2 ^ e * (2 : ℝ) ^ (-1074 : ℤ)

theorem tie_unique {m m' : ℤ} {e e' : ℕ} (h1 : 2 ^ 52 ≤ m) (h2 : m < 2 ^ 53) (h1' : 2 ^ 52 ≤ m') (h2' : m' < 2 ^ 53)
    (h : ((m : ℝ) + 1 / 2) * 2 ^ e * eta = (m' + 1 / 2) * 2 ^ e' * eta) : m = m' ∧ e = e' := by
  have hη := eta_pos
  have h := mul_right_cancel₀ hη.ne' h
  have key : ∀ {m m' : ℤ} {e e' : ℕ}, 2 ^ 52 ≤ m' → m < 2 ^ 53 → ((m : ℝ) + 1 / 2) * 2 ^ e = (m' + 1 / 2) * 2 ^ e' → ¬ e < e' := by
    intro m m' e e' a b h hlt
    obtain ⟨c, rfl⟩ : ∃ c, e' = e + 1 + c := ⟨e' - e - 1, by omega⟩
    have hc : (1 : ℝ) ≤ 2 ^ c := one_le_pow₀ (by norm_num)
    have hp : (0 : ℝ) < 2 ^ e := by positivity
    rw [pow_add, pow_succ, show ((m' : ℝ) + 1 / 2) * (2 ^ e * 2 * 2 ^ c) = ((m' + 1 / 2) * 2 * 2 ^ c) * 2 ^ e by ring] at h
    have h := mul_right_cancel₀ hp.ne' h
    have a' : (2 : ℝ) ^ 52 ≤ m' := by exact_mod_cast a
    have b' : (m : ℝ) + 1 ≤ 2 ^ 53 := by exact_mod_cast b
    nlinarith
  have he : e = e' := le_antisymm (not_lt.mp (key h1 h2' h.symm)) (not_lt.mp (key h1' h2 h))
  subst he
  have hp : (0 : ℝ) < 2 ^ e := by positivity
  have h := mul_right_cancel₀ hp.ne' h
  exact ⟨by have : (m : ℝ) = m' := by linarith
            exact_mod_cast this, rfl⟩

open Classical in
/-- There is such a rounding. -/
theorem exists_ties_even : ∃ fl, IsRoundToNearest fl ∧ TiesToEven fl := by
  obtain ⟨fl, hfl⟩ := exists_rounding
  obtain ⟨P, hP⟩ : ∃ P : ℝ → ℤ → ℕ → Prop, P = fun r (m : ℤ) (e : ℕ) => 2 ^ 52 ≤ m ∧ m < 2 ^ 53 ∧ r = (m + 1 / 2) * 2 ^ e * eta := ⟨_, rfl⟩
  obtain ⟨fl', hfl'⟩ : ∃ fl' : ℝ → ℝ, ∀ r, (∀ m e, P r m e → fl' r = (if Even m then m else m + 1 : ℤ) * 2 ^ e * eta) ∧ ((¬ ∃ m e, P r m e) → fl' r = fl r) := by
    have : ∀ r, ∃ v, (∀ m e, P r m e → v = (if Even m then m else m + 1 : ℤ) * 2 ^ e * eta) ∧ ((¬ ∃ m e, P r m e) → v = fl r) := by
      intro r
      by_cases h : ∃ m e, P r m e
      · obtain ⟨m, e, h0⟩ := h
        refine ⟨(if Even m then m else m + 1 : ℤ) * 2 ^ e * eta, fun m' e' h1 => ?_, fun hn => absurd ⟨m, e, h0⟩ hn⟩
        rw [hP] at h0 h1
        obtain ⟨rfl, rfl⟩ := tie_unique h0.1 h0.2.1 h1.1 h1.2.1 (h0.2.2.symm.trans h1.2.2)
        rfl
      · exact ⟨fl r, fun m e h1 => absurd ⟨m, e, h1⟩ h, fun _ => rfl⟩
    choose fl' h using this
    exact ⟨fl', h⟩
  refine ⟨fl', fun r => ?_, fun m e h1 h2 => (hfl' _).1 m e (by rw [hP]; exact ⟨h1, h2, rfl⟩)⟩
  by_cases h : ∃ m e, P r m e
  · obtain ⟨m, e, h0⟩ := h
    rw [(hfl' r).1 m e h0]
    rw [hP] at h0
    obtain ⟨h1, h2, h3⟩ := h0
    have hη := eta_pos
    have hp : (0 : ℝ) < 2 ^ e * eta := by positivity
    refine ⟨isDouble_scaled (by split <;> rw [abs_of_nonneg (by omega)] <;> omega) e, fun d hd => ?_⟩
    have hleft : |((if Even m then m else m + 1 : ℤ) : ℝ) * 2 ^ e * eta - r| = 2 ^ e * eta / 2 := by
      rw [h3]
      split
      · rw [show (m : ℝ) * 2 ^ e * eta - (m + 1 / 2) * 2 ^ e * eta = -(2 ^ e * eta / 2) by ring, abs_neg, abs_of_pos (by linarith)]
      · rw [show (((m + 1 : ℤ) : ℝ)) * 2 ^ e * eta - (m + 1 / 2) * 2 ^ e * eta = 2 ^ e * eta / 2 by push_cast; ring, abs_of_pos (by linarith)]
    rw [hleft, h3]
    have hno := no_double_between h1 e hd
    by_contra hc
    rw [not_le, abs_lt] at hc
    exact hno ⟨by nlinarith [hc.1], by nlinarith [hc.2]⟩
  · rw [(hfl' r).2 h]
    exact hfl r

/-- **C128** what does not hold in floating point: with the default rounding, the value interpolated between the neighbouring points
`(1.5 δ, 1.5 δ)` and `(1 + 4 δ, 1 + 3 δ)` at `1 + 3 δ` is `1 + 4 δ`, above both tabulated values (`δ = 2^-52`). -/
theorem C128_above_neighbours (fl : ℝ → ℝ) (hfl : IsRoundToNearest fl) (hev : TiesToEven fl) (δ : ℝ) (hδ : δ = (2 : ℝ) ^ (-52 : ℤ)) :
    linFl fl (1 + 3 * δ) (3 / 2 * δ) (3 / 2 * δ) (1 + 4 * δ) (1 + 3 * δ) = .ok (1 + 4 * δ) := by
  have h1 : (1 : ℝ) = 2 ^ 52 * δ := by rw [hδ]; norm_num
  have hs : (2 : ℝ) ^ 1022 * (2 : ℝ) ^ (-1074 : ℤ) = δ := by rw [hδ, ← zpow_natCast, ← zpow_add₀ (by norm_num)]; norm_num
  have hpos : 0 < δ := by rw [hδ]; positivity
  have tie : ∀ m : ℤ, 2 ^ 52 ≤ m → m < 2 ^ 53 → fl ((m + 1 / 2) * δ) = (if Even m then m else m + 1 : ℤ) * δ := by
    intro m a b
    have := hev m 1022 a b
    rwa [mul_assoc, mul_assoc, hs] at this
  have t1 : fl (1 + 3 * δ - 3 / 2 * δ) = (2 ^ 52 + 2 : ℤ) * δ := by
    have := tie (2 ^ 52 + 1) (by norm_num) (by norm_num)
    rw [if_neg (by decide)] at this
    rw [show 1 + 3 * δ - 3 / 2 * δ = (((2 ^ 52 + 1 : ℤ) : ℝ) + 1 / 2) * δ by push_cast; linarith, this]
    norm_num
  have t2 : fl (1 + 4 * δ - 3 / 2 * δ) = (2 ^ 52 + 2 : ℤ) * δ := by
    have := tie (2 ^ 52 + 2) (by norm_num) (by norm_num)
    rw [if_pos (by decide)] at this
    rw [show 1 + 4 * δ - 3 / 2 * δ = (((2 ^ 52 + 2 : ℤ) : ℝ) + 1 / 2) * δ by push_cast; linarith, this]
  have t3 : fl ((2 ^ 52 + 2 : ℤ) * δ + 3 / 2 * δ) = 1 + 4 * δ := by
    have := tie (2 ^ 52 + 3) (by norm_num) (by norm_num)
    rw [if_neg (by decide)] at this
    rw [show ((2 ^ 52 + 2 : ℤ) : ℝ) * δ + 3 / 2 * δ = (((2 ^ 52 + 3 : ℤ) : ℝ) + 1 / 2) * δ by push_cast; ring, this]
    push_cast; linarith
  have hne : ((2 ^ 52 + 2 : ℤ) : ℝ) * δ ≠ 0 := by positivity
  have hd : fl ((2 ^ 52 + 2 : ℤ) * δ) = (2 ^ 52 + 2 : ℤ) * δ := by rw [← t1]; exact fl_self hfl (hfl _).1
  rw [linFl, t1, t2, cdiv_of_ne hne]
  simp only [bind, Except.bind, pure, Except.pure]
  rw [div_self hne, fl_self hfl isDouble_one, one_mul, hd, t3]

/-- A cross section of two points, evaluated in between, meets the hypotheses. -/
example (fl : ℝ → ℝ) (hfl : IsRoundToNearest fl) : ∃ v w, (⟨[1, 3], [5, 7], 0, false⟩ : XS ℝ).evalFl fl 2 = .ok v ∧
    (⟨[1, 3], [5, 7], 0, false⟩ : XS ℝ).eval 2 = .ok w ∧ 0 ≤ v ∧ ∃ m ∈ [(5 : ℝ), 7], |v - w| ≤ (2 : ℝ) ^ (-50 : ℤ) * m + (2 : ℝ) ^ (-1074 : ℤ) := by
  have hd : ∀ n : ℕ, n ≤ 2 ^ 53 → IsDouble n := fun n h => isDouble_nat h
  obtain ⟨v, w, h1, h2, _, h3, m, h4, h5, _⟩ := C128_cross_section fl hfl ⟨[1, 3], [5, 7], 0, false⟩
    ⟨rfl, by simp, rfl, by intro v hv; fin_cases hv <;> norm_num⟩ (by norm_num)
    (by
      intro e he
      fin_cases he
      · exact isDouble_one
      · exact_mod_cast hd 3 (by norm_num))
    (by
      intro e he
      fin_cases he
      · exact_mod_cast hd 5 (by norm_num)
      · exact_mod_cast hd 7 (by norm_num)) 2 (by exact_mod_cast hd 2 (by norm_num))
  exact ⟨v, w, h1, h2, h3, m, h4, h5⟩

/-! ### C129: indices drawn in floating point -/

section
variable {fl : ℝ → ℝ} (hfl : IsRoundToNearest fl)
include hfl

omit hfl in
/-- A number below one is at most `1 - 2^-53`. -/
theorem double_below_one {x : ℝ} (hx : IsDouble x) (h : x < 1) : x ≤ 1 - uround := by
  obtain ⟨m, e, hm, rfl⟩ := isDouble_iff.mp hx
  have hη := eta_pos
  rcases Nat.lt_or_ge e 1021 with he | he
  · have h1 : (m : ℝ) * 2 ^ e * eta ≤ 2 ^ 53 * 2 ^ 1020 * eta := by
      refine mul_le_mul_of_nonneg_right ?_ hη.le
      have hm' : (m : ℝ) ≤ 2 ^ 53 := by exact_mod_cast (abs_lt.mp hm).2.le
      have : (2 : ℝ) ^ e ≤ 2 ^ 1020 := pow_le_pow_right₀ (by norm_num) (by omega)
      calc (m : ℝ) * 2 ^ e ≤ 2 ^ 53 * 2 ^ e := mul_le_mul_of_nonneg_right hm' (by positivity)
        _ ≤ _ := mul_le_mul_of_nonneg_left this (by positivity)
    have h2 : (2 : ℝ) ^ 53 * 2 ^ 1020 * eta = 1 / 2 := by
      unfold eta
      rw [← pow_add, ← zpow_natCast, ← zpow_add₀ (by norm_num)]
      norm_num
    rw [h2] at h1
    refine h1.trans ?_
    rw [uround_eq]
    norm_num
  · obtain ⟨c, rfl⟩ : ∃ c, e = 1021 + c := ⟨e - 1021, by omega⟩
    have e1 : (m : ℝ) * 2 ^ (1021 + c) * eta = ((m * 2 ^ c : ℤ) : ℝ) * uround := by
      have : (2 : ℝ) ^ 1021 * eta = uround := by
        unfold eta uround
        rw [← zpow_natCast, ← zpow_add₀ (by norm_num)]
        norm_num
      rw [← this, pow_add]
      push_cast
      ring
    rw [e1] at h ⊢
    have hu := uround_pos
    have h1 : uround * 2 ^ 53 = 1 := by rw [uround_eq]; norm_num
    have hlt : ((m * 2 ^ c : ℤ) : ℝ) < ((2 ^ 53 : ℤ) : ℝ) := by
      push_cast at h ⊢
      by_contra hc
      rw [not_lt] at hc
      nlinarith
    have hz : m * 2 ^ c < 2 ^ 53 := by exact_mod_cast hlt
    have hz2 : ((m * 2 ^ c : ℤ) : ℝ) ≤ 2 ^ 53 - 1 := by
      have : m * 2 ^ c ≤ 2 ^ 53 - 1 := by omega
      exact_mod_cast this
    nlinarith

/-- **C129** An index drawn from `n` in binary64 arithmetic with a random number in `[0, 1)` is always below `n`. -/
theorem C129_index (n : Nat) (hn : 1 ≤ n) (xi : ℝ) (hx : IsDouble xi) (h0 : 0 ≤ xi) (h1 : xi < 1) : drawFl fl n xi < n := by
  have hu := uround_pos
  have hu1 : uround ≤ 1 / 1000 := by rw [uround_eq]; norm_num
  have hn' : (1 : ℝ) ≤ n := by exact_mod_cast hn
  have hle := double_below_one hx h1
  have hmono : fl (n * xi) ≤ fl (n * (1 - uround)) := fl_mono hfl (mul_le_mul_of_nonneg_left hle (by linarith))
  have hz : 1 / 2 ≤ (n : ℝ) * (1 - uround) := by nlinarith
  have hbig : 2 ^ 52 * eta ≤ |(n : ℝ) * (1 - uround)| := by
    rw [abs_of_pos (by linarith)]
    refine le_trans ?_ hz
    have : (2 : ℝ) ^ 52 * eta ≤ 2 ^ 1073 * eta := mul_le_mul_of_nonneg_right (pow_le_pow_right₀ (by norm_num) (by norm_num)) eta_pos.le
    refine this.trans ?_
    unfold eta
    rw [← zpow_natCast, ← zpow_add₀ (by norm_num)]
    norm_num
  have he := (fl_error hfl ((n : ℝ) * (1 - uround))).2 hbig
  rw [abs_of_pos (show (0 : ℝ) < n * (1 - uround) by linarith), abs_le] at he
  have hlt : fl (n * (1 - uround)) < n := by
    have h2 := he.2
    generalize fl (n * (1 - uround)) = z at *
    have : 0 < (n : ℝ) * (uround * uround) := by positivity
    nlinarith
  rw [drawFl, Nat.floor_lt (fl_nonneg hfl (mul_nonneg (by linarith) h0))]
  linarith

/-- **C129** so reading a table of `n` entries at that index is defined. -/
theorem C129_entry {α : Type} (l : List α) (hne : l ≠ []) (xi : ℝ) (hx : IsDouble xi) (h0 : 0 ≤ xi) (h1 : xi < 1) :
    ∃ a ∈ l, getAt l (drawFl fl l.length xi) = .ok a := by
  obtain ⟨a, ha⟩ := getElem?_of_lt (C129_index hfl l.length (List.length_pos_iff.mpr hne) xi hx h0 h1)
  exact ⟨a, List.mem_of_getElem? ha, getAt_eq_ok.mpr ha⟩

/-- **C129** the index is the one computed exactly or, when the exact product is within a rounding of the next integer, the next one. -/
theorem C129_close (n : Nat) (hn : n ≤ 2 ^ 53) (xi : ℝ) (h0 : 0 ≤ xi) (h1 : xi < 1) :
    drawFl fl n xi = ⌊n * xi⌋₊ ∨ (drawFl fl n xi = ⌊n * xi⌋₊ + 1 ∧ ((⌊n * xi⌋₊ + 1 : ℕ) : ℝ) - n * xi ≤ (2 : ℝ) ^ (-53 : ℤ) * (n * xi) + (2 : ℝ) ^ (-1075 : ℤ)) := by
  have hp : 0 ≤ (n : ℝ) * xi := mul_nonneg (Nat.cast_nonneg n) h0
  have hfl1 := Nat.floor_le hp
  have hlt := Nat.lt_floor_add_one ((n : ℝ) * xi)
  have hle : ⌊(n : ℝ) * xi⌋₊ ≤ n := by
    have : (n : ℝ) * xi ≤ n := mul_le_of_le_one_right (Nat.cast_nonneg n) h1.le
    exact Nat.floor_le_of_le this
  have hk : ⌊(n : ℝ) * xi⌋₊ + 1 ≤ 2 ^ 53 ∨ ⌊(n : ℝ) * xi⌋₊ = 2 ^ 53 := by omega
  have hk : ⌊(n : ℝ) * xi⌋₊ + 1 ≤ 2 ^ 53 := by
    rcases hk with h | h
    · exact h
    · exfalso
      have h2 : n = 2 ^ 53 := by omega
      have : ((⌊(n : ℝ) * xi⌋₊ : ℕ) : ℝ) = n := by rw [h, h2]
      rw [this] at hfl1
      have hn0 : (0 : ℝ) < n := by rw [h2]; norm_num
      nlinarith
  have b1 := le_fl hfl (isDouble_nat (n := ⌊(n : ℝ) * xi⌋₊) (by omega)) hfl1
  have b2 := fl_le hfl (isDouble_nat hk) (show (n : ℝ) * xi ≤ ((⌊(n : ℝ) * xi⌋₊ + 1 : ℕ) : ℝ) by push_cast; exact hlt.le)
  have hf0 := fl_nonneg hfl hp
  unfold drawFl
  rcases lt_or_eq_of_le b2 with h | h
  · left
    rw [Nat.floor_eq_iff hf0]
    exact ⟨b1, by push_cast at h; exact h⟩
  · right
    refine ⟨by rw [h, Nat.floor_natCast], ?_⟩
    have he := (fl_error hfl ((n : ℝ) * xi)).1
    rw [h, abs_of_nonneg hp, abs_le] at he
    have heta : (2 : ℝ) ^ (-1075 : ℤ) = eta / 2 := by
      unfold eta
      rw [show (-1075 : ℤ) = -1074 + (-1) by norm_num, zpow_add₀ (by norm_num)]
      norm_num
      ring
    rw [heta]
    exact he.2

/-- **C129** The index of the inner outgoing energies, `(n - 4) * xi + 2`, is between `2` and `n - 2`. -/
theorem C129_skewed (n : Nat) (hn : 5 ≤ n) (hn2 : n ≤ 2 ^ 53) (xi : ℝ) (h0 : 0 ≤ xi) (h1 : xi < 1) :
    2 ≤ drawSkewFl fl n xi ∧ drawSkewFl fl n xi ≤ n - 2 := by
  have hle : ((n - 4 : ℕ) : ℝ) * xi ≤ ((n - 4 : ℕ) : ℝ) := mul_le_of_le_one_right (Nat.cast_nonneg _) h1.le
  have b1 := fl_le hfl (isDouble_nat (n := n - 4) (by omega)) hle
  have b0 := fl_nonneg hfl (mul_nonneg (Nat.cast_nonneg (n - 4)) h0)
  have c1 := fl_le hfl (isDouble_nat (n := n - 2) (by omega)) (show fl ((n - 4 : ℕ) * xi) + 2 ≤ ((n - 2 : ℕ) : ℝ) by
    have : ((n - 4 : ℕ) : ℝ) + 2 = ((n - 2 : ℕ) : ℝ) := by
      rw [show n - 2 = (n - 4) + 2 by omega]; push_cast; ring
    linarith)
  have c0 := le_fl hfl (isDouble_nat (n := 2) (by norm_num)) (show ((2 : ℕ) : ℝ) ≤ fl ((n - 4 : ℕ) * xi) + 2 by push_cast; linarith)
  unfold drawSkewFl
  exact ⟨Nat.le_floor c0, Nat.floor_le_of_le c1⟩

end

/-- **C129** The bound is reached: with five outgoing energies the largest random number gives index 3, that of the next to last energy, under every rounding
to nearest; in exact arithmetic only index 2 is drawn this way. -/
theorem C129_skewed_last (fl : ℝ → ℝ) (hfl : IsRoundToNearest fl) : drawSkewFl fl 5 (1 - (2 : ℝ) ^ (-53 : ℤ)) = 3 ∧ ⌊((5 - 4 : ℕ) : ℝ) * (1 - (2 : ℝ) ^ (-53 : ℤ)) + 2⌋₊ = 2 := by
  have hd : IsDouble (1 - (2 : ℝ) ^ (-53 : ℤ)) := by
    have := isDouble_zpow (m := 2 ^ 53 - 1) (by norm_num) (z := -53) (by norm_num)
    rwa [show (((2 ^ 53 - 1 : ℤ)) : ℝ) * (2 : ℝ) ^ (-53 : ℤ) = 1 - (2 : ℝ) ^ (-53 : ℤ) by norm_num] at this
  have h3 : fl (1 - (2 : ℝ) ^ (-53 : ℤ) + 2) = 3 := by
    have hn := (hfl (1 - (2 : ℝ) ^ (-53 : ℤ) + 2)).2 3 (isDouble_nat (n := 3) (by norm_num))
    have hle := fl_le hfl (isDouble_nat (n := 3) (by norm_num)) (show 1 - (2 : ℝ) ^ (-53 : ℤ) + 2 ≤ ((3 : ℕ) : ℝ) by norm_num)
    have hno := no_double_between (m := 3 * 2 ^ 51 - 1) (by norm_num) 1023 (hfl (1 - (2 : ℝ) ^ (-53 : ℤ) + 2)).1
    have hs : (2 : ℝ) ^ 1023 * eta = (2 : ℝ) ^ (-51 : ℤ) := by
      unfold eta
      rw [← zpow_natCast, ← zpow_add₀ (by norm_num)]
      norm_num
    rw [mul_assoc, mul_assoc, hs] at hno
    push_cast at hle
    by_contra hne
    have hlt := lt_of_le_of_ne hle hne
    refine hno ⟨?_, ?_⟩
    · rw [abs_of_pos (show (0 : ℝ) < 3 - (1 - (2 : ℝ) ^ (-53 : ℤ) + 2) by norm_num)] at hn
      have := (abs_le.mp hn).1
      norm_num at this ⊢
      linarith
    · norm_num at hlt ⊢
      linarith
  constructor
  · unfold drawSkewFl
    rw [show ((5 - 4 : ℕ) : ℝ) * (1 - (2 : ℝ) ^ (-53 : ℤ)) = 1 - (2 : ℝ) ^ (-53 : ℤ) by norm_num, fl_self hfl hd, h3]
    norm_num
  · rw [Nat.floor_eq_iff (by norm_num)]
    norm_num

end PNDL
