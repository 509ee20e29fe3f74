import Verif.Props.FloatBase

/-! Arithmetic on cosines in binary64. -/
namespace PNDL
open Spec

theorem double_neg_iff {x : ℝ} : IsDouble (-x) ↔ IsDouble x := ⟨fun h => by simpa using h.neg, fun h => h.neg⟩

/-- Numbers of magnitude at least `2^z` are multiples of `2^(z-52)`. -/
theorem double_multiple {d : ℝ} (hd : IsDouble d) {z : ℤ} (h : (2 : ℝ) ^ z ≤ |d|) : ∃ k : ℤ, d = k * (2 : ℝ) ^ (z - 52) := by
  obtain ⟨m, e, hm, rfl⟩ := isDouble_iff.mp hd
  have hm' : |(m : ℝ)| < 2 ^ 53 := by exact_mod_cast hm
  have he : (2 : ℝ) ^ e * eta = (2 : ℝ) ^ ((e : ℤ) - 1074) := by
    unfold eta
    rw [← zpow_natCast, ← zpow_add₀ (by norm_num)]
    rfl
  rw [mul_assoc, he] at h ⊢
  rw [abs_mul, abs_of_pos (show (0 : ℝ) < 2 ^ ((e : ℤ) - 1074) by positivity)] at h
  have h1 : (2 : ℝ) ^ z < 2 ^ ((53 : ℤ) + ((e : ℤ) - 1074)) := by
    refine h.trans_lt ?_
    rw [zpow_add₀ (by norm_num)]
    refine mul_lt_mul_of_pos_right ?_ (by positivity)
    exact_mod_cast hm'
  have h2 := (zpow_lt_zpow_iff_right₀ (show (1 : ℝ) < 2 by norm_num)).mp h1
  obtain ⟨n, hn⟩ : ∃ n : ℕ, (e : ℤ) - 1074 = n + (z - 52) := ⟨((e : ℤ) - 1074 - (z - 52)).toNat, by omega⟩
  refine ⟨m * 2 ^ n, ?_⟩
  rw [hn, zpow_add₀ (by norm_num)]
  push_cast
  rw [zpow_natCast]
  ring

theorem double_multiple_one {d : ℝ} (hd : IsDouble d) (h : 1 ≤ |d|) : ∃ k : ℤ, d = k * (2 * uround) := by
  obtain ⟨k, hk⟩ := double_multiple hd (z := 0) (by simpa using h)
  refine ⟨k, ?_⟩
  rw [hk, uround_eq]
  norm_num

theorem double_multiple_half {d : ℝ} (hd : IsDouble d) (h : 1 / 2 ≤ |d|) : ∃ k : ℤ, d = k * uround := by
  obtain ⟨k, hk⟩ := double_multiple hd (z := -1) (by simpa using h)
  refine ⟨k, ?_⟩
  rw [hk, uround_eq]
  norm_num

section
variable {fl : ℝ → ℝ} (hfl : IsRoundToNearest fl)
include hfl

/-- Rounding errs by at most half a step of the grid. -/
theorem near_grid {z : ℤ} (hz : -1074 ≤ z) {y : ℝ} (h : |y| ≤ 2 ^ 53 * (2 : ℝ) ^ z) : |fl y - y| ≤ (2 : ℝ) ^ z / 2 := by
  have hp : (0 : ℝ) < 2 ^ z := by positivity
  obtain ⟨k, hk⟩ : ∃ k : ℤ, k = round (y / 2 ^ z) := ⟨_, rfl⟩
  have h1 := abs_sub_round (y / (2 : ℝ) ^ z)
  rw [← hk] at h1
  have hq : |y / (2 : ℝ) ^ z| ≤ 2 ^ 53 := by
    rw [abs_div, abs_of_pos hp, div_le_iff₀ hp]
    exact h
  have hk53 : |k| ≤ 2 ^ 53 := by
    obtain ⟨a, b⟩ := abs_le.mp hq
    obtain ⟨c, d⟩ := abs_le.mp h1
    have a1 : (k : ℝ) < ((2 ^ 53 + 1 : ℤ) : ℝ) := by push_cast; linarith
    have a2 : ((-(2 ^ 53 + 1) : ℤ) : ℝ) < k := by push_cast; linarith
    have a1 : k < 2 ^ 53 + 1 := by exact_mod_cast a1
    have a2 : -(2 ^ 53 + 1) < k := by exact_mod_cast a2
    rw [abs_le]
    omega
  refine ((hfl y).2 _ (isDouble_zpow hk53 hz)).trans ?_
  have : (k : ℝ) * 2 ^ z - y = -((y / 2 ^ z - k) * 2 ^ z) := by field_simp; ring
  rw [this, abs_neg, abs_mul, abs_of_pos hp]
  nlinarith

theorem near_unit {y : ℝ} (h : |y| ≤ 1) : |fl y - y| ≤ uround / 2 := by
  have := near_grid hfl (z := -53) (by norm_num) (y := y) (by norm_num; exact h)
  rw [uround_eq]
  norm_num at this ⊢
  exact this

theorem near_two {y : ℝ} (h : |y| ≤ 2) : |fl y - y| ≤ uround := by
  have := near_grid hfl (z := -52) (by norm_num) (y := y) (by norm_num; exact h)
  rw [uround_eq]
  norm_num at this ⊢
  exact this

/-- A cosine less one rounding still rounds to a cosine. -/
theorem low_end (hT : fl (-1 - uround) = -1) {y : ℝ} (h : -1 - uround ≤ y) : -1 ≤ fl y := by
  rw [← hT]
  exact fl_mono hfl h

/-- The interpolated cosine is not below `-1`. -/
theorem mix_low (hT : fl (-1 - uround) = -1) {a b f : ℝ} (a0 : -1 ≤ a) (a1 : a ≤ 1) (b0 : -1 ≤ b) (f0 : 0 ≤ f)
    (f1 : f ≤ 1) : -1 ≤ endFl fl f a b := by
  have hu := uround_pos
  unfold endFl
  refine low_end hfl hT ?_
  have hD : fl (-1 - a) ≤ fl (b - a) := fl_mono hfl (by linarith)
  have hne : fl (-1 - a) ≤ 0 := fl_nonpos hfl (by linarith)
  have hP : fl (-1 - a) ≤ fl (f * fl (b - a)) := by
    refine le_fl hfl (hfl _).1 ?_
    nlinarith
  have hn := abs_le.mp (near_two hfl (y := -1 - a) (by rw [abs_le]; constructor <;> linarith))
  linarith [hn.1]

omit hfl in
private theorem mul_small {f g x c : ℝ} (f0 : 0 ≤ f) (fg : f ≤ g) (hc : 0 ≤ c) (h : |x| ≤ c) : |f * x| ≤ g * c := by
  rw [abs_mul, abs_of_nonneg f0]
  exact mul_le_mul fg h (abs_nonneg x) (f0.trans fg)

set_option maxHeartbeats 800000 in
/-- At the end of the range, the difference of two interpolated cosines that should not increase is at most two roundings. -/
theorem mix_cross_end {a b a' b' f : ℝ} (da : IsDouble a) (db : IsDouble b) (da' : IsDouble a') (db' : IsDouble b') (df : IsDouble f)
    (a0 : -1 ≤ a') (aa : a' ≤ a) (a1 : a ≤ 1) (b0 : -1 ≤ b') (bb : b' ≤ b) (b1 : b ≤ 1) (f0 : 0 ≤ f) (f1 : f ≤ 1)
    (h : a + fl (f * fl (b - a)) ≤ -1 + uround / 2) : a' + fl (f * fl (b' - a')) < -1 + 5 / 2 * uround := by
  have hu := uround_pos
  have hN : uround * 2 ^ 53 = 1 := by rw [uround_eq]; norm_num
  have hsm : uround ≤ 1 / 1000 := by rw [uround_eq]; norm_num
  by_contra hc
  rw [not_lt] at hc
  have hD := near_two hfl (y := b - a) (by rw [abs_le]; constructor <;> linarith)
  have hD' := near_two hfl (y := b' - a') (by rw [abs_le]; constructor <;> linarith)
  have dD := (hfl (b - a)).1
  have dD' := (hfl (b' - a')).1
  have two : IsDouble (2 : ℝ) := by simpa using isDouble_nat (n := 2) (by norm_num)
  have hD2 : |fl (b - a)| ≤ 2 := abs_le.mpr ⟨le_fl hfl two.neg (by linarith), fl_le hfl two (by linarith)⟩
  have hD2' : |fl (b' - a')| ≤ 2 := abs_le.mpr ⟨le_fl hfl two.neg (by linarith), fl_le hfl two (by linarith)⟩
  have hneg : a ≤ 0 → b - a ≤ 1 → |fl (b - a) - (b - a)| ≤ uround / 2 ∧ |fl (b - a)| ≤ 1 := fun h1 h2 =>
    ⟨near_unit hfl (abs_le.mpr ⟨by linarith, h2⟩), abs_le.mpr ⟨le_fl hfl isDouble_one.neg (by linarith), fl_le hfl isDouble_one h2⟩⟩
  have hneg' : a' ≤ 0 → b' - a' ≤ 1 → |fl (b' - a') - (b' - a')| ≤ uround / 2 ∧ |fl (b' - a')| ≤ 1 := fun h1 h2 =>
    ⟨near_unit hfl (abs_le.mpr ⟨by linarith, h2⟩), abs_le.mpr ⟨le_fl hfl isDouble_one.neg (by linarith), fl_le hfl isDouble_one h2⟩⟩
  have hone : f = 1 → fl (f * fl (b - a)) = fl (b - a) ∧ fl (f * fl (b' - a')) = fl (b' - a') := by
    rintro rfl
    rw [one_mul, one_mul]
    exact ⟨fl_self hfl dD, fl_self hfl dD'⟩
  -- equal starting points
  have hlt : a' < a := by
    rcases eq_or_lt_of_le aa with e | e
    · rw [e] at hc
      have : fl (f * fl (b' - a)) ≤ fl (f * fl (b - a)) :=
        fl_mono hfl (mul_le_mul_of_nonneg_left (fl_mono hfl (by linarith)) f0)
      linarith
    · exact e
  obtain ⟨D, hDe⟩ : ∃ D, D = fl (b - a) := ⟨_, rfl⟩
  obtain ⟨D', hDe'⟩ : ∃ D', D' = fl (b' - a') := ⟨_, rfl⟩
  have hP := near_two hfl (y := f * D) (by
    rw [hDe]
    simpa using mul_small f0 f1 zero_le_two hD2)
  have hP' := near_two hfl (y := f * D') (by
    rw [hDe']
    simpa using mul_small f0 f1 zero_le_two hD2')
  have hPu : |f * D| ≤ 1 → |fl (f * D) - f * D| ≤ uround / 2 := fun h => near_unit hfl h
  have hPu' : |f * D'| ≤ 1 → |fl (f * D') - f * D'| ≤ uround / 2 := fun h => near_unit hfl h
  have dP := (hfl (f * D)).1
  rw [← hDe] at hD dD hD2 hneg hone h
  rw [← hDe'] at hD' dD' hD2' hneg' hone hc
  obtain ⟨P, hPe⟩ : ∃ P, P = fl (f * D) := ⟨_, rfl⟩
  obtain ⟨P', hPe'⟩ : ∃ P', P' = fl (f * D') := ⟨_, rfl⟩
  rw [← hPe] at hP hPu hone h dP
  rw [← hPe'] at hP' hPu' hone hc
  have sq : f * (b' - b) ≤ 0 := mul_nonpos_of_nonneg_of_nonpos f0 (by linarith)
  have sm : ∀ {x : ℝ}, |x| ≤ 1 → |f * x| ≤ 1 := fun {x} hx => by simpa using mul_small f0 f1 zero_le_one hx
  rcases le_or_gt f (1 / 2) with hf | hf
  · have k1 := abs_le.mp (hPu (by simpa using mul_small f0 hf zero_le_two hD2))
    have k2 := abs_le.mp (hPu' (by simpa using mul_small f0 hf zero_le_two hD2'))
    obtain ⟨k3, k4⟩ := abs_le.mp hD
    obtain ⟨k5, k6⟩ := abs_le.mp hD'
    have m1 := (abs_le.mp (mul_small f0 hf hu.le hD')).2
    have m2 := (abs_le.mp (mul_small f0 hf hu.le hD)).1
    have sa : (1 - f) * (a' - a) < 0 := mul_neg_of_pos_of_neg (by linarith) (by linarith)
    linarith [k1.1, k2.2]
  · obtain ⟨k1, k2⟩ := abs_le.mp hP
    obtain ⟨k3, k4⟩ := abs_le.mp hD
    have m2 := (abs_le.mp (mul_small f0 f1 hu.le hD)).1
    have g1 : 0 ≤ (1 - f) * (a + 1) := mul_nonneg (by linarith) (by linarith)
    have g2 : 0 ≤ (f - 1 / 2) * (b + 1) := mul_nonneg (by linarith) (by linarith)
    have hb5 : b + 1 ≤ 5 * uround := by linarith
    rcases le_or_gt a 0 with ha | ha
    · obtain ⟨n1, n2⟩ := hneg ha (by linarith)
      obtain ⟨n3, n4⟩ := hneg' (by linarith) (by linarith)
      obtain ⟨n1a, n1b⟩ := abs_le.mp n1
      obtain ⟨n3a, n3b⟩ := abs_le.mp n3
      rcases eq_or_lt_of_le f1 with hf1 | hf1
      · obtain ⟨q1, q2⟩ := hone hf1
        linarith
      · have k1 := abs_le.mp (hPu (sm n2))
        have k2 := abs_le.mp (hPu' (sm n4))
        have m1 := (abs_le.mp (mul_small f0 f1 (by linarith) n3)).2
        have m2 := (abs_le.mp (mul_small f0 f1 (by linarith) n1)).1
        have sa : (1 - f) * (a' - a) < 0 := mul_neg_of_pos_of_neg (by linarith) (by linarith)
        linarith [k1.1, k2.2]
    · -- the difference exceeds one
      have hP1 : 1 ≤ -P := by
        by_contra hn
        have := double_below_one dP.neg (not_le.mp hn)
        linarith
      have hD0 : D ≤ 0 := by
        by_contra hn
        have : 0 ≤ P := by rw [hPe]; exact fl_nonneg hfl (mul_nonneg f0 (not_le.mp hn).le)
        linarith
      have hDP : D ≤ P := by rw [hPe]; exact le_fl hfl dD (by have := mul_nonneg (sub_nonneg.mpr f1) (neg_nonneg.mpr hD0); linarith)
      obtain ⟨i, hi⟩ := double_multiple_one dP (by rw [abs_of_nonpos (by linarith)]; exact hP1)
      obtain ⟨j, hj⟩ := double_multiple_one dD (by rw [abs_of_nonpos hD0]; linarith)
      have hij : i = j := by
        have e1 : (i : ℝ) < ((j + 1 : ℤ) : ℝ) := by
          push_cast
          have : P - D ≤ 3 / 2 * uround := by linarith
          rw [hi, hj] at this
          have : ((i : ℝ) - (j + 1)) * (2 * uround) < 0 := by linarith
          linarith [neg_of_mul_neg_left this (by linarith)]
        have e2 : (j : ℝ) ≤ i := by
          rw [hi, hj] at hDP
          exact le_of_mul_le_mul_right hDP (by linarith)
        have e1 : i < j + 1 := by exact_mod_cast e1
        have e2 : j ≤ i := by exact_mod_cast e2
        omega
      have hPD : P = D := by rw [hi, hj, hij]
      have hf1 : f = 1 := by
        by_contra hn
        have hf2 := double_below_one df (lt_of_le_of_ne f1 hn)
        rcases eq_or_lt_of_le hP1 with e | e
        · have := (abs_le.mp (hPu (by rw [abs_mul, abs_of_nonneg f0, ← hPD, abs_of_nonpos (by linarith), ← e]; linarith))).1
          have eP : P = -1 := by linarith
          rw [← hPD, eP] at this
          linarith
        · rw [hPD] at k1 e
          have : 0 < (1 - uround - f) * -D + uround * (-D - 1) :=
            add_pos_of_nonneg_of_pos (mul_nonneg (by linarith) (by linarith)) (mul_pos hu (by linarith))
          linarith
      obtain ⟨q1, q2⟩ := hone hf1
      obtain ⟨k5, k6⟩ := abs_le.mp hD'
      obtain ⟨c, hcb⟩ := double_multiple_half db (by rw [abs_of_nonpos (by linarith)]; linarith)
      have hlim : b ≤ -1 + uround := by
        have e1 : (c : ℝ) < ((-2 ^ 53 + 2 : ℤ) : ℝ) := by
          push_cast
          have : b ≤ -1 + 3 / 2 * uround := by linarith
          rw [hcb] at this
          have : ((c : ℝ) - (-2 ^ 53 + 2)) * uround < 0 := by linarith
          linarith [neg_of_mul_neg_left this hu.le]
        have e1 : c < -2 ^ 53 + 2 := by exact_mod_cast e1
        have e2 : (c : ℝ) ≤ ((-2 ^ 53 + 1 : ℤ) : ℝ) := by exact_mod_cast (show c ≤ -2 ^ 53 + 1 by omega)
        push_cast at e2
        rw [hcb]
        have := mul_le_mul_of_nonneg_right e2 hu.le
        linarith
      linarith

/-- Anywhere, it is less than four roundings before the last one. -/
theorem mix_cross_any {a b a' b' f : ℝ} (a0 : -1 ≤ a') (aa : a' ≤ a) (a1 : a ≤ 1) (b0 : -1 ≤ b') (bb : b' ≤ b) (b1 : b ≤ 1) (f0 : 0 ≤ f)
    (f1 : f ≤ 1) : (a' + fl (f * fl (b' - a'))) - (a + fl (f * fl (b - a))) < 4 * uround ∧
    |a + fl (f * fl (b - a))| ≤ 1 + 3 * uround ∧ |a' + fl (f * fl (b' - a'))| ≤ 1 + 3 * uround := by
  have hu := uround_pos
  have hD := near_two hfl (y := b - a) (by rw [abs_le]; constructor <;> linarith)
  have hD' := near_two hfl (y := b' - a') (by rw [abs_le]; constructor <;> linarith)
  have two : IsDouble (2 : ℝ) := by simpa using isDouble_nat (n := 2) (by norm_num)
  have hD2 : |fl (b - a)| ≤ 2 := abs_le.mpr ⟨le_fl hfl two.neg (by linarith), fl_le hfl two (by linarith)⟩
  have hD2' : |fl (b' - a')| ≤ 2 := abs_le.mpr ⟨le_fl hfl two.neg (by linarith), fl_le hfl two (by linarith)⟩
  have hP := near_two hfl (y := f * fl (b - a)) (by simpa using mul_small f0 f1 zero_le_two hD2)
  have hP' := near_two hfl (y := f * fl (b' - a')) (by simpa using mul_small f0 f1 zero_le_two hD2')
  have m1 := abs_le.mp (mul_small f0 f1 hu.le hD')
  have m2 := abs_le.mp (mul_small f0 f1 hu.le hD)
  have k1 := abs_le.mp hP
  have k2 := abs_le.mp hP'
  have g1 : 0 ≤ (1 - f) * (a + 1) := mul_nonneg (by linarith) (by linarith)
  have g2 : 0 ≤ (1 - f) * (a' + 1) := mul_nonneg (by linarith) (by linarith)
  have g3 : 0 ≤ (1 - f) * (1 - a) := mul_nonneg (by linarith) (by linarith)
  have g4 : 0 ≤ (1 - f) * (1 - a') := mul_nonneg (by linarith) (by linarith)
  have g5 : 0 ≤ f * (b + 1) := mul_nonneg f0 (by linarith)
  have g6 : 0 ≤ f * (b' + 1) := mul_nonneg f0 (by linarith)
  have g7 : 0 ≤ f * (1 - b) := mul_nonneg f0 (by linarith)
  have g8 : 0 ≤ f * (1 - b') := mul_nonneg f0 (by linarith)
  have sq : f * (b' - b) ≤ 0 := mul_nonpos_of_nonneg_of_nonpos f0 (by linarith)
  refine ⟨?_, abs_le.mpr ⟨by linarith [k1.1, m2.1], by linarith [k1.2, m2.2]⟩, abs_le.mpr ⟨by linarith [k2.1, m1.1], by linarith [k2.2, m1.2]⟩⟩
  rcases eq_or_lt_of_le aa with e | e
  · subst e
    have : fl (f * fl (b' - a')) ≤ fl (f * fl (b - a')) := fl_mono hfl (mul_le_mul_of_nonneg_left (fl_mono hfl (by linarith)) f0)
    linarith
  · rcases eq_or_lt_of_le f1 with e1 | e1
    · subst e1
      rw [one_mul, one_mul, fl_self hfl (hfl _).1, fl_self hfl (hfl _).1]
      have := abs_le.mp hD
      have := abs_le.mp hD'
      linarith
    · have sa : (1 - f) * (a' - a) < 0 := mul_neg_of_pos_of_neg (by linarith) (by linarith)
      linarith [k1.1, k2.2, m1.2, m2.1]

/-- Interpolated cosines that should not decrease decrease by little, and hardly at the end of the range. -/
theorem mix_cross {a b a' b' f : ℝ} (da : IsDouble a) (db : IsDouble b) (da' : IsDouble a') (db' : IsDouble b') (df : IsDouble f)
    (a0 : -1 ≤ a') (aa : a' ≤ a) (a1 : a ≤ 1) (b0 : -1 ≤ b') (bb : b' ≤ b) (b1 : b ≤ 1) (f0 : 0 ≤ f) (f1 : f ≤ 1)
    (h : -1 ≤ endFl fl f a b) : endFl fl f a' b' - endFl fl f a b ≤ 2 * (endFl fl f a b + 1) + 2 * uround ∧
    endFl fl f a' b' - endFl fl f a b ≤ 6 * uround := by
  have hu := uround_pos
  have hN : uround * 2 ^ 53 = 1 := by rw [uround_eq]; norm_num
  have hsm : uround ≤ 1 / 1000 := by rw [uround_eq]; norm_num
  have hend := mix_cross_end hfl da db da' db' df a0 aa a1 b0 bb b1 f0 f1
  obtain ⟨h1, h2, h3⟩ := mix_cross_any hfl a0 aa a1 b0 bb b1 f0 f1
  unfold endFl at h ⊢
  obtain ⟨y, hy⟩ : ∃ y, y = a + fl (f * fl (b - a)) := ⟨_, rfl⟩
  obtain ⟨y', hy'⟩ : ∃ y', y' = a' + fl (f * fl (b' - a')) := ⟨_, rfl⟩
  rw [← hy] at h1 h2 hend h ⊢
  rw [← hy'] at h1 h3 hend ⊢
  have e1 := abs_le.mp (near_two hfl (y := y) (by linarith))
  have e2 := abs_le.mp (near_two hfl (y := y') (by linarith))
  have six : fl y' - fl y ≤ 6 * uround := by linarith [e1.1, e2.2]
  refine ⟨?_, six⟩
  rcases le_or_gt (-1 + 2 * uround) (fl y) with hm | hm
  · linarith
  · obtain ⟨k, hk⟩ := double_multiple_half (hfl y).1 (by rw [abs_of_nonpos (by linarith)]; linarith)
    have hy1 : y ≤ fl y + uround / 2 := by
      rcases le_or_gt (-1) y with q | q
      · rcases le_or_gt y 1 with q1 | q1
        · linarith [(abs_le.mp (near_unit hfl (abs_le.mpr ⟨q, q1⟩))).1]
        · linarith [le_fl hfl isDouble_one q1.le]
      · linarith
    have hy1' : fl y' ≤ y' + uround / 2 ∨ fl y' ≤ -1 := by
      rcases le_or_gt (-1) y' with q | q
      · rcases le_or_gt y' 1 with q1 | q1
        · exact Or.inl (by linarith [(abs_le.mp (near_unit hfl (abs_le.mpr ⟨q, q1⟩))).2])
        · linarith [le_fl hfl isDouble_one q1.le]
      · exact Or.inr (fl_le hfl isDouble_one.neg q.le)
    rcases hy1' with hy1' | hy1'
    swap
    · linarith
    have hkm : k = -2 ^ 53 ∨ k = -2 ^ 53 + 1 := by
      have t1 : ((-2 ^ 53 - 1 : ℤ) : ℝ) < k := by
        push_cast
        rw [hk] at h
        have : ((-2 ^ 53 - 1) - (k : ℝ)) * uround < 0 := by linarith
        linarith [neg_of_mul_neg_left this hu.le]
      have t2 : (k : ℝ) < ((-2 ^ 53 + 2 : ℤ) : ℝ) := by
        push_cast
        rw [hk] at hm
        have : ((k : ℝ) - (-2 ^ 53 + 2)) * uround < 0 := by linarith
        linarith [neg_of_mul_neg_left this hu.le]
      have t1 : -2 ^ 53 - 1 < k := by exact_mod_cast t1
      have t2 : k < -2 ^ 53 + 2 := by exact_mod_cast t2
      omega
    obtain ⟨k', hk'⟩ := double_multiple_half (hfl y').1 (by rw [abs_of_nonpos (by linarith)]; linarith)
    have grid : ∀ n : ℤ, fl y' < -1 + (n + 1) * uround → fl y' ≤ -1 + n * uround := by
      intro n hn
      have t2 : (k' : ℝ) < ((-2 ^ 53 + n + 1 : ℤ) : ℝ) := by
        push_cast
        rw [hk'] at hn
        have : ((k' : ℝ) - (-2 ^ 53 + n + 1)) * uround < 0 := by linarith
        linarith [neg_of_mul_neg_left this hu.le]
      have t2 : k' < -2 ^ 53 + n + 1 := by exact_mod_cast t2
      have t3 : (k' : ℝ) ≤ ((-2 ^ 53 + n : ℤ) : ℝ) := by exact_mod_cast (show k' ≤ -2 ^ 53 + n by omega)
      push_cast at t3
      rw [hk']
      linarith [mul_le_mul_of_nonneg_right t3 hu.le]
    rcases hkm with rfl | rfl
    · have hv : fl y = -1 := by rw [hk]; push_cast; linarith
      have := hend (by rw [hv] at hy1; linarith)
      have := grid 2 (by push_cast; linarith)
      push_cast at this
      linarith
    · have hv : fl y = -1 + uround := by rw [hk]; push_cast; linarith
      have := grid 5 (by push_cast; linarith)
      push_cast at this
      linarith

/-- The distance to the mirror image of the first cosine is at most twice its distance from `-1`, up to two roundings. -/
theorem mirror_gap {m : ℝ} (dm : IsDouble m) (h0 : -1 ≤ m) (h1 : m ≤ 0) : fl (m - fl (-1 - fl (m + 1))) ≤ 2 * (m + 1) + 2 * uround := by
  have hu := uround_pos
  have hN : uround * 2 ^ 53 = 1 := by rw [uround_eq]; norm_num
  have hsm : uround ≤ 1 / 1000 := by rw [uround_eq]; norm_num
  have two : IsDouble (2 : ℝ) := by simpa using isDouble_nat (n := 2) (by norm_num)
  obtain ⟨a, ha⟩ : ∃ a, a = fl (m + 1) := ⟨_, rfl⟩
  obtain ⟨l, hl⟩ : ∃ l, l = fl (-1 - a) := ⟨_, rfl⟩
  obtain ⟨d, hd⟩ : ∃ d, d = fl (m - l) := ⟨_, rfl⟩
  rw [← ha, ← hl, ← hd]
  have a0 : 0 ≤ a := by rw [ha]; exact fl_nonneg hfl (by linarith)
  have a1 : a ≤ 1 := by rw [ha]; exact fl_le hfl isDouble_one (by linarith)
  have n1 := abs_le.mp (near_unit hfl (y := m + 1) (abs_le.mpr ⟨by linarith, by linarith⟩))
  have n2 := abs_le.mp (near_two hfl (y := -1 - a) (abs_le.mpr ⟨by linarith, by linarith⟩))
  rw [← ha] at n1
  rw [← hl] at n2
  have l1 : l ≤ -1 := by rw [hl]; exact fl_le hfl isDouble_one.neg (by linarith)
  have l2 : -2 ≤ l := by rw [hl]; exact le_fl hfl two.neg (by linarith)
  have n3 := abs_le.mp (near_two hfl (y := m - l) (abs_le.mpr ⟨by linarith, by linarith⟩))
  rw [← hd] at n3
  rcases le_or_gt m (-1 / 2) with hm | hm
  · obtain ⟨k, hk⟩ := double_multiple_half dm (by rw [abs_of_nonpos (by linarith)]; linarith)
    have hex : a = m + 1 := by
      rw [ha]
      refine fl_self hfl ?_
      have h2 : m + 1 = ((k + 2 ^ 53 : ℤ) : ℝ) * 2 ^ (-53 : ℤ) := by
        have : (2 : ℝ) ^ (-53 : ℤ) = uround := by rw [uround_eq]; norm_num
        rw [this, hk]
        push_cast
        linarith
      rw [h2]
      refine isDouble_zpow ?_ (by norm_num)
      have hp : (0 : ℝ) < 2 ^ (-53 : ℤ) := by positivity
      have t1 : (0 : ℝ) ≤ ((k + 2 ^ 53 : ℤ) : ℝ) := by
        by_contra hn
        have := mul_neg_of_neg_of_pos (not_le.mp hn) hp
        linarith
      have t2 : ((k + 2 ^ 53 : ℤ) : ℝ) ≤ ((2 ^ 53 : ℤ) : ℝ) := by
        refine le_of_mul_le_mul_right (a := (2 : ℝ) ^ (-53 : ℤ)) ?_ hp
        rw [← h2]
        norm_num
        linarith
      have t1 : 0 ≤ k + 2 ^ 53 := by exact_mod_cast t1
      have t2 : k + 2 ^ 53 ≤ 2 ^ 53 := by exact_mod_cast t2
      rw [abs_of_nonneg t1]
      exact t2
    linarith [n2.1, n3.2]
  · have ah : 1 / 2 ≤ a := by
      rw [ha]
      refine le_fl hfl ?_ (by linarith)
      have := isDouble_zpow (m := 1) (by norm_num) (z := -1) (by norm_num)
      norm_num at this ⊢
      exact this
    obtain ⟨A, hA⟩ := double_multiple_half (hfl (m + 1)).1 (by rw [← ha, abs_of_nonneg a0]; exact ah)
    obtain ⟨B, hB⟩ := double_multiple_one (hfl (-1 - a)).1 (by rw [← hl, abs_of_nonpos (by linarith)]; linarith)
    rw [← ha] at hA
    rw [← hl] at hB
    have d1 : 1 ≤ d := by
      rw [hd]
      exact le_fl hfl isDouble_one (by
        have : l ≤ -3 / 2 := by
          rw [hl]
          refine fl_le hfl ?_ (by linarith)
          have := isDouble_zpow (m := -3) (by norm_num) (z := -1) (by norm_num)
          norm_num at this ⊢
          convert this using 1
        linarith)
    obtain ⟨C, hC⟩ := double_multiple_one (hfl (m - l)).1 (by rw [← hd, abs_of_nonneg (by linarith)]; exact d1)
    rw [← hd] at hC
    -- everything in units of one rounding
    obtain ⟨r, hr⟩ : ∃ r : ℝ, r * uround = m := ⟨m / uround, by field_simp⟩
    have cancel : ∀ {x y : ℝ}, x * uround ≤ y * uround → x ≤ y := fun h => le_of_mul_le_mul_right h hu
    have c1 : (A : ℝ) - 2 ^ 53 - r ≤ 1 / 2 := cancel (by linarith [n1.2])
    have c2 : -(2 * (B : ℝ)) - 2 ^ 53 - A ≤ 1 := cancel (by linarith [n2.1])
    have c3 : -1 ≤ -(2 * (B : ℝ)) - 2 ^ 53 - A := cancel (by linarith [n2.2])
    have c4 : 2 * (C : ℝ) - r + 2 * B ≤ 1 := cancel (by linarith [n3.2])
    have c2 : -(2 * B) - 2 ^ 53 - A ≤ 1 := by exact_mod_cast c2
    have c3 : -1 ≤ -(2 * B) - 2 ^ 53 - A := by exact_mod_cast c3
    have goal : (C : ℝ) ≤ 2 ^ 53 + r + 1 := by
      rcases Int.even_or_odd' A with ⟨q, hq | hq⟩
      · have e : B = -2 ^ 52 - q := by omega
        rw [e] at c4
        rw [hq] at c1
        push_cast at c1 c4
        linarith
      · have e : B = -2 ^ 52 - q ∨ B = -2 ^ 52 - q - 1 := by omega
        rw [hq] at c1
        push_cast at c1
        rcases e with e | e
        · rw [e] at c4
          push_cast at c4
          linarith
        · rw [e] at c4
          push_cast at c4
          by_cases hq2 : (2 * (q : ℝ) + 1) ≤ 2 ^ 53 + r
          · linarith
          · have : (C : ℝ) < ((2 * q + 2 : ℤ) : ℝ) := by push_cast; linarith
            have : C < 2 * q + 2 := by exact_mod_cast this
            have : (C : ℝ) ≤ ((2 * q + 1 : ℤ) : ℝ) := by exact_mod_cast (show C ≤ 2 * q + 1 by omega)
            push_cast at this
            linarith
    have := mul_le_mul_of_nonneg_right goal hu.le
    rw [hC]
    linarith

/-- Half a number, rounded, is hardly more than the half. -/
theorem half_up {g c : ℝ} (dg : IsDouble g) (hc : 0 ≤ c) (h : g ≤ 2 * c + 2 * uround) : -c - uround ≤ fl (-(g / 2)) := by
  have hu := uround_pos
  have hη := eta_pos
  rcases dg.half with hd | ⟨k, hk, _, hgk⟩
  · rw [fl_self hfl hd.neg]
    linarith
  · have hg : g ≤ uround := by
      have h53 : (k : ℝ) < 2 ^ 53 := by exact_mod_cast (abs_lt.mp hk).2
      have h1 : (k : ℝ) * eta ≤ 2 ^ 53 * eta := mul_le_mul_of_nonneg_right h53.le hη.le
      have h2 : 2 ^ 53 * eta ≤ uround := by
        rw [uround_eq]
        unfold eta
        have : (2 : ℝ) ^ (-1074 : ℤ) ≤ 2 ^ (-106 : ℤ) := zpow_le_zpow_right₀ (by norm_num) (by norm_num)
        generalize (2 : ℝ) ^ (-1074 : ℤ) = q at *
        norm_num at this ⊢
        linarith
      rw [hgk]
      linarith
    rcases le_or_gt 0 g with g0 | g0
    · have := le_fl hfl dg.neg (r := -(g / 2)) (by linarith)
      linarith
    · have := fl_nonneg hfl (r := -(g / 2)) (by linarith)
      linarith

/-- The cosine smeared with the smaller gap is not below `-1`. -/
theorem smear_low (hT : fl (-1 - uround) = -1) {m lo hi x : ℝ} (dm : IsDouble m) (m0 : -1 ≤ m) (m1 : m ≤ 1) (x0 : -(1 / 2) ≤ x)
    (x1 : x ≤ 1 / 2)
    (hlo : (IsDouble lo ∧ -1 ≤ lo ∧ lo - m ≤ 2 * (m + 1) + 2 * uround ∧ lo - m ≤ 6 * uround) ∨ lo = fl (-1 - fl (m + 1)))
    (hhi : (-1 ≤ hi ∧ hi ≤ 1) ∨ hi = fl (1 - fl (m - 1))) : -1 ≤ fl (m + fl (min (fl (m - lo)) (fl (hi - m)) * x)) := by
  have hu := uround_pos
  have hN : uround * 2 ^ 53 = 1 := by rw [uround_eq]; norm_num
  have hsm : uround ≤ 1 / 1000 := by rw [uround_eq]; norm_num
  have two : IsDouble (2 : ℝ) := by simpa using isDouble_nat (n := 2) (by norm_num)
  refine low_end hfl hT ?_
  obtain ⟨g, hg⟩ : ∃ g, g = min (fl (m - lo)) (fl (hi - m)) := ⟨_, rfl⟩
  rw [← hg]
  have g1 : g ≤ fl (m - lo) := by rw [hg]; exact min_le_left _ _
  have g2 : g ≤ fl (hi - m) := by rw [hg]; exact min_le_right _ _
  have gc : g = fl (m - lo) ∨ g = fl (hi - m) := by rw [hg]; exact min_choice _ _
  have dg : IsDouble g := by rcases gc with h | h <;> rw [h] <;> exact (hfl _).1
  have er : |fl (m + 1) - (m + 1)| ≤ uround * |m + 1| := fl_add_error hfl dm isDouble_one
  rw [abs_of_nonneg (show 0 ≤ m + 1 by linarith)] at er
  have er := abs_le.mp er
  have half : ∀ {h : ℝ}, |h| ≤ 2 → h - uround ≤ fl h := fun h => by linarith [(abs_le.mp (near_two hfl h)).1]
  have p0 : 0 ≤ uround * (m + 1) := mul_nonneg hu.le (by linarith)
  have p1 : uround * (m + 1) ≤ (m + 1) := by nlinarith
  rcases le_or_gt 0 (g * x) with hp | hp
  · linarith [fl_nonneg hfl hp]
  · rcases le_or_gt 0 g with gp | gn
    · have hmono : fl (-(g / 2)) ≤ fl (g * x) := fl_mono hfl (by nlinarith)
      have small : g ≤ fl (m + 1) → -1 - uround ≤ m + fl (g * x) := by
        intro h
        have := half (h := -(g / 2)) (abs_le.mpr ⟨by linarith, by linarith⟩)
        linarith
      rcases hlo with ⟨_, h1, _, _⟩ | h1
      · exact small (g1.trans (fl_mono hfl (by linarith)))
      · rcases le_or_gt m 0 with hm | hm
        · rw [h1] at g1
          have := half_up hfl dg (c := m + 1) (by linarith) (g1.trans (mirror_gap hfl dm m0 hm))
          linarith
        · have h2 : fl (hi - m) ≤ 2 := fl_le hfl two (by
            rcases hhi with h | h
            · linarith
            · have a1 : -1 ≤ fl (m - 1) := le_fl hfl isDouble_one.neg (by linarith)
              have a2 : fl (1 - fl (m - 1)) ≤ 2 := fl_le hfl two (by linarith)
              rw [h]
              linarith)
          have := le_fl hfl isDouble_one.neg (r := -(g / 2)) (by linarith)
          linarith
    · have hmono : fl (g / 2) ≤ fl (g * x) := fl_mono hfl (by nlinarith)
      rcases gc with h | h
      · rcases hlo with ⟨dlo, l0, l1, l2⟩ | h1
        · have hz : |m - lo| ≤ 1 := by
            refine abs_le.mpr ⟨by linarith, ?_⟩
            by_contra hn
            have := fl_nonneg hfl (r := m - lo) (by linarith)
            linarith
          have n1 := abs_le.mp (near_unit hfl hz)
          rw [← h] at n1
          rcases le_or_gt (8 * uround) (m + 1) with hk | hk
          · have := half (h := g / 2) (abs_le.mpr ⟨by linarith, by linarith⟩)
            linarith
          · obtain ⟨k, hk⟩ := double_multiple_half dm (by rw [abs_of_nonpos (by linarith)]; linarith)
            obtain ⟨k', hk'⟩ := double_multiple_half dlo (by rw [abs_of_nonpos (by linarith)]; linarith)
            have hdz : ∀ z : ℤ, z = -53 ∨ z = -54 → IsDouble (((k - k' : ℤ) : ℝ) * 2 ^ z) := by
              intro z hz'
              refine isDouble_zpow ?_ (by omega)
              have t1 : ((-2 ^ 53 : ℤ) : ℝ) ≤ ((k - k' : ℤ) : ℝ) := by
                push_cast
                refine le_of_mul_le_mul_right (a := uround) ?_ hu
                linarith [(abs_le.mp hz).1]
              have t2 : ((k - k' : ℤ) : ℝ) ≤ ((2 ^ 53 : ℤ) : ℝ) := by
                push_cast
                refine le_of_mul_le_mul_right (a := uround) ?_ hu
                linarith [(abs_le.mp hz).2]
              exact abs_le.mpr ⟨by exact_mod_cast t1, by exact_mod_cast t2⟩
            have e53 : (2 : ℝ) ^ (-53 : ℤ) = uround := by rw [uround_eq]; norm_num
            have e54 : (2 : ℝ) ^ (-54 : ℤ) = uround / 2 := by rw [uround_eq]; norm_num
            have d1 := hdz _ (Or.inl rfl)
            have d2 := hdz _ (Or.inr rfl)
            rw [e53] at d1
            rw [e54] at d2
            have hge : g = m - lo := by
              rw [h]
              refine fl_self hfl ?_
              convert d1 using 1
              rw [hk, hk']
              push_cast
              ring
            have : fl (g / 2) = g / 2 := by
              refine fl_self hfl ?_
              convert d2 using 1
              rw [hge, hk, hk']
              push_cast
              ring
            linarith
        · exfalso
          have a1 := fl_nonneg hfl (r := m + 1) (by linarith)
          have a2 : fl (-1 - fl (m + 1)) ≤ -1 := fl_le hfl isDouble_one.neg (by linarith)
          have := fl_nonneg hfl (r := m - lo) (by rw [h1]; linarith)
          linarith
      · rcases hhi with ⟨h1, _⟩ | h1
        · have er2 : |fl (-1 - m) - (-1 - m)| ≤ uround * |-1 - m| := fl_sub_error hfl isDouble_one.neg dm
          rw [abs_of_nonpos (show -1 - m ≤ 0 by linarith)] at er2
          have er2 := abs_le.mp er2
          have := fl_mono hfl (show -1 - m ≤ hi - m by linarith)
          have := half (h := g / 2) (abs_le.mpr ⟨by linarith, by linarith⟩)
          linarith
        · exfalso
          have a1 := fl_nonpos hfl (r := m - 1) (by linarith)
          have a2 : 1 ≤ fl (1 - fl (m - 1)) := le_fl hfl isDouble_one (by linarith)
          have := fl_nonneg hfl (r := hi - m) (by rw [h1]; linarith)
          linarith

end
end PNDL
