import Verif.Lemmas.Float

/-! Relative error calculus for nonnegative binary64 quantities, and normal forms of binary64 numbers. -/
namespace PNDL
open Spec

/-- `x` and `y` are nonnegative and within a factor `(1 - 2^-53)^-k` of each other. -/
def Near (k : ℕ) (x y : ℝ) : Prop := 0 ≤ x ∧ 0 ≤ y ∧ x * (1 - uround) ^ k ≤ y ∧ y * (1 - uround) ^ k ≤ x

theorem one_sub_uround_pos : 0 < 1 - uround := by rw [uround_eq]; norm_num
theorem one_sub_uround_le : 1 - uround ≤ 1 := by rw [uround_eq]; norm_num

namespace Near

theorem refl {x : ℝ} (h : 0 ≤ x) : Near 0 x x := ⟨h, h, by simp, by simp⟩

theorem mono {a b : ℕ} (hab : a ≤ b) {x y : ℝ} (h : Near a x y) : Near b x y := by
  obtain ⟨h1, h2, h3, h4⟩ := h
  have : (1 - uround) ^ b ≤ (1 - uround) ^ a := pow_le_pow_of_le_one one_sub_uround_pos.le one_sub_uround_le hab
  exact ⟨h1, h2, (mul_le_mul_of_nonneg_left this h1).trans h3, (mul_le_mul_of_nonneg_left this h2).trans h4⟩

theorem symm {a : ℕ} {x y : ℝ} (h : Near a x y) : Near a y x := ⟨h.2.1, h.1, h.2.2.2, h.2.2.1⟩

theorem trans {a b : ℕ} {x y z : ℝ} (h : Near a x y) (g : Near b y z) : Near (a + b) x z := by
  obtain ⟨h1, h2, h3, h4⟩ := h
  obtain ⟨g1, g2, g3, g4⟩ := g
  have pa : 0 ≤ (1 - uround) ^ a := pow_nonneg one_sub_uround_pos.le a
  have pb : 0 ≤ (1 - uround) ^ b := pow_nonneg one_sub_uround_pos.le b
  refine ⟨h1, g2, ?_, ?_⟩
  · rw [pow_add, ← mul_assoc]
    exact (mul_le_mul_of_nonneg_right h3 pb).trans g3
  · rw [pow_add, mul_comm ((1 - uround) ^ a), ← mul_assoc]
    exact (mul_le_mul_of_nonneg_right g4 pa).trans h4

theorem mul {a b : ℕ} {x y x' y' : ℝ} (h : Near a x y) (g : Near b x' y') : Near (a + b) (x * x') (y * y') := by
  obtain ⟨h1, h2, h3, h4⟩ := h
  obtain ⟨g1, g2, g3, g4⟩ := g
  have pa : 0 ≤ (1 - uround) ^ a := pow_nonneg one_sub_uround_pos.le a
  have pb : 0 ≤ (1 - uround) ^ b := pow_nonneg one_sub_uround_pos.le b
  refine ⟨mul_nonneg h1 g1, mul_nonneg h2 g2, ?_, ?_⟩
  · rw [pow_add, mul_mul_mul_comm]
    exact mul_le_mul h3 g3 (mul_nonneg g1 pb) h2
  · rw [pow_add, mul_mul_mul_comm]
    exact mul_le_mul h4 g4 (mul_nonneg g2 pb) h1

theorem add {a : ℕ} {x y x' y' : ℝ} (h : Near a x y) (g : Near a x' y') : Near a (x + x') (y + y') := by
  obtain ⟨h1, h2, h3, h4⟩ := h
  obtain ⟨g1, g2, g3, g4⟩ := g
  exact ⟨by linarith, by linarith, by rw [add_mul]; linarith, by rw [add_mul]; linarith⟩

theorem pos {a : ℕ} {x y : ℝ} (h : Near a x y) (hx : 0 < x) : 0 < y :=
  lt_of_lt_of_le (mul_pos hx (pow_pos one_sub_uround_pos a)) h.2.2.1

theorem inv {a : ℕ} {x y : ℝ} (h : Near a x y) (hx : 0 < x) : Near a x⁻¹ y⁻¹ := by
  have hy := h.pos hx
  obtain ⟨h1, h2, h3, h4⟩ := h
  refine ⟨(inv_pos.mpr hx).le, (inv_pos.mpr hy).le, ?_, ?_⟩
  · rw [le_inv_comm₀ (by exact mul_pos (inv_pos.mpr hx) (pow_pos one_sub_uround_pos a)) hy, mul_inv, inv_inv, ← div_eq_mul_inv,
      le_div_iff₀ (pow_pos one_sub_uround_pos a)]
    exact h4
  · rw [le_inv_comm₀ (by exact mul_pos (inv_pos.mpr hy) (pow_pos one_sub_uround_pos a)) hx, mul_inv, inv_inv, ← div_eq_mul_inv,
      le_div_iff₀ (pow_pos one_sub_uround_pos a)]
    exact h3

theorem div {a b : ℕ} {x y x' y' : ℝ} (h : Near a x y) (g : Near b x' y') (hx : 0 < x') : Near (a + b) (x / x') (y / y') := by
  rw [div_eq_mul_inv, div_eq_mul_inv]
  exact h.mul (g.inv hx)

theorem sqrt {k : ℕ} {x y : ℝ} (h : Near (2 * k) x y) : Near k (Real.sqrt x) (Real.sqrt y) := by
  obtain ⟨h1, h2, h3, h4⟩ := h
  have pk : 0 ≤ (1 - uround) ^ k := pow_nonneg one_sub_uround_pos.le k
  have e : Real.sqrt ((1 - uround) ^ (2 * k)) = (1 - uround) ^ k := by
    rw [mul_comm, pow_mul, Real.sqrt_sq pk]
  refine ⟨Real.sqrt_nonneg _, Real.sqrt_nonneg _, ?_, ?_⟩
  · rw [← e, ← Real.sqrt_mul h1]
    exact Real.sqrt_le_sqrt h3
  · rw [← e, ← Real.sqrt_mul h2]
    exact Real.sqrt_le_sqrt h4

/-- Lower bound of the perturbed quantity. -/
theorem half_le {k : ℕ} (hk : k ≤ 100) {x y c : ℝ} (h : Near k x y) (hc : c ≤ x) : c / 2 ≤ y := by
  refine le_trans ?_ h.2.2.1
  have h1 : (1 - uround) ^ 100 ≤ (1 - uround) ^ k := pow_le_pow_of_le_one one_sub_uround_pos.le one_sub_uround_le hk
  have h2 : 1 + (100 : ℕ) * (-uround) ≤ (1 + -uround) ^ 100 := one_add_mul_le_pow (by rw [uround_eq]; norm_num) 100
  have h3 : (1 : ℝ) / 2 ≤ 1 + (100 : ℕ) * (-uround) := by rw [uround_eq]; norm_num
  rw [← sub_eq_add_neg] at h2
  have h4 : (1 : ℝ) / 2 ≤ (1 - uround) ^ k := h3.trans (h2.trans h1)
  have h5 := mul_le_mul_of_nonneg_left h4 h.1
  linarith

theorem error {k : ℕ} (hk : k ≤ 12) {x y : ℝ} (h : Near k x y) : |y - x| ≤ (2 : ℝ) ^ (-49 : ℤ) * x := by
  have h' := h.mono hk
  obtain ⟨h1, h2, h3, h4⟩ := h'
  have hb : (1 : ℝ) - (2 : ℝ) ^ (-49 : ℤ) ≤ (1 - uround) ^ 12 ∧ 1 ≤ (1 - uround) ^ 12 * (1 + (2 : ℝ) ^ (-49 : ℤ)) := by
    rw [uround_eq]; norm_num
  have hp := pow_pos one_sub_uround_pos 12
  have h5 : (1 - (2 : ℝ) ^ (-49 : ℤ)) * x ≤ y := by
    have := mul_le_mul_of_nonneg_left hb.1 h1
    linarith
  have h6 : y ≤ (1 + (2 : ℝ) ^ (-49 : ℤ)) * x := by
    have a1 := mul_le_mul_of_nonneg_left hb.2 h2
    have a2 : y * ((1 - uround) ^ 12 * (1 + (2 : ℝ) ^ (-49 : ℤ))) = y * (1 - uround) ^ 12 * (1 + (2 : ℝ) ^ (-49 : ℤ)) := by ring
    have a3 := mul_le_mul_of_nonneg_right h4 (show (0 : ℝ) ≤ 1 + (2 : ℝ) ^ (-49 : ℤ) by positivity)
    linarith
  rw [abs_le]
  constructor <;> linarith

end Near

section
variable {fl : ℝ → ℝ} (hfl : IsRoundToNearest fl)
include hfl

theorem near_of_error {r : ℝ} (h0 : 0 ≤ r) (h : |fl r - r| ≤ uround * |r|) : Near 1 r (fl r) := by
  have hu := uround_pos
  rw [abs_of_nonneg h0, abs_le] at h
  refine ⟨h0, fl_nonneg hfl h0, ?_, ?_⟩
  · rw [pow_one]; linarith [h.1]
  · rw [pow_one]
    have := mul_le_mul_of_nonneg_right (show fl r ≤ r + uround * r by linarith [h.2]) one_sub_uround_pos.le
    nlinarith [mul_nonneg (mul_nonneg hu.le hu.le) h0]

/-- One rounding, away from underflow. -/
theorem near_fl {r : ℝ} (h : r = 0 ∨ (2 : ℝ) ^ (-1022 : ℤ) ≤ r) : Near 1 r (fl r) := by
  rcases h with rfl | h
  · rw [fl_self hfl isDouble_zero]
    exact (Near.refl le_rfl).mono (by norm_num)
  · have h0 : 0 < r := lt_of_lt_of_le (by positivity) h
    refine near_of_error hfl h0.le ((fl_error hfl r).2 ?_)
    rw [abs_of_pos h0]
    refine le_trans (le_of_eq ?_) h
    unfold eta
    rw [← zpow_natCast, ← zpow_add₀ (by norm_num)]
    norm_num

/-- One rounded sum. -/
theorem near_add {a b : ℝ} (ha : IsDouble a) (hb : IsDouble b) (h0 : 0 ≤ a + b) : Near 1 (a + b) (fl (a + b)) :=
  near_of_error hfl h0 (fl_add_error hfl ha hb)

end

/-- Normal form. -/
theorem double_normal {c : ℝ} (h : IsDouble c) (hc : (2 : ℝ) ^ (-1022 : ℤ) ≤ c) : ∃ (m : ℤ) (e : ℕ), 2 ^ 52 ≤ m ∧ m < 2 ^ 53 ∧ c = m * 2 ^ e * eta := by
  obtain ⟨m, e, hm, rfl⟩ := isDouble_iff.mp h
  have hη := eta_pos
  have heta : (2 : ℝ) ^ (-1022 : ℤ) = 2 ^ 52 * eta := by
    unfold eta
    rw [← zpow_natCast, ← zpow_add₀ (by norm_num)]
    norm_num
  rw [heta] at hc
  have hme : (2 : ℝ) ^ 52 ≤ m * 2 ^ e := le_of_mul_le_mul_right hc hη
  have hme' : (2 : ℤ) ^ 52 ≤ m * 2 ^ e := by exact_mod_cast hme
  have hmpos : 0 < m := by
    by_contra hn
    have : m * 2 ^ e ≤ 0 := mul_nonpos_of_nonpos_of_nonneg (by omega) (by positivity)
    omega
  rw [abs_of_pos hmpos] at hm
  obtain ⟨n, rfl⟩ : ∃ n : ℕ, m = n := ⟨m.toNat, by omega⟩
  have hn0 : n ≠ 0 := by omega
  have hlog1 := Nat.pow_log_le_self 2 hn0
  have hlog2 := Nat.lt_pow_succ_log_self (b := 2) (by norm_num) n
  have hl52 : Nat.log 2 n ≤ 52 := by
    by_contra hc
    have : 2 ^ 53 ≤ 2 ^ Nat.log 2 n := Nat.pow_le_pow_right (by norm_num) (by omega)
    have : n < 2 ^ 53 := by exact_mod_cast hm
    omega
  obtain ⟨k, hk⟩ : ∃ k, k + Nat.log 2 n = 52 := ⟨52 - Nat.log 2 n, by omega⟩
  have hke : k ≤ e := by
    by_contra hc
    have h1 : 2 ^ e ≤ 2 ^ (k - 1) := Nat.pow_le_pow_right (by norm_num) (by omega)
    have h2 : n * 2 ^ e < 2 ^ (Nat.log 2 n + 1) * 2 ^ (k - 1) := Nat.mul_lt_mul_of_lt_of_le hlog2 h1 (by positivity)
    rw [← pow_add, show Nat.log 2 n + 1 + (k - 1) = 52 by omega] at h2
    have : 2 ^ 52 ≤ n * 2 ^ e := by exact_mod_cast hme'
    omega
  obtain ⟨j, rfl⟩ : ∃ j, e = k + j := ⟨e - k, by omega⟩
  refine ⟨n * 2 ^ k, j, ?_, ?_, ?_⟩
  · have : 2 ^ 52 ≤ n * 2 ^ k := by
      rw [← hk, pow_add, mul_comm]
      exact Nat.mul_le_mul_right _ hlog1
    exact_mod_cast this
  · have : n * 2 ^ k < 2 ^ 53 := by
      have := Nat.mul_lt_mul_of_pos_right hlog2 (show 0 < 2 ^ k by positivity)
      rwa [← pow_add, show Nat.log 2 n + 1 + k = 53 by omega] at this
    exact_mod_cast this
  · push_cast
    rw [pow_add]
    ring

end PNDL
