import Verif.Lemmas.Linearize
import Verif.Spec.Linearize

/-! Binary64 arithmetic: rounding is monotone and has a relative error of at most `2^-53`. -/
namespace PNDL
open Spec

/-- The largest relative error of a rounding. -/
noncomputable def uround : ℝ := (2 : ℝ) ^ (-53 : ℤ)

theorem uround_pos : 0 < uround := by unfold uround; positivity

theorem uround_eq : uround = 1 / 2 ^ 53 := by unfold uround; norm_num

theorem isDouble_zero : IsDouble 0 := ⟨0, 0, by norm_num, by simp⟩

theorem Spec.IsDouble.neg {r : ℝ} (h : IsDouble r) : IsDouble (-r) := by
  obtain ⟨m, e, hm, rfl⟩ := h
  exact ⟨-m, e, by rwa [abs_neg], by push_cast; ring⟩

theorem isDouble_scaled {m : ℤ} (h : |m| ≤ 2 ^ 53) (e : ℕ) : IsDouble (m * 2 ^ e * eta) := by
  rcases lt_or_eq_of_le h with h | h
  · exact isDouble_iff.mpr ⟨m, e, h, rfl⟩
  · rcases eq_or_eq_neg_of_abs_eq h with rfl | rfl
    · exact isDouble_iff.mpr ⟨2 ^ 52, e + 1, by norm_num, by push_cast; ring⟩
    · exact isDouble_iff.mpr ⟨-2 ^ 52, e + 1, by norm_num, by push_cast; ring⟩

/-- An integer times a power of two. -/
theorem isDouble_zpow {m : ℤ} (h : |m| ≤ 2 ^ 53) {z : ℤ} (hz : -1074 ≤ z) : IsDouble (m * (2 : ℝ) ^ z) := by
  obtain ⟨e, he⟩ : ∃ e : ℕ, z = e + (-1074 : ℤ) := ⟨(z + 1074).toNat, by omega⟩
  have := isDouble_scaled h e
  unfold eta at this
  rwa [mul_assoc, ← zpow_natCast, ← zpow_add₀ (by norm_num), ← he] at this

theorem isDouble_int {m : ℤ} (h : |m| ≤ 2 ^ 53) : IsDouble m := by
  have := isDouble_zpow h (z := 0) (by norm_num)
  simpa using this

theorem isDouble_nat {n : ℕ} (h : n ≤ 2 ^ 53) : IsDouble n := by
  have := isDouble_int (m := n) (by rw [abs_of_nonneg (by positivity)]; exact_mod_cast h)
  simpa using this

theorem isDouble_one : IsDouble 1 := by simpa using isDouble_nat (n := 1) (by norm_num)

section
variable {fl : ℝ → ℝ} (hfl : IsRoundToNearest fl)
include hfl

theorem fl_mono {r s : ℝ} (h : r ≤ s) : fl r ≤ fl s := by
  by_contra hc
  rw [not_le] at hc
  have h1 := (hfl r).2 _ (hfl s).1
  have h2 := (hfl s).2 _ (hfl r).1
  have h3 : r = s := by
    have a1 : (fl r + fl s) / 2 ≤ r := by
      by_contra hx
      rw [not_le] at hx
      rw [abs_of_pos (show 0 < fl r - r by linarith)] at h1
      rcases abs_cases (fl s - r) with ⟨e, _⟩ | ⟨e, _⟩ <;> rw [e] at h1 <;> linarith
    have a2 : s ≤ (fl r + fl s) / 2 := by
      by_contra hx
      rw [not_le] at hx
      rw [abs_of_neg (show fl s - s < 0 by linarith)] at h2
      rcases abs_cases (fl r - s) with ⟨e, _⟩ | ⟨e, _⟩ <;> rw [e] at h2 <;> linarith
    linarith
  rw [h3] at hc
  exact lt_irrefl _ hc

theorem fl_nonneg {r : ℝ} (h : 0 ≤ r) : 0 ≤ fl r := le_fl hfl isDouble_zero h

theorem fl_nonpos {r : ℝ} (h : r ≤ 0) : fl r ≤ 0 := fl_le hfl isDouble_zero h

/-- The error of one rounding. -/
theorem fl_error (r : ℝ) : |fl r - r| ≤ uround * |r| + eta / 2 ∧ (2 ^ 52 * eta ≤ |r| → |fl r - r| ≤ uround * |r|) := by
  have hη := eta_pos
  have hu := uround_pos
  have near : ∀ e : ℕ, |r| ≤ 2 ^ 53 * 2 ^ e * eta → |fl r - r| ≤ 2 ^ e * eta / 2 := by
    intro e he
    have hs : (0 : ℝ) < 2 ^ e * eta := by positivity
    have hm : |round (r / (2 ^ e * eta))| ≤ 2 ^ 53 := by
      have hq : |r / (2 ^ e * eta)| ≤ 2 ^ 53 := by
        rw [abs_div, abs_of_pos hs, div_le_iff₀ hs]
        linarith
      rw [abs_le] at hq ⊢
      rw [round_eq]
      constructor
      · exact Int.le_floor.mpr (by push_cast; linarith [hq.1])
      · exact Int.lt_add_one_iff.mp (Int.floor_lt.mpr (by push_cast; linarith [hq.2]))
    have hd := (hfl r).2 _ (isDouble_scaled hm e)
    refine hd.trans ?_
    have hr := abs_sub_round (r / (2 ^ e * eta))
    have e1 : (round (r / (2 ^ e * eta)) : ℝ) * 2 ^ e * eta - r = (round (r / (2 ^ e * eta)) - r / (2 ^ e * eta)) * (2 ^ e * eta) := by
      field_simp
    rw [e1, abs_mul, abs_of_pos hs, abs_sub_comm]
    nlinarith
  have big : 2 ^ 52 * eta ≤ |r| → |fl r - r| ≤ uround * |r| := by
    intro h
    have hpos : 1 ≤ |r| / (2 ^ 52 * eta) := by rw [le_div_iff₀ (by positivity)]; linarith
    obtain ⟨e, h1, h2⟩ := exists_nat_pow_near hpos (show (1 : ℝ) < 2 by norm_num)
    rw [le_div_iff₀ (by positivity)] at h1
    rw [div_lt_iff₀ (by positivity), pow_succ] at h2
    refine (near e (by linarith)).trans ?_
    rw [uround_eq, div_mul_eq_mul_div, one_mul, le_div_iff₀ (by norm_num)]
    linarith
  refine ⟨?_, big⟩
  by_cases h : 2 ^ 52 * eta ≤ |r|
  · have := big h
    linarith
  · have := near 0 (by rw [pow_zero, mul_one]; linarith)
    rw [pow_zero, one_mul] at this
    have := mul_nonneg hu.le (abs_nonneg r)
    linarith

/-- Sums and differences of doubles have no underflow. -/
theorem fl_add_error {a b : ℝ} (ha : IsDouble a) (hb : IsDouble b) : |fl (a + b) - (a + b)| ≤ uround * |a + b| := by
  have hη := eta_pos
  by_cases h : 2 ^ 52 * eta ≤ |a + b|
  · exact (fl_error hfl _).2 h
  · obtain ⟨A, hA⟩ := ha.int_mul
    obtain ⟨B, hB⟩ := hb.int_mul
    have e : a + b = ((A + B : ℤ) : ℝ) * eta := by rw [hA, hB]; push_cast; ring
    have hd : IsDouble (a + b) := by
      rw [e]
      refine isDouble_small ?_
      rw [e, abs_mul, abs_of_pos hη, not_le] at h
      have h' : |((A + B : ℤ) : ℝ)| < 2 ^ 52 := lt_of_mul_lt_mul_right h hη.le
      have h2 : |A + B| < 2 ^ 52 := by exact_mod_cast h'
      have : (2 : ℤ) ^ 52 ≤ 2 ^ 53 := by norm_num
      omega
    rw [fl_self hfl hd, sub_self, abs_zero]
    exact mul_nonneg uround_pos.le (abs_nonneg _)

theorem fl_sub_error {a b : ℝ} (ha : IsDouble a) (hb : IsDouble b) : |fl (a - b) - (a - b)| ≤ uround * |a - b| := by
  rw [sub_eq_add_neg]
  exact fl_add_error hfl ha hb.neg

/-- Different doubles have a nonzero rounded difference. -/
theorem fl_sub_pos {a b : ℝ} (ha : IsDouble a) (hb : IsDouble b) (h : b < a) : 0 < fl (a - b) := by
  have := fl_sub_error hfl ha hb
  rw [abs_of_pos (show 0 < a - b by linarith), abs_le, uround_eq] at this
  have hp : 0 < a - b := by linarith
  nlinarith [this.1]

end

end PNDL
