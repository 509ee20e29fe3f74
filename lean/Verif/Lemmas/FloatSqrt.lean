import Verif.Lemmas.FloatRel

/-! The rounded square root of a rounded square. -/
namespace PNDL
open Spec

/-- Next to a double that is not a power of two there is no other double closer than its last place. -/
theorem double_spacing {q : ℝ} (hq : IsDouble q) {m : ℤ} {e : ℕ} (h0 : 2 ^ 52 + 1 ≤ m) (h : |q - m * 2 ^ e * eta| < 2 ^ e * eta) : q = m * 2 ^ e * eta := by
  obtain ⟨m', e', hm', rfl⟩ := isDouble_iff.mp hq
  have hη := eta_pos
  have hg : 0 < (2 : ℝ) ^ e * eta := by positivity
  rw [abs_lt] at h
  by_cases he : e ≤ e'
  · obtain ⟨k, rfl⟩ := Nat.exists_eq_add_of_le he
    have h1 : (m' : ℝ) * 2 ^ (e + k) * eta = ((m' * 2 ^ k : ℤ) : ℝ) * (2 ^ e * eta) := by push_cast; ring
    rw [h1] at h ⊢
    have h2 : (m : ℝ) * 2 ^ e * eta = (m : ℝ) * (2 ^ e * eta) := by ring
    rw [h2] at h ⊢
    have a : ((m' * 2 ^ k : ℤ) : ℝ) < m + 1 := by
      have : ((m' * 2 ^ k : ℤ) : ℝ) * (2 ^ e * eta) < (m + 1) * (2 ^ e * eta) := by linarith [h.2]
      exact lt_of_mul_lt_mul_right this hg.le
    have b : (m : ℝ) - 1 < ((m' * 2 ^ k : ℤ) : ℝ) := by
      have : ((m : ℝ) - 1) * (2 ^ e * eta) < ((m' * 2 ^ k : ℤ) : ℝ) * (2 ^ e * eta) := by linarith [h.1]
      exact lt_of_mul_lt_mul_right this hg.le
    have a' : m' * 2 ^ k < m + 1 := by exact_mod_cast a
    have b' : m - 1 < m' * 2 ^ k := by exact_mod_cast b
    have : m' * 2 ^ k = m := by omega
    rw [this]
  · exfalso
    obtain ⟨k, rfl⟩ := Nat.exists_eq_add_of_lt (not_le.mp he)
    have h1 : (m' : ℝ) < 2 ^ 53 := by exact_mod_cast (abs_lt.mp hm').2
    have hm : (2 : ℝ) ^ 52 + 1 ≤ m := by exact_mod_cast h0
    have h2 : ((m : ℝ) - 1) * (2 ^ (e' + k + 1) * eta) < m' * 2 ^ e' * eta := by
      have := h.1
      nlinarith
    have h3 : (2 : ℝ) ^ (e' + k + 1) = 2 ^ e' * 2 ^ k * 2 := by rw [pow_succ, pow_add]
    rw [h3] at h2
    have hk : (1 : ℝ) ≤ 2 ^ k := one_le_pow₀ (by norm_num)
    have he' : (0 : ℝ) < 2 ^ e' * eta := by positivity
    have h4 : (2 ^ 52 : ℝ) * 2 * (2 ^ e' * eta) ≤ (m - 1) * (2 ^ e' * 2 ^ k * 2 * eta) := by
      have : (2 : ℝ) ^ 52 * 1 ≤ (m - 1) * 2 ^ k := mul_le_mul (by linarith) hk (by norm_num) (by linarith [pow_pos (show (0:ℝ) < 2 by norm_num) 52])
      nlinarith
    have h5 : m' * 2 ^ e' * eta < 2 ^ 53 * (2 ^ e' * eta) := by nlinarith
    norm_num at h4 h5
    linarith

variable {fl : ℝ → ℝ} (hfl : IsRoundToNearest fl)
include hfl

/-- The square root of the square gives the number back, whatever the rule for ties. -/
theorem fl_sqrt_sq {c : ℝ} (hd : IsDouble c) (hc : 1 ≤ c) : fl (Real.sqrt (fl (c * c))) = c := by
  have h1022 : (2 : ℝ) ^ (-1022 : ℤ) ≤ 1 := zpow_le_one_of_nonpos₀ (by norm_num) (by norm_num)
  obtain ⟨m, e, hm0, hm1, hce⟩ := double_normal hd (h1022.trans hc)
  have hη := eta_pos
  obtain ⟨g, hg⟩ : ∃ g, g = (2 : ℝ) ^ e * eta := ⟨_, rfl⟩
  have hgp : 0 < g := by rw [hg]; positivity
  have hcg : c = m * g := by rw [hce, hg]; ring
  by_cases hp : m = 2 ^ 52
  · -- a power of two
    have hz : c = (2 : ℝ) ^ ((52 : ℤ) + e - 1074) := by
      rw [hce, hp]
      unfold eta
      rw [show ((52 : ℤ) + e - 1074) = ((52 : ℕ) : ℤ) + (e : ℤ) + (-1074) by push_cast; ring, zpow_add₀ (by norm_num), zpow_add₀ (by norm_num),
        zpow_natCast, zpow_natCast]
      norm_num
    have hpos : 0 ≤ (52 : ℤ) + e - 1074 := by
      by_contra hn
      rw [not_le] at hn
      have : c < 1 := by rw [hz]; exact zpow_lt_one_of_neg₀ (by norm_num) hn
      linarith
    have hcc : IsDouble (c * c) := by
      have := isDouble_zpow (m := 1) (by norm_num) (z := ((52 : ℤ) + e - 1074) + ((52 : ℤ) + e - 1074)) (by omega)
      rw [zpow_add₀ (by norm_num), ← hz] at this
      simpa using this
    rw [fl_self hfl hcc, Real.sqrt_mul_self (by linarith), fl_self hfl hd]
  · have hm2 : 2 ^ 52 + 1 ≤ m := by omega
    have hmr : (2 : ℝ) ^ 52 + 1 ≤ m := by exact_mod_cast hm2
    have hmr1 : (m : ℝ) ≤ 2 ^ 53 - 1 := by
      have : m ≤ 2 ^ 53 - 1 := by omega
      exact_mod_cast this
    have herr : |fl (c * c) - c * c| ≤ uround * (c * c) := by
      have h := (fl_error hfl (c * c)).2 (by
        rw [abs_of_nonneg (by nlinarith)]
        have : (2 : ℝ) ^ 52 * eta ≤ 1 := by
          unfold eta
          rw [show (2 : ℝ) ^ 52 = (2 : ℝ) ^ (52 : ℤ) by norm_num, ← zpow_add₀ (by norm_num)]
          exact zpow_le_one_of_nonpos₀ (by norm_num) (by norm_num)
        nlinarith)
      rwa [abs_of_nonneg (show 0 ≤ c * c by nlinarith)] at h
    have hu : uround * (c * c) < c * g - g * g / 4 := by
      rw [hcg, uround_eq]
      have h1 : 1 / 2 ^ 53 * ((m : ℝ) * m) < m - 1 / 4 := by
        rw [div_mul_eq_mul_div, one_mul, div_lt_iff₀ (by norm_num)]
        norm_num at hmr hmr1 ⊢
        nlinarith
      have h2 : 0 < g * g := by positivity
      nlinarith
    rw [abs_le] at herr
    have hcg0 : 0 < c - g / 2 := by
      rw [hcg]
      norm_num at hmr
      nlinarith
    have lo : c - g / 2 < Real.sqrt (fl (c * c)) := by
      rw [Real.lt_sqrt hcg0.le]
      nlinarith [herr.1]
    have hi : Real.sqrt (fl (c * c)) < c + g / 2 := by
      rw [Real.sqrt_lt' (by linarith)]
      nlinarith [herr.2]
    have hq := (hfl (Real.sqrt (fl (c * c)))).2 c hd
    have hdist : |c - Real.sqrt (fl (c * c))| < g / 2 := by rw [abs_lt]; constructor <;> linarith
    have hfin : |fl (Real.sqrt (fl (c * c))) - c| < g := by
      have h1 := abs_sub_le (fl (Real.sqrt (fl (c * c)))) (Real.sqrt (fl (c * c))) c
      rw [abs_sub_comm (Real.sqrt _) c] at h1
      linarith
    rw [hce, hg] at hfin
    have := double_spacing (hfl (Real.sqrt (fl (c * c)))).1 hm2 (by rw [← hce]; rw [← hce] at hfin; exact hfin)
    rw [this, hce]

/-- `sqrt(T * T + 1)`, rounded, is not below `|T|`. -/
theorem le_fl_sqrt {t : ℝ} (hd : IsDouble t) : |t| ≤ fl (Real.sqrt (fl (fl (t * t) + 1))) := by
  have hda : IsDouble |t| := by
    rcases abs_choice t with h | h <;> rw [h]
    · exact hd
    · exact hd.neg
  have hsq : t * t = |t| * |t| := (abs_mul_abs_self t).symm
  rcases le_total |t| 1 with h | h
  · have h1 : 1 ≤ fl (fl (t * t) + 1) := le_fl hfl isDouble_one (by linarith [fl_nonneg hfl (mul_self_nonneg t)])
    exact h.trans (le_fl hfl isDouble_one (Real.one_le_sqrt.mpr h1))
  · calc |t| = fl (Real.sqrt (fl (|t| * |t|))) := (fl_sqrt_sq hfl hda h).symm
      _ ≤ _ := by
        apply fl_mono hfl
        apply Real.sqrt_le_sqrt
        rw [← hsq]
        exact le_fl hfl (hfl _).1 (by linarith)

/-- Large numbers do not notice that one is added to their square. -/
theorem fl_sqrt_cancel {t : ℝ} (hd : IsDouble t) (ht : 2 ^ 28 ≤ |t|) : fl (Real.sqrt (fl (fl (t * t) + 1))) = |t| := by
  have hda : IsDouble |t| := by
    rcases abs_choice t with h | h <;> rw [h]
    · exact hd
    · exact hd.neg
  have hsq : t * t = |t| * |t| := (abs_mul_abs_self t).symm
  obtain ⟨d, hdd⟩ : ∃ d, d = fl (t * t) := ⟨_, rfl⟩
  have hdD : IsDouble d := by rw [hdd]; exact (hfl _).1
  have hbig : (2 : ℝ) ^ 56 ≤ d := by
    rw [hdd]
    refine le_fl hfl ?_ ?_
    · simpa using isDouble_zpow (m := 1) (by norm_num) (z := 56) (by norm_num)
    · rw [hsq]
      calc (2 : ℝ) ^ 56 = 2 ^ 28 * 2 ^ 28 := by norm_num
        _ ≤ |t| * |t| := mul_le_mul ht ht (by norm_num) (by positivity)
  have h1 : fl (d + 1) = d := by
    have h1022 : (2 : ℝ) ^ (-1022 : ℤ) ≤ 1 := zpow_le_one_of_nonpos₀ (by norm_num) (by norm_num)
    obtain ⟨m, e, hm0, hm1, hde⟩ := double_normal hdD (by norm_num at hbig; linarith)
    have hη := eta_pos
    -- the last place of `d` is at least 8
    have hg8 : 8 ≤ (2 : ℝ) ^ e * eta := by
      have hm : (m : ℝ) ≤ 2 ^ 53 := by exact_mod_cast hm1.le
      have h0 : (0 : ℝ) < 2 ^ e * eta := by positivity
      have : (2 : ℝ) ^ 56 ≤ 2 ^ 53 * (2 ^ e * eta) := by
        calc (2 : ℝ) ^ 56 ≤ d := hbig
          _ = m * (2 ^ e * eta) := by rw [hde]; ring
          _ ≤ _ := mul_le_mul_of_nonneg_right hm h0.le
      norm_num at this
      linarith
    have hq := (hfl (d + 1)).2 d hdD
    rw [show d - (d + 1) = -1 by ring, abs_neg, abs_one] at hq
    have hle : d ≤ fl (d + 1) := le_fl hfl hdD (by linarith)
    by_contra hne
    have hlt : d < fl (d + 1) := lt_of_le_of_ne hle (Ne.symm hne)
    have hup : fl (d + 1) ≤ d + 2 := by linarith [(abs_le.mp hq).2]
    -- so close there is no other double
    by_cases hp : 2 ^ 52 + 1 ≤ m
    · refine hne ?_
      have := double_spacing (hfl (d + 1)).1 (e := e) hp (by
        rw [← hde, abs_of_pos (by linarith)]
        linarith)
      rw [this, hde]
    · have hm52 : m = 2 ^ 52 := by omega
      obtain ⟨m', e', hm', hq'⟩ := isDouble_iff.mp (hfl (d + 1)).1
      by_cases he : e ≤ e'
      · obtain ⟨k, rfl⟩ := Nat.exists_eq_add_of_le he
        have h0 : (0 : ℝ) < 2 ^ e * eta := by positivity
        have e1 : fl (d + 1) = ((m' * 2 ^ k : ℤ) : ℝ) * (2 ^ e * eta) := by rw [hq']; push_cast; ring
        have e2 : d = (m : ℝ) * (2 ^ e * eta) := by rw [hde]; ring
        have a : (m : ℝ) < ((m' * 2 ^ k : ℤ) : ℝ) := by
          rw [e1, e2] at hlt
          exact lt_of_mul_lt_mul_right hlt h0.le
        have b : ((m' * 2 ^ k : ℤ) : ℝ) < m + 1 := by
          have : ((m' * 2 ^ k : ℤ) : ℝ) * (2 ^ e * eta) < (m + 1) * (2 ^ e * eta) := by rw [← e1, add_mul, ← e2]; linarith
          exact lt_of_mul_lt_mul_right this h0.le
        have a' : m < m' * 2 ^ k := by exact_mod_cast a
        have b' : m' * 2 ^ k < m + 1 := by exact_mod_cast b
        omega
      · obtain ⟨k, rfl⟩ := Nat.exists_eq_add_of_lt (not_le.mp he)
        have hm'r : (m' : ℝ) ≤ 2 ^ 53 - 1 := by
          have : m' ≤ 2 ^ 53 - 1 := by have := (abs_lt.mp hm').2; omega
          exact_mod_cast this
        have he' : (0 : ℝ) < 2 ^ e' * eta := by positivity
        have h3 : (2 : ℝ) ^ (e' + k + 1) = 2 ^ e' * 2 ^ k * 2 := by rw [pow_succ, pow_add]
        have hk : (1 : ℝ) ≤ 2 ^ k := one_le_pow₀ (by norm_num)
        have e2 : d = 2 ^ 53 * 2 ^ k * (2 ^ e' * eta) := by
          rw [hde, hm52, h3]; push_cast; ring
        have e1 : fl (d + 1) ≤ (2 ^ 53 - 1) * (2 ^ e' * eta) := by
          rw [hq', mul_assoc]
          exact mul_le_mul_of_nonneg_right hm'r he'.le
        have : (2 ^ 53 : ℝ) * (2 ^ e' * eta) ≤ d := by
          rw [e2, mul_assoc]
          refine mul_le_mul_of_nonneg_left ?_ (by norm_num)
          nlinarith
        nlinarith
  rw [← hdd, h1, hdd, hsq]
  exact fl_sqrt_sq hfl hda (le_trans (by norm_num) ht)

end PNDL
