import Mathlib.Analysis.Complex.ExponentialBounds
import Verif.Props.Float
import Verif.Props.EnergyGrid

/-! C130: the hashed look-up of the energy grid in binary64 arithmetic. -/
namespace PNDL
open Spec

/-- The library's logarithm and exponential: on positive binary64 numbers the logarithm is a binary64 number with an absolute error of at most `δ`; on
nonnegative ones the exponential has a relative error of at most `δ`. -/
structure Spec.Libm (flog fexp : ℝ → ℝ) (δ : ℝ) : Prop where
  log_double : ∀ x, IsDouble x → 0 < x → x < 2 ^ 1024 → IsDouble (flog x)
  log_error : ∀ x, IsDouble x → 0 < x → x < 2 ^ 1024 → |flog x - Real.log x| ≤ δ
  exp_error : ∀ x, IsDouble x → 0 ≤ x → |fexp x - Real.exp x| ≤ δ * Real.exp x

/-- The bounds of the bins as the program computes them. -/
noncomputable def boundFl (fl : ℝ → ℝ) (q e0 : ℝ) : ℕ → ℝ
  | 0 => e0
  | n + 1 => fl (boundFl fl q e0 n * q)

theorem boundFl_shift (fl : ℝ → ℝ) (q e0 : ℝ) (n : ℕ) : boundFl fl q (fl (e0 * q)) n = boundFl fl q e0 (n + 1) := by
  induction n with
  | zero => rfl
  | succ n ih => rw [boundFl, ih]; rfl

theorem binLoopFl_length (fl : ℝ → ℝ) (energy : List ℝ) (q : ℝ) : ∀ n E, (binLoopFl fl energy q n E).length = n := by
  intro n
  induction n with
  | zero => intro E; rfl
  | succ n ih => intro E; simp [binLoopFl, ih]

theorem binLoopFl_get (fl : ℝ → ℝ) (energy : List ℝ) (q : ℝ) : ∀ (n k : Nat) (E : ℝ), k < n →
    (binLoopFl fl energy q n E)[k]? = some (binPtr energy (boundFl fl q E (k + 1))) := by
  intro n
  induction n with
  | zero => intro k E h; omega
  | succ n ih =>
    intro k E h
    cases k with
    | zero => rfl
    | succ k =>
      rw [binLoopFl, List.getElem?_cons_succ, ih k _ (by omega), boundFl_shift]

theorem abs_log_le {x t : ℝ} (ht : t ≤ 1 / 2) (h : |x - 1| ≤ t) : |Real.log x| ≤ 2 * t := by
  rw [abs_le] at h
  have hx : 0 < x := by linarith [h.1]
  have h1 := Real.log_le_sub_one_of_pos hx
  have h2 := Real.one_sub_inv_le_log_of_pos hx
  have h3 : -(2 * t) ≤ 1 - x⁻¹ := by
    have : x⁻¹ ≤ 1 + 2 * t := by
      rw [inv_le_iff_one_le_mul₀ hx]
      nlinarith
    linarith
  rw [abs_le]
  constructor <;> linarith [h.1, h.2]

section
variable {fl : ℝ → ℝ} (hfl : IsRoundToNearest fl)
include hfl

/-- The error of the computed bounds. -/
theorem bound_error {q e0 du δ : ℝ} (he0 : (2 : ℝ) ^ (-1000 : ℤ) ≤ e0) (hδ : uround ≤ δ) (hδ2 : δ ≤ 1 / 1000) (hdu : 4 * δ ≤ du)
    (hq : |q - Real.exp du| ≤ δ * Real.exp du) : ∀ b : ℕ, 0 < boundFl fl q e0 b ∧ |Real.log (boundFl fl q e0 b) - (Real.log e0 + b * du)| ≤ 4 * b * δ := by
  have hu := uround_pos
  have h0 : 0 < e0 := lt_of_lt_of_le (by positivity) he0
  have hexp := Real.exp_pos du
  have hq' := abs_le.mp hq
  have hqpos : 0 < q := by nlinarith [hq'.1]
  have hq1 : 1 / 2 ≤ q := by
    have : 1 ≤ Real.exp du := Real.one_le_exp (by linarith)
    nlinarith [hq'.1]
  have hlq : |Real.log q - du| ≤ 2 * δ := by
    have h1 : |q / Real.exp du - 1| ≤ δ := by
      rw [show q / Real.exp du - 1 = (q - Real.exp du) / Real.exp du by field_simp, abs_div, abs_of_pos hexp, div_le_iff₀ hexp]
      exact hq
    have := abs_log_le (by linarith) h1
    rwa [Real.log_div hqpos.ne' hexp.ne', Real.log_exp] at this
  intro b
  induction b with
  | zero => simp [boundFl, h0]
  | succ b ih =>
    obtain ⟨ipos, ih⟩ := ih
    have ih' := abs_le.mp ih
    have hbe : e0 ≤ boundFl fl q e0 b := by
      rw [← Real.log_le_log_iff h0 ipos]
      have : (b : ℝ) * (4 * δ) ≤ b * du := mul_le_mul_of_nonneg_left hdu (Nat.cast_nonneg b)
      linarith [ih'.1]
    rw [boundFl]
    generalize boundFl fl q e0 b = B at *
    have hBq : 0 < B * q := mul_pos ipos hqpos
    have hbig : 2 ^ 52 * eta ≤ |B * q| := by
      rw [abs_of_pos hBq]
      have h1 : (2 : ℝ) ^ (-1000 : ℤ) * (1 / 2) ≤ B * q := mul_le_mul (he0.trans hbe) hq1 (by norm_num) ipos.le
      refine le_trans ?_ h1
      unfold eta
      rw [← zpow_natCast, ← zpow_add₀ (by norm_num), show (1 / 2 : ℝ) = (2 : ℝ) ^ (-1 : ℤ) by norm_num, ← zpow_add₀ (by norm_num)]
      exact zpow_le_zpow_right₀ (by norm_num) (by norm_num)
    have he := (fl_error hfl (B * q)).2 hbig
    rw [abs_of_pos hBq] at he
    have he' := abs_le.mp he
    have hpos : 0 < fl (B * q) := by nlinarith [he'.1]
    refine ⟨hpos, ?_⟩
    have hr : |fl (B * q) / (B * q) - 1| ≤ δ := by
      rw [show fl (B * q) / (B * q) - 1 = (fl (B * q) - B * q) / (B * q) by field_simp, abs_div, abs_of_pos hBq, div_le_iff₀ hBq]
      exact he.trans (mul_le_mul_of_nonneg_right hδ hBq.le)
    have hl := abs_log_le (by linarith) hr
    rw [Real.log_div hpos.ne' hBq.ne', Real.log_mul ipos.ne' hqpos.ne'] at hl
    have hl' := abs_le.mp hl
    have hlq' := abs_le.mp hlq
    push_cast
    rw [abs_le]
    constructor <;> linarith [ih'.1, ih'.2, hl'.1, hl'.2, hlq'.1, hlq'.2]

end


theorem hashGridFl_ok {fl flog fexp : ℝ → ℝ} {energy : List ℝ} {nbins : Nat} {e0 e1 : ℝ} (h0 : energy[0]? = some e0) (h1 : energy.getLast? = some e1)
    (hp0 : 0 < e0) (hp1 : 0 < e1) (hn : 1 ≤ nbins) (hn2 : nbins < 2 ^ 32 - 1) :
    hashGridFl fl flog fexp energy nbins = .ok ⟨energy, 0 :: binLoopFl fl energy (fexp (fl (fl (flog e1 - flog e0) / nbins))) nbins e0, flog e0,
      fl (fl (flog e1 - flog e0) / nbins)⟩ := by
  have hnz : (nbins : ℝ) ≠ 0 := by
    have : nbins ≠ 0 := by omega
    exact_mod_cast this
  have hu : u32 (nbins + 1) - 1 = nbins := by
    rw [u32, Nat.mod_eq_of_lt (by omega)]; omega
  unfold hashGridFl
  simp only [front_eq_ok.mpr h0, back_eq_ok.mpr h1, bind, Except.bind]
  rw [if_neg (by rintro (h | h) <;> linarith)]
  simp only [rdiv_ok hnz, hu, pure, Except.pure]

set_option maxHeartbeats 2000000 in
/-- **C130** The hashed look-up in binary64 arithmetic: with a mathematical library accurate to `δ`, on a strictly increasing grid of positive binary64
energies, the index returned is the right one for every energy `E` such that no other grid energy is within a relative distance of about
`(4 NBINS + 12) δ` of `E` (`E` may be a grid energy itself).  Missing: energies closer than that to another grid energy, see `C130_violation`. -/
theorem C130_away_partial (fl flog fexp : ℝ → ℝ) (hfl : IsRoundToNearest fl) (δ : ℝ) (hm : Libm flog fexp δ)
    (energy : List ℝ) (nbins : Nat) (e0 e1 : ℝ) (hs : energy.Pairwise (· < ·)) (hd : ∀ e ∈ energy, IsDouble e) (h0 : energy[0]? = some e0)
    (h1 : energy.getLast? = some e1) (he0 : (2 : ℝ) ^ (-1000 : ℤ) ≤ e0) (he1 : e1 < 2 ^ 1024) (h32 : energy.length < 2 ^ 32) (hn : 1 ≤ nbins) (hn2 : nbins < 2 ^ 32 - 1)
    (hδ : (2 : ℝ) ^ (-53 : ℤ) * (Real.log e1 - Real.log e0 + 1) ≤ δ) (hδ2 : δ ≤ 1 / 1000) :
    ∃ g, hashGridFl fl flog fexp energy nbins = .ok g ∧ ∀ E, IsDouble E →
      (∀ e ∈ energy, e ≠ E → (4 * nbins + 12) * δ < |Real.log e - Real.log E|) → ∃ i, g.lowerIndexFl fl flog E = .ok i ∧ IsLowerIndex energy E i := by
  have hs' : energy.Pairwise (· ≤ ·) := hs.imp le_of_lt
  have hpos := lt_length_of_some h0
  have hp0 : 0 < e0 := lt_of_lt_of_le (by positivity) he0
  have hl1 : energy[energy.length - 1]? = some e1 := by rw [← List.getLast?_eq_getElem?]; exact h1
  have hle : e0 ≤ e1 := pairwise_le_getElem? hs' (Nat.zero_le _) h0 hl1
  have hp1 : 0 < e1 := lt_of_lt_of_le hp0 hle
  have hd0 := hd e0 (List.mem_of_getElem? h0)
  have hd1 := hd e1 (List.mem_of_getElem? hl1)
  refine ⟨_, hashGridFl_ok h0 h1 hp0 hp1 hn hn2, ?_⟩
  intro E hdE haway
  simp only [EGrid.lowerIndexFl, front_eq_ok.mpr h0, back_eq_ok.mpr h1, bind, Except.bind]
  by_cases c0 : E ≤ e0
  · rw [if_pos c0]
    refine ⟨0, rfl, fun _ _ _ => rfl, ?_, ?_⟩
    · intro mn mx g1 _ g2; rw [h0] at g1; cases g1; exact absurd g2 (not_lt.mpr c0)
    · intro mn mx g1 _ g2; rw [h0] at g1; cases g1; exact absurd g2 (not_lt.mpr c0)
  rw [if_neg c0]
  rw [not_le] at c0
  by_cases c1 : E ≥ e1
  · rw [if_pos c1]
    refine ⟨_, rfl, ?_, fun _ _ _ _ _ _ => rfl, ?_⟩
    · intro mn g1 g2; rw [h0] at g1; cases g1; exact absurd g2 (not_le.mpr c0)
    · intro mn mx _ g1 _ g2; rw [h1] at g1; cases g1; exact absurd g2 (not_lt.mpr c1)
  rw [if_neg c1]
  rw [ge_iff_le, not_le] at c1
  have hE : 0 < E := hp0.trans c0
  have hn0 : (1 : ℝ) ≤ nbins := by exact_mod_cast hn
  have hlog0 := Real.log_lt_log hp0 c0
  have hlog1 := Real.log_lt_log hE c1
  have away0 := haway e0 (List.mem_of_getElem? h0) c0.ne
  have away1 := haway e1 (List.mem_of_getElem? hl1) c1.ne'
  rw [abs_of_neg (by linarith)] at away0
  rw [abs_of_pos (by linarith)] at away1
  have f0 := abs_le.mp (hm.log_error e0 hd0 hp0 (lt_of_le_of_lt hle he1))
  have f1 := abs_le.mp (hm.log_error e1 hd1 hp1 he1)
  have fE := abs_le.mp (hm.log_error E hdE hE (c1.trans he1))
  have hu := uround_pos
  have hη := eta_pos
  have hηu : eta * 2 ^ 32 ≤ uround := by
    unfold eta uround
    rw [← zpow_natCast, ← zpow_add₀ (by norm_num)]
    exact zpow_le_zpow_right₀ (by norm_num) (by norm_num)
  change uround * (Real.log e1 - Real.log e0 + 1) ≤ δ at hδ
  have hR0 : 0 ≤ Real.log e1 - Real.log e0 := by linarith
  have hδu : uround ≤ δ := by have := mul_nonneg hu.le hR0; linarith
  have hN0 : 0 ≤ (nbins : ℝ) * δ := mul_nonneg (by linarith) (by linarith)
  -- the width of the bins
  have eD := fl_sub_error hfl (hm.log_double e1 hd1 hp1 he1) (hm.log_double e0 hd0 hp0 (lt_of_le_of_lt hle he1))
  have dD : IsDouble (fl (flog e1 - flog e0)) := (hfl _).1
  have eD2 : uround * |flog e1 - flog e0| ≤ δ := by
    refine le_trans (mul_le_mul_of_nonneg_left ?_ hu.le) hδ
    rw [abs_le]
    constructor <;> linarith [f0.1, f0.2, f1.1, f1.2]
  have eD3 := abs_le.mp (eD.trans eD2)
  have ew := fl_sub_error hfl (hm.log_double E hdE hE (c1.trans he1)) (hm.log_double e0 hd0 hp0 (lt_of_le_of_lt hle he1))
  have ew2 : uround * |flog E - flog e0| ≤ δ := by
    refine le_trans (mul_le_mul_of_nonneg_left ?_ hu.le) hδ
    rw [abs_le]
    constructor <;> linarith [f0.1, f0.2, fE.1, fE.2]
  have ew3 := abs_le.mp (ew.trans ew2)
  have ddu : IsDouble (fl (fl (flog e1 - flog e0) / nbins)) := (hfl _).1
  have edu := (fl_error hfl (fl (flog e1 - flog e0) / nbins)).1
  obtain ⟨D, hD⟩ : ∃ D, D = fl (flog e1 - flog e0) := ⟨_, rfl⟩
  obtain ⟨w, hw⟩ : ∃ w, w = fl (flog E - flog e0) := ⟨_, rfl⟩
  rw [← hD] at eD3 dD ddu edu ⊢
  rw [← hw] at ew3 ⊢
  obtain ⟨du, hdu⟩ : ∃ du, du = fl (D / nbins) := ⟨_, rfl⟩
  rw [← hdu] at ddu edu ⊢
  have hDpos : 0 < D := by linarith [eD3.1, f0.2, f1.1]
  have hNdu : |nbins * du - D| ≤ 2 * δ := by
    have hN1 : (0 : ℝ) < nbins := by linarith
    have eqn : (nbins : ℝ) * du - D = nbins * (du - D / nbins) := by field_simp
    rw [eqn, abs_mul, abs_of_pos hN1]
    rw [abs_of_pos (div_pos hDpos hN1)] at edu
    have h2 : (nbins : ℝ) * |du - D / nbins| ≤ nbins * (uround * (D / nbins) + eta / 2) := mul_le_mul_of_nonneg_left edu hN1.le
    have h3 : (nbins : ℝ) * (uround * (D / nbins) + eta / 2) = uround * D + nbins * eta / 2 := by field_simp
    have h4 : uround * D ≤ δ := by
      refine le_trans (mul_le_mul_of_nonneg_left ?_ hu.le) hδ
      linarith [eD3.2, f0.1, f1.2]
    have h5 : (nbins : ℝ) * eta ≤ δ := by
      have : (nbins : ℝ) ≤ 2 ^ 32 := by
        have : nbins ≤ 2 ^ 32 := by omega
        exact_mod_cast this
      have := mul_le_mul_of_nonneg_right this hη.le
      linarith
    have h6 : 0 ≤ (nbins : ℝ) * eta := by positivity
    linarith
  have hNdu' := abs_le.mp hNdu
  have hdu8 : 8 * δ ≤ du := by
    have : nbins * (8 * δ) ≤ nbins * du := by
      linarith [eD3.1, f0.2, f1.1, hNdu'.1]
    exact le_of_mul_le_mul_left this (by linarith)
  have hdpos : 0 < du := by linarith
  have hq := hm.exp_error _ ddu hdpos.le
  simp only [rdiv_ok hdpos.ne']
  have hw0 : 0 ≤ w / du := div_nonneg (by linarith [ew3.1, fE.1, f0.2]) hdpos.le
  have eq := (fl_error hfl (w / du)).1
  have hq0 := fl_nonneg hfl hw0
  obtain ⟨q, hqq⟩ : ∃ q, q = fl (w / du) := ⟨_, rfl⟩
  rw [← hqq] at eq hq0 ⊢
  have hqE : |q * du - (Real.log E - Real.log e0)| ≤ 5 * δ := by
    have hwE : |w - (Real.log E - Real.log e0)| ≤ 3 * δ := by
      rw [abs_le]
      constructor <;> linarith [ew3.1, ew3.2, fE.1, fE.2, f0.1, f0.2]
    have hqw : |q * du - w| ≤ 2 * δ := by
      have eqn : q * du - w = (q - w / du) * du := by field_simp
      rw [eqn, abs_mul, abs_of_pos hdpos]
      rw [abs_of_nonneg hw0] at eq
      have h2 := mul_le_mul_of_nonneg_right eq hdpos.le
      have h3 : (uround * (w / du) + eta / 2) * du = uround * w + eta / 2 * du := by field_simp
      have hwE' := abs_le.mp hwE
      have h4 : uround * w ≤ δ := by
        refine le_trans (mul_le_mul_of_nonneg_left ?_ hu.le) hδ
        linarith [hwE'.2]
      have h5 : eta / 2 * du ≤ δ := by
        have h6 : du ≤ nbins * du := le_mul_of_one_le_left hdpos.le hn0
        have h7 : du ≤ Real.log e1 - Real.log e0 + 1 := by linarith [hNdu'.2, eD3.2, f0.1, f1.2]
        have h8 : eta / 2 ≤ uround := by linarith
        exact (mul_le_mul h8 h7 hdpos.le hu.le).trans hδ
      linarith
    have := abs_sub_le (q * du) w (Real.log E - Real.log e0)
    linarith
  have hqE' := abs_le.mp hqE
  have hb1 := Nat.floor_le hq0
  have hb2 := Nat.lt_floor_add_one q
  obtain ⟨b, hb⟩ : ∃ b, b = ⌊q⌋₊ := ⟨_, rfl⟩
  rw [← hb] at hb1 hb2 ⊢
  have hbn : b < nbins := by
    by_contra hc
    have hc' : (nbins : ℝ) ≤ b := by exact_mod_cast not_lt.mp hc
    have := mul_le_mul_of_nonneg_right (hc'.trans hb1) hdpos.le
    linarith [hNdu'.1, eD3.1, f0.2, f1.1, hqE'.2]
  rw [if_pos ⟨hq0, by omega⟩]
  -- the bounds of the bin
  have hbnd := bound_error hfl (q := fexp du) he0 hδu hδ2 (by linarith) hq
  have hbN : (b : ℝ) + 1 ≤ nbins := by exact_mod_cast hbn
  have hlo : Real.log (boundFl fl (fexp du) e0 b) < Real.log E + (4 * nbins + 12) * δ := by
    have h1 := (abs_le.mp (hbnd b).2).2
    have h2 := mul_le_mul_of_nonneg_right hb1 hdpos.le
    have h3 : (b : ℝ) * δ ≤ nbins * δ := mul_le_mul_of_nonneg_right (by linarith) (by linarith)
    linarith [hqE'.2]
  have hhi : Real.log E - (4 * nbins + 12) * δ < Real.log (boundFl fl (fexp du) e0 (b + 1)) := by
    have h1 := (abs_le.mp (hbnd (b + 1)).2).1
    have h2 := mul_le_mul_of_nonneg_right hb2.le hdpos.le
    have h3 : ((b : ℝ) + 1) * δ ≤ nbins * δ := mul_le_mul_of_nonneg_right hbN (by linarith)
    push_cast at h1
    linarith [hqE'.1]
  have hLB1 : 0 < lowerBound energy E := (lowerBound_iff hs' E h0).mp c0
  have hptr : ∀ k : ℕ, 1 ≤ k → (1 : ℕ) ≤ lowerBound energy (boundFl fl (fexp du) e0 k) ∧
      binPtr energy (boundFl fl (fexp du) e0 k) = lowerBound energy (boundFl fl (fexp du) e0 k) - 1 := by
    intro k hk
    have hgt : e0 < boundFl fl (fexp du) e0 k := by
      rw [← Real.log_lt_log_iff hp0 (hbnd k).1]
      have h1 := (abs_le.mp (hbnd k).2).1
      have hk' : (1 : ℝ) ≤ k := by exact_mod_cast hk
      have h2 : (k : ℝ) * (8 * δ) ≤ k * du := mul_le_mul_of_nonneg_left hdu8 (by linarith)
      have h3 : 0 < (k : ℝ) * δ := mul_pos (by linarith) (by linarith)
      linarith
    have h1 := (lowerBound_iff hs' _ h0).mp hgt
    have h2 := lowerBound_le hs' (boundFl fl (fexp du) e0 k)
    refine ⟨h1, ?_⟩
    simp only [binPtr]
    rw [if_neg (by omega), u32, Nat.mod_eq_of_lt (by omega)]
  obtain ⟨k1, k2⟩ := hptr (b + 1) (by omega)
  have hub := lowerBound_le hs' (boundFl fl (fexp du) e0 (b + 1))
  have hm1 : lowerBound energy E ≤ lowerBound energy (boundFl fl (fexp du) e0 (b + 1)) := by
    by_contra hc
    rw [not_le] at hc
    obtain ⟨e, he⟩ := getElem?_of_lt (l := energy) (i := lowerBound energy (boundFl fl (fexp du) e0 (b + 1))) (lt_of_lt_of_le hc (lowerBound_le hs' E))
    have a1 : e < E := (lowerBound_iff hs' E he).mpr hc
    have a2 : boundFl fl (fexp du) e0 (b + 1) ≤ e := not_lt.mp (mt (lowerBound_iff hs' _ he).mp (lt_irrefl _))
    have a3 := haway e (List.mem_of_getElem? he) a1.ne
    have a4 := Real.log_le_log (hbnd (b + 1)).1 a2
    have a5 := Real.log_lt_log (lt_of_lt_of_le (hbnd (b + 1)).1 a2) a1
    rw [abs_of_neg (by linarith)] at a3
    linarith
  have hm2 : lowerBound energy (boundFl fl (fexp du) e0 b) ≤ lowerBound energy E + 1 := by
    by_contra hc
    rw [not_le] at hc
    obtain ⟨e, he⟩ := getElem?_of_lt (l := energy) (i := lowerBound energy E) (by have := lowerBound_le hs' (boundFl fl (fexp du) e0 b); omega)
    obtain ⟨e', he'⟩ := getElem?_of_lt (l := energy) (i := lowerBound energy E + 1) (by have := lowerBound_le hs' (boundFl fl (fexp du) e0 b); omega)
    have a0 : E ≤ e := not_lt.mp (mt (lowerBound_iff hs' _ he).mp (lt_irrefl _))
    have a1 : E < e' := lt_of_le_of_lt a0 (pairwise_lt_getElem? hs (Nat.lt_succ_self _) he he')
    have a2 : e' < boundFl fl (fexp du) e0 b := (lowerBound_iff hs' _ he').mpr hc
    have a3 := haway e' (List.mem_of_getElem? he') a1.ne'
    have a4 := Real.log_lt_log (hE.trans a1) a2
    have a5 := Real.log_lt_log hE a1
    rw [abs_of_pos (by linarith)] at a3
    linarith
  have hget : (0 :: binLoopFl fl energy (fexp du) nbins e0)[b + 1]? = some (binPtr energy (boundFl fl (fexp du) e0 (b + 1))) := by
    rw [List.getElem?_cons_succ, binLoopFl_get _ _ _ _ _ _ hbn]
  have hlowp : ∃ low, (0 :: binLoopFl fl energy (fexp du) nbins e0)[b]? = some low ∧ low ≤ lowerBound energy E := by
    rcases Nat.eq_zero_or_pos b with hb0 | hb0
    · exact ⟨0, by rw [hb0]; rfl, Nat.zero_le _⟩
    · obtain ⟨j, rfl⟩ : ∃ j, b = j + 1 := ⟨b - 1, by omega⟩
      obtain ⟨_, j2⟩ := hptr (j + 1) (by omega)
      exact ⟨_, by rw [List.getElem?_cons_succ, binLoopFl_get _ _ _ _ _ _ (by omega)], by rw [j2]; omega⟩
  obtain ⟨low, hlow, hlow2⟩ := hlowp
  rw [C28_search ⟨energy, 0 :: binLoopFl fl energy (fexp du) nbins e0, flog e0, du⟩ hs' h32 b low _ E hlow hget hlow2 (by rw [k2]; simp only; omega)
    (by rw [k2]; simp only; omega) hLB1]
  obtain ⟨i, x1, x2, i1, i2, i3, i4, i5⟩ := bracket_index hs' h0 h1 c0 c1.le
  refine ⟨_, rfl, ?_, ?_, ?_⟩
  · intro mn g1 g2; rw [h0] at g1; cases g1; exact absurd g2 (not_le.mpr c0)
  · intro mn mx _ g1 _ g2; rw [h1] at g1; cases g1; exact absurd g2 (not_le.mpr c1)
  · intro mn mx _ _ _ _
    simp only [i1, Nat.add_sub_cancel]
    exact ⟨x1, x2, i2, i3, i4, i5⟩

theorem small_lt_big {x : ℝ} (h : x ≤ 2 ^ 10) : x < 2 ^ 1024 :=
  lt_of_le_of_lt h (pow_lt_pow_right₀ (by norm_num) (by norm_num))

theorem isDouble_shift {D : ℝ} (h : IsDouble D) (hD : 1 / 4 ≤ D) {k : ℕ} (hk : k ≤ 31) : IsDouble (D / 2 ^ k) := by
  obtain ⟨m, e, hm, rfl⟩ := h
  have hm' : (m : ℝ) ≤ 2 ^ 53 := by exact_mod_cast (le_abs_self m).trans hm.le
  have he : k ≤ e := by
    by_contra hc
    have h1 : (2 : ℝ) ^ e ≤ 2 ^ 31 := pow_le_pow_right₀ (by norm_num) (by omega)
    have h2 : (m : ℝ) * 2 ^ e ≤ 2 ^ 53 * 2 ^ 31 := mul_le_mul hm' h1 (by positivity) (by positivity)
    have h3 : (2 : ℝ) ^ (-1074 : ℤ) ≤ 2 ^ (-100 : ℤ) := zpow_le_zpow_right₀ (by norm_num) (by norm_num)
    have h4 : (m : ℝ) * 2 ^ e * 2 ^ (-1074 : ℤ) ≤ 2 ^ 53 * 2 ^ 31 * 2 ^ (-100 : ℤ) := mul_le_mul h2 h3 (by positivity) (by positivity)
    have h5 : (2 : ℝ) ^ 53 * 2 ^ 31 * 2 ^ (-100 : ℤ) < 1 / 4 := by norm_num
    exact absurd (hD.trans h4) (not_le.mpr h5)
  obtain ⟨j, rfl⟩ : ∃ j, e = j + k := ⟨e - k, by omega⟩
  refine ⟨m, j, hm, ?_⟩
  rw [pow_add]
  field_simp

theorem double_lattice {f : ℝ} (h : IsDouble f) (h1 : 2 ≤ f) : ∃ j : ℤ, f = j * (2 : ℝ) ^ (-51 : ℤ) := by
  obtain ⟨m, e, hm, rfl⟩ := h
  have hm' : (m : ℝ) ≤ 2 ^ 53 := by exact_mod_cast (le_abs_self m).trans hm.le
  have he : 1023 ≤ e := by
    by_contra hc
    have hmlt : (m : ℝ) < 2 ^ 53 := by exact_mod_cast lt_of_le_of_lt (le_abs_self m) hm
    have h2 : (2 : ℝ) ^ e * 2 ^ (-1074 : ℤ) ≤ 2 ^ (-52 : ℤ) := by
      rw [← zpow_natCast, ← zpow_add₀ (by norm_num)]
      exact zpow_le_zpow_right₀ (by norm_num) (by omega)
    have h0 : (0 : ℝ) < (2 : ℝ) ^ e * 2 ^ (-1074 : ℤ) := by positivity
    have h3 : (m : ℝ) * (2 ^ e * 2 ^ (-1074 : ℤ)) < 2 ^ 53 * (2 ^ e * 2 ^ (-1074 : ℤ)) := mul_lt_mul_of_pos_right hmlt h0
    have h4 : (2 : ℝ) ^ 53 * (2 ^ e * 2 ^ (-1074 : ℤ)) ≤ 2 ^ 53 * 2 ^ (-52 : ℤ) := mul_le_mul_of_nonneg_left h2 (by positivity)
    have h5 : (2 : ℝ) ^ 53 * 2 ^ (-52 : ℤ) = 2 := by norm_num
    rw [mul_assoc] at h1
    linarith
  obtain ⟨j, rfl⟩ : ∃ j, e = j + 1023 := ⟨e - 1023, by omega⟩
  refine ⟨m * 2 ^ j, ?_⟩
  push_cast
  rw [mul_assoc, mul_assoc, pow_add, mul_assoc, ← zpow_natCast (2 : ℝ) 1023, ← zpow_add₀ (by norm_num)]
  norm_num

/-- Two energies between 16 and 32 with the same computed logarithm. -/
theorem log_collision (flog fexp : ℝ → ℝ) (hm : Libm flog fexp (1 / 8)) :
    ∃ E E', IsDouble E ∧ IsDouble E' ∧ 16 ≤ E ∧ E < E' ∧ E' < 32 ∧ flog E = flog E' := by
  let x : ℕ → ℝ := fun j => ((2 ^ 52 + j : ℕ) : ℤ) * (2 : ℝ) ^ (-48 : ℤ)
  have hp : (0 : ℝ) < (2 : ℝ) ^ (-48 : ℤ) := by positivity
  have hx16 : ∀ j, 16 ≤ x j := by
    intro j
    have h1 : ((2 : ℝ) ^ 52) * 2 ^ (-48 : ℤ) = 16 := by norm_num
    have h2 : (2 : ℝ) ^ 52 ≤ ((2 ^ 52 + j : ℕ) : ℤ) := by push_cast; linarith [Nat.cast_nonneg (α := ℝ) j]
    have := mul_le_mul_of_nonneg_right h2 hp.le
    simp only [x]
    linarith
  have hx32 : ∀ j, j < 2 ^ 52 → x j < 32 := by
    intro j hj
    have h1 : ((2 : ℝ) ^ 53) * 2 ^ (-48 : ℤ) = 32 := by norm_num
    have h2 : (((2 ^ 52 + j : ℕ) : ℤ) : ℝ) < 2 ^ 53 := by
      have : 2 ^ 52 + j < 2 ^ 53 := by omega
      exact_mod_cast this
    have := mul_lt_mul_of_pos_right h2 hp
    simp only [x]
    linarith
  have hxd : ∀ j, j < 2 ^ 52 → IsDouble (x j) := by
    intro j hj
    refine isDouble_zpow ?_ (by norm_num)
    rw [abs_of_nonneg (by positivity)]
    have : 2 ^ 52 + j ≤ 2 ^ 53 := by omega
    exact_mod_cast this
  have hbig : ∀ j, j < 2 ^ 52 → x j < 2 ^ 1024 := fun j hj => small_lt_big ((hx32 j hj).le.trans (by norm_num))
  have hlog : ∀ j, j < 2 ^ 52 → 5 / 2 ≤ flog (x j) ∧ flog (x j) ≤ 15 / 4 := by
    intro j hj
    have h0 : 0 < x j := by linarith [hx16 j]
    have h1 := abs_le.mp (hm.log_error _ (hxd j hj) h0 (hbig j hj))
    have h2 := Real.log_le_log (by norm_num) (hx16 j)
    have h3 := Real.log_le_log h0 (hx32 j hj).le
    rw [show (16 : ℝ) = 2 ^ 4 by norm_num, Real.log_pow] at h2
    rw [show (32 : ℝ) = 2 ^ 5 by norm_num, Real.log_pow] at h3
    have := Real.log_two_gt_d9
    have := Real.log_two_lt_d9
    push_cast at h2 h3
    constructor <;> linarith [h1.1, h1.2]
  have hlat : ∀ j, ∃ z : ℤ, j < 2 ^ 52 → flog (x j) = z * (2 : ℝ) ^ (-51 : ℤ) := by
    intro j
    by_cases hj : j < 2 ^ 52
    · obtain ⟨z, hz⟩ := double_lattice (hm.log_double _ (hxd j hj) (by linarith [hx16 j]) (hbig j hj)) (by linarith [(hlog j hj).1])
      exact ⟨z, fun _ => hz⟩
    · exact ⟨0, fun h => absurd h hj⟩
  choose z hz using hlat
  have hmaps : ∀ j ∈ Finset.range (2 ^ 52), z j ∈ Finset.Icc (5 * 2 ^ 50 : ℤ) (15 * 2 ^ 49) := by
    intro j hj
    rw [Finset.mem_range] at hj
    have h1 := hlog j hj
    rw [hz j hj] at h1
    have h51 : (2 : ℝ) ^ (-51 : ℤ) = 1 / 2 ^ 51 := by norm_num
    rw [h51] at h1
    rw [Finset.mem_Icc]
    constructor
    · have : (5 * 2 ^ 50 : ℝ) ≤ z j := by linarith [h1.1]
      exact_mod_cast this
    · have : (z j : ℝ) ≤ 15 * 2 ^ 49 := by linarith [h1.2]
      exact_mod_cast this
  obtain ⟨i, hi, j, hj, hne, heq⟩ := Finset.exists_ne_map_eq_of_card_lt_of_maps_to (s := Finset.range (2 ^ 52)) (t := Finset.Icc (5 * 2 ^ 50 : ℤ) (15 * 2 ^ 49))
    (f := z) (by rw [Int.card_Icc, Finset.card_range]; norm_num) hmaps
  rw [Finset.mem_range] at hi hj
  have hcol : flog (x i) = flog (x j) := by rw [hz i hi, hz j hj, heq]
  have hmono : ∀ a b : ℕ, a < b → x a < x b := by
    intro a b hab
    have : (((2 ^ 52 + a : ℕ) : ℤ) : ℝ) < ((2 ^ 52 + b : ℕ) : ℤ) := by
      have : 2 ^ 52 + a < 2 ^ 52 + b := by omega
      exact_mod_cast this
    exact mul_lt_mul_of_pos_right this hp
  rcases lt_or_gt_of_ne hne with h | h
  · exact ⟨x i, x j, hxd i hi, hxd j hj, hx16 i, hmono i j h, hx32 j hj, hcol⟩
  · exact ⟨x j, x i, hxd j hj, hxd i hi, hx16 j, hmono j i h, hx32 i hi, hcol.symm⟩

/-- The code does not have C130 for every energy.  Whatever the rounding, and however accurate the logarithm (an error of up to `1/8` is allowed), there are
two energies `E < E'` between 16 and 32 MeV such that on every grid that ends at `E'` and begins below 8 MeV, hashed in `2^k` bins (8192 is the
default), the look-up of `E`, which is inside the grid, reads past the end of the table of bins. -/
theorem C130_violation (fl flog fexp : ℝ → ℝ) (hfl : IsRoundToNearest fl) (hm : Libm flog fexp (1 / 8)) :
    ∃ E E', IsDouble E ∧ IsDouble E' ∧ 16 ≤ E ∧ E < E' ∧ E' < 32 ∧
      ∀ (energy : List ℝ) (e0 : ℝ) (k : ℕ), energy[0]? = some e0 → IsDouble e0 → 0 < e0 → e0 ≤ 8 → energy.getLast? = some E' → k ≤ 31 →
        ∃ g, hashGridFl fl flog fexp energy (2 ^ k) = .ok g ∧ g.lowerIndexFl fl flog E = .error .ub := by
  obtain ⟨E, E', dE, dE', h16, hlt, h32, hcol⟩ := log_collision flog fexp hm
  refine ⟨E, E', dE, dE', h16, hlt, h32, ?_⟩
  intro energy e0 k h0 d0 p0 h8 h1 hk
  have hk32 : 2 ^ k ≤ 2 ^ 31 := Nat.pow_le_pow_right (by norm_num) hk
  have hkr : (0 : ℝ) < 2 ^ k := by positivity
  have hpE' : 0 < E' := by linarith
  refine ⟨_, hashGridFl_ok h0 h1 p0 hpE' (Nat.one_le_two_pow) (by omega), ?_⟩
  have big32 : (32 : ℝ) < 2 ^ 1024 := small_lt_big (by norm_num)
  have hD : 1 / 4 ≤ fl (flog E' - flog e0) := by
    have hq : IsDouble (1 / 4 : ℝ) := by
      have := isDouble_zpow (m := 1) (by norm_num) (z := -2) (by norm_num)
      norm_num at this ⊢
      exact this
    refine le_fl hfl hq ?_
    have g1 := abs_le.mp (hm.log_error _ dE' hpE' (h32.trans big32))
    have g0 := abs_le.mp (hm.log_error _ d0 p0 (lt_of_le_of_lt h8 (lt_trans (by norm_num) big32)))
    have h2 := Real.log_le_log (by norm_num) (show (16 : ℝ) ≤ E' by linarith)
    have h3 := Real.log_le_log p0 h8
    rw [show (16 : ℝ) = 2 ^ 4 by norm_num, Real.log_pow] at h2
    rw [show (8 : ℝ) = 2 ^ 3 by norm_num, Real.log_pow] at h3
    push_cast at h2 h3
    linarith [g1.1, g0.2, Real.log_two_gt_d9]
  have dD : IsDouble (fl (flog E' - flog e0)) := (hfl _).1
  push_cast
  simp only [EGrid.lowerIndexFl, front_eq_ok.mpr h0, back_eq_ok.mpr h1, bind, Except.bind]
  rw [if_neg (not_le.mpr (by linarith)), if_neg (not_le.mpr hlt), hcol]
  generalize fl (flog E' - flog e0) = D at *
  have hdu : fl (D / 2 ^ k) = D / 2 ^ k := fl_self hfl (isDouble_shift dD hD hk)
  rw [hdu]
  have hpos : 0 < D / 2 ^ k := div_pos (by linarith) hkr
  have hdiv : D / (D / 2 ^ k) = ((2 ^ k : ℕ) : ℝ) := by
    have : D ≠ 0 := by linarith
    push_cast
    field_simp
  have hq : fl (D / (D / 2 ^ k)) = ((2 ^ k : ℕ) : ℝ) := by
    rw [hdiv]
    exact fl_self hfl (isDouble_nat (by omega))
  simp only [rdiv_ok hpos.ne']
  rw [hq, Nat.floor_natCast, if_pos ⟨Nat.cast_nonneg _, by omega⟩]
  obtain ⟨low, hlow⟩ : ∃ low, (0 :: binLoopFl fl energy (fexp (D / 2 ^ k)) (2 ^ k) e0)[2 ^ k]? = some low :=
    getElem?_of_lt (by rw [List.length_cons, binLoopFl_length]; omega)
  have hend : (0 :: binLoopFl fl energy (fexp (D / 2 ^ k)) (2 ^ k) e0)[2 ^ k + 1]? = none :=
    List.getElem?_eq_none (by rw [List.length_cons, binLoopFl_length])
  simp only [EGrid.search, getAt_eq_ok.mpr hlow, bind, Except.bind]
  simp only [getAt, hend]

/-- A correctly rounded mathematical library satisfies the hypotheses, with `δ = 2^-43`. -/
theorem libm_rounded {fl : ℝ → ℝ} (hfl : IsRoundToNearest fl) : Libm (fun x => fl (Real.log x)) (fun x => fl (Real.exp x)) ((2 : ℝ) ^ (-43 : ℤ)) := by
  have hu := uround_pos
  have h43 : (2 : ℝ) ^ (-43 : ℤ) = 1024 * uround := by rw [uround_eq]; norm_num
  have hη : eta ≤ uround := by
    unfold eta uround
    exact zpow_le_zpow_right₀ (by norm_num) (by norm_num)
  refine ⟨fun x _ _ _ => (hfl _).1, ?_, ?_⟩
  · intro x hx h0 h1
    obtain ⟨m, e, hm, hxm⟩ := hx
    have hlow : (2 : ℝ) ^ (-1074 : ℤ) ≤ x := by
      have hm1 : (1 : ℝ) ≤ m := by
        have : 0 < m := by
          by_contra hc
          have hc' : (m : ℝ) ≤ 0 := by exact_mod_cast not_lt.mp hc
          have : x ≤ 0 := by
            rw [hxm, mul_assoc]
            exact mul_nonpos_of_nonpos_of_nonneg hc' (by positivity)
          linarith
        exact_mod_cast this
      have h2 : (1 : ℝ) ≤ 2 ^ e := one_le_pow₀ (by norm_num)
      rw [hxm]
      exact le_mul_of_one_le_left (by positivity) (one_le_mul_of_one_le_of_one_le hm1 h2)
    have l1 := Real.log_le_log (by positivity) hlow
    have l2 := Real.log_le_log h0 h1.le
    rw [Real.log_zpow] at l1
    rw [Real.log_pow] at l2
    have habs : |Real.log x| ≤ 800 := by
      have := Real.log_two_gt_d9
      have := Real.log_two_lt_d9
      push_cast at l1 l2
      rw [abs_le]
      constructor <;> linarith
    have h3 := (fl_error hfl (Real.log x)).1
    have h4 := mul_le_mul_of_nonneg_left habs hu.le
    rw [h43]
    linarith
  · intro x _ h0
    have h1 : 1 ≤ Real.exp x := Real.one_le_exp h0
    have h2 := (fl_error hfl (Real.exp x)).1
    rw [abs_of_pos (Real.exp_pos x)] at h2
    rw [h43]
    have h3 := mul_le_mul_of_nonneg_left h1 hu.le
    have := eta_pos
    linarith

/-- The hypotheses of `C130_away_partial` hold of a correctly rounded library, the default number of bins, the grid 1, 2, 4 MeV and the energy 3 MeV. -/
example (fl : ℝ → ℝ) (hfl : IsRoundToNearest fl) :
    ∃ g, hashGridFl fl (fun x => fl (Real.log x)) (fun x => fl (Real.exp x)) [1, 2, 4] 8192 = .ok g ∧
      ∃ i, g.lowerIndexFl fl (fun x => fl (Real.log x)) 3 = .ok i ∧ IsLowerIndex [1, 2, 4] (3 : ℝ) i := by
  have l2 := Real.log_two_gt_d9
  have l2' := Real.log_two_lt_d9
  have l4 : Real.log 4 = 2 * Real.log 2 := by
    rw [show (4 : ℝ) = 2 ^ 2 by norm_num, Real.log_pow]; norm_num
  have d2 : IsDouble 2 := by simpa using isDouble_nat (n := 2) (by norm_num)
  have d3 : IsDouble 3 := by simpa using isDouble_nat (n := 3) (by norm_num)
  have d4 : IsDouble 4 := by simpa using isDouble_nat (n := 4) (by norm_num)
  have l3 : Real.log 2 + 1 / 10 < Real.log 3 ∧ Real.log 3 < Real.log 4 - 1 / 10 := by
    have h1 := Real.log_le_sub_one_of_pos (show (0 : ℝ) < 2 / 3 by norm_num)
    have h2 := Real.log_le_sub_one_of_pos (show (0 : ℝ) < 3 / 4 by norm_num)
    rw [Real.log_div (by norm_num) (by norm_num)] at h1 h2
    constructor <;> linarith
  obtain ⟨g, hg, h⟩ := C130_away_partial fl _ _ hfl _ (libm_rounded hfl) [1, 2, 4] 8192 1 4 (by norm_num)
    (by simp only [List.mem_cons, List.not_mem_nil, or_false]; rintro e (rfl | rfl | rfl); exacts [isDouble_one, d2, d4]) rfl rfl
    (by rw [← zpow_zero (2 : ℝ)]; exact zpow_le_zpow_right₀ (by norm_num) (by norm_num)) (small_lt_big (by norm_num)) (by norm_num) (by norm_num) (by norm_num)
    (by
      rw [Real.log_one, l4, show (2 : ℝ) ^ (-43 : ℤ) = 2 ^ (-53 : ℤ) * 1024 by norm_num]
      exact mul_le_mul_of_nonneg_left (by linarith) (by positivity)) (by norm_num)
  refine ⟨g, hg, h 3 d3 ?_⟩
  have hb : ((4 : ℝ) * (8192 : ℕ) + 12) * 2 ^ (-43 : ℤ) < 1 / 10 := by norm_num
  simp only [List.mem_cons, List.not_mem_nil, or_false]
  rintro e (rfl | rfl | rfl) _
  · rw [abs_of_neg (by rw [Real.log_one]; linarith [l3.1]), Real.log_one]
    exact hb.trans (by linarith [l3.1])
  · rw [abs_of_neg (by linarith [l3.1])]
    exact hb.trans (by linarith [l3.1])
  · rw [abs_of_pos (by linarith [l3.2])]
    exact hb.trans (by linarith [l3.2])

end PNDL
