import Verif.Model.FloatBins
import Verif.Props.Energy
import Verif.Props.Angle
import Verif.Props.FloatTab
import Verif.Props.FloatExact

/-! C165: equiprobable bins and angular distributions in binary64 arithmetic. -/
namespace PNDL
open Spec

private theorem mul_lt_self {fl : ℝ → ℝ} (hfl : IsRoundToNearest fl) {d x : ℝ} (hd : IsDouble d) (hb : 2 ^ 53 * eta ≤ d) (hx : IsDouble x)
    (h1 : x < 1) : fl (d * x) < d := by
  have hη := eta_pos
  have hle := double_below_one hx h1
  have hn : (2 : ℝ) ^ (-1022 : ℤ) = 2 ^ 52 * eta := by
    unfold eta
    rw [← zpow_natCast, ← zpow_add₀ (by norm_num)]
    norm_num
  obtain ⟨m, e, hm0, hm1, rfl⟩ := double_normal hd (by rw [hn]; linarith)
  have hm0' : (2 : ℝ) ^ 52 ≤ m := by exact_mod_cast hm0
  have hm1' : (m : ℝ) < 2 ^ 53 := by exact_mod_cast hm1
  obtain ⟨e, rfl⟩ : ∃ e', e = e' + 1 := by
    cases e with
    | zero => rw [pow_zero, mul_one] at hb; have := le_of_mul_le_mul_right hb hη; linarith
    | succ e => exact ⟨e, rfl⟩
  obtain ⟨q, hq⟩ : ∃ q : ℝ, q = 2 ^ e * eta := ⟨_, rfl⟩
  have hq0 : 0 < q := by rw [hq]; positivity
  have ed : (m : ℝ) * 2 ^ (e + 1) * eta = 2 * m * q := by rw [hq, pow_succ]; ring
  have hdp : 0 ≤ (m : ℝ) * 2 ^ (e + 1) * eta := by rw [ed]; have := mul_pos (show (0 : ℝ) < m by linarith) hq0; linarith
  refine lt_of_le_of_lt (fl_mono hfl (mul_le_mul_of_nonneg_left hle hdp)) ?_
  rw [ed, uround_eq]
  rcases eq_or_lt_of_le hm0 with hm | hm
  · have ht : IsDouble ((2 ^ 53 - 1 : ℤ) * 2 ^ e * eta) := isDouble_scaled (by norm_num) e
    have et : 2 * (m : ℝ) * q * (1 - 1 / 2 ^ 53) = ((2 ^ 53 - 1 : ℤ) : ℝ) * 2 ^ e * eta := by
      rw [← hm, mul_assoc _ ((2 : ℝ) ^ e), ← hq]; push_cast; ring
    rw [et, fl_self hfl ht, mul_assoc, ← hq, ← hm]
    push_cast
    linarith
  · have hm' : (2 : ℝ) ^ 52 + 1 ≤ m := by exact_mod_cast hm
    have hc : IsDouble (((m - 1 : ℤ) : ℝ) * 2 ^ (e + 1) * eta) := isDouble_scaled (by rw [abs_le]; constructor <;> linarith) (e + 1)
    have ec : ((m - 1 : ℤ) : ℝ) * 2 ^ (e + 1) * eta = 2 * (m - 1) * q := by rw [hq, pow_succ]; push_cast; ring
    rw [ec] at hc
    have hmin := (hfl (2 * (m : ℝ) * q * (1 - 1 / 2 ^ 53))).2 _ hc
    have k1 : ((2 : ℝ) ^ 52 + 1) * q ≤ m * q := mul_le_mul_of_nonneg_right hm' hq0.le
    have k2 : (m : ℝ) * q ≤ 2 ^ 53 * q := mul_le_mul_of_nonneg_right hm1'.le hq0.le
    by_contra hcon
    rw [not_lt] at hcon
    rw [abs_of_nonneg (show 0 ≤ fl (2 * (m : ℝ) * q * (1 - 1 / 2 ^ 53)) - 2 * (m : ℝ) * q * (1 - 1 / 2 ^ 53) by norm_num at k1 k2 ⊢; linarith),
      abs_of_nonpos (show 2 * ((m : ℝ) - 1) * q - 2 * (m : ℝ) * q * (1 - 1 / 2 ^ 53) ≤ 0 by norm_num at k1 k2 ⊢; linarith)] at hmin
    norm_num at k1 k2 hmin hcon
    linarith

/-- The distance between two doubles, computed, times a random number, computed, is not more than the distance. -/
private theorem step_le {fl : ℝ → ℝ} (hfl : IsRoundToNearest fl) {lo hi x : ℝ} (hlo : IsDouble lo) (hhi : IsDouble hi) (h : lo ≤ hi)
    (hx : IsDouble x) (h0 : 0 ≤ x) (h1 : x < 1) : 0 ≤ fl (fl (hi - lo) * x) ∧ fl (fl (hi - lo) * x) ≤ hi - lo := by
  have hη := eta_pos
  have hr0 : 0 ≤ hi - lo := by linarith
  have hd0 := fl_nonneg hfl hr0
  refine ⟨fl_nonneg hfl (mul_nonneg hd0 h0), ?_⟩
  have hmul : fl (hi - lo) * x ≤ fl (hi - lo) := mul_le_of_le_one_right hd0 h1.le
  by_cases hs : hi - lo ≤ 2 ^ 53 * eta
  · obtain ⟨A, hA⟩ := hlo.int_mul
    obtain ⟨B, hB⟩ := hhi.int_mul
    have e : hi - lo = ((B - A : ℤ) : ℝ) * eta := by rw [hA, hB]; push_cast; ring
    have hdd : IsDouble (hi - lo) := by
      rw [e]
      refine isDouble_small ?_
      rw [e] at hs hr0
      have k1 : ((B - A : ℤ) : ℝ) ≤ 2 ^ 53 := le_of_mul_le_mul_right hs hη
      have k0 : 0 ≤ ((B - A : ℤ) : ℝ) := nonneg_of_mul_nonneg_left hr0 hη
      have k0' : 0 ≤ B - A := by exact_mod_cast k0
      rw [abs_of_nonneg k0']
      exact_mod_cast k1
    rw [fl_self hfl hdd] at hmul ⊢
    exact fl_le hfl hdd hmul
  · rw [not_le] at hs
    have hbd : IsDouble (2 ^ 53 * eta) := by
      have := isDouble_small (k := 2 ^ 53) (by norm_num)
      rwa [Int.cast_pow, Int.cast_ofNat] at this
    have hbig : 2 ^ 53 * eta ≤ fl (hi - lo) := le_fl hfl hbd hs.le
    have hlt := mul_lt_self hfl (hfl (hi - lo)).1 hbig hx h1
    by_contra hc
    rw [not_le] at hc
    have := (hfl (hi - lo)).2 _ (hfl (fl (hi - lo) * x)).1
    rw [abs_of_pos (show 0 < fl (hi - lo) - (hi - lo) by linarith), abs_of_pos (show 0 < fl (fl (hi - lo) * x) - (hi - lo) by linarith)] at this
    linarith

private theorem point_between {fl : ℝ → ℝ} (hfl : IsRoundToNearest fl) {lo hi x : ℝ} (hlo : IsDouble lo) (hhi : IsDouble hi) (h : lo ≤ hi)
    (hx : IsDouble x) (h0 : 0 ≤ x) (h1 : x < 1) : lo ≤ fl (fl (fl (hi - lo) * x) + lo) ∧ fl (fl (fl (hi - lo) * x) + lo) ≤ hi := by
  obtain ⟨a, b⟩ := step_le hfl hlo hhi h hx h0 h1
  exact ⟨le_fl hfl hlo (by linarith), fl_le hfl hhi (by linarith)⟩
/-- The three ways in which an energy meets a sorted grid of doubles. -/
private theorem grid_cases {fl : ℝ → ℝ} (hfl : IsRoundToNearest fl) {energy : List ℝ} (hs : energy.Pairwise (· ≤ ·)) (de : ∀ e ∈ energy, IsDouble e)
    (hpos : 0 < energy.length) (E : ℝ) :
    (lowerBound energy E = 0 ∧ Neighbour energy E 0) ∨
    (lowerBound energy E ≠ 0 ∧ lowerBound energy E = energy.length ∧ Neighbour energy E (energy.length - 1)) ∨
    (lowerBound energy E ≠ 0 ∧ lowerBound energy E ≠ energy.length ∧ ∃ x1 x2, subIdx (lowerBound energy E) 1 = .ok (lowerBound energy E - 1) ∧
      getAt energy (lowerBound energy E - 1) = .ok x1 ∧ getAt energy (lowerBound energy E - 1 + 1) = .ok x2 ∧
      rdivFl fl (fl (E - x1)) (fl (x2 - x1)) = .ok (fl (fl (E - x1) / fl (x2 - x1))) ∧
      Neighbour energy E (lowerBound energy E - 1) ∧ Neighbour energy E (lowerBound energy E) ∧ lowerBound energy E < energy.length) := by
  obtain ⟨first, h0⟩ := getElem?_of_lt (l := energy) (i := 0) hpos
  obtain ⟨last, h1⟩ := last_exists (l := energy) hpos
  have hlast : energy[energy.length - 1]? = some last := by rw [← List.getLast?_eq_getElem?]; exact h1
  by_cases hz : lowerBound energy E = 0
  · left
    have hE : E ≤ first := by
      by_contra hc
      have := (lowerBound_iff hs E h0).mp (not_le.mp hc); omega
    refine ⟨hz, first, h0, fun a ha => ?_⟩
    obtain ⟨j, hj⟩ := List.mem_iff_getElem?.mp ha
    have := pairwise_le_getElem? hs (Nat.zero_le _) h0 hj
    constructor <;> rintro ⟨p, q⟩ <;> linarith
  right
  by_cases hl : lowerBound energy E = energy.length
  · left
    have hE : last < E := (lowerBound_iff hs E hlast).mpr (by omega)
    refine ⟨hz, hl, last, hlast, fun a ha => ?_⟩
    obtain ⟨j, hj⟩ := List.mem_iff_getElem?.mp ha
    have := pairwise_le_getElem? hs (by have := lt_length_of_some hj; omega) hj hlast
    constructor <;> rintro ⟨p, q⟩ <;> linarith
  · right
    have hle := lowerBound_le hs E
    have hpos2 : 0 < lowerBound energy E := Nat.pos_of_ne_zero hz
    obtain ⟨x1, g1⟩ := getElem?_of_lt (l := energy) (i := lowerBound energy E - 1) (by omega)
    obtain ⟨x2, g2⟩ := getElem?_of_lt (l := energy) (i := lowerBound energy E) (by omega)
    have a1 : x1 < E := (lowerBound_iff hs E g1).mpr (by omega)
    have a2 : E ≤ x2 := by
      by_contra hc
      have := (lowerBound_iff hs E g2).mp (not_le.mp hc); omega
    have hN : ∀ a ∈ energy, a ≤ x1 ∨ x2 ≤ a := by
      intro a ha
      obtain ⟨j, hj⟩ := List.mem_iff_getElem?.mp ha
      rcases Nat.lt_or_ge j (lowerBound energy E) with h | h
      · exact .inl (pairwise_le_getElem? hs (by omega) hj g1)
      · exact .inr (pairwise_le_getElem? hs h g2 hj)
    have hg2 : getAt energy (lowerBound energy E - 1 + 1) = .ok x2 := by
      rw [show lowerBound energy E - 1 + 1 = lowerBound energy E by omega]; exact getAt_eq_ok.mpr g2
    have hp := fl_sub_pos hfl (de _ (List.mem_of_getElem? g2)) (de _ (List.mem_of_getElem? g1)) (lt_of_lt_of_le a1 a2)
    refine ⟨hz, hl, x1, x2, subIdx_of_le hpos2, getAt_eq_ok.mpr g1, hg2, rdivFl_ok hp.ne', ⟨x1, g1, fun a ha => ?_⟩, ⟨x2, g2, fun a ha => ?_⟩, by omega⟩
    · rcases hN a ha with h | h <;> constructor <;> rintro ⟨p, q⟩ <;> linarith
    · rcases hN a ha with h | h <;> constructor <;> rintro ⟨p, q⟩ <;> linarith

/-- The double that sampling a set of equiprobable bounds returns, between the ends of the bin. -/
private theorem bins_ok {fl : ℝ → ℝ} (hfl : IsRoundToNearest fl) (bounds : List ℝ) (hs : bounds.Pairwise (· ≤ ·)) (db : ∀ b ∈ bounds, IsDouble b)
    (xi1 xi2 : ℝ) (h0 : 0 ≤ xi1) (h1 : fl (bounds.length * xi1) < bounds.length - 1) (d2 : IsDouble xi2) (h2 : 0 ≤ xi2) (h3 : xi2 < 1) :
    ∃ (i : Nat) (lo hi v : ℝ), bounds[i]? = some lo ∧ bounds[i + 1]? = some hi ∧ sampleBinsFl fl xi1 xi2 bounds = .ok v ∧ IsDouble v ∧
      lo ≤ v ∧ v ≤ hi ∧ v = fl (fl (fl (hi - lo) * xi2) + lo) ∧ (i : ℝ) ≤ fl (bounds.length * xi1) ∧ fl (bounds.length * xi1) < i + 1 := by
  have hf0 : 0 ≤ fl (bounds.length * xi1) := fl_nonneg hfl (mul_nonneg (Nat.cast_nonneg _) h0)
  have hpos : 1 ≤ bounds.length := by
    by_contra hc
    have : bounds.length = 0 := by omega
    rw [this] at h1 hf0
    rw [Nat.cast_zero] at h1 hf0
    linarith
  have hlt : drawFl fl bounds.length xi1 < bounds.length - 1 := by
    unfold drawFl
    rw [Nat.floor_lt hf0, Nat.cast_sub hpos, Nat.cast_one]
    exact h1
  obtain ⟨lo, a1, a2⟩ := getAt_exists (l := bounds) (i := drawFl fl bounds.length xi1) (by omega)
  obtain ⟨hi, b1, b2⟩ := getAt_exists (l := bounds) (i := drawFl fl bounds.length xi1 + 1) (by omega)
  have hle := pairwise_le_getElem? hs (Nat.le_succ _) a2 b2
  obtain ⟨p, q⟩ := point_between hfl (db _ (List.mem_of_getElem? a2)) (db _ (List.mem_of_getElem? b2)) hle d2 h2 h3
  refine ⟨_, lo, hi, _, a2, b2, ?_, (hfl _).1, p, q, rfl, Nat.floor_le hf0, Nat.lt_floor_add_one _⟩
  simp only [sampleBinsFl, bind, Except.bind, a1, b1]
  rfl

/-- **C165** Sampling equiprobable bounds in double arithmetic returns a double between two consecutive bounds -- rounding never takes it out of the
bin -- as long as the computed `n * xi1` is below `n - 1`.  Missing: the draws above that, for which the code reads outside the bounds
(`C165_undefined_iff`). -/
theorem C165_in_bin_partial (fl : ℝ → ℝ) (hfl : IsRoundToNearest fl) (bounds : List ℝ) (hs : bounds.Pairwise (· ≤ ·)) (db : ∀ b ∈ bounds, IsDouble b)
    (xi1 xi2 : ℝ) (h0 : 0 ≤ xi1) (h1 : fl (bounds.length * xi1) < bounds.length - 1) (d2 : IsDouble xi2) (h2 : 0 ≤ xi2) (h3 : xi2 < 1) :
    ∃ (i : Nat) (lo hi v : ℝ), bounds[i]? = some lo ∧ bounds[i + 1]? = some hi ∧ sampleBinsFl fl xi1 xi2 bounds = .ok v ∧ IsDouble v ∧
      lo ≤ v ∧ v ≤ hi ∧ (i : ℝ) ≤ fl (bounds.length * xi1) ∧ fl (bounds.length * xi1) < i + 1 := by
  obtain ⟨i, lo, hi, v, q1, q2, q3, q4, q5, q6, _, q7⟩ := bins_ok hfl bounds hs db xi1 xi2 h0 h1 d2 h2 h3
  exact ⟨i, lo, hi, v, q1, q2, q3, q4, q5, q6, q7⟩

/-- **C165** Which draws read outside the bounds in double arithmetic. -/
theorem C165_undefined_iff (fl : ℝ → ℝ) (hfl : IsRoundToNearest fl) (bounds : List ℝ) (hb : bounds ≠ []) (xi1 xi2 : ℝ) (h0 : 0 ≤ xi1) :
    sampleBinsFl fl xi1 xi2 bounds = .error .ub ↔ (bounds.length : ℝ) - 1 ≤ fl (bounds.length * xi1) := by
  have hpos : 0 < bounds.length := List.length_pos_iff.mpr hb
  have hf0 : 0 ≤ fl (bounds.length * xi1) := fl_nonneg hfl (mul_nonneg (Nat.cast_nonneg _) h0)
  have hkey : drawFl fl bounds.length xi1 + 1 < bounds.length ↔ fl (bounds.length * xi1) < bounds.length - 1 := by
    rw [show drawFl fl bounds.length xi1 + 1 < bounds.length ↔ drawFl fl bounds.length xi1 < bounds.length - 1 by omega, drawFl,
      Nat.floor_lt hf0, Nat.cast_sub hpos, Nat.cast_one]
  simp only [sampleBinsFl, bind, Except.bind]
  by_cases h : drawFl fl bounds.length xi1 + 1 < bounds.length
  · rw [getAt_of_lt h, getAt_of_lt (by omega : drawFl fl bounds.length xi1 < bounds.length)]
    have := hkey.mp h
    constructor
    · intro hc; cases hc
    · intro hc; linarith
  · rw [getAt_of_le (by omega)]
    have h' := mt hkey.mpr h
    constructor
    · intro _; linarith
    · intro _; rfl

/-- **C165** (the code violates the full property, in double arithmetic too) every set of bounds and every draw of at least `(n-1)/n` read outside the bounds. -/
theorem C165_violation (fl : ℝ → ℝ) (hfl : IsRoundToNearest fl) (bounds : List ℝ) (hb : bounds ≠ []) (hn : bounds.length ≤ 2 ^ 53) (xi1 xi2 : ℝ)
    (h : ((bounds.length : ℝ) - 1) / bounds.length ≤ xi1) : sampleBinsFl fl xi1 xi2 bounds = .error .ub := by
  have hpos : 0 < bounds.length := List.length_pos_iff.mpr hb
  have hpos' : (0 : ℝ) < bounds.length := by exact_mod_cast hpos
  have h1 : (1 : ℝ) ≤ bounds.length := by exact_mod_cast hpos
  refine (C165_undefined_iff fl hfl bounds hb xi1 xi2 (le_trans (div_nonneg (by linarith) hpos'.le) h)).mpr ?_
  have hd := isDouble_nat (n := bounds.length - 1) (by omega)
  rw [Nat.cast_sub hpos, Nat.cast_one] at hd
  refine le_fl hfl hd ?_
  rw [div_le_iff₀ hpos'] at h
  linarith

/-- **C165** In a bin, a larger draw never gives a smaller energy, in double arithmetic too. -/
theorem C165_monotone (fl : ℝ → ℝ) (hfl : IsRoundToNearest fl) (bounds : List ℝ) (hs : bounds.Pairwise (· ≤ ·)) (xi1 xi2 xi2' v v' : ℝ) (hx : xi2 ≤ xi2')
    (h : sampleBinsFl fl xi1 xi2 bounds = .ok v) (h' : sampleBinsFl fl xi1 xi2' bounds = .ok v') : v ≤ v' := by
  simp only [sampleBinsFl, bind, Except.bind] at h h'
  cases hh : getAt bounds (drawFl fl bounds.length xi1 + 1) with
  | error e => rw [hh] at h; cases h
  | ok hi =>
    cases hl : getAt bounds (drawFl fl bounds.length xi1) with
    | error e => rw [hh, hl] at h; cases h
    | ok lo =>
      rw [hh, hl] at h h'
      cases h
      cases h'
      have hle := pairwise_le_getElem? hs (Nat.le_succ _) (getAt_eq_ok.mp hl) (getAt_eq_ok.mp hh)
      have := fl_mono hfl (mul_le_mul_of_nonneg_left hx (fl_nonneg hfl (show 0 ≤ hi - lo by linarith)))
      exact fl_mono hfl (by linarith)

/-- **C165** (accuracy) The energy is the point that the second draw gives exactly, up to a few roundings of the larger of the two bounds. -/
theorem C165_close (fl : ℝ → ℝ) (hfl : IsRoundToNearest fl) (bounds : List ℝ) (hs : bounds.Pairwise (· ≤ ·)) (db : ∀ b ∈ bounds, IsDouble b)
    (xi1 xi2 : ℝ) (h0 : 0 ≤ xi1) (h1 : fl (bounds.length * xi1) < bounds.length - 1) (d2 : IsDouble xi2) (h2 : 0 ≤ xi2) (h3 : xi2 < 1) :
    ∃ (i : Nat) (lo hi v : ℝ), bounds[i]? = some lo ∧ bounds[i + 1]? = some hi ∧ sampleBinsFl fl xi1 xi2 bounds = .ok v ∧
      |v - (lo + xi2 * (hi - lo))| ≤ (2 : ℝ) ^ (-50 : ℤ) * max |lo| |hi| + (2 : ℝ) ^ (-1074 : ℤ) := by
  obtain ⟨i, lo, hi, v, q1, q2, q3, _, _, _, q4, _⟩ := bins_ok hfl bounds hs db xi1 xi2 h0 h1 d2 h2 h3
  refine ⟨i, lo, hi, v, q1, q2, q3, ?_⟩
  have hle := pairwise_le_getElem? hs (Nat.le_succ _) q1 q2
  have dlo := db _ (List.mem_of_getElem? q1)
  have dhi := db _ (List.mem_of_getElem? q2)
  have e1 := fl_sub_error hfl dhi dlo
  have e2 := (fl_error hfl (fl (hi - lo) * xi2)).1
  have e3 := fl_add_error hfl (hfl (fl (hi - lo) * xi2)).1 dlo
  obtain ⟨s1, s2⟩ := step_le hfl dlo dhi hle d2 h2 h3
  rw [← q4] at e3
  have hM1 : |lo| ≤ max |lo| |hi| := le_max_left _ _
  have hM2 : |hi| ≤ max |lo| |hi| := le_max_right _ _
  generalize max |lo| |hi| = M at *
  rw [abs_le] at hM1 hM2
  have hs3 : |fl (fl (hi - lo) * xi2) + lo| ≤ M := abs_le.mpr ⟨by linarith [hM1.1], by linarith [hM2.2]⟩
  have hr0 : 0 ≤ hi - lo := by linarith
  rw [abs_of_nonneg hr0] at e1
  have hd0 := fl_nonneg hfl hr0
  generalize fl (hi - lo) = d at *
  rw [abs_of_nonneg (mul_nonneg hd0 h2)] at e2
  generalize fl (d * xi2) = y at *
  have hu : uround = 1 / 2 ^ 53 := uround_eq
  have he : eta = (2 : ℝ) ^ (-1074 : ℤ) := rfl
  rw [← he]
  have hη := eta_pos
  generalize eta = η at *
  rw [hu] at e1 e2 e3
  rw [abs_le] at e1 e2 e3 ⊢
  have hrM : hi - lo ≤ 2 * M := by linarith [hM1.1, hM2.2]
  have hdx : |(d - (hi - lo)) * xi2| ≤ 1 / 2 ^ 53 * (hi - lo) := by
    rw [abs_mul, abs_of_nonneg h2]
    have : |d - (hi - lo)| ≤ 1 / 2 ^ 53 * (hi - lo) := abs_le.mpr e1
    have h4 := mul_le_mul this h3.le h2 (by linarith [abs_nonneg (d - (hi - lo))])
    linarith
  rw [abs_le] at hdx
  have hdm : d * xi2 ≤ d := mul_le_of_le_one_right hd0 h3.le
  have hM0 : 0 ≤ M := by linarith
  have ev : v - (lo + xi2 * (hi - lo)) = (v - (y + lo)) + (y - d * xi2) + (d - (hi - lo)) * xi2 := by ring
  rw [ev]
  have h50 : (2 : ℝ) ^ (-50 : ℤ) = 8 / 2 ^ 53 := by norm_num
  rw [h50]
  have k1 : 1 / 2 ^ 53 * |y + lo| ≤ 1 / 2 ^ 53 * M := mul_le_mul_of_nonneg_left hs3 (by norm_num)
  generalize |y + lo| = z at *
  have hd3 : d ≤ 3 * M := by linarith [e1.2]
  constructor
  · linarith [e3.1, e2.1, hdx.1]
  · linarith [e3.2, e2.2, hdx.2]

/-- **C165** Sampling `EquiprobableEnergyBins` in double arithmetic: with the draws below the bad ones the energy is a double between two consecutive
bounds of the bins of a neighbouring incoming energy, whichever way the two draws are handed over. -/
theorem C165_energy_partial (fl : ℝ → ℝ) (hfl : IsRoundToNearest fl) (energy : List ℝ) (bins : List (List ℝ)) (d : EnergyBins)
    (hd : EnergyBins.make energy bins = .ok d) (hne : energy ≠ []) (de : ∀ e ∈ energy, IsDouble e) (db : ∀ b ∈ bins, ∀ x ∈ b, IsDouble x)
    (swap : Bool) (E : ℝ) (ω : Tape) (hω : UnitTape ω) (dω : ∀ j, IsDouble (ω j))
    (hsmall : ∀ j, ∀ b ∈ bins, fl (b.length * ω j) < b.length - 1) (k : Nat) :
    ∃ (i j : Nat) (b : List ℝ) (lo hi v : ℝ) (k' : Nat), Neighbour energy E i ∧ bins[i]? = some b ∧ b[j]? = some lo ∧
      b[j + 1]? = some hi ∧ d.sampleFl fl swap E ω k = .ok (v, k') ∧ IsDouble v ∧ lo ≤ v ∧ v ≤ hi := by
  obtain ⟨e1, e2, hs, hlen, hbs⟩ := EnergyBins.make_valid hd
  have hpos : 0 < energy.length := List.length_pos_iff.mpr hne
  have go : ∀ (i : Nat) (k : Nat), i < energy.length → ∃ (b : List ℝ), bins[i]? = some b ∧
      ∃ (j : Nat) (lo hi v : ℝ), b[j]? = some lo ∧ b[j + 1]? = some hi ∧ IsDouble v ∧ lo ≤ v ∧ v ≤ hi ∧
      (if swap then sampleBinsFl fl (ω (k + 1)) (ω k) b else sampleBinsFl fl (ω k) (ω (k + 1)) b : Res ℝ) = .ok v := by
    intro i k hi
    obtain ⟨b, hbi⟩ := getElem?_of_lt (l := bins) (i := i) (by omega)
    have hmem := List.mem_of_getElem? hbi
    cases swap with
    | true =>
      obtain ⟨j, lo, hi', v, q1, q2, q3, q4, q5, q6, _⟩ := bins_ok hfl b (hbs b hmem) (db b hmem) (ω (k + 1)) (ω k)
        (hω _).1 (hsmall _ b hmem) (dω _) (hω _).1 (hω _).2
      exact ⟨b, hbi, j, lo, hi', v, q1, q2, q4, q5, q6, q3⟩
    | false =>
      obtain ⟨j, lo, hi', v, q1, q2, q3, q4, q5, q6, _⟩ := bins_ok hfl b (hbs b hmem) (db b hmem) (ω k) (ω (k + 1))
        (hω _).1 (hsmall _ b hmem) (dω _) (hω _).1 (hω _).2
      exact ⟨b, hbi, j, lo, hi', v, q1, q2, q4, q5, q6, q3⟩
  unfold EnergyBins.sampleFl
  rw [e1, e2]
  rcases grid_cases hfl hs de hpos E with ⟨hz, hN⟩ | ⟨hz, hl, hN⟩ | ⟨hz, hl, x1, x2, p1, p2, p3, p4, hN1, hN2, hlt⟩
  · obtain ⟨b, hbi, j, lo, hi, v, q1, q2, q0, q3, q4, q5⟩ := go 0 k hpos
    refine ⟨0, j, b, lo, hi, v, k + 2, hN, hbi, q1, q2, ?_, q0, q3, q4⟩
    simp only [hz, if_true, bind, Except.bind, front_eq_ok.mpr hbi, q5]
    rfl
  · obtain ⟨b, hbi, j, lo, hi, v, q1, q2, q0, q3, q4, q5⟩ := go (energy.length - 1) k (by omega)
    refine ⟨energy.length - 1, j, b, lo, hi, v, k + 2, hN, hbi, q1, q2, ?_, q0, q3, q4⟩
    have hbk : back bins = .ok b := back_eq_ok.mpr (by rw [List.getLast?_eq_getElem?, ← hlen]; exact hbi)
    simp only [if_neg hz, if_pos hl, bind, Except.bind, hbk, q5]
    rfl
  · simp only [if_neg hz, if_neg hl, bind, Except.bind, p1, p2, p3, p4]
    by_cases hf : ω k > fl (fl (E - x1) / fl (x2 - x1))
    · obtain ⟨b, hbi, j, lo, hi, v, q1, q2, q0, q3, q4, q5⟩ := go (lowerBound energy E - 1) (k + 1) (by omega)
      refine ⟨_, j, b, lo, hi, v, k + 1 + 2, hN1, hbi, q1, q2, ?_, q0, q3, q4⟩
      rw [if_pos hf, getAt_eq_ok.mpr hbi]
      simp only [q5]
      rfl
    · obtain ⟨b, hbi, j, lo, hi, v, q1, q2, q0, q3, q4, q5⟩ := go (lowerBound energy E) (k + 1) (by omega)
      refine ⟨_, j, b, lo, hi, v, k + 1 + 2, hN2, hbi, q1, q2, ?_, q0, q3, q4⟩
      rw [if_neg hf, show lowerBound energy E - 1 + 1 = lowerBound energy E by omega, getAt_eq_ok.mpr hbi]
      simp only [q5]
      rfl

/-- **C165** Sampling `GeneralEvaporation` in double arithmetic: the energy is a double between two consecutive bounds, each times the temperature as
computed. -/
theorem C165_evaporation_partial (fl : ℝ → ℝ) (hfl : IsRoundToNearest fl) (bounds : List ℝ) (hs : bounds.Pairwise (· ≤ ·))
    (db : ∀ b ∈ bounds, IsDouble b) (T : ℝ) (hT : 0 ≤ T) (ω : Tape) (hω : UnitTape ω) (dω : ∀ j, IsDouble (ω j)) (k : Nat)
    (h1 : fl (bounds.length * ω k) < bounds.length - 1) :
    ∃ (i : Nat) (lo hi v : ℝ), bounds[i]? = some lo ∧ bounds[i + 1]? = some hi ∧ genEvapSampleFl fl (.ok T) bounds ω k = .ok (v, k + 2) ∧
      IsDouble v ∧ fl (lo * T) ≤ v ∧ v ≤ fl (hi * T) := by
  obtain ⟨i, lo, hi, v, q1, q2, q3, _, q5, q6, _⟩ := bins_ok hfl bounds hs db (ω k) (ω (k + 1)) (hω _).1 h1 (dω _) (hω _).1 (hω _).2
  refine ⟨i, lo, hi, fl (v * T), q1, q2, ?_, (hfl _).1, fl_mono hfl (mul_le_mul_of_nonneg_right q5 hT), fl_mono hfl (mul_le_mul_of_nonneg_right q6 hT)⟩
  simp only [genEvapSampleFl, bind, Except.bind, q3]
  rfl

/-! ## Angular distributions -/

/-- **C165** Every cosine that an angle law of any class returns in double arithmetic lies in `[-1, 1]`, for every law and whatever the computed density
of a Legendre law is. -/
theorem C165_law_range (fl : ℝ → ℝ) (hfl : IsRoundToNearest fl) (accept : Legendre → ℝ → ℝ) (law : AngleLaw) (ω : Tape) (hω : UnitTape ω)
    (fuel k k' : Nat) (mu : ℝ) (h : law.sampleFl fl accept fuel ω k = .ok (mu, k')) : -1 ≤ mu ∧ mu ≤ 1 := by
  cases law with
  | isotropic => cases h; exact clampMu_mem _
  | bins b =>
    simp only [AngleLaw.sampleFl, binsSampleFl, bind, Except.bind] at h
    split at h
    · cases h
    · cases h; exact clampMu_mem _
  | table t =>
    simp only [AngleLaw.sampleFl, angleTableSampleFl, bind, Except.bind] at h
    split at h
    · cases h
    · cases h; exact clampMu_mem _
  | legendre s =>
    have : ∀ (fuel k : Nat), s.sampleFl fl accept ω fuel k = .ok (mu, k') → -1 ≤ mu ∧ mu ≤ 1 := by
      intro fuel
      induction fuel with
      | zero => intro k h; cases h
      | succ fuel ih =>
        intro k h
        simp only [Legendre.sampleFl] at h
        split at h
        · cases h
          have h2 := isDouble_nat (n := 2) (by norm_num)
          have h1 := isDouble_nat (n := 1) (by norm_num)
          push_cast at h1 h2
          have a0 := fl_nonneg hfl (show 0 ≤ 2 * ω k by linarith [(hω k).1])
          have a1 := fl_le hfl h2 (show 2 * ω k ≤ 2 by linarith [(hω k).2])
          exact ⟨le_fl hfl h1.neg (by linarith), fl_le hfl h1 (by linarith)⟩
        · exact ih _ h
    exact this fuel k h

private theorem clamp_of_mem {mu : ℝ} (h : -1 ≤ mu ∧ mu ≤ 1) : clampMu mu = mu := by
  unfold clampMu
  rw [if_neg (not_lt.mpr (abs_le.mpr h))]

/-- **C165** Sampling an angular distribution in double arithmetic is sampling, with the same stream, one of the laws of a neighbouring incoming energy;
the outer clamp changes nothing. -/
theorem C165_neighbour (fl : ℝ → ℝ) (hfl : IsRoundToNearest fl) (accept : Legendre → ℝ → ℝ) (energy : List ℝ) (laws : List AngleLaw) (d : AngleDist)
    (hd : AngleDist.make energy laws = .ok d) (hne : energy ≠ []) (de : ∀ e ∈ energy, IsDouble e) (fuel : Nat) (E : ℝ) (ω : Tape) (hω : UnitTape ω)
    (k : Nat) :
    ∃ (i : Nat) (law : AngleLaw) (k0 : Nat), Neighbour energy E i ∧ laws[i]? = some law ∧ (k0 = k ∨ k0 = k + 1) ∧
      d.sampleFl fl accept fuel E ω k = law.sampleFl fl accept fuel ω k0 := by
  obtain ⟨e1, e2, hs, hlen⟩ : d.energy = energy ∧ d.laws = laws ∧ energy.Pairwise (· ≤ ·) ∧ energy.length = laws.length := by
    unfold AngleDist.make at hd
    split at hd
    · cases hd
    · split at hd
      · cases hd
      · rename_i h1 h2
        cases hd
        exact ⟨rfl, rfl, isSorted_iff.mp (by simpa using h2), by simpa using h1⟩
  have hpos : 0 < energy.length := List.length_pos_iff.mpr hne
  unfold AngleDist.sampleFl
  rw [e1, e2]
  rcases grid_cases hfl hs de hpos E with ⟨hz, hN⟩ | ⟨hz, hl, hN⟩ | ⟨hz, hl, x1, x2, p1, p2, p3, p4, hN1, hN2, hlt⟩
  · obtain ⟨law, hb⟩ := getElem?_of_lt (l := laws) (i := 0) (by omega)
    refine ⟨0, law, k, hN, hb, Or.inl rfl, ?_⟩
    simp only [hz, if_true, bind, Except.bind, front_eq_ok.mpr hb]
  · obtain ⟨law, hb⟩ := getElem?_of_lt (l := laws) (i := energy.length - 1) (by omega)
    have hbk : back laws = .ok law := back_eq_ok.mpr (by rw [List.getLast?_eq_getElem?, ← hlen]; exact hb)
    refine ⟨energy.length - 1, law, k, hN, hb, Or.inl rfl, ?_⟩
    simp only [if_neg hz, if_pos hl, bind, Except.bind, hbk]
  · simp only [if_neg hz, if_neg hl, bind, Except.bind, p1, p2, p3, p4]
    by_cases hf : ω k > fl (fl (E - x1) / fl (x2 - x1))
    · obtain ⟨law, hb⟩ := getElem?_of_lt (l := laws) (i := lowerBound energy E - 1) (by omega)
      refine ⟨_, law, k + 1, hN1, hb, Or.inr rfl, ?_⟩
      simp only [if_pos hf, getAt_eq_ok.mpr hb]
      cases h : law.sampleFl fl accept fuel ω (k + 1) with
      | error e => rfl
      | ok r => simp only [clamp_of_mem (C165_law_range fl hfl accept law ω hω fuel (k + 1) r.2 r.1 h)]; rfl
    · obtain ⟨law, hb⟩ := getElem?_of_lt (l := laws) (i := lowerBound energy E) (by omega)
      refine ⟨_, law, k + 1, hN2, hb, Or.inr rfl, ?_⟩
      simp only [if_neg hf, show lowerBound energy E - 1 + 1 = lowerBound energy E by omega, getAt_eq_ok.mpr hb]
      cases h : law.sampleFl fl accept fuel ω (k + 1) with
      | error e => rfl
      | ok r => simp only [clamp_of_mem (C165_law_range fl hfl accept law ω hω fuel (k + 1) r.2 r.1 h)]; rfl

/-- **C165** so every cosine that an angular distribution returns in double arithmetic lies in `[-1, 1]`. -/
theorem C165_range (fl : ℝ → ℝ) (hfl : IsRoundToNearest fl) (accept : Legendre → ℝ → ℝ) (energy : List ℝ) (laws : List AngleLaw) (d : AngleDist)
    (hd : AngleDist.make energy laws = .ok d) (hne : energy ≠ []) (de : ∀ e ∈ energy, IsDouble e) (fuel : Nat) (E : ℝ) (ω : Tape) (hω : UnitTape ω)
    (k k' : Nat) (mu : ℝ) (h : d.sampleFl fl accept fuel E ω k = .ok (mu, k')) : -1 ≤ mu ∧ mu ≤ 1 := by
  obtain ⟨i, law, k0, _, _, _, e⟩ := C165_neighbour fl hfl accept energy laws d hd hne de fuel E ω hω k
  rw [e] at h
  exact C165_law_range fl hfl accept law ω hω fuel k0 k' mu h

/-- **C165** At an energy of a strictly increasing grid only the law of that energy is sampled, in double arithmetic too: the interpolation factor is
computed as exactly 1. -/
theorem C165_tabulated (fl : ℝ → ℝ) (hfl : IsRoundToNearest fl) (accept : Legendre → ℝ → ℝ) (energy : List ℝ) (laws : List AngleLaw) (d : AngleDist)
    (hd : AngleDist.make energy laws = .ok d) (hst : energy.Pairwise (· < ·)) (de : ∀ e ∈ energy, IsDouble e) (i : Nat) (E : ℝ) (law : AngleLaw)
    (hi : energy[i]? = some E) (hl : laws[i]? = some law) (fuel : Nat) (ω : Tape) (hω : UnitTape ω) (k : Nat) :
    d.sampleFl fl accept fuel E ω k = law.sampleFl fl accept fuel ω (if i = 0 then k else k + 1) := by
  obtain ⟨e1, e2⟩ : d.energy = energy ∧ d.laws = laws := by
    unfold AngleDist.make at hd
    split at hd
    · cases hd
    · split at hd
      · cases hd
      · cases hd; exact ⟨rfl, rfl⟩
  have hs : energy.Pairwise (· ≤ ·) := hst.imp fun h => le_of_lt h
  have hlt := lt_length_of_some hi
  have hlb : lowerBound energy E = i := by
    have h1 : ¬ i < lowerBound energy E := fun hc => lt_irrefl E ((lowerBound_iff hs E hi).mpr hc)
    have h2 : ¬ lowerBound energy E < i := by
      intro hc
      obtain ⟨x, hx⟩ := getElem?_of_lt (l := energy) (i := lowerBound energy E) (by omega)
      have hxE : x < E := by
        obtain ⟨_, ex⟩ := List.getElem?_eq_some_iff.mp hx
        obtain ⟨_, eE⟩ := List.getElem?_eq_some_iff.mp hi
        have := List.pairwise_iff_getElem.mp hst _ _ ‹_› ‹_› hc
        rwa [ex, eE] at this
      have := (lowerBound_iff hs E hx).mp hxE
      omega
    omega
  unfold AngleDist.sampleFl
  rw [e1, e2, hlb]
  by_cases hz : i = 0
  · rw [if_pos hz]
    subst hz
    simp only [if_true, bind, Except.bind, front_eq_ok.mpr hl]
  · rw [if_neg hz]
    obtain ⟨x, hx⟩ := getElem?_of_lt (l := energy) (i := i - 1) (by omega)
    have hxE : x < E := by
      obtain ⟨_, ex⟩ := List.getElem?_eq_some_iff.mp hx
      obtain ⟨_, eE⟩ := List.getElem?_eq_some_iff.mp hi
      rw [← ex, ← eE]
      exact List.pairwise_iff_getElem.mp hst _ _ _ _ (by omega)
    have hp := fl_sub_pos hfl (de _ (List.mem_of_getElem? hi)) (de _ (List.mem_of_getElem? hx)) hxE
    have h1 := isDouble_nat (n := 1) (by norm_num)
    push_cast at h1
    have hg : getAt energy (i - 1 + 1) = .ok E := by rw [show i - 1 + 1 = i by omega]; exact getAt_eq_ok.mpr hi
    have hgl : getAt laws (i - 1 + 1) = .ok law := by rw [show i - 1 + 1 = i by omega]; exact getAt_eq_ok.mpr hl
    have hf : rdivFl fl (fl (E - x)) (fl (E - x)) = .ok 1 := by rw [rdivFl_ok hp.ne', div_self hp.ne', fl_self hfl h1]
    simp only [if_neg hz, if_neg (show i ≠ energy.length by omega), bind, Except.bind, subIdx_of_le (show 1 ≤ i by omega), getAt_eq_ok.mpr hx, hg, hf,
      if_neg (not_lt.mpr (hω k).2.le), hgl, gt_iff_lt]
    cases h : law.sampleFl fl accept fuel ω (k + 1) with
    | error e => rfl
    | ok r => simp only [clamp_of_mem (C165_law_range fl hfl accept law ω hω fuel (k + 1) r.2 r.1 h)]; rfl

/-- **C165** Isotropic laws and 33 equiprobable bounds always return a cosine, in double arithmetic too: the bin index never leaves the bounds. -/
theorem C165_returns (fl : ℝ → ℝ) (hfl : IsRoundToNearest fl) (accept : Legendre → ℝ → ℝ) (law : AngleLaw)
    (hlaw : law = .isotropic ∨ ∃ b, law = .bins b ∧ binsMake b = .ok b) (ω : Tape) (hω : UnitTape ω) (dω : ∀ j, IsDouble (ω j)) (fuel k : Nat) :
    ∃ mu, law.sampleFl fl accept fuel ω k = .ok (mu, k + 1) ∧ -1 ≤ mu ∧ mu ≤ 1 := by
  rcases hlaw with rfl | ⟨b, rfl, hb⟩
  · exact ⟨_, rfl, clampMu_mem _⟩
  · obtain ⟨_, hlen, _⟩ := binsMake_ok hb
    have hx := C129_index hfl 33 (by norm_num) (ω k) (dω k) (hω k).1 (hω k).2
    obtain ⟨x, hx1⟩ := getElem?_of_lt (l := b) (i := drawFl fl 33 (ω k)) (by omega)
    refine ⟨_, ?_, clampMu_mem (fl (fl (fl (ω k - fl ((drawFl fl 33 (ω k) : ℝ) * (1 / 32))) / (1 / 32)) + x))⟩
    simp only [AngleLaw.sampleFl, binsSampleFl, if_neg hx.ne, getAt_eq_ok.mpr hx1, bind, Except.bind]
    rfl

/-! ## The model -/

/-- **C165** (the model) Without rounding, these are the samplers of the exact model (C40): equiprobable bins and general evaporation. -/
theorem C165_exact (d : EnergyBins) (swap : Bool) (temp : Tab1D) (bounds : List ℝ) (E : ℝ) (ω : Tape) (k : Nat) :
    d.sampleFl (fun r => r) swap E ω k = d.sample swap E ω k ∧ genEvapSampleFl (fun r => r) (temp.eval E) bounds ω k = genEvapSample temp bounds E ω k := by
  constructor
  · unfold EnergyBins.sampleFl EnergyBins.sample
    simp only [rdivFl_id]
    rfl
  · rfl

theorem lawFl_id (law : AngleLaw) (hp : ∀ s, law = .legendre s → s.pdfMax ≠ 0) (fuel : Nat) (ω : Tape) (k : Nat) :
    law.sampleFl (fun r => r) (fun s mu => legPdf s.a mu / s.pdfMax) fuel ω k = law.sample fuel ω k := by
  cases law with
  | isotropic => rfl
  | bins b => rfl
  | table t =>
    simp only [AngleLaw.sampleFl, AngleLaw.sample, angleTableSampleFl, angleTableSample, sampleFl_id]
  | legendre s =>
    simp only [AngleLaw.sampleFl, AngleLaw.sample]
    induction fuel generalizing k with
    | zero => rfl
    | succ fuel ih => simp only [Legendre.sampleFl, Legendre.sample, rdiv_ok (hp s rfl), bind, Except.bind, ih]

/-- **C165** (the model, angles) Without rounding, this is the angular distribution of the exact model (C35). -/
theorem C165_exact_angle (energy : List ℝ) (laws : List AngleLaw) (d : AngleDist) (hd : AngleDist.make energy laws = .ok d) (hp : ∀ s, AngleLaw.legendre s ∈ d.laws → s.pdfMax ≠ 0) (fuel : Nat) (E : ℝ) (ω : Tape) (k : Nat) :
    d.sampleFl (fun r => r) (fun s mu => legPdf s.a mu / s.pdfMax) fuel E ω k = d.sample fuel E ω k := by
  have hg : ∀ (i : Nat) (law : AngleLaw), getAt d.laws i = .ok law → ∀ k,
      law.sampleFl (fun r => r) (fun s mu => legPdf s.a mu / s.pdfMax) fuel ω k = law.sample fuel ω k := by
    intro i law h k
    exact lawFl_id law (fun s hs => hp s (by rw [← hs]; exact List.mem_of_getElem? (getAt_eq_ok.mp h))) fuel ω k
  unfold AngleDist.sampleFl AngleDist.sample AngleDist.find
  simp only [rdivFl_id]
  by_cases h0 : lowerBound d.energy E = 0
  · simp only [if_pos h0]
    cases hf : front d.laws with
    | error e => rfl
    | ok law => exact hg 0 law (getAt_eq_ok.mpr (front_eq_ok.mp hf)) k
  · by_cases h1 : lowerBound d.energy E = d.energy.length
    · simp only [if_neg h0, if_pos h1]
      cases hf : back d.laws with
      | error e => rfl
      | ok law =>
        have := back_eq_ok.mp hf
        rw [List.getLast?_eq_getElem?] at this
        exact hg _ law (getAt_eq_ok.mpr this) k
    · have hlen : d.energy.length = d.laws.length ∧ d.energy.Pairwise (· ≤ ·) := by
        unfold AngleDist.make at hd
        split at hd
        · cases hd
        · rename_i h
          split at hd
          · cases hd
          · rename_i h'
            cases hd; exact ⟨by simpa using h, isSorted_iff.mp (by simpa using h')⟩
      have hle := lowerBound_le hlen.2 E
      have hlen := hlen.1
      obtain ⟨a, ha⟩ := getElem?_of_lt (l := d.laws) (i := lowerBound d.energy E - 1) (by omega)
      obtain ⟨b, hb⟩ := getElem?_of_lt (l := d.laws) (i := lowerBound d.energy E - 1 + 1) (by omega)
      have ga := hg _ a (getAt_eq_ok.mpr ha)
      have gb := hg _ b (getAt_eq_ok.mpr hb)
      simp only [if_neg h0, if_neg h1, bind, Except.bind, subIdx_of_le (show 1 ≤ lowerBound d.energy E by omega)]
      cases getAt d.energy (lowerBound d.energy E - 1) with
      | error e => rfl
      | ok e0 =>
        cases getAt d.energy (lowerBound d.energy E - 1 + 1) with
        | error e => rfl
        | ok e1 =>
          simp only []
          cases rdiv (E - e0) (e1 - e0) with
          | error e => rfl
          | ok f => simp only [getAt_eq_ok.mpr ha, getAt_eq_ok.mpr hb, ga, gb, pure, Except.pure]

/-- The hypotheses are met: three bounds, the draw 1/4. -/
example : (fun r => r : ℝ → ℝ) (([1, 2, 3] : List ℝ).length * (1 / 4)) < ([1, 2, 3] : List ℝ).length - 1 := by norm_num

/-- and of the violation: three bounds and the draw 3/4, a double. -/
example (fl : ℝ → ℝ) (hfl : IsRoundToNearest fl) : sampleBinsFl fl (3 / 4) (1 / 2) [1, 2, 3] = .error .ub :=
  C165_violation fl hfl _ (by simp) (by simp) _ _ (by norm_num)

/-- and of the angular claims: an isotropic law at each of the energies 1 and 2, at the energy 2. -/
example (fl : ℝ → ℝ) (hfl : IsRoundToNearest fl) (accept : Legendre → ℝ → ℝ) :
    (AngleDist.mk [1, 2] [.isotropic, .isotropic]).sampleFl fl accept 0 2 (fun _ => 1 / 4) 0 = isoSampleFl fl (fun _ => 1 / 4) 1 :=
  C165_tabulated fl hfl accept [1, 2] [.isotropic, .isotropic] _ (by norm_num [AngleDist.make, isSorted]) (by norm_num)
    (by
      have h1 := isDouble_nat (n := 1) (by norm_num)
      have h2 := isDouble_nat (n := 2) (by norm_num)
      push_cast at h1 h2
      simpa using ⟨h1, h2⟩) 1 2 .isotropic rfl rfl 0 _ (fun _ => by norm_num) 0

end PNDL
