import Verif.Model.Energy
import Verif.Props.Bracket
import Verif.Props.PCTable
import Verif.Props.Angle

/-! C40-C43: outgoing energy laws. -/
namespace PNDL
open Spec

/-! ## C40 -/

/-- C40: the bin index runs past the last bin exactly for `xi ≥ (n-1)/n`, `n` the number of bounds. -/
theorem C40_undefined_iff (bounds : List ℝ) (hb : bounds ≠ []) (xi1 xi2 : ℝ) (h0 : 0 ≤ xi1) :
    sampleBins xi1 xi2 bounds = .error .ub ↔ ((bounds.length : ℝ) - 1) / bounds.length ≤ xi1 := by
  have hpos : 0 < bounds.length := List.length_pos_iff.mpr hb
  have hpos' : (0 : ℝ) < bounds.length := by exact_mod_cast hpos
  have hm : 0 ≤ (bounds.length : ℝ) * xi1 := mul_nonneg hpos'.le h0
  rw [div_le_iff₀ hpos']
  have hkey : ⌊(bounds.length : ℝ) * xi1⌋₊ + 1 < bounds.length ↔ (bounds.length : ℝ) * xi1 < bounds.length - 1 := by
    rw [show ⌊(bounds.length : ℝ) * xi1⌋₊ + 1 < bounds.length ↔ ⌊(bounds.length : ℝ) * xi1⌋₊ < bounds.length - 1 by omega,
      Nat.floor_lt hm, Nat.cast_sub hpos, Nat.cast_one]
  unfold sampleBins
  simp only [bind, Except.bind]
  by_cases h : ⌊(bounds.length : ℝ) * xi1⌋₊ + 1 < bounds.length
  · rw [getAt_of_lt h, getAt_of_lt (by omega : ⌊(bounds.length : ℝ) * xi1⌋₊ < bounds.length)]
    have := hkey.mp h
    constructor
    · intro hc; cases hc
    · intro hc; linarith
  · rw [getAt_of_le (by omega)]
    have h' := mt hkey.mpr h
    constructor
    · intro _; linarith
    · intro _; rfl

/-- C40, for draws below `(n-1)/n`: the energy lies in the selected one of the `n` slots `[i/n, (i+1)/n)` of `xi1`, between two
consecutive bounds, and the second draw positions it linearly.  Missing: draws in `[(n-1)/n, 1)`, for which the code is out of
range (`C40_undefined_iff`). -/
theorem C40_in_bin_partial (bounds : List ℝ) (hs : bounds.Pairwise (· ≤ ·)) (hb : bounds ≠ []) (xi1 xi2 : ℝ) (h0 : 0 ≤ xi1)
    (h1 : xi1 < ((bounds.length : ℝ) - 1) / bounds.length) (h2 : 0 ≤ xi2) (h3 : xi2 < 1) :
    ∃ (i : Nat) (lo hi v : ℝ), bounds[i]? = some lo ∧ bounds[i + 1]? = some hi ∧ sampleBins xi1 xi2 bounds = .ok v ∧
      lo ≤ v ∧ v ≤ hi ∧ v = lo + xi2 * (hi - lo) ∧ (i : ℝ) ≤ bounds.length * xi1 ∧ bounds.length * xi1 < i + 1 := by
  have hpos : 0 < bounds.length := List.length_pos_iff.mpr hb
  have hpos' : (0 : ℝ) < bounds.length := by exact_mod_cast hpos
  have hm : 0 ≤ (bounds.length : ℝ) * xi1 := mul_nonneg hpos'.le h0
  rw [lt_div_iff₀ hpos'] at h1
  have hlt : ⌊(bounds.length : ℝ) * xi1⌋₊ < bounds.length - 1 := by
    rw [Nat.floor_lt hm, Nat.cast_sub hpos, Nat.cast_one]; linarith
  obtain ⟨lo, a1, a2⟩ := getAt_exists (l := bounds) (i := ⌊(bounds.length : ℝ) * xi1⌋₊) (by omega)
  obtain ⟨hi, b1, b2⟩ := getAt_exists (l := bounds) (i := ⌊(bounds.length : ℝ) * xi1⌋₊ + 1) (by omega)
  have hle := pairwise_le_getElem? hs (Nat.le_succ _) a2 b2
  refine ⟨_, lo, hi, (hi - lo) * xi2 + lo, a2, b2, ?_, ?_, ?_, by ring, Nat.floor_le hm, Nat.lt_floor_add_one _⟩
  · unfold sampleBins
    simp only [bind, Except.bind, a1, b1]
    rfl
  · nlinarith [mul_nonneg (sub_nonneg.mpr hle) h2]
  · nlinarith [mul_le_mul_of_nonneg_left h3.le (sub_nonneg.mpr hle)]

/-- What the constructor of EquiprobableEnergyBins guarantees. -/
theorem EnergyBins.make_valid {energy : List ℝ} {bins : List (List ℝ)} {d : EnergyBins} (h : EnergyBins.make energy bins = .ok d) :
    d.energy = energy ∧ d.bins = bins ∧ energy.Pairwise (· ≤ ·) ∧ energy.length = bins.length ∧
      ∀ b ∈ bins, b.Pairwise (· ≤ ·) := by
  unfold EnergyBins.make at h
  split at h
  · cases h
  rename_i h1
  split at h
  · cases h
  rename_i h2
  split at h
  · cases h
  rename_i h3
  cases h
  refine ⟨rfl, rfl, isSorted_iff.mp (by simpa using h1), by omega, fun b hb => ?_⟩
  simp only [List.any_eq_true, not_exists, not_and] at h3
  exact isSorted_iff.mp (by simpa using h3 b hb)

/-- C40: the whole sampler, for any order of the last two draws, as long as no draw reaches `(n-1)/n`: the energy lies between
two consecutive bounds of the bins of an incoming energy next to `E`. -/
theorem C40_sample_partial (energy : List ℝ) (bins : List (List ℝ)) (d : EnergyBins) (hd : EnergyBins.make energy bins = .ok d)
    (hne : energy ≠ []) (hb : ∀ b ∈ bins, b ≠ []) (swap : Bool) (E : ℝ) (ω : Tape) (hω : UnitTape ω)
    (hsmall : ∀ j, ∀ b ∈ bins, ω j < ((b.length : ℝ) - 1) / b.length) (k : Nat) :
    ∃ (i j : Nat) (b : List ℝ) (lo hi v : ℝ) (k' : Nat), Neighbour energy E i ∧ bins[i]? = some b ∧ b[j]? = some lo ∧
      b[j + 1]? = some hi ∧ d.sample swap E ω k = .ok (v, k') ∧ lo ≤ v ∧ v ≤ hi := by
  obtain ⟨e1, e2, hs, hlen, hbs⟩ := EnergyBins.make_valid hd
  have hpos : 0 < energy.length := List.length_pos_iff.mpr hne
  have go : ∀ (i : Nat) (k : Nat), i < energy.length → Neighbour energy E i → ∃ (b : List ℝ), bins[i]? = some b ∧
      ∃ (j : Nat) (lo hi v : ℝ), b[j]? = some lo ∧
      b[j + 1]? = some hi ∧ lo ≤ v ∧ v ≤ hi ∧
      (if swap then sampleBins (ω (k + 1)) (ω k) b else sampleBins (ω k) (ω (k + 1)) b : Res ℝ) = .ok v := by
    intro i k hi hN
    obtain ⟨b, hbi⟩ := getElem?_of_lt (l := bins) (i := i) (by omega)
    have hmem := List.mem_of_getElem? hbi
    cases swap with
    | true =>
      obtain ⟨j, lo, hi', v, q1, q2, q3, q4, q5, _⟩ := C40_in_bin_partial b (hbs b hmem) (hb b hmem) (ω (k + 1)) (ω k)
        (hω _).1 (hsmall _ b hmem) (hω _).1 (hω _).2
      exact ⟨b, hbi, j, lo, hi', v, q1, q2, q4, q5, q3⟩
    | false =>
      obtain ⟨j, lo, hi', v, q1, q2, q3, q4, q5, _⟩ := C40_in_bin_partial b (hbs b hmem) (hb b hmem) (ω k) (ω (k + 1))
        (hω _).1 (hsmall _ b hmem) (hω _).1 (hω _).2
      exact ⟨b, hbi, j, lo, hi', v, q1, q2, q4, q5, q3⟩
  obtain ⟨first, h0⟩ := getElem?_of_lt (l := energy) (i := 0) hpos
  obtain ⟨last, h1⟩ := last_exists (l := energy) hpos
  have hlast : energy[energy.length - 1]? = some last := by rw [← List.getLast?_eq_getElem?]; exact h1
  unfold EnergyBins.sample
  rw [e1, e2]
  by_cases hz : lowerBound energy E = 0
  · have hE : E ≤ first := by
      by_contra hc
      have := (lowerBound_iff hs E h0).mp (not_le.mp hc); omega
    have hN : Neighbour energy E 0 := by
      refine ⟨first, h0, fun a ha => ?_⟩
      obtain ⟨j, hj⟩ := List.mem_iff_getElem?.mp ha
      have := pairwise_le_getElem? hs (Nat.zero_le _) h0 hj
      constructor <;> rintro ⟨p, q⟩ <;> linarith
    obtain ⟨b, hbi, j, lo, hi, v, q1, q2, q3, q4, q5⟩ := go 0 k hpos hN
    refine ⟨0, j, b, lo, hi, v, k + 2, hN, hbi, q1, q2, ?_, q3, q4⟩
    simp only [hz, if_true, bind, Except.bind, front_eq_ok.mpr hbi, q5]
    rfl
  by_cases hl : lowerBound energy E = energy.length
  · have hE : last < E := (lowerBound_iff hs E hlast).mpr (by omega)
    have hN : Neighbour energy E (energy.length - 1) := by
      refine ⟨last, hlast, fun a ha => ?_⟩
      obtain ⟨j, hj⟩ := List.mem_iff_getElem?.mp ha
      have := pairwise_le_getElem? hs (by have := lt_length_of_some hj; omega) hj hlast
      constructor <;> rintro ⟨p, q⟩ <;> linarith
    obtain ⟨b, hbi, j, lo, hi, v, q1, q2, q3, q4, q5⟩ := go (energy.length - 1) k (by omega) hN
    refine ⟨energy.length - 1, j, b, lo, hi, v, k + 2, hN, hbi, q1, q2, ?_, q3, q4⟩
    have hbk : back bins = .ok b := back_eq_ok.mpr (by rw [List.getLast?_eq_getElem?, ← hlen]; exact hbi)
    simp only [if_neg hz, if_pos hl, bind, Except.bind, hbk, q5]
    rfl
  · have hle := lowerBound_le hs E
    have hpos2 : 0 < lowerBound energy E := Nat.pos_of_ne_zero hz
    obtain ⟨x1, g1⟩ := getElem?_of_lt (l := energy) (i := lowerBound energy E - 1) (by omega)
    obtain ⟨x2, g2⟩ := getElem?_of_lt (l := energy) (i := lowerBound energy E) (by omega)
    have a1 : x1 < E := (lowerBound_iff hs E g1).mpr (by omega)
    have a2 : E ≤ x2 := by
      by_contra hc
      have := (lowerBound_iff hs E g2).mp (not_le.mp hc); omega
    have hN : ∀ a ∈ energy, a ≤ x1 ∨ x2 ≤ a := by
      intro a ha
      obtain ⟨j, hj⟩ := List.mem_iff_getElem?.mp ha
      rcases Nat.lt_or_ge j (lowerBound energy E) with h | h
      · exact .inl (pairwise_le_getElem? hs (by omega) hj g1)
      · exact .inr (pairwise_le_getElem? hs h g2 hj)
    have hN1 : Neighbour energy E (lowerBound energy E - 1) := ⟨x1, g1, fun a ha => by
      rcases hN a ha with h | h <;> constructor <;> rintro ⟨p, q⟩ <;> linarith⟩
    have hN2 : Neighbour energy E (lowerBound energy E) := ⟨x2, g2, fun a ha => by
      rcases hN a ha with h | h <;> constructor <;> rintro ⟨p, q⟩ <;> linarith⟩
    have hg2 : getAt energy (lowerBound energy E - 1 + 1) = .ok x2 := by
      rw [show lowerBound energy E - 1 + 1 = lowerBound energy E by omega]; exact getAt_eq_ok.mpr g2
    simp only [if_neg hz, if_neg hl, bind, Except.bind, subIdx_of_le hpos2, getAt_eq_ok.mpr g1, hg2,
      rdiv_ok (show x2 - x1 ≠ 0 by linarith)]
    by_cases hf : ω k > (E - x1) / (x2 - x1)
    · obtain ⟨b, hbi, j, lo, hi, v, q1, q2, q3, q4, q5⟩ := go _ (k + 1) (by omega) hN1
      refine ⟨_, j, b, lo, hi, v, k + 1 + 2, hN1, hbi, q1, q2, ?_, q3, q4⟩
      rw [if_pos hf, getAt_eq_ok.mpr hbi]
      simp only [q5]
      rfl
    · obtain ⟨b, hbi, j, lo, hi, v, q1, q2, q3, q4, q5⟩ := go _ (k + 1) (by omega) hN2
      refine ⟨_, j, b, lo, hi, v, k + 1 + 2, hN2, hbi, q1, q2, ?_, q3, q4⟩
      rw [if_neg hf, show lowerBound energy E - 1 + 1 = lowerBound energy E by omega, getAt_eq_ok.mpr hbi]
      simp only [q5]
      rfl

/-- The full claim is false of the code: for every non-empty set of bins, an incoming energy at or below the first one and a bin
draw of at least `(n-1)/n` read past the end of the bounds. -/
theorem C40_violation_bins (e : ℝ) (energy : List ℝ) (b : List ℝ) (bins : List (List ℝ)) (d : EnergyBins)
    (hd : EnergyBins.make (e :: energy) (b :: bins) = .ok d) (hb : b ≠ []) (E : ℝ) (hE : E ≤ e) (ω : Tape) (k : Nat)
    (hbad : ((b.length : ℝ) - 1) / b.length ≤ ω k) (h0 : 0 ≤ ω k) : d.sample false E ω k = .error .ub := by
  obtain ⟨e1, e2, hs, hlen, hbs⟩ := EnergyBins.make_valid hd
  have hz : lowerBound (e :: energy) E = 0 := by
    by_contra hc
    exact absurd ((lowerBound_iff hs E (i := 0) (a := e) rfl).mpr (Nat.pos_of_ne_zero hc)) (not_lt.mpr hE)
  have hu := (C40_undefined_iff b hb (ω k) (ω (k + 1)) h0).mpr hbad
  unfold EnergyBins.sample
  rw [e1, e2, hz]
  simp only [if_true, bind, Except.bind, front_eq_ok.mpr (show (b :: bins)[0]? = some b from rfl)]
  simp only [Bool.false_eq_true, if_false, hu]

/-- Same for GeneralEvaporation, for every temperature table and every set of bounds. -/
theorem C40_violation_evaporation (temp : Tab1D) (bounds : List ℝ) (hb : bounds ≠ []) (E T : ℝ) (hT : temp.eval E = .ok T)
    (ω : Tape) (k : Nat) (hbad : ((bounds.length : ℝ) - 1) / bounds.length ≤ ω k) (h0 : 0 ≤ ω k) :
    genEvapSample temp bounds E ω k = .error .ub := by
  unfold genEvapSample
  rw [hT]
  simp only [bind, Except.bind, (C40_undefined_iff bounds hb (ω k) (ω (k + 1)) h0).mpr hbad]

/-- A concrete instance: three bounds (two bins) and the draw 0.7. -/
theorem C40_violation : sampleBins 0.7 0.5 [1, 2, 3] = .error .ub :=
  (C40_undefined_iff _ (by simp) _ _ (by norm_num)).mpr (by norm_num)

/-- C40 for GeneralEvaporation, below the bad draws: the energy is a point of a bin times the temperature. -/
theorem C40_evaporation_partial (temp : Tab1D) (bounds : List ℝ) (hs : bounds.Pairwise (· ≤ ·)) (hb : bounds ≠ []) (E T : ℝ)
    (hT : temp.eval E = .ok T) (ω : Tape) (hω : UnitTape ω) (k : Nat)
    (hsmall : ω k < ((bounds.length : ℝ) - 1) / bounds.length) :
    ∃ (i : Nat) (lo hi v : ℝ), bounds[i]? = some lo ∧ bounds[i + 1]? = some hi ∧ genEvapSample temp bounds E ω k = .ok (v * T, k + 2) ∧
      lo ≤ v ∧ v ≤ hi := by
  obtain ⟨i, lo, hi, v, q1, q2, q3, q4, q5, _⟩ := C40_in_bin_partial bounds hs hb (ω k) (ω (k + 1)) (hω _).1 hsmall (hω _).1 (hω _).2
  refine ⟨i, lo, hi, v, q1, q2, ?_, q4, q5⟩
  unfold genEvapSample
  simp only [hT, bind, Except.bind, q3]
  rfl

example : ∃ d, EnergyBins.make [1, 2] [[0, 1, 2], [0, 2, 4]] = .ok d ∧ d.sample false 1 (fun _ => 1 / 4) 0 = .ok (1 / 4, 2) := by
  refine ⟨⟨[1, 2], [[0, 1, 2], [0, 2, 4]]⟩, by norm_num [EnergyBins.make, isSorted], ?_⟩
  have hf : ⌊(3 / 4 : ℝ)⌋₊ = 0 := Nat.floor_eq_zero.mpr (by norm_num)
  norm_num [EnergyBins.sample, sampleBins, lowerBound, lowerBoundRange, bisect, front, getAt, bind, Except.bind, pure, Except.pure, hf]

/-! ## C41 -/

/-- A table whose density covers its cumulative has a range of positive width. -/
theorem Spec.CoveredPC.min_lt_max {t : PCTable} (hv : ValidPC t) (hc : CoveredPC t) {mn mx : ℝ} (h0 : t.values[0]? = some mn)
    (h1 : t.values.getLast? = some mx) : mn < mx := by
  have hlast : t.values[t.values.length - 1]? = some mx := by rw [← List.getLast?_eq_getElem?]; exact h1
  have hle := pairwise_le_getElem? hv.values_sorted (Nat.zero_le _) h0 hlast
  rcases hle.lt_or_eq with h | h
  · exact h
  exfalso
  have hall : ∀ (i : Nat) v, t.values[i]? = some v → v = mn := by
    intro i v hi
    have a := pairwise_le_getElem? hv.values_sorted (Nat.zero_le _) h0 hi
    have b := pairwise_le_getElem? hv.values_sorted (by have := lt_length_of_some hi; omega) hi hlast
    linarith
  have hind : ∀ (i : Nat) c, t.cdf[i]? = some c → c ≤ 0 := by
    intro i
    induction i with
    | zero => intro c hi; rw [hc.start] at hi; cases hi; exact le_rfl
    | succ i ih =>
      intro c hi
      have hl := lt_length_of_some hi
      have e1 := hv.lenP
      have e2 := hv.lenC
      obtain ⟨c0, g0⟩ := getElem?_of_lt (l := t.cdf) (i := i) (by omega)
      obtain ⟨v0, g1⟩ := getElem?_of_lt (l := t.values) (i := i) (by omega)
      obtain ⟨v1, g2⟩ := getElem?_of_lt (l := t.values) (i := i + 1) (by omega)
      obtain ⟨p0, g3⟩ := getElem?_of_lt (l := t.pdf) (i := i) (by omega)
      obtain ⟨p1, g4⟩ := getElem?_of_lt (l := t.pdf) (i := i + 1) (by omega)
      have hst := hc.step i v0 v1 p0 p1 c0 c g1 g2 g3 g4 g0 hi
      have hz : cellArea t.interp v0 v1 p0 p1 = 0 := by
        rw [hall _ _ g1, hall _ _ g2]; unfold cellArea; split <;> ring
      have := ih c0 g0
      linarith
  have hl := hv.cdf_last
  rw [List.getLast?_eq_getElem?] at hl
  have := hind _ _ hl
  linarith

/-- What the constructor of TabularEnergy guarantees. -/
theorem TabEnergy.make_valid {energy : List ℝ} {tables : List PCTable} {d : TabEnergy} (h : TabEnergy.make energy tables = .ok d) :
    d.energy = energy ∧ d.tables = tables ∧ energy.Pairwise (· ≤ ·) ∧ energy.length = tables.length := by
  unfold TabEnergy.make at h
  split at h
  · cases h
  rename_i h1
  split at h
  · cases h
  rename_i h2
  cases h
  exact ⟨rfl, rfl, isSorted_iff.mp (by simpa using h1), by omega⟩

/-- C41, for tables whose density covers their cumulative: with at least two incoming energies every draw gives an outgoing
energy in the interpolated window; `l` and `f` are characterised by `C67_bracket`.  Missing: tables the constructor accepts
without that, see `C41_violation`. -/
theorem C41_window_partial (energy : List ℝ) (tables : List PCTable) (d : TabEnergy) (hd : TabEnergy.make energy tables = .ok d)
    (hn : 2 ≤ energy.length) (ht : ∀ t ∈ tables, ValidPC t ∧ CoveredPC t) (E : ℝ) (ω : Tape) (hω : UnitTape ω) (k : Nat) :
    ∃ (l : Nat) (f : ℝ) (t0 t1 : PCTable) (mn0 mx0 mn1 mx1 v : ℝ), bracketIn energy E = .ok (l, f) ∧
      tables[l]? = some t0 ∧ tables[l + 1]? = some t1 ∧
      t0.minValue = .ok mn0 ∧ t0.maxValue = .ok mx0 ∧ t1.minValue = .ok mn1 ∧ t1.maxValue = .ok mx1 ∧
      d.sample E ω k = .ok (v, k + 2) ∧ (1 - f) * mn0 + f * mn1 ≤ v ∧ v ≤ (1 - f) * mx0 + f * mx1 := by
  obtain ⟨e1, e2, hs, hlen⟩ := TabEnergy.make_valid hd
  obtain ⟨first, h0⟩ := getElem?_of_lt (l := energy) (i := 0) (by omega)
  obtain ⟨last, h1⟩ := last_exists (l := energy) (by omega)
  obtain ⟨l, f, _, _, hb, hlt, _, _, f0, f1, _⟩ := C67_bracket energy E first last hs hn h0 h1
  obtain ⟨t0, g0⟩ := getElem?_of_lt (l := tables) (i := l) (by omega)
  obtain ⟨t1, g1⟩ := getElem?_of_lt (l := tables) (i := l + 1) (by omega)
  obtain ⟨v0, c0⟩ := ht t0 (List.mem_of_getElem? g0)
  obtain ⟨v1, c1⟩ := ht t1 (List.mem_of_getElem? g1)
  obtain ⟨x0, mn0, mx0, s0, a0, b0, p0, q0⟩ := C32_in_range_partial t0 v0 c0 (ω (k + 1)) (hω _).1 (hω _).2.le
  obtain ⟨x1, mn1, mx1, s1, a1, b1, p1, q1⟩ := C32_in_range_partial t1 v1 c1 (ω (k + 1)) (hω _).1 (hω _).2.le
  have w0 : mn0 < mx0 := c0.min_lt_max v0 (front_eq_ok.mp a0) (back_eq_ok.mp b0)
  have w1 : mn1 < mx1 := c1.min_lt_max v1 (front_eq_ok.mp a1) (back_eq_ok.mp b1)
  have key : ∀ x a b : ℝ, a ≤ x → x ≤ b → a < b → 
      (1 - f) * mn0 + f * mn1 ≤ mn0 + f * (mn1 - mn0) + (x - a) / (b - a) * (mx0 + f * (mx1 - mx0) - (mn0 + f * (mn1 - mn0))) ∧
      mn0 + f * (mn1 - mn0) + (x - a) / (b - a) * (mx0 + f * (mx1 - mx0) - (mn0 + f * (mn1 - mn0))) ≤ (1 - f) * mx0 + f * mx1 := by
    intro x a b hx1 hx2 hab
    obtain ⟨q, hq⟩ : ∃ q, q = (x - a) / (b - a) := ⟨_, rfl⟩
    have hq0 : 0 ≤ q := by rw [hq]; apply div_nonneg <;> linarith
    have hq1 : q ≤ 1 := by rw [hq, div_le_one (by linarith)]; linarith
    have hw : 0 ≤ mx0 + f * (mx1 - mx0) - (mn0 + f * (mn1 - mn0)) := by nlinarith
    rw [← hq]
    constructor
    · nlinarith [mul_nonneg hq0 hw]
    · nlinarith [mul_nonneg (sub_nonneg.mpr hq1) hw]
  unfold TabEnergy.sample
  rw [e1, e2]
  simp only [bind, Except.bind, hb, getAt_eq_ok.mpr g0, getAt_eq_ok.mpr g1, a0, b0, a1, b1]
  by_cases hf : ω k > f
  · refine ⟨l, f, t0, t1, mn0, mx0, mn1, mx1, _, rfl, g0, g1, a0, b0, a1, b1, ?_, key x0 mn0 mx0 p0 q0 w0⟩
    rw [if_pos hf]
    simp only [s0, pure, Except.pure, rdiv_ok (show mx0 - mn0 ≠ 0 by linarith)]
  · refine ⟨l, f, t0, t1, mn0, mx0, mn1, mx1, _, rfl, g0, g1, a0, b0, a1, b1, ?_, key x1 mn1 mx1 p1 q1 w1⟩
    rw [if_neg hf]
    simp only [s1, pure, Except.pure, rdiv_ok (show mx1 - mn1 ≠ 0 by linarith)]

/-- The full claim is false of the code: tables with a single outgoing energy pass every constructor and give `0/0`. -/
theorem C41_violation : ∃ t d, PCTable.make [1, 1] [1, 1] [0, 1] .linLin = .ok t ∧ TabEnergy.make [1, 2] [t, t] = .ok d ∧
    ∀ k, d.sample 1 (fun _ => 0) k = .error .nonfinite := by
  have hm : PCTable.make [1, 1] [1, 1] [0, 1] .linLin = .ok ⟨[1, 1], [1, 1], [0, 1], .linLin⟩ := by
    norm_num [PCTable.make, PCTable.check, isSorted, back, bind, Except.bind]
  refine ⟨_, ⟨[1, 2], [⟨[1, 1], [1, 1], [0, 1], .linLin⟩, ⟨[1, 1], [1, 1], [0, 1], .linLin⟩]⟩, hm,
    by norm_num [TabEnergy.make, isSorted], fun k => ?_⟩
  norm_num [TabEnergy.sample, bracketIn, lowerBound, lowerBoundRange, bisect, getAt, bind, Except.bind, subIdx, rdiv, pure,
    Except.pure, PCTable.sample, PCTable.minValue, PCTable.maxValue, front, back]

/-- With a single incoming energy every sample is out of range, whatever the table. -/
theorem C41_single_energy (e : ℝ) (t : PCTable) (d : TabEnergy) (hd : TabEnergy.make [e] [t] = .ok d) (E : ℝ) (ω : Tape) (k : Nat) :
    d.sample E ω k = .error .ub := by
  obtain ⟨e1, e2, _⟩ := TabEnergy.make_valid hd
  unfold TabEnergy.sample
  rw [e1, e2]
  rcases le_or_gt E e with h | h
  · obtain ⟨h1, h2⟩ := (C67_single e E).2 h
    rw [h1]
    simp only [bind, Except.bind, h2]
    rfl
  · rw [(C67_single e E).1 h]
    rfl

/-- The hypotheses of `C41_window_partial` are met. -/
theorem C41_hypotheses : ∃ t d, PCTable.make [0, 2] [1 / 2, 1 / 2] [0, 1] .linLin = .ok t ∧ ValidPC t ∧ CoveredPC t ∧
    TabEnergy.make [1, 3] [t, t] = .ok d := by
  have hm : PCTable.make [0, 2] [1 / 2, 1 / 2] [0, 1] .linLin = .ok ⟨[0, 2], [1 / 2, 1 / 2], [0, 1], .linLin⟩ := by
    norm_num [PCTable.make, PCTable.check, isSorted, back, bind, Except.bind]
  refine ⟨_, ⟨[1, 3], [⟨[0, 2], [1 / 2, 1 / 2], [0, 1], .linLin⟩, ⟨[0, 2], [1 / 2, 1 / 2], [0, 1], .linLin⟩]⟩, hm,
    (PCTable.make_valid hm).1, ⟨rfl, ?_⟩, by norm_num [TabEnergy.make, isSorted]⟩
  intro i v0 v1 p0 p1 c0 c1 a b c d e f
  rcases i with _ | i
  · simp at a b c d e f
    subst a b c d e f
    norm_num [cellArea]
  · simp at b

end PNDL
