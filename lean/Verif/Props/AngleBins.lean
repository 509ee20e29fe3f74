import Verif.Spec.AngleBins
import Verif.Props.AngleLaw
import Verif.Lemmas.Discrete
import Verif.Lemmas.MRes

/-! C161: which law cosines from equiprobable bins have. -/
namespace PNDL
open MeasureTheory Spec Set
open scoped ENNReal

private theorem clampMu_clip (x : ℝ) : clampMu x = clipMu x := by
  unfold clampMu clipMu
  by_cases h : |x| > 1
  · rw [if_pos h]
    by_cases hx : x < 0
    · rw [if_pos hx, abs_of_neg hx] at *
      rw [max_eq_left]
      exact (min_le_right _ _).trans (by linarith)
    · rw [not_lt] at hx
      rw [if_neg (not_lt.mpr hx)]
      rw [abs_of_nonneg hx] at h
      rw [min_eq_left h.le, max_eq_right (by norm_num)]
  · rw [if_neg h]
    rw [not_lt, abs_le] at h
    rw [min_eq_right h.2, max_eq_right h.1]

theorem measurable_clipMu : Measurable clipMu := by unfold clipMu; fun_prop

/-- The bin chosen. -/
noncomputable def binOf (xi : ℝ) : Nat := if ⌊(33 : ℝ) * xi⌋₊ = 33 then ⌊(33 : ℝ) * xi⌋₊ - 1 else ⌊(33 : ℝ) * xi⌋₊

theorem binOf_lt {xi : ℝ} (h1 : xi ≤ 1) : binOf xi < 33 := by
  have : ⌊33 * xi⌋₊ ≤ 33 := Nat.floor_le_of_le (by push_cast; linarith)
  unfold binOf
  split <;> omega

theorem binOf_eq {xi : ℝ} {j : Nat} (hj : j < 33) (h0 : 0 ≤ xi) (a : (j : ℝ) / 33 ≤ xi) (b : xi < ((j : ℝ) + 1) / 33) : binOf xi = j := by
  have : ⌊33 * xi⌋₊ = j := by
    rw [Nat.floor_eq_iff (by linarith)]
    constructor
    · rw [div_le_iff₀ (by norm_num)] at a; linarith
    · rw [lt_div_iff₀ (by norm_num)] at b; linarith
  unfold binOf
  rw [this, if_neg (by omega)]

theorem measurable_binOf : Measurable binOf := by
  have h : Measurable fun x : ℝ => ⌊(33 : ℝ) * x⌋₊ := Nat.measurable_floor.comp (measurable_const_mul _)
  exact (measurable_from_top (f := fun n : Nat => if n = 33 then n - 1 else n)).comp h

/-- The cosine drawn. -/
noncomputable def binCosine (b : List ℝ) (xi : ℝ) : ℝ := clipMu (32 * xi - binOf xi + b.getD (binOf xi) 0)

theorem measurable_binCosine (b : List ℝ) : Measurable (binCosine b) := by
  unfold binCosine
  refine measurable_clipMu.comp ?_
  have h1 : Measurable fun n : Nat => (n : ℝ) := measurable_from_top
  have h2 : Measurable fun n : Nat => b.getD n 0 := measurable_from_top
  exact ((measurable_const_mul _).sub (h1.comp measurable_binOf)).add (h2.comp measurable_binOf)

theorem binsSample_eq {b : List ℝ} (hlen : b.length = 33) (ω : Tape) (k : Nat) (h1 : ω k ≤ 1) : binsSample b ω k = .ok (binCosine b (ω k), k + 1) := by
  obtain ⟨y, hy⟩ := getElem?_of_lt (l := b) (i := binOf (ω k)) (by rw [hlen]; exact binOf_lt h1)
  have hy' := getAt_eq_ok.mpr hy
  unfold binsSample binCosine
  unfold binOf at hy' hy ⊢
  simp only [bind, Except.bind]
  rw [hy']
  simp only [pure, Except.pure]
  rw [clampMu_clip, List.getD_eq_getElem?_getD, hy, Option.getD_some]
  congr 3
  ring

/-- The stretched image of one cell. -/
private theorem cell_volume (β : ℝ) (j : Nat) {S : Set ℝ} (hS : MeasurableSet S) :
    volume ({x : ℝ | 32 * x - j + β ∈ S} ∩ Ico ((j : ℝ) / 33) (((j : ℝ) + 1) / 33)) = ENNReal.ofReal (1 / 32) * volume (S ∩ Icc (β - (j : ℝ) / 33) (β + (32 - (j : ℝ)) / 33)) := by
  have e : {x : ℝ | 32 * x - j + β ∈ S} ∩ Ico ((j : ℝ) / 33) (((j : ℝ) + 1) / 33) =
      (fun x => 32 * x) ⁻¹' ((fun x => x + (β - j)) ⁻¹' (S ∩ Ico (β - (j : ℝ) / 33) (β + (32 - (j : ℝ)) / 33))) := by
    ext x
    simp only [mem_inter_iff, mem_ofPred_eq, mem_Ico, mem_preimage]
    rw [show 32 * x - (j : ℝ) + β = 32 * x + (β - j) by ring]
    refine and_congr_right fun _ => ?_
    constructor <;> rintro ⟨h1, h2⟩ <;> constructor <;> linarith
  rw [e, Real.volume_preimage_mul_left (by norm_num), measure_preimage_add_right]
  congr 1
  · norm_num
  · exact measure_congr (Filter.EventuallyEq.inter (Filter.EventuallyEq.refl _ S) Ico_ae_eq_Icc)

theorem binCosine_law (b : List ℝ) : Spec.unif.map (binCosine b) = (windows b).map clipMu := by
  ext S hS
  rw [Measure.map_apply (measurable_binCosine b) hS, Measure.map_apply measurable_clipMu hS]
  have hC := measurable_clipMu hS
  have hT := measurable_binCosine b hS
  obtain ⟨T, hTe⟩ : ∃ T, T = binCosine b ⁻¹' S := ⟨_, rfl⟩
  rw [← hTe] at hT ⊢
  -- the unit interval as 33 cells
  have hcells : Ico (0 : ℝ) 1 = ⋃ j ∈ Finset.range 33, Ico ((j : ℝ) / 33) (((j : ℝ) + 1) / 33) := by
    ext x
    simp only [mem_iUnion, Finset.mem_range, exists_prop, mem_Ico]
    constructor
    · rintro ⟨h0, h1⟩
      refine ⟨⌊33 * x⌋₊, (Nat.floor_lt (by linarith)).mpr (by push_cast; linarith), ?_, ?_⟩
      · rw [div_le_iff₀ (by norm_num)]; linarith [Nat.floor_le (show (0 : ℝ) ≤ 33 * x by linarith)]
      · rw [lt_div_iff₀ (by norm_num)]; linarith [Nat.lt_floor_add_one (33 * x)]
    · rintro ⟨j, hj, a, c⟩
      have : (j : ℝ) + 1 ≤ 33 := by exact_mod_cast hj
      exact ⟨(by positivity : (0 : ℝ) ≤ (j : ℝ) / 33).trans a, lt_of_lt_of_le c (by rw [div_le_one (by norm_num)]; exact this)⟩
  have hl : Spec.unif T = ∑ j ∈ Finset.range 33, volume (T ∩ Ico ((j : ℝ) / 33) (((j : ℝ) + 1) / 33)) := by
    have : Spec.unif = volume.restrict (Ico (0 : ℝ) 1) := Measure.restrict_congr_set Ico_ae_eq_Icc.symm
    rw [this, Measure.restrict_apply hT, hcells, inter_iUnion₂, measure_biUnion_finset]
    · intro i _ j _ hij
      rw [Function.onFun, Set.disjoint_left]
      rintro x ⟨_, a1, a2⟩ ⟨_, c1, c2⟩
      rw [div_le_iff₀ (by norm_num)] at a1 c1
      rw [lt_div_iff₀ (by norm_num)] at a2 c2
      have q1 : (i : ℝ) < (j : ℝ) + 1 := by linarith
      have q2 : (j : ℝ) < (i : ℝ) + 1 := by linarith
      have q1' : i < j + 1 := by exact_mod_cast q1
      have q2' : j < i + 1 := by exact_mod_cast q2
      omega
    · intro j _
      exact hT.inter measurableSet_Ico
  rw [hl, windows, Measure.finsetSum_apply]
  refine Finset.sum_congr rfl fun j hj => ?_
  have hj' := Finset.mem_range.mp hj
  rw [Measure.smul_apply, Measure.restrict_apply hC, smul_eq_mul, ← cell_volume (b.getD j 0) j hC]
  congr 1
  ext x
  simp only [mem_inter_iff, mem_ofPred_eq, mem_preimage, hTe]
  refine and_congr_left fun hx => ?_
  unfold binCosine
  rw [binOf_eq hj' (le_trans (by positivity) hx.1) hx.1 hx.2]

theorem bins_closed {b : List ℝ} (hlen : b.length = 33) : Closed (fun (_ : Nat) ω k => binsSample b ω k) ((windows b).map clipMu) := by
  rw [← binCosine_law]
  have h := closed_one (g := fun xi => do
      let muLow ← getAt b (if ⌊33 * xi⌋₊ = 33 then ⌊33 * xi⌋₊ - 1 else ⌊33 * xi⌋₊)
      return clampMu ((xi - ((if ⌊33 * xi⌋₊ = 33 then ⌊33 * xi⌋₊ - 1 else ⌊33 * xi⌋₊ : Nat) : ℝ) * (1 / 32)) / (1 / 32) + muLow)) (measurable_binCosine b) (by
    intro x _ h1
    have := binsSample_eq hlen (fun _ => x) 0 h1
    unfold binsSample at this
    simp only [bind, Except.bind] at this ⊢
    cases hg : getAt b (if ⌊33 * x⌋₊ = 33 then ⌊33 * x⌋₊ - 1 else ⌊33 * x⌋₊) with
    | error e => rw [hg] at this; cases this
    | ok y =>
      rw [hg] at this
      have := Except.ok.inj this
      exact congrArg Except.ok (congrArg Prod.fst this))
  refine h.of_eq fun fuel ω k => ?_
  unfold binsSample
  simp only [bind, Except.bind]
  cases getAt b (if ⌊33 * ω k⌋₊ = 33 then ⌊33 * ω k⌋₊ - 1 else ⌊33 * ω k⌋₊) <;> rfl

/-- **C161** Cosines drawn from 32 equiprobable bins: one of 33 windows of width 32/33, each with probability 1/33, and a uniform point of it, moved into `[-1, 1]`.  The
bounds place the windows; the widths of the bins do not enter. -/
theorem C161_law_partial (b : List ℝ) (hb : binsMake b = .ok b) (k : Nat) : Samples (fun (_ : Nat) ω => binsSample b ω k) ((windows b).map clipMu) :=
  (bins_closed (binsMake_ok hb).2.1).samples k

/-! ### When the law is the one reported -/

private theorem linear_windows {d : Nat → ℝ} {W : ℝ} (hW : 0 < W) (hd : ∀ j < 33, 0 ≤ d j) {i0 i1 : Nat} (h0 : i0 < 33) (h1 : i1 < 33) (hne : i1 ≠ i0) (e0 : d i0 = 0)
    (e1 : d i1 = W - 1 / 33) (hsum : ∀ ε, 0 < ε → ε ≤ W → ε ≤ 32 / 33 → ∑ j ∈ Finset.range 33, max 0 (ε - d j) = ε / W) :
    (W = 1 ∧ ∀ j < 33, j ≠ i0 → 32 / 33 ≤ d j) ∨ ∀ j < 33, d j = 0 := by
  obtain ⟨m, hm⟩ : ∃ m, m = min W (32 / 33) := ⟨_, rfl⟩
  have hmW : m ≤ W := hm ▸ min_le_left _ _
  have hm2 : m ≤ 32 / 33 := hm ▸ min_le_right _ _
  have hmp : 0 < m := hm ▸ lt_min hW (by norm_num)
  have s1 := hsum m hmp hmW hm2
  have s2 := hsum (m / 2) (by linarith) (by linarith) (by linarith)
  have key : ∀ j < 33, d j = 0 ∨ m ≤ d j := by
    have hz : ∑ j ∈ Finset.range 33, (max 0 (m - d j) - 2 * max 0 (m / 2 - d j)) = 0 := by
      rw [Finset.sum_sub_distrib, ← Finset.mul_sum, s1, s2]
      ring
    have hn : ∀ j ∈ Finset.range 33, 0 ≤ max 0 (m - d j) - 2 * max 0 (m / 2 - d j) := by
      intro j hj
      have := hd j (Finset.mem_range.mp hj)
      rcases max_cases 0 (m - d j) with ⟨q, _⟩ | ⟨q, _⟩ <;> rcases max_cases 0 (m / 2 - d j) with ⟨q', _⟩ | ⟨q', _⟩ <;> rw [q, q'] <;> linarith
    have hall := (Finset.sum_eq_zero_iff_of_nonneg hn).mp hz
    intro j hj
    have h := hall j (Finset.mem_range.mpr hj)
    have := hd j hj
    rcases max_cases 0 (m - d j) with ⟨q, q2⟩ | ⟨q, _⟩ <;> rcases max_cases 0 (m / 2 - d j) with ⟨q', _⟩ | ⟨q', _⟩ <;> rw [q, q'] at h
    · right; linarith
    · right; linarith
    · right; linarith
    · left; linarith
  rcases key i1 h1 with hz | hz
  · right
    have hWe : W = 1 / 33 := by linarith
    have hme : m = 1 / 33 := by rw [hm, hWe, min_eq_left (by norm_num)]
    have hz' : ∑ j ∈ Finset.range 33, (m - max 0 (m - d j)) = 0 := by
      rw [Finset.sum_sub_distrib, s1, hWe, hme]
      norm_num
    have hn : ∀ j ∈ Finset.range 33, 0 ≤ m - max 0 (m - d j) := by
      intro j hj
      have := hd j (Finset.mem_range.mp hj)
      have : max 0 (m - d j) ≤ m := max_le hmp.le (by linarith)
      linarith
    have hall := (Finset.sum_eq_zero_iff_of_nonneg hn).mp hz'
    intro j hj
    have h := hall j (Finset.mem_range.mpr hj)
    rcases max_cases 0 (m - d j) with ⟨q, q2⟩ | ⟨q, _⟩ <;> rw [q] at h <;> linarith
  · left
    have hme : m = 32 / 33 := by
      rcases min_cases W (32 / 33) with ⟨q, _⟩ | ⟨q, _⟩
      · rw [q] at hm; linarith
      · rw [hm, q]
    have hsplit : ∀ j < 33, j ≠ i0 → max 0 (m - d j) + m ≤ m / W := by
      intro j hj hji
      rw [← s1]
      have hsub : ({j, i0} : Finset Nat) ⊆ Finset.range 33 := by
        intro x hx
        rcases Finset.mem_insert.mp hx with rfl | hx
        · exact Finset.mem_range.mpr hj
        · rw [Finset.mem_singleton.mp hx]; exact Finset.mem_range.mpr h0
      have := Finset.sum_le_sum_of_subset_of_nonneg (f := fun j => max 0 (m - d j)) hsub fun _ _ _ => le_max_left _ _
      rw [Finset.sum_pair hji] at this
      rw [e0, sub_zero, max_eq_right hmp.le] at this
      exact this
    have hW1 : 1 ≤ W := by linarith
    have hle : m / W ≤ m := (div_le_iff₀ hW).mpr (by nlinarith)
    have hge : m ≤ m / W := by
      have := hsplit i1 h1 hne
      have := le_max_left 0 (m - d i1)
      linarith
    have hWe : W ≤ 1 := by
      rw [le_div_iff₀ hW] at hge
      nlinarith
    refine ⟨le_antisymm hWe hW1, fun j hj hji => ?_⟩
    have := hsplit j hj hji
    have := le_max_right 0 (m - d j)
    linarith

/-- The measure of the windows. -/
theorem windows_apply (b : List ℝ) {S : Set ℝ} (hS : MeasurableSet S) : windows b S =
    ∑ j ∈ Finset.range 33, ENNReal.ofReal (1 / 32) * volume (S ∩ Icc (b.getD j 0 - (j : ℝ) / 33) (b.getD j 0 + (32 - (j : ℝ)) / 33)) := by
  rw [windows, Measure.finsetSum_apply]
  refine Finset.sum_congr rfl fun j _ => ?_
  rw [Measure.smul_apply, Measure.restrict_apply hS, smul_eq_mul]

private theorem window_null {b : List ℝ} {S : Set ℝ} (hS : MeasurableSet S) (h : windows b S = 0) {j : Nat} (hj : j < 33) :
    volume (S ∩ Icc (b.getD j 0 - (j : ℝ) / 33) (b.getD j 0 + (32 - (j : ℝ)) / 33)) = 0 := by
  rw [windows_apply b hS, Finset.sum_eq_zero_iff] at h
  have := h j (Finset.mem_range.mpr hj)
  rcases mul_eq_zero.mp this with h | h
  · rw [ENNReal.ofReal_eq_zero] at h; norm_num at h
  · exact h

private theorem sum_of_windows {d : Nat → ℝ} {r : ℝ} (hr : 0 ≤ r) (h : ∑ j ∈ Finset.range 33, ENNReal.ofReal (1 / 32) * ENNReal.ofReal (d j) = ENNReal.ofReal (1 / 32 * r)) :
    ∑ j ∈ Finset.range 33, max 0 (d j) = r := by
  have e : ∀ x : ℝ, ENNReal.ofReal x = ENNReal.ofReal (max 0 x) := fun x => by rw [max_comm, ENNReal.ofReal_max, ENNReal.ofReal_zero]; exact (max_eq_left (zero_le)).symm
  rw [Finset.sum_congr rfl fun j _ => by rw [e (d j), ← ENNReal.ofReal_mul (by norm_num)],
    ← ENNReal.ofReal_sum_of_nonneg fun j _ => mul_nonneg (by norm_num) (le_max_left _ _), ← Finset.mul_sum,
    ENNReal.ofReal_eq_ofReal_iff (mul_nonneg (by norm_num) (Finset.sum_nonneg fun j _ => le_max_left _ _)) (by positivity)] at h
  linarith

private theorem reported_spaced {b : List ℝ} (hb : binsMake b = .ok b) {k : Nat} (h : SamplesReported (fun (_ : Nat) ω => binsSample b ω k) (-1) 1 (binsPdf b)) : Spaced b := by
  obtain ⟨p, hp, hs⟩ := h
  obtain ⟨_, hlen, hsort, hmem⟩ := binsMake_ok hb
  have hd : ∀ {j : Nat} {x : ℝ}, b[j]? = some x → b.getD j 0 = x := by
    intro j x h; rw [List.getD_eq_getElem?_getD, h]; rfl
  have hget : ∀ j < 33, b[j]? = some (b.getD j 0) := by
    intro j hj
    obtain ⟨x, hx⟩ := getElem?_of_lt (l := b) (i := j) (by omega)
    rw [hd hx, hx]
  have hle : ∀ i j, i ≤ j → j < 33 → b.getD i 0 ≤ b.getD j 0 := fun i j hij hj => pairwise_le_getElem? hsort hij (hget i (by omega)) (hget j hj)
  have hin : ∀ j < 33, -1 ≤ b.getD j 0 ∧ b.getD j 0 ≤ 1 := fun j hj => hmem _ (List.mem_of_getElem? (hget j hj))
  have H : ∀ S : Set ℝ, MeasurableSet S → windows b (clipMu ⁻¹' S) = ∫⁻ x in S ∩ Icc (-1) 1, ENNReal.ofReal (p x) := by
    intro S hS
    have h1 := hs S hS
    have h2 := C161_law_partial b hb k S hS
    rw [Measure.map_apply measurable_clipMu hS] at h2
    rw [← h2, h1, withDensity_apply _ hS, Measure.restrict_restrict hS]
  have hlast : b.getLast? = some (b.getD 32 0) := by rw [List.getLast?_eq_getElem?, hlen]; exact hget 32 (by norm_num)
  have hpout : ∀ x, -1 ≤ x → x ≤ 1 → x < b.getD 0 0 ∨ x > b.getD 32 0 → p x = 0 := by
    intro x a c hx
    have := hp x a c
    unfold binsPdf at this
    rw [front_eq_ok.mpr (hget 0 (by norm_num)), back_eq_ok.mpr hlast] at this
    simp only [bind, Except.bind] at this
    rw [if_pos hx] at this
    exact (Except.ok.inj this).symm
  -- no mass below the first bound or above the last one
  have hlow : ∀ j < 33, b.getD 0 0 ≤ b.getD j 0 - (j : ℝ) / 33 := by
    have hz : windows b (Iic (b.getD 0 0)) = 0 := by
      refine measure_mono_null (t := clipMu ⁻¹' Iic (b.getD 0 0)) ?_ ?_
      · intro x hx
        exact max_le (hin 0 (by norm_num)).1 ((min_le_right _ _).trans hx)
      · rw [H _ measurableSet_Iic]
        refine (lintegral_congr_ae (g := fun _ => 0) ?_).trans lintegral_zero
        refine (ae_restrict_iff' (measurableSet_Iic.inter measurableSet_Icc)).mpr ?_
        have : ∀ᵐ x : ℝ, x ≠ b.getD 0 0 := by rw [ae_iff]; simp
        filter_upwards [this] with x hx hx'
        rw [hpout x hx'.2.1 hx'.2.2 (Or.inl (lt_of_le_of_ne hx'.1 hx)), ENNReal.ofReal_zero]
    intro j hj
    by_contra hc
    rw [not_le] at hc
    have := window_null measurableSet_Iic hz hj
    have hsub : Ioo (b.getD j 0 - (j : ℝ) / 33) (min (b.getD 0 0) (b.getD j 0 + (32 - (j : ℝ)) / 33)) ⊆
        Iic (b.getD 0 0) ∩ Icc (b.getD j 0 - (j : ℝ) / 33) (b.getD j 0 + (32 - (j : ℝ)) / 33) :=
      fun x hx => ⟨hx.2.le.trans (min_le_left _ _), hx.1.le, hx.2.le.trans (min_le_right _ _)⟩
    have h0 := measure_mono_null hsub this
    rw [Real.volume_Ioo, ENNReal.ofReal_eq_zero] at h0
    rcases min_cases (b.getD 0 0) (b.getD j 0 + (32 - (j : ℝ)) / 33) with ⟨q, _⟩ | ⟨q, _⟩ <;> rw [q] at h0 <;> linarith
  have hhigh : ∀ j < 33, b.getD j 0 + (32 - (j : ℝ)) / 33 ≤ b.getD 32 0 := by
    have hz : windows b (Ici (b.getD 32 0)) = 0 := by
      refine measure_mono_null (t := clipMu ⁻¹' Ici (b.getD 32 0)) ?_ ?_
      · intro x hx
        exact le_max_of_le_right (le_min (hin 32 (by norm_num)).2 hx)
      · rw [H _ measurableSet_Ici]
        refine (lintegral_congr_ae (g := fun _ => 0) ?_).trans lintegral_zero
        refine (ae_restrict_iff' (measurableSet_Ici.inter measurableSet_Icc)).mpr ?_
        have : ∀ᵐ x : ℝ, x ≠ b.getD 32 0 := by rw [ae_iff]; simp
        filter_upwards [this] with x hx hx'
        rw [hpout x hx'.2.1 hx'.2.2 (Or.inr (lt_of_le_of_ne hx'.1 (Ne.symm hx))), ENNReal.ofReal_zero]
    intro j hj
    by_contra hc
    rw [not_le] at hc
    have := window_null measurableSet_Ici hz hj
    have hsub : Ioo (max (b.getD 32 0) (b.getD j 0 - (j : ℝ) / 33)) (b.getD j 0 + (32 - (j : ℝ)) / 33) ⊆
        Ici (b.getD 32 0) ∩ Icc (b.getD j 0 - (j : ℝ) / 33) (b.getD j 0 + (32 - (j : ℝ)) / 33) :=
      fun x hx => ⟨(le_max_left _ _).trans hx.1.le, (le_max_right _ _).trans hx.1.le, hx.2.le⟩
    have h0 := measure_mono_null hsub this
    rw [Real.volume_Ioo, ENNReal.ofReal_eq_zero] at h0
    rcases max_cases (b.getD 32 0) (b.getD j 0 - (j : ℝ) / 33) with ⟨q, _⟩ | ⟨q, _⟩ <;> rw [q] at h0 <;> linarith
  -- so the cosines are not moved
  have hid : ∀ S : Set ℝ, MeasurableSet S → windows b (clipMu ⁻¹' S) = ∑ j ∈ Finset.range 33, ENNReal.ofReal (1 / 32) *
      volume (S ∩ Icc (b.getD j 0 - (j : ℝ) / 33) (b.getD j 0 + (32 - (j : ℝ)) / 33)) := by
    intro S hS
    rw [windows_apply b (measurable_clipMu hS)]
    refine Finset.sum_congr rfl fun j hj => ?_
    have hj' := Finset.mem_range.mp hj
    congr 2
    ext x
    simp only [mem_inter_iff, mem_preimage, mem_Icc]
    refine and_congr_left fun hx => ?_
    have a := hlow j hj'
    have c := hhigh j hj'
    have a0 := (hin 0 (by norm_num)).1
    have c0 := (hin 32 (by norm_num)).2
    have : clipMu x = x := by
      unfold clipMu
      rw [min_eq_right (by linarith), max_eq_right (by linarith)]
    rw [this]
  have hw0 : b.getD 0 0 + 1 / 33 ≤ b.getD 1 0 := by have := hlow 1 (by norm_num); push_cast at this; linarith
  have hw31 : b.getD 31 0 + 1 / 33 ≤ b.getD 32 0 := by have := hhigh 31 (by norm_num); push_cast at this; linarith
  -- the first bin
  have first := linear_windows (d := fun j => b.getD j 0 - (j : ℝ) / 33 - b.getD 0 0) (W := b.getD 1 0 - b.getD 0 0) (by linarith)
    (fun j hj => by have := hlow j hj; linarith) (i0 := 0) (i1 := 1) (by norm_num) (by norm_num) (by norm_num) (by simp) (by push_cast; ring) (by
      intro ε h1 h2 h3
      refine sum_of_windows (by have : 0 < b.getD 1 0 - b.getD 0 0 := by linarith
                                positivity) ?_
      have e1 := (hid (Iic (b.getD 0 0 + ε)) measurableSet_Iic).symm.trans (H _ measurableSet_Iic)
      have e2 : ∫⁻ x in Iic (b.getD 0 0 + ε) ∩ Icc (-1) 1, ENNReal.ofReal (p x) = ENNReal.ofReal (1 / 32 * (ε / (b.getD 1 0 - b.getD 0 0))) := by
        have q0 := (hin 0 (by norm_num)).1
        have q1 := (hin 1 (by norm_num)).2
        have : ∀ᵐ x : ℝ, x ≠ b.getD 0 0 ∧ x ≠ b.getD 0 0 + ε := by
          have h1 : ∀ᵐ x : ℝ, x ≠ b.getD 0 0 := by rw [ae_iff]; simp
          have h2 : ∀ᵐ x : ℝ, x ≠ b.getD 0 0 + ε := by rw [ae_iff]; simp
          filter_upwards [h1, h2] with x a c using ⟨a, c⟩
        have e3 : ∫⁻ x in Iic (b.getD 0 0 + ε) ∩ Icc (-1) 1, ENNReal.ofReal (p x) =
            ∫⁻ x in Iic (b.getD 0 0 + ε) ∩ Icc (-1) 1, (Ioo (b.getD 0 0) (b.getD 0 0 + ε)).indicator (fun _ => ENNReal.ofReal (1 / 32 / (b.getD 1 0 - b.getD 0 0))) x := by
          refine lintegral_congr_ae ((ae_restrict_iff' (measurableSet_Iic.inter measurableSet_Icc)).mpr ?_)
          filter_upwards [this] with x hx hx'
          by_cases hc : x ∈ Ioo (b.getD 0 0) (b.getD 0 0 + ε)
          · rw [indicator_of_mem hc]
            have := (hp x hx'.2.1 hx'.2.2).symm.trans (binsPdf_inside hb (hget 0 (by norm_num)) (hget 1 (by norm_num)) hc.1 (by linarith [hc.2]))
            rw [Except.ok.inj this]
          · rw [indicator_of_notMem hc, hpout x hx'.2.1 hx'.2.2 (Or.inl ?_), ENNReal.ofReal_zero]
            by_contra hlt
            rw [not_lt] at hlt
            exact hc ⟨lt_of_le_of_ne hlt (Ne.symm hx.1), lt_of_le_of_ne hx'.1 hx.2⟩
        rw [e3, setLIntegral_indicator measurableSet_Ioo]
        have e4 : Ioo (b.getD 0 0) (b.getD 0 0 + ε) ∩ (Iic (b.getD 0 0 + ε) ∩ Icc (-1) 1) = Ioo (b.getD 0 0) (b.getD 0 0 + ε) :=
          inter_eq_left.mpr fun x hx => ⟨hx.2.le, by linarith [hx.1], by linarith [hx.2]⟩
        rw [e4, setLIntegral_const, Real.volume_Ioo, ← ENNReal.ofReal_mul (by have : 0 < b.getD 1 0 - b.getD 0 0 := by linarith
                                                                              positivity)]
        congr 1
        ring
      rw [e2] at e1
      rw [← e1]
      refine Finset.sum_congr rfl fun j hj => ?_
      have hj' := Finset.mem_range.mp hj
      have q := hlow j hj'
      have e5 : Iic (b.getD 0 0 + ε) ∩ Icc (b.getD j 0 - (j : ℝ) / 33) (b.getD j 0 + (32 - (j : ℝ)) / 33) = Icc (b.getD j 0 - (j : ℝ) / 33) (b.getD 0 0 + ε) := by
        ext x
        simp only [mem_inter_iff, mem_Iic, mem_Icc]
        constructor
        · rintro ⟨a, c, _⟩; exact ⟨c, a⟩
        · rintro ⟨a, c⟩; exact ⟨c, a, by linarith⟩
      rw [e5, Real.volume_Icc]
      congr 2
      ring)
  -- the last bin
  have last := linear_windows (d := fun j => b.getD 32 0 - (b.getD j 0 + (32 - (j : ℝ)) / 33)) (W := b.getD 32 0 - b.getD 31 0) (by linarith)
    (fun j hj => by have := hhigh j hj; linarith) (i0 := 32) (i1 := 31) (by norm_num) (by norm_num) (by norm_num) (by simp) (by push_cast; ring) (by
      intro ε h1 h2 h3
      refine sum_of_windows (by have : 0 < b.getD 32 0 - b.getD 31 0 := by linarith
                                positivity) ?_
      have e1 := (hid (Ici (b.getD 32 0 - ε)) measurableSet_Ici).symm.trans (H _ measurableSet_Ici)
      have e2 : ∫⁻ x in Ici (b.getD 32 0 - ε) ∩ Icc (-1) 1, ENNReal.ofReal (p x) = ENNReal.ofReal (1 / 32 * (ε / (b.getD 32 0 - b.getD 31 0))) := by
        have q0 := (hin 31 (by norm_num)).1
        have q1 := (hin 32 (by norm_num)).2
        have : ∀ᵐ x : ℝ, x ≠ b.getD 32 0 ∧ x ≠ b.getD 32 0 - ε := by
          have h1 : ∀ᵐ x : ℝ, x ≠ b.getD 32 0 := by rw [ae_iff]; simp
          have h2 : ∀ᵐ x : ℝ, x ≠ b.getD 32 0 - ε := by rw [ae_iff]; simp
          filter_upwards [h1, h2] with x a c using ⟨a, c⟩
        have e3 : ∫⁻ x in Ici (b.getD 32 0 - ε) ∩ Icc (-1) 1, ENNReal.ofReal (p x) =
            ∫⁻ x in Ici (b.getD 32 0 - ε) ∩ Icc (-1) 1, (Ioo (b.getD 32 0 - ε) (b.getD 32 0)).indicator (fun _ => ENNReal.ofReal (1 / 32 / (b.getD 32 0 - b.getD 31 0))) x := by
          refine lintegral_congr_ae ((ae_restrict_iff' (measurableSet_Ici.inter measurableSet_Icc)).mpr ?_)
          filter_upwards [this] with x hx hx'
          by_cases hc : x ∈ Ioo (b.getD 32 0 - ε) (b.getD 32 0)
          · rw [indicator_of_mem hc]
            have := (hp x hx'.2.1 hx'.2.2).symm.trans (binsPdf_inside hb (hget 31 (by norm_num)) (hget 32 (by norm_num)) (by linarith [hc.1]) hc.2)
            rw [Except.ok.inj this]
          · rw [indicator_of_notMem hc, hpout x hx'.2.1 hx'.2.2 (Or.inr ?_), ENNReal.ofReal_zero]
            by_contra hlt
            rw [gt_iff_lt, not_lt] at hlt
            exact hc ⟨lt_of_le_of_ne hx'.1 (Ne.symm hx.2), lt_of_le_of_ne hlt hx.1⟩
        rw [e3, setLIntegral_indicator measurableSet_Ioo]
        have e4 : Ioo (b.getD 32 0 - ε) (b.getD 32 0) ∩ (Ici (b.getD 32 0 - ε) ∩ Icc (-1) 1) = Ioo (b.getD 32 0 - ε) (b.getD 32 0) :=
          inter_eq_left.mpr fun x hx => ⟨hx.1.le, by linarith [hx.1], by linarith [hx.2]⟩
        rw [e4, setLIntegral_const, Real.volume_Ioo, ← ENNReal.ofReal_mul (by have : 0 < b.getD 32 0 - b.getD 31 0 := by linarith
                                                                              positivity)]
        congr 1
        ring
      rw [e2] at e1
      rw [← e1]
      refine Finset.sum_congr rfl fun j hj => ?_
      have hj' := Finset.mem_range.mp hj
      have q := hhigh j hj'
      have e5 : Ici (b.getD 32 0 - ε) ∩ Icc (b.getD j 0 - (j : ℝ) / 33) (b.getD j 0 + (32 - (j : ℝ)) / 33) = Icc (b.getD 32 0 - ε) (b.getD j 0 + (32 - (j : ℝ)) / 33) := by
        ext x
        simp only [mem_inter_iff, mem_Ici, mem_Icc]
        constructor
        · rintro ⟨a, _, c⟩; exact ⟨a, c⟩
        · rintro ⟨a, c⟩; exact ⟨a, by linarith, c⟩
      rw [e5, Real.volume_Icc]
      congr 2
      ring)
  refine ⟨b.getD 0 0, fun j hj => ?_⟩
  rw [hget j hj]
  congr 1
  rcases first with ⟨w0, f⟩ | f
  · rcases last with ⟨w31, g⟩ | g
    · exfalso
      have f2 := f 2 (by norm_num) (by norm_num)
      have l1 := hle 2 31 (by norm_num) (by norm_num)
      have a0 := (hin 0 (by norm_num)).1
      have c0 := (hin 32 (by norm_num)).2
      push_cast at f2
      linarith
    · have g0 := g 0 (by norm_num)
      have gj := g j hj
      push_cast at g0
      linarith
  · have fj := f j hj
    linarith

private theorem binSearch_some {b : List ℝ} (hlen : b.length = 33) (mu : ℝ) : ∀ n j, j + n = 32 → ∃ i < 32, binSearch b mu n j = .ok i := by
  intro n
  induction n with
  | zero => intro j _; exact ⟨0, by norm_num, rfl⟩
  | succ n ih =>
    intro j hj
    obtain ⟨u, hu⟩ := getElem?_of_lt (l := b) (i := j) (by omega)
    obtain ⟨v, hv⟩ := getElem?_of_lt (l := b) (i := j + 1) (by omega)
    rw [binSearch, getAt_eq_ok.mpr hu, getAt_eq_ok.mpr hv]
    simp only [bind, Except.bind]
    by_cases h : u ≤ mu ∧ v ≥ mu
    · rw [if_pos h]; exact ⟨j, by omega, rfl⟩
    · rw [if_neg h]; exact ih (j + 1) (by omega)

private theorem spaced_reported {b : List ℝ} (hb : binsMake b = .ok b) (h : Spaced b) (k : Nat) : SamplesReported (fun (_ : Nat) ω => binsSample b ω k) (-1) 1 (binsPdf b) := by
  obtain ⟨b0, hg⟩ := h
  obtain ⟨_, hlen, hsort, hmem⟩ := binsMake_ok hb
  have g0 := hg 0 (by norm_num)
  have g32 := hg 32 (by norm_num)
  have m0 := hmem _ (List.mem_of_getElem? g0)
  have m32 := hmem _ (List.mem_of_getElem? g32)
  push_cast at m0 m32
  have hlast : b.getLast? = some (b0 + ((32 : ℕ) : ℝ) / 33) := by rw [List.getLast?_eq_getElem?, hlen]; exact g32
  have hpdf : ∀ x, binsPdf b x = .ok ((Icc b0 (b0 + 32 / 33)).indicator (fun _ => 33 / 32) x) := by
    intro x
    unfold binsPdf
    rw [front_eq_ok.mpr g0, back_eq_ok.mpr hlast]
    simp only [bind, Except.bind]
    by_cases hx : x < b0 + ((0 : ℕ) : ℝ) / 33 ∨ x > b0 + ((32 : ℕ) : ℝ) / 33
    · rw [if_pos hx, indicator_of_notMem]
      push_cast at hx
      rintro ⟨a, c⟩
      rcases hx with hx | hx <;> linarith
    · rw [if_neg hx]
      push_cast at hx
      rw [not_or, not_lt, gt_iff_lt, not_lt] at hx
      obtain ⟨i, hi, e⟩ := binSearch_some hlen x 32 0 (by norm_num)
      have gi := getAt_eq_ok.mpr (hg i (by omega))
      have gi1 := getAt_eq_ok.mpr (hg (i + 1) (by omega))
      simp only [e, gi, gi1]
      have hdiff : b0 + ((i + 1 : ℕ) : ℝ) / 33 - (b0 + (i : ℝ) / 33) = 1 / 33 := by push_cast; ring
      rw [hdiff, rdiv_ok (by norm_num), indicator_of_mem (show x ∈ Icc b0 (b0 + 32 / 33) from ⟨by linarith [hx.1], hx.2⟩)]
      norm_num
  refine ⟨_, fun x _ _ => hpdf x, fun S hS => ?_⟩
  rw [C161_law_partial b hb k S hS, Measure.map_apply measurable_clipMu hS, windows_apply b (measurable_clipMu hS), withDensity_apply _ hS, Measure.restrict_restrict hS]
  have hterm : ∀ j ∈ Finset.range 33, ENNReal.ofReal (1 / 32) * volume (clipMu ⁻¹' S ∩ Icc (b.getD j 0 - (j : ℝ) / 33) (b.getD j 0 + (32 - (j : ℝ)) / 33)) =
      ENNReal.ofReal (1 / 32) * volume (S ∩ Icc b0 (b0 + 32 / 33)) := by
    intro j hj
    have e : b.getD j 0 = b0 + (j : ℝ) / 33 := by rw [List.getD_eq_getElem?_getD, hg j (Finset.mem_range.mp hj)]; rfl
    congr 2
    rw [e]
    ext x
    simp only [mem_inter_iff, mem_preimage, mem_Icc]
    have e1 : b0 + (j : ℝ) / 33 - (j : ℝ) / 33 = b0 := by ring
    have e2 : b0 + (j : ℝ) / 33 + (32 - (j : ℝ)) / 33 = b0 + 32 / 33 := by ring
    rw [e1, e2]
    refine and_congr_left fun hx => ?_
    have : clipMu x = x := by
      unfold clipMu
      rw [min_eq_right (by linarith), max_eq_right (by linarith)]
    rw [this]
  rw [Finset.sum_congr rfl hterm, Finset.sum_const, Finset.card_range]
  have hind : (fun x => ENNReal.ofReal ((Icc b0 (b0 + 32 / 33)).indicator (fun _ => (33 / 32 : ℝ)) x)) = (Icc b0 (b0 + 32 / 33)).indicator fun _ => ENNReal.ofReal (33 / 32) := by
    funext x
    by_cases hx : x ∈ Icc b0 (b0 + 32 / 33)
    · rw [indicator_of_mem hx, indicator_of_mem hx]
    · rw [indicator_of_notMem hx, indicator_of_notMem hx, ENNReal.ofReal_zero]
  rw [hind, setLIntegral_indicator measurableSet_Icc, setLIntegral_const]
  have hset : Icc b0 (b0 + 32 / 33) ∩ (S ∩ Icc (-1) 1) = S ∩ Icc b0 (b0 + 32 / 33) := by
    ext x
    simp only [mem_inter_iff, mem_Icc]
    constructor
    · rintro ⟨a, c, _⟩; exact ⟨c, a⟩
    · rintro ⟨c, a⟩; exact ⟨a, c, by linarith, by linarith⟩
  rw [hset, nsmul_eq_mul, ← mul_assoc]
  congr 1
  rw [← ENNReal.ofReal_natCast, ← ENNReal.ofReal_mul (by positivity)]
  norm_num

/-- **C161** Equiprobable bins are sampled from the density they report exactly if all of them have the width 1/33: for every other set of bins that the constructor
accepts, the cosines have another law. -/
theorem C161_violation_iff (b : List ℝ) (hb : binsMake b = .ok b) (k : Nat) :
    SamplesReported (fun (_ : Nat) ω => binsSample b ω k) (-1) 1 (binsPdf b) ↔ Spaced b :=
  ⟨reported_spaced hb, fun h => spaced_reported hb h k⟩

/-- In particular whenever the bins cover all cosines, which those of a file do. -/
theorem C161_violation_full (b : List ℝ) (hb : binsMake b = .ok b) (h0 : b[0]? = some (-1 : ℝ)) (h1 : b[32]? = some (1 : ℝ)) (k : Nat) :
    ¬ SamplesReported (fun (_ : Nat) ω => binsSample b ω k) (-1) 1 (binsPdf b) := by
  rw [C161_violation_iff b hb k]
  rintro ⟨b0, hg⟩
  have e0 := Option.some.inj ((hg 0 (by norm_num)).symm.trans h0)
  have e1 := Option.some.inj ((hg 32 (by norm_num)).symm.trans h1)
  push_cast at e0 e1
  linarith

end PNDL
