import Verif.Spec.PCTable
import Verif.Lemmas.Tab1D
import Mathlib.Analysis.SpecialFunctions.Integrals.Basic

/-! Lemmas about `PCTable`. -/
namespace PNDL
open Spec MeasureTheory

/-- `lower_bound` on a list partitioned by `< x` (not necessarily sorted). -/
theorem lowerBound_partition {l : List ℝ} {x : ℝ}
    (hp : ∀ (i j : Nat) (a b : ℝ), i ≤ j → l[i]? = some a → l[j]? = some b → b < x → a < x) :
    lowerBound l x ≤ l.length ∧ ∀ (i : Nat) (a : ℝ), l[i]? = some a → (a < x ↔ i < lowerBound l x) := by
  obtain ⟨_, h2, h3⟩ := bisect_spec (fun a => decide (a < x)) l (by
    intro i j a b hij ha hb hpb
    simp only [decide_eq_true_eq] at hpb ⊢
    exact hp i j a b hij ha hb hpb) (l.length - 0) 0 (l.length - 0) le_rfl (by omega)
  refine ⟨by unfold lowerBound lowerBoundRange; omega, fun i a ha => ?_⟩
  have := h3 i a ha (Nat.zero_le _) (by have := lt_length_of_some ha; omega)
  simpa [lowerBound, lowerBoundRange] using this

/-- The formula used inside a cell. -/
noncomputable def cellSample (r : Interpolation) (xi v0 v1 p0 p1 c0 : ℝ) : Res ℝ :=
  open Classical in
  if r = .histogram ∨ p0 = p1 then histInterp xi v0 p0 c0 else linInterp xi v0 v1 p0 p1 c0

theorem rdiv_cases (a b : ℝ) : rdiv a b = .ok (a / b) ∨ rdiv a b = .error .nonfinite := by
  by_cases h : b = 0
  · right; rw [h]; exact rdiv_zero
  · left; exact rdiv_ok h

theorem cellSample_ne_ub {r : Interpolation} {xi v0 v1 p0 p1 c0 : ℝ} : cellSample r xi v0 v1 p0 p1 c0 ≠ .error .ub := by
  unfold cellSample histInterp linInterp
  by_cases h : r = .histogram ∨ p0 = p1
  · rw [if_pos h]
    rcases rdiv_cases (xi - c0) p0 with e | e <;> rw [e] <;> simp [bind, Except.bind, pure, Except.pure]
  · rw [if_neg h]
    rcases rdiv_cases (p1 - p0) (v1 - v0) with e | e
    · rw [e]
      simp only [bind, Except.bind]
      rcases rdiv_cases 1 ((p1 - p0) / (v1 - v0)) with e' | e' <;> rw [e'] <;> simp [pure, Except.pure]
    · rw [e]; simp [bind, Except.bind]

theorem get_of_lenEq {α β : Type _} {l : List α} {m : List β} (h : l.length = m.length) {i : Nat} {b : β}
    (hb : m[i]? = some b) : ∃ a, l[i]? = some a := getElem?_of_lt (by have := lt_length_of_some hb; omega)

theorem PCTable.sample_cases {t : PCTable} (hv : ValidPC t) {xi c00 : ℝ} (h0 : t.cdf[0]? = some c00) (h1 : c00 ≤ xi)
    (h2 : xi ≤ 1) :
    (∃ (l : Nat) (v : ℝ), t.cdf[l]? = some xi ∧ t.values[l]? = some v ∧ t.sample xi = .ok v) ∨
    (∃ (l : Nat) (v0 v1 p0 p1 c0 c1 : ℝ), t.values[l]? = some v0 ∧ t.values[l + 1]? = some v1 ∧ t.pdf[l]? = some p0 ∧
      t.pdf[l + 1]? = some p1 ∧ t.cdf[l]? = some c0 ∧ t.cdf[l + 1]? = some c1 ∧ c0 < xi ∧ xi < c1 ∧
      t.sample xi = cellSample t.interp xi v0 v1 p0 p1 c0) := by
  obtain ⟨hle, hlb⟩ := lowerBound_partition (l := t.cdf) (x := xi) (by
    intro i j a b hij ha hb hb2
    rcases min_le_iff.mp (hv.cdf_sorted i j a b hij ha hb) with h | h <;> linarith)
  obtain ⟨l, hl⟩ : ∃ l, l = lowerBound t.cdf xi := ⟨_, rfl⟩
  rw [← hl] at hle hlb
  have hpos : 0 < t.cdf.length := lt_length_of_some h0
  have hlast : t.cdf[t.cdf.length - 1]? = some 1 := by rw [← List.getLast?_eq_getElem?]; exact hv.cdf_last
  have hlt : l < t.cdf.length := by
    have := mt (hlb _ _ hlast).mpr (not_lt.mpr h2)
    omega
  obtain ⟨c, hc⟩ := getElem?_of_lt hlt
  have hcx : xi ≤ c := not_lt.mp (mt (hlb l c hc).mp (lt_irrefl _))
  by_cases he : xi = c
  · left
    obtain ⟨v, hvl⟩ := get_of_lenEq (hv.lenC.symm) hc
    refine ⟨l, v, by rw [hc, he], hvl, ?_⟩
    rw [PCTable.sample, ← hl]
    simp only [getAt_eq_ok.mpr hc, getAt_eq_ok.mpr hvl, bind, Except.bind]
    rw [if_pos he]
  · right
    have hl1 : 1 ≤ l := by
      rcases Nat.eq_zero_or_pos l with h | h
      · rw [h] at hc; rw [h0] at hc; cases hc; exact absurd (le_antisymm hcx h1) he
      · exact h
    obtain ⟨k, rfl⟩ : ∃ k, l = k + 1 := ⟨l - 1, by omega⟩
    obtain ⟨c0, hc0⟩ := getElem?_of_lt (l := t.cdf) (i := k) (by omega)
    obtain ⟨v0, hv0⟩ := get_of_lenEq hv.lenC.symm hc0
    obtain ⟨v1, hv1⟩ := get_of_lenEq hv.lenC.symm hc
    obtain ⟨p0, hp0⟩ := get_of_lenEq hv.lenP hv0
    obtain ⟨p1, hp1⟩ := get_of_lenEq hv.lenP hv1
    refine ⟨k, v0, v1, p0, p1, c0, c, hv0, hv1, hp0, hp1, hc0, hc, (hlb k c0 hc0).mpr (by omega),
      lt_of_le_of_ne hcx he, ?_⟩
    rw [PCTable.sample, ← hl]
    simp only [getAt_eq_ok.mpr hc, getAt_eq_ok.mpr hv0, getAt_eq_ok.mpr hv1, getAt_eq_ok.mpr hp0, getAt_eq_ok.mpr hp1,
      getAt_eq_ok.mpr hc0, bind, Except.bind, subIdx_of_le hl1, Nat.add_sub_cancel]
    rw [if_neg he]
    unfold cellSample
    by_cases hr : t.interp = .histogram
    · simp [hr]
    · by_cases hp : p0 = p1
      · simp [hp]
      · simp [hr, hp]

/-- Probability accumulated in a cell up to `x`. -/
noncomputable def cellInt (r : Interpolation) (v0 v1 p0 p1 x : ℝ) : ℝ :=
  if r = .histogram then p0 * (x - v0) else p0 * (x - v0) + (p1 - p0) / (v1 - v0) / 2 * (x - v0) ^ 2

theorem cellInt_right {r : Interpolation} {v0 v1 p0 p1 : ℝ} : cellInt r v0 v1 p0 p1 v1 = cellArea r v0 v1 p0 p1 := by
  unfold cellInt cellArea
  split_ifs
  · ring
  · by_cases h : v1 - v0 = 0
    · rw [h]; ring
    · field_simp; ring

theorem cellArea_nonneg {r : Interpolation} {v0 v1 p0 p1 : ℝ} (hv : v0 ≤ v1) (h0 : 0 ≤ p0) (h1 : 0 ≤ p1) :
    0 ≤ cellArea r v0 v1 p0 p1 := by
  unfold cellArea
  have : 0 ≤ v1 - v0 := by linarith
  split_ifs <;> positivity

/-- The cell formula is defined, stays in the cell and inverts the cell's cumulative. -/
theorem cell_ok {r : Interpolation} {xi v0 v1 p0 p1 c0 c1 : ℝ} (hv : v0 ≤ v1) (h0 : 0 ≤ p0) (h1 : 0 ≤ p1) (hx0 : c0 < xi)
    (hx1 : xi ≤ c1) (hs : c1 - c0 ≤ cellArea r v0 v1 p0 p1) :
    ∃ x, cellSample r xi v0 v1 p0 p1 c0 = .ok x ∧ v0 ≤ x ∧ x ≤ v1 ∧ cellInt r v0 v1 p0 p1 x = xi - c0 := by
  have hd : 0 < v1 - v0 := by
    rcases hv.lt_or_eq with h | h
    · linarith
    · rw [h] at hs; unfold cellArea at hs; simp at hs; linarith
  by_cases hc : r = .histogram ∨ p0 = p1
  · have hA : xi - c0 ≤ (v1 - v0) * p0 := by
      unfold cellArea at hs
      split_ifs at hs with hr
      · linarith
      · rcases hc with h | h
        · exact absurd h hr
        · rw [← h] at hs; linarith
    have hp : 0 < p0 := by
      rcases h0.lt_or_eq with h | h
      · exact h
      · rw [← h] at hA; linarith
    refine ⟨v0 + (xi - c0) / p0, ?_, ?_, ?_, ?_⟩
    · unfold cellSample
      rw [if_pos hc, histInterp, rdiv_ok hp.ne']; rfl
    · have : 0 ≤ (xi - c0) / p0 := div_nonneg (by linarith) hp.le
      linarith
    · have : (xi - c0) / p0 ≤ v1 - v0 := by rw [div_le_iff₀ hp]; linarith
      linarith
    · unfold cellInt
      split_ifs with hr
      · field_simp; ring
      · rcases hc with h | h
        · exact absurd h hr
        · rw [← h]; field_simp; ring
  · obtain ⟨hr, hp⟩ : r ≠ .histogram ∧ p0 ≠ p1 := not_or.mp hc
    have hA : xi - c0 ≤ (v1 - v0) * (p0 + p1) / 2 := by
      unfold cellArea at hs; rw [if_neg hr] at hs; linarith
    obtain ⟨m, hm⟩ : ∃ m, m = (p1 - p0) / (v1 - v0) := ⟨_, rfl⟩
    have hmd : m * (v1 - v0) = p1 - p0 := by rw [hm]; field_simp
    have hm0 : m ≠ 0 := by
      intro h; rw [h] at hmd; exact hp (by linarith)
    obtain ⟨arg, harg⟩ : ∃ a, a = p0 * p0 + 2 * m * (xi - c0) := ⟨_, rfl⟩
    have hu : 0 < xi - c0 := by linarith
    have key : p1 * p1 = p0 * p0 + 2 * m * ((v1 - v0) * (p0 + p1) / 2) := by
      have : 2 * m * ((v1 - v0) * (p0 + p1) / 2) = m * (v1 - v0) * (p0 + p1) := by ring
      rw [this, hmd]; ring
    have hsgn : 0 < m ∧ p0 * p0 ≤ arg ∧ arg ≤ p1 * p1 ∨ m < 0 ∧ p1 * p1 ≤ arg ∧ arg ≤ p0 * p0 := by
      rcases lt_or_gt_of_ne hm0 with h | h
      · right
        refine ⟨h, ?_, ?_⟩ <;> rw [harg] <;> nlinarith
      · left
        refine ⟨h, ?_, ?_⟩ <;> rw [harg] <;> nlinarith
    have harg0 : 0 ≤ arg := by
      rcases hsgn with ⟨_, h, _⟩ | ⟨_, h, _⟩ <;> nlinarith
    obtain ⟨s, hs'⟩ : ∃ s, s = Real.sqrt arg := ⟨_, rfl⟩
    have hs0 : 0 ≤ s := by rw [hs']; exact Real.sqrt_nonneg _
    have hss : s * s = arg := by rw [hs']; exact Real.mul_self_sqrt harg0
    have hbet : 0 < m ∧ p0 ≤ s ∧ s ≤ p1 ∨ m < 0 ∧ p1 ≤ s ∧ s ≤ p0 := by
      rcases hsgn with ⟨h, a, b⟩ | ⟨h, a, b⟩
      · left; exact ⟨h, by nlinarith, by nlinarith⟩
      · right; exact ⟨h, by nlinarith, by nlinarith⟩
    obtain ⟨q, hq⟩ : ∃ q, q = 1 / m * (s - p0) := ⟨_, rfl⟩
    have hqm : q * m = s - p0 := by rw [hq]; field_simp
    refine ⟨v0 + q, ?_, ?_, ?_, ?_⟩
    · unfold cellSample
      rw [if_neg hc, linInterp, rdiv_ok hd.ne', ← hm]
      simp only [bind, Except.bind, rdiv_ok hm0, pure, Except.pure, ← harg]
      rw [max_eq_left harg0, ← hs', hq]
    · rcases hbet with ⟨h, a, b⟩ | ⟨h, a, b⟩ <;> nlinarith
    · have : (v1 - v0) * m = p1 - p0 := by linarith
      rcases hbet with ⟨h, a, b⟩ | ⟨h, a, b⟩ <;> nlinarith
    · unfold cellInt
      rw [if_neg hr, ← hm, add_sub_cancel_left]
      have : p0 * q + m / 2 * q ^ 2 = (arg - p0 * p0) / (2 * m) := by
        rw [eq_div_iff (by simpa using hm0)]
        have : (p0 * q + m / 2 * q ^ 2) * (2 * m) = 2 * p0 * (q * m) + (q * m) * (q * m) := by ring
        rw [this, hqm, ← hss]; ring
      rw [this, harg]; field_simp; ring

/-- `pdf` inside an open cell. -/
theorem PCTable.pdfAt_cell {t : PCTable} (hv : ValidPC t) {l : Nat} {v0 v1 p0 p1 x : ℝ} (hv0 : t.values[l]? = some v0)
    (hv1 : t.values[l + 1]? = some v1) (hp0 : t.pdf[l]? = some p0) (hp1 : t.pdf[l + 1]? = some p1) (h0 : v0 < x) (h1 : x < v1) :
    t.pdfAt x = .ok (if t.interp = .histogram then p0 else p0 + (p1 - p0) / (v1 - v0) * (x - v0)) := by
  have hs := hv.values_sorted
  have hlen := lt_length_of_some hv1
  obtain ⟨mn, hmn⟩ := getElem?_of_lt (l := t.values) (i := 0) (by omega)
  obtain ⟨mx, hmx⟩ := getElem?_of_lt (l := t.values) (i := t.values.length - 1) (by omega)
  have hmx' : t.values.getLast? = some mx := by rw [List.getLast?_eq_getElem?]; exact hmx
  have a1 : mn ≤ v0 := pairwise_le_getElem? hs (Nat.zero_le _) hmn hv0
  have a2 : v1 ≤ mx := pairwise_le_getElem? hs (by omega) hv1 hmx
  have hl : lowerBound t.values x = l + 1 := by
    have b1 := (lowerBound_iff hs x hv0).mp h0
    have b2 := mt (lowerBound_iff hs x hv1).mpr (not_lt.mpr h1.le)
    omega
  rw [PCTable.pdfAt, PCTable.minValue, PCTable.maxValue, front_eq_ok.mpr hmn, back_eq_ok.mpr hmx', hl]
  simp only [bind, Except.bind, getAt_eq_ok.mpr hv0, getAt_eq_ok.mpr hv1, getAt_eq_ok.mpr hp0, getAt_eq_ok.mpr hp1,
    subIdx_of_le (show 1 ≤ l + 1 by omega), Nat.add_sub_cancel]
  rw [if_neg (by rintro (h | h) <;> linarith), if_neg h1.ne]
  by_cases hr : t.interp = .histogram
  · rw [if_pos hr, if_pos hr]
  · rw [if_neg hr, if_neg hr]
    have hne : v1 - v0 ≠ 0 := by intro h; linarith
    simp only [Interpolation.interpolate, rdiv_ok hne, bind, Except.bind, pure, Except.pure]
    congr 1; field_simp; ring

/-- `pdf` at a tabulated value (first occurrence). -/
theorem PCTable.pdfAt_grid {t : PCTable} (hv : ValidPC t) {l : Nat} {x p : ℝ} (hx : t.values[l]? = some x)
    (hp : t.pdf[l]? = some p) (hfirst : ∀ (j : Nat), j < l → ∀ v, t.values[j]? = some v → v < x) : t.pdfAt x = .ok p := by
  have hs := hv.values_sorted
  have hlen := lt_length_of_some hx
  obtain ⟨mn, hmn⟩ := getElem?_of_lt (l := t.values) (i := 0) (by omega)
  obtain ⟨mx, hmx⟩ := getElem?_of_lt (l := t.values) (i := t.values.length - 1) (by omega)
  have hmx' : t.values.getLast? = some mx := by rw [List.getLast?_eq_getElem?]; exact hmx
  have a1 : mn ≤ x := pairwise_le_getElem? hs (Nat.zero_le _) hmn hx
  have a2 : x ≤ mx := pairwise_le_getElem? hs (by omega) hx hmx
  have hl : lowerBound t.values x = l := by
    apply lowerBound_unique hs x (by omega)
    intro i a ha
    constructor
    · intro h
      by_contra hc
      have := pairwise_le_getElem? hs (not_lt.mp hc) hx ha
      linarith
    · intro h; exact hfirst i h a ha
  rw [PCTable.pdfAt, PCTable.minValue, PCTable.maxValue, front_eq_ok.mpr hmn, back_eq_ok.mpr hmx', hl]
  simp only [bind, Except.bind, getAt_eq_ok.mpr hx, getAt_eq_ok.mpr hp]
  rw [if_neg (by rintro (h | h) <;> linarith), if_pos trivial]

/-- Every argument is outside the table, at the first occurrence of a tabulated value, or inside an open cell. -/
theorem PCTable.locate {t : PCTable} (hv : ValidPC t) {mn mx : ℝ} (hmn : t.values[0]? = some mn)
    (hmx : t.values.getLast? = some mx) (x : ℝ) :
    (x < mn ∨ mx < x) ∨
    (∃ (l : Nat), t.values[l]? = some x ∧ ∀ (j : Nat), j < l → ∀ v, t.values[j]? = some v → v < x) ∨
    (∃ (l : Nat) (v0 v1 : ℝ), t.values[l]? = some v0 ∧ t.values[l + 1]? = some v1 ∧ v0 < x ∧ x < v1) := by
  have hs := hv.values_sorted
  by_cases h : x < mn ∨ mx < x
  · exact Or.inl h
  right
  rw [not_or, not_lt, not_lt] at h
  by_cases he : x = mn
  · left; exact ⟨0, by rw [hmn, he], by intro j hj; omega⟩
  obtain ⟨i, x1, x2, hi, e1, e2, b1, b2⟩ := bracket_index hs hmn hmx (lt_of_le_of_ne h.1 (Ne.symm he)) h.2
  rcases b2.lt_or_eq with b2 | b2
  · right; exact ⟨i, x1, x2, e1, e2, b1, b2⟩
  · left
    refine ⟨i + 1, by rw [e2, b2], fun j hj v hv' => ?_⟩
    exact (lowerBound_iff hs x hv').mpr (by omega)

/-- The integral of the density over part of a cell. -/
theorem PCTable.integral_cell {t : PCTable} (hv : ValidPC t) (G : ℝ → ℝ) (hG : ∀ x, t.pdfAt x = .ok (G x)) {l : Nat}
    {v0 v1 p0 p1 x : ℝ} (hv0 : t.values[l]? = some v0)
    (hv1 : t.values[l + 1]? = some v1) (hp0 : t.pdf[l]? = some p0) (hp1 : t.pdf[l + 1]? = some p1) (h0 : v0 ≤ x) (h1 : x ≤ v1) :
    IntervalIntegrable G volume v0 x ∧ ∫ s in v0..x, G s = cellInt t.interp v0 v1 p0 p1 x := by
  obtain ⟨m, hm⟩ : ∃ m, m = (if t.interp = .histogram then 0 else (p1 - p0) / (v1 - v0)) := ⟨_, rfl⟩
  have heq : Set.EqOn (fun s => p0 + m * (s - v0)) G (Set.uIoo v0 x) := by
    intro s hs
    rw [Set.uIoo_of_le h0] at hs
    have e := t.pdfAt_cell hv hv0 hv1 hp0 hp1 hs.1 (lt_of_lt_of_le hs.2 h1)
    rw [hG s] at e
    have e' := Except.ok.inj e
    simp only
    rw [e', hm]
    by_cases hr : t.interp = .histogram
    · rw [if_pos hr, if_pos hr]; ring
    · rw [if_neg hr, if_neg hr]
  have hcont : Continuous (fun s : ℝ => p0 + m * (s - v0)) := by fun_prop
  refine ⟨(hcont.intervalIntegrable _ _).congr_uIoo heq, ?_⟩
  rw [← intervalIntegral.integral_congr_uIoo heq]
  have hder : ∀ s ∈ Set.uIcc v0 x, HasDerivAt (fun s => p0 * (s - v0) + m / 2 * (s - v0) ^ 2) (p0 + m * (s - v0)) s := by
    intro s _
    have e1 : HasDerivAt (fun s : ℝ => s - v0) 1 s := (hasDerivAt_id s).sub_const v0
    have e2 := (e1.const_mul p0).add ((e1.pow 2).const_mul (m / 2))
    have e3 : p0 + m * (s - v0) = p0 * 1 + m / 2 * (((2 : ℕ) : ℝ) * (s - v0) ^ (2 - 1) * 1) := by norm_num; ring
    rw [e3]; exact e2
  rw [intervalIntegral.integral_eq_sub_of_hasDerivAt hder (hcont.intervalIntegrable _ _)]
  unfold cellInt
  by_cases hr : t.interp = .histogram
  · rw [if_pos hr] at hm ⊢; rw [hm]; ring
  · rw [if_neg hr] at hm ⊢; rw [hm]; ring

/-- The tabulated cumulative of a consistent table is the integral of its density. -/
theorem PCTable.integral_grid {t : PCTable} (hv : ValidPC t) (hc : ConsistentPC t) (G : ℝ → ℝ)
    (hG : ∀ x, t.pdfAt x = .ok (G x)) {mn : ℝ} (hmn : t.values[0]? = some mn) :
    ∀ (l : Nat) (v c : ℝ), t.values[l]? = some v → t.cdf[l]? = some c →
      IntervalIntegrable G volume mn v ∧ ∫ s in mn..v, G s = c := by
  intro l
  induction l with
  | zero =>
    intro v c h1 h2
    rw [hmn] at h1; rw [hc.start] at h2; cases h1; cases h2
    simp
  | succ l ih =>
    intro v c h1 h2
    have hlen := lt_length_of_some h1
    obtain ⟨v0, hv0⟩ := getElem?_of_lt (l := t.values) (i := l) (by omega)
    obtain ⟨c0, hc0⟩ := get_of_lenEq hv.lenC hv0
    obtain ⟨p0, hp0⟩ := get_of_lenEq hv.lenP hv0
    obtain ⟨p1, hp1⟩ := get_of_lenEq hv.lenP h1
    obtain ⟨i1, i2⟩ := ih v0 c0 hv0 hc0
    have hle : v0 ≤ v := pairwise_le_getElem? hv.values_sorted (by omega) hv0 h1
    obtain ⟨j1, j2⟩ := t.integral_cell hv G hG hv0 h1 hp0 hp1 hle le_rfl
    refine ⟨i1.trans j1, ?_⟩
    rw [← intervalIntegral.integral_add_adjacent_intervals i1 j1, i2, j2, cellInt_right,
      ← hc.step l v0 v p0 p1 c0 c hv0 h1 hp0 hp1 hc0 h2]
    ring

end PNDL
