import Verif.Lemmas.PCTable
import Verif.Props.CrossSection

/-! C32 (sampling range), C33 (sampling inverts the CDF), C34 (density) of `PCTable`. -/
namespace PNDL
open Spec MeasureTheory

/-! ## The constructors -/

theorem setLast_get {l : List ℝ} {i : Nat} {a : ℝ} (h : (setLast l 1)[i]? = some a) :
    i = l.length - 1 ∧ a = 1 ∨ i < l.length - 1 ∧ l[i]? = some a := by
  unfold setLast at h
  rw [List.getElem?_set] at h
  split at h
  · rename_i he
    split at h
    · cases h; left; exact ⟨he.symm, rfl⟩
    · cases h
  · rename_i he
    have := lt_length_of_some h
    right; exact ⟨by omega, h⟩

/-- Every table accepted by the checks is valid. -/
theorem PCTable.check_valid {values pdf cdf : List ℝ} {r : Interpolation} {t : PCTable} (hr : r = .histogram ∨ r = .linLin)
    (h1 : values.length = pdf.length) (h2 : pdf.length = cdf.length) (hne : values ≠ [])
    (h : PCTable.check values pdf cdf r = .ok t) :
    ValidPC t ∧ t.values = values ∧ t.pdf = pdf ∧ t.interp = r := by
  unfold PCTable.check at h
  split at h
  · cases h
  rename_i hs1
  split at h
  · cases h
  rename_i hs2
  have hvs := isSorted_iff.mp (by simpa using hs1)
  have hcs := isSorted_iff.mp (by simpa using hs2)
  have hpos : 0 < values.length := List.length_pos_iff.mpr hne
  obtain ⟨last, hlast⟩ := getElem?_of_lt (l := cdf) (i := cdf.length - 1) (by omega)
  have hback : cdf.getLast? = some last := by rw [List.getLast?_eq_getElem?]; exact hlast
  simp only [back_eq_ok.mpr hback, bind, Except.bind] at h
  have fin : ∀ cdf', (if ∃ p ∈ pdf, p < 0 then (.error .exc : Res PCTable) else .ok ⟨values, pdf, cdf', r⟩) = .ok t →
      cdf'.length = cdf.length → cdf'.getLast? = some 1 →
      (∀ (i j : Nat) (a b : ℝ), i ≤ j → cdf'[i]? = some a → cdf'[j]? = some b → min a 1 ≤ b) →
      ValidPC t ∧ t.values = values ∧ t.pdf = pdf ∧ t.interp = r := by
    intro cdf' ht hlen hl hsort
    split at ht
    · cases ht
    · rename_i hn
      cases ht
      refine ⟨⟨hr, h1.symm, by simp only [hlen]; omega, hne, hvs, hsort, hl, fun p hp => ?_⟩, rfl, rfl, rfl⟩
      by_contra hneg
      exact hn ⟨p, hp, not_le.mp hneg⟩
  by_cases hl1 : last ≠ 1
  · rw [if_pos hl1] at h
    by_cases hl2 : |last - 1| < 1 / 10 ^ 7
    · rw [if_pos hl2] at h
      simp only at h
      have hlen : (setLast cdf 1).length = cdf.length := by simp [setLast]
      refine fin _ h hlen ?_ ?_
      · rw [List.getLast?_eq_getElem?, hlen]
        unfold setLast; rw [List.getElem?_set]; rw [if_pos rfl, if_pos (by omega)]
      · intro i j a b hij ha hb
        rcases setLast_get hb with ⟨_, rfl⟩ | ⟨hj, hb'⟩
        · exact min_le_right _ _
        · rcases setLast_get ha with ⟨hi, rfl⟩ | ⟨hi, ha'⟩
          · omega
          · exact min_le_of_left_le (pairwise_le_getElem? hcs hij ha' hb')
    · rw [if_neg hl2] at h; cases h
  · rw [if_neg hl1] at h
    rw [not_not] at hl1
    subst hl1
    exact fin _ h rfl hback (fun i j a b hij ha hb => min_le_of_left_le (pairwise_le_getElem? hcs hij ha hb))

/-- Every table built from vectors is valid. -/
theorem PCTable.make_valid {values pdf cdf : List ℝ} {r : Interpolation} {t : PCTable}
    (h : PCTable.make values pdf cdf r = .ok t) : ValidPC t ∧ t.values = values ∧ t.pdf = pdf ∧ t.interp = r := by
  unfold PCTable.make at h
  split at h
  · cases h
  rename_i h1
  split at h
  · cases h
  rename_i h2
  split at h
  · cases h
  rename_i h3
  refine check_valid ?_ (by tauto) (by tauto) (by intro hc; rw [hc] at h3; exact h3 rfl) h
  tauto

/-- Every table read from a file is valid. -/
theorem PCTable.makeAce_valid {xss : List ℝ} {i : Nat} {norm : ℝ} {t : PCTable} (h : PCTable.makeAce xss i norm = .ok t) :
    ValidPC t := by
  unfold PCTable.makeAce at h
  cases hc : getAt xss i with
  | error e => rw [hc] at h; cases h
  | ok code =>
    rw [hc] at h
    simp only [bind, Except.bind] at h
    split at h
    · rename_i r hr
      split at h
      · cases h
      rename_i hrr
      cases hnp : getAt xss (i + 1) with
      | error e => rw [hnp] at h; cases h
      | ok np =>
        rw [hnp] at h
        simp only at h
        split at h
        · cases h
        rename_i hz
        have sl : ∀ j s, xssSlice xss j ⌊np⌋.toNat = .ok s → s.length = ⌊np⌋.toNat := by
          intro j s hs
          unfold xssSlice at hs
          split at hs
          · cases hs; simp [List.length_take, List.length_drop]; omega
          · cases hs
        cases h1 : xssSlice xss (i + 2) ⌊np⌋.toNat with
        | error e => rw [h1] at h; cases h
        | ok vs =>
          cases h2 : xssSlice xss (i + 2 + ⌊np⌋.toNat) ⌊np⌋.toNat with
          | error e => rw [h1] at h; simp only at h; rw [h2] at h; cases h
          | ok ps =>
            cases h3 : xssSlice xss (i + 2 + ⌊np⌋.toNat + ⌊np⌋.toNat) ⌊np⌋.toNat with
            | error e => rw [h1] at h; simp only at h; rw [h2] at h; simp only at h; rw [h3] at h; cases h
            | ok cs =>
              rw [h1] at h; simp only at h; rw [h2] at h; simp only at h; rw [h3] at h; simp only at h
              have l1 := sl _ _ h1
              have l2 := sl _ _ h2
              have l3 := sl _ _ h3
              refine (check_valid ?_ (by rw [List.length_map]; omega) (by omega) ?_ h).1
              · tauto
              · intro hc; have := congrArg List.length hc
                rw [List.length_map, l1] at this; exact hz this
    · cases h

/-! ## C32 -/

/-- C32 for tables whose cumulative starts at 0 and whose steps do not exceed the probabilities of the density: sampling is
defined and stays within the table, for every `xi` in `[0,1]`.
Missing for the full claim: the constructors check neither condition, see the violations below. -/
theorem C32_in_range_partial (t : PCTable) (hv : ValidPC t) (hc : CoveredPC t) (xi : ℝ) (h0 : 0 ≤ xi) (h1 : xi ≤ 1) :
    ∃ x mn mx, t.sample xi = .ok x ∧ t.minValue = .ok mn ∧ t.maxValue = .ok mx ∧ mn ≤ x ∧ x ≤ mx := by
  have hs := hv.values_sorted
  have hpos : 0 < t.values.length := List.length_pos_iff.mpr hv.ne
  obtain ⟨mn, hmn⟩ := getElem?_of_lt (l := t.values) (i := 0) (by omega)
  obtain ⟨mx, hmx⟩ := getElem?_of_lt (l := t.values) (i := t.values.length - 1) (by omega)
  have hmx' : t.values.getLast? = some mx := by rw [List.getLast?_eq_getElem?]; exact hmx
  have bd : ∀ (l : Nat) v, t.values[l]? = some v → mn ≤ v ∧ v ≤ mx := fun l v h =>
    ⟨pairwise_le_getElem? hs (Nat.zero_le _) hmn h, pairwise_le_getElem? hs (by have := lt_length_of_some h; omega) h hmx⟩
  rcases t.sample_cases hv hc.start h0 h1 with ⟨l, v, _, e2, e3⟩ | ⟨l, v0, v1, p0, p1, c0, c1, e1, e2, e3, e4, e5, e6, a, b, e⟩
  · exact ⟨v, mn, mx, e3, front_eq_ok.mpr hmn, back_eq_ok.mpr hmx', bd l v e2⟩
  · obtain ⟨x, hx, g1, g2, _⟩ := cell_ok (pairwise_le_getElem? hs (by omega) e1 e2)
      (hv.pdf_nonneg _ (List.mem_of_getElem? e3)) (hv.pdf_nonneg _ (List.mem_of_getElem? e4)) a b.le
      (hc.step l v0 v1 p0 p1 c0 c1 e1 e2 e3 e4 e5 e6)
    exact ⟨x, mn, mx, e.trans hx, front_eq_ok.mpr hmn, back_eq_ok.mpr hmx', (bd l v0 e1).1.trans g1, g2.trans (bd _ v1 e2).2⟩

/-- For every constructible table the sampled index is in range exactly when `xi` is not below the first tabulated cumulative
value; below it the code reads before the start of the table. -/
theorem C32_undefined_iff (t : PCTable) (hv : ValidPC t) (xi c00 : ℝ) (h0 : t.cdf[0]? = some c00) (h1 : xi ≤ 1) :
    t.sample xi = .error .ub ↔ xi < c00 := by
  constructor
  · intro h
    by_contra hc
    rcases t.sample_cases hv h0 (not_lt.mp hc) h1 with ⟨l, v, _, _, e3⟩ | ⟨l, v0, v1, p0, p1, c0, c1, _, _, _, _, _, _, _, _, e⟩
    · rw [e3] at h; cases h
    · rw [e] at h
      exact cellSample_ne_ub h
  · intro h
    have hp : lowerBound t.cdf xi = 0 := by
      obtain ⟨_, hlb⟩ := lowerBound_partition (l := t.cdf) (x := xi) (by
        intro i j a b hij ha hb hb2
        rcases min_le_iff.mp (hv.cdf_sorted i j a b hij ha hb) with h | h <;> linarith)
      have := mt (hlb 0 c00 h0).mpr (not_lt.mpr h.le)
      omega
    rw [PCTable.sample, hp]
    simp only [getAt_eq_ok.mpr h0, bind, Except.bind]
    rw [if_neg h.ne]
    rfl

/-- The full claim is false of the code: a table the constructor accepts, whose cumulative starts above 0, is read out of
bounds for small `xi`. -/
theorem C32_violation_start : ∃ t, PCTable.make [0, 1] [1 / 2, 1 / 2] [1 / 2, 1] .linLin = .ok t ∧
    t.sample 0 = .error .ub := by
  have hm : PCTable.make [0, 1] [1 / 2, 1 / 2] [1 / 2, 1] .linLin = .ok ⟨[0, 1], [1 / 2, 1 / 2], [1 / 2, 1], .linLin⟩ := by
    norm_num [PCTable.make, PCTable.check, isSorted, back, bind, Except.bind]
  exact ⟨_, hm, (C32_undefined_iff _ (PCTable.make_valid hm).1 0 (1 / 2) rfl (by norm_num)).mpr (by norm_num)⟩

/-- The full claim is false of the code: the constructor also accepts a density too small for the cumulative, and samples leave
the table. -/
theorem C32_violation_range : ∃ t, PCTable.make [0, 1] [1 / 4, 1 / 4] [0, 1] .histogram = .ok t ∧
    t.maxValue = .ok 1 ∧ t.sample (1 / 2) = .ok 2 := by
  have hm : PCTable.make [0, 1] [1 / 4, 1 / 4] [0, 1] .histogram = .ok ⟨[0, 1], [1 / 4, 1 / 4], [0, 1], .histogram⟩ := by
    norm_num [PCTable.make, PCTable.check, isSorted, back, bind, Except.bind]
  refine ⟨_, hm, rfl, ?_⟩
  norm_num [PCTable.sample, lowerBound, lowerBoundRange, bisect, getAt, bind, Except.bind, subIdx, histInterp, rdiv, pure,
    Except.pure]

/-- The full claim is false of the code: a zero density under a rising cumulative gives a division by zero. -/
theorem C32_violation_div : ∃ t, PCTable.make [0, 1] [0, 0] [0, 1] .histogram = .ok t ∧
    t.sample (1 / 2) = .error .nonfinite := by
  have hm : PCTable.make [0, 1] [0, 0] [0, 1] .histogram = .ok ⟨[0, 1], [0, 0], [0, 1], .histogram⟩ := by
    norm_num [PCTable.make, PCTable.check, isSorted, back, bind, Except.bind]
  refine ⟨_, hm, ?_⟩
  norm_num [PCTable.sample, lowerBound, lowerBoundRange, bisect, getAt, bind, Except.bind, subIdx, histInterp, rdiv, pure,
    Except.pure]

/-- The condition of the partial theorem cannot be weakened cell by cell: for a histogram cell whose cumulative step exceeds its
probability, some `xi` is sampled beyond the cell's upper end. -/
theorem C32_tight (t : PCTable) (hv : ValidPC t) (hr : t.interp = .histogram) (l : Nat) (v0 v1 p0 p1 c0 c1 : ℝ)
    (e1 : t.values[l]? = some v0) (e2 : t.values[l + 1]? = some v1) (e3 : t.pdf[l]? = some p0) (_ : t.pdf[l + 1]? = some p1)
    (e5 : t.cdf[l]? = some c0) (e6 : t.cdf[l + 1]? = some c1) (hp : 0 < p0) (hc1 : c1 ≤ 1)
    (hbad : cellArea t.interp v0 v1 p0 p1 < c1 - c0) :
    ∃ xi x, c0 < xi ∧ xi < c1 ∧ t.sample xi = .ok x ∧ v1 < x := by
  have hle : v0 ≤ v1 := pairwise_le_getElem? hv.values_sorted (by omega) e1 e2
  have hA : 0 ≤ (v1 - v0) * p0 := mul_nonneg (by linarith) hp.le
  have hbad' : (v1 - v0) * p0 < c1 - c0 := by unfold cellArea at hbad; rwa [if_pos hr] at hbad
  obtain ⟨xi, hxi⟩ : ∃ xi, xi = (c0 + (v1 - v0) * p0 + c1) / 2 := ⟨_, rfl⟩
  have b1 : c0 < xi := by rw [hxi]; linarith
  have b2 : xi < c1 := by rw [hxi]; linarith
  have b3 : (v1 - v0) * p0 < xi - c0 := by rw [hxi]; linarith
  refine ⟨xi, v0 + (xi - c0) / p0, b1, b2, ?_, ?_⟩
  · have hl : lowerBound t.cdf xi = l + 1 := by
      obtain ⟨_, hlb⟩ := lowerBound_partition (l := t.cdf) (x := xi) (by
        intro i j a b hij ha hb hb2
        rcases min_le_iff.mp (hv.cdf_sorted i j a b hij ha hb) with h | h <;> linarith)
      have := (hlb l c0 e5).mp b1
      have := mt (hlb _ c1 e6).mpr (not_lt.mpr b2.le)
      omega
    rw [PCTable.sample, hl]
    simp only [getAt_eq_ok.mpr e6, getAt_eq_ok.mpr e1, getAt_eq_ok.mpr e3, getAt_eq_ok.mpr e5, bind, Except.bind,
      subIdx_of_le (show 1 ≤ l + 1 by omega), Nat.add_sub_cancel]
    rw [if_neg b2.ne, if_pos hr, histInterp, rdiv_ok hp.ne']; rfl
  · have : v1 - v0 < (xi - c0) / p0 := by rw [lt_div_iff₀ hp]; exact b3
    linarith

/-! ## C34 -/

/-- C34: the density is defined everywhere and non-negative, and zero outside the table. -/
theorem C34_pdf (t : PCTable) (hv : ValidPC t) (x : ℝ) :
    ∃ p, t.pdfAt x = .ok p ∧ 0 ≤ p ∧
      (∀ mn mx, t.minValue = .ok mn → t.maxValue = .ok mx → x < mn ∨ mx < x → p = 0) := by
  have hpos : 0 < t.values.length := List.length_pos_iff.mpr hv.ne
  obtain ⟨mn, hmn⟩ := getElem?_of_lt (l := t.values) (i := 0) (by omega)
  obtain ⟨mx, hmx⟩ := last_exists hpos
  have he1 := front_eq_ok.mpr hmn
  have he2 := back_eq_ok.mpr hmx
  by_cases hout : x < mn ∨ mx < x
  · refine ⟨0, ?_, le_rfl, fun _ _ _ _ _ => rfl⟩
    rw [PCTable.pdfAt, PCTable.minValue, PCTable.maxValue, he1, he2]
    simp only [bind, Except.bind]
    rw [if_pos hout]
  · have hfin : ∀ p, ∀ mn' mx', t.minValue = .ok mn' → t.maxValue = .ok mx' → x < mn' ∨ mx' < x → p = (0 : ℝ) := by
      intro p mn' mx' h1 h2 h3
      rw [PCTable.minValue, he1] at h1; rw [PCTable.maxValue, he2] at h2
      cases h1; cases h2; exact absurd h3 hout
    rcases t.locate hv hmn hmx x with h | ⟨l, h1, h2⟩ | ⟨l, v0, v1, e1, e2, a, b⟩
    · exact absurd h hout
    · obtain ⟨p, hp⟩ := get_of_lenEq hv.lenP h1
      exact ⟨p, t.pdfAt_grid hv h1 hp h2, hv.pdf_nonneg _ (List.mem_of_getElem? hp), hfin p⟩
    · obtain ⟨p0, hp0⟩ := get_of_lenEq hv.lenP e1
      obtain ⟨p1, hp1⟩ := get_of_lenEq hv.lenP e2
      refine ⟨_, t.pdfAt_cell hv e1 e2 hp0 hp1 a b, ?_, hfin _⟩
      have n0 := hv.pdf_nonneg _ (List.mem_of_getElem? hp0)
      have n1 := hv.pdf_nonneg _ (List.mem_of_getElem? hp1)
      split_ifs
      · exact n0
      · have hd : 0 < v1 - v0 := by linarith
        have : p0 + (p1 - p0) / (v1 - v0) * (x - v0) = (p0 * (v1 - x) + p1 * (x - v0)) / (v1 - v0) := by field_simp; ring
        rw [this]
        apply div_nonneg _ hd.le
        have := mul_nonneg n0 (show 0 ≤ v1 - x by linarith)
        have := mul_nonneg n1 (show 0 ≤ x - v0 by linarith)
        linarith

/-- C34: the tabulated density is returned at a tabulated value (at its first occurrence, if repeated). -/
theorem C34_tabulated (t : PCTable) (hv : ValidPC t) (l : Nat) (x p : ℝ) (hx : t.values[l]? = some x) (hp : t.pdf[l]? = some p)
    (hfirst : ∀ (j : Nat), j < l → ∀ v, t.values[j]? = some v → v < x) : t.pdfAt x = .ok p := t.pdfAt_grid hv hx hp hfirst

/-- C34: between two tabulated values the density is constant or linear, as the table's rule says. -/
theorem C34_between (t : PCTable) (hv : ValidPC t) (l : Nat) (v0 v1 p0 p1 x : ℝ) (hv0 : t.values[l]? = some v0)
    (hv1 : t.values[l + 1]? = some v1) (hp0 : t.pdf[l]? = some p0) (hp1 : t.pdf[l + 1]? = some p1) (h0 : v0 < x) (h1 : x < v1) :
    t.pdfAt x = .ok (if t.interp = .histogram then p0 else p0 + (p1 - p0) / (v1 - v0) * (x - v0)) :=
  t.pdfAt_cell hv hv0 hv1 hp0 hp1 h0 h1

/-! ## C33 -/

/-- C33: on a consistent table the integral of the density from `min_value` up to the sampled value is `xi`, so that sampling is
the inverse of the cumulative distribution. -/
theorem C33_inverts_cdf (t : PCTable) (hv : ValidPC t) (hc : ConsistentPC t) (G : ℝ → ℝ) (hG : ∀ x, t.pdfAt x = .ok (G x))
    (xi : ℝ) (h0 : 0 ≤ xi) (h1 : xi ≤ 1) :
    ∃ x mn, t.sample xi = .ok x ∧ t.minValue = .ok mn ∧ IntervalIntegrable G volume mn x ∧ ∫ s in mn..x, G s = xi := by
  have hpos : 0 < t.values.length := List.length_pos_iff.mpr hv.ne
  obtain ⟨mn, hmn⟩ := getElem?_of_lt (l := t.values) (i := 0) (by omega)
  rcases t.sample_cases hv hc.start h0 h1 with ⟨l, v, e1, e2, e3⟩ | ⟨l, v0, v1, p0, p1, c0, c1, e1, e2, e3, e4, e5, e6, a, b, e⟩
  · exact ⟨v, mn, e3, front_eq_ok.mpr hmn, t.integral_grid hv hc G hG hmn l v xi e2 e1⟩
  · obtain ⟨x, hx, g1, g2, g3⟩ := cell_ok (pairwise_le_getElem? hv.values_sorted (by omega) e1 e2)
      (hv.pdf_nonneg _ (List.mem_of_getElem? e3)) (hv.pdf_nonneg _ (List.mem_of_getElem? e4)) a b.le
      (hc.step l v0 v1 p0 p1 c0 c1 e1 e2 e3 e4 e5 e6).le
    obtain ⟨i1, i2⟩ := t.integral_grid hv hc G hG hmn l v0 c0 e1 e5
    obtain ⟨j1, j2⟩ := t.integral_cell hv G hG e1 e2 e3 e4 g1 g2
    refine ⟨x, mn, e.trans hx, front_eq_ok.mpr hmn, i1.trans j1, ?_⟩
    rw [← intervalIntegral.integral_add_adjacent_intervals i1 j1, i2, j2, g3]
    ring

/-- C33: in particular the density of a consistent table integrates to 1. -/
theorem C33_normalised (t : PCTable) (hv : ValidPC t) (hc : ConsistentPC t) (G : ℝ → ℝ) (hG : ∀ x, t.pdfAt x = .ok (G x))
    (mn mx : ℝ) (hmn : t.minValue = .ok mn) (hmx : t.maxValue = .ok mx) : ∫ s in mn..mx, G s = 1 := by
  have hpos : 0 < t.values.length := List.length_pos_iff.mpr hv.ne
  refine (t.integral_grid hv hc G hG (front_eq_ok.mp hmn) (t.values.length - 1) mx 1 ?_ ?_).2
  · rw [← List.getLast?_eq_getElem?]; exact back_eq_ok.mp hmx
  · rw [← hv.lenC, ← List.getLast?_eq_getElem?]; exact hv.cdf_last

/-- A function `G` as above always exists. -/
theorem C33_density_exists (t : PCTable) (hv : ValidPC t) : ∃ G : ℝ → ℝ, ∀ x, t.pdfAt x = .ok (G x) :=
  ⟨fun x => (C34_pdf t hv x).choose, fun x => (C34_pdf t hv x).choose_spec.1⟩

/-- C33: sampling is monotone in `xi`. -/
theorem C33_monotone (t : PCTable) (hv : ValidPC t) (hc : ConsistentPC t) (xi xi' x x' : ℝ) (h0 : 0 ≤ xi) (hlt : xi < xi')
    (h1 : xi' ≤ 1) (hx : t.sample xi = .ok x) (hx' : t.sample xi' = .ok x') : x < x' := by
  obtain ⟨G, hG⟩ := C33_density_exists t hv
  have hGn : ∀ s, 0 ≤ G s := by
    intro s
    obtain ⟨p, hp, hp0, _⟩ := C34_pdf t hv s
    rw [hG s] at hp; cases hp; exact hp0
  obtain ⟨a, mn, e1, e2, e3, e4⟩ := C33_inverts_cdf t hv hc G hG xi h0 (by linarith)
  obtain ⟨b, mn', f1, f2, f3, f4⟩ := C33_inverts_cdf t hv hc G hG xi' (by linarith) h1
  rw [hx] at e1; rw [hx'] at f1; cases e1; cases f1
  rw [e2] at f2; cases f2
  by_contra hle
  rw [not_lt] at hle
  have h3 : IntervalIntegrable G volume x' x := f3.symm.trans e3
  have := intervalIntegral.integral_add_adjacent_intervals f3 h3
  have hn : 0 ≤ ∫ s in x'..x, G s := intervalIntegral.integral_nonneg hle (fun s _ => hGn s)
  linarith

/-! A concrete consistent table: a triangle on `[0,2]` with a linear rule. -/

example : ∃ t, PCTable.make [0, 1, 2] [0, 1, 0] [0, 1 / 2, 1] .linLin = .ok t ∧ ValidPC t ∧ ConsistentPC t ∧ CoveredPC t := by
  have hm : PCTable.make [0, 1, 2] [0, 1, 0] [0, 1 / 2, 1] .linLin = .ok ⟨[0, 1, 2], [0, 1, 0], [0, 1 / 2, 1], .linLin⟩ := by
    norm_num [PCTable.make, PCTable.check, isSorted, back, bind, Except.bind]
  have hstep : ∀ (i : Nat) (v0 v1 p0 p1 c0 c1 : ℝ), [(0 : ℝ), 1, 2][i]? = some v0 → [(0 : ℝ), 1, 2][i + 1]? = some v1 →
      [(0 : ℝ), 1, 0][i]? = some p0 → [(0 : ℝ), 1, 0][i + 1]? = some p1 → [(0 : ℝ), 1 / 2, 1][i]? = some c0 →
      [(0 : ℝ), 1 / 2, 1][i + 1]? = some c1 → c1 - c0 = cellArea .linLin v0 v1 p0 p1 := by
    intro i v0 v1 p0 p1 c0 c1 h1 h2 h3 h4 h5 h6
    rcases i with _ | _ | i
    · cases h1; cases h2; cases h3; cases h4; cases h5; cases h6; norm_num [cellArea]; decide
    · cases h1; cases h2; cases h3; cases h4; cases h5; cases h6; norm_num [cellArea]; decide
    · simp at h2
  exact ⟨_, hm, (PCTable.make_valid hm).1, ⟨rfl, hstep⟩, ⟨rfl, fun i v0 v1 p0 p1 c0 c1 h1 h2 h3 h4 h5 h6 =>
    (hstep i v0 v1 p0 p1 c0 c1 h1 h2 h3 h4 h5 h6).le⟩⟩

end PNDL
