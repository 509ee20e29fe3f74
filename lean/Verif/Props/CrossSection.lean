import Verif.Model.CrossSection
import Verif.Lemmas.Base
import Verif.Props.EnergyGrid

/-! C29 (construction), C30 (evaluation), C31 (evaluation with a looked-up index) of `CrossSection`. -/
namespace PNDL
open Spec

set_option linter.unusedSectionVars false

variable {K : Type _} [Field K] [LinearOrder K] [IsStrictOrderedRing K]

/-! ## C29 -/

/-- The invariant of a cross section that is not a single value: one non-negative value per grid point from `index` on. -/
structure Spec.GoodXS (s : XS K) : Prop where
  notSingle : s.single = false
  below : s.index < s.grid.length
  aligned : s.index + s.values.length = s.grid.length
  nonneg : ∀ v ∈ s.values, 0 ≤ v

/-- C29 for indices that fit the 32 bits the object stores: construction succeeds exactly when there is one non-negative value
per grid point from `index` on, and otherwise throws.
Missing for the full claim: indices of `2^32` and more, see `C29_violation`. -/
theorem C29_construction_partial (values grid : List K) (index : Nat) (h32 : index < 2 ^ 32) :
    (∃ s, XS.make values grid index = .ok s ∧ s.grid = grid ∧ s.values = values ∧ s.index = index ∧ GoodXS s) ∧
        (index < grid.length ∧ (∀ v ∈ values, 0 ≤ v) ∧ index + values.length = grid.length) ∨
      XS.make values grid index = .error .exc ∧
        ¬ (index < grid.length ∧ (∀ v ∈ values, 0 ≤ v) ∧ index + values.length = grid.length) := by
  have hm : index % 2 ^ 32 = index := Nat.mod_eq_of_lt h32
  unfold XS.make
  simp only [hm]
  by_cases h1 : index ≥ grid.length
  · rw [if_pos h1]; right; exact ⟨rfl, fun h => absurd h.1 (by omega)⟩
  · rw [if_neg h1]
    by_cases h2 : values.any (fun v => decide (v < 0)) = true
    · rw [if_pos h2]; right
      refine ⟨rfl, fun h => ?_⟩
      simp only [List.any_eq_true, decide_eq_true_eq] at h2
      obtain ⟨v, hv, hneg⟩ := h2
      exact absurd (h.2.1 v hv) (not_le.mpr hneg)
    · rw [if_neg h2]
      have hnn : ∀ v ∈ values, 0 ≤ v := by
        intro v hv
        simp only [List.any_eq_true, decide_eq_true_eq, not_exists, not_and] at h2
        exact not_lt.mp (h2 v hv)
      by_cases h3 : grid.length - index ≠ values.length
      · rw [if_pos h3]; right; exact ⟨rfl, fun h => h3 (by omega)⟩
      · rw [if_neg h3]; left
        rw [not_not] at h3
        exact ⟨⟨_, rfl, rfl, rfl, rfl, rfl, by simp only; omega, by simp only; omega, hnn⟩, by omega, hnn, by omega⟩

/-- The full claim is false of the code: the index is truncated to 32 bits before it is checked, so an index far outside the
grid is accepted. -/
theorem C29_violation (grid values : List K) (hne : grid ≠ []) (hl : values.length = grid.length) (hv : ∀ v ∈ values, 0 ≤ v) :
    ∃ s, XS.make values grid (2 ^ 32) = .ok s ∧ s.index = 0 := by
  have hpos := List.length_pos_iff.mpr hne
  have h2 : ¬ values.any (fun v => decide (v < 0)) = true := by
    simp only [List.any_eq_true, decide_eq_true_eq, not_exists, not_and, not_lt]
    exact hv
  refine ⟨⟨grid, values, 0, false⟩, ?_, rfl⟩
  unfold XS.make
  simp only [Nat.mod_self]
  rw [if_neg (by omega), if_neg h2, if_neg (by omega)]

/-- The other constructors: a constant is accepted iff it is not negative ... -/
theorem C29_const (v : K) (grid : List K) : (∃ s, XS.makeConst v grid = .ok s) ↔ 0 ≤ v := by
  unfold XS.makeConst
  by_cases h : v < 0
  · rw [if_pos h]; simp [h]
  · rw [if_neg h]; simp [not_lt.mp h]

/-- ... and data from a file are accepted only with one value per grid point, non-negative unless they are heating numbers. -/
theorem C29_ace (values grid : List K) (idx : Nat) (heating : Bool) (s : XS K) (h : XS.makeAce values grid idx heating = .ok s) :
    s.grid = grid ∧ s.values = values ∧ s.index = idx ∧ idx + values.length = grid.length ∧
      (heating = false → ∀ v ∈ values, 0 ≤ v) := by
  unfold XS.makeAce at h
  split at h
  · cases h
  · rename_i h1
    split at h
    · cases h
    · rename_i h2
      cases h
      rw [not_or, not_not, not_lt] at h1
      refine ⟨rfl, rfl, rfl, by omega, fun hh v hv => ?_⟩
      simp only [hh, true_and, List.any_eq_true, decide_eq_true_eq, not_exists, not_and, not_lt] at h2
      exact h2 v hv

example : XS.make [1, 2] [1, 2, 3] 1 = .ok (⟨[1, 2, 3], [1, 2], 1, false⟩ : XS ℚ) := by decide +kernel
example : XS.make [1, -2] [1, 2, 3] 1 = (.error .exc : Res (XS ℚ)) := by decide +kernel

/-! ## C30 -/

theorem getLast_get {α : Type _} {l : List α} {a : α} (h : l.getLast? = some a) : l[l.length - 1]? = some a := by
  rw [← List.getLast?_eq_getElem?]; exact h

theorem last_exists {α : Type _} {l : List α} (h : 0 < l.length) : ∃ a, l.getLast? = some a :=
  ⟨_, List.getLast?_eq_some_getLast (List.ne_nil_of_length_pos h)⟩

theorem lin_between {a b v sl sh : K} (hab : a < b) (h1 : a ≤ v) (h2 : v ≤ b) :
    min sl sh ≤ (v - a) / (b - a) * (sh - sl) + sl ∧ (v - a) / (b - a) * (sh - sl) + sl ≤ max sl sh := by
  have hd : 0 < b - a := sub_pos.mpr hab
  have t0 : 0 ≤ (v - a) / (b - a) := div_nonneg (sub_nonneg.mpr h1) hd.le
  have t1 : (v - a) / (b - a) ≤ 1 := by rw [div_le_one hd]; linarith
  obtain ⟨t, ht⟩ : ∃ t, t = (v - a) / (b - a) := ⟨_, rfl⟩
  rw [← ht] at t0 t1 ⊢
  rcases le_total sl sh with h | h
  · rw [min_eq_left h, max_eq_right h]
    constructor <;> nlinarith
  · rw [min_eq_right h, max_eq_left h]
    constructor <;> nlinarith

/-- C30: zero below the threshold energy. -/
theorem C30_below (s : XS K) (hg : GoodXS s) (E et : K) (ht : s.grid[s.index]? = some et) (h : E < et) : s.eval E = .ok 0 := by
  simp [XS.eval, hg.notSingle, getAt_eq_ok.mpr ht, bind, Except.bind, h]

/-- C30: the last value at and above the top of the grid. -/
theorem C30_above (s : XS K) (hg : GoodXS s) (hs : s.grid.Pairwise (· ≤ ·)) (E mx v : K) (hmx : s.grid.getLast? = some mx)
    (hv : s.values.getLast? = some v) (h : mx ≤ E) : s.eval E = .ok v := by
  obtain ⟨et, ht⟩ := getElem?_of_lt hg.below
  have hle : et ≤ mx := pairwise_le_getElem? hs (by have := hg.below; omega) ht (getLast_get hmx)
  simp only [XS.eval, hg.notSingle, getAt_eq_ok.mpr ht, back_eq_ok.mpr hmx, back_eq_ok.mpr hv, bind, Except.bind]
  rw [if_neg (by simp), if_neg (not_lt.mpr (hle.trans h)), if_pos h]

/-- C30, interior: there are neighbouring grid points around `E`, whose tabulated values enclose the result; a tabulated value
is returned at (the first occurrence of) a grid point and the linear interpolant strictly between grid points. -/
theorem C30_inside (s : XS K) (hg : GoodXS s) (hs : s.grid.Pairwise (· ≤ ·)) (E et mx : K) (ht : s.grid[s.index]? = some et)
    (hmx : s.grid.getLast? = some mx) (h1 : et ≤ E) (h2 : E < mx) :
    (∃ (k : Nat) (v : K), s.grid[s.index + k]? = some E ∧ s.values[k]? = some v ∧ s.eval E = .ok v ∧
        ∀ j, j < k → ∀ e, s.grid[s.index + j]? = some e → e < E) ∨
    (∃ (k : Nat) (El Eh sl sh : K), s.grid[s.index + k]? = some El ∧ s.grid[s.index + k + 1]? = some Eh ∧
        s.values[k]? = some sl ∧ s.values[k + 1]? = some sh ∧ El < E ∧ E < Eh ∧
        s.eval E = .ok ((E - El) / (Eh - El) * (sh - sl) + sl)) := by
  have hb := hg.below
  have ha := hg.aligned
  obtain ⟨l, hl⟩ : ∃ l, l = lowerBoundRange s.grid s.index s.grid.length E := ⟨_, rfl⟩
  obtain ⟨l1, l2, l3⟩ := lowerBoundRange_spec hs E hb.le le_rfl
  rw [← hl] at l1 l2 l3
  have hlt : l < s.grid.length := by
    have := mt (l3 _ _ (getLast_get hmx) (by omega) (by omega)).mpr (not_lt.mpr h2.le)
    omega
  obtain ⟨v, hv⟩ := getElem?_of_lt hlt
  have hvE : E ≤ v := not_lt.mp (mt (l3 l v hv l1 hlt).mp (lt_irrefl _))
  have hev : s.eval E = if E = v then getAt s.values (l - s.index) else (do
        let i ← subIdx (l - s.index) 1
        let El ← getAt s.grid (s.index + i)
        let Eh ← getAt s.grid (s.index + i + 1)
        let sl ← getAt s.values i
        let sh ← getAt s.values (i + 1)
        xsLin E El Eh sl sh) := by
    unfold XS.eval
    rw [if_neg (by simp [hg.notSingle])]
    simp only [getAt_eq_ok.mpr ht, back_eq_ok.mpr hmx, bind, Except.bind]
    rw [if_neg (not_lt.mpr h1), if_neg (not_le.mpr h2), ← hl]
    simp only [getAt_eq_ok.mpr hv]
  by_cases hEv : E = v
  · left
    obtain ⟨w, hw⟩ := getElem?_of_lt (l := s.values) (i := l - s.index) (by omega)
    refine ⟨l - s.index, w, by rw [show s.index + (l - s.index) = l by omega, hv, hEv], hw, ?_, ?_⟩
    · rw [hev, if_pos hEv, getAt_eq_ok.mpr hw]
    · intro j hj e he
      have := lt_length_of_some he
      exact (l3 _ _ he (by omega) this).mpr (by omega)
  · right
    have hEv' : E < v := lt_of_le_of_ne hvE hEv
    have hpos : s.index < l := by
      rcases Nat.lt_or_ge s.index l with h | h
      · exact h
      · have : l = s.index := by omega
        rw [this, ht] at hv
        cases hv
        exact absurd h1 (not_le.mpr hEv')
    obtain ⟨k, hk⟩ : ∃ k, l = s.index + k + 1 := ⟨l - s.index - 1, by omega⟩
    obtain ⟨El, hEl⟩ := getElem?_of_lt (l := s.grid) (i := s.index + k) (by omega)
    obtain ⟨sl, hsl⟩ := getElem?_of_lt (l := s.values) (i := k) (by omega)
    obtain ⟨sh, hsh⟩ := getElem?_of_lt (l := s.values) (i := k + 1) (by omega)
    have hElE : El < E := (l3 _ _ hEl (by omega) (by omega)).mpr (by omega)
    rw [hk] at hv
    refine ⟨k, El, v, sl, sh, hEl, hv, hsl, hsh, hElE, hEv', ?_⟩
    rw [hev, if_neg hEv, show l - s.index = k + 1 by omega, subIdx_of_le (by omega)]
    have hne : v - El ≠ 0 := (sub_pos.mpr (hElE.trans hEv')).ne'
    simp only [Nat.add_sub_cancel, getAt_eq_ok.mpr hEl, getAt_eq_ok.mpr hv, getAt_eq_ok.mpr hsl, getAt_eq_ok.mpr hsh, bind,
      Except.bind, xsLin, cdiv_of_ne hne, pure, Except.pure]

/-- C30, consequence: the result is always a number, never negative, and never exceeds the largest tabulated value. -/
theorem C30_total (s : XS K) (hg : GoodXS s) (hs : s.grid.Pairwise (· ≤ ·)) (E : K) :
    ∃ r, s.eval E = .ok r ∧ 0 ≤ r ∧ ∃ v ∈ s.values, r ≤ v := by
  have hb := hg.below
  have ha := hg.aligned
  obtain ⟨et, ht⟩ := getElem?_of_lt hb
  obtain ⟨mx, hmx⟩ := last_exists (l := s.grid) (by omega)
  obtain ⟨v, hv⟩ := last_exists (l := s.values) (by omega)
  have hmem : ∀ {k : Nat} {v : K}, s.values[k]? = some v → v ∈ s.values := fun h => List.mem_of_getElem? h
  rcases lt_or_ge E et with h | h
  · exact ⟨0, C30_below s hg E et ht h, le_rfl, v, List.mem_of_getLast? hv, hg.nonneg v (List.mem_of_getLast? hv)⟩
  rcases le_or_gt mx E with h' | h'
  · exact ⟨v, C30_above s hg hs E mx v hmx hv h', hg.nonneg v (List.mem_of_getLast? hv), v, List.mem_of_getLast? hv, le_rfl⟩
  rcases C30_inside s hg hs E et mx ht hmx h h' with ⟨k, w, _, hw, he, _⟩ | ⟨k, El, Eh, sl, sh, _, _, h3, h4, h5, h6, he⟩
  · exact ⟨w, he, hg.nonneg w (hmem hw), w, hmem hw, le_rfl⟩
  · obtain ⟨b1, b2⟩ := lin_between (sl := sl) (sh := sh) (h5.trans h6) h5.le h6.le
    refine ⟨_, he, le_trans (le_min (hg.nonneg _ (hmem h3)) (hg.nonneg _ (hmem h4))) b1, ?_⟩
    rcases max_choice sl sh with hm | hm
    · exact ⟨sl, hmem h3, b2.trans_eq hm⟩
    · exact ⟨sh, hmem h4, b2.trans_eq hm⟩

/-- C30: on a grid of distinct energies every tabulated value is reproduced. -/
theorem C30_reproduces (s : XS K) (hg : GoodXS s) (hs : s.grid.Pairwise (· < ·)) (k : Nat) (E v : K)
    (hE : s.grid[s.index + k]? = some E) (hv : s.values[k]? = some v) : s.eval E = .ok v := by
  have hb := hg.below
  have ha := hg.aligned
  have hs' : s.grid.Pairwise (· ≤ ·) := hs.imp le_of_lt
  obtain ⟨et, ht⟩ := getElem?_of_lt hb
  obtain ⟨mx, hmx⟩ := last_exists (l := s.grid) (by omega)
  have hk := lt_length_of_some hE
  have h1 : et ≤ E := pairwise_le_getElem? hs' (Nat.le_add_right _ _) ht hE
  rcases le_or_gt mx E with h2 | h2
  · have : s.index + k = s.grid.length - 1 := by
      by_contra hc
      exact absurd (pairwise_lt_getElem? hs (by omega) hE (getLast_get hmx)) (not_lt.mpr h2)
    refine C30_above s hg hs' E mx v hmx ?_ h2
    rw [List.getLast?_eq_getElem?, show s.values.length - 1 = k by omega, hv]
  · have inj : ∀ k', s.grid[s.index + k']? = some E → k' = k := by
      intro k' h'
      rcases Nat.lt_trichotomy k' k with h | h | h
      · exact absurd (pairwise_lt_getElem? hs (show s.index + k' < s.index + k by omega) h' hE) (lt_irrefl _)
      · exact h
      · exact absurd (pairwise_lt_getElem? hs (show s.index + k < s.index + k' by omega) hE h') (lt_irrefl _)
    rcases C30_inside s hg hs' E et mx ht hmx h1 h2 with ⟨k', w, h3, h4, he, _⟩ | ⟨k', El, Eh, sl, sh, h3, h4, _, _, h5, h6, he⟩
    · have := inj k' h3
      subst this
      rw [hv] at h4; cases h4; exact he
    · exfalso
      rcases Nat.lt_or_ge k' k with h | h
      · have := pairwise_le_getElem? hs' (show s.index + k' + 1 ≤ s.index + k by omega) h4 hE
        exact absurd h6 (not_lt.mpr this)
      · have := pairwise_le_getElem? hs' (show s.index + k ≤ s.index + k' by omega) hE h3
        exact absurd h5 (not_lt.mpr this)

/-- C30 for a single-value cross section. -/
theorem C30_const (v : K) (grid : List K) (mn E : K) (s : XS K) (hmn : grid[0]? = some mn) (h : XS.makeConst v grid = .ok s) :
    s.eval E = .ok (if E < mn then 0 else v) := by
  unfold XS.makeConst at h
  split at h
  · cases h
  · cases h
    simp only [XS.eval, XS.evalSingle, front_eq_ok.mpr hmn, bind, Except.bind, if_true]
    split <;> simp [front, getAt]

example : (⟨[1, 2, 4], [3, 7], 1, false⟩ : XS ℚ).eval 3 = .ok 5 := by decide +kernel

/-! ## C31 -/

/-- C31, second clause: supplying the grid's energies gives the same as looking them up. -/
theorem C31_given_energies (s : XS K) (E El Eh : K) (i : Nat) (h1 : s.grid[i]? = some El) (h2 : s.grid[i + 1]? = some Eh) :
    s.evalIdxE E i El Eh = s.evalIdx E i := by
  unfold XS.evalIdxE XS.evalIdx
  simp only [getAt_eq_ok.mpr h1, getAt_eq_ok.mpr h2, bind, Except.bind]

theorem pastEnd_iff {s : XS K} (hg : GoodXS s) (i : Nat) : s.pastEnd i = true ↔ s.grid.length - 1 ≤ i := by
  have hb := hg.below
  have ha := hg.aligned
  unfold XS.pastEnd
  rw [decide_eq_true_eq]
  omega

/-- C31, first clause, on a grid of distinct energies: the indexed evaluation agrees with the plain one at every energy, except
possibly below the grid when the cross section starts at index 0, and exactly at the threshold energy when it starts later.
Missing for the full claim: these two exceptions, where it is false (`C31_violation_below`, `C31_violation_threshold`). -/
theorem C31_agree_partial (s : XS ℝ) (hg : GoodXS s) (hs : s.grid.Pairwise (· < ·)) (E et mn : ℝ) (i : Nat)
    (hi : IsLowerIndex s.grid E i) (ht : s.grid[s.index]? = some et) (hmn : s.grid[0]? = some mn)
    (hbelow : s.index = 0 → mn ≤ E) (hthr : s.index ≠ 0 → E ≠ et) : s.evalIdx E i = s.eval E := by
  have hb := hg.below
  have ha := hg.aligned
  have hs' : s.grid.Pairwise (· ≤ ·) := hs.imp le_of_lt
  obtain ⟨mx, hmx⟩ := last_exists (l := s.grid) (by omega)
  obtain ⟨v, hv⟩ := last_exists (l := s.values) (by omega)
  have hlx := getLast_get hmx
  have hmnet : mn ≤ et := pairwise_le_getElem? hs' (Nat.zero_le _) hmn ht
  have hetmx : et ≤ mx := pairwise_le_getElem? hs' (by omega) ht hlx
  have low : i < s.index → s.evalIdx E i = .ok 0 := by
    intro h; simp [XS.evalIdx, hg.notSingle, h]
  have past : s.index ≤ i → s.grid.length - 1 ≤ i → s.evalIdx E i = .ok v := by
    intro h h'
    have hp := (pastEnd_iff hg i).mpr h'
    simp [XS.evalIdx, hg.notSingle, Nat.not_lt.mpr h, hp, back_eq_ok.mpr hv]
  -- evaluation between two grid points
  have mid : ∀ (a b sl sh : ℝ), s.index ≤ i → s.grid[i]? = some a → s.grid[i + 1]? = some b → s.values[i - s.index]? = some sl →
      s.values[i - s.index + 1]? = some sh → s.evalIdx E i = .ok ((E - a) / (b - a) * (sh - sl) + sl) := by
    intro a b sl sh hle h1 h2 h3 h4
    have hlt := lt_length_of_some h2
    have hab := pairwise_lt_getElem? hs (Nat.lt_succ_self i) h1 h2
    have hp : s.pastEnd i = false := by
      rw [← Bool.not_eq_true, pastEnd_iff hg]; omega
    have hne : b - a ≠ 0 := by linarith
    unfold XS.evalIdx
    rw [if_neg (by simp [hg.notSingle]), if_neg (Nat.not_lt.mpr hle), if_neg (by simp [hp])]
    simp only [getAt_eq_ok.mpr h1, getAt_eq_ok.mpr h2, getAt_eq_ok.mpr h3, getAt_eq_ok.mpr h4, bind, Except.bind, xsLin,
      cdiv_of_ne hne, pure, Except.pure]
  rcases lt_or_ge mx E with h1 | h1
  · -- above the grid
    have := hi.2.1 mn mx hmn hmx (by linarith) h1.le
    rw [past (by omega) (by omega), C30_above s hg hs' E mx v hmx hv h1.le]
  rcases eq_or_lt_of_le h1 with h2 | h2
  · -- at the top of the grid
    subst h2
    rcases eq_or_lt_of_le (hmnet.trans hetmx) with h3 | h3
    · -- one point
      have hlen : s.grid.length = 1 := by
        by_contra hc
        have := pairwise_lt_getElem? hs (show 0 < s.grid.length - 1 by omega) hmn hlx
        rw [h3] at this
        exact lt_irrefl _ this
      have := hi.1 mn hmn h3.ge
      rw [past (by omega) (by omega), C30_above s hg hs' E E v hmx hv le_rfl]
    · have := hi.2.1 mn E hmn hmx h3 le_rfl
      rw [past (by omega) (by omega), C30_above s hg hs' E E v hmx hv le_rfl]
  rcases lt_or_ge E mn with h3 | h3
  · -- below the grid
    have h0 : s.index ≠ 0 := fun hc => absurd (hbelow hc) (not_le.mpr h3)
    have := hi.1 mn hmn h3.le
    rw [low (by omega), C30_below s hg E et ht (by linarith)]
  rcases eq_or_lt_of_le h3 with h4 | h4
  · -- at the first grid point
    subst h4
    have h5 := hi.1 mn hmn le_rfl
    by_cases h0 : s.index = 0
    · have hlen : 1 < s.grid.length := by
        by_contra hc
        have e : s.grid.length - 1 = 0 := by omega
        rw [e, hmn] at hlx
        cases hlx
        exact lt_irrefl _ h2
      obtain ⟨b, hb2⟩ := getElem?_of_lt (l := s.grid) (i := 1) hlen
      obtain ⟨sl, hsl⟩ := getElem?_of_lt (l := s.values) (i := 0) (by omega)
      obtain ⟨sh, hsh⟩ := getElem?_of_lt (l := s.values) (i := 1) (by omega)
      rw [C30_reproduces s hg hs 0 mn sl (by rw [h0]; exact hmn) hsl]
      subst h5
      rw [mid mn b sl sh (by omega) hmn hb2 (by rw [h0]; exact hsl) (by rw [h0]; exact hsh)]
      simp
    · have hne := hthr h0
      rw [low (by omega), C30_below s hg mn et ht (lt_of_le_of_ne hmnet hne)]
  -- strictly inside the grid
  obtain ⟨a, b, g1, g2, g3, g4⟩ := hi.2.2 mn mx hmn hmx h4 h2
  have hlt := lt_length_of_some g2
  rcases Nat.lt_or_ge i s.index with h5 | h5
  · rw [low h5]
    have hbe : b ≤ et := pairwise_le_getElem? hs' (by omega) g2 ht
    have hne := hthr (by omega)
    rw [C30_below s hg E et ht (lt_of_le_of_ne (g4.trans hbe) hne)]
  · obtain ⟨sl, hsl⟩ := getElem?_of_lt (l := s.values) (i := i - s.index) (by omega)
    obtain ⟨sh, hsh⟩ := getElem?_of_lt (l := s.values) (i := i - s.index + 1) (by omega)
    rw [mid a b sl sh h5 g1 g2 hsl hsh]
    have hea : et ≤ a := pairwise_le_getElem? hs' h5 ht g1
    rcases eq_or_lt_of_le g4 with h6 | h6
    · subst h6
      rw [C30_reproduces s hg hs (i - s.index + 1) E sh (by rw [show s.index + (i - s.index + 1) = i + 1 by omega]; exact g2) hsh]
      have : E - a ≠ 0 := by linarith
      rw [div_self this]
      congr 1; ring
    · rcases C30_inside s hg hs' E et mx ht hmx (by linarith) h2 with ⟨k, w, k1, _⟩ | ⟨k, El, Eh, sl', sh', k1, k2, k3, k4, k5, k6, he⟩
      · exfalso
        rcases Nat.lt_or_ge i (s.index + k) with h | h
        · have := pairwise_le_getElem? hs' (show i + 1 ≤ s.index + k by omega) g2 k1; linarith
        · have := pairwise_le_getElem? hs' h k1 g1; linarith
      · have hki : s.index + k = i := by
          rcases Nat.lt_trichotomy (s.index + k) i with h | h | h
          · have := pairwise_le_getElem? hs' (show s.index + k + 1 ≤ i by omega) k2 g1; linarith
          · exact h
          · have := pairwise_le_getElem? hs' (show i + 1 ≤ s.index + k by omega) g2 k1; linarith
        have hk : k = i - s.index := by omega
        rw [hki] at k1 k2
        rw [hk] at k3 k4
        rw [g1] at k1; rw [g2] at k2; rw [hsl] at k3; rw [hsh] at k4
        cases k1; cases k2; cases k3; cases k4
        rw [he]

/-- The same through the hashed look-up: with `i` the index `EnergyGrid` returns for `E`. -/
theorem C31_lookup_partial (s : XS ℝ) (hg : GoodXS s) (hs : s.grid.Pairwise (· < ·)) (nbins : Nat) (hn : 1 ≤ nbins)
    (hn2 : nbins < 2 ^ 32 - 1) (h32 : s.grid.length < 2 ^ 32) (E et mn : ℝ) (ht : s.grid[s.index]? = some et)
    (hmn : s.grid[0]? = some mn) (hpos : 0 < mn) (hbelow : s.index = 0 → mn ≤ E) (hthr : s.index ≠ 0 → E ≠ et) :
    ∃ g i, EGrid.make s.grid nbins = .ok g ∧ g.lowerIndex E = .ok i ∧ s.evalIdx E i = s.eval E := by
  obtain ⟨g, h1, _, h3⟩ := C28_lower_index s.grid nbins mn (hs.imp le_of_lt) hmn hpos h32 hn hn2
  obtain ⟨i, h4, h5⟩ := h3 E
  exact ⟨g, i, h1, h4, C31_agree_partial s hg hs E et mn i h5 ht hmn hbelow hthr⟩

/-- The full claim is false of the code, below the grid: with a cross section starting at index 0, `evaluate(E)` is 0 but
`evaluate(E, get_lower_index(E))` extrapolates the first interval. -/
theorem C31_violation_below (s : XS ℝ) (hg : GoodXS s) (h0 : s.index = 0) (E e0 e1 v0 v1 : ℝ) (g0 : s.grid[0]? = some e0)
    (g1 : s.grid[1]? = some e1) (h01 : e0 < e1) (w0 : s.values[0]? = some v0) (w1 : s.values[1]? = some v1) (hE : E < e0) (i : Nat)
    (hi : IsLowerIndex s.grid E i) :
    s.eval E = .ok 0 ∧ s.evalIdx E i = .ok ((E - e0) / (e1 - e0) * (v1 - v0) + v0) := by
  have hb := lt_length_of_some g1
  have hi0 := hi.1 e0 g0 hE.le
  subst hi0
  refine ⟨C30_below s hg E e0 (by rw [h0]; exact g0) hE, ?_⟩
  have hp : s.pastEnd 0 = false := by
    rw [← Bool.not_eq_true, pastEnd_iff hg]; omega
  have hne : e1 - e0 ≠ 0 := by linarith
  unfold XS.evalIdx
  rw [if_neg (by simp [hg.notSingle]), if_neg (by omega), if_neg (by simp [hp]), h0]
  simp only [getAt_eq_ok.mpr g0, getAt_eq_ok.mpr g1, getAt_eq_ok.mpr w0, getAt_eq_ok.mpr w1, bind, Except.bind, xsLin,
      cdiv_of_ne hne, pure, Except.pure]

/-- The full claim is false of the code at the threshold: for a cross section that starts at a later index, with at least two
values, `evaluate` at the threshold energy gives the first value but the indexed evaluation gives 0. -/
theorem C31_violation_threshold (s : XS ℝ) (hg : GoodXS s) (hs : s.grid.Pairwise (· < ·)) (h0 : s.index ≠ 0) (et v0 : ℝ)
    (ht : s.grid[s.index]? = some et) (hv : s.values[0]? = some v0) (h2 : s.index + 1 < s.grid.length) (i : Nat)
    (hi : IsLowerIndex s.grid et i) : s.eval et = .ok v0 ∧ s.evalIdx et i = .ok 0 := by
  refine ⟨C30_reproduces s hg hs 0 et v0 ht hv, ?_⟩
  have hb := hg.below
  obtain ⟨mn, hmn⟩ := getElem?_of_lt (l := s.grid) (i := 0) (by omega)
  obtain ⟨mx, hmx⟩ := last_exists (l := s.grid) (by omega)
  have l1 := pairwise_lt_getElem? hs (Nat.pos_of_ne_zero h0) hmn ht
  have l2 := pairwise_lt_getElem? hs (show s.index < s.grid.length - 1 by omega) ht (getLast_get hmx)
  obtain ⟨a, b, g1, g2, g3, g4⟩ := hi.2.2 mn mx hmn hmx l1 l2
  have : i < s.index := by
    by_contra hc
    have := pairwise_le_getElem? (hs.imp le_of_lt) (not_lt.mp hc) ht g1
    linarith
  simp [XS.evalIdx, hg.notSingle, this]

/-- Concrete cross sections meet the hypotheses of the two violations. -/
example : GoodXS (⟨[1, 2, 4], [3, 7], 1, false⟩ : XS ℝ) := ⟨rfl, by decide, by decide, by simp⟩
example : GoodXS (⟨[1, 2, 4], [3, 7, 1], 0, false⟩ : XS ℝ) := ⟨rfl, by decide, by decide, by simp⟩
example : (⟨[1, 2, 4], [3, 7], 1, false⟩ : XS ℚ).evalIdx 2 0 = .ok 0 ∧ (⟨[1, 2, 4], [3, 7], 1, false⟩ : XS ℚ).eval 2 = .ok 3 := by
  decide +kernel

end PNDL
