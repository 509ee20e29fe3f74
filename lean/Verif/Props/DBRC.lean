import Verif.Props.Elastic

/-! C50: the majorant of the Doppler broadening rejection correction. -/
namespace PNDL
open Spec

/-- `maxXsLoop` computes the largest of `m` and the visited values. -/
theorem maxXsLoop_spec (values : List ℝ) : ∀ (n i : Nat) (m : ℝ), i + n ≤ values.length →
    ∃ M, maxXsLoop values n i m = .ok M ∧ m ≤ M ∧ (∀ (j : Nat) v, i ≤ j → j < i + n → values[j]? = some v → v ≤ M) ∧
      (M = m ∨ ∃ j, i ≤ j ∧ j < i + n ∧ values[j]? = some M) := by
  intro n
  induction n with
  | zero => intro i m _; exact ⟨m, rfl, le_rfl, fun j v h1 h2 => absurd h2 (by omega), .inl rfl⟩
  | succ n ih =>
    intro i m h
    obtain ⟨v, hv1, hv2⟩ := getAt_exists (l := values) (i := i) (by omega)
    obtain ⟨M, e1, e2, e3, e4⟩ := ih (i + 1) (max m v) (by omega)
    refine ⟨M, ?_, (le_max_left _ _).trans e2, ?_, ?_⟩
    · unfold maxXsLoop
      rw [hv1]
      exact e1
    · intro j w h1 h2 hw
      rcases Nat.lt_or_ge i j with h | h
      · exact e3 j w h (by omega) hw
      · have : j = i := by omega
        subst this
        rw [hv2] at hw; cases hw
        exact (le_max_right _ _).trans e2
    · rcases e4 with e4 | ⟨j, a, b, c⟩
      · rcases max_cases m v with ⟨h, _⟩ | ⟨h, _⟩
        · left; rw [e4, h]
        · right; exact ⟨i, le_rfl, by omega, by rw [e4, h]; exact hv2⟩
      · right; exact ⟨j, by omega, by omega, c⟩

/-- Value at the first occurrence of a grid point. -/
theorem xs_at_first {s : XS ℝ} (hg : GoodXS s) (hi : s.index = 0) (hs : s.grid.Pairwise (· ≤ ·)) {k : Nat} {E v : ℝ}
    (hE : s.grid[k]? = some E) (hv : s.values[k]? = some v) (hf : ∀ j e, j < k → s.grid[j]? = some e → e < E)
    (hlt : ∀ mx, s.grid.getLast? = some mx → E < mx) : s.eval E = .ok v := by
  have hlen := hg.below
  obtain ⟨et, het⟩ := getElem?_of_lt (l := s.grid) (i := s.index) hlen
  obtain ⟨mx, hmx⟩ := last_exists (l := s.grid) (by omega)
  have h1 : et ≤ E := pairwise_le_getElem? hs (by omega) het hE
  rcases C30_inside s hg hs E et mx het hmx h1 (hlt mx hmx) with ⟨k', v', a, b, c, d⟩ | ⟨k', El, Eh, sl, sh, a, b, _, _, c, d, _⟩
  · rw [hi, Nat.zero_add] at a
    have hk : k' = k := by
      rcases Nat.lt_trichotomy k' k with h | h | h
      · exact absurd (hf k' E h a) (lt_irrefl _)
      · exact h
      · have := d k h E (by rw [hi, Nat.zero_add]; exact hE)
        exact absurd this (lt_irrefl _)
    subst hk
    rw [hv] at b; cases b
    exact c
  · rw [hi, Nat.zero_add] at a b
    rcases Nat.lt_or_ge k' k with h | h
    · have := pairwise_le_getElem? hs h b hE
      linarith
    · have := pairwise_le_getElem? hs h hE a
      linarith

/-- Value strictly between two consecutive grid points. -/
theorem xs_in_cell {s : XS ℝ} (hg : GoodXS s) (hi : s.index = 0) (hs : s.grid.Pairwise (· ≤ ·)) {k : Nat} {E El Eh sl sh : ℝ}
    (h1 : s.grid[k]? = some El) (h2 : s.grid[k + 1]? = some Eh) (h3 : s.values[k]? = some sl) (h4 : s.values[k + 1]? = some sh)
    (h5 : El < E) (h6 : E < Eh) : s.eval E = .ok ((E - El) / (Eh - El) * (sh - sl) + sl) := by
  have hlen := hg.below
  obtain ⟨et, het⟩ := getElem?_of_lt (l := s.grid) (i := s.index) hlen
  obtain ⟨mx, hmx⟩ := last_exists (l := s.grid) (by omega)
  have e1 : et ≤ El := pairwise_le_getElem? hs (by omega) het h1
  have e2 : Eh ≤ mx := pairwise_le_getElem? hs (by have := lt_length_of_some h2; omega) h2 (getLast_get hmx)
  rcases C30_inside s hg hs E et mx het hmx (by linarith) (by linarith) with
    ⟨k', v', a, b, c, d⟩ | ⟨k', El', Eh', sl', sh', a, b, a', b', c, d, f⟩
  · rw [hi, Nat.zero_add] at a
    rcases Nat.lt_or_ge k k' with h | h
    · have := pairwise_le_getElem? hs h h2 a
      linarith
    · have := pairwise_le_getElem? hs h a h1
      linarith
  · rw [hi, Nat.zero_add] at a b
    have hk : k' = k := by
      rcases Nat.lt_trichotomy k' k with h | h | h
      · have := pairwise_le_getElem? hs h b h1; linarith
      · exact h
      · have := pairwise_le_getElem? hs h h2 a; linarith
    subst hk
    rw [h1] at a; rw [h2] at b; rw [h3] at a'; rw [h4] at b'
    cases a; cases b; cases a'; cases b'
    exact f

/-- An affine function is bounded by its values at two enclosing points. -/
theorem affine_le_max {a b c d p x q : ℝ} (hab : a < b) (h1 : p ≤ x) (h2 : x ≤ q) :
    (x - a) / (b - a) * (d - c) + c ≤ max ((p - a) / (b - a) * (d - c) + c) ((q - a) / (b - a) * (d - c) + c) := by
  have hba : 0 < b - a := by linarith
  rcases le_total c d with h | h
  · apply le_max_of_le_right
    have : (x - a) / (b - a) ≤ (q - a) / (b - a) := div_le_div_of_nonneg_right (by linarith) hba.le
    nlinarith
  · apply le_max_of_le_left
    have : (p - a) / (b - a) ≤ (x - a) / (b - a) := div_le_div_of_nonneg_right (by linarith) hba.le
    nlinarith

/-- C50, for intervals that do not reach below the grid: the value returned by `max_xs_value(Emin, Emax)` is at least the cross
section at every energy of `[Emin, Emax]`, and on a strictly increasing grid it is attained there.
`hidx` is what `C28_lower_index` proves of `get_lower_index`.
Missing: intervals reaching below the grid (`C50_violation_below`) and cross sections that do not start at index 0
(`C50_violation_index`). -/
theorem C50_majorant_partial (g : EGrid) (s : XS ℝ) (hgrid : g.energy = s.grid) (hg : GoodXS s) (hi : s.index = 0)
    (hs : s.grid.Pairwise (· ≤ ·)) (hidx : ∀ E, ∃ i, g.lowerIndex E = .ok i ∧ IsLowerIndex g.energy E i)
    (Emin Emax e0 : ℝ) (h0 : s.grid[0]? = some e0) (hlow : e0 ≤ Emin) (hle : Emin ≤ Emax) :
    ∃ M, maxXs g s Emin Emax = .ok M ∧ (∀ E v, Emin ≤ E → E ≤ Emax → s.eval E = .ok v → v ≤ M) ∧
      (s.grid.Pairwise (· < ·) → ∃ E, Emin ≤ E ∧ E ≤ Emax ∧ s.eval E = .ok M) := by
  have hal := hg.aligned
  rw [hi, Nat.zero_add] at hal
  have hlen := hg.below
  rw [hi] at hlen
  obtain ⟨mx, hmx⟩ := last_exists (l := s.grid) hlen
  have hlast := getLast_get hmx
  obtain ⟨imin, i1, i2⟩ := hidx Emin
  obtain ⟨imax, j1, j2⟩ := hidx Emax
  rw [hgrid] at i2 j2
  obtain ⟨a, ha, -⟩ := C30_total s hg hs Emin
  obtain ⟨b, hb, -⟩ := C30_total s hg hs Emax
  have het : s.grid[s.index]? = some e0 := by rw [hi]; exact h0
  -- indices strictly above `imin` are those of grid points at or above `Emin`, up to ties at the very start
  have himin_lt : imin < s.grid.length := by
    rcases le_or_gt Emin e0 with h | h
    · rw [i2.1 e0 h0 h]; exact hlen
    · rcases le_or_gt mx Emin with h' | h'
      · rw [i2.2.1 e0 mx h0 hmx h h']; omega
      · obtain ⟨x, y, h1, _⟩ := i2.2.2 e0 mx h0 hmx h h'
        exact lt_length_of_some h1
  have himax_lt : imax < s.grid.length := by
    rcases le_or_gt Emax e0 with h | h
    · rw [j2.1 e0 h0 h]; exact hlen
    · rcases le_or_gt mx Emax with h' | h'
      · rw [j2.2.1 e0 mx h0 hmx h h']; omega
      · obtain ⟨x, y, h1, _⟩ := j2.2.2 e0 mx h0 hmx h h'
        exact lt_length_of_some h1
  -- a grid point above `Emin` has index above `imin`
  have hA : ∀ (k : Nat) x, s.grid[k]? = some x → Emin < x → imin < k := by
    intro k x hk hx
    have hx0 : e0 < x := lt_of_le_of_lt hlow hx
    have hk0 : k ≠ 0 := by rintro rfl; rw [h0] at hk; cases hk; exact lt_irrefl _ hx0
    rcases le_or_gt Emin e0 with h | h
    · rw [i2.1 e0 h0 h]; omega
    · rcases le_or_gt mx Emin with h' | h'
      · have := pairwise_le_getElem? hs (by have := lt_length_of_some hk; omega) hk hlast; linarith
      · obtain ⟨p, q, h1, h2, h3, h4⟩ := i2.2.2 e0 mx h0 hmx h h'
        by_contra hc
        have := pairwise_le_getElem? hs (not_lt.mp hc) hk h1
        linarith
  -- a grid point equal to `Emin` has index above `imin` or is the first point
  have hA' : ∀ (k : Nat), s.grid[k]? = some Emin → imin < k ∨ k = 0 ∧ imin = 0 ∨ (mx ≤ Emin) := by
    intro k hk
    rcases le_or_gt Emin e0 with h | h
    · rw [i2.1 e0 h0 h]
      rcases Nat.eq_zero_or_pos k with h | h
      · right; left; exact ⟨h, rfl⟩
      · left; exact h
    · rcases le_or_gt mx Emin with h' | h'
      · right; right; exact h'
      · obtain ⟨p, q, h1, h2, h3, h4⟩ := i2.2.2 e0 mx h0 hmx h h'
        left
        by_contra hc
        have := pairwise_le_getElem? hs (not_lt.mp hc) hk h1
        linarith
  -- a grid point below `Emax` has index at most `imax`
  have hB : ∀ (k : Nat) x, s.grid[k]? = some x → x < Emax → k ≤ imax := by
    intro k x hk hx
    have hk' := lt_length_of_some hk
    rcases le_or_gt Emax e0 with h | h
    · have := pairwise_le_getElem? hs (Nat.zero_le _) h0 hk; linarith
    · rcases le_or_gt mx Emax with h' | h'
      · rw [j2.2.1 e0 mx h0 hmx h h']; omega
      · obtain ⟨p, q, h1, h2, h3, h4⟩ := j2.2.2 e0 mx h0 hmx h h'
        by_contra hc
        have := pairwise_le_getElem? hs (by omega : imax + 1 ≤ k) h2 hk
        linarith
  -- the visited points lie in the interval
  have hC : ∀ (k : Nat) x, s.grid[k]? = some x → imin < k → k ≤ imax → Emin ≤ x ∧ x ≤ Emax := by
    intro k x hk h1 h2
    have hk' := lt_length_of_some hk
    constructor
    · rcases le_or_gt Emin e0 with h | h
      · have := pairwise_le_getElem? hs (Nat.zero_le _) h0 hk; linarith
      · rcases le_or_gt mx Emin with h' | h'
        · have := i2.2.1 e0 mx h0 hmx h h'; omega
        · obtain ⟨p, q, a1, a2, a3, a4⟩ := i2.2.2 e0 mx h0 hmx h h'
          have := pairwise_le_getElem? hs h1 a2 hk; linarith
    · rcases le_or_gt Emax e0 with h | h
      · have := j2.1 e0 h0 h; omega
      · rcases le_or_gt mx Emax with h' | h'
        · have := pairwise_le_getElem? hs (by omega) hk hlast; linarith
        · obtain ⟨p, q, a1, a2, a3, a4⟩ := j2.2.2 e0 mx h0 hmx h h'
          have := pairwise_le_getElem? hs h2 hk a1; linarith
  obtain ⟨M, m1, m2, m3, m4⟩ := maxXsLoop_spec s.values (imax - imin) (imin + 1) (max a b) (by omega)
  have ham : a ≤ M := (le_max_left _ _).trans m2
  have hbm : b ≤ M := (le_max_right _ _).trans m2
  refine ⟨M, ?_, ?_, ?_⟩
  · unfold maxXs
    rw [i1, j1, ha, hb]
    exact m1
  · intro E v hE1 hE2 hv
    rcases le_or_gt mx E with htop | htop
    · -- at or above the top: same value as at `Emax`
      obtain ⟨w, hw⟩ := last_exists (l := s.values) (by omega)
      have e1 := C30_above s hg hs E mx w hmx hw htop
      have e2 := C30_above s hg hs Emax mx w hmx hw (htop.trans hE2)
      rw [hv] at e1; rw [hb] at e2
      cases e1; cases e2
      exact hbm
    · have hmin : Emin < mx := by linarith
      rcases C30_inside s hg hs E e0 mx het hmx (by linarith) htop with
        ⟨k, v', a1, a2, a3, a4⟩ | ⟨k, El, Eh, sl, sh, a1, a2, a3, a4, a5, a6, a7⟩
      · rw [hi, Nat.zero_add] at a1
        rw [hv] at a3; cases a3
        rcases hE1.lt_or_eq with h | h
        · rcases hE2.lt_or_eq with h' | h'
          · exact m3 k v (hA k E a1 h) (by have := hB k E a1 h'; have := hA k E a1 h; omega) a2
          · rw [h'] at hv; rw [hb] at hv; cases hv; exact hbm
        · rw [← h] at hv; rw [ha] at hv; cases hv; exact ham
      · rw [hi, Nat.zero_add] at a1 a2
        rw [hv] at a7
        simp only [Except.ok.injEq] at a7
        have hcell : El < Eh := by linarith
        -- left end
        have hleft : ∃ p, p ≤ E ∧ (p - El) / (Eh - El) * (sh - sl) + sl ≤ M := by
          rcases lt_trichotomy El Emin with h | h | h
          · refine ⟨Emin, hE1, ?_⟩
            have := xs_in_cell hg hi hs a1 a2 a3 a4 h (by linarith)
            rw [ha] at this
            simp only [Except.ok.injEq] at this
            rw [← this]; exact ham
          · refine ⟨El, a5.le, ?_⟩
            rw [sub_self, zero_div, zero_mul, zero_add]
            rw [h] at a1
            rcases hA' k a1 with h' | ⟨h', _⟩ | h'
            · exact m3 k sl h' (by have := hB k Emin a1 (by linarith); omega) a3
            · subst h'
              have := xs_at_first hg hi hs a1 a3 (fun j e hj => absurd hj (by omega)) (fun mx' h => by
                rw [hmx] at h; cases h; exact hmin)
              rw [ha] at this; cases this; exact ham
            · linarith
          · refine ⟨El, a5.le, ?_⟩
            rw [sub_self, zero_div, zero_mul, zero_add]
            exact m3 k sl (hA k El a1 h) (by have := hB k El a1 (by linarith); have := hA k El a1 h; omega) a3
        -- right end
        have hright : ∃ q, E ≤ q ∧ (q - El) / (Eh - El) * (sh - sl) + sl ≤ M := by
          have hsh : (Eh - El) / (Eh - El) * (sh - sl) + sl = sh := by
            rw [div_self (by linarith)]; ring
          rcases lt_trichotomy Emax Eh with h | h | h
          · refine ⟨Emax, hE2, ?_⟩
            have := xs_in_cell hg hi hs a1 a2 a3 a4 (by linarith) h
            rw [hb] at this
            simp only [Except.ok.injEq] at this
            rw [← this]; exact hbm
          · refine ⟨Eh, a6.le, ?_⟩
            rw [hsh]
            rcases le_or_gt mx Eh with ht | ht
            · have hk1 : k + 1 < s.grid.length := lt_length_of_some a2
              have hel := pairwise_le_getElem? hs (Nat.zero_le k) h0 a1
              have him := j2.2.1 e0 mx h0 hmx (by linarith) (by linarith)
              exact m3 (k + 1) sh (hA (k + 1) Eh a2 (by linarith)) (by have := hA (k + 1) Eh a2 (by linarith); omega) a4
            · have := xs_at_first hg hi hs a2 a4 (fun j e hj hje => by
                have := pairwise_le_getElem? hs (by omega : j ≤ k) hje a1; linarith) (fun mx' h => by
                rw [hmx] at h; cases h; exact ht)
              rw [← h, hb] at this; cases this; exact hbm
          · refine ⟨Eh, a6.le, ?_⟩
            rw [hsh]
            have h1 := hA (k + 1) Eh a2 (by linarith)
            exact m3 (k + 1) sh h1 (by have := hB (k + 1) Eh a2 h; omega) a4
        obtain ⟨p, p1, p2⟩ := hleft
        obtain ⟨q, q1, q2⟩ := hright
        rw [a7]
        exact (affine_le_max hcell p1 q1).trans (max_le p2 q2)
  · intro hstrict
    rcases m4 with h | ⟨j, b1, b2, b3⟩
    · rcases max_cases a b with ⟨h', _⟩ | ⟨h', _⟩
      · exact ⟨Emin, le_rfl, hle, by rw [h, h']; exact ha⟩
      · exact ⟨Emax, hle, le_rfl, by rw [h, h']; exact hb⟩
    · obtain ⟨x, hx⟩ := getElem?_of_lt (l := s.grid) (i := j) (by have := lt_length_of_some b3; omega)
      obtain ⟨c1, c2⟩ := hC j x hx (by omega) (by omega)
      exact ⟨x, c1, c2, C30_reproduces s hg hstrict j x M (by rw [hi, Nat.zero_add]; exact hx) b3⟩

/-- C50 on the objects the library builds: a grid from `EnergyGrid`'s constructor and a cross section from `CrossSection`'s. -/
theorem C50_constructed_partial (energy values : List ℝ) (nbins : Nat) (e0 : ℝ) (hs : energy.Pairwise (· < ·))
    (h0 : energy[0]? = some e0) (hp0 : 0 < e0) (h32 : energy.length < 2 ^ 32) (hn : 1 ≤ nbins) (hn2 : nbins < 2 ^ 32 - 1)
    (s : XS ℝ) (hmake : XS.make values energy 0 = .ok s) (Emin Emax : ℝ) (hlow : e0 ≤ Emin) (hle : Emin ≤ Emax) :
    ∃ g M, EGrid.make energy nbins = .ok g ∧ maxXs g s Emin Emax = .ok M ∧
      (∀ E v, Emin ≤ E → E ≤ Emax → s.eval E = .ok v → v ≤ M) ∧ ∃ E, Emin ≤ E ∧ E ≤ Emax ∧ s.eval E = .ok M := by
  have hs' : energy.Pairwise (· ≤ ·) := hs.imp le_of_lt
  obtain ⟨g, hg1, hg2, hg3⟩ := C28_lower_index energy nbins e0 hs' h0 hp0 h32 hn hn2
  rcases C29_construction_partial values energy 0 (by norm_num) with ⟨⟨s', a1, a2, a3, a4, a5⟩, _⟩ | ⟨a1, _⟩
  · rw [hmake] at a1; cases a1
    obtain ⟨M, b1, b2, b3⟩ := C50_majorant_partial g s (by rw [hg2, a2]) a5 a4 (by rw [a2]; exact hs') (by rw [hg2]; exact hg3)
      Emin Emax e0 (by rw [a2]; exact h0) hlow hle
    exact ⟨g, M, hg1, b1, b2, b3 (by rw [a2]; exact hs)⟩
  · rw [hmake] at a1; cases a1

/-- The full claim is false of the code: when the interval reaches below the grid, the first tabulated value is never looked at.
Here the "maximum" over `[1/2, 3/2]` is 3 although the cross section is 5 at energy 1. -/
theorem C50_violation_below (g : EGrid) (hg : ∀ E, ∃ i, g.lowerIndex E = .ok i ∧ IsLowerIndex [1, 2] E i) :
    ∃ s : XS ℝ, XS.make [5, 1] [1, 2] 0 = .ok s ∧ maxXs g s (1 / 2) (3 / 2) = .ok 3 ∧ s.eval 1 = .ok 5 := by
  refine ⟨⟨[1, 2], [5, 1], 0, false⟩, by norm_num [XS.make], ?_, ?_⟩
  · obtain ⟨i, i1, i2⟩ := hg (1 / 2)
    obtain ⟨j, j1, j2⟩ := hg (3 / 2)
    have hi : i = 0 := i2.1 1 rfl (by norm_num)
    have hj : j = 0 := by
      obtain ⟨a, b, h1, h2, _⟩ := j2.2.2 1 2 rfl rfl (by norm_num) (by norm_num)
      have := lt_length_of_some h2
      simp at this
      exact this
    subst hi hj
    unfold maxXs
    rw [i1, j1]
    norm_num [XS.eval, getAt, bind, Except.bind, back, lowerBoundRange, bisect, subIdx, xsLin, cdiv, pure, Except.pure, maxXsLoop]
  · norm_num [XS.eval, getAt, bind, Except.bind, back, lowerBoundRange, bisect, subIdx]

/-- The full claim is false of the code: for a cross section that starts at grid index 1 the stored values are addressed with grid
indices, past their end. -/
theorem C50_violation_index (g : EGrid) (hg : ∀ E, ∃ i, g.lowerIndex E = .ok i ∧ IsLowerIndex [1, 2, 3] E i) :
    ∃ s : XS ℝ, XS.make [5, 1] [1, 2, 3] 1 = .ok s ∧ maxXs g s 2 4 = .error .ub := by
  refine ⟨⟨[1, 2, 3], [5, 1], 1, false⟩, by norm_num [XS.make], ?_⟩
  obtain ⟨i, i1, i2⟩ := hg 2
  obtain ⟨j, j1, j2⟩ := hg 4
  have hi : i = 0 := by
    obtain ⟨a, b, h1, h2, h3, h4⟩ := i2.2.2 1 3 rfl rfl (by norm_num) (by norm_num)
    have := lt_length_of_some h2
    simp at this
    rcases i with _ | _ | i
    · rfl
    · simp at h1; subst h1; norm_num at h3
    · omega
  have hj : j = 2 := j2.2.1 1 3 rfl rfl (by norm_num) (by norm_num)
  subst hi hj
  unfold maxXs
  rw [i1, j1]
  norm_num [XS.eval, getAt, bind, Except.bind, back, lowerBoundRange, bisect, subIdx, xsLin, cdiv, pure, Except.pure, maxXsLoop]

/-- The grids of the two counterexamples exist. -/
theorem C50_violation_grids : (∃ g, EGrid.make [1, 2] 8192 = .ok g ∧ ∀ E, ∃ i, g.lowerIndex E = .ok i ∧ IsLowerIndex [1, 2] E i) ∧
    (∃ g, EGrid.make [1, 2, 3] 8192 = .ok g ∧ ∀ E, ∃ i, g.lowerIndex E = .ok i ∧ IsLowerIndex [1, 2, 3] E i) := by
  constructor
  · obtain ⟨g, a, _, c⟩ := C28_lower_index [1, 2] 8192 1 (by norm_num) rfl (by norm_num) (by norm_num) (by norm_num) (by norm_num)
    exact ⟨g, a, c⟩
  · obtain ⟨g, a, _, c⟩ := C28_lower_index [1, 2, 3] 8192 1 (by norm_num) rfl (by norm_num) (by norm_num) (by norm_num) (by norm_num)
    exact ⟨g, a, c⟩

end PNDL
