import Verif.Model.EnergyGrid
import Verif.Lemmas.Interp
import Verif.Lemmas.Tab1D

/-! C28: the hashed look-up in an `EnergyGrid`. -/
namespace PNDL

/-- Specification: `i` is the lower index of `E` in a grid. -/
def Spec.IsLowerIndex (grid : List ℝ) (E : ℝ) (i : Nat) : Prop :=
  (∀ mn, grid[0]? = some mn → E ≤ mn → i = 0) ∧
  (∀ mn mx, grid[0]? = some mn → grid.getLast? = some mx → mn < E → mx ≤ E → i = grid.length - 1) ∧
  (∀ mn mx, grid[0]? = some mn → grid.getLast? = some mx → mn < E → E < mx →
    ∃ a b, grid[i]? = some a ∧ grid[i + 1]? = some b ∧ a < E ∧ E ≤ b)

open Spec

theorem lowerBound_mono {l : List ℝ} (hs : l.Pairwise (· ≤ ·)) {x x' : ℝ} (h : x ≤ x') : lowerBound l x ≤ lowerBound l x' := by
  by_contra hc
  rw [not_le] at hc
  obtain ⟨a, ha⟩ := getElem?_of_lt (l := l) (i := lowerBound l x') (lt_of_lt_of_le hc (lowerBound_le hs x))
  have h1 := (lowerBound_iff hs x ha).mpr hc
  exact lt_irrefl _ ((lowerBound_iff hs x' ha).mp (h1.trans_le h))

/-- C28, the search itself: whatever the bin pointers are (for instance bin bounds affected by rounding), the hashed search
returns what a search of the whole grid returns as soon as the bin's pointers enclose the result. -/
theorem C28_search (g : EGrid) (hs : g.energy.Pairwise (· ≤ ·)) (h32 : g.energy.length < 2 ^ 32) (bin low p : Nat) (E : ℝ)
    (hlow : g.ptrs[bin]? = some low) (hp : g.ptrs[bin + 1]? = some p) (h1 : low ≤ lowerBound g.energy E)
    (h2 : lowerBound g.energy E ≤ p + 1) (h3 : p + 1 ≤ g.energy.length) (h0 : 0 < lowerBound g.energy E) :
    g.search bin E = .ok (lowerBound g.energy E - 1) := by
  have hu : u32 (p + 1) = p + 1 := Nat.mod_eq_of_lt (by omega)
  simp only [EGrid.search, getAt_eq_ok.mpr hlow, getAt_eq_ok.mpr hp, bind, Except.bind, hu]
  rw [if_pos ⟨by omega, h3⟩]
  obtain ⟨l1, l2, l3⟩ := lowerBoundRange_spec hs E (lo := low) (hi := p + 1) (by omega) h3
  have : lowerBoundRange g.energy low (p + 1) E = lowerBound g.energy E := by
    symm
    apply lowerBound_unique hs E (by omega)
    intro i a ha
    by_cases c1 : i < low
    · exact ⟨fun _ => by omega, fun _ => (lowerBound_iff hs E ha).mpr (by omega)⟩
    · by_cases c2 : i < p + 1
      · exact l3 i a ha (by omega) c2
      · exact ⟨fun hl => absurd ((lowerBound_iff hs E ha).mp hl) (by omega), fun _ => by omega⟩
  rw [this, subIdx_of_le (by omega)]

theorem binLoop_length (energy : List ℝ) (du : ℝ) : ∀ n E, (binLoop energy du n E).length = n := by
  intro n
  induction n with
  | zero => intro E; rfl
  | succ n ih => intro E; simp [binLoop, ih]

theorem binLoop_get (energy : List ℝ) (du : ℝ) : ∀ (n k : Nat) (E : ℝ), k < n →
    (binLoop energy du n E)[k]? = some (binPtr energy (E * Real.exp ((k + 1 : ℕ) * du))) := by
  intro n
  induction n with
  | zero => intro k E h; omega
  | succ n ih =>
    intro k E h
    cases k with
    | zero => simp [binLoop]
    | succ k =>
      simp only [binLoop, List.getElem?_cons_succ]
      rw [ih k _ (by omega), mul_assoc, ← Real.exp_add]
      congr 4
      push_cast; ring

theorem hashGrid_ok {energy : List ℝ} {nbins : Nat} {e0 e1 : ℝ} (h0 : energy[0]? = some e0) (h1 : energy.getLast? = some e1)
    (hp0 : 0 < e0) (hp1 : 0 < e1) (hn : 1 ≤ nbins) (hn2 : nbins < 2 ^ 32 - 1) :
    hashGrid energy nbins = .ok ⟨energy, 0 :: binLoop energy ((Real.log e1 - Real.log e0) / nbins) nbins e0, Real.log e0,
      (Real.log e1 - Real.log e0) / nbins⟩ := by
  have hnz : (nbins : ℝ) ≠ 0 := by positivity
  have hu : u32 (nbins + 1) - 1 = nbins := by
    rw [u32, Nat.mod_eq_of_lt (by omega)]; omega
  simp only [hashGrid, front_eq_ok.mpr h0, back_eq_ok.mpr h1, clog_ok hp0, clog_ok hp1, rdiv_ok hnz, bind, Except.bind, pure,
    Except.pure, hu]

/-- C28.  For every sorted grid of positive energies and every number of bins, construction succeeds and, for every energy,
`get_lower_index` returns the lower index. -/
theorem C28_lower_index (energy : List ℝ) (nbins : Nat) (e0 : ℝ) (hs : energy.Pairwise (· ≤ ·)) (h0 : energy[0]? = some e0)
    (hp0 : 0 < e0) (h32 : energy.length < 2 ^ 32) (hn : 1 ≤ nbins) (hn2 : nbins < 2 ^ 32 - 1) :
    ∃ g, EGrid.make energy nbins = .ok g ∧ g.energy = energy ∧ ∀ E, ∃ i, g.lowerIndex E = .ok i ∧ IsLowerIndex energy E i := by
  have hpos := lt_length_of_some h0
  obtain ⟨e1, h1⟩ : ∃ e1, energy.getLast? = some e1 := ⟨_, List.getLast?_eq_some_getLast (List.ne_nil_of_length_pos hpos)⟩
  have hl1 : energy[energy.length - 1]? = some e1 := by rw [← List.getLast?_eq_getElem?]; exact h1
  have hle : e0 ≤ e1 := pairwise_le_getElem? hs (Nat.zero_le _) h0 hl1
  have hp1 : 0 < e1 := lt_of_lt_of_le hp0 hle
  obtain ⟨du, hdu⟩ : ∃ du, du = (Real.log e1 - Real.log e0) / nbins := ⟨_, rfl⟩
  have hh := hashGrid_ok h0 h1 hp0 hp1 hn hn2
  rw [← hdu] at hh
  refine ⟨⟨energy, 0 :: binLoop energy du nbins e0, Real.log e0, du⟩, ?_, rfl, ?_⟩
  · simp only [EGrid.make, isSorted_iff.mpr hs, front_eq_ok.mpr h0, bind, Except.bind, if_neg (not_lt.mpr hp0.le), hh]
    simp
  intro E
  simp only [EGrid.lowerIndex, front_eq_ok.mpr h0, back_eq_ok.mpr h1, bind, Except.bind]
  by_cases c0 : E ≤ e0
  · rw [if_pos c0]
    refine ⟨0, rfl, fun _ _ _ => rfl, ?_, ?_⟩
    · intro mn mx g1 _ g2; rw [h0] at g1; cases g1; exact absurd g2 (not_lt.mpr c0)
    · intro mn mx g1 _ g2; rw [h0] at g1; cases g1; exact absurd g2 (not_lt.mpr c0)
  rw [if_neg c0]
  rw [not_le] at c0
  by_cases c1 : E ≥ e1
  · rw [if_pos c1]
    refine ⟨_, rfl, ?_, fun _ _ _ _ _ _ => rfl, ?_⟩
    · intro mn g1 g2; rw [h0] at g1; cases g1; exact absurd g2 (not_le.mpr c0)
    · intro mn mx _ g1 _ g2; rw [h1] at g1; cases g1; exact absurd g2 (not_lt.mpr c1)
  rw [if_neg c1]
  rw [ge_iff_le, not_le] at c1
  have hE : 0 < E := hp0.trans c0
  have hn0 : (0 : ℝ) < nbins := by exact_mod_cast hn
  have hdpos : 0 < du := by
    rw [hdu]
    have := Real.log_lt_log hp0 (c0.trans c1)
    apply div_pos (by linarith) hn0
  have hlog0 := Real.log_lt_log hp0 c0
  have hlog1 := Real.log_lt_log hE c1
  have hne : du * nbins = Real.log e1 - Real.log e0 := by rw [hdu]; field_simp
  simp only [clog_ok hE, rdiv_ok hdpos.ne']
  obtain ⟨q, hq⟩ : ∃ q, q = (Real.log E - Real.log e0) / du := ⟨_, rfl⟩
  rw [← hq]
  have hq0 : 0 ≤ q := by rw [hq]; exact div_nonneg (by linarith) hdpos.le
  have hqn : q < nbins := by rw [hq, div_lt_iff₀ hdpos]; linarith
  have hqE : q * du = Real.log E - Real.log e0 := by rw [hq]; field_simp
  have hbn : ⌊q⌋₊ < nbins := (Nat.floor_lt hq0).mpr hqn
  rw [if_pos ⟨hq0, by omega⟩]
  obtain ⟨b, hb⟩ : ∃ b, b = ⌊q⌋₊ := ⟨_, rfl⟩
  rw [← hb] at hbn ⊢
  have hb1 : (b : ℝ) ≤ q := by rw [hb]; exact Nat.floor_le hq0
  have hb2 : q < (b : ℝ) + 1 := by rw [hb]; exact Nat.lt_floor_add_one q
  -- the bin's bounds
  have bound : ∀ k : ℕ, e0 * Real.exp (k * du) = Real.exp (Real.log e0 + k * du) := by
    intro k; rw [Real.exp_add, Real.exp_log hp0]
  have hlo : e0 * Real.exp (b * du) ≤ E := by
    rw [bound, ← Real.exp_log hE, Real.exp_le_exp]
    nlinarith
  have hhi : E < e0 * Real.exp ((b + 1 : ℕ) * du) := by
    rw [bound]
    nth_rewrite 1 [← Real.exp_log hE]
    rw [Real.exp_lt_exp]
    push_cast
    nlinarith
  have hLB1 : 0 < lowerBound energy E := (lowerBound_iff hs E h0).mp c0
  have hptr : ∀ k : ℕ, 1 ≤ k → (1 : ℕ) ≤ lowerBound energy (e0 * Real.exp (k * du)) ∧
      binPtr energy (e0 * Real.exp (k * du)) = lowerBound energy (e0 * Real.exp (k * du)) - 1 := by
    intro k hk
    have hgt : e0 < e0 * Real.exp (k * du) := by
      have : (1 : ℝ) < Real.exp (k * du) := by
        rw [Real.one_lt_exp_iff]
        have : (0 : ℝ) < k := by exact_mod_cast hk
        positivity
      nlinarith
    have h1 := (lowerBound_iff hs _ h0).mp hgt
    have h2 := lowerBound_le hs (e0 * Real.exp (k * du))
    refine ⟨h1, ?_⟩
    simp only [binPtr]
    rw [if_neg (by omega), u32, Nat.mod_eq_of_lt (by omega)]
  obtain ⟨k1, k2⟩ := hptr (b + 1) (by omega)
  have hm1 := lowerBound_mono hs hhi.le
  have hm2 := lowerBound_mono hs hlo
  have hub := lowerBound_le hs (e0 * Real.exp ((b + 1 : ℕ) * du))
  have hget : (0 :: binLoop energy du nbins e0)[b + 1]? = some (binPtr energy (e0 * Real.exp ((b + 1 : ℕ) * du))) := by
    rw [List.getElem?_cons_succ, binLoop_get _ _ _ _ _ hbn]
  have hlowp : ∃ low, (0 :: binLoop energy du nbins e0)[b]? = some low ∧ low ≤ lowerBound energy E := by
    rcases Nat.eq_zero_or_pos b with hb0 | hb0
    · exact ⟨0, by rw [hb0]; rfl, Nat.zero_le _⟩
    · obtain ⟨j, rfl⟩ : ∃ j, b = j + 1 := ⟨b - 1, by omega⟩
      obtain ⟨_, j2⟩ := hptr (j + 1) (by omega)
      exact ⟨_, by rw [List.getElem?_cons_succ, binLoop_get _ _ _ _ _ (by omega)], by rw [j2]; omega⟩
  obtain ⟨low, hlow, hlow2⟩ := hlowp
  rw [C28_search ⟨energy, 0 :: binLoop energy du nbins e0, Real.log e0, du⟩ hs h32 b low _ E hlow hget hlow2 (by rw [k2]; simp only; omega)
    (by rw [k2]; simp only; omega) hLB1]
  obtain ⟨i, x1, x2, i1, i2, i3, i4, i5⟩ := bracket_index hs h0 h1 c0 c1.le
  refine ⟨_, rfl, ?_, ?_, ?_⟩
  · intro mn g1 g2; rw [h0] at g1; cases g1; exact absurd g2 (not_le.mpr c0)
  · intro mn mx _ g1 _ g2; rw [h1] at g1; cases g1; exact absurd g2 (not_le.mpr c1)
  · intro mn mx _ _ _ _
    simp only [i1, Nat.add_sub_cancel]
    exact ⟨x1, x2, i2, i3, i4, i5⟩

/-- The lower index is unique in the interior, so `C28_lower_index` determines the result: it is the one a search of the whole
grid finds. -/
theorem C28_unique (grid : List ℝ) (hs : grid.Pairwise (· ≤ ·)) (E : ℝ) (i j : Nat) (hne : grid ≠ [])
    (hi : IsLowerIndex grid E i) (hj : IsLowerIndex grid E j) : i = j := by
  have hpos := List.length_pos_iff.mpr hne
  obtain ⟨mn, hmn⟩ := getElem?_of_lt (l := grid) (i := 0) hpos
  obtain ⟨mx, hmx⟩ : ∃ mx, grid.getLast? = some mx := ⟨_, List.getLast?_eq_some_getLast hne⟩
  rcases le_or_gt E mn with c | c
  · rw [hi.1 mn hmn c, hj.1 mn hmn c]
  · rcases le_or_gt mx E with c' | c'
    · rw [hi.2.1 mn mx hmn hmx c c', hj.2.1 mn mx hmn hmx c c']
    · obtain ⟨a, b, h1, h2, h3, h4⟩ := hi.2.2 mn mx hmn hmx c c'
      obtain ⟨a', b', h1', h2', h3', h4'⟩ := hj.2.2 mn mx hmn hmx c c'
      rcases Nat.lt_trichotomy i j with h | h | h
      · have := pairwise_le_getElem? hs (show i + 1 ≤ j by omega) h2 h1'; linarith
      · exact h
      · have := pairwise_le_getElem? hs (show j + 1 ≤ i by omega) h2' h1; linarith

/-- The hypothesis `0 < e0` is needed: the vector constructor accepts a grid starting at zero and then takes the logarithm of
zero. -/
theorem C28_zero_energy (e1 : ℝ) (h : 0 < e1) (nbins : Nat) : EGrid.make [0, e1] nbins = .error .nonfinite := by
  have hs : isSorted [0, e1] = true := isSorted_iff.mpr (by simpa using h.le)
  simp [EGrid.make, hs, front, getAt, hashGrid, back, clog, bind, Except.bind]

/-- Zero bins: construction divides by zero (an infinite bin width in C++). -/
theorem C28_zero_bins (e0 e1 : ℝ) (h0 : 0 < e0) (h : e0 ≤ e1) : EGrid.make [e0, e1] 0 = .error .nonfinite := by
  have hs : isSorted [e0, e1] = true := isSorted_iff.mpr (by simpa using h)
  have h1 : 0 < e1 := h0.trans_le h
  simp [EGrid.make, hs, front, getAt, hashGrid, back, clog, h0, h1, bind, Except.bind, not_lt.mpr h0.le, rdiv]

/-- The largest number of bins is too large: `NBINS + 1` wraps around to zero, no bin is stored, and looking up any energy strictly inside
the grid reads beyond the stored pointers. -/
theorem C28_max_bins (energy : List ℝ) (e0 e1 : ℝ) (hs : energy.Pairwise (· ≤ ·)) (h0 : energy[0]? = some e0) (h1 : energy.getLast? = some e1)
    (hp0 : 0 < e0) : ∃ g, EGrid.make energy (2 ^ 32 - 1) = .ok g ∧ g.ptrs = [0] ∧ ∀ E, e0 < E → E < e1 → g.lowerIndex E = .error .ub := by
  have hpos := lt_length_of_some h0
  have hl1 : energy[energy.length - 1]? = some e1 := by rw [← List.getLast?_eq_getElem?]; exact h1
  have hle : e0 ≤ e1 := pairwise_le_getElem? hs (Nat.zero_le _) h0 hl1
  have hp1 : 0 < e1 := lt_of_lt_of_le hp0 hle
  have hnz : ((2 ^ 32 - 1 : Nat) : ℝ) ≠ 0 := by norm_num
  obtain ⟨du, hdu⟩ : ∃ du, du = (Real.log e1 - Real.log e0) / ((2 ^ 32 - 1 : Nat) : ℝ) := ⟨_, rfl⟩
  have hu : u32 (2 ^ 32 - 1 + 1) - 1 = 0 := by norm_num [u32]
  refine ⟨⟨energy, [0], Real.log e0, du⟩, ?_, rfl, fun E hE0 hE1 => ?_⟩
  · unfold EGrid.make
    rw [if_neg (by simp [isSorted_iff.mpr hs]), front_eq_ok.mpr h0]
    simp only [bind, Except.bind]
    rw [if_neg (not_lt.mpr hp0.le)]
    simp only [hashGrid, front_eq_ok.mpr h0, back_eq_ok.mpr h1, clog_ok hp0, clog_ok hp1, rdiv_ok hnz, bind, Except.bind, pure,
      Except.pure, hu, binLoop, ← hdu]
  · have hduz : du ≠ 0 := by
      rw [hdu]
      exact div_ne_zero (by have := Real.log_lt_log hp0 (hE0.trans hE1); linarith) hnz
    simp only [EGrid.lowerIndex, front_eq_ok.mpr h0, back_eq_ok.mpr h1, bind, Except.bind]
    rw [if_neg (not_le.mpr hE0), if_neg (not_le.mpr hE1), clog_ok (hp0.trans hE0)]
    simp only []
    rw [rdiv_ok hduz]
    simp only []
    by_cases hc : 0 ≤ (Real.log E - Real.log e0) / du ∧ ⌊(Real.log E - Real.log e0) / du⌋₊ < 2 ^ 32
    · rw [if_pos hc]
      generalize ⌊(Real.log E - Real.log e0) / du⌋₊ = q
      unfold EGrid.search
      cases q <;> simp [getAt, bind, Except.bind]
    · rw [if_neg hc]

example : ∃ g, EGrid.make [1, 2, 2, 5] 8192 = .ok g ∧ g.energy = [1, 2, 2, 5] ∧
    ∀ E, ∃ i, g.lowerIndex E = .ok i ∧ IsLowerIndex [1, 2, 2, 5] E i :=
  C28_lower_index [1, 2, 2, 5] 8192 1 (by norm_num) rfl (by norm_num) (by norm_num) (by norm_num) (by norm_num)

end PNDL
