import Verif.Lemmas.Interp
import Verif.Spec.Tab1D

/-! Lemmas about `Tabulated1D`: layout of the regions, evaluation, integration. -/
namespace PNDL
open Spec

variable {α : Type _}

theorem points_length {l : List α} {lo hi : Nat} (h : hi ≤ l.length) : (points l lo hi).length = hi - lo := by
  simp [points, List.length_drop, List.length_take, Nat.min_eq_left h]

theorem points_get {l : List α} {lo hi j : Nat} (h : lo + j < hi) : (points l lo hi)[j]? = l[lo + j]? := by
  simp [points, List.getElem?_drop, h]

theorem points_sorted {l : List ℝ} {lo hi : Nat} (h : l.Pairwise (· ≤ ·)) : (points l lo hi).Pairwise (· ≤ ·) :=
  (h.sublist (List.take_sublist _ _)).sublist (List.drop_sublist _ _)

theorem points_head {l : List α} {lo hi : Nat} (h : lo < hi) : (points l lo hi)[0]? = l[lo]? := by
  rw [points_get (by omega), Nat.add_zero]

theorem points_last {l : List α} {lo hi : Nat} (h : lo < hi) (h2 : hi ≤ l.length) :
    (points l lo hi).getLast? = l[hi - 1]? := by
  rw [List.getLast?_eq_getElem?, points_length h2, points_get (by omega)]
  congr 1; omega

theorem slice_ok {l : List α} {lo hi : Nat} (h : lo ≤ hi) (h2 : hi ≤ l.length) : slice l lo hi = .ok (points l lo hi) := by
  simp [slice, points, h, h2]

theorem hasSignChange_ok {l : List ℝ} (h : l ≠ []) : ∃ b, Interpolation.hasSignChange l = .ok b := by
  cases l with
  | nil => exact absurd rfl h
  | cons a l => exact ⟨_, rfl⟩

theorem verifyX_cases (r : Interpolation) {l : List ℝ} (h : l ≠ []) :
    r.verifyX l = .ok () ∨ r.verifyX l = .error .exc := by
  cases r with
  | histogram => simp only [Interpolation.verifyX]; split <;> simp
  | linLin => simp only [Interpolation.verifyX]; split <;> simp
  | logLin => simp [Interpolation.verifyX]
  | linLog | logLog =>
    obtain ⟨b, hb⟩ := hasSignChange_ok h
    simp only [Interpolation.verifyX, hb, bind, Except.bind]
    split <;> simp

theorem verifyY_cases (r : Interpolation) {l : List ℝ} (h : l ≠ []) :
    r.verifyY l = .ok () ∨ r.verifyY l = .error .exc := by
  cases r with
  | histogram | linLin | linLog => simp [Interpolation.verifyY]
  | logLin | logLog =>
    obtain ⟨b, hb⟩ := hasSignChange_ok h
    simp only [Interpolation.verifyY, hb, bind, Except.bind]
    split <;> simp

/-- The region constructor throws or keeps its arguments; it never has undefined behaviour. -/
theorem Region.make_cases (r : Interpolation) (xs ys : List ℝ) :
    Region.make r xs ys = .error .exc ∨
      (Region.make r xs ys = .ok ⟨r, xs, ys⟩ ∧ xs.length = ys.length ∧ xs ≠ [] ∧ xs.Pairwise (· ≤ ·) ∧
        r.verifyX xs = .ok () ∧ r.verifyY ys = .ok ()) := by
  unfold Region.make
  by_cases h1 : xs.length ≠ ys.length
  · left; rw [if_pos h1]
  · rw [if_neg h1]
    by_cases h2 : xs.length = 0
    · left; rw [if_pos h2]
    · rw [if_neg h2]
      by_cases h3 : isSorted xs = false
      · left; rw [if_pos h3]
      · rw [if_neg h3]
        have hne : xs ≠ [] := by intro hc; simp [hc] at h2
        have hne' : ys ≠ [] := by intro hc; rw [hc] at h1; simp at h1; exact hne h1
        rcases verifyX_cases r hne with h4 | h4
        · rcases verifyY_cases r hne' with h5 | h5
          · right
            refine ⟨by simp [h4, h5, bind, Except.bind, pure, Except.pure], by omega, hne, isSorted_iff.mp (by simpa using h3), h4, h5⟩
          · left; simp [h4, h5, bind, Except.bind]
        · left; simp [h4, bind, Except.bind]

theorem nextLow_ok {x : List ℝ} {hi : Nat} (h : 1 ≤ hi) (h2 : hi ≤ x.length) :
    ∃ nxt, nextLow x hi = .ok nxt ∧ (nxt + 1 = hi ∨ (nxt = hi ∧ hi < x.length ∧ x[hi - 1]? = x[hi]?)) := by
  unfold nextLow
  rw [subIdx_of_le h]
  simp only [bind, Except.bind]
  by_cases h3 : hi - 1 < x.length - 1
  · rw [if_pos h3]
    obtain ⟨a, ha, ha'⟩ := getAt_exists (l := x) (i := hi - 1) (by omega)
    obtain ⟨b, hb, hb'⟩ := getAt_exists (l := x) (i := hi - 1 + 1) (by omega)
    rw [ha, hb]
    simp only [pure, Except.pure]
    by_cases hab : a = b
    · refine ⟨hi - 1 + 1, by rw [if_pos hab], Or.inr ⟨by omega, by omega, ?_⟩⟩
      rw [show hi = hi - 1 + 1 by omega, hb', Nat.add_sub_cancel, ha', hab]
    · exact ⟨hi - 1, by rw [if_neg hab], Or.inl (by omega)⟩
  · rw [if_neg h3]
    exact ⟨hi - 1, rfl, Or.inl (by omega)⟩

/-- On strictly increasing breakpoints within the table the region loop throws or tiles the table. -/
theorem buildRegions_cases (x y : List ℝ) (hxy : x.length = y.length) :
    ∀ (bps : List (Nat × Interpolation)) (low : Nat), (bps.map Prod.fst).Pairwise (· < ·) →
      (∀ b ∈ bps.map Prod.fst, low < b ∧ b ≤ x.length) →
      buildRegions x y bps low = .error .exc ∨ ∃ gs, buildRegions x y bps low = .ok gs ∧ Tiles x y bps low gs := by
  intro bps
  induction bps with
  | nil => intro low _ _; exact Or.inr ⟨[], rfl, .nil low⟩
  | cons p rest ih =>
    obtain ⟨hi, r⟩ := p
    intro low hinc hin
    rw [List.map_cons, List.pairwise_cons] at hinc
    obtain ⟨hinc1, hinc2⟩ := hinc
    have hlo := hin hi (by simp)
    rw [buildRegions, slice_ok (by omega) (by omega), slice_ok (by omega) (by omega)]
    simp only [bind, Except.bind]
    rcases Region.make_cases r (points x low hi) (points y low hi) with h | ⟨h, _⟩
    · left; rw [h]
    · rw [h]
      simp only
      obtain ⟨nxt, hn1, hn2⟩ := nextLow_ok (x := x) (hi := hi) (by omega) hlo.2
      rw [hn1]
      simp only
      rcases ih nxt hinc2 (by
        intro b hb
        have h1 := hinc1 b hb
        have h2 := hin b (by simp at hb ⊢; exact Or.inr hb)
        constructor
        · rcases hn2 with h | h <;> omega
        · exact h2.2) with h' | ⟨gs, h', ht⟩
      · left; rw [h']
      · right
        refine ⟨_, by rw [h']; rfl, .cons hlo.1 hlo.2 hn2 ht⟩

theorem Tab1D.make_cases (nbt : List Nat) (int : List Interpolation) (x y : List ℝ) (hv : ValidBreakpoints nbt x.length) :
    Tab1D.make nbt int x y = .error .exc ∨
      ∃ gs, Tab1D.make nbt int x y = .ok ⟨nbt, int, x, y, gs⟩ ∧ nbt.length = int.length ∧ x.length = y.length ∧
        x.Pairwise (· ≤ ·) ∧ Tiles x y (nbt.zip int) 0 gs := by
  unfold Tab1D.make
  by_cases h1 : nbt.length ≠ int.length
  · left; rw [if_pos h1]
  · rw [if_neg h1]
    by_cases h2 : x.length ≠ y.length
    · left; rw [if_pos h2]
    · rw [if_neg h2]
      by_cases h3 : isSorted x = false
      · left; rw [if_pos h3]
      · rw [if_neg h3]
        have hmap : (nbt.zip int).map Prod.fst = nbt := List.map_fst_zip (by omega)
        have hle : ∀ b ∈ nbt, b ≤ x.length := by
          intro b hb
          obtain ⟨i, hi⟩ := List.mem_iff_getElem?.mp hb
          have hl := hv.last
          rw [List.getLast?_eq_getElem?] at hl
          have hlt : i < nbt.length := by
            by_contra hc; simp [List.getElem?_eq_none (Nat.le_of_not_lt hc)] at hi
          rcases Nat.lt_or_ge i (nbt.length - 1) with h | h
          · exact (pairwise_lt_getElem? hv.incr h hi hl).le
          · have : i = nbt.length - 1 := by omega
            subst this; rw [hi] at hl; cases hl; exact le_refl _
        rcases buildRegions_cases x y (by omega) (nbt.zip int) 0 (by rw [hmap]; exact hv.incr)
          (by rw [hmap]; intro b hb; have := hv.pos b hb; exact ⟨by omega, hle b hb⟩) with h | ⟨gs, h, ht⟩
        · left; simp [h, bind, Except.bind]
        · right
          exact ⟨gs, by simp [h, bind, Except.bind, pure, Except.pure], by omega, by omega,
            isSorted_iff.mp (by simpa using h3), ht⟩

/-! ### Evaluation -/

theorem lt_length_of_some {l : List α} {i : Nat} {a : α} (h : l[i]? = some a) : i < l.length := by
  by_contra hc; simp [List.getElem?_eq_none (Nat.le_of_not_lt hc)] at h

theorem getElem?_of_lt {l : List α} {i : Nat} (h : i < l.length) : ∃ a, l[i]? = some a := ⟨l[i], by simp [h]⟩

theorem Region.eval_low {g : Region} {v mn y0 : ℝ} (h1 : g.xs[0]? = some mn) (h2 : g.ys[0]? = some y0) (hv : v ≤ mn) :
    g.eval v = .ok y0 := by
  simp only [Region.eval, front_eq_ok.mpr h1, front_eq_ok.mpr h2, bind, Except.bind]
  rw [if_pos hv]

theorem Region.eval_high {g : Region} {v mn mx y1 : ℝ} (h1 : g.xs[0]? = some mn) (h2 : g.xs.getLast? = some mx)
    (h3 : g.ys.getLast? = some y1) (hv : mn < v) (hv2 : mx ≤ v) : g.eval v = .ok y1 := by
  simp only [Region.eval, front_eq_ok.mpr h1, back_eq_ok.mpr h2, back_eq_ok.mpr h3, bind, Except.bind]
  rw [if_neg (not_le.mpr hv), if_pos hv2]

theorem bracket_index {l : List ℝ} (hs : l.Pairwise (· ≤ ·)) {v mn mx : ℝ} (h1 : l[0]? = some mn)
    (h2 : l.getLast? = some mx) (hv : mn < v) (hv2 : v ≤ mx) :
    ∃ (i : Nat) (x1 x2 : ℝ), lowerBound l v = i + 1 ∧ l[i]? = some x1 ∧ l[i + 1]? = some x2 ∧ x1 < v ∧ v ≤ x2 := by
  have hpos : 0 < lowerBound l v := (lowerBound_iff hs v h1).mp hv
  have hlast : l[l.length - 1]? = some mx := by rw [← List.getLast?_eq_getElem?]; exact h2
  have hlt : lowerBound l v < l.length := by
    have h3 := mt (lowerBound_iff hs v hlast).mpr (not_lt.mpr hv2)
    have := lt_length_of_some hlast
    omega
  obtain ⟨i, hi⟩ : ∃ i, lowerBound l v = i + 1 := ⟨lowerBound l v - 1, by omega⟩
  obtain ⟨x1, hx1⟩ := getElem?_of_lt (l := l) (i := i) (by omega)
  obtain ⟨x2, hx2⟩ := getElem?_of_lt (l := l) (i := i + 1) (by omega)
  refine ⟨i, x1, x2, hi, hx1, hx2, (lowerBound_iff hs v hx1).mpr (by omega), ?_⟩
  exact not_lt.mp (fun hc => by have := (lowerBound_iff hs v hx2).mp hc; omega)

theorem Region.eval_mid {g : Region} (hs : g.xs.Pairwise (· ≤ ·)) (hl : g.xs.length = g.ys.length) {v mn mx : ℝ}
    (h1 : g.xs[0]? = some mn) (h2 : g.xs.getLast? = some mx) (hv : mn < v) (hv2 : v < mx) :
    ∃ (i : Nat) (x1 x2 y1 y2 : ℝ), g.xs[i]? = some x1 ∧ g.xs[i + 1]? = some x2 ∧ g.ys[i]? = some y1 ∧ g.ys[i + 1]? = some y2 ∧
      x1 < v ∧ v ≤ x2 ∧ g.eval v = g.interp.interpolate v x1 y1 x2 y2 := by
  obtain ⟨i, x1, x2, hi, hx1, hx2, hb1, hb2⟩ := bracket_index hs h1 h2 hv hv2.le
  have hlen := lt_length_of_some hx2
  obtain ⟨y1, hy1⟩ := getElem?_of_lt (l := g.ys) (i := i) (by omega)
  obtain ⟨y2, hy2⟩ := getElem?_of_lt (l := g.ys) (i := i + 1) (by omega)
  refine ⟨i, x1, x2, y1, y2, hx1, hx2, hy1, hy2, hb1, hb2, ?_⟩
  simp only [Region.eval, front_eq_ok.mpr h1, back_eq_ok.mpr h2, bind, Except.bind]
  rw [if_neg (not_le.mpr hv), if_neg (not_le.mpr hv2), hi, subIdx_of_le (by omega)]
  simp only [Nat.add_sub_cancel, getAt_eq_ok.mpr hx1, getAt_eq_ok.mpr hx2, getAt_eq_ok.mpr hy1, getAt_eq_ok.mpr hy2]

/-- Facts about the first region of a tiling. -/
theorem tiles_head {x y : List ℝ} {hi low : Nat} {r : Interpolation} {rest gs}
    (h : Tiles x y ((hi, r) :: rest) low gs) :
    ∃ nxt gs', gs = ⟨r, points x low hi, points y low hi⟩ :: gs' ∧ low < hi ∧ hi ≤ x.length ∧
      (nxt + 1 = hi ∨ (nxt = hi ∧ hi < x.length ∧ x[hi - 1]? = x[hi]?)) ∧ Tiles x y rest nxt gs' := by
  cases h with
  | cons a b c d => exact ⟨_, _, rfl, a, b, c, d⟩

/-- The next region starts at the abscissa where the previous ends. -/
theorem next_value {x : List ℝ} {hi nxt : Nat} (h0 : 0 < hi)
    (h : nxt + 1 = hi ∨ (nxt = hi ∧ hi < x.length ∧ x[hi - 1]? = x[hi]?)) : x[nxt]? = x[hi - 1]? := by
  rcases h with h | ⟨h1, _, h3⟩
  · rw [show nxt = hi - 1 by omega]
  · rw [h1, h3]

/-- `seekRegion` finds the first region whose upper end is not below `v`. -/
theorem seek_spec {x y : List ℝ} (v : ℝ) {mx : ℝ} (hmx : x.getLast? = some mx) (hv : v ≤ mx) :
    ∀ (bps : List (Nat × Interpolation)) (low : Nat) (gs : List Region), Tiles x y bps low gs →
      (bps.getLast?).map Prod.fst = some x.length → ∀ a, x[low]? = some a → a ≤ v →
      ∃ (k lo hi : Nat) (r : Interpolation) (rest : List (Nat × Interpolation)) (gs' : List Region) (b c : ℝ),
        seekRegion v gs = .ok gs' ∧ Tiles x y ((hi, r) :: rest) lo gs' ∧
        (((hi, r) :: rest).getLast?).map Prod.fst = some x.length ∧ bps[k]? = some (hi, r) ∧
        (k = 0 ∧ lo = low ∨ 0 < k ∧ ∃ p, bps[k - 1]? = some p ∧ p.1 ≤ lo + 1) ∧
        x[lo]? = some b ∧ x[hi - 1]? = some c ∧ b ≤ v ∧ v ≤ c ∧ (a < v → b < v) := by
  intro bps
  induction bps with
  | nil => intro low gs _ hlast; simp at hlast
  | cons p rest ih =>
    obtain ⟨hi, r⟩ := p
    intro low gs ht hlast a ha hav
    obtain ⟨nxt, gs', rfl, h1, h2, h3, h4⟩ := tiles_head ht
    obtain ⟨c, hc⟩ := getElem?_of_lt (l := x) (i := hi - 1) (by omega)
    have hback : back (points x low hi) = .ok c := by rw [back_eq_ok, points_last h1 h2, hc]
    by_cases hcv : c < v
    · have hrest : rest ≠ [] := by
        rintro rfl
        simp at hlast
        have : x.getLast? = some c := by rw [List.getLast?_eq_getElem?, ← hlast, hc]
        rw [hmx] at this; cases this; linarith
      have hlast' : (rest.getLast?).map Prod.fst = some x.length := by
        rwa [List.getLast?_cons_of_ne_nil hrest] at hlast
      have hnx : x[nxt]? = some c := by rw [next_value (by omega) h3, hc]
      obtain ⟨k, lo, hi', r', rest', gs'', b, c', e1, e2, e3, e4, e5, e6, e7, e8, e9, e10⟩ :=
        ih nxt gs' h4 hlast' c hnx hcv.le
      refine ⟨k + 1, lo, hi', r', rest', gs'', b, c', ?_, e2, e3, by simpa using e4, Or.inr ⟨by omega, ?_⟩, e6, e7, e8, e9,
        fun _ => e10 hcv⟩
      · simp only [seekRegion, hback, bind, Except.bind]
        rw [if_pos hcv]; exact e1
      · rcases e5 with ⟨rfl, rfl⟩ | ⟨hk, p, hp, hp2⟩
        · refine ⟨(hi, r), by simp, ?_⟩
          simp only
          rcases h3 with h | h <;> omega
        · refine ⟨p, ?_, hp2⟩
          rw [show k + 1 - 1 = (k - 1) + 1 by omega]
          simpa using hp
    · refine ⟨0, low, hi, r, rest, _, a, c, ?_, ht, hlast, by simp, Or.inl ⟨rfl, rfl⟩, ha, hc, hav, not_lt.mp hcv, fun h => h⟩
      simp only [seekRegion, hback, bind, Except.bind]
      rw [if_neg hcv]

theorem tiles_last {x y : List ℝ} : ∀ (bps : List (Nat × Interpolation)) (low : Nat) (gs : List Region), Tiles x y bps low gs →
    (bps.getLast?).map Prod.fst = some x.length →
    ∃ (lo hi : Nat) (r : Interpolation), gs.getLast? = some ⟨r, points x lo hi, points y lo hi⟩ ∧ lo < hi ∧ hi = x.length := by
  intro bps
  induction bps with
  | nil => intro low gs _ hlast; simp at hlast
  | cons p rest ih =>
    obtain ⟨hi, r⟩ := p
    intro low gs ht hlast
    obtain ⟨nxt, gs', rfl, h1, h2, h3, h4⟩ := tiles_head ht
    by_cases hrest : rest = []
    · subst hrest
      cases h4
      simp at hlast
      exact ⟨low, hi, r, rfl, h1, hlast⟩
    · rw [List.getLast?_cons_of_ne_nil hrest] at hlast
      obtain ⟨lo, hi', r', e1, e2, e3⟩ := ih nxt gs' h4 hlast
      refine ⟨lo, hi', r', ?_, e2, e3⟩
      have : gs' ≠ [] := by rintro rfl; simp at e1
      rw [List.getLast?_cons_of_ne_nil this, e1]

end PNDL

/-! ### Integration -/
namespace PNDL
open Spec MeasureTheory

/-- Every pair of consecutive points is admissible and integrable in closed form. -/
def IntRegion (g : Region) : Prop :=
  ∀ (i : Nat) (x1 x2 y1 y2 : ℝ), g.xs[i]? = some x1 → g.xs[i + 1]? = some x2 → g.ys[i]? = some y1 → g.ys[i + 1]? = some y2 →
    Admissible g.interp x1 y1 x2 y2 ∧ ExactIntegral g.interp x1 y1 x2 y2

theorem chain_lt {l : List ℝ} (h : ∀ (i : Nat) (a b : ℝ), l[i]? = some a → l[i + 1]? = some b → a < b) :
    l.Pairwise (· < ·) := by
  rw [← List.isChain_iff_pairwise, List.isChain_iff_getElem]
  intro i hi
  exact h i _ _ (by simp [show i < l.length by omega]) (by simp [show i + 1 < l.length by omega])

theorem region_strict {g : Region} (hl : g.xs.length = g.ys.length)
    (hg : ∀ (i : Nat) (x1 x2 y1 y2 : ℝ), g.xs[i]? = some x1 → g.xs[i + 1]? = some x2 → g.ys[i]? = some y1 →
      g.ys[i + 1]? = some y2 → Admissible g.interp x1 y1 x2 y2) : g.xs.Pairwise (· < ·) := by
  apply chain_lt
  intro i a b ha hb
  have := lt_length_of_some hb
  obtain ⟨y1, hy1⟩ := getElem?_of_lt (l := g.ys) (i := i) (by omega)
  obtain ⟨y2, hy2⟩ := getElem?_of_lt (l := g.ys) (i := i + 1) (by omega)
  exact (hg i a b y1 y2 ha hb hy1 hy2).lt

/-- Inside piece `i` the region evaluates to the law of piece `i`. -/
theorem eval_piece {g : Region} (hs : g.xs.Pairwise (· < ·)) (hl : g.xs.length = g.ys.length) {mn mx : ℝ}
    (h1 : g.xs[0]? = some mn) (h2 : g.xs.getLast? = some mx) {i : Nat} {x1 x2 y1 y2 t : ℝ}
    (hx1 : g.xs[i]? = some x1) (hx2 : g.xs[i + 1]? = some x2) (hy1 : g.ys[i]? = some y1) (hy2 : g.ys[i + 1]? = some y2)
    (ht1 : x1 < t) (ht2 : t < x2) : g.eval t = g.interp.interpolate t x1 y1 x2 y2 := by
  have hs' : g.xs.Pairwise (· ≤ ·) := hs.imp (fun h => h.le)
  have hmn : mn < t := lt_of_le_of_lt (pairwise_le_getElem? hs' (Nat.zero_le i) h1 hx1) ht1
  have hlast : g.xs[g.xs.length - 1]? = some mx := by rw [← List.getLast?_eq_getElem?]; exact h2
  have hmx : t < mx := lt_of_lt_of_le ht2
    (pairwise_le_getElem? hs' (by have := lt_length_of_some hx2; omega) hx2 hlast)
  obtain ⟨j, a1, a2, b1, b2, e1, e2, e3, e4, e5, e6, e7⟩ := Region.eval_mid hs' hl h1 h2 hmn hmx
  have hij : j = i := by
    rcases Nat.lt_trichotomy j i with h | h | h
    · have := pairwise_le_getElem? hs' (show j + 1 ≤ i by omega) e2 hx1; linarith
    · exact h
    · have := pairwise_le_getElem? hs' (show i + 1 ≤ j by omega) hx2 e1; linarith
  subst hij
  rw [e1] at hx1; rw [e2] at hx2; rw [e3] at hy1; rw [e4] at hy2
  cases hx1; cases hx2; cases hy1; cases hy2
  exact e7

theorem loop_integral {g : Region} (hl : g.xs.length = g.ys.length) (hg : IntRegion g) {mn mx : ℝ}
    (h1 : g.xs[0]? = some mn) (h2 : g.xs.getLast? = some mx) (G : ℝ → ℝ)
    (hG : ∀ t, mn < t → t < mx → g.eval t = .ok (G t)) {xhi : ℝ} (hxhi : xhi ≤ mx) :
    ∀ (fuel i : Nat) (xl acc x1 x2 : ℝ), g.xs.length ≤ fuel + i → g.xs[i]? = some x1 → g.xs[i + 1]? = some x2 →
      x1 ≤ xl → xl < x2 → xl < xhi →
      IntervalIntegrable G volume xl xhi ∧ g.loop xhi fuel i xl xhi acc = .ok (acc + ∫ t in xl..xhi, G t) := by
  have hs := region_strict hl (fun i x1 x2 y1 y2 a b c d => (hg i x1 x2 y1 y2 a b c d).1)
  have hs' : g.xs.Pairwise (· ≤ ·) := hs.imp (fun h => h.le)
  have hlast : g.xs[g.xs.length - 1]? = some mx := by rw [← List.getLast?_eq_getElem?]; exact h2
  intro fuel
  induction fuel with
  | zero =>
    intro i xl acc x1 x2 hf _ hx2
    have := lt_length_of_some hx2; omega
  | succ fuel ih =>
    intro i xl acc x1 x2 hf hx1 hx2 hlo hlt hxl
    have hlen := lt_length_of_some hx2
    obtain ⟨y1, hy1⟩ := getElem?_of_lt (l := g.ys) (i := i) (by omega)
    obtain ⟨y2, hy2⟩ := getElem?_of_lt (l := g.ys) (i := i + 1) (by omega)
    obtain ⟨hadm, hex⟩ := hg i x1 x2 y1 y2 hx1 hx2 hy1 hy2
    have hmn1 : mn ≤ x1 := pairwise_le_getElem? hs' (Nat.zero_le i) h1 hx1
    have hx2mx : x2 ≤ mx := pairwise_le_getElem? hs' (by omega) hx2 hlast
    -- one piece
    have piece : ∀ b, xl ≤ b → b ≤ x2 → IntervalIntegrable G volume xl b ∧
        g.interp.integrate xl b x1 y1 x2 y2 = .ok (∫ t in xl..b, G t) := by
      intro b hb1 hb2
      have hda : InDomainX g.interp xl x1 := fun hr => (hadm.logx hr).between hlo (by linarith)
      have hdb : InDomainX g.interp b x1 := fun hr => (hadm.logx hr).between (by linarith) hb2
      have heq : Set.EqOn (fun t => lawValue g.interp t x1 y1 x2 y2) G (Set.uIoo xl b) := by
        intro t ht
        rw [Set.uIoo_of_le hb1] at ht
        have ht1 : x1 < t := lt_of_le_of_lt hlo ht.1
        have ht2 : t < x2 := lt_of_lt_of_le ht.2 hb2
        have e := eval_piece hs hl h1 h2 hx1 hx2 hy1 hy2 ht1 ht2
        rw [hG t (by linarith) (by linarith), interpolate_eq hadm (fun hr => (hadm.logx hr).between ht1.le ht2.le)] at e
        exact (Except.ok.inj e).symm
      refine ⟨(lawValue_intervalIntegrable hadm hda hdb).congr_uIoo heq, ?_⟩
      rw [integrate_law hadm hda hdb hex, intervalIntegral.integral_congr_uIoo heq]
    rw [Region.loop, getAt_eq_ok.mpr hx1, getAt_eq_ok.mpr hx2, getAt_eq_ok.mpr hy1, getAt_eq_ok.mpr hy2]
    simp only [bind, Except.bind]
    rw [if_neg (not_lt.mpr hlo)]
    by_cases hc : xhi > x2
    · rw [if_pos hc]
      obtain ⟨p1, p2⟩ := piece x2 hlt.le le_rfl
      rw [p2]
      simp only
      rw [if_neg hc.ne]
      have hlen2 : i + 2 < g.xs.length := by
        rcases Nat.lt_or_ge (i + 2) g.xs.length with h | h
        · exact h
        · have : i + 1 = g.xs.length - 1 := by omega
          rw [this, hlast] at hx2; cases hx2; linarith
      obtain ⟨x3, hx3⟩ := getElem?_of_lt (l := g.xs) (i := i + 1 + 1) (by omega)
      have h23 : x2 < x3 := pairwise_lt_getElem? hs (by omega) hx2 hx3
      obtain ⟨q1, q2⟩ := ih (i + 1) x2 (acc + ∫ t in xl..x2, G t) x2 x3 (by omega) hx2 hx3 le_rfl h23 hc
      refine ⟨p1.trans q1, ?_⟩
      rw [q2, ← intervalIntegral.integral_add_adjacent_intervals p1 q1, add_assoc]
    · rw [if_neg hc]
      obtain ⟨p1, p2⟩ := piece xhi hxl.le (not_lt.mp hc)
      rw [p2]
      simp only [if_true]
      exact ⟨p1, trivial⟩

theorem clipLow_of_mem {v mn mx : ℝ} (h1 : mn ≤ v) (h2 : v ≤ mx) : clipLow v mn mx = v := by
  unfold clipLow; split_ifs <;> linarith
theorem clipHigh_of_mem {v mn mx : ℝ} (h1 : mn ≤ v) (h2 : v ≤ mx) : clipHigh v mn mx = v := by
  unfold clipHigh; split_ifs <;> linarith
theorem clipLow_eq {v mn mx : ℝ} (h : mn ≤ mx) : clipLow v mn mx = clip v mn mx := by
  unfold clipLow clip
  split_ifs with h1 h2
  · rw [min_eq_left (by linarith), max_eq_left h1]
  · rw [min_eq_right h2, max_eq_right h]
  · rw [min_eq_left (by linarith), max_eq_right (by linarith)]
theorem clipHigh_eq {v mn mx : ℝ} (h : mn ≤ mx) : clipHigh v mn mx = clip v mn mx := by
  unfold clipHigh clip
  split_ifs with h1 h2
  · rw [min_eq_right h1, max_eq_right h]
  · rw [min_eq_left (by linarith), max_eq_left h2]
  · rw [min_eq_left (by linarith), max_eq_right (by linarith)]

/-- Inside its range a region's `integrate` is the integral of its evaluation. -/
theorem region_integral {g : Region} (hl : g.xs.length = g.ys.length) (hg : IntRegion g) {mn mx : ℝ}
    (h1 : g.xs[0]? = some mn) (h2 : g.xs.getLast? = some mx) (G : ℝ → ℝ)
    (hG : ∀ t, mn < t → t < mx → g.eval t = .ok (G t)) {a b : ℝ} (ha : mn ≤ a) (hab : a ≤ b) (hb : b ≤ mx) :
    IntervalIntegrable G volume a b ∧ g.integrate a b = .ok (∫ t in a..b, G t) := by
  have hs := region_strict hl (fun i x1 x2 y1 y2 a b c d => (hg i x1 x2 y1 y2 a b c d).1)
  have hs' : g.xs.Pairwise (· ≤ ·) := hs.imp (fun h => h.le)
  have hlast : g.xs[g.xs.length - 1]? = some mx := by rw [← List.getLast?_eq_getElem?]; exact h2
  unfold Region.integrate
  simp only [front_eq_ok.mpr h1, back_eq_ok.mpr h2, bind, Except.bind]
  rw [if_neg (not_lt.mpr hab), if_neg (not_lt.mpr hab), clipLow_of_mem ha (by linarith), clipHigh_of_mem (by linarith) hb]
  by_cases hab' : a = b
  · subst hab'
    rw [if_pos rfl]
    exact ⟨IntervalIntegrable.refl, by simp⟩
  · rw [if_neg hab']
    have hlt : a < b := lt_of_le_of_ne hab hab'
    have hll : lowerBound g.xs a < g.xs.length := by
      have h3 := mt (lowerBound_iff hs' a hlast).mpr (not_lt.mpr (by linarith))
      have := lt_length_of_some hlast
      omega
    obtain ⟨v, hv⟩ := getElem?_of_lt (l := g.xs) (i := lowerBound g.xs a) hll
    have hva : a ≤ v := not_lt.mp (fun hc => by have := (lowerBound_iff hs' a hv).mp hc; omega)
    rw [getAt_eq_ok.mpr hv]
    simp only [gt_iff_lt]
    -- the starting index
    have start : ∃ (i : Nat) (x1 x2 : ℝ), (if a < v then subIdx (lowerBound g.xs a) 1 else Except.ok (lowerBound g.xs a)) = .ok i ∧
        g.xs[i]? = some x1 ∧ g.xs[i + 1]? = some x2 ∧ x1 ≤ a ∧ a < x2 := by
      by_cases hc : a < v
      · have hpos : 0 < lowerBound g.xs a := by
          rcases Nat.eq_zero_or_pos (lowerBound g.xs a) with h | h
          · rw [h, h1] at hv; cases hv; linarith
          · exact h
        obtain ⟨x1, hx1⟩ := getElem?_of_lt (l := g.xs) (i := lowerBound g.xs a - 1) (by omega)
        refine ⟨lowerBound g.xs a - 1, x1, v, by rw [if_pos hc, subIdx_of_le hpos], hx1, ?_, ?_, hc⟩
        · rw [Nat.sub_add_cancel hpos]; exact hv
        · exact ((lowerBound_iff hs' a hx1).mpr (by omega)).le
      · have hav : v = a := le_antisymm (not_lt.mp hc) hva
        have hlen2 : lowerBound g.xs a + 1 < g.xs.length := by
          rcases Nat.lt_or_ge (lowerBound g.xs a + 1) g.xs.length with h | h
          · exact h
          · have : lowerBound g.xs a = g.xs.length - 1 := by omega
            rw [this, hlast] at hv; cases hv; linarith
        obtain ⟨x2, hx2⟩ := getElem?_of_lt (l := g.xs) (i := lowerBound g.xs a + 1) hlen2
        refine ⟨_, v, x2, by rw [if_neg hc], hv, hx2, hav.le, ?_⟩
        rw [← hav]; exact pairwise_lt_getElem? hs (by omega) hv hx2
    obtain ⟨i, x1, x2, hi, hx1, hx2, hx1a, hax2⟩ := start
    rw [hi]
    simp only
    obtain ⟨p1, p2⟩ := loop_integral hl hg h1 h2 G hG hb g.xs.length i a 0 x1 x2 (by omega) hx1 hx2 hx1a hax2 hlt
    rw [p2]
    simp only [pure, Except.pure, zero_add]
    exact ⟨p1, by rw [if_neg (not_lt.mpr hab)]⟩

end PNDL

namespace PNDL
open Spec MeasureTheory

/-- What `Tab1D.eval` does strictly inside the table. -/
noncomputable def seekEval (t : ℝ) (gs : List Region) : Res ℝ := do
  let gs' ← seekRegion t gs
  let g ← front gs'
  g.eval t

theorem eval_inside {tb : Tab1D} {mn mx v : ℝ} (h1 : tb.x[0]? = some mn) (h2 : tb.x.getLast? = some mx) (hv : mn < v)
    (hv2 : v < mx) : tb.eval v = seekEval v tb.regions := by
  simp only [Tab1D.eval, front_eq_ok.mpr h1, back_eq_ok.mpr h2, bind, Except.bind, seekEval]
  rw [if_neg (not_le.mpr hv), if_neg (not_le.mpr hv2)]

theorem tabLoop_integral {x y : List ℝ} (hxy : x.length = y.length) (hsx : x.Pairwise (· ≤ ·)) {mx : ℝ}
    (hmx : x.getLast? = some mx) (G : ℝ → ℝ) {xhi : ℝ} (hxhi : xhi ≤ mx) :
    ∀ (bps : List (Nat × Interpolation)) (low : Nat) (gs : List Region), Tiles x y bps low gs →
      (bps.getLast?).map Prod.fst = some x.length → (∀ g ∈ gs, IntRegion g) →
      ∀ a, x[low]? = some a → (∀ t, a < t → t < mx → seekEval t gs = .ok (G t)) →
      ∀ xl acc, a ≤ xl → (∀ p, bps[0]? = some p → ∀ c, x[p.1 - 1]? = some c → xl ≤ c) → xl < xhi →
      IntervalIntegrable G volume xl xhi ∧ tabLoop xhi gs xl xhi acc = .ok (acc + ∫ t in xl..xhi, G t) := by
  intro bps
  induction bps with
  | nil => intro low gs _ hlast; simp at hlast
  | cons p rest ih =>
    obtain ⟨hi, r⟩ := p
    intro low gs ht hlast hgood a ha hG xl acc hxl hxc hlt
    obtain ⟨nxt, gs', rfl, h1, h2, h3, h4⟩ := tiles_head ht
    obtain ⟨c, hc⟩ := getElem?_of_lt (l := x) (i := hi - 1) (by omega)
    have hxlc : xl ≤ c := hxc (hi, r) (by simp) c hc
    have hback : (points x low hi).getLast? = some c := by rw [points_last h1 h2, hc]
    have hfront : (points x low hi)[0]? = some a := by rw [points_head h1, ha]
    have hlastx : x[x.length - 1]? = some mx := by rw [← List.getLast?_eq_getElem?]; exact hmx
    have hcmx : c ≤ mx := pairwise_le_getElem? hsx (by omega) hc hlastx
    have hGreg : ∀ t, a < t → t < c → (Region.mk r (points x low hi) (points y low hi)).eval t = .ok (G t) := by
      intro t ht1 ht2
      rw [← hG t ht1 (by linarith)]
      simp only [seekEval, seekRegion, back_eq_ok.mpr hback, bind, Except.bind]
      rw [if_neg (not_lt.mpr ht2.le)]
      rfl
    have hlen : (points x low hi).length = (points y low hi).length := by
      rw [points_length h2, points_length (by omega)]
    have hreg := fun b (h : xl ≤ b) (h' : b ≤ c) =>
      region_integral (g := ⟨r, points x low hi, points y low hi⟩) hlen (hgood _ (by simp)) hfront hback G hGreg hxl h h'
    rw [tabLoop]
    simp only [front_eq_ok.mpr hfront, back_eq_ok.mpr hback, bind, Except.bind]
    rw [if_neg (not_lt.mpr hxl)]
    by_cases hcx : xhi > c
    · rw [if_pos hcx]
      obtain ⟨p1, p2⟩ := hreg c hxlc le_rfl
      rw [p2]
      simp only
      rw [if_neg hcx.ne]
      have hrest : rest ≠ [] := by
        rintro rfl
        simp at hlast
        have : x.getLast? = some c := by rw [List.getLast?_eq_getElem?, ← hlast, hc]
        rw [hmx] at this; cases this; linarith
      have hlast' : (rest.getLast?).map Prod.fst = some x.length := by
        rwa [List.getLast?_cons_of_ne_nil hrest] at hlast
      have hnx : x[nxt]? = some c := by rw [next_value (by omega) h3, hc]
      obtain ⟨q1, q2⟩ := ih nxt gs' h4 hlast' (fun g hg => hgood g (by simp [hg])) c hnx (by
        intro t ht1 ht2
        rw [← hG t (by linarith) ht2]
        simp only [seekEval, seekRegion, back_eq_ok.mpr hback, bind, Except.bind]
        rw [if_pos ht1]) c (acc + ∫ t in xl..c, G t) le_rfl (by
        intro p hp c' hc'
        cases rest with
        | nil => exact absurd rfl hrest
        | cons q rest' =>
          obtain ⟨hi', r'⟩ := q
          obtain ⟨_, _, _, g1, g2, _, _⟩ := tiles_head h4
          simp at hp; subst hp
          exact pairwise_le_getElem? hsx (by simp only; omega) hnx hc') hcx
      refine ⟨p1.trans q1, ?_⟩
      rw [q2, ← intervalIntegral.integral_add_adjacent_intervals p1 q1, add_assoc]
    · rw [if_neg hcx]
      obtain ⟨p1, p2⟩ := hreg xhi hlt.le (not_lt.mp hcx)
      rw [p2]
      simp only [if_true]
      exact ⟨p1, trivial⟩

/-- `Tab1D.integrate` on an ordered pair of bounds inside the table. -/
theorem tab_integral_core {nbt : List Nat} {int : List Interpolation} {x y : List ℝ} {gs : List Region}
    (hxy : x.length = y.length) (hsx : x.Pairwise (· ≤ ·)) (ht : Tiles x y (nbt.zip int) 0 gs)
    (hlast : ((nbt.zip int).getLast?).map Prod.fst = some x.length) (hgood : ∀ g ∈ gs, IntRegion g) {mn mx : ℝ}
    (hmn : x[0]? = some mn) (hmx : x.getLast? = some mx) (G : ℝ → ℝ)
    (hG : ∀ t, mn < t → t < mx → (Tab1D.mk nbt int x y gs).eval t = .ok (G t)) {a b : ℝ} (ha : mn ≤ a) (hab : a < b)
    (hb : b ≤ mx) :
    IntervalIntegrable G volume a b ∧
      (do let gs' ← seekRegion a gs; tabLoop b gs' a b 0) = (.ok (∫ t in a..b, G t) : Res ℝ) := by
  obtain ⟨k, lo, hi, r, rest, gs', b', c, e1, e2, e3, e4, e5, e6, e7, e8, e9, e10⟩ :=
    seek_spec (x := x) (y := y) a hmx (by linarith) _ _ _ ht hlast mn hmn ha
  have hsub : ∀ (l : List Region), seekRegion a l = .ok gs' → (∀ g ∈ gs', g ∈ l) ∧
      ∀ t, a ≤ t → seekEval t l = seekEval t gs' := by
    intro l
    induction l with
    | nil => intro h; simp [seekRegion] at h
    | cons g l ih =>
      intro h
      simp only [seekRegion, bind, Except.bind] at h
      cases hbk : back g.xs with
      | error e => simp [hbk] at h
      | ok m =>
        simp only [hbk] at h
        by_cases hm : m < a
        · rw [if_pos hm] at h
          obtain ⟨i1, i2⟩ := ih h
          refine ⟨fun g' hg' => by simp [i1 g' hg'], ?_⟩
          intro t hta
          rw [← i2 t hta]
          simp only [seekEval, seekRegion, hbk, bind, Except.bind]
          rw [if_pos (by linarith)]
        · rw [if_neg hm] at h
          cases h
          exact ⟨fun _ h => h, fun _ _ => rfl⟩
  obtain ⟨s1, s2⟩ := hsub gs e1
  have hb'mn : mn ≤ b' := pairwise_le_getElem? hsx (Nat.zero_le _) hmn e6
  -- values of G on the regions found: correct for t ≥ a, redefine below a
  obtain ⟨G', hG'⟩ : ∃ G' : ℝ → ℝ, ∀ t, G' t = if a ≤ t then G t else (match seekEval t gs' with | .ok v => v | .error _ => 0) :=
    ⟨_, fun _ => rfl⟩
  have hlen : hi ≤ x.length ∧ lo < hi := by
    obtain ⟨_, _, _, q1, q2, _, _⟩ := tiles_head e2; exact ⟨q2, q1⟩
  have hGood' : ∀ t, b' < t → t < mx → seekEval t gs' = .ok (G' t) := by
    intro t h1 h2
    rw [hG' t]
    by_cases hat : a ≤ t
    · rw [if_pos hat, ← s2 t hat, ← hG t (by linarith) h2]
      exact (eval_inside (tb := ⟨nbt, int, x, y, gs⟩) hmn hmx (by linarith) h2).symm
    · rw [if_neg hat]
      -- `t` lies in the first region found, which is good, so the evaluation succeeds
      obtain ⟨nxt, gs'', rfl, q1, q2, q3, q4⟩ := tiles_head e2
      have hback : (points x lo hi).getLast? = some c := by rw [points_last q1 q2, e7]
      have hfront : (points x lo hi)[0]? = some b' := by rw [points_head q1, e6]
      have hlenp : (points x lo hi).length = (points y lo hi).length := by
        rw [points_length q2, points_length (by omega)]
      have hgr := hgood _ (s1 ⟨r, points x lo hi, points y lo hi⟩ (by simp))
      have hev : seekEval t (⟨r, points x lo hi, points y lo hi⟩ :: gs'')
          = (Region.mk r (points x lo hi) (points y lo hi)).eval t := by
        simp only [seekEval, seekRegion, back_eq_ok.mpr hback, bind, Except.bind]
        rw [if_neg (by linarith)]; rfl
      obtain ⟨i, x1, x2, y1, y2, f1, f2, f3, f4, f5, f6, f7⟩ :=
        Region.eval_mid (g := ⟨r, points x lo hi, points y lo hi⟩) (points_sorted hsx) hlenp hfront hback h1
          (by linarith)
      have hadm := (hgr i x1 x2 y1 y2 f1 f2 f3 f4).1
      rw [interpolate_eq hadm (fun hr => (hadm.logx hr).between f5.le f6)] at f7
      rw [hev, f7]
  obtain ⟨p1, p2⟩ := tabLoop_integral hxy hsx hmx G' hb _ _ _ e2 e3 (fun g hg => hgood g (s1 g hg)) b' e6 hGood' a 0 e8
    (by intro p hp c' hc'; simp at hp; subst hp; simp only at hc'; rw [e7] at hc'; cases hc'; exact e9) hab
  have heq : Set.EqOn G' G (Set.uIoo a b) := by
    intro t ht'
    rw [Set.uIoo_of_le hab.le] at ht'
    rw [hG' t, if_pos ht'.1.le]
  refine ⟨p1.congr_uIoo heq, ?_⟩
  simp only [e1, bind, Except.bind]
  rw [p2, zero_add, intervalIntegral.integral_congr_uIoo heq]

end PNDL
