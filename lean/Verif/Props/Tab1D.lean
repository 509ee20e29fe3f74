import Verif.Lemmas.Tab1D

/-! C18–C22: `Tabulated1D` construction, evaluation and integration. -/
namespace PNDL
open Spec MeasureTheory

/-! ## C18 — construction -/

/-- On valid breakpoints the constructor throws `PNDLException` or tiles the whole table; nothing else can happen (no
out-of-range access). -/
theorem C18_total (nbt : List Nat) (int : List Interpolation) (x y : List ℝ) (hv : ValidBreakpoints nbt x.length) :
    Tab1D.make nbt int x y = .error .exc ∨
      ∃ t, Tab1D.make nbt int x y = .ok t ∧ t.x = x ∧ t.y = y ∧ t.nbt = nbt ∧ t.int = int ∧
        Tiles x y (nbt.zip int) 0 t.regions := by
  rcases Tab1D.make_cases nbt int x y hv with h | ⟨gs, h, _, _, _, ht⟩
  · exact Or.inl h
  · exact Or.inr ⟨_, h, rfl, rfl, rfl, rfl, ht⟩

theorem make_ok {nbt : List Nat} {int : List Interpolation} {x y : List ℝ} {t : Tab1D} (hv : ValidBreakpoints nbt x.length)
    (h : Tab1D.make nbt int x y = .ok t) :
    ∃ gs, t = ⟨nbt, int, x, y, gs⟩ ∧ x.length = y.length ∧ x.Pairwise (· ≤ ·) ∧ Tiles x y (nbt.zip int) 0 gs ∧
      ((nbt.zip int).getLast?).map Prod.fst = some x.length ∧ nbt.length = int.length := by
  rcases Tab1D.make_cases nbt int x y hv with h' | ⟨gs, h', h1, h2, h3, ht⟩
  · rw [h] at h'; cases h'
  · rw [h] at h'; cases h'
    refine ⟨gs, rfl, h2, h3, ht, ?_, h1⟩
    rw [← List.getLast?_map, List.map_fst_zip (by omega)]
    exact hv.last

theorem seek_mem {v : ℝ} : ∀ {l gs' : List Region}, seekRegion v l = .ok gs' → ∀ g ∈ gs', g ∈ l := by
  intro l
  induction l with
  | nil => intro gs' h; simp [seekRegion] at h
  | cons g l ih =>
    intro gs' h
    simp only [seekRegion, bind, Except.bind] at h
    cases hbk : back g.xs with
    | error e => simp [hbk] at h
    | ok m =>
      simp only [hbk] at h
      by_cases hm : m < v
      · rw [if_pos hm] at h
        intro g' hg'; simp [ih h g' hg']
      · rw [if_neg hm] at h
        cases h; exact fun _ h => h

/-- No gap: every abscissa between the first and the last lies in some region. -/
theorem C18_no_gap (nbt : List Nat) (int : List Interpolation) (x y : List ℝ) (hv : ValidBreakpoints nbt x.length) (t : Tab1D)
    (h : Tab1D.make nbt int x y = .ok t) (v mn mx : ℝ) (hmn : x[0]? = some mn) (hmx : x.getLast? = some mx) (h1 : mn ≤ v)
    (h2 : v ≤ mx) : ∃ g ∈ t.regions, ∃ a b, g.xs[0]? = some a ∧ g.xs.getLast? = some b ∧ a ≤ v ∧ v ≤ b := by
  obtain ⟨gs, rfl, hxy, hs, ht, hlast, _⟩ := make_ok hv h
  obtain ⟨k, lo, hi, r, rest, gs', b, c, e1, e2, e3, e4, e5, e6, e7, e8, e9, e10⟩ :=
    seek_spec (y := y) v hmx h2 _ _ _ ht hlast mn hmn h1
  obtain ⟨nxt, gs'', rfl, q1, q2, q3, q4⟩ := tiles_head e2
  exact ⟨⟨r, points x lo hi, points y lo hi⟩, seek_mem e1 _ (by simp), b, c, by rw [points_head q1, e6], by rw [points_last q1 q2, e7], e8, e9⟩

theorem signChange_pos {l : List ℝ} (hne : l ≠ []) (h : ∀ a ∈ l, 0 < a) : Interpolation.hasSignChange l = .ok false := by
  cases l with
  | nil => exact absurd rfl hne
  | cons a l =>
    simp only [Interpolation.hasSignChange, front, getAt, List.getElem?_cons_zero, bind, Except.bind, pure, Except.pure]
    congr 1
    rw [List.any_eq_false]
    intro b hb
    have hb' := h b hb
    have ha := h a (by simp)
    simp [not_lt.mpr hb'.le, not_lt.mpr ha.le]

theorem noAdj_of_lt : ∀ {l : List ℝ}, l.Pairwise (· < ·) → Interpolation.hasAdjacentEqual l = false := by
  intro l
  induction l with
  | nil => intro _; rfl
  | cons a l ih =>
    intro h
    cases l with
    | nil => rfl
    | cons b l =>
      rw [List.pairwise_cons] at h
      simp only [Interpolation.hasAdjacentEqual, Bool.or_eq_false_iff, decide_eq_false_iff_not]
      exact ⟨(h.1 b (by simp)).ne, ih h.2⟩

/-- The constructor does succeed on every table with strictly increasing positive abscissae, positive ordinates, valid
breakpoints and one law per breakpoint — whatever the laws. -/
theorem C18_succeeds (nbt : List Nat) (int : List Interpolation) (x y : List ℝ) (hv : ValidBreakpoints nbt x.length)
    (hni : nbt.length = int.length) (hxy : x.length = y.length) (hx : x.Pairwise (· < ·)) (hx0 : ∀ a ∈ x, 0 < a)
    (hy0 : ∀ a ∈ y, 0 < a) : ∃ t, Tab1D.make nbt int x y = .ok t := by
  have hsub : ∀ {l : List ℝ} (lo hi : Nat), (points l lo hi).Sublist l := fun lo hi =>
    (List.drop_sublist _ _).trans (List.take_sublist _ _)
  have hxs : x.Pairwise (· ≤ ·) := hx.imp (fun h => h.le)
  have hreg : ∀ r lo hi, lo < hi → hi ≤ x.length → ∃ g, Region.make r (points x lo hi) (points y lo hi) = .ok g := by
    intro r lo hi h1 h2
    have hlx := points_length (l := x) (lo := lo) h2
    have hly := points_length (l := y) (lo := lo) (hi := hi) (by omega)
    have hnx : points x lo hi ≠ [] := by intro hc; rw [hc] at hlx; simp at hlx; omega
    have hny : points y lo hi ≠ [] := by intro hc; rw [hc] at hly; simp at hly; omega
    have hsx := signChange_pos hnx (fun a ha => hx0 a ((hsub lo hi).subset ha))
    have hsy := signChange_pos hny (fun a ha => hy0 a ((hsub lo hi).subset ha))
    have hadj := noAdj_of_lt (hx.sublist (hsub lo hi))
    have hsort : isSorted (points x lo hi) = true := isSorted_iff.mpr (points_sorted hxs)
    unfold Region.make
    rw [if_neg (by omega), if_neg (by omega), if_neg (by simp [hsort])]
    refine ⟨⟨r, points x lo hi, points y lo hi⟩, ?_⟩
    cases r <;> simp [Interpolation.verifyX, Interpolation.verifyY, hsx, hsy, hadj, hsort, bind, Except.bind,
      pure, Except.pure]
  have hbuild : ∀ (bps : List (Nat × Interpolation)) (low : Nat), (bps.map Prod.fst).Pairwise (· < ·) →
      (∀ b ∈ bps.map Prod.fst, low < b ∧ b ≤ x.length) → ∃ gs, buildRegions x y bps low = .ok gs := by
    intro bps
    induction bps with
    | nil => intro low _ _; exact ⟨[], rfl⟩
    | cons p rest ih =>
      obtain ⟨hi, r⟩ := p
      intro low hinc hin
      rw [List.map_cons, List.pairwise_cons] at hinc
      obtain ⟨hinc1, hinc2⟩ := hinc
      have hlo := hin hi (by simp)
      obtain ⟨g, hg⟩ := hreg r low hi hlo.1 hlo.2
      obtain ⟨nxt, hn1, hn2⟩ := nextLow_ok (x := x) (hi := hi) (by omega) hlo.2
      obtain ⟨gs, hgs⟩ := ih nxt hinc2 (by
        intro b hb
        have h1 := hinc1 b hb
        have h2 := hin b (by simp at hb ⊢; exact Or.inr hb)
        exact ⟨by rcases hn2 with h | h <;> omega, h2.2⟩)
      exact ⟨g :: gs, by rw [buildRegions, slice_ok (by omega) (by omega), slice_ok (by omega) (by omega)]
                         simp only [hg, hn1, hgs, bind, Except.bind, pure, Except.pure]⟩
  have hmap : (nbt.zip int).map Prod.fst = nbt := List.map_fst_zip (by omega)
  have hle : ∀ b ∈ nbt, b ≤ x.length := by
    intro b hb
    obtain ⟨i, hi⟩ := List.mem_iff_getElem?.mp hb
    have hl := hv.last
    rw [List.getLast?_eq_getElem?] at hl
    have hlt := lt_length_of_some hi
    rcases Nat.lt_or_ge i (nbt.length - 1) with h | h
    · exact (pairwise_lt_getElem? hv.incr h hi hl).le
    · have : i = nbt.length - 1 := by omega
      subst this; rw [hi] at hl; cases hl; exact le_refl _
  obtain ⟨gs, hgs⟩ := hbuild (nbt.zip int) 0 (by rw [hmap]; exact hv.incr)
    (by rw [hmap]; intro b hb; have := hv.pos b hb; exact ⟨by omega, hle b hb⟩)
  refine ⟨⟨nbt, int, x, y, gs⟩, ?_⟩
  unfold Tab1D.make
  rw [if_neg (by omega), if_neg (by omega), if_neg (by simp [isSorted_iff.mpr hxs])]
  simp [hgs, bind, Except.bind, pure, Except.pure]

/-- A two-region table meeting the hypotheses. -/
example : ValidBreakpoints [2, 4] ([1, 2, 3, 5] : List ℝ).length ∧ ([1, 2, 3, 5] : List ℝ).Pairwise (· < ·) := by
  refine ⟨⟨by decide, by decide, by decide⟩, ?_⟩
  simp only [List.pairwise_cons, List.mem_cons, List.not_mem_nil, or_false]
  refine ⟨?_, ?_, ?_, ?_, List.Pairwise.nil⟩
  · rintro a (rfl | rfl | rfl) <;> norm_num
  · rintro a (rfl | rfl) <;> norm_num
  · rintro a rfl; norm_num
  · intro a h; exact absurd h (by simp)

/-- For other breakpoints the constructor is not memory safe: a breakpoint past the end, … -/
theorem C18_unsafe_past_end (r : Interpolation) (a b : ℝ) (hab : a ≤ b) (y0 y1 : ℝ) :
    Tab1D.make [5] [r] [a, b] [y0, y1] = .error .ub := by
  have hs : isSorted [a, b] = true := isSorted_iff.mpr (by simp [hab])
  simp [Tab1D.make, buildRegions, slice, hs, bind, Except.bind]

/-- … or breakpoints that do not reach the end: the table is accepted, and evaluating it between the last breakpoint and
the end of the grid runs past the last region. -/
theorem C18_unsafe_short : ∃ t, Tab1D.make [2] [.linLin] [0, 1, 2] [0, 1, 2] = .ok t ∧ t.eval (3 / 2) = .error .ub := by
  have hs : isSorted ([0, 1, 2] : List ℝ) = true :=
    isSorted_iff.mpr (by norm_num)
  have hs2 : isSorted ([0, 1] : List ℝ) = true := isSorted_iff.mpr (by norm_num)
  refine ⟨⟨[2], [.linLin], [0, 1, 2], [0, 1, 2], [⟨.linLin, [0, 1], [0, 1]⟩]⟩, ?_, ?_⟩
  · simp [Tab1D.make, buildRegions, slice, hs, hs2, Region.make, Interpolation.verifyX, Interpolation.verifyY, nextLow,
      subIdx, getAt, bind, Except.bind, pure, Except.pure]
  · simp only [Tab1D.eval, front, back, getAt, seekRegion, bind, Except.bind, List.getLast?, List.getLast, List.getElem?_cons_zero]
    norm_num

/-! ## C19 — evaluation -/

section
variable (nbt : List Nat) (int : List Interpolation) (x y : List ℝ) (hv : ValidBreakpoints nbt x.length) (t : Tab1D)
  (h : Tab1D.make nbt int x y = .ok t)
include hv h

/-- At or below the first abscissa: the first ordinate. -/
theorem C19_below (v mn y0 : ℝ) (hmn : x[0]? = some mn) (hy0 : y[0]? = some y0) (hvm : v ≤ mn) : t.eval v = .ok y0 := by
  obtain ⟨gs, rfl, hxy, hs, ht, hlast, _⟩ := make_ok hv h
  cases hb : nbt.zip int with
  | nil => rw [hb] at hlast; simp at hlast
  | cons p rest =>
    obtain ⟨hi, r⟩ := p
    rw [hb] at ht
    obtain ⟨nxt, gs', rfl, q1, q2, q3, q4⟩ := tiles_head ht
    simp only [Tab1D.eval, front_eq_ok.mpr hmn, bind, Except.bind]
    rw [if_pos hvm]
    exact Region.eval_low (g := ⟨r, points x 0 hi, points y 0 hi⟩) (by rw [points_head q1]; exact hmn)
      (by rw [points_head q1]; exact hy0) hvm

/-- At or above the last abscissa: the last ordinate (provided the last two abscissae differ). -/
theorem C19_above (v mx y1 : ℝ) (hmx : x.getLast? = some mx) (hy1 : y.getLast? = some y1) (hvm : mx ≤ v)
    (hd : ∀ a b : ℝ, 2 ≤ x.length → x[x.length - 2]? = some a → x[x.length - 1]? = some b → a < b) :
    t.eval v = .ok y1 := by
  obtain ⟨gs, rfl, hxy, hs, ht, hlast, _⟩ := make_ok hv h
  have hlx : x[x.length - 1]? = some mx := by rw [← List.getLast?_eq_getElem?]; exact hmx
  have hly : y[y.length - 1]? = some y1 := by rw [← List.getLast?_eq_getElem?]; exact hy1
  have hpos := lt_length_of_some hlx
  obtain ⟨mn, hmn⟩ := getElem?_of_lt (l := x) (i := 0) (by omega)
  by_cases hvn : v ≤ mn
  · have hle : mn ≤ mx := pairwise_le_getElem? hs (Nat.zero_le _) hmn hlx
    have hlen : x.length = 1 := by
      by_contra hc
      obtain ⟨a, ha⟩ := getElem?_of_lt (l := x) (i := x.length - 2) (by omega)
      have := hd a mx (by omega) ha hlx
      have := pairwise_le_getElem? hs (Nat.zero_le _) hmn ha
      linarith
    rw [show y.length - 1 = 0 by omega] at hly
    exact C19_below nbt int x y hv _ h v mn y1 hmn hly hvn
  · obtain ⟨lo, hi, r, e1, e2, e3⟩ := tiles_last _ _ _ ht hlast
    subst e3
    simp only [Tab1D.eval, front_eq_ok.mpr hmn, back_eq_ok.mpr hmx, back_eq_ok.mpr e1, bind, Except.bind]
    rw [if_neg hvn, if_pos hvm]
    obtain ⟨b, hb⟩ := getElem?_of_lt (l := x) (i := lo) (by omega)
    have hys : (points y lo x.length).getLast? = some y1 := by
      rw [points_last e2 (by omega), hxy, hly]
    by_cases hvb : v ≤ b
    · -- only possible when the last region is the single last point
      have hlo : lo = x.length - 1 := by
        by_contra hc
        obtain ⟨a, ha⟩ := getElem?_of_lt (l := x) (i := x.length - 2) (by omega)
        have h1 := hd a mx (by omega) ha hlx
        have h2 := pairwise_le_getElem? hs (show lo ≤ x.length - 2 by omega) hb ha
        linarith
      refine Region.eval_low (g := ⟨r, points x lo x.length, points y lo x.length⟩) (mn := b)
        (by rw [points_head e2]; exact hb) ?_ hvb
      rw [points_head e2, hlo, hxy]; exact hly
    · exact Region.eval_high (g := ⟨r, points x lo x.length, points y lo x.length⟩) (mn := b) (mx := mx)
        (by rw [points_head e2]; exact hb) (by rw [points_last e2 le_rfl]; exact hlx) hys (not_le.mp hvb) hvm

/-- Strictly inside: there is a pair of consecutive points `i`, `i+1` with `x_i < v ≤ x_{i+1}` lying in segment `k` of the
ENDF record (between breakpoint `k-1` and breakpoint `k`), and the result is the law of segment `k` applied to these two
points — or, when `v` is the last abscissa of the segment, the ordinate tabulated there. -/
theorem C19_inside (v mn mx : ℝ) (hmn : x[0]? = some mn) (hmx : x.getLast? = some mx) (h1 : mn < v) (h2 : v < mx) :
    ∃ (k i e : Nat) (r : Interpolation) (x1 x2 y1 y2 : ℝ),
      int[k]? = some r ∧ nbt[k]? = some e ∧ i + 1 < e ∧ (∀ b, 0 < k → nbt[k - 1]? = some b → b ≤ i + 1) ∧
      x[i]? = some x1 ∧ x[i + 1]? = some x2 ∧ y[i]? = some y1 ∧ y[i + 1]? = some y2 ∧ x1 < v ∧ v ≤ x2 ∧
      (t.eval v = r.interpolate v x1 y1 x2 y2 ∨
        ∃ yl, x[e - 1]? = some v ∧ y[e - 1]? = some yl ∧ t.eval v = .ok yl) := by
  obtain ⟨gs, rfl, hxy, hs, ht, hlast, hni⟩ := make_ok hv h
  obtain ⟨k, lo, hi, r, rest, gs', b, c, e1, e2, e3, e4, e5, e6, e7, e8, e9, e10⟩ :=
    seek_spec (y := y) v hmx h2.le _ _ _ ht hlast mn hmn h1.le
  obtain ⟨nxt, gs'', rfl, q1, q2, q3, q4⟩ := tiles_head e2
  have hbv : b < v := e10 h1
  have hnk : nbt[k]? = some hi ∧ int[k]? = some r := by
    rw [List.getElem?_zip_eq_some] at e4; exact e4
  have hback : (points x lo hi).getLast? = some c := by rw [points_last q1 q2, e7]
  have hfront : (points x lo hi)[0]? = some b := by rw [points_head q1, e6]
  have hlen : (points x lo hi).length = (points y lo hi).length := by
    rw [points_length q2, points_length (by omega)]
  have hev : (Tab1D.mk nbt int x y gs).eval v = (Region.mk r (points x lo hi) (points y lo hi)).eval v := by
    rw [eval_inside (tb := ⟨nbt, int, x, y, gs⟩) hmn hmx h1 h2]
    simp only [seekEval, e1, bind, Except.bind]
    rfl
  obtain ⟨j, x1, x2, hj, f1, f2, f3, f4⟩ := bracket_index (points_sorted hs) hfront hback hbv e9
  have hjl := lt_length_of_some f2
  rw [points_length q2] at hjl
  rw [points_get (by omega)] at f1 f2
  obtain ⟨y1, hy1⟩ := getElem?_of_lt (l := y) (i := lo + j) (by omega)
  obtain ⟨y2, hy2⟩ := getElem?_of_lt (l := y) (i := lo + (j + 1)) (by omega)
  refine ⟨k, lo + j, hi, r, x1, x2, y1, y2, hnk.2, hnk.1, by omega, ?_, f1, f2, hy1, hy2, f3, f4, ?_⟩
  · intro b' hk hb'
    rcases e5 with ⟨h0, _⟩ | ⟨_, p, hp, hp2⟩
    · omega
    · have : nbt[k - 1]? = some p.1 := ((List.getElem?_zip_eq_some (z := p)).mp hp).1
      rw [this] at hb'; cases hb'; omega
  · rcases lt_or_eq_of_le e9 with hvc | hvc
    · left
      obtain ⟨j', a1, a2, b1, b2, g1, g2, g3, g4, g5, g6, g7⟩ :=
        Region.eval_mid (g := ⟨r, points x lo hi, points y lo hi⟩) (points_sorted hs) hlen hfront hback hbv hvc
      have hjl' := lt_length_of_some g2
      simp only at hjl' g1 g2 g3 g4
      rw [points_length q2] at hjl'
      have hjj : j' = j := by
        have A := lowerBound_iff (points_sorted (lo := lo) (hi := hi) hs) v g1
        have B := lowerBound_iff (points_sorted (lo := lo) (hi := hi) hs) v g2
        have A' := A.mp g5
        have B' := mt B.mpr (not_lt.mpr g6)
        omega
      subst hjj
      rw [points_get (by omega)] at g1 g2 g3 g4
      rw [f1] at g1; rw [f2] at g2; rw [hy1] at g3; rw [hy2] at g4
      cases g1; cases g2; cases g3; cases g4
      rw [hev, g7]
    · right
      obtain ⟨yl, hyl⟩ := getElem?_of_lt (l := y) (i := hi - 1) (by omega)
      refine ⟨yl, by rw [hvc]; exact e7, hyl, ?_⟩
      rw [hev]
      exact Region.eval_high (g := ⟨r, points x lo hi, points y lo hi⟩) hfront hback
        (by rw [points_last q1 (by omega)]; exact hyl) hbv hvc.ge

/-- On data meeting the laws' requirements evaluation always succeeds (no division by zero, no logarithm of a non-positive
number), for every argument. -/
theorem C19_total (hgood : ∀ g ∈ t.regions, GoodRegion g) (v : ℝ) : ∃ r, t.eval v = .ok r := by
  obtain ⟨gs, rfl, hxy, hs, ht, hlast, hni⟩ := make_ok hv h
  have hne : x ≠ [] := by
    rintro rfl
    have hv1 := hv.pos 0 (List.mem_of_getLast? hv.last)
    omega
  obtain ⟨mx, hmx⟩ : ∃ mx, x.getLast? = some mx := ⟨_, List.getLast?_eq_some_getLast hne⟩
  have hlx : x[x.length - 1]? = some mx := by rw [← List.getLast?_eq_getElem?]; exact hmx
  have hpos := lt_length_of_some hlx
  obtain ⟨mn, hmn⟩ := getElem?_of_lt (l := x) (i := 0) (by omega)
  obtain ⟨y0, hy0⟩ := getElem?_of_lt (l := y) (i := 0) (by omega)
  by_cases h1 : v ≤ mn
  · exact ⟨y0, C19_below nbt int x y hv _ h v mn y0 hmn hy0 h1⟩
  · have hreg : ∀ g ∈ gs, g.xs.Pairwise (· ≤ ·) → g.xs.length = g.ys.length → g.xs ≠ [] → ∃ r, g.eval v = .ok r := by
      intro g hg hsg hlg hng
      have hp : 0 < g.xs.length := List.length_pos_of_ne_nil hng
      obtain ⟨a, ha⟩ := getElem?_of_lt (l := g.xs) (i := 0) hp
      obtain ⟨b, hb⟩ : ∃ b, g.xs.getLast? = some b := ⟨_, List.getLast?_eq_some_getLast hng⟩
      by_cases hva : v ≤ a
      · obtain ⟨ya, hya⟩ := getElem?_of_lt (l := g.ys) (i := 0) (by omega)
        exact ⟨ya, Region.eval_low ha hya hva⟩
      · by_cases hvb : b ≤ v
        · have hny : g.ys ≠ [] := List.ne_nil_of_length_pos (by omega)
          exact ⟨_, Region.eval_high ha hb (List.getLast?_eq_some_getLast hny) (not_le.mp hva) hvb⟩
        · obtain ⟨i, x1, x2, y1, y2, g1, g2, g3, g4, g5, g6, g7⟩ :=
            Region.eval_mid hsg hlg ha hb (not_le.mp hva) (not_le.mp hvb)
          have hadm := hgood g hg i x1 x2 y1 y2 g1 g2 g3 g4
          rw [interpolate_eq hadm (fun hr => (hadm.logx hr).between g5.le g6)] at g7
          exact ⟨_, g7⟩
    by_cases h2 : mx ≤ v
    · obtain ⟨lo, hi, r, e1, e2, e3⟩ := tiles_last _ _ _ ht hlast
      subst e3
      simp only [Tab1D.eval, front_eq_ok.mpr hmn, back_eq_ok.mpr hmx, back_eq_ok.mpr e1, bind, Except.bind]
      rw [if_neg h1, if_pos h2]
      refine hreg _ (List.mem_of_getLast? e1) (points_sorted hs) ?_ ?_
      · rw [points_length le_rfl, points_length (by omega)]
      · intro hc; simp only at hc; have := points_length (l := x) (lo := lo) le_rfl; rw [hc] at this; simp at this; omega
    · obtain ⟨k, lo, hi, r, rest, gs', b, c, e1, e2, e3, e4, e5, e6, e7, e8, e9, e10⟩ :=
        seek_spec (y := y) v hmx (not_le.mp h2).le _ _ _ ht hlast mn hmn (not_le.mp h1).le
      obtain ⟨nxt, gs'', rfl, q1, q2, q3, q4⟩ := tiles_head e2
      rw [eval_inside (tb := ⟨nbt, int, x, y, gs⟩) hmn hmx (not_le.mp h1) (not_le.mp h2)]
      simp only [seekEval, e1, bind, Except.bind]
      refine hreg ⟨r, points x lo hi, points y lo hi⟩ (seek_mem e1 _ (by simp)) (points_sorted hs) ?_ ?_
      · rw [points_length q2, points_length (by omega)]
      · intro hc; simp only at hc; have := points_length (l := x) (lo := lo) q2; rw [hc] at this; simp at this; omega

end

/-- A log-x law over a grid starting at 0 is accepted by the constructor (no sign change) although it has no value there. -/
theorem C19_zero_abscissa : ∃ t, Tab1D.make [2] [.linLog] [0, 1] [1, 2] = .ok t ∧ t.eval (1 / 2) = .error .nonfinite := by
  have hs2 : isSorted ([0, 1] : List ℝ) = true := isSorted_iff.mpr (by norm_num)
  refine ⟨⟨[2], [.linLog], [0, 1], [1, 2], [⟨.linLog, [0, 1], [1, 2]⟩]⟩, ?_, ?_⟩
  · simp [Tab1D.make, buildRegions, slice, hs2, Region.make, Interpolation.verifyX, Interpolation.verifyY, nextLow,
      subIdx, Interpolation.hasSignChange, front, getAt, bind, Except.bind, pure, Except.pure]
    norm_num
  · have hlb : lowerBound ([0, 1] : List ℝ) (1 / 2) = 1 := by
      apply lowerBound_unique (by norm_num) _ (by simp)
      intro i a hi
      match i, hi with
      | 0, hi => simp at hi; subst hi; norm_num
      | 1, hi => simp at hi; subst hi; norm_num
      | (i + 2), hi => simp at hi
    simp only [Tab1D.eval, front, back, getAt, seekRegion, bind, Except.bind, List.getLast?, List.getLast,
      List.getElem?_cons_zero, Region.eval, hlb, subIdx, Interpolation.interpolate, List.getElem?_cons_succ]
    norm_num
    simp only [one_div] at hlb
    simp [hlb, rdiv_zero]

/-! ## C20 — tabulated values are reproduced -/

theorem single_valid (n : Nat) (hn : 1 ≤ n) : ValidBreakpoints [n] n :=
  ⟨by simp, by simpa using hn, by simp⟩

/-- A single-region table with strictly increasing abscissae whose law (not Histogram) is admissible on every interval returns
`y_i` at `x_i`. -/
theorem C20_reproduces_partial (r : Interpolation) (hr : r ≠ .histogram) (x y : List ℝ) (t : Tab1D)
    (h : Tab1D.make [x.length] [r] x y = .ok t) (hgood : ∀ g ∈ t.regions, GoodRegion g)
    (i : Nat) (xi yi : ℝ) (hx : x[i]? = some xi) (hy : y[i]? = some yi) : t.eval xi = .ok yi := by
  have hpos := lt_length_of_some hx
  have hv := single_valid x.length (by omega)
  obtain ⟨gs, rfl, hxy, hs, ht, hlast, hni⟩ := make_ok hv h
  obtain ⟨nxt, gs', rfl, q1, q2, q3, q4⟩ := tiles_head ht
  simp only [List.mem_cons, forall_eq_or_imp] at hgood
  have hp : ∀ l : List ℝ, l.length = x.length → points l 0 x.length = l := by
    intro l hl; rw [← hl]; simp [points]
  have hg := hgood.1
  rw [hp x rfl, hp y hxy.symm] at hg
  have hlt : x.Pairwise (· < ·) := region_strict (g := ⟨r, x, y⟩) hxy hg
  obtain ⟨mx, hmx⟩ : ∃ mx, x.getLast? = some mx := ⟨_, List.getLast?_eq_some_getLast (List.ne_nil_of_length_pos (by omega))⟩
  have hlx : x[x.length - 1]? = some mx := by rw [← List.getLast?_eq_getElem?]; exact hmx
  obtain ⟨mn, hmn⟩ := getElem?_of_lt (l := x) (i := 0) (by omega)
  rcases Nat.eq_zero_or_pos i with hi0 | hi0
  · subst hi0
    rw [hmn] at hx; cases hx
    exact C19_below _ _ x y hv _ h xi xi yi hmn hy le_rfl
  · rcases Nat.lt_or_ge i (x.length - 1) with hi1 | hi1
    · have h1 : mn < xi := pairwise_lt_getElem? hlt hi0 hmn hx
      have h2 : xi < mx := pairwise_lt_getElem? hlt hi1 hx hlx
      obtain ⟨k, j, e, r', x1, x2, y1, y2, f1, f2, f3, f4, f5, f6, f7, f8, f9, f10, f11⟩ :=
        C19_inside _ _ x y hv _ h xi mn mx hmn hmx h1 h2
      have hk : k = 0 := by have := lt_length_of_some f1; simp at this; omega
      subst hk
      simp at f1 f2
      subst f1 f2
      have hij : j + 1 = i := by
        rcases Nat.lt_trichotomy (j + 1) i with hh | hh | hh
        · have := pairwise_lt_getElem? hlt hh f6 hx; linarith
        · exact hh
        · have := pairwise_le_getElem? hs (show i ≤ j by omega) hx f5; linarith
      subst hij
      rw [f6] at hx; cases hx
      rw [f8] at hy; cases hy
      rcases f11 with f11 | ⟨yl, g1, _, _⟩
      · have hadm := hg j x1 xi y1 yi f5 f6 f7 f8
        rw [f11, interpolate_eq hadm (fun hr => (hadm.logx hr).symm), lawValue_right hadm hr]
      · have := pairwise_lt_getElem? hlt (show j + 1 < x.length - 1 by omega) f6 g1; linarith
    · have hil : i = x.length - 1 := by omega
      subst hil
      rw [hlx] at hx; cases hx
      refine C19_above _ _ x y hv _ h xi xi yi hmx ?_ le_rfl ?_
      · rw [List.getLast?_eq_getElem?, ← hxy]; exact hy
      · intro a b h2 ha hb; exact pairwise_lt_getElem? hlt (by omega) ha hb

example : ∀ g ∈ [Region.mk .linLin [1, 2, 4] [3, 1, 5]], GoodRegion g := by
  intro g hg
  simp at hg; subst hg
  intro i x1 x2 y1 y2 h1 h2 _ _
  refine ⟨?_, by simp, by simp⟩
  match i, h1, h2 with
  | 0, h1, h2 => simp at h1 h2; subst h1 h2; norm_num
  | 1, h1, h2 => simp at h1 h2; subst h1 h2; norm_num
  | (i + 2), h1, h2 => simp at h2

/-- The full claim is false of the code for Histogram: at every interior grid point the value of the interval to the *left*
is returned. -/
theorem C20_violation_histogram (x y : List ℝ) (t : Tab1D) (h : Tab1D.make [x.length] [.histogram] x y = .ok t)
    (hx : x.Pairwise (· < ·)) (i : Nat) (xi yi : ℝ) (hi : i + 2 < x.length) (hxi : x[i + 1]? = some xi)
    (hyi : y[i]? = some yi) : t.eval xi = .ok yi := by
  have hv := single_valid x.length (by omega)
  obtain ⟨gs, rfl, hxy, hs, ht, hlast, hni⟩ := make_ok hv h
  obtain ⟨mx, hmx⟩ : ∃ mx, x.getLast? = some mx := ⟨_, List.getLast?_eq_some_getLast (List.ne_nil_of_length_pos (by omega))⟩
  have hlx : x[x.length - 1]? = some mx := by rw [← List.getLast?_eq_getElem?]; exact hmx
  obtain ⟨mn, hmn⟩ := getElem?_of_lt (l := x) (i := 0) (by omega)
  have h1 : mn < xi := pairwise_lt_getElem? hx (by omega) hmn hxi
  have h2 : xi < mx := pairwise_lt_getElem? hx (by omega) hxi hlx
  obtain ⟨k, j, e, r', x1, x2, y1, y2, f1, f2, f3, f4, f5, f6, f7, f8, f9, f10, f11⟩ :=
    C19_inside _ _ x y hv _ h xi mn mx hmn hmx h1 h2
  have hk : k = 0 := by have := lt_length_of_some f1; simp at this; omega
  subst hk
  simp at f1 f2
  subst f1 f2
  have hij : j = i := by
    rcases Nat.lt_trichotomy j i with hh | hh | hh
    · have := pairwise_lt_getElem? hx (show j + 1 < i + 1 by omega) f6 hxi; linarith
    · exact hh
    · have := pairwise_le_getElem? hs (show i + 1 ≤ j by omega) hxi f5; linarith
  subst hij
  rw [f7] at hyi; cases hyi
  rcases f11 with f11 | ⟨yl, g1, _, _⟩
  · rw [f11]; rfl
  · have := pairwise_lt_getElem? hx (show j + 1 < x.length - 1 by omega) hxi g1; linarith

/-- Such tables exist. -/
theorem C20_violation_witness : ∃ t, Tab1D.make [3] [.histogram] [1, 2, 3] [10, 20, 30] = .ok t ∧ t.eval 2 = .ok 10 := by
  have hx : ([1, 2, 3] : List ℝ).Pairwise (· < ·) := by norm_num
  obtain ⟨t, ht⟩ := C18_succeeds [3] [.histogram] [1, 2, 3] [10, 20, 30] (single_valid 3 (by norm_num)) rfl rfl hx
    (by intro a ha; simp at ha; rcases ha with rfl | rfl | rfl <;> norm_num)
    (by intro a ha; simp at ha; rcases ha with rfl | rfl | rfl <;> norm_num)
  exact ⟨t, ht, C20_violation_histogram [1, 2, 3] [10, 20, 30] t ht hx 0 2 10 (by simp) (by simp) (by simp)⟩

/-! ## C21 — integration -/

/-- The hypotheses of C21: valid breakpoints, constructed table, every interval inside a region admissible with an exact
integral formula. -/
structure IntegrableTable (nbt : List Nat) (int : List Interpolation) (x y : List ℝ) (t : Tab1D) : Prop where
  valid : ValidBreakpoints nbt x.length
  made : Tab1D.make nbt int x y = .ok t
  good : ∀ g ∈ t.regions, GoodRegion g
  exactInt : ∀ g ∈ t.regions, ∀ (i : Nat) (x1 x2 y1 y2 : ℝ), g.xs[i]? = some x1 → g.xs[i + 1]? = some x2 →
    g.ys[i]? = some y1 → g.ys[i + 1]? = some y2 → ExactIntegral g.interp x1 y1 x2 y2

theorem integrableTable_core {nbt : List Nat} {int : List Interpolation} {x y : List ℝ} {t : Tab1D}
    (h : IntegrableTable nbt int x y t) {mn mx : ℝ} (hmn : x[0]? = some mn) (hmx : x.getLast? = some mx)
    (G : ℝ → ℝ) (hG : ∀ v, mn < v → v < mx → t.eval v = .ok (G v)) (a b : ℝ) :
    IntervalIntegrable G volume (clip a mn mx) (clip b mn mx) ∧
      t.integrate a b = .ok (∫ v in clip a mn mx..clip b mn mx, G v) := by
  obtain ⟨gs, rfl, hxy, hs, ht, hlast, hni⟩ := make_ok h.valid h.made
  have hlx : x[x.length - 1]? = some mx := by rw [← List.getLast?_eq_getElem?]; exact hmx
  have hle : mn ≤ mx := pairwise_le_getElem? hs (Nat.zero_le _) hmn hlx
  have hint : ∀ g ∈ gs, IntRegion g := fun g hg i x1 x2 y1 y2 a b c d =>
    ⟨h.good g hg i x1 x2 y1 y2 a b c d, h.exactInt g hg i x1 x2 y1 y2 a b c d⟩
  have hclip : ∀ v, mn ≤ clip v mn mx ∧ clip v mn mx ≤ mx := fun v =>
    ⟨le_max_left _ _, max_le hle (min_le_right _ _)⟩
  have hmono : ∀ {u v : ℝ}, u ≤ v → clip u mn mx ≤ clip v mn mx := fun huv =>
    max_le_max le_rfl (min_le_min huv le_rfl)
  -- ordered bounds
  have ordered : ∀ u v, u ≤ v → clip u mn mx ≠ clip v mn mx →
      IntervalIntegrable G volume (clip u mn mx) (clip v mn mx) ∧
      (do let gs' ← seekRegion (clip u mn mx) gs; tabLoop (clip v mn mx) gs' (clip u mn mx) (clip v mn mx) 0)
        = (.ok (∫ w in clip u mn mx..clip v mn mx, G w) : Res ℝ) := fun u v huv hne =>
    tab_integral_core hxy hs ht hlast hint hmn hmx G hG (hclip u).1 (lt_of_le_of_ne (hmono huv) hne) (hclip v).2
  unfold Tab1D.integrate
  simp only [front_eq_ok.mpr hmn, back_eq_ok.mpr hmx, bind, Except.bind, clipLow_eq hle, clipHigh_eq hle]
  by_cases hab : a > b
  · simp only [if_pos hab]
    by_cases heq : clip b mn mx = clip a mn mx
    · rw [if_pos heq, heq]; exact ⟨IntervalIntegrable.refl, by simp⟩
    · rw [if_neg heq]
      obtain ⟨p1, p2⟩ := ordered b a hab.le heq
      refine ⟨p1.symm, ?_⟩
      simp only [bind, Except.bind] at p2
      cases hsk : seekRegion (clip b mn mx) gs with
      | error e => rw [hsk] at p2; cases p2
      | ok gs' =>
        rw [hsk] at p2
        simp only at p2 ⊢
        rw [p2]
        simp only [pure, Except.pure]
        rw [intervalIntegral.integral_symm, neg_neg]
  · simp only [if_neg hab]
    by_cases heq : clip a mn mx = clip b mn mx
    · rw [if_pos heq, heq]; exact ⟨IntervalIntegrable.refl, by simp⟩
    · rw [if_neg heq]
      obtain ⟨p1, p2⟩ := ordered a b (not_lt.mp hab) heq
      refine ⟨p1, ?_⟩
      simp only [bind, Except.bind] at p2
      cases hsk : seekRegion (clip a mn mx) gs with
      | error e => rw [hsk] at p2; cases p2
      | ok gs' =>
        rw [hsk] at p2
        simp only at p2 ⊢
        rw [p2]
        rfl

/-- `integrate(a,b)` is the integral, over the part of `[a,b]` inside the table, of what `operator()` returns. -/
theorem C21_integrate (nbt : List Nat) (int : List Interpolation) (x y : List ℝ) (t : Tab1D)
    (h : IntegrableTable nbt int x y t) (mn mx : ℝ) (hmn : x[0]? = some mn) (hmx : x.getLast? = some mx)
    (G : ℝ → ℝ) (hG : ∀ v, t.eval v = .ok (G v)) (a b : ℝ) :
    t.integrate a b = .ok (∫ v in clip a mn mx..clip b mn mx, G v) :=
  (integrableTable_core h hmn hmx G (fun v _ _ => hG v) a b).2

/-- The function `G` of `C21_integrate` exists: such a table evaluates to a number everywhere. -/
theorem C21_total (nbt : List Nat) (int : List Interpolation) (x y : List ℝ) (t : Tab1D)
    (h : IntegrableTable nbt int x y t) : ∃ G : ℝ → ℝ, ∀ v, t.eval v = .ok (G v) :=
  ⟨fun v => (C19_total nbt int x y h.valid t h.made h.good v).choose,
   fun v => (C19_total nbt int x y h.valid t h.made h.good v).choose_spec⟩

theorem table_ends {nbt : List Nat} {x : List ℝ} (hv : ValidBreakpoints nbt x.length) :
    ∃ mn mx, x[0]? = some mn ∧ x.getLast? = some mx := by
  have h1 := hv.pos _ (List.mem_of_getLast? hv.last)
  obtain ⟨mn, hmn⟩ := getElem?_of_lt (l := x) (i := 0) (by omega)
  exact ⟨mn, _, hmn, List.getLast?_eq_some_getLast (List.ne_nil_of_length_pos (by omega))⟩

/-- Exchanging the bounds negates the result. -/
theorem C21_antisymm (nbt : List Nat) (int : List Interpolation) (x y : List ℝ) (t : Tab1D)
    (h : IntegrableTable nbt int x y t) (a b : ℝ) :
    ∃ s, t.integrate a b = .ok s ∧ t.integrate b a = .ok (-s) := by
  obtain ⟨G, hG⟩ := C21_total nbt int x y t h
  obtain ⟨mn, mx, hmn, hmx⟩ := table_ends h.valid
  refine ⟨_, C21_integrate nbt int x y t h mn mx hmn hmx G hG a b, ?_⟩
  rw [C21_integrate nbt int x y t h mn mx hmn hmx G hG b a, intervalIntegral.integral_symm]

/-- Integrals over adjacent intervals add up. -/
theorem C21_additive (nbt : List Nat) (int : List Interpolation) (x y : List ℝ) (t : Tab1D)
    (h : IntegrableTable nbt int x y t) (a b c : ℝ) :
    ∃ s u, t.integrate a b = .ok s ∧ t.integrate b c = .ok u ∧ t.integrate a c = .ok (s + u) := by
  obtain ⟨G, hG⟩ := C21_total nbt int x y t h
  obtain ⟨mn, mx, hmn, hmx⟩ := table_ends h.valid
  obtain ⟨i1, e1⟩ := integrableTable_core h hmn hmx G (fun v _ _ => hG v) a b
  obtain ⟨i2, e2⟩ := integrableTable_core h hmn hmx G (fun v _ _ => hG v) b c
  obtain ⟨i3, e3⟩ := integrableTable_core h hmn hmx G (fun v _ _ => hG v) a c
  exact ⟨_, _, e1, e2, by rw [e3, intervalIntegral.integral_add_adjacent_intervals i1 i2]⟩

/-- A two-region table (Histogram, then LinLin after a jump at `x = 2`) meets the hypotheses. -/
theorem C21_example : ∃ t, IntegrableTable [2, 4] [.histogram, .linLin] [1, 2, 2, 3] [5, 5, 1, 4] t := by
  have hv : ValidBreakpoints [2, 4] ([1, 2, 2, 3] : List ℝ).length := ⟨by decide, by decide, by decide⟩
  have hs : isSorted ([1, 2, 2, 3] : List ℝ) = true := isSorted_iff.mpr (by norm_num)
  have hs2 : isSorted ([1, 2] : List ℝ) = true := isSorted_iff.mpr (by norm_num)
  have hs3 : isSorted ([2, 3] : List ℝ) = true := isSorted_iff.mpr (by norm_num)
  refine ⟨⟨[2, 4], [.histogram, .linLin], [1, 2, 2, 3], [5, 5, 1, 4],
    [⟨.histogram, [1, 2], [5, 5]⟩, ⟨.linLin, [2, 3], [1, 4]⟩]⟩, hv, ?_, ?_, ?_⟩
  · simp [Tab1D.make, buildRegions, slice, hs, hs2, hs3, Region.make, Interpolation.verifyX, Interpolation.verifyY, nextLow,
      subIdx, getAt, bind, Except.bind, pure, Except.pure, Interpolation.hasAdjacentEqual]
  · intro g hg
    simp at hg
    rcases hg with rfl | rfl <;> intro i x1 x2 y1 y2 h1 h2 _ _ <;> refine ⟨?_, by simp, by simp⟩
    · match i, h1, h2 with
      | 0, h1, h2 => simp at h1 h2; subst h1 h2; norm_num
      | (i + 1), h1, h2 => simp at h2
    · match i, h1, h2 with
      | 0, h1, h2 => simp at h1 h2; subst h1 h2; norm_num
      | (i + 1), h1, h2 => simp at h2
  · intro g hg
    simp at hg
    rcases hg with rfl | rfl <;> intro i x1 x2 y1 y2 h1 h2 _ _ <;> exact ⟨by simp, by simp⟩

/-! ## C22 — discontinuities -/

/-- Proved part: a repeated abscissa at a region boundary (the ENDF way to encode a jump) is handled: `C21_integrate` applies
and the integral is finite.  (`C21_example` is such a table.)  Missing for the full claim: a repeated abscissa *inside* a
region, for which it is false, see `C22_violation`. -/
theorem C22_boundary_jump_partial (nbt : List Nat) (int : List Interpolation) (x y : List ℝ) (t : Tab1D)
    (h : IntegrableTable nbt int x y t) (a b : ℝ) : ∃ s, t.integrate a b = .ok s := by
  obtain ⟨s, hs, _⟩ := C21_antisymm nbt int x y t h a b
  exact ⟨s, hs⟩

/-- The full claim is false of the code.  Whatever the ordinates, integrating a lin-lin region across a repeated interior
abscissa computes 0/0, although the table is accepted and evaluates everywhere. -/
theorem C22_violation (y0 y1 y2 y3 : ℝ) :
    ∃ t, Tab1D.make [4] [.linLin] [0, 1, 1, 2] [y0, y1, y2, y3] = .ok t ∧ t.integrate 0 2 = .error .nonfinite := by
  have hs : isSorted ([0, 1, 1, 2] : List ℝ) = true := isSorted_iff.mpr (by norm_num)
  refine ⟨⟨[4], [.linLin], [0, 1, 1, 2], [y0, y1, y2, y3], [⟨.linLin, [0, 1, 1, 2], [y0, y1, y2, y3]⟩]⟩, ?_, ?_⟩
  · simp [Tab1D.make, buildRegions, slice, hs, Region.make, Interpolation.verifyX, Interpolation.verifyY, nextLow,
      subIdx, bind, Except.bind, pure, Except.pure]
  · have hlb : lowerBound ([0, 1, 1, 2] : List ℝ) 0 = 0 := by
      apply lowerBound_unique (by norm_num) _ (by simp)
      intro i a hi
      match i, hi with
      | 0, hi => simp at hi; subst hi; norm_num
      | 1, hi => simp at hi; subst hi; norm_num
      | 2, hi => simp at hi; subst hi; norm_num
      | 3, hi => simp at hi; subst hi; norm_num
      | (i + 4), hi => simp at hi
    have h0 : Region.integrate ⟨.linLin, [0, 1, 1, 2], [y0, y1, y2, y3]⟩ 0 2 = .error .nonfinite := by
      norm_num [Region.integrate, front, back, getAt, clipLow, clipHigh, hlb, Region.loop, Interpolation.integrate, bind, Except.bind,
        pure, Except.pure, rdiv]
    norm_num [Tab1D.integrate, front, back, getAt, clipLow, clipHigh, seekRegion, tabLoop, bind, Except.bind, h0]

end PNDL
