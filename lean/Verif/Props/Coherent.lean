import Verif.Model.Thermal
import Verif.Props.Bracket
import Verif.Props.Angle
import Verif.Props.Tab1D
import Verif.Lemmas.STNeutron

/-! C65: coherent elastic scattering.  C66: incoherent elastic scattering. -/
namespace PNDL
open Spec

/-- Whatever the predicate, a binary search stays in its range. -/
theorem bisect_le {α : Type} (p : α → Bool) (l : List α) : ∀ fuel first len, bisect p l fuel first len ≤ first + len := by
  intro fuel
  induction fuel with
  | zero => intro first len; simp [bisect]
  | succ n ih =>
    intro first len
    unfold bisect
    split
    · omega
    · split
      · omega
      · split
        · have := ih (first + len / 2 + 1) (len - len / 2 - 1)
          omega
        · have := ih first (len / 2)
          omega

theorem slice_length {xss s : List ℝ} {i n : Nat} (h : xssSlice xss i n = .ok s) : s.length = n := by
  unfold xssSlice at h
  split at h
  · rename_i hle
    cases h
    simp; omega
  · cases h

theorem slice_get {xss s : List ℝ} {i n : Nat} (h : xssSlice xss i n = .ok s) (j : Nat) (hj : j < n) : s[j]? = xss[i + j]? := by
  unfold xssSlice at h
  split at h
  · cases h
    rw [List.getElem?_take_of_lt hj, List.getElem?_drop]
  · cases h

/-- Coherent elastic data as read from a file with elastic mode 4: as many structure factors as edges, edges sorted and not
negative. -/
structure Spec.ValidCoh (c : CohElastic) : Prop where
  len : c.sf.length = c.edges.length
  ne : c.edges ≠ []
  sorted : c.edges.Pairwise (· ≤ ·)
  nonneg : ∀ e ∈ c.edges, 0 ≤ e

/-- C65: what is read: the edges and factors of the file, in file order.  Files of another elastic mode give an empty object. -/
theorem C65_read (a : TslAce) (c : CohElastic) (h : CohElastic.makeAce a = .ok c) :
    (a.nxs 4 = 4 → ValidCoh c ∧ ∃ (i : Nat) (x : ℝ), a.jxs 3 = (i : Int) + 1 ∧ a.xss[i]? = some x ∧
      c.edges.length = ⌊x⌋.toNat ∧ (∀ j < c.edges.length, c.edges[j]? = a.xss[i + 1 + j]? ∧
      c.sf[j]? = a.xss[i + 1 + c.edges.length + j]?)) ∧
    (a.nxs 4 ≠ 4 → c = ⟨[], []⟩) := by
  unfold CohElastic.makeAce at h
  by_cases h4 : a.nxs 4 = 4
  · refine ⟨fun _ => ?_, fun hc => absurd h4 hc⟩
    rw [if_pos h4] at h
    obtain ⟨i, hi, h⟩ := bind_ok h
    obtain ⟨ne, hne, h⟩ := bind_ok h
    obtain ⟨es, hes, h⟩ := bind_ok h
    obtain ⟨ss, hss, h⟩ := bind_ok h
    split at h
    · cases h
    rename_i hs
    obtain ⟨e0, he0, h⟩ := bind_ok h
    split at h
    · cases h
    rename_i h0
    cases h
    have hs' : es.Pairwise (· ≤ ·) := isSorted_iff.mp (by simpa using hs)
    have l1 := slice_length hes
    have l2 := slice_length hss
    have hf := front_eq_ok.mp he0
    unfold natAt at hne
    obtain ⟨x, hx, hne⟩ := bind_ok hne
    cases hne
    unfold locator at hi
    split at hi
    · rename_i hj
      cases hi
      refine ⟨⟨by simp only; omega, ?_, hs', ?_⟩, (a.jxs 3 - 1).toNat, x, by omega, getAt_eq_ok.mp hx, l1, ?_⟩
      · intro hc; simp only at hc; rw [hc] at hf; simp at hf
      · intro e he
        obtain ⟨j, hj⟩ := List.mem_iff_getElem?.mp he
        have := pairwise_le_getElem? hs' (Nat.zero_le _) hf hj
        linarith
      · intro j hj
        simp only at hj ⊢
        rw [l1] at hj ⊢
        exact ⟨slice_get hes j hj, slice_get hss j hj⟩
    · cases hi
  · refine ⟨fun hc => absurd hc h4, fun _ => ?_⟩
    rw [if_neg h4] at h
    cases h; rfl

theorem coh_ends {c : CohElastic} (hv : ValidCoh c) : ∃ first last sl, c.edges[0]? = some first ∧ c.edges.getLast? = some last ∧
    c.sf.getLast? = some sl := by
  have hpos : 0 < c.edges.length := List.length_pos_iff.mpr hv.ne
  obtain ⟨first, h0⟩ := getElem?_of_lt (l := c.edges) (i := 0) hpos
  obtain ⟨last, h1⟩ := last_exists (l := c.edges) hpos
  obtain ⟨sl, h2⟩ := last_exists (l := c.sf) (by rw [hv.len]; exact hpos)
  exact ⟨first, last, sl, h0, h1, h2⟩

/-- C65: below the first Bragg edge the cross section is zero. -/
theorem C65_xs_below (c : CohElastic) (hv : ValidCoh c) (first E : ℝ) (h0 : c.edges[0]? = some first) (hE : E < first) :
    c.xs E = .ok 0 := by
  obtain ⟨_, last, sl, _, h1, h2⟩ := coh_ends hv
  have hpos : c.edges.length ≠ 0 := by have := List.length_pos_iff.mpr hv.ne; omega
  unfold CohElastic.xs
  rw [if_neg hpos]
  simp only [bind, Except.bind, front_eq_ok.mpr h0, back_eq_ok.mpr h1]
  rw [if_neg (by intro h; linarith [h.1]), if_pos hE]; rfl

/-- C65: strictly between two edges, and at the upper one unless it is the last, the cross section is `S_i / E`. -/
theorem C65_xs_between (c : CohElastic) (hv : ValidCoh c) (i : Nat) (e0 e1 s E : ℝ) (h0 : c.edges[i]? = some e0)
    (h1 : c.edges[i + 1]? = some e1) (hs : c.sf[i]? = some s) (b0 : e0 < E)
    (b1 : E < e1 ∨ (E = e1 ∧ ∃ last, c.edges.getLast? = some last ∧ e1 < last)) : c.xs E = .ok (s / E) := by
  obtain ⟨first, last, sl, g0, g1, g2⟩ := coh_ends hv
  have hpos : c.edges.length ≠ 0 := by have := List.length_pos_iff.mpr hv.ne; omega
  have hlast : c.edges[c.edges.length - 1]? = some last := by rw [← List.getLast?_eq_getElem?]; exact g1
  have hi := lt_length_of_some h1
  have hle := pairwise_le_getElem? hv.sorted (Nat.zero_le _) g0 h0
  have hle' := pairwise_le_getElem? hv.sorted (show i + 1 ≤ c.edges.length - 1 by omega) h1 hlast
  have hEl : E < last := by
    rcases b1 with h | ⟨h, l', hl', h'⟩
    · linarith
    · rw [g1] at hl'; cases hl'; linarith
  have hE1 : E ≤ e1 := by rcases b1 with h | h; exacts [h.le, h.1.le]
  have hlb : lowerBound c.edges E = i + 1 := by
    have q1 := (lowerBound_iff hv.sorted E h0).mp b0
    have q2 := mt (lowerBound_iff hv.sorted E h1).mpr (not_lt.mpr hE1)
    omega
  have hEp : E ≠ 0 := by
    have := hv.nonneg e0 (List.mem_of_getElem? h0)
    intro h; linarith
  unfold CohElastic.xs
  rw [if_neg hpos]
  simp only [bind, Except.bind, front_eq_ok.mpr g0, back_eq_ok.mpr g1]
  rw [if_pos ⟨by linarith, hEl⟩, hlb, subIdx_of_le (by omega)]
  simp only [Nat.add_sub_cancel, getAt_eq_ok.mpr hs]
  exact rdiv_ok hEp

/-- C65: from the last edge on (when it is not also the first) the cross section is `S_last / E`. -/
theorem C65_xs_above (c : CohElastic) (hv : ValidCoh c) (first last s E : ℝ) (h0 : c.edges[0]? = some first)
    (h1 : c.edges.getLast? = some last) (hs : c.sf.getLast? = some s) (hE : last ≤ E) (hp : 0 < E) :
    c.xs E = .ok (s / E) := by
  have hpos : c.edges.length ≠ 0 := by have := List.length_pos_iff.mpr hv.ne; omega
  have hlast : c.edges[c.edges.length - 1]? = some last := by rw [← List.getLast?_eq_getElem?]; exact h1
  have hle := pairwise_le_getElem? hv.sorted (Nat.zero_le _) h0 hlast
  unfold CohElastic.xs
  rw [if_neg hpos]
  simp only [bind, Except.bind, front_eq_ok.mpr h0, back_eq_ok.mpr h1, back_eq_ok.mpr hs]
  rw [if_neg (by intro h; linarith [h.2]), if_neg (by linarith)]
  exact rdiv_ok hp.ne'

/-- The three cases together: at every positive energy other than the first edge the cross section is zero or the factor of
the highest edge reached over the energy.  Missing: the first edge itself, where the code uses the factor of the *last* edge, see
`C65_violation_first_edge`. -/
theorem C65_xs_partial (c : CohElastic) (hv : ValidCoh c) (first E : ℝ) (h0 : c.edges[0]? = some first) (hp : 0 < E)
    (hne : E ≠ first) : (E < first ∧ c.xs E = .ok 0) ∨
      ∃ (i : Nat) (e s : ℝ), c.edges[i]? = some e ∧ c.sf[i]? = some s ∧ e ≤ E ∧ c.xs E = .ok (s / E) ∧
        ∀ (j : Nat) (e' : ℝ), i < j → c.edges[j]? = some e' → E ≤ e' := by
  obtain ⟨_, last, sl, g0, g1, g2⟩ := coh_ends hv
  rw [h0] at g0; cases g0
  rcases lt_or_gt_of_ne hne with h | h
  · exact Or.inl ⟨h, C65_xs_below c hv first E h0 h⟩
  · right
    have hlen := hv.len
    have hposn := List.length_pos_iff.mpr hv.ne
    by_cases hl : last ≤ E
    · refine ⟨c.edges.length - 1, last, sl, ?_, ?_, hl, C65_xs_above c hv first last sl E h0 g1 g2 hl hp, ?_⟩
      · rw [← List.getLast?_eq_getElem?]; exact g1
      · rw [← hlen, ← List.getLast?_eq_getElem?]; exact g2
      · intro j e' hj he'
        have := lt_length_of_some he'
        omega
    · rw [not_le] at hl
      obtain ⟨i, x1, x2, e3, e1, e2, e4, e5⟩ := bracket_index hv.sorted h0 g1 h hl.le
      have hi := lt_length_of_some e2
      obtain ⟨s, hs⟩ := getElem?_of_lt (l := c.sf) (i := i) (by omega)
      refine ⟨i, x1, s, e1, hs, e4.le, C65_xs_between c hv i x1 x2 s E e1 e2 hs e4 ?_, ?_⟩
      · rcases e5.lt_or_eq with h' | h'
        · exact Or.inl h'
        · exact Or.inr ⟨h', last, g1, by rw [← h']; exact hl⟩
      · intro j e' hj he'
        exact e5.trans (pairwise_le_getElem? hv.sorted (show i + 1 ≤ j from hj) e2 he')

/-- The full claim is false of the code: exactly at the first Bragg edge the cross section uses the structure factor of the
last edge. -/
theorem C65_violation_first_edge (c : CohElastic) (hv : ValidCoh c) (first s : ℝ) (h0 : c.edges[0]? = some first)
    (hp : 0 < first) (hs : c.sf.getLast? = some s) : c.xs first = .ok (s / first) := by
  obtain ⟨_, last, sl, g0, g1, g2⟩ := coh_ends hv
  have hpos : c.edges.length ≠ 0 := by have := List.length_pos_iff.mpr hv.ne; omega
  unfold CohElastic.xs
  rw [if_neg hpos]
  simp only [bind, Except.bind, front_eq_ok.mpr h0, back_eq_ok.mpr g1, back_eq_ok.mpr hs]
  rw [if_neg (by intro h; linarith [h.1]), if_neg (lt_irrefl _)]
  exact rdiv_ok hp.ne'

/-- A concrete file: edges 1, 2, 3 with factors 1, 3, 7.  At energy 1 the cross section is 7, just above it is close to 1. -/
noncomputable def Spec.bragg : CohElastic := ⟨[1, 2, 3], [1, 3, 7]⟩

theorem bragg_valid : ValidCoh bragg := by
  refine ⟨rfl, by simp [bragg], by norm_num [bragg], ?_⟩
  intro e he
  simp only [bragg, List.mem_cons, List.not_mem_nil, or_false] at he
  rcases he with rfl | rfl | rfl <;> norm_num

/-- The file the example is read from. -/
theorem bragg_read : CohElastic.makeAce ⟨fun _ => 4, fun _ => 1, [3, 1, 2, 3, 1, 3, 7]⟩ = .ok bragg := by
  have hf : ⌊(3 : ℝ)⌋.toNat = 3 := by
    have : ⌊(3 : ℝ)⌋ = 3 := by norm_num
    rw [this]; rfl
  have ht : Int.toNat 3 = 3 := rfl
  norm_num [CohElastic.makeAce, locator, natAt, getAt, bind, Except.bind, pure, Except.pure, ht, xssSlice, isSorted, front, bragg]

theorem C65_violation_witness : bragg.xs 1 = .ok 7 ∧ bragg.xs (3 / 2) = .ok (2 / 3) := by
  refine ⟨?_, ?_⟩
  · rw [C65_violation_first_edge bragg bragg_valid 1 7 rfl one_pos rfl]; norm_num
  · rw [C65_xs_between bragg bragg_valid 0 1 2 1 (3 / 2) rfl rfl rfl (by norm_num) (Or.inl (by norm_num))]; norm_num

/-- C65: sampling above the first edge keeps the energy and gives a cosine in `[-1, 1]`, that of one of the edges below the
energy; no assumption on the structure factors is needed. -/
theorem C65_sample (c : CohElastic) (hv : ValidCoh c) (first E : ℝ) (h0 : c.edges[0]? = some first) (hE : first < E) (ω : Tape)
    (k : Nat) : ∃ (m : Nat) (e mu : ℝ), c.edges[m]? = some e ∧ e < E ∧ mu = 1 - 2 * e / E ∧ -1 < mu ∧ mu ≤ 1 ∧
      c.sample E ω k = .ok (mu, E, k + 1) := by
  obtain ⟨_, last, sl, g0, g1, g2⟩ := coh_ends hv
  have hpos : c.edges.length ≠ 0 := by have := List.length_pos_iff.mpr hv.ne; omega
  have hEp : 0 < E := lt_of_le_of_lt (hv.nonneg first (List.mem_of_getElem? h0)) hE
  have hl0 := (lowerBound_iff hv.sorted E h0).mp hE
  have hlb := lowerBound_le hv.sorted E
  have hlen := hv.len
  obtain ⟨l, hl⟩ : ∃ l, lowerBound c.edges E = l + 1 := ⟨lowerBound c.edges E - 1, by omega⟩
  obtain ⟨s, hs⟩ := getElem?_of_lt (l := c.sf) (i := l) (by omega)
  have hm : lowerBoundRange c.sf 0 l (ω k * s) ≤ l := by
    have := bisect_le (fun a => decide (a < ω k * s)) c.sf (l - 0) 0 (l - 0)
    unfold lowerBoundRange; omega
  obtain ⟨e, he⟩ := getElem?_of_lt (l := c.edges) (i := lowerBoundRange c.sf 0 l (ω k * s)) (by omega)
  have heE : e < E := (lowerBound_iff hv.sorted E he).mpr (by omega)
  have hen := hv.nonneg e (List.mem_of_getElem? he)
  refine ⟨_, e, 1 - 2 * e / E, he, heE, rfl, ?_, ?_, ?_⟩
  · have : 2 * e / E < 2 := by rw [div_lt_iff₀ hEp]; linarith
    linarith
  · have : 0 ≤ 2 * e / E := by positivity
    linarith
  · unfold CohElastic.sample
    rw [if_neg hpos]
    simp only [bind, Except.bind, front_eq_ok.mpr h0]
    rw [if_pos hE, hl, subIdx_of_le (by omega)]
    simp only [Nat.add_sub_cancel, getAt_eq_ok.mpr hs, getAt_eq_ok.mpr he, rdiv_ok hEp.ne']
    rfl

/-- C65: at or below the first edge the neutron goes straight on, and no random number is used. -/
theorem C65_sample_below (c : CohElastic) (hv : ValidCoh c) (first E : ℝ) (h0 : c.edges[0]? = some first) (hE : E ≤ first)
    (ω : Tape) (k : Nat) : c.sample E ω k = .ok (1, E, k) := by
  have hpos : c.edges.length ≠ 0 := by have := List.length_pos_iff.mpr hv.ne; omega
  unfold CohElastic.sample
  rw [if_neg hpos]
  simp only [bind, Except.bind, front_eq_ok.mpr h0]
  rw [if_neg (not_lt.mpr hE)]; rfl

/-- C65: the probability of each edge.  With non-decreasing factors, edge `m` (of those below `E`, the last of which is `l`) is the
one with `S_(m-1) < xi S_l ≤ S_m`, so that its probability is `(S_m - S_(m-1)) / S_l`. -/
theorem C65_edge_probability (c : CohElastic) (hv : ValidCoh c) (hsf : c.sf.Pairwise (· ≤ ·)) (l : Nat) (el E sl : ℝ)
    (hl : c.edges[l]? = some el) (hsl : c.sf[l]? = some sl) (b0 : el < E) (b1 : ∀ e, c.edges[l + 1]? = some e → E ≤ e)
    (ω : Tape) (k m : Nat) (hm : m ≤ l) (em sm : ℝ) (hem : c.edges[m]? = some em) (hsm : c.sf[m]? = some sm)
    (hlo : ∀ s, 0 < m → c.sf[m - 1]? = some s → s < ω k * sl) (hhi : ω k * sl ≤ sm) :
    c.sample E ω k = .ok (1 - 2 * em / E, E, k + 1) := by
  obtain ⟨first, last, s0, g0, g1, g2⟩ := coh_ends hv
  have hpos : c.edges.length ≠ 0 := by have := List.length_pos_iff.mpr hv.ne; omega
  have hfE : first < E := lt_of_le_of_lt (pairwise_le_getElem? hv.sorted (Nat.zero_le _) g0 hl) b0
  have hEp : 0 < E := lt_of_le_of_lt (hv.nonneg first (List.mem_of_getElem? g0)) hfE
  have hlen := hv.len
  have hll := lt_length_of_some hl
  have hlb : lowerBound c.edges E = l + 1 := by
    have q1 := (lowerBound_iff hv.sorted E hl).mp b0
    have q3 := lowerBound_le hv.sorted E
    by_cases h : l + 1 < c.edges.length
    · obtain ⟨e, he⟩ := getElem?_of_lt (l := c.edges) (i := l + 1) h
      have q2 := mt (lowerBound_iff hv.sorted E he).mpr (not_lt.mpr (b1 e he))
      omega
    · omega
  obtain ⟨r1, r2, r3⟩ := lowerBoundRange_spec hsf (lo := 0) (hi := l) (ω k * sl) (Nat.zero_le _) (by omega)
  have hidx : lowerBoundRange c.sf 0 l (ω k * sl) = m := by
    have up : lowerBoundRange c.sf 0 l (ω k * sl) ≤ m := by
      rcases hm.lt_or_eq with h | h
      · have := mt (r3 m sm hsm (Nat.zero_le _) h).mpr (not_lt.mpr hhi); omega
      · omega
    rcases Nat.eq_zero_or_pos m with h | h
    · omega
    · obtain ⟨s, hs⟩ := getElem?_of_lt (l := c.sf) (i := m - 1) (by omega)
      have := (r3 (m - 1) s hs (Nat.zero_le _) (by omega)).mp (hlo s h hs)
      omega
  unfold CohElastic.sample
  rw [if_neg hpos]
  simp only [bind, Except.bind, front_eq_ok.mpr g0]
  rw [if_pos hfE, hlb, subIdx_of_le (by omega)]
  simp only [Nat.add_sub_cancel, getAt_eq_ok.mpr hsl, hidx, getAt_eq_ok.mpr hem, rdiv_ok hEp.ne']
  rfl

/-- In the example, at energy 5/2, a random number between 1/3 and 1 chooses the second edge. -/
example (ω : Tape) (hω : UnitTape ω) (h : 1 / 3 < ω 0) : bragg.sample (5 / 2) ω 0 = .ok (1 - 2 * 2 / (5 / 2), 5 / 2, 1) := by
  refine C65_edge_probability bragg bragg_valid (by norm_num [bragg]) 1 2 (5 / 2) 3 rfl rfl (by norm_num) ?_ ω 0 1 le_rfl 2 3 rfl rfl ?_ ?_
  · intro e he; simp [bragg] at he; rw [← he]; norm_num
  · intro s _ hs; simp [bragg] at hs; rw [← hs]; linarith
  · have := (hω 0).2; linarith

/-! ## C66 -/

/-- Vectors of cosines: `n` of them, sorted, in `[-1, 1]`. -/
structure Spec.Cosines (n : Nat) (u : List ℝ) : Prop where
  len : u.length = n
  sorted : u.Pairwise (· ≤ ·)
  range : ∀ m ∈ u, -1 ≤ m ∧ m ≤ 1

theorem mixAt_ok {n : Nat} {u v : List ℝ} (hu : Cosines n u) (hv : Cosines n v) {f : ℝ} (f0 : 0 ≤ f) (f1 : f ≤ 1) {j : Nat}
    (hj : j < n) : ∃ a b, u[j]? = some a ∧ v[j]? = some b ∧ mixAt u v f j = .ok (a + f * (b - a)) ∧ -1 ≤ a + f * (b - a) ∧
      a + f * (b - a) ≤ 1 := by
  obtain ⟨a, ha⟩ := getElem?_of_lt (l := u) (i := j) (by rw [hu.len]; exact hj)
  obtain ⟨b, hb⟩ := getElem?_of_lt (l := v) (i := j) (by rw [hv.len]; exact hj)
  obtain ⟨a1, a2⟩ := hu.range a (List.mem_of_getElem? ha)
  obtain ⟨b1, b2⟩ := hv.range b (List.mem_of_getElem? hb)
  refine ⟨a, b, ha, hb, ?_, by nlinarith, by nlinarith⟩
  rw [mixAt, getAt_eq_ok.mpr ha, getAt_eq_ok.mpr hb]; rfl

/-- C66: the smearing itself.  With sorted cosines in `[-1, 1]`, an index below their number, an interpolation weight in `[0, 1]` and
a random number in `[0, 1]`, the smeared cosine exists, is in `[-1, 1]`, and stays within half the distance to both neighbours. -/
theorem C66_smear (u v : List ℝ) (f xi : ℝ) (n j : Nat) (hu : Cosines n u) (hv : Cosines n v) (f0 : 0 ≤ f) (f1 : f ≤ 1) (hj : j < n)
    (x0 : 0 ≤ xi) (x1 : xi ≤ 1) : ∃ m mu, mixAt u v f j = .ok m ∧ smear u v f n j xi = .ok mu ∧ -1 ≤ mu ∧ mu ≤ 1 ∧
      (∀ m', j ≠ 0 → mixAt u v f (j - 1) = .ok m' → |mu - m| ≤ (m - m') / 2) ∧
      (∀ m', j + 1 < n → mixAt u v f (j + 1) = .ok m' → |mu - m| ≤ (m' - m) / 2) := by
  obtain ⟨a, b, ha, hb, hm, m0, m1⟩ := mixAt_ok hu hv f0 f1 hj
  obtain ⟨m, em⟩ : ∃ m, m = a + f * (b - a) := ⟨_, rfl⟩
  rw [← em] at hm m0 m1
  have lo : ∃ lo, (if j ≠ 0 then mixAt u v f (j - 1) else .ok (-1 - (m + 1)) : Res ℝ) = .ok lo ∧ -1 ≤ m + (m - lo) * (-1 / 2) ∧ lo ≤ m := by
    by_cases h : j = 0
    · rw [if_neg (by simpa using h)]
      exact ⟨_, rfl, by linarith, by linarith⟩
    · rw [if_pos h]
      obtain ⟨a', b', ha', hb', hm', q0, q1⟩ := mixAt_ok hu hv f0 f1 (show j - 1 < n by omega)
      have s1 := pairwise_le_getElem? hu.sorted (show j - 1 ≤ j by omega) ha' ha
      have s2 := pairwise_le_getElem? hv.sorted (show j - 1 ≤ j by omega) hb' hb
      have hle : a' + f * (b' - a') ≤ m := by rw [em]; nlinarith
      exact ⟨_, hm', by linarith, hle⟩
  have hi : ∃ hi, (if j ≠ n - 1 then mixAt u v f (j + 1) else .ok (1 - (m - 1)) : Res ℝ) = .ok hi ∧ m + (hi - m) * (1 / 2) ≤ 1 ∧ m ≤ hi := by
    by_cases h : j = n - 1
    · rw [if_neg (by simpa using h)]
      exact ⟨_, rfl, by linarith, by linarith⟩
    · rw [if_pos h]
      obtain ⟨a', b', ha', hb', hm', q0, q1⟩ := mixAt_ok hu hv f0 f1 (show j + 1 < n by omega)
      have s1 := pairwise_le_getElem? hu.sorted (show j ≤ j + 1 by omega) ha ha'
      have s2 := pairwise_le_getElem? hv.sorted (show j ≤ j + 1 by omega) hb hb'
      have hle : m ≤ a' + f * (b' - a') := by rw [em]; nlinarith
      exact ⟨_, hm', by linarith, hle⟩
  obtain ⟨lo, hlo, l1, l2⟩ := lo
  obtain ⟨hi, hhi, h1, h2⟩ := hi
  obtain ⟨d, hd⟩ : ∃ d, d = min (m - lo) (hi - m) := ⟨_, rfl⟩
  have d0 : 0 ≤ d := by rw [hd]; exact le_min (by linarith) (by linarith)
  have d1 : d ≤ m - lo := by rw [hd]; exact min_le_left _ _
  have d2 : d ≤ hi - m := by rw [hd]; exact min_le_right _ _
  have habs : |m + d * (xi - 1 / 2) - m| ≤ d / 2 := by
    rw [abs_le]; constructor <;> nlinarith
  refine ⟨m, m + d * (xi - 1 / 2), hm, ?_, ?_, ?_, ?_, ?_⟩
  · unfold smear
    rw [hm]
    simp only [bind, Except.bind, hlo, hhi, ← hd]
    rfl
  · nlinarith
  · nlinarith
  · intro m' hj0 hm'
    rw [if_pos hj0, hm'] at hlo
    cases hlo
    linarith
  · intro m' hj1 hm'
    rw [if_pos (by omega), hm'] at hhi
    cases hhi
    linarith

/-- Incoherent elastic data as a file constructor leaves it: one vector of cosines for each of the sorted energies. -/
structure Spec.ValidInc (d : IncElastic) : Prop where
  sorted : d.energy.Pairwise (· ≤ ·)
  len : d.cosines.length = d.energy.length
  cosines : ∀ u ∈ d.cosines, Cosines d.nmu u
  pos : d.energy ≠ [] → 0 < d.nmu

theorem incCosines_ok {xss c : List ℝ} {nmu i : Nat} (h : incCosines xss nmu i = .ok c) : Cosines nmu c ∧ 0 < nmu := by
  unfold incCosines at h
  obtain ⟨c', hc', h⟩ := bind_ok h
  split at h
  · cases h
  rename_i hs
  obtain ⟨a, ha, h⟩ := bind_ok h
  split at h
  · cases h
  rename_i h0
  obtain ⟨b, hb, h⟩ := bind_ok h
  split at h
  · cases h
  rename_i h1
  have h := Except.ok.inj h
  subst h
  have hs' : c'.Pairwise (· ≤ ·) := isSorted_iff.mp (by simpa using hs)
  have hf := front_eq_ok.mp ha
  have hb' := back_eq_ok.mp hb
  have hlen := slice_length hc'
  have hlast : c'[c'.length - 1]? = some b := by rw [← List.getLast?_eq_getElem?]; exact hb'
  refine ⟨⟨hlen, hs', ?_⟩, ?_⟩
  · intro m hm
    obtain ⟨j, hj⟩ := List.mem_iff_getElem?.mp hm
    have q1 := pairwise_le_getElem? hs' (Nat.zero_le _) hf hj
    have q2 := pairwise_le_getElem? hs' (by have := lt_length_of_some hj; omega) hj hlast
    exact ⟨by linarith, by linarith⟩
  · have := lt_length_of_some hf; omega

theorem incCosinesAll_ok {xss : List ℝ} {nmu : Nat} : ∀ {n i : Nat} {cs : List (List ℝ)}, incCosinesAll xss nmu n i = .ok cs →
    cs.length = n ∧ (∀ u ∈ cs, Cosines nmu u) ∧ (0 < n → 0 < nmu) ∧
    ∀ (k : Nat), k < n → ∀ (j : Nat), j < nmu → (cs[k]?.bind (·[j]?)) = xss[i + k * nmu + j]? := by
  intro n
  induction n with
  | zero =>
    intro i cs h
    rw [incCosinesAll] at h
    cases h
    exact ⟨rfl, by simp, by simp, by intro k hk; omega⟩
  | succ n ih =>
    intro i cs h
    rw [incCosinesAll] at h
    obtain ⟨c, hc, h⟩ := bind_ok h
    obtain ⟨cs', hcs, h⟩ := bind_ok h
    cases h
    obtain ⟨q1, q2, q3, q4⟩ := ih hcs
    obtain ⟨p1, p2⟩ := incCosines_ok hc
    refine ⟨by simp [q1], ?_, fun _ => p2, ?_⟩
    · intro u hu
      rcases List.mem_cons.mp hu with rfl | hu
      · exact p1
      · exact q2 u hu
    · intro k hk j hj
      cases k with
      | zero =>
        unfold incCosines at hc
        obtain ⟨c', hc', h⟩ := bind_ok hc
        have : c = c' := by
          split at h
          · cases h
          obtain ⟨_, _, h⟩ := bind_ok h
          split at h
          · cases h
          obtain ⟨_, _, h⟩ := bind_ok h
          split at h
          · cases h
          cases h; rfl
        subst this
        simp only [List.getElem?_cons_zero, Option.bind_some, Nat.zero_mul, Nat.add_zero]
        exact slice_get hc' j hj
      | succ k =>
        simp only [List.getElem?_cons_succ]
        rw [q4 k (by omega) j hj, show i + nmu + k * nmu + j = i + (k + 1) * nmu + j by rw [Nat.succ_mul]; omega]

/-- C66: what the file constructor accepts is well-formed, and the cosines are those of the file in file order. -/
theorem C66_read (a : TslAce) (d : IncElastic) (h : IncElastic.makeAce a = .ok d) : ValidInc d ∧
    (¬ (a.nxs 4 = 4 ∨ a.jxs 3 = 0) → ∃ i j : Nat, a.jxs 3 = (i : Int) + 1 ∧ a.jxs 5 = (j : Int) + 1 ∧
      (∀ n < d.energy.length, d.energy[n]? = a.xss[i + 1 + n]?) ∧
      (∀ n < d.energy.length, ∀ m < d.nmu, (d.cosines[n]?.bind (·[m]?)) = a.xss[j + n * d.nmu + m]?)) := by
  unfold IncElastic.makeAce at h
  by_cases hc : a.nxs 4 = 4 ∨ a.jxs 3 = 0
  · rw [if_pos hc] at h
    obtain ⟨t, ht, h⟩ := bind_ok h
    cases h
    exact ⟨⟨List.Pairwise.nil, rfl, by simp, by simp⟩, fun hn => absurd hc hn⟩
  · rw [if_neg hc] at h
    obtain ⟨i, hi, h⟩ := bind_ok h
    obtain ⟨ne, hne, h⟩ := bind_ok h
    obtain ⟨es, hes, h⟩ := bind_ok h
    obtain ⟨xs, hxs, h⟩ := bind_ok h
    split at h
    · cases h
    obtain ⟨t, ht, h⟩ := bind_ok h
    obtain ⟨j, hj, h⟩ := bind_ok h
    obtain ⟨cs, hcs, h⟩ := bind_ok h
    cases h
    have hlen := slice_length hes
    obtain ⟨q1, q2, q3, q4⟩ := incCosinesAll_ok hcs
    have hsorted : es.Pairwise (· ≤ ·) := by
      unfold Tab1D.make1 at ht
      split at ht
      · cases ht
      split at ht
      · cases ht
      rename_i hs
      exact isSorted_iff.mp (by simpa using hs)
    have loc : ∀ {z : Int} {n : Nat}, locator z = .ok n → z = (n : Int) + 1 := by
      intro z n hz
      unfold locator at hz
      split at hz
      · cases hz; omega
      · cases hz
    refine ⟨⟨hsorted, by simp only; omega, q2, ?_⟩, fun _ => ⟨i, j, loc hi, loc hj, ?_, ?_⟩⟩
    · intro he
      apply q3
      have := List.length_pos_iff.mpr he
      simp only at this
      omega
    · intro n hn
      simp only at hn ⊢
      exact slice_get hes n (by omega)
    · intro n hn m hm
      simp only at hn hm ⊢
      exact q4 n (by omega) m hm

theorem floor_lt_of_unit {n : Nat} {x : ℝ} (hn : 0 < n) (h0 : 0 ≤ x) (h1 : x < 1) : ⌊(n : ℝ) * x⌋₊ < n := by
  have hp : (0 : ℝ) < n := by exact_mod_cast hn
  rw [Nat.floor_lt (by positivity)]
  nlinarith

/-- C66: sampling incoherent elastic scattering from a file with at least two energies always succeeds, keeps the energy and gives a
cosine in `[-1, 1]` without any clamp.  Missing: files with a single energy, see `C66_violation_single`. -/
theorem C66_sample_partial (d : IncElastic) (hv : ValidInc d) (hn : 2 ≤ d.energy.length) (E : ℝ) (ω : Tape) (hω : UnitTape ω) (k : Nat) :
    ∃ mu, d.sample E ω k = .ok (mu, E, k + 2) ∧ -1 ≤ mu ∧ mu ≤ 1 := by
  have hlen := hv.len
  have hpos := hv.pos (by intro h; rw [h] at hn; simp at hn)
  obtain ⟨first, h0⟩ := getElem?_of_lt (l := d.energy) (i := 0) (by omega)
  obtain ⟨last, h1⟩ := last_exists (l := d.energy) (by omega)
  obtain ⟨l, f, _, _, hb, hlt, _, _, f0, f1, _⟩ := C67_bracket d.energy E first last hv.sorted hn h0 h1
  obtain ⟨u, hu⟩ := getElem?_of_lt (l := d.cosines) (i := l) (by omega)
  obtain ⟨v, hv'⟩ := getElem?_of_lt (l := d.cosines) (i := l + 1) (by omega)
  obtain ⟨m, mu, _, hs, q1, q2, _⟩ := C66_smear u v f (ω (k + 1)) d.nmu ⌊(d.nmu : ℝ) * ω k⌋₊ (hv.cosines u (List.mem_of_getElem? hu))
    (hv.cosines v (List.mem_of_getElem? hv')) f0 f1 (floor_lt_of_unit hpos (hω k).1 (hω k).2) (hω (k + 1)).1 (hω (k + 1)).2.le
  refine ⟨mu, ?_, q1, q2⟩
  unfold IncElastic.sample
  rw [if_neg (by omega)]
  simp only [bind, Except.bind, hb, getAt_eq_ok.mpr hu, getAt_eq_ok.mpr hv', hs]
  rfl

/-- The full claim is false of the code: data with a single incoming energy, which the constructor accepts, reads past the end of the
vector of cosines. -/
theorem C66_violation_single (d : IncElastic) (hv : ValidInc d) (hn : d.energy.length = 1) (E : ℝ) (ω : Tape) (k : Nat) :
    d.sample E ω k = .error .ub := by
  have hlen := hv.len
  unfold IncElastic.sample
  rw [if_neg (by omega)]
  have hle := lowerBound_le hv.sorted E
  unfold bracketIn
  by_cases h : lowerBound d.energy E = 0
  · obtain ⟨u, hu⟩ := getElem?_of_lt (l := d.cosines) (i := 0) (by omega)
    rw [if_pos h]
    simp only [bind, Except.bind, getAt_eq_ok.mpr hu]
    rw [getAt_of_le (by omega)]
  · rw [if_neg h, if_pos (by omega), hn]
    rfl

/-- Two energies, three cosines. -/
noncomputable def Spec.incExample (t : Tab1D) : IncElastic := ⟨t, 3, [1, 2], [[-1, 0, 1], [-1 / 2, 0, 1 / 2]]⟩

theorem incExample_valid (t : Tab1D) : ValidInc (incExample t) := by
  refine ⟨by norm_num [incExample], rfl, ?_, by simp [incExample]⟩
  intro u hu
  simp only [incExample, List.mem_cons, List.not_mem_nil, or_false] at hu
  rcases hu with rfl | rfl
  · refine ⟨rfl, by norm_num, ?_⟩
    intro m hm
    simp only [List.mem_cons, List.not_mem_nil, or_false] at hm
    rcases hm with rfl | rfl | rfl <;> norm_num
  · refine ⟨rfl, by norm_num, ?_⟩
    intro m hm
    simp only [List.mem_cons, List.not_mem_nil, or_false] at hm
    rcases hm with rfl | rfl | rfl <;> norm_num

end PNDL
