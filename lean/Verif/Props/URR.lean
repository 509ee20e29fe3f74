import Verif.Model.URR
import Verif.Props.STNeutron
import Verif.Lemmas.PCTable

/-! C58: the probability tables of the unresolved resonance range. -/
namespace PNDL
open Spec

/-- What the constructor guarantees of the tables: one table per energy, one band per entry of its CDF, which ends with 1, and no negative
elastic, fission or capture value. -/
structure Spec.ValidURR (u : URR) : Prop where
  tables : u.tables.length = u.energy.length
  bands : ∀ t ∈ u.tables, t.cdf.length = t.bands.length
  last : ∀ t ∈ u.tables, t.cdf.getLast? = some 1
  elastic : ∀ t ∈ u.tables, ∀ b ∈ t.bands, 0 ≤ b.elastic
  fission : ∀ t ∈ u.tables, ∀ b ∈ t.bands, 0 ≤ b.fission
  capture : ∀ t ∈ u.tables, ∀ b ∈ t.bands, 0 ≤ b.capture
  interp : u.interp = .linLin ∨ u.interp = .logLog

/-- All smooth cross sections live on the same grid of distinct energies. -/
structure Spec.SmoothOn (grid : List ℝ) (u : URR) : Prop where
  distinct : grid.Pairwise (· < ·)
  elastic : (GoodXS u.elastic ∨ ConstXS u.elastic) ∧ u.elastic.grid = grid
  capture : (GoodXS u.capture ∨ ConstXS u.capture) ∧ u.capture.grid = grid
  fission : (GoodXS u.fission ∨ ConstXS u.fission) ∧ u.fission.grid = grid
  heating : FullXS u.heating ∧ u.heating.grid = grid
  inelastic : ∀ x, u.inelastic = some x → GoodXS x ∧ x.grid = grid
  absorption : ∀ x, u.absorption = some x → GoodXS x ∧ x.grid = grid

/-! ### the constructor -/

theorem xssSlice_ok {xss l : List ℝ} {i n : Nat} (h : xssSlice xss i n = .ok l) : l.length = n := by
  unfold xssSlice at h
  split at h
  · cases h; simp; omega
  · cases h

theorem zipBands_spec : ∀ (ts es fs cs hs : List ℝ) (n : Nat), ts.length = n → es.length = n → fs.length = n → cs.length = n → hs.length = n →
    (zipBands ts es fs cs hs).length = n ∧ ∀ b ∈ zipBands ts es fs cs hs, b.elastic ∈ es ∧ b.fission ∈ fs ∧ b.capture ∈ cs := by
  intro ts
  induction ts with
  | nil =>
    intro es fs cs hs n h1 _ _ _ _
    simp at h1
    subst h1
    simp [zipBands]
  | cons t ts ih =>
    intro es fs cs hs n h1 h2 h3 h4 h5
    cases n with
    | zero => simp at h1
    | succ n =>
      cases es with
      | nil => simp at h2
      | cons e es =>
        cases fs with
        | nil => simp at h3
        | cons f fs =>
          cases cs with
          | nil => simp at h4
          | cons c cs =>
            cases hs with
            | nil => simp at h5
            | cons h hs =>
              simp only [List.length_cons, Nat.add_right_cancel_iff] at h1 h2 h3 h4 h5
              obtain ⟨k1, k2⟩ := ih es fs cs hs n h1 h2 h3 h4 h5
              simp only [zipBands, List.length_cons, List.mem_cons]
              refine ⟨by rw [k1], fun b hb => ?_⟩
              rcases hb with hb | hb
              · subst hb; simp
              · obtain ⟨q1, q2, q3⟩ := k2 b hb
                exact ⟨Or.inr q1, Or.inr q2, Or.inr q3⟩

theorem setLast_last (l : List ℝ) (h : 0 < l.length) (v : ℝ) : (setLast l v).getLast? = some v ∧ (setLast l v).length = l.length := by
  unfold setLast
  refine ⟨?_, by simp⟩
  rw [List.getLast?_eq_getElem?, List.length_set, List.getElem?_set, if_pos rfl, if_pos (by omega)]

theorem readTable_ok {xss : List ℝ} {i n : Nat} {t : PTab} (h : readTable xss i n = .ok t) :
    t.cdf.length = n ∧ t.bands.length = n ∧ t.cdf.getLast? = some 1 ∧ ∀ b ∈ t.bands, 0 ≤ b.elastic ∧ 0 ≤ b.fission ∧ 0 ≤ b.capture := by
  unfold readTable at h
  obtain ⟨cdf, h1, h⟩ := bind_ok h
  split at h
  · cases h
  obtain ⟨c0, h2, h⟩ := bind_ok h
  split at h
  · cases h
  obtain ⟨cl, h3, h⟩ := bind_ok h
  split at h
  swap
  · cases h
  obtain ⟨ts, h4, h⟩ := bind_ok h
  split at h
  · cases h
  obtain ⟨es, h5, h⟩ := bind_ok h
  split at h
  · cases h
  rename_i n5
  obtain ⟨fs, h6, h⟩ := bind_ok h
  split at h
  · cases h
  rename_i n6
  obtain ⟨cs, h7, h⟩ := bind_ok h
  split at h
  · cases h
  rename_i n7
  obtain ⟨hs, h8, h⟩ := bind_ok h
  cases h
  have hl := xssSlice_ok h1
  have hpos : 0 < cdf.length := lt_length_of_some (front_eq_ok.mp h2)
  obtain ⟨z1, z2⟩ := zipBands_spec ts es fs cs hs n (xssSlice_ok h4) (xssSlice_ok h5) (xssSlice_ok h6) (xssSlice_ok h7) (xssSlice_ok h8)
  obtain ⟨s1, s2⟩ := setLast_last cdf hpos 1
  refine ⟨by rw [← hl]; exact s2, z1, s1, fun b hb => ?_⟩
  obtain ⟨m1, m2, m3⟩ := z2 b hb
  push Not at n5 n6 n7
  exact ⟨n5 _ m1, n6 _ m2, n7 _ m3⟩

theorem readTables_ok {xss : List ℝ} {n : Nat} : ∀ (k i : Nat) (ts : List PTab), readTables xss n k i = .ok ts →
    ts.length = k ∧ ∀ t ∈ ts, t.cdf.length = n ∧ t.bands.length = n ∧ t.cdf.getLast? = some 1 ∧
      ∀ b ∈ t.bands, 0 ≤ b.elastic ∧ 0 ≤ b.fission ∧ 0 ≤ b.capture := by
  intro k
  induction k with
  | zero => intro i ts h; cases h; simp
  | succ k ih =>
    intro i ts h
    unfold readTables at h
    obtain ⟨t, h1, h⟩ := bind_ok h
    obtain ⟨ts', h2, h⟩ := bind_ok h
    cases h
    obtain ⟨k1, k2⟩ := ih _ _ h2
    refine ⟨by simp [k1], fun t' ht' => ?_⟩
    rcases List.mem_cons.mp ht' with h3 | h3
    · rw [h3]; exact readTable_ok h1
    · exact k2 t' h3

/-- C58, the tables a file is accepted with, for every content of the file. -/
theorem C58_accepted (xss : List ℝ) (lunr : Option Nat) (sm : Smooth) (rxns : List (Rxn ℝ)) (u : URR) (h : URR.make xss lunr sm rxns = .ok u) :
    ValidURR u := by
  unfold URR.make at h
  split at h
  · cases h
    exact ⟨rfl, by simp, by simp, by simp, by simp, by simp, Or.inl rfl⟩
  · obtain ⟨ne, h1, h⟩ := bind_ok h
    obtain ⟨np, h2, h⟩ := bind_ok h
    obtain ⟨code, h3, h⟩ := bind_ok h
    obtain ⟨inel, h4, h⟩ := bind_ok h
    obtain ⟨ab, h5, h⟩ := bind_ok h
    obtain ⟨fac, h6, h⟩ := bind_ok h
    obtain ⟨energy, h7, h⟩ := bind_ok h
    obtain ⟨tables, h8, h⟩ := bind_ok h
    split at h
    · split at h
      · cases h
      · rename_i hr
        obtain ⟨x, h9, h⟩ := bind_ok h
        obtain ⟨y, h10, h⟩ := bind_ok h
        cases h
        obtain ⟨k1, k2⟩ := readTables_ok _ _ _ h8
        refine ⟨by rw [k1, xssSlice_ok h7], fun t ht => ?_, fun t ht => (k2 t ht).2.2.1, fun t ht b hb => ((k2 t ht).2.2.2 b hb).1,
          fun t ht b hb => ((k2 t ht).2.2.2 b hb).2.1, fun t ht b hb => ((k2 t ht).2.2.2 b hb).2.2, ?_⟩
        · rw [(k2 t ht).1, (k2 t ht).2.1]
        · by_contra hc
          push Not at hc
          exact hr hc
    · cases h

/-! ### the search -/

/-- The binary search stops between an entry on which the predicate holds and one on which it does not, whatever the order of the list. -/
theorem bisect_edge {α : Type _} (p : α → Bool) (l : List α) : ∀ fuel first len, len ≤ fuel → first + len ≤ l.length →
    first ≤ bisect p l fuel first len ∧ bisect p l fuel first len ≤ first + len ∧
      (first < bisect p l fuel first len → ∃ a, l[bisect p l fuel first len - 1]? = some a ∧ p a = true) ∧
      (bisect p l fuel first len < first + len → ∃ a, l[bisect p l fuel first len]? = some a ∧ p a = false) := by
  intro fuel
  induction fuel with
  | zero =>
    intro first len h1 h2
    simp only [bisect]
    exact ⟨le_rfl, by omega, fun h => by omega, fun h => by omega⟩
  | succ fuel ih =>
    intro first len h1 h2
    unfold bisect
    by_cases h0 : len = 0
    · rw [if_pos h0]; exact ⟨le_rfl, by omega, fun h => by omega, fun h => by omega⟩
    · rw [if_neg h0]
      obtain ⟨a, ha⟩ := getElem?_of_lt (l := l) (i := first + len / 2) (by omega)
      rw [ha]
      dsimp only
      by_cases hp : p a = true
      · rw [if_pos hp]
        obtain ⟨q1, q2, q3, q4⟩ := ih (first + len / 2 + 1) (len - len / 2 - 1) (by omega) (by omega)
        refine ⟨by omega, by omega, fun _ => ?_, fun h => q4 (by omega)⟩
        rcases Nat.lt_or_ge (first + len / 2 + 1) (bisect p l fuel (first + len / 2 + 1) (len - len / 2 - 1)) with h3 | h3
        · exact q3 h3
        · have he : bisect p l fuel (first + len / 2 + 1) (len - len / 2 - 1) = first + len / 2 + 1 := by omega
          rw [he]
          exact ⟨a, by simpa using ha, hp⟩
      · rw [if_neg hp]
        obtain ⟨q1, q2, q3, q4⟩ := ih first (len / 2) (by omega) (by omega)
        refine ⟨q1, by omega, q3, fun _ => ?_⟩
        rcases Nat.lt_or_ge (bisect p l fuel first (len / 2)) (first + len / 2) with h3 | h3
        · exact q4 h3
        · have he : bisect p l fuel first (len / 2) = first + len / 2 := by omega
          rw [he]
          exact ⟨a, ha, by simpa using hp⟩

theorem lowerBound_edge (l : List ℝ) (E e0 e1 : ℝ) (h0 : l[0]? = some e0) (h1 : l.getLast? = some e1) (hE0 : e0 ≤ E) (hE1 : E ≤ e1) :
    ∃ v, l[lowerBound l E]? = some v ∧ E ≤ v ∧ (E = v ∨ ∃ k a, lowerBound l E = k + 1 ∧ l[k]? = some a ∧ a < E ∧ E < v) := by
  obtain ⟨q1, q2, q3, q4⟩ := bisect_edge (fun a => decide (a < E)) l (l.length - 0) 0 (l.length - 0) le_rfl (by omega)
  have hlb : bisect (fun a => decide (a < E)) l (l.length - 0) 0 (l.length - 0) = lowerBound l E := rfl
  rw [hlb] at q1 q2 q3 q4
  have hpos := lt_length_of_some h0
  have hlt : lowerBound l E < l.length := by
    by_contra hc
    have he : lowerBound l E = l.length := by omega
    obtain ⟨a, ha, hp⟩ := q3 (by omega)
    rw [he, getLast_get h1] at ha
    cases ha
    simp only [decide_eq_true_eq] at hp
    linarith
  obtain ⟨v, hv, hp⟩ := q4 (by omega)
  have hp' : E ≤ v := by simpa using hp
  refine ⟨v, hv, hp', ?_⟩
  rcases eq_or_lt_of_le hp' with he | he
  · exact Or.inl he
  · right
    cases hl : lowerBound l E with
    | zero =>
      rw [hl] at hv
      rw [h0] at hv
      cases hv
      linarith
    | succ k =>
      obtain ⟨a, ha, hp2⟩ := q3 (by omega)
      rw [hl] at ha
      exact ⟨k, a, rfl, by simpa using ha, by simpa using hp2, he⟩

/-- The interval search succeeds for every energy in range and gives an index with a successor and a fraction between 0 and 1, whatever the order of
the energies; logarithmic interpolation asks for positive energies. -/
theorem bracket_ok (u : URR) (hv : 2 ≤ u.energy.length) (hpos : u.interp = .linLin ∨ ∀ e ∈ u.energy, 0 < e) (E e0 e1 : ℝ)
    (h0 : u.energy[0]? = some e0) (h1 : u.energy.getLast? = some e1) (hE0 : e0 ≤ E) (hE1 : E ≤ e1) :
    ∃ k f, u.bracket E = .ok (k, f) ∧ k + 1 < u.energy.length ∧ 0 ≤ f ∧ f ≤ 1 := by
  obtain ⟨v, hvv, hle, hcase⟩ := lowerBound_edge u.energy E e0 e1 h0 h1 hE0 hE1
  have hlt := lt_length_of_some hvv
  unfold URR.bracket
  simp only [getAt_eq_ok.mpr hvv, bind, Except.bind]
  by_cases he : E = v
  · rw [if_pos he]
    by_cases hend : lowerBound u.energy E + 1 = u.energy.length
    · rw [if_pos hend, subIdx_of_le (by omega)]
      exact ⟨_, 1, rfl, by omega, zero_le_one, le_rfl⟩
    · rw [if_neg hend]
      exact ⟨_, 0, rfl, by omega, le_rfl, zero_le_one⟩
  · rw [if_neg he]
    rcases hcase with hc | ⟨k, a, hk, ha, haE, hEv⟩
    · exact absurd hc he
    · have hkv : u.energy[k + 1]? = some v := by rw [← hk]; exact hvv
      rw [hk, subIdx_of_le (by omega)]
      simp only [Nat.add_sub_cancel, getAt_eq_ok.mpr ha, getAt_eq_ok.mpr hkv]
      have hk1 : k + 1 < u.energy.length := by omega
      have hab : a < v := haE.trans hEv
      by_cases hi : u.interp = .linLin
      · rw [if_pos hi, rdiv_ok (by linarith)]
        exact ⟨k, _, rfl, hk1, div_nonneg (by linarith) (by linarith), (div_le_one (by linarith)).mpr (by linarith)⟩
      · rw [if_neg hi]
        have hp := (hpos.resolve_left hi)
        have ha0 := hp a (List.mem_of_getElem? ha)
        have hv0 := hp v (List.mem_of_getElem? hkv)
        have q1 : 1 < E / a := by rw [lt_div_iff₀ ha0]; linarith
        have q2 : 1 < v / a := by rw [lt_div_iff₀ ha0]; linarith
        have l1 := Real.log_pos q1
        have l2 := Real.log_pos q2
        rw [rdiv_ok ha0.ne']
        dsimp only
        rw [clog_ok (by linarith)]
        dsimp only
        rw [rdiv_ok ha0.ne']
        dsimp only
        rw [clog_ok (by linarith)]
        dsimp only
        rw [rdiv_ok l2.ne']
        refine ⟨k, _, rfl, hk1, (div_pos l1 l2).le, ?_⟩
        rw [div_le_one l2]
        apply Real.log_le_log (by linarith)
        gcongr

/-- The band search: the first band whose cumulative probability reaches `xi`. -/
theorem bandOf_spec (cdf : List ℝ) (xi : ℝ) (hl : cdf.getLast? = some 1) (hxi : xi ≤ 1) :
    ∃ c, cdf[bandOf cdf xi]? = some c ∧ xi ≤ c ∧ ∀ (j : Nat) (d : ℝ), j < bandOf cdf xi → cdf[j]? = some d → d < xi := by
  have hlt : bandOf cdf xi < cdf.length := by
    unfold bandOf
    rw [List.findIdx_lt_length]
    exact ⟨1, List.mem_of_getLast? hl, by simpa using hxi⟩
  have hget := List.findIdx_getElem (w := hlt)
  refine ⟨cdf[bandOf cdf xi], by rw [List.getElem?_eq_getElem hlt], ?_, fun j d hj hd => ?_⟩
  · have h2 : decide (cdf[bandOf cdf xi] ≥ xi) = true := hget
    simpa using h2
  · have := List.not_of_lt_findIdx (p := fun c => decide (c ≥ xi)) (xs := cdf) hj
    have hjl := lt_length_of_some hd
    rw [List.getElem?_eq_getElem hjl] at hd
    cases hd
    simpa using this

theorem mixBand_ok {r : Interpolation} {lo hi f : ℝ} : ∃ v, mixBand r lo hi f = .ok v ∧ (0 ≤ lo → 0 ≤ hi → 0 ≤ f → f ≤ 1 → 0 ≤ v) := by
  unfold mixBand
  split
  · exact ⟨_, rfl, fun h1 h2 h3 h4 => by nlinarith⟩
  · split
    · rename_i h
      rw [clog_ok h.1, rdiv_ok h.1.ne']
      simp only [bind, Except.bind]
      rw [clog_ok (div_pos h.2 h.1)]
      exact ⟨_, rfl, fun _ _ _ _ => (Real.exp_pos _).le⟩
    · exact ⟨0, rfl, fun _ _ _ _ => le_rfl⟩

theorem scaleBy_ok {factors : Bool} {x : XS ℝ} {grid : List ℝ} (hx : FullXS x ∨ ConstXS x) (hg : x.grid = grid) (hs : grid.Pairwise (· < ·))
    (E : ℝ) (i : Nat) (v : ℝ) : ∃ w, scaleBy factors x E i v = .ok w := by
  unfold scaleBy
  cases factors with
  | false => exact ⟨v, rfl⟩
  | true =>
    rw [if_pos rfl]
    obtain ⟨s, hs'⟩ := evalIdx_total hx (hg ▸ hs) E i
    rw [hs']
    exact ⟨_, rfl⟩

theorem clamp0_nonneg (v : ℝ) : 0 ≤ clamp0 v := by
  unfold clamp0
  split
  · exact le_rfl
  · rename_i h; exact not_lt.mp h

theorem evalOpt_ok {x : Option (XS ℝ)} {grid : List ℝ} (hx : ∀ y, x = some y → GoodXS y ∧ y.grid = grid) (hs : grid.Pairwise (· < ·))
    (E : ℝ) (i : Nat) : ∃ v, evalOpt x E i = .ok v ∧ (Brackets grid E i → 0 ≤ v) := by
  cases x with
  | none => exact ⟨0, rfl, fun _ => le_rfl⟩
  | some y =>
    obtain ⟨h1, h2⟩ := hx y rfl
    obtain ⟨v, hv⟩ := evalIdx_total (Or.inl h1.full) (h2 ▸ hs) E i
    exact ⟨v, hv, fun hbr => evalIdx_nonneg (Or.inl h1) (h2 ▸ hs) E i (h2 ▸ hbr) v hv⟩

/-- C58, no value outside the range or without valid tables. -/
theorem C58_absent (u : URR) (E : ℝ) (i : Nat) (xi : ℝ) (h : u.isValid = false ∨ ∃ e0 e1, u.energy[0]? = some e0 ∧ u.energy.getLast? = some e1 ∧
    (E < e0 ∨ e1 < E)) : u.evaluate E i xi = .ok none := by
  unfold URR.evaluate
  by_cases hv : u.isValid = false
  · rw [if_pos hv]
  · rw [if_neg hv]
    rcases h with h | ⟨e0, e1, h0, h1, hr⟩
    · exact absurd h hv
    · simp only [front_eq_ok.mpr h0, back_eq_ok.mpr h1, bind, Except.bind]
      rw [if_pos hr]

/-- C58 for valid tables and every energy in their range: whatever the order of the energies, no index is out of range, a packet is returned, all its
entries are non-negative (for an index that brackets the energy on the smooth grid), total is the sum of elastic, inelastic and absorption, and
absorption is at least capture plus fission.
Missing for the full claim: tables with logarithmic interpolation and an energy that is not positive (`C58_violation_log`), which the constructor
accepts, and energies below the smooth grid (`C58_violation_below`). -/
theorem C58_evaluate_partial (u : URR) (grid : List ℝ) (hu : ValidURR u) (hs : SmoothOn grid u) (hv : u.isValid = true)
    (hpos : u.interp = .linLin ∨ ∀ e ∈ u.energy, 0 < e) (E e0 e1 : ℝ) (h0 : u.energy[0]? = some e0) (h1 : u.energy.getLast? = some e1)
    (hE0 : e0 ≤ E) (hE1 : E ≤ e1) (i : Nat) (xi : ℝ) (hxi : xi ≤ 1) :
    ∃ p, u.evaluate E i xi = .ok (some p) ∧ p.total = p.elastic + p.inelastic + p.absorption ∧
      0 ≤ p.elastic ∧ 0 ≤ p.capture ∧ 0 ≤ p.fission ∧ 0 ≤ p.heating ∧
      (Brackets grid E i → 0 ≤ p.inelastic ∧ p.capture + p.fission ≤ p.absorption ∧ 0 ≤ p.absorption ∧ 0 ≤ p.total) := by
  have hlen : u.energy.length > 2 := by simpa [URR.isValid] using hv
  obtain ⟨k, f, hb, hk, hf0, hf1⟩ := bracket_ok u (by omega) hpos E e0 e1 h0 h1 hE0 hE1
  obtain ⟨tl, htl⟩ := getElem?_of_lt (l := u.tables) (i := k) (by rw [hu.tables]; omega)
  obtain ⟨th, hth⟩ := getElem?_of_lt (l := u.tables) (i := k + 1) (by rw [hu.tables]; omega)
  have mtl := List.mem_of_getElem? htl
  have mth := List.mem_of_getElem? hth
  obtain ⟨c1, hc1, _⟩ := bandOf_spec tl.cdf xi (hu.last tl mtl) hxi
  obtain ⟨c2, hc2, _⟩ := bandOf_spec th.cdf xi (hu.last th mth) hxi
  obtain ⟨bl, hbl⟩ := getElem?_of_lt (l := tl.bands) (i := bandOf tl.cdf xi) (by rw [← hu.bands tl mtl]; exact lt_length_of_some hc1)
  obtain ⟨bh, hbh⟩ := getElem?_of_lt (l := th.bands) (i := bandOf th.cdf xi) (by rw [← hu.bands th mth]; exact lt_length_of_some hc2)
  obtain ⟨el, hel, _⟩ := mixBand_ok (r := u.interp) (lo := bl.elastic) (hi := bh.elastic) (f := f)
  obtain ⟨ca, hca, _⟩ := mixBand_ok (r := u.interp) (lo := bl.capture) (hi := bh.capture) (f := f)
  obtain ⟨fi, hfi, _⟩ := mixBand_ok (r := u.interp) (lo := bl.fission) (hi := bh.fission) (f := f)
  obtain ⟨he, hhe, _⟩ := mixBand_ok (r := u.interp) (lo := bl.heating) (hi := bh.heating) (f := f)
  obtain ⟨el', hel'⟩ := scaleBy_ok (factors := u.factors) (hs.elastic.1.imp_left GoodXS.full) hs.elastic.2 hs.distinct E i el
  obtain ⟨ca', hca'⟩ := scaleBy_ok (factors := u.factors) (hs.capture.1.imp_left GoodXS.full) hs.capture.2 hs.distinct E i ca
  obtain ⟨fi', hfi'⟩ := scaleBy_ok (factors := u.factors) (hs.fission.1.imp_left GoodXS.full) hs.fission.2 hs.distinct E i fi
  obtain ⟨he', hhe'⟩ := scaleBy_ok (factors := u.factors) (Or.inl hs.heating.1) hs.heating.2 hs.distinct E i he
  obtain ⟨inel, hin, hin0⟩ := evalOpt_ok hs.inelastic hs.distinct E i
  obtain ⟨ot, hot, hot0⟩ := evalOpt_ok hs.absorption hs.distinct E i
  refine ⟨⟨clamp0 el' + inel + (clamp0 ca' + clamp0 fi' + ot), clamp0 el', inel, clamp0 ca' + clamp0 fi' + ot, clamp0 fi', clamp0 ca', clamp0 he'⟩,
    ?_, rfl, clamp0_nonneg _, clamp0_nonneg _, clamp0_nonneg _, clamp0_nonneg _, fun hbr => ?_⟩
  · unfold URR.evaluate
    rw [if_neg (by rw [hv]; simp)]
    simp only [front_eq_ok.mpr h0, back_eq_ok.mpr h1, bind, Except.bind]
    rw [if_neg (by rw [not_or, not_lt, not_lt]; exact ⟨hE0, hE1⟩)]
    simp only [hb, getAt_eq_ok.mpr htl, getAt_eq_ok.mpr hth, getAt_eq_ok.mpr hbl, getAt_eq_ok.mpr hbh, hel, hca, hfi, hhe, hel', hca', hfi', hhe',
      hin, hot, pure, Except.pure]
  · have n1 := hin0 hbr
    have n2 := hot0 hbr
    have n3 := clamp0_nonneg el'
    have n4 := clamp0_nonneg ca'
    have n5 := clamp0_nonneg fi'
    dsimp only
    exact ⟨n1, by linarith, by linarith, by linarith⟩

/-- Which band is used: the first one whose cumulative probability is at least `xi`, so that band `b` is used for `xi` in an interval of length
`cdf[b] - cdf[b-1]`. -/
theorem C58_band (cdf : List ℝ) (hs : cdf.Pairwise (· ≤ ·)) (hl : cdf.getLast? = some 1) (xi : ℝ) (hxi : xi ≤ 1) (b : Nat) :
    bandOf cdf xi = b ↔ (∃ c, cdf[b]? = some c ∧ xi ≤ c) ∧ ∀ b' c, b = b' + 1 → cdf[b']? = some c → c < xi := by
  obtain ⟨c, h1, h2, h3⟩ := bandOf_spec cdf xi hl hxi
  constructor
  · rintro rfl
    exact ⟨⟨c, h1, h2⟩, fun b' c' hb hc => h3 b' c' (by omega) hc⟩
  · rintro ⟨⟨c', g1, g2⟩, g3⟩
    rcases Nat.lt_trichotomy (bandOf cdf xi) b with h | h | h
    · exfalso
      cases b with
      | zero => omega
      | succ b' =>
        obtain ⟨d, hd⟩ := getElem?_of_lt (l := cdf) (i := b') (by have := lt_length_of_some g1; omega)
        have k1 := g3 b' d rfl hd
        have k2 := pairwise_le_getElem? hs (by omega : bandOf cdf xi ≤ b') h1 hd
        linarith
    · exact h
    · have := h3 b c' h g1
      linarith

/-- At a tabulated energy other than the last, the values of that energy's band are used as they are (without factors; linear interpolation). -/
theorem C58_at_node (u : URR) (grid : List ℝ) (hu : ValidURR u) (hs : SmoothOn grid u) (hv : u.isValid = true) (hlin : u.interp = .linLin)
    (hfac : u.factors = false) (hsort : u.energy.Pairwise (· < ·)) (k : Nat) (E : ℝ) (hE : u.energy[k]? = some E) (hk : k + 1 < u.energy.length)
    (i : Nat) (xi : ℝ) (hxi : xi ≤ 1) (t : PTab) (ht : u.tables[k]? = some t) (b : Band) (hb : t.bands[bandOf t.cdf xi]? = some b) :
    ∃ p, u.evaluate E i xi = .ok (some p) ∧ p.elastic = b.elastic ∧ p.capture = b.capture ∧ p.fission = b.fission := by
  have hlen : u.energy.length > 2 := by simpa [URR.isValid] using hv
  obtain ⟨e0, h0⟩ := getElem?_of_lt (l := u.energy) (i := 0) (by omega)
  obtain ⟨e1, h1⟩ := last_exists (l := u.energy) (by omega)
  have hs' : u.energy.Pairwise (· ≤ ·) := hsort.imp le_of_lt
  have hE0 := pairwise_le_getElem? hs' (Nat.zero_le k) h0 hE
  have hE1 := pairwise_le_getElem? hs' (by omega : k ≤ u.energy.length - 1) hE (getLast_get h1)
  have hlb : lowerBound u.energy E = k := by
    apply lowerBound_unique hs' E (by omega)
    intro j a ha
    constructor
    · intro hlt
      by_contra hc
      have := pairwise_le_getElem? hs' (by omega : k ≤ j) hE ha
      linarith
    · intro hlt
      exact pairwise_lt_getElem? hsort hlt ha hE
  have hbr : u.bracket E = .ok (k, 0) := by
    unfold URR.bracket
    simp only [hlb, getAt_eq_ok.mpr hE, bind, Except.bind]
    rw [if_pos trivial, if_neg (by omega)]
    rfl
  obtain ⟨th, hth⟩ := getElem?_of_lt (l := u.tables) (i := k + 1) (by rw [hu.tables]; omega)
  have mth := List.mem_of_getElem? hth
  obtain ⟨c2, hc2, _⟩ := bandOf_spec th.cdf xi (hu.last th mth) hxi
  obtain ⟨bh, hbh⟩ := getElem?_of_lt (l := th.bands) (i := bandOf th.cdf xi) (by rw [← hu.bands th mth]; exact lt_length_of_some hc2)
  obtain ⟨inel, hin, _⟩ := evalOpt_ok hs.inelastic hs.distinct E i
  obtain ⟨ot, hot, _⟩ := evalOpt_ok hs.absorption hs.distinct E i
  have mt := List.mem_of_getElem? ht
  have mb := List.mem_of_getElem? hb
  have clamp_id : ∀ x : ℝ, 0 ≤ x → clamp0 x = x := fun x hx => by unfold clamp0; rw [if_neg (not_lt.mpr hx)]
  refine ⟨⟨clamp0 b.elastic + inel + (clamp0 b.capture + clamp0 b.fission + ot), clamp0 b.elastic, inel, clamp0 b.capture + clamp0 b.fission + ot,
    clamp0 b.fission, clamp0 b.capture, clamp0 b.heating⟩, ?_, clamp_id _ (hu.elastic t mt b mb), clamp_id _ (hu.capture t mt b mb),
    clamp_id _ (hu.fission t mt b mb)⟩
  unfold URR.evaluate
  rw [if_neg (by rw [hv]; simp)]
  simp only [front_eq_ok.mpr h0, back_eq_ok.mpr h1, bind, Except.bind]
  rw [if_neg (by rw [not_or, not_lt, not_lt]; exact ⟨hE0, hE1⟩)]
  simp only [hbr, getAt_eq_ok.mpr ht, getAt_eq_ok.mpr hth, getAt_eq_ok.mpr hb, getAt_eq_ok.mpr hbh, mixBand, hlin, if_true, scaleBy, hfac,
    hin, hot, pure, Except.pure, zero_mul, add_zero, Bool.false_eq_true, if_false]

/-- The full claim is false of the code: tables with logarithmic interpolation and first energy 0 are accepted, and the evaluation at an energy inside
the first interval divides by zero. -/
theorem C58_violation_log (u : URR) (hv : u.isValid = true) (hi : u.interp = .logLog) (E e1 : ℝ) (rest : List ℝ) (hen : u.energy = 0 :: e1 :: rest)
    (hsort : u.energy.Pairwise (· < ·)) (hE0 : 0 < E) (hE1 : E < e1) (i : Nat) (xi : ℝ) : u.evaluate E i xi = .error .nonfinite := by
  have h0 : u.energy[0]? = some 0 := by rw [hen]; rfl
  have h1' : u.energy[1]? = some e1 := by rw [hen]; rfl
  obtain ⟨el, hl⟩ := last_exists (l := u.energy) (by rw [hen]; simp)
  have hs' : u.energy.Pairwise (· ≤ ·) := hsort.imp le_of_lt
  have hle := pairwise_le_getElem? hs' (by rw [hen]; simp : 1 ≤ u.energy.length - 1) h1' (getLast_get hl)
  have hlb : lowerBound u.energy E = 1 := by
    apply lowerBound_unique hs' E (by rw [hen]; simp)
    intro j a ha
    constructor
    · intro hlt
      by_contra hc
      have := pairwise_le_getElem? hs' (by omega : 1 ≤ j) h1' ha
      linarith
    · intro hlt
      have : j = 0 := by omega
      subst this
      rw [h0] at ha
      cases ha; exact hE0
  unfold URR.evaluate
  rw [if_neg (by rw [hv]; simp)]
  simp only [front_eq_ok.mpr h0, back_eq_ok.mpr hl, bind, Except.bind]
  rw [if_neg (by rw [not_or, not_lt, not_lt]; exact ⟨hE0.le, by linarith⟩)]
  unfold URR.bracket
  simp only [hlb, getAt_eq_ok.mpr h1', bind, Except.bind]
  rw [if_neg (by linarith), subIdx_of_le (by omega)]
  simp only [Nat.sub_self, getAt_eq_ok.mpr h0, Nat.zero_add, getAt_eq_ok.mpr h1']
  rw [if_neg (by rw [hi]; simp), rdiv_zero]

/-- Nor is the inelastic part non-negative when the range of the tables starts below the smooth grid: the competing cross section is extrapolated. -/
theorem C58_violation_below (u : URR) (grid : List ℝ) (hu : ValidURR u) (hs : SmoothOn grid u) (hv : u.isValid = true)
    (hpos : u.interp = .linLin ∨ ∀ e ∈ u.energy, 0 < e) (E e0 e1 : ℝ) (h0 : u.energy[0]? = some e0) (h1 : u.energy.getLast? = some e1)
    (hE0 : e0 ≤ E) (hE1 : E ≤ e1) (xi : ℝ) (hxi : xi ≤ 1) (x : XS ℝ) (hx : u.inelastic = some x) (hx0 : x.index = 0) (g0 g1 v0 v1 : ℝ)
    (k0 : x.grid[0]? = some g0) (k1 : x.grid[1]? = some g1) (w0 : x.values[0]? = some v0) (w1 : x.values[1]? = some v1)
    (hneg : (E - g0) / (g1 - g0) * (v1 - v0) + v0 < 0) : ∃ p, u.evaluate E 0 xi = .ok (some p) ∧ p.inelastic < 0 := by
  obtain ⟨p, h2, _⟩ := C58_evaluate_partial u grid hu hs hv hpos E e0 e1 h0 h1 hE0 hE1 0 xi hxi
  refine ⟨p, h2, ?_⟩
  obtain ⟨hg, hgr⟩ := hs.inelastic x hx
  have hlen := lt_length_of_some k1
  have hval : x.evalIdx E 0 = .ok ((E - g0) / (g1 - g0) * (v1 - v0) + v0) := by
    rcases evalIdx_cases hg.full (hgr ▸ hs.distinct) E 0 with ⟨h, _⟩ | ⟨_, h, _⟩ | ⟨_, a, b, sl, sh, q1, q2, _, q3, q4, q5⟩
    · omega
    · omega
    · simp only [hx0, Nat.sub_zero, Nat.zero_add] at q1 q2 q3 q4
      rw [k0] at q1; rw [k1] at q2; rw [w0] at q3; rw [w1] at q4
      cases q1; cases q2; cases q3; cases q4
      exact q5
  unfold URR.evaluate at h2
  rw [if_neg (by rw [hv]; simp)] at h2
  simp only [front_eq_ok.mpr h0, back_eq_ok.mpr h1, bind_pure_comp] at h2
  obtain ⟨y0, _, h2⟩ := bind_ok h2
  obtain ⟨y1, _, h2⟩ := bind_ok h2
  split at h2
  · cases h2
  obtain ⟨⟨kk, f⟩, _, h2⟩ := bind_ok h2
  obtain ⟨tl, _, h2⟩ := bind_ok h2
  obtain ⟨th, _, h2⟩ := bind_ok h2
  obtain ⟨bl, _, h2⟩ := bind_ok h2
  obtain ⟨bh, _, h2⟩ := bind_ok h2
  obtain ⟨z1, _, h2⟩ := bind_ok h2
  obtain ⟨z2, _, h2⟩ := bind_ok h2
  obtain ⟨z3, _, h2⟩ := bind_ok h2
  obtain ⟨z4, _, h2⟩ := bind_ok h2
  obtain ⟨z5, _, h2⟩ := bind_ok h2
  obtain ⟨z6, _, h2⟩ := bind_ok h2
  obtain ⟨z7, _, h2⟩ := bind_ok h2
  obtain ⟨z8, _, h2⟩ := bind_ok h2
  obtain ⟨inel, hin, h2⟩ := bind_ok h2
  rw [hx] at hin
  simp only [evalOpt, hval] at hin
  cases hin
  simp only [Functor.map, Except.map] at h2
  split at h2
  · cases h2
  · cases h2
    exact hneg

/-- Tables at two energies are never used although an energy in their range is reported to be in range: the two tests disagree. -/
theorem C58_two_energies (u : URR) (a b : ℝ) (hen : u.energy = [a, b]) (E : ℝ) (hE : a ≤ E ∧ E ≤ b) (i : Nat) (xi : ℝ) :
    u.inRange E = .ok true ∧ u.evaluate E i xi = .ok none := by
  constructor
  · unfold URR.inRange
    rw [hen, if_neg (by simp)]
    simp [front, back, getAt, bind, Except.bind, pure, Except.pure, hE.1, hE.2]
  · apply C58_absent
    left
    simp [URR.isValid, hen]

/-- The smooth cross sections of a nuclide meet the hypothesis: the tables built with a constructed nuclide's cross sections (as its constructor does,
src/st_neutron.cpp:115-126) live on its grid. -/
theorem C58_nuclide (a : AceIn ℝ) (s : STN ℝ) (hb : Built a s) (hs : a.grid.Pairwise (· < ·)) (hpos : 0 < a.grid.length) (h32 : a.grid.length < 2 ^ 32)
    (xss : List ℝ) (lunr : Option Nat) (cap : XS ℝ) (hcap : (s.has 102 = .ok true ∧ ∃ r, s.reaction 102 = .ok r ∧ cap = r.xs) ∨
      (s.has 102 = .ok false ∧ XS.makeConst 0 a.grid = .ok cap)) (u : URR)
    (hu : URR.make xss lunr ⟨s.elastic, cap, s.fissionXS, s.heating⟩ s.rxns = .ok u) : SmoothOn a.grid u := by
  have ho := built_ok hb
  have hm := ho.main
  unfold MainXS.make at hm
  obtain ⟨t, h1, hm⟩ := bind_ok hm
  obtain ⟨d, h2, hm⟩ := bind_ok hm
  obtain ⟨e, h3, hm⟩ := bind_ok hm
  obtain ⟨q, h4, hm⟩ := bind_ok hm
  have hm' : (⟨t, d, e, q⟩ : MainXS ℝ) = ⟨s.total, s.disap, s.elastic, s.heating⟩ := by cases hm; rfl
  injection hm' with e1 e2 e3 e4
  subst e1; subst e2; subst e3; subst e4
  obtain ⟨_, ge, oe⟩ := makeAce_full h3 hpos
  obtain ⟨fq, gq, _⟩ := makeAce_full h4 hpos
  have hff := fissionXS_ok hb hpos h32
  have hall : ∀ r ∈ s.rxns, GoodXS r.xs ∧ r.xs.grid = a.grid := by
    intro r hr
    obtain ⟨e, d, he⟩ := ho.all r hr
    obtain ⟨_, _, k3, _, _, k6, _⟩ := rxnMake_ok he
    exact ⟨k6, k3⟩
  have hc : (GoodXS cap ∨ ConstXS cap) ∧ cap.grid = a.grid := by
    rcases hcap with ⟨c1, r, c2, c3⟩ | ⟨_, c2⟩
    · have : r ∈ s.rxns := by
        unfold STN.reaction at c2
        rw [c1] at c2
        simp only [bind, Except.bind] at c2
        rw [if_neg (by simp), if_neg (by decide)] at c2
        cases hx : getAt s.idx 102 with
        | error x => rw [hx] at c2; cases c2
        | ok j =>
          rw [hx] at c2
          simp only [getInt] at c2
          split at c2
          · cases c2
          · exact List.mem_of_getElem? (getAt_eq_ok.mp c2)
      rw [c3]
      exact ⟨Or.inl (hall r this).1, (hall r this).2⟩
    · unfold XS.makeConst at c2
      rw [if_neg (lt_irrefl _)] at c2
      cases c2
      exact ⟨Or.inr ⟨rfl, ⟨0, rfl, le_rfl⟩, hpos⟩, rfl⟩
  have hfind : ∀ (flag : ℝ) (o : Option (XS ℝ)), findCompeting flag s.rxns = .ok o → ∀ x, o = some x → GoodXS x ∧ x.grid = a.grid := by
    intro flag o hf x hx
    unfold findCompeting at hf
    split at hf
    · split at hf
      · rename_i r hr
        cases hf
        cases hx
        exact hall r (List.mem_of_find?_eq_some hr)
      · cases hf
    · cases hf; cases hx
  unfold URR.make at hu
  split at hu
  · cases hu
    exact ⟨hs, ⟨Or.inl (oe rfl), ge⟩, hc, hff, ⟨fq, gq⟩, by simp, by simp⟩
  · obtain ⟨_, _, hu⟩ := bind_ok hu
    obtain ⟨_, _, hu⟩ := bind_ok hu
    obtain ⟨_, _, hu⟩ := bind_ok hu
    obtain ⟨_, _, hu⟩ := bind_ok hu
    obtain ⟨_, _, hu⟩ := bind_ok hu
    obtain ⟨_, _, hu⟩ := bind_ok hu
    obtain ⟨_, _, hu⟩ := bind_ok hu
    obtain ⟨_, _, hu⟩ := bind_ok hu
    split at hu
    · split at hu
      · cases hu
      · obtain ⟨x, hx, hu⟩ := bind_ok hu
        obtain ⟨y, hy, hu⟩ := bind_ok hu
        cases hu
        exact ⟨hs, ⟨Or.inl (oe rfl), ge⟩, hc, hff, ⟨fq, gq⟩, hfind _ _ hx, hfind _ _ hy⟩
    · cases hu

/-- A concrete table that meets the hypotheses of `C58_evaluate_partial`: three energies, two bands. -/
noncomputable def exampleURR : URR where
  interp := .linLin
  factors := true
  elastic := ⟨[1, 2], [3, 4], 0, false⟩
  capture := ⟨[1, 2], [1, 1], 0, false⟩
  fission := ⟨[1, 2], [0], 0, true⟩
  heating := ⟨[1, 2], [-1, 1], 0, false⟩
  inelastic := some ⟨[1, 2], [5], 1, false⟩
  absorption := none
  energy := [1, 3 / 2, 2]
  tables := List.replicate 3 ⟨[1 / 4, 1], [⟨1, 1, 0, 2, -1⟩, ⟨1, 2, 0, 1, 1⟩]⟩

example : ValidURR exampleURR ∧ exampleURR.isValid = true ∧ SmoothOn [1, 2] exampleURR := by
  refine ⟨⟨rfl, ?_, ?_, ?_, ?_, ?_, Or.inl rfl⟩, by decide, ⟨by norm_num, ⟨Or.inl ⟨rfl, by decide, rfl, ?_⟩, rfl⟩, ⟨Or.inl ⟨rfl, by decide, rfl, ?_⟩, rfl⟩,
    ⟨Or.inr ⟨rfl, ⟨0, rfl, le_rfl⟩, by decide⟩, rfl⟩, ⟨⟨rfl, by decide, rfl⟩, rfl⟩, ?_, ?_⟩⟩
  all_goals simp [exampleURR]
  exact ⟨rfl, by simp, by simp, by simp⟩

end PNDL
