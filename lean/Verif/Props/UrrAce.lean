import Verif.Spec.UrrAce
import Verif.Props.URR
import Verif.Props.AceLaws

/-! C106: the unresolved resonance block of a file, as read. -/
namespace PNDL
open Spec

theorem zipBands_map (t : List (ℝ × Band)) : zipBands (t.map fun p => p.2.total) (t.map fun p => p.2.elastic) (t.map fun p => p.2.fission)
    (t.map fun p => p.2.capture) (t.map fun p => p.2.heating) = t.map Prod.snd := by
  induction t with
  | nil => rfl
  | cons p t ih => simp only [List.map_cons, zipBands, ih]

open Classical in
/-- One table. -/
theorem readTable_read {xss : List ℝ} {i : Nat} {t : List (ℝ × Band)} (ht : t ≠ []) (h : Holds xss i (urrColumns t)) :
    readTable xss i t.length = if UrrTable t then .ok ⟨setLast (t.map Prod.fst) 1, t.map Prod.snd⟩ else .error .exc := by
  obtain ⟨n, hn⟩ : ∃ n, n = t.length := ⟨_, rfl⟩
  have s : ∀ (f : ℝ × Band → ℝ) {j : Nat}, Holds xss j (t.map f) → xssSlice xss j n = .ok (t.map f) := by
    intro f j hh
    have := hh.slice
    rwa [List.length_map, ← hn] at this
  unfold urrColumns at h
  have l : ∀ f : ℝ × Band → ℝ, (t.map f).length = n := fun f => by simp [hn]
  have h1 := h.left
  have h := h.right
  rw [l] at h
  have h2 := h.left
  have h := h.right
  rw [l] at h
  have h3 := h.left
  have h := h.right
  rw [l] at h
  have h4 := h.left
  have h := h.right
  rw [l] at h
  have h5 := h.left
  have h6 := h.right
  rw [l] at h6
  rw [show i + n + n = i + 2 * n by ring] at h3 h4 h5 h6
  rw [show i + 2 * n + n = i + 3 * n by ring] at h4 h5 h6
  rw [show i + 3 * n + n = i + 4 * n by ring] at h5 h6
  rw [show i + 4 * n + n = i + 5 * n by ring] at h6
  obtain ⟨c0, hc0⟩ : ∃ c, (t.map Prod.fst).head? = some c := by
    cases t with
    | nil => exact absurd rfl ht
    | cons p t => exact ⟨_, rfl⟩
  obtain ⟨cl, hcl⟩ : ∃ c, (t.map Prod.fst).getLast? = some c := by
    cases hh : (t.map Prod.fst).getLast? with
    | none => rw [List.getLast?_eq_none_iff] at hh; rw [List.map_eq_nil_iff] at hh; exact absurd hh ht
    | some c => exact ⟨c, rfl⟩
  have hfront : front (t.map Prod.fst) = .ok c0 := by
    rw [front_eq_ok, ← List.head?_eq_getElem?]; exact hc0
  have hback : back (t.map Prod.fst) = .ok cl := by
    rw [back_eq_ok]; exact hcl
  rw [← hn]
  unfold readTable
  rw [s _ h1]
  simp only [bind, Except.bind]
  have hneg : ∀ f : ℝ × Band → ℝ, (∃ x ∈ t.map f, x < 0) ↔ ¬ ∀ p ∈ t, 0 ≤ f p := by
    intro f
    push Not
    simp
  by_cases g1 : isSorted (t.map Prod.fst) = false
  · rw [if_pos g1, if_neg]
    rintro ⟨hs, _⟩
    rw [← isSorted_iff] at hs
    rw [hs] at g1
    cases g1
  have g1' : (t.map Prod.fst).Pairwise (· ≤ ·) := by rw [← isSorted_iff]; simpa using g1
  rw [if_neg g1, hfront]
  dsimp only
  by_cases g2 : c0 ≤ 0
  · rw [if_pos g2, if_neg]
    rintro ⟨_, hh, _⟩
    exact absurd (hh c0 hc0) (not_lt.mpr g2)
  rw [if_neg g2, hback]
  dsimp only
  by_cases g3 : |1 - cl| < 1 / 10 ^ 15
  swap
  · rw [if_neg g3, if_neg]
    rintro ⟨_, _, hh, _⟩
    exact g3 (hh cl hcl)
  rw [if_pos g3, s _ h2]
  dsimp only
  by_cases k2 : ∀ p ∈ t, 0 ≤ p.2.total
  swap
  · rw [if_pos ((hneg _).mpr k2), if_neg]
    exact fun hh => k2 fun p hp => (hh.2.2.2 p hp).1
  rw [if_neg (fun hh => (hneg _).mp hh k2), s _ h3]
  dsimp only
  by_cases k3 : ∀ p ∈ t, 0 ≤ p.2.elastic
  swap
  · rw [if_pos ((hneg _).mpr k3), if_neg]
    exact fun hh => k3 fun p hp => (hh.2.2.2 p hp).2.1
  rw [if_neg (fun hh => (hneg _).mp hh k3), s _ h4]
  dsimp only
  by_cases k4 : ∀ p ∈ t, 0 ≤ p.2.fission
  swap
  · rw [if_pos ((hneg _).mpr k4), if_neg]
    exact fun hh => k4 fun p hp => (hh.2.2.2 p hp).2.2.1
  rw [if_neg (fun hh => (hneg _).mp hh k4), s _ h5]
  dsimp only
  by_cases k5 : ∀ p ∈ t, 0 ≤ p.2.capture
  swap
  · rw [if_pos ((hneg _).mpr k5), if_neg]
    exact fun hh => k5 fun p hp => (hh.2.2.2 p hp).2.2.2
  rw [if_neg (fun hh => (hneg _).mp hh k5), s _ h6]
  dsimp only
  rw [zipBands_map, if_pos]
  · rfl
  · refine ⟨g1', ?_, ?_, fun p hp => ⟨k2 p hp, k3 p hp, k4 p hp, k5 p hp⟩⟩
    · intro c hc
      rw [hc0] at hc
      cases hc
      exact not_le.mp g2
    · intro c hc
      rw [hcl] at hc
      cases hc
      exact g3

theorem urrColumns_length (t : List (ℝ × Band)) : (urrColumns t).length = 6 * t.length := by
  unfold urrColumns
  simp only [List.length_append, List.length_map]
  ring

open Classical in
theorem readTables_read {xss : List ℝ} {np : Nat} (hnp : 1 ≤ np) : ∀ (ts : List (List (ℝ × Band))) (i : Nat), (∀ t ∈ ts, t.length = np) →
    Holds xss i (ts.flatMap urrColumns) →
    readTables xss np ts.length i = if ∀ t ∈ ts, UrrTable t then .ok (ts.map fun t => ⟨setLast (t.map Prod.fst) 1, t.map Prod.snd⟩) else .error .exc := by
  intro ts
  induction ts with
  | nil => intro i _ _; simp [readTables]
  | cons t ts ih =>
    intro i hl h
    rw [List.flatMap_cons] at h
    have h1 := h.left
    have h2 := h.right
    have ht : t.length = np := hl t (by simp)
    rw [urrColumns_length, ht] at h2
    have hne : t ≠ [] := by rintro rfl; simp at ht; omega
    simp only [List.length_cons, readTables]
    rw [← ht, readTable_read hne h1, ht]
    by_cases g : UrrTable t
    · rw [if_pos g, ih _ (fun t ht => hl t (by simp [ht])) h2]
      simp only [bind, Except.bind]
      by_cases g' : ∀ t ∈ ts, UrrTable t
      · rw [if_pos g', if_pos]
        · rfl
        · intro x hx
          rcases List.mem_cons.mp hx with rfl | hx
          · exact g
          · exact g' x hx
      · rw [if_neg g', if_neg]
        exact fun hh => g' fun x hx => hh x (by simp [hx])
    · rw [if_neg g]
      simp only [bind, Except.bind]
      rw [if_neg]
      exact fun hh => g (hh t (by simp))

theorem find_first {α : Type} (p : α → Bool) (l : List α) :
    (l.find? p = none ∧ ∀ x ∈ l, p x = false) ∨ ∃ pre r post, l = pre ++ r :: post ∧ p r = true ∧ (∀ q ∈ pre, p q = false) ∧ l.find? p = some r := by
  induction l with
  | nil => left; simp
  | cons a l ih =>
    by_cases h : p a = true
    · right
      exact ⟨[], a, l, rfl, h, by simp, by simp [List.find?_cons, h]⟩
    · have h' : p a = false := by simpa using h
      rcases ih with ⟨h1, h2⟩ | ⟨pre, r, post, h1, h2, h3, h4⟩
      · left
        refine ⟨by rw [List.find?_cons, h']; exact h1, fun x hx => ?_⟩
        rcases List.mem_cons.mp hx with rfl | hx
        · exact h'
        · exact h2 x hx
      · right
        refine ⟨a :: pre, r, post, by rw [h1]; rfl, h2, fun q hq => ?_, by rw [List.find?_cons, h']; exact h4⟩
        rcases List.mem_cons.mp hq with rfl | hq
        · exact h'
        · exact h3 q hq

theorem findCompeting_read (flag : Int) (rxns : List (Rxn ℝ)) :
    ((∃ o, Competing flag rxns o) → ∃ o, Competing flag rxns o ∧ findCompeting (flag : ℝ) rxns = .ok o) ∧
    ((¬ ∃ o, Competing flag rxns o) → findCompeting (flag : ℝ) rxns = .error .exc) := by
  unfold findCompeting
  rw [Int.floor_intCast]
  by_cases h : flag > 0
  · rw [if_pos h]
    rcases find_first (fun r : Rxn ℝ => decide ((r.mt : Int) = flag)) rxns with ⟨h1, h2⟩ | ⟨pre, r, post, h1, h2, h3, h4⟩
    · rw [h1]
      refine ⟨?_, fun _ => rfl⟩
      rintro ⟨o, ⟨hf, _⟩ | ⟨_, pre, r, post, e, hm, _⟩⟩
      · omega
      · have := h2 r (by rw [e]; simp)
        simp [hm] at this
    · rw [h4]
      have hc : Competing flag rxns (some r.xs) :=
        Or.inr ⟨h, pre, r, post, h1, by simpa using h2, fun q hq => by simpa using h3 q hq, rfl⟩
      exact ⟨fun _ => ⟨_, hc, rfl⟩, fun hn => absurd ⟨_, hc⟩ hn⟩
  · rw [if_neg h]
    have hc : Competing flag rxns none := Or.inl ⟨by omega, rfl⟩
    exact ⟨fun _ => ⟨_, hc, rfl⟩, fun hn => absurd ⟨_, hc⟩ hn⟩

/-- What a block must satisfy to be accepted. -/
def Spec.UrrBlock.Good (b : UrrBlock) (rxns : List (Rxn ℝ)) : Prop :=
  (∀ t ∈ b.tables, UrrTable t) ∧ (b.law = .linLin ∨ b.law = .logLog) ∧ (∃ o, Competing b.inelastic rxns o) ∧ ∃ o, Competing b.absorption rxns o

/-- The object holds the block. -/
structure Spec.UrrIs (b : UrrBlock) (sm : Smooth) (rxns : List (Rxn ℝ)) (u : URR) : Prop where
  interp : u.interp = b.law
  factors : u.factors = true ↔ b.factors = 1
  energy : u.energy = b.energies
  tables : List.Forall₂ HoldsTable b.tables u.tables
  inelastic : Competing b.inelastic rxns u.inelastic
  absorption : Competing b.absorption rxns u.absorption
  smooth : u.elastic = sm.elastic ∧ u.capture = sm.capture ∧ u.fission = sm.fission ∧ u.heating = sm.heating

theorem holdsTable_setLast (t : List (ℝ × Band)) (ht : t ≠ []) : HoldsTable t ⟨setLast (t.map Prod.fst) 1, t.map Prod.snd⟩ := by
  have hpos : 0 < (t.map Prod.fst).length := by rw [List.length_map]; exact List.length_pos_of_ne_nil ht
  obtain ⟨s1, s2⟩ := setLast_last (t.map Prod.fst) hpos 1
  refine ⟨rfl, by simpa using s2, s1, fun i hi => ?_⟩
  show (setLast (t.map Prod.fst) 1)[i]? = _
  unfold setLast
  rw [List.getElem?_set, if_neg]
  rw [List.length_map]
  omega

open Classical in
/-- The whole constructor. -/
theorem urr_read {xss : List ℝ} {l : Nat} {b : UrrBlock} (sm : Smooth) (rxns : List (Rxn ℝ)) (hb : b.Sized) (h : Holds xss l b.encode) :
    (b.Good rxns → ∃ u, URR.make xss (some l) sm rxns = .ok u ∧ UrrIs b sm rxns u) ∧ (¬ b.Good rxns → URR.make xss (some l) sm rxns = .error .exc) := by
  obtain ⟨hb1, hb2, hb3⟩ := hb
  unfold UrrBlock.encode at h
  have hh := h.left
  have hr := h.right
  have he := hr.left
  have ht := hr.right
  simp only [List.length_cons, List.length_nil] at he ht hr
  have g : ∀ (j : Nat) (v : ℝ), [(b.energies.length : ℝ), (b.np : ℝ), lawCode b.law, (b.inelastic : ℝ), (b.absorption : ℝ), (b.factors : ℝ)][j]? = some v →
      getAt xss (l + j) = .ok v := by
    intro j v hj
    obtain ⟨pre, post, e, hl⟩ := hh
    rw [getAt_eq_ok, e, ← hl, List.append_assoc, List.getElem?_append_right (by omega), Nat.add_sub_cancel_left]
    have : j < 6 := by
      have := (List.getElem?_eq_some_iff.mp hj).1
      simpa using this
    rw [List.getElem?_append_left (by simpa using this)]
    exact hj
  have g0 := g 0 _ rfl
  have g1 := g 1 _ rfl
  have g2 := g 2 _ rfl
  have g3 := g 3 _ rfl
  have g4 := g 4 _ rfl
  have g5 := g 5 _ rfl
  rw [Nat.add_zero] at g0
  have hen := he.slice
  have hta := readTables_read hb3 b.tables _ hb2 ht
  have hN : ∀ n : Nat, ⌊(n : ℝ)⌋.toNat = n := fun n => by simp
  have key : URR.make xss (some l) sm rxns = (do
      let tables ← readTables xss b.np b.tables.length (l + (0 + 1 + 1 + 1 + 1 + 1 + 1) + b.energies.length)
      if b.law ≠ .linLin ∧ b.law ≠ .logLog then .error .exc
      else do
        let i ← findCompeting (b.inelastic : ℝ) rxns
        let a ← findCompeting (b.absorption : ℝ) rxns
        return (⟨b.law, decide (b.factors = 1), sm.elastic, sm.capture, sm.fission, sm.heating, i, a, b.energies, tables⟩ : URR)) := by
    unfold URR.make
    dsimp only
    rw [g0, g1, g2, g3, g4, g5]
    simp only [bind, Except.bind, hN, interpOfCode_lawCode, Int.floor_intCast, hb1]
    rw [hen]
  rw [key, hta]
  by_cases t1 : ∀ t ∈ b.tables, UrrTable t
  swap
  · rw [if_neg t1]
    exact ⟨fun hg => absurd hg.1 t1, fun _ => rfl⟩
  rw [if_pos t1]
  simp only [bind, Except.bind]
  by_cases t2 : b.law ≠ .linLin ∧ b.law ≠ .logLog
  · rw [if_pos t2]
    refine ⟨fun hg => ?_, fun _ => rfl⟩
    rcases hg.2.1 with e | e
    · exact absurd e t2.1
    · exact absurd e t2.2
  rw [if_neg t2]
  have t2' : b.law = .linLin ∨ b.law = .logLog := by
    by_contra hc
    push Not at hc
    exact t2 hc
  obtain ⟨i1, i2⟩ := findCompeting_read b.inelastic rxns
  obtain ⟨a1, a2⟩ := findCompeting_read b.absorption rxns
  by_cases t3 : ∃ o, Competing b.inelastic rxns o
  swap
  · rw [i2 t3]
    exact ⟨fun hg => absurd hg.2.2.1 t3, fun _ => rfl⟩
  obtain ⟨oi, ci, ei⟩ := i1 t3
  rw [ei]
  dsimp only
  by_cases t4 : ∃ o, Competing b.absorption rxns o
  swap
  · rw [a2 t4]
    exact ⟨fun hg => absurd hg.2.2.2 t4, fun _ => rfl⟩
  obtain ⟨oa, ca, ea⟩ := a1 t4
  rw [ea]
  refine ⟨fun _ => ⟨_, rfl, rfl, by simp, rfl, ?_, ci, ca, rfl, rfl, rfl, rfl⟩, fun hn => absurd ⟨t1, t2', t3, t4⟩ hn⟩
  show List.Forall₂ HoldsTable b.tables (b.tables.map fun t => (⟨setLast (t.map Prod.fst) 1, t.map Prod.snd⟩ : PTab))
  rw [List.forall₂_map_right_iff, List.forall₂_same]
  intro t ht
  refine holdsTable_setLast t ?_
  rintro rfl
  have := hb2 _ ht
  simp at this
  omega

/-- C106, a file with a sensible block: the object holds its numbers, every column where the format puts it. -/
theorem C106_read (xss : List ℝ) (l : Nat) (b : UrrBlock) (sm : Smooth) (rxns : List (Rxn ℝ)) (hb : b.Sized) (h : Holds xss l b.encode)
    (hg : b.Good rxns) : ∃ u, URR.make xss (some l) sm rxns = .ok u ∧ UrrIs b sm rxns u := (urr_read sm rxns hb h).1 hg

/-- C106, any other block is refused with an exception. -/
theorem C106_refuse (xss : List ℝ) (l : Nat) (b : UrrBlock) (sm : Smooth) (rxns : List (Rxn ℝ)) (hb : b.Sized) (h : Holds xss l b.encode)
    (hg : ¬ b.Good rxns) : URR.make xss (some l) sm rxns = .error .exc := (urr_read sm rxns hb h).2 hg

/-- C106, a file without the block: no tables. -/
theorem C106_absent (xss : List ℝ) (sm : Smooth) (rxns : List (Rxn ℝ)) :
    ∃ u, URR.make xss none sm rxns = .ok u ∧ u.energy = [] ∧ u.tables = [] ∧ ∀ E, u.inRange E = .ok false := ⟨_, rfl, rfl, rfl, fun _ => rfl⟩

/-! ### Example -/

/-- Two energies, two bands, competing inelastic cross section given by MT 51. -/
noncomputable def exUrrBlock : UrrBlock where
  law := .logLog
  inelastic := 51
  absorption := -1
  factors := 1
  energies := [1, 2]
  np := 2
  tables := [[(1 / 4, ⟨3, 2, 1 / 2, 1 / 2, -1⟩), (1, ⟨5, 4, 1, 0, 2⟩)], [(1 / 2, ⟨1, 1, 0, 0, 0⟩), (1, ⟨2, 1, 1, 0, 7⟩)]]

example (r : Rxn ℝ) (hr : r.mt = 51) : exUrrBlock.Sized ∧ exUrrBlock.Good [r] ∧ Holds ([9, 9] ++ exUrrBlock.encode ++ [3]) 2 exUrrBlock.encode := by
  refine ⟨⟨rfl, by simp [exUrrBlock], by simp [exUrrBlock]⟩, ⟨?_, Or.inr rfl, ⟨some r.xs, Or.inr ⟨by norm_num [exUrrBlock], [], r, [], rfl, by simp [hr, exUrrBlock], by simp, rfl⟩⟩,
    none, Or.inl ⟨by norm_num [exUrrBlock], rfl⟩⟩, _, _, rfl, rfl⟩
  intro t ht
  simp only [exUrrBlock, List.mem_cons, List.not_mem_nil, or_false] at ht
  rcases ht with rfl | rfl
  · exact ⟨by norm_num, by norm_num, by norm_num, by norm_num⟩
  · exact ⟨by norm_num, by norm_num, by norm_num, by norm_num⟩

end PNDL
