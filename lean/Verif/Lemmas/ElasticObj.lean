import Verif.Spec.ElasticObj
import Verif.Lemmas.STNeutron

/-! Use counts are the numbers of owners. -/
namespace PNDL
open Spec

/-- The use count of a cell, zero for one that does not exist. -/
def rcCnt {α : Type} (h : List (RcCell α)) (i : Nat) : Nat := match h[i]? with | some c => c.count | none => 0

/-- The cell holds a live elastic distribution with broadener `j`. -/
def usesBrd (j : Nat) (c : RcCell EObj) : Bool := decide (0 < c.count ∧ c.val.brd = j)

theorem countP_set_add {α : Type} {l : List α} {i : Nat} {c a : α} (h : l[i]? = some c) (p : α → Bool) :
    (l.set i a).countP p + (if p c then 1 else 0) = l.countP p + (if p a then 1 else 0) := by
  obtain ⟨hi, hc⟩ := List.getElem?_eq_some_iff.mp h
  rw [List.countP_set hi, hc]
  by_cases hp : p c
  · have : 0 < l.countP p := List.countP_pos_iff.mpr ⟨c, List.mem_of_getElem? h, hp⟩
    simp only [hp, if_true]
    omega
  · simp only [hp, Bool.false_eq_true, if_false]
    omega

theorem count_set_add {l : List (Option Nat)} {i : Nat} {c a : Option Nat} (h : l[i]? = some c) (b : Option Nat) :
    (l.set i a).count b + (if c = b then 1 else 0) = l.count b + (if a = b then 1 else 0) := by
  have := countP_set_add (a := a) h (fun x => x == b)
  simpa [List.count] using this

section
variable {α : Type} {h h' : List (RcCell α)} {i : Nat}

theorem rcCnt_set {c : RcCell α} (hc : h[i]? = some c) (a : RcCell α) (k : Nat) : rcCnt (h.set i a) k = if k = i then a.count else rcCnt h k := by
  unfold rcCnt
  rw [List.getElem?_set]
  obtain ⟨hi, _⟩ := List.getElem?_eq_some_iff.mp hc
  by_cases hk : k = i
  · subst hk
    rw [if_pos rfl, if_pos hi, if_pos rfl]
  · rw [if_neg (fun e => hk e.symm), if_neg hk]

theorem rcCnt_append (c : RcCell α) (k : Nat) : rcCnt (h ++ [c]) k = if k = h.length then c.count else rcCnt h k := by
  unfold rcCnt
  rw [List.getElem?_append]
  by_cases hk : k < h.length
  · rw [if_pos hk, if_neg (by omega)]
  · rw [if_neg hk]
    by_cases he : k = h.length
    · subst he; simp
    · rw [if_neg he, List.getElem?_eq_none (by simp; omega), List.getElem?_eq_none (by omega)]

theorem rcCnt_none (hk : h.length ≤ i) : rcCnt h i = 0 := by unfold rcCnt; rw [List.getElem?_eq_none hk]

theorem rcCnt_some (hp : 0 < rcCnt h i) : ∃ c, h[i]? = some c ∧ c.count = rcCnt h i := by
  unfold rcCnt at *
  cases hc : h[i]? with
  | none => rw [hc] at hp; simp at hp
  | some c => exact ⟨c, rfl, rfl⟩

theorem rcGet_ok (hp : 0 < rcCnt h i) : ∃ c, h[i]? = some c ∧ c.count = rcCnt h i ∧ rcGet h i = .ok c.val := by
  obtain ⟨c, hc, e⟩ := rcCnt_some hp
  refine ⟨c, hc, e, ?_⟩
  unfold rcGet
  rw [hc]
  exact if_neg (by omega)

theorem rcGet_pos {x : α} (hg : rcGet h i = .ok x) : 0 < rcCnt h i ∧ ∃ c, h[i]? = some c ∧ c.val = x := by
  unfold rcGet at hg
  unfold rcCnt
  cases hc : h[i]? with
  | none => rw [hc] at hg; cases hg
  | some c =>
    rw [hc] at hg
    by_cases h0 : c.count = 0
    · simp [h0] at hg
    · simp only [h0, if_false] at hg
      exact ⟨Nat.pos_of_ne_zero h0, c, rfl, Except.ok.inj hg⟩

theorem rcInc_ok (hp : 0 < rcCnt h i) : ∃ c, h[i]? = some c ∧ c.count = rcCnt h i ∧ rcInc h i = .ok (h.set i ⟨c.val, c.count + 1⟩) := by
  obtain ⟨c, hc, e⟩ := rcCnt_some hp
  refine ⟨c, hc, e, ?_⟩
  unfold rcInc
  rw [hc]
  exact if_neg (by omega)

theorem rcDec_ok (hp : 0 < rcCnt h i) : ∃ c, h[i]? = some c ∧ c.count = rcCnt h i ∧ rcDec h i = .ok (h.set i ⟨c.val, c.count - 1⟩) := by
  obtain ⟨c, hc, e⟩ := rcCnt_some hp
  refine ⟨c, hc, e, ?_⟩
  unfold rcDec
  rw [hc]
  exact if_neg (by omega)

/-- The contents of a cell do not change with its count. -/
theorem val_set {c : RcCell α} (hc : h[i]? = some c) (n k : Nat) : ((h.set i ⟨c.val, n⟩)[k]?).map RcCell.val = (h[k]?).map RcCell.val := by
  rw [List.getElem?_set]
  obtain ⟨hi, _⟩ := List.getElem?_eq_some_iff.mp hc
  by_cases hk : i = k
  · subst hk
    rw [if_pos rfl, if_pos hi, hc]
    rfl
  · rw [if_neg hk]

end

/-- Use counts are the numbers of owners. -/
structure ElInv (w : ElWorld) : Prop where
  els : ∀ i, rcCnt w.els i = w.nucs.count (some i)
  brds : ∀ j, rcCnt w.brds j = w.handles.count (some j) + w.els.countP (usesBrd j)

theorem count_pos_of_get {l : List (Option Nat)} {v i : Nat} (h : l[v]? = some (some i)) : 0 < l.count (some i) :=
  List.count_pos_iff.mpr (List.mem_of_getElem? h)

namespace ElInv
variable {w : ElWorld}

theorem el_pos (I : ElInv w) {v i : Nat} (h : w.nucs[v]? = some (some i)) : 0 < rcCnt w.els i := by
  rw [I.els]; exact count_pos_of_get h

theorem brd_pos (I : ElInv w) {i : Nat} {c : RcCell EObj} (h : w.els[i]? = some c) (hp : 0 < c.count) : 0 < rcCnt w.brds c.val.brd := by
  rw [I.brds]
  have : 0 < w.els.countP (usesBrd c.val.brd) := List.countP_pos_iff.mpr ⟨c, List.mem_of_getElem? h, by simp [usesBrd, hp]⟩
  omega

theorem handle_pos (I : ElInv w) {h j : Nat} (e : w.handles[h]? = some (some j)) : 0 < rcCnt w.brds j := by
  rw [I.brds]; have := count_pos_of_get e; omega

theorem empty : ElInv ElWorld.empty := ⟨fun _ => rfl, fun _ => rfl⟩

end ElInv

/-- What a cell holds, alive or not. -/
def rcVal {α : Type} (h : List (RcCell α)) (i : Nat) : Option α := (h[i]?).map RcCell.val

/-- Every cell of `h` is in `h'` with the same contents. -/
def Keeps {α : Type} (h h' : List (RcCell α)) : Prop := ∀ k x, rcVal h k = some x → rcVal h' k = some x

theorem Keeps.refl {α : Type} (h : List (RcCell α)) : Keeps h h := fun _ _ e => e
theorem Keeps.trans {α : Type} {h h' h'' : List (RcCell α)} (a : Keeps h h') (b : Keeps h' h'') : Keeps h h'' := fun k x e => b k x (a k x e)
theorem Keeps.append {α : Type} (h : List (RcCell α)) (c : RcCell α) : Keeps h (h ++ [c]) := by
  intro k x e
  unfold rcVal at *
  cases hk : h[k]? with
  | none => rw [hk] at e; cases e
  | some y =>
    obtain ⟨hl, _⟩ := List.getElem?_eq_some_iff.mp hk
    rw [List.getElem?_append_left hl, hk, ← hk]
    exact e
theorem Keeps.count {α : Type} {h : List (RcCell α)} {i : Nat} {c : RcCell α} (hc : h[i]? = some c) (n : Nat) : Keeps h (h.set i ⟨c.val, n⟩) := by
  intro k x e
  unfold rcVal at *
  rw [val_set hc]
  exact e

/-- Releasing one pending pointer to cell `i`. -/
theorem dropEl_ok {w : ElWorld} {N : Nat → Nat} {i : Nat} (h1 : ∀ k, rcCnt w.els k = N k + if k = i then 1 else 0)
    (h2 : ∀ j, rcCnt w.brds j = w.handles.count (some j) + w.els.countP (usesBrd j)) :
    ∃ w', w.dropEl i = .ok w' ∧ (∀ k, rcCnt w'.els k = N k) ∧ (∀ j, rcCnt w'.brds j = w'.handles.count (some j) + w'.els.countP (usesBrd j)) ∧
      w'.nucs = w.nucs ∧ w'.handles = w.handles ∧ Keeps w.brds w'.brds ∧ Keeps w.els w'.els := by
  have hp : 0 < rcCnt w.els i := by rw [h1, if_pos rfl]; omega
  obtain ⟨c, hc, ec, hg⟩ := rcGet_ok hp
  obtain ⟨c', hc', _, hd⟩ := rcDec_ok hp
  rw [hc] at hc'
  cases hc'
  obtain ⟨hi, _⟩ := List.getElem?_eq_some_iff.mp hc
  have hel : ∀ k, rcCnt (w.els.set i ⟨c.val, c.count - 1⟩) k = N k := by
    intro k
    rw [rcCnt_set hc]
    by_cases hk : k = i
    · subst hk
      rw [if_pos rfl]
      show c.count - 1 = N k
      rw [ec, h1, if_pos rfl]
      omega
    · rw [if_neg hk, h1, if_neg hk]
      rfl
  have hget : (w.els.set i ⟨c.val, c.count - 1⟩)[i]? = some ⟨c.val, c.count - 1⟩ := by rw [List.getElem?_set_self hi]
  have hcp : ∀ j, (w.els.set i ⟨c.val, c.count - 1⟩).countP (usesBrd j) + (if usesBrd j c then 1 else 0) =
      w.els.countP (usesBrd j) + (if usesBrd j ⟨c.val, c.count - 1⟩ then 1 else 0) := fun j => countP_set_add hc (usesBrd j)
  by_cases h0 : c.count - 1 = 0
  · have hb : 0 < rcCnt w.brds c.val.brd := by
      rw [h2]
      have : 0 < w.els.countP (usesBrd c.val.brd) := List.countP_pos_iff.mpr ⟨c, List.mem_of_getElem? hc, by simp [usesBrd]; omega⟩
      omega
    obtain ⟨b, hb1, hb2, hb3⟩ := rcDec_ok hb
    refine ⟨{ w with els := w.els.set i ⟨c.val, c.count - 1⟩, brds := w.brds.set c.val.brd ⟨b.val, b.count - 1⟩ }, ?_, hel, ?_, rfl, rfl,
      Keeps.count hb1 _, Keeps.count hc _⟩
    · unfold ElWorld.dropEl
      simp only [hg, hd, hget, bind, Except.bind, pure, Except.pure]
      rw [if_pos h0]
      simp only [hb3]
    · intro j
      have q := hcp j
      show rcCnt (w.brds.set c.val.brd ⟨b.val, b.count - 1⟩) j = w.handles.count (some j) + (w.els.set i ⟨c.val, c.count - 1⟩).countP (usesBrd j)
      rw [rcCnt_set hb1]
      have e2 : usesBrd j ⟨c.val, c.count - 1⟩ = false := by simp [usesBrd]; omega
      rw [e2] at q
      by_cases hj : j = c.val.brd
      · subst hj
        rw [if_pos rfl]
        have e1 : usesBrd c.val.brd c = true := by simp [usesBrd]; omega
        rw [e1] at q
        have := h2 c.val.brd
        show b.count - 1 = _
        simp only [if_true, Bool.false_eq_true, if_false] at q
        omega
      · rw [if_neg hj]
        have e1 : usesBrd j c = false := by simp [usesBrd]; intro _ e; exact hj e.symm
        rw [e1] at q
        have := h2 j
        simp only [Bool.false_eq_true, if_false] at q
        omega
  · refine ⟨{ w with els := w.els.set i ⟨c.val, c.count - 1⟩ }, ?_, hel, ?_, rfl, rfl, Keeps.refl _, Keeps.count hc _⟩
    · unfold ElWorld.dropEl
      simp only [hg, hd, hget, bind, Except.bind, pure, Except.pure]
      rw [if_neg h0]
    · intro j
      have q := hcp j
      have e : usesBrd j ⟨c.val, c.count - 1⟩ = usesBrd j c := by
        unfold usesBrd
        exact decide_eq_decide.mpr ⟨fun ⟨_, b⟩ => ⟨by omega, b⟩, fun ⟨_, b⟩ => ⟨by show 0 < c.count - 1; omega, b⟩⟩
      rw [e] at q
      show rcCnt w.brds j = w.handles.count (some j) + (w.els.set i ⟨c.val, c.count - 1⟩).countP (usesBrd j)
      rw [h2]
      omega

theorem rcVal_some {α : Type} {h : List (RcCell α)} {i : Nat} (hp : 0 < rcCnt h i) : ∃ x, rcVal h i = some x ∧ rcGet h i = .ok x := by
  obtain ⟨c, hc, _, hg⟩ := rcGet_ok hp
  exact ⟨c.val, by unfold rcVal; rw [hc]; rfl, hg⟩

/-- What `v.elastic()` is. -/
theorem elastic_val {w : ElWorld} (I : ElInv w) {v i : Nat} (h : w.nucs[v]? = some (some i)) : ∃ e b, rcVal w.els i = some e ∧ rcVal w.brds e.brd = some b ∧
    w.elastic v = .ok { e.base with broadener := some b } ∧ w.broadenerRef v = .ok e.brd ∧ 0 < rcCnt w.brds e.brd := by
  obtain ⟨c, hc, ec, hg⟩ := rcGet_ok (I.el_pos h)
  have hp := I.brd_pos hc (by rw [ec]; exact I.el_pos h)
  obtain ⟨b, hb, hbg⟩ := rcVal_some hp
  refine ⟨c.val, b, by unfold rcVal; rw [hc]; rfl, hb, ?_, ?_, hp⟩
  · unfold ElWorld.elastic
    rw [h]
    simp only [hg, hbg, bind, Except.bind, pure, Except.pure]
  · unfold ElWorld.broadenerRef
    rw [h]
    simp only [hg, bind, Except.bind, pure, Except.pure]

/-- The distribution a nuclide had is the one it has, if its pointer and the objects behind it are kept. -/
theorem elastic_keep {w w' : ElWorld} (I : ElInv w) (I' : ElInv w') {v v' i : Nat} (h : w.nucs[v]? = some (some i)) (h' : w'.nucs[v']? = some (some i))
    (hb : Keeps w.brds w'.brds) (he : ∀ x, rcVal w.els i = some x → rcVal w'.els i = some x) : w'.elastic v' = w.elastic v := by
  obtain ⟨e, b, h1, h2, h3, _⟩ := elastic_val I h
  obtain ⟨e', b', g1, g2, g3, _⟩ := elastic_val I' h'
  rw [he _ h1] at g1
  cases g1
  rw [hb _ _ h2] at g2
  cases g2
  rw [h3, g3]

/-- Copying a pointer to a broadener changes counts only. -/
theorem rcInc_keeps {α : Type} {h : List (RcCell α)} {i : Nat} (hp : 0 < rcCnt h i) :
    ∃ h', rcInc h i = .ok h' ∧ Keeps h h' ∧ ∀ k, rcCnt h' k = rcCnt h k + if k = i then 1 else 0 := by
  obtain ⟨c, hc, ec, e⟩ := rcInc_ok hp
  refine ⟨_, e, Keeps.count hc _, fun k => ?_⟩
  rw [rcCnt_set hc]
  by_cases hk : k = i
  · subst hk; rw [if_pos rfl, if_pos rfl]; show c.count + 1 = _; omega
  · rw [if_neg hk, if_neg hk]; rfl

theorem rcDec_keeps {α : Type} {h : List (RcCell α)} {i : Nat} (hp : 0 < rcCnt h i) :
    ∃ h', rcDec h i = .ok h' ∧ Keeps h h' ∧ ∀ k, rcCnt h' k + (if k = i then 1 else 0) = rcCnt h k := by
  obtain ⟨c, hc, ec, e⟩ := rcDec_ok hp
  refine ⟨_, e, Keeps.count hc _, fun k => ?_⟩
  rw [rcCnt_set hc]
  by_cases hk : k = i
  · subst hk; rw [if_pos rfl, if_pos rfl]; show c.count - 1 + 1 = _; omega
  · rw [if_neg hk, if_neg hk]; rfl

theorem count_append_some (l : List (Option Nat)) (i k : Nat) : (l ++ [some i]).count (some k) = l.count (some k) + if k = i then 1 else 0 := by
  rw [List.count_append]
  by_cases h : k = i
  · subst h; simp
  · rw [if_neg h, List.count_cons_of_ne (by simpa using fun e => h e.symm)]; rfl

theorem usesBrd_count (j : Nat) (e : EObj) {m n : Nat} (hm : 0 < m) (hn : 0 < n) : usesBrd j ⟨e, m⟩ = usesBrd j ⟨e, n⟩ := by
  unfold usesBrd
  exact decide_eq_decide.mpr ⟨fun ⟨_, b⟩ => ⟨hn, b⟩, fun ⟨_, b⟩ => ⟨hm, b⟩⟩

theorem usesBrd_live (j : Nat) (e : EObj) {m : Nat} (hm : 0 < m) : (if usesBrd j ⟨e, m⟩ = true then 1 else 0) = if j = e.brd then 1 else 0 := by
  by_cases h : j = e.brd
  · rw [if_pos h, if_pos (by simp [usesBrd, hm, h])]
  · rw [if_neg h, if_neg (by simp [usesBrd, hm]; exact fun e => h e.symm)]

/-- No more references to a list of elastic cells than the counts say: cells that do not exist have no owners. -/
theorem ElInv.no_owner {w : ElWorld} (I : ElInv w) : w.nucs.count (some w.els.length) = 0 := by rw [← I.els, rcCnt_none le_rfl]
theorem ElInv.no_owner_brd {w : ElWorld} (I : ElInv w) : w.handles.count (some w.brds.length) = 0 ∧ w.els.countP (usesBrd w.brds.length) = 0 := by
  have := I.brds w.brds.length
  rw [rcCnt_none le_rfl] at this
  omega

theorem store_eq {w : ElWorld} {i : Nat} {c : RcCell EObj} (hc : w.els[i]? = some c) (e : EObj) :
    w.store i e = { w with els := w.els.set i ⟨e, c.count⟩ } := by
  unfold ElWorld.store
  rw [hc]


/-! ### The statements one by one -/
section
variable {w : ElWorld} (I : ElInv w)
include I

theorem step_newBroadener (b : Broadener) : ∃ w', w.step (.newBroadener b) = .ok w' ∧ ElInv w' ∧ Keeps w.brds w'.brds ∧ w'.els = w.els ∧ w'.nucs = w.nucs := by
  refine ⟨_, rfl, ⟨I.els, fun j => ?_⟩, Keeps.append _ _, rfl, rfl⟩
  show rcCnt (w.brds ++ [⟨b, 1⟩]) j = (w.handles ++ [some w.brds.length]).count (some j) + w.els.countP (usesBrd j)
  rw [rcCnt_append, count_append_some]
  by_cases h : j = w.brds.length
  · subst h; rw [if_pos rfl, if_pos rfl]; obtain ⟨h1, h2⟩ := I.no_owner_brd; rw [h1, h2]
  · rw [if_neg h, if_neg h, I.brds]; rfl

theorem step_dropBroadener (h : Nat) : ∃ w', w.step (.dropBroadener h) = .ok w' ∧ ElInv w' ∧ Keeps w.brds w'.brds ∧ w'.els = w.els ∧ w'.nucs = w.nucs := by
  by_cases hh : ∃ j, w.handles[h]? = some (some j)
  · obtain ⟨j, hj⟩ := hh
    obtain ⟨brds, e1, e2, e3⟩ := rcDec_keeps (I.handle_pos hj)
    refine ⟨{ w with brds := brds, handles := w.handles.set h none }, ?_, ⟨I.els, fun k => ?_⟩, e2, rfl, rfl⟩
    · unfold ElWorld.step
      simp only [hj, e1, bind, Except.bind, pure, Except.pure]
    · have q := count_set_add (a := none) hj (some k)
      have q2 := e3 k
      have q3 := I.brds k
      show rcCnt brds k = (w.handles.set h none).count (some k) + w.els.countP (usesBrd k)
      simp only [Option.some.injEq, reduceCtorEq, if_false] at q
      by_cases hk : k = j
      · subst hk; simp only [if_true] at q q2; omega
      · rw [if_neg hk] at q2; rw [if_neg (fun e => hk e.symm)] at q; omega
  · refine ⟨w, ?_, I, Keeps.refl _, rfl, rfl⟩
    unfold ElWorld.step
    cases hc : w.handles[h]? with
    | none => simp only [hc]
    | some o => cases o with
      | none => simp only [hc]
      | some j => exact absurd ⟨j, hc⟩ hh

theorem step_newNuc (e : Elastic) (b : Broadener) : ∃ w', w.step (.newNuc e b) = .ok w' ∧ ElInv w' ∧ Keeps w.brds w'.brds ∧ Keeps w.els w'.els ∧
    w'.nucs = w.nucs ++ [some w.els.length] ∧ rcVal w'.els w.els.length = some ⟨e, w.brds.length⟩ ∧ rcVal w'.brds w.brds.length = some b ∧ w'.handles = w.handles := by
  refine ⟨_, rfl, ⟨fun i => ?_, fun j => ?_⟩, Keeps.append _ _, Keeps.append _ _, rfl, ?_, ?_, rfl⟩
  · show rcCnt (w.els ++ [⟨⟨e, w.brds.length⟩, 1⟩]) i = (w.nucs ++ [some w.els.length]).count (some i)
    rw [rcCnt_append, count_append_some]
    by_cases h : i = w.els.length
    · subst h; rw [if_pos rfl, if_pos rfl, I.no_owner]
    · rw [if_neg h, if_neg h, I.els]; rfl
  · show rcCnt (w.brds ++ [⟨b, 1⟩]) j = w.handles.count (some j) + (w.els ++ [(⟨⟨e, w.brds.length⟩, 1⟩ : RcCell EObj)]).countP (usesBrd j)
    rw [rcCnt_append, List.countP_append, List.countP_singleton, usesBrd_live j _ one_pos]
    by_cases h : j = w.brds.length
    · subst h; rw [if_pos rfl, if_pos rfl]; obtain ⟨h1, h2⟩ := I.no_owner_brd; rw [h1, h2]
    · rw [if_neg h, if_neg h, I.brds]; rfl
  · simp [rcVal]
  · simp [rcVal]

theorem step_derive {v i : Nat} (hv : w.nucs[v]? = some (some i)) (T : ℝ) : ∃ w' e, w.step (.derive v T) = .ok w' ∧ ElInv w' ∧ Keeps w.brds w'.brds ∧
    Keeps w.els w'.els ∧ w'.nucs = w.nucs ++ [some w.els.length] ∧ rcVal w.els i = some e ∧
    rcVal w'.els w.els.length = some ⟨(e.base.step (.setTemperature T)).1, e.brd⟩ ∧ w'.handles = w.handles := by
  obtain ⟨c, hc, ec, hg⟩ := rcGet_ok (I.el_pos hv)
  have hb := I.brd_pos hc (by rw [ec]; exact I.el_pos hv)
  obtain ⟨brds, e1, e2, e3⟩ := rcInc_keeps hb
  refine ⟨{ w with brds := brds, els := w.els ++ [⟨⟨(c.val.base.step (.setTemperature T)).1, c.val.brd⟩, 1⟩], nucs := w.nucs ++ [some w.els.length] }, c.val, ?_,
    ⟨fun k => ?_, fun j => ?_⟩, e2, Keeps.append _ _, rfl, ?_, ?_, rfl⟩
  · unfold ElWorld.step
    simp only [hv, hg, e1, bind, Except.bind, pure, Except.pure]
  · show rcCnt (w.els ++ [⟨⟨(c.val.base.step (.setTemperature T)).1, c.val.brd⟩, 1⟩]) k = (w.nucs ++ [some w.els.length]).count (some k)
    rw [rcCnt_append, count_append_some]
    by_cases h : k = w.els.length
    · subst h; rw [if_pos rfl, if_pos rfl, I.no_owner]
    · rw [if_neg h, if_neg h, I.els]; rfl
  · show rcCnt brds j = w.handles.count (some j) + (w.els ++ [(⟨⟨(c.val.base.step (.setTemperature T)).1, c.val.brd⟩, 1⟩ : RcCell EObj)]).countP (usesBrd j)
    rw [List.countP_append, List.countP_singleton, usesBrd_live j _ one_pos, e3, I.brds]
    dsimp only
    omega
  · simp [rcVal, hc]
  · simp [rcVal]

theorem step_copy {v i : Nat} (hv : w.nucs[v]? = some (some i)) : ∃ w', w.step (.copy v) = .ok w' ∧ ElInv w' ∧ Keeps w.brds w'.brds ∧ Keeps w.els w'.els ∧
    w'.nucs = w.nucs ++ [some i] ∧ w'.handles = w.handles := by
  obtain ⟨c, hc, ec, hi⟩ := rcInc_ok (I.el_pos hv)
  have hp := I.el_pos hv
  refine ⟨{ w with els := w.els.set i ⟨c.val, c.count + 1⟩, nucs := w.nucs ++ [some i] }, ?_, ⟨fun k => ?_, fun j => ?_⟩, Keeps.refl _, Keeps.count hc _, rfl, rfl⟩
  · unfold ElWorld.step
    simp only [hv, hi, bind, Except.bind, pure, Except.pure]
  · show rcCnt (w.els.set i ⟨c.val, c.count + 1⟩) k = (w.nucs ++ [some i]).count (some k)
    rw [rcCnt_set hc, count_append_some, ← I.els]
    by_cases h : k = i
    · subst h; rw [if_pos rfl, if_pos rfl]; show c.count + 1 = _; omega
    · rw [if_neg h, if_neg h]; rfl
  · have q := countP_set_add (a := ⟨c.val, c.count + 1⟩) hc (usesBrd j)
    have e : usesBrd j ⟨c.val, c.count + 1⟩ = usesBrd j c := usesBrd_count j c.val (Nat.succ_pos _) (by omega)
    rw [e] at q
    show rcCnt w.brds j = w.handles.count (some j) + (w.els.set i ⟨c.val, c.count + 1⟩).countP (usesBrd j)
    rw [I.brds]
    omega

theorem step_destroy {v i : Nat} (hv : w.nucs[v]? = some (some i)) : ∃ w', w.step (.destroy v) = .ok w' ∧ ElInv w' ∧ Keeps w.brds w'.brds ∧
    Keeps w.els w'.els ∧ w'.nucs = w.nucs.set v none ∧ w'.handles = w.handles := by
  obtain ⟨w', e, h1, h2, h3, h4, h5, h6⟩ := dropEl_ok (w := w) (N := fun k => (w.nucs.set v none).count (some k)) (i := i) (fun k => by
    have q := count_set_add (a := none) hv (some k)
    simp only [Option.some.injEq, reduceCtorEq, if_false] at q
    rw [I.els]
    by_cases h : k = i
    · subst h; simp only [if_true] at q ⊢; omega
    · rw [if_neg (fun e => h e.symm)] at q; rw [if_neg h]; omega) I.brds
  refine ⟨{ w' with nucs := w'.nucs.set v none }, ?_, ⟨fun k => ?_, h2⟩, h5, h6, by rw [← h3], h4⟩
  · unfold ElWorld.step
    simp only [hv, e, bind, Except.bind, pure, Except.pure]
  · show rcCnt w'.els k = (w'.nucs.set v none).count (some k)
    rw [h1, h3]

theorem step_assign {v u i j : Nat} (hv : w.nucs[v]? = some (some i)) (hu : w.nucs[u]? = some (some j)) : ∃ w', w.step (.assign v u) = .ok w' ∧ ElInv w' ∧
    Keeps w.brds w'.brds ∧ Keeps w.els w'.els ∧ w'.nucs = w.nucs.set v (some j) ∧ w'.handles = w.handles := by
  obtain ⟨c, hc, ec, hi⟩ := rcInc_ok (I.el_pos hu)
  have hp := I.el_pos hu
  obtain ⟨w', e, h1, h2, h3, h4, h5, h6⟩ := dropEl_ok (w := { w with els := w.els.set j ⟨c.val, c.count + 1⟩ })
    (N := fun k => (w.nucs.set v (some j)).count (some k)) (i := i) (fun k => by
    have q := count_set_add (a := some j) hv (some k)
    simp only [Option.some.injEq] at q
    show rcCnt (w.els.set j ⟨c.val, c.count + 1⟩) k = _
    rw [rcCnt_set hc]
    have q2 := I.els k
    have e1 : (if i = k then 1 else 0) = if k = i then 1 else 0 := by simp only [eq_comm]
    have e2 : (if j = k then 1 else 0) = if k = j then 1 else 0 := by simp only [eq_comm]
    rw [e1, e2] at q
    by_cases h : k = j
    · subst h
      rw [if_pos rfl]
      rw [if_pos rfl] at q
      show c.count + 1 = _
      omega
    · rw [if_neg h]
      rw [if_neg h] at q
      omega) (fun k => by
    have q := countP_set_add (a := ⟨c.val, c.count + 1⟩) hc (usesBrd k)
    have e : usesBrd k ⟨c.val, c.count + 1⟩ = usesBrd k c := usesBrd_count k c.val (Nat.succ_pos _) (by omega)
    rw [e] at q
    show rcCnt w.brds k = w.handles.count (some k) + (w.els.set j ⟨c.val, c.count + 1⟩).countP (usesBrd k)
    rw [I.brds]
    omega)
  refine ⟨{ w' with nucs := w'.nucs.set v (some j) }, ?_, ⟨fun k => ?_, h2⟩, h5, (Keeps.count hc _).trans h6, by rw [← h3], h4⟩
  · unfold ElWorld.step
    simp only [hv, hu, hi, e, bind, Except.bind, pure, Except.pure]
  · show rcCnt w'.els k = (w'.nucs.set v (some j)).count (some k)
    rw [h1, h3]

theorem step_set {v i : Nat} (hv : w.nucs[v]? = some (some i)) (s : Setting) : ∃ w' e, w.step (.set v s) = .ok w' ∧ ElInv w' ∧ w'.brds = w.brds ∧
    rcVal w.els i = some e ∧ (∀ k, rcVal w'.els k = if k = i then some ⟨(e.base.step s.op).1, e.brd⟩ else rcVal w.els k) ∧ w'.nucs = w.nucs ∧ w'.handles = w.handles := by
  obtain ⟨c, hc, ec, hg⟩ := rcGet_ok (I.el_pos hv)
  obtain ⟨hi, _⟩ := List.getElem?_eq_some_iff.mp hc
  refine ⟨{ w with els := w.els.set i ⟨⟨(c.val.base.step s.op).1, c.val.brd⟩, c.count⟩ }, c.val, ?_, ⟨fun k => ?_, fun j => ?_⟩, rfl, ?_, fun k => ?_, rfl, rfl⟩
  · unfold ElWorld.step
    simp only [hv, hg, bind, Except.bind, pure, Except.pure]
    rw [store_eq hc]
  · show rcCnt (w.els.set i _) k = w.nucs.count (some k)
    rw [rcCnt_set hc, ← I.els]
    by_cases h : k = i
    · subst h; rw [if_pos rfl]; exact ec
    · rw [if_neg h]
  · have q := countP_set_add (a := ⟨⟨(c.val.base.step s.op).1, c.val.brd⟩, c.count⟩) hc (usesBrd j)
    have e : usesBrd j ⟨⟨(c.val.base.step s.op).1, c.val.brd⟩, c.count⟩ = usesBrd j c := rfl
    rw [e] at q
    show rcCnt w.brds j = w.handles.count (some j) + (w.els.set i _).countP (usesBrd j)
    rw [I.brds]
    omega
  · simp [rcVal, hc]
  · show ((w.els.set i _)[k]?).map RcCell.val = _
    rw [List.getElem?_set]
    by_cases h : k = i
    · subst h; rw [if_pos rfl, if_pos hi, if_pos rfl]; rfl
    · rw [if_neg (fun e => h e.symm), if_neg h]; rfl

theorem step_setBroadener {v i h j : Nat} (hv : w.nucs[v]? = some (some i)) (hh : w.handles[h]? = some (some j)) :
    ∃ w' e, w.step (.setBroadener v (some h)) = .ok w' ∧ ElInv w' ∧ Keeps w.brds w'.brds ∧ rcVal w.els i = some e ∧
      (∀ k, rcVal w'.els k = if k = i then some ⟨e.base, j⟩ else rcVal w.els k) ∧ w'.nucs = w.nucs ∧ w'.handles = w.handles := by
  obtain ⟨c, hc, ec, hg⟩ := rcGet_ok (I.el_pos hv)
  obtain ⟨hi, _⟩ := List.getElem?_eq_some_iff.mp hc
  have hcp : 0 < c.count := by rw [ec]; exact I.el_pos hv
  have hb := I.brd_pos hc hcp
  obtain ⟨b1, e1, e2, e3⟩ := rcInc_keeps (I.handle_pos hh)
  obtain ⟨b2, g1, g2, g3⟩ := rcDec_keeps (h := b1) (i := c.val.brd) (by rw [e3]; omega)
  refine ⟨{ w with brds := b2, els := w.els.set i ⟨⟨c.val.base, j⟩, c.count⟩ }, c.val, ?_, ⟨fun k => ?_, fun k => ?_⟩, e2.trans g2, ?_, fun k => ?_, rfl, rfl⟩
  · unfold ElWorld.step
    simp only [hv, hh, hg, e1, g1, bind, Except.bind, pure, Except.pure]
    rw [store_eq (w := { w with brds := b2 }) hc]
  · show rcCnt (w.els.set i _) k = w.nucs.count (some k)
    rw [rcCnt_set hc, ← I.els]
    by_cases h : k = i
    · subst h; rw [if_pos rfl]; exact ec
    · rw [if_neg h]
  · have q := countP_set_add (a := ⟨⟨c.val.base, j⟩, c.count⟩) hc (usesBrd k)
    have e' := usesBrd_live k ⟨c.val.base, j⟩ hcp
    have e : (if usesBrd k c = true then 1 else 0) = if k = c.val.brd then 1 else 0 := usesBrd_live k c.val hcp
    rw [e, e'] at q
    have q1 := e3 k
    have q2 := g3 k
    have q3 := I.brds k
    show rcCnt b2 k = w.handles.count (some k) + (w.els.set i _).countP (usesBrd k)
    simp only at q
    omega
  · simp [rcVal, hc]
  · show ((w.els.set i _)[k]?).map RcCell.val = _
    rw [List.getElem?_set]
    by_cases h : k = i
    · subst h; rw [if_pos rfl, if_pos hi, if_pos rfl]; rfl
    · rw [if_neg (fun e => h e.symm), if_neg h]; rfl

end
end PNDL
