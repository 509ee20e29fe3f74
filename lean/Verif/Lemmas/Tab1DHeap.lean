import Verif.Model.Tab1DHeap
import Verif.Lemmas.Tab1D

/-! Ownership invariant of the table memory. -/
namespace PNDL
open Spec

/-- Live objects own live, pairwise distinct buffers. -/
structure Mem.Inv (m : Mem) : Prop where
  live : ∀ (o : Nat) (d : Obj), m.objs[o]? = some (some d) →
    (∃ b, m.bufs[d.x]? = some (some b)) ∧ (∃ b, m.bufs[d.y]? = some (some b)) ∧ d.x ≠ d.y
  sep : ∀ (o o' : Nat) (d d' : Obj), o ≠ o' → m.objs[o]? = some (some d) → m.objs[o']? = some (some d') →
    d.x ≠ d'.x ∧ d.x ≠ d'.y ∧ d.y ≠ d'.x ∧ d.y ≠ d'.y

/-- Object `o` and its buffers are the same in both memories. -/
def Frame (m m' : Mem) (o : Nat) : Prop :=
  m'.objs[o]? = m.objs[o]? ∧
    ∀ d, m.objs[o]? = some (some d) → m'.bufs[d.x]? = m.bufs[d.x]? ∧ m'.bufs[d.y]? = m.bufs[d.y]?

theorem Frame.refl (m : Mem) (o : Nat) : Frame m m o := ⟨rfl, fun _ _ => ⟨rfl, rfl⟩⟩

theorem Frame.trans {m m' m'' : Mem} {o : Nat} (h : Frame m m' o) (h' : Frame m' m'' o) : Frame m m'' o := by
  refine ⟨h'.1.trans h.1, fun d hd => ?_⟩
  have h1 := h.2 d hd
  have h2 := h'.2 d (h.1.trans hd)
  exact ⟨h2.1.trans h1.1, h2.2.trans h1.2⟩

theorem Mem.obj_ok {m : Mem} {o : Nat} {d : Obj} : m.obj o = .ok d ↔ m.objs[o]? = some (some d) := by
  unfold Mem.obj
  split
  · rename_i d' h; simp [h]
  · rename_i h; simp only [reduceCtorEq, false_iff]; intro hc; exact h d hc

theorem Mem.readBuf_ok {m : Mem} {o : Nat} {d : Buf} : m.readBuf o = .ok d ↔ m.bufs[o]? = some (some d) := by
  unfold Mem.readBuf
  split
  · rename_i d' h; simp [h]
  · rename_i h; simp only [reduceCtorEq, false_iff]; intro hc; exact h d hc

/-- Adding an object with two fresh buffers. -/
theorem inv_addObj {m : Mem} (hi : m.Inv) (b1 b2 : Buf) (d : Obj) (hx : d.x = m.bufs.length) (hy : d.y = m.bufs.length + 1) :
    Mem.Inv ⟨m.bufs ++ [some b1] ++ [some b2], m.objs ++ [some d]⟩ ∧
      ∀ o, o < m.objs.length → Frame m ⟨m.bufs ++ [some b1] ++ [some b2], m.objs ++ [some d]⟩ o := by
  have hold : ∀ (b : Nat) (v : Option Buf), m.bufs[b]? = some v → (m.bufs ++ [some b1] ++ [some b2])[b]? = some v := by
    intro b v h
    have := lt_length_of_some h
    rw [List.append_assoc, List.getElem?_append_left this, h]
  have hobj : ∀ (o : Nat) (v : Obj), (m.objs ++ [some d])[o]? = some (some v) →
      (m.objs[o]? = some (some v)) ∨ (o = m.objs.length ∧ v = d) := by
    intro o v h
    rcases Nat.lt_or_ge o m.objs.length with h1 | h1
    · rw [List.getElem?_append_left h1] at h; exact Or.inl h
    · have h2 := lt_length_of_some h
      simp at h2
      have h3 : o = m.objs.length := by omega
      subst h3
      simp at h
      exact Or.inr ⟨rfl, h.symm⟩
  refine ⟨⟨?_, ?_⟩, ?_⟩
  · intro o v h
    rcases hobj o v h with h' | ⟨_, rfl⟩
    · obtain ⟨⟨p, hp⟩, ⟨q, hq⟩, hne⟩ := hi.live o v h'
      exact ⟨⟨p, hold _ _ hp⟩, ⟨q, hold _ _ hq⟩, hne⟩
    · refine ⟨⟨b1, by rw [hx]; simp⟩, ⟨b2, by rw [hy]; simp⟩, by omega⟩
  · intro o o' v v' hne h h'
    rcases hobj o v h with h1 | ⟨rfl, rfl⟩ <;> rcases hobj o' v' h' with h2 | ⟨h2, rfl⟩
    · exact hi.sep o o' v v' hne h1 h2
    · obtain ⟨⟨p, hp⟩, ⟨q, hq⟩, _⟩ := hi.live o v h1
      have := lt_length_of_some hp
      have := lt_length_of_some hq
      omega
    · obtain ⟨⟨p, hp⟩, ⟨q, hq⟩, _⟩ := hi.live o' v' h2
      have := lt_length_of_some hp
      have := lt_length_of_some hq
      omega
    · exact absurd h2.symm hne
  · intro o ho
    refine ⟨List.getElem?_append_left ho, ?_⟩
    intro v hv
    obtain ⟨⟨p, hp⟩, ⟨q, hq⟩, _⟩ := hi.live o v hv
    exact ⟨by rw [hold _ _ hp, hp], by rw [hold _ _ hq, hq]⟩

theorem assignBuf_spec {m m1 : Mem} {dst src b : Nat} (h : m.assignBuf dst src = .ok (m1, b)) :
    m1.objs = m.objs ∧ (∃ B, m1.bufs[b]? = some (some B)) ∧ (∀ c, c ≠ dst → c < m.bufs.length → m1.bufs[c]? = m.bufs[c]?) ∧
      (b = dst ∨ b = m.bufs.length) ∧ m.bufs.length ≤ m1.bufs.length := by
  unfold Mem.assignBuf at h
  simp only [bind, Except.bind] at h
  cases hs : m.readBuf src with
  | error e => simp [hs] at h
  | ok s =>
    cases hd : m.readBuf dst with
    | error e => simp [hs, hd] at h
    | ok d =>
      simp only [hs, hd] at h
      have hdl := lt_length_of_some (Mem.readBuf_ok.mp hd)
      split at h
      · simp only [Except.ok.injEq, Prod.mk.injEq] at h
        obtain ⟨rfl, rfl⟩ := h
        refine ⟨rfl, ⟨_, List.getElem?_set_self hdl⟩, ?_, Or.inl rfl, by simp⟩
        intro c hc _
        exact List.getElem?_set_ne (Ne.symm hc)
      · simp only [Mem.alloc, Mem.free, Except.ok.injEq, Prod.mk.injEq] at h
        obtain ⟨rfl, rfl⟩ := h
        refine ⟨rfl, ⟨⟨s.data.length, s.data⟩, ?_⟩, ?_, Or.inr rfl, by simp⟩
        · rw [List.getElem?_set_ne (by omega)]; simp
        · intro c hc hcl
          rw [List.getElem?_set_ne (Ne.symm hc), List.getElem?_append_left hcl]

theorem inv_assign {m m' : Mem} {dst src : Nat} (hi : m.Inv) (h : m.assign dst src = .ok m') :
    m'.Inv ∧ (∀ o, o ≠ dst → Frame m m' o) ∧ m'.objs.length = m.objs.length := by
  unfold Mem.assign at h
  simp only [bind, Except.bind] at h
  cases hd : m.obj dst with
  | error e => simp [hd] at h
  | ok d =>
    cases hs : m.obj src with
    | error e => simp [hd, hs] at h
    | ok s =>
      simp only [hd, hs] at h
      split at h
      · simp only [Except.ok.injEq] at h
        subst h
        exact ⟨hi, fun o _ => Frame.refl m o, rfl⟩
      · cases h1 : m.assignBuf d.x s.x with
        | error e => simp [h1] at h
        | ok p =>
          obtain ⟨m1, bx⟩ := p
          simp only [h1] at h
          cases h2 : m1.assignBuf d.y s.y with
          | error e => simp [h2] at h
          | ok p =>
            obtain ⟨m2, by_⟩ := p
            simp only [h2, pure, Except.pure, Except.ok.injEq] at h
            subst h
            have hdo := Mem.obj_ok.mp hd
            have hdl := lt_length_of_some hdo
            obtain ⟨⟨Bx, hBx⟩, ⟨By, hBy⟩, hxy⟩ := hi.live dst d hdo
            have hxl := lt_length_of_some hBx
            have hyl := lt_length_of_some hBy
            obtain ⟨a1, ⟨C, a2⟩, a3, a4, a5⟩ := assignBuf_spec h1
            obtain ⟨c1, ⟨D, c2⟩, c3, c4, c5⟩ := assignBuf_spec h2
            have hbxl := lt_length_of_some a2
            -- buffers of other objects are untouched
            have hother : ∀ b, b < m.bufs.length → b ≠ d.x → b ≠ d.y → m2.bufs[b]? = m.bufs[b]? := by
              intro b hb hb1 hb2
              rw [c3 b hb2 (by omega), a3 b hb1 hb]
            have hbxby : bx ≠ by_ := by
              rcases a4 with h | h <;> rcases c4 with h' | h'
              · rw [h, h']; exact hxy
              · omega
              · omega
              · omega
            have hbx2 : m2.bufs[bx]? = some (some C) := by
              rw [c3 bx (by rcases a4 with h | h <;> omega) hbxl, a2]
            have hobj : ∀ (o : Nat) (v : Obj), (m2.objs.set dst (some ⟨s.nbt, s.int, bx, by_, s.regions⟩))[o]? = some (some v) →
                (o = dst ∧ v = ⟨s.nbt, s.int, bx, by_, s.regions⟩) ∨ (o ≠ dst ∧ m.objs[o]? = some (some v)) := by
              intro o v hv
              by_cases ho : o = dst
              · subst ho
                rw [List.getElem?_set_self (by rw [c1, a1]; exact hdl)] at hv
                simp at hv; exact Or.inl ⟨rfl, hv.symm⟩
              · rw [List.getElem?_set_ne (Ne.symm ho), c1, a1] at hv
                exact Or.inr ⟨ho, hv⟩
            have hsepd : ∀ (o : Nat) (v : Obj), o ≠ dst → m.objs[o]? = some (some v) →
                (v.x < m.bufs.length ∧ v.y < m.bufs.length) ∧ (v.x ≠ d.x ∧ v.x ≠ d.y ∧ v.y ≠ d.x ∧ v.y ≠ d.y) := by
              intro o v ho hv
              obtain ⟨⟨p, hp⟩, ⟨q, hq⟩, _⟩ := hi.live o v hv
              exact ⟨⟨lt_length_of_some hp, lt_length_of_some hq⟩, hi.sep o dst v d ho hv hdo⟩
            refine ⟨⟨?_, ?_⟩, ?_, ?_⟩
            · intro o v hv
              rcases hobj o v hv with ⟨rfl, rfl⟩ | ⟨ho, hv⟩
              · exact ⟨⟨C, hbx2⟩, ⟨D, c2⟩, hbxby⟩
              · obtain ⟨⟨l1, l2⟩, s1, s2, s3, s4⟩ := hsepd o v ho hv
                obtain ⟨⟨p, hp⟩, ⟨q, hq⟩, hne⟩ := hi.live o v hv
                exact ⟨⟨p, by show m2.bufs[_]? = _; rw [hother _ l1 s1 s2, hp]⟩, ⟨q, by show m2.bufs[_]? = _; rw [hother _ l2 s3 s4, hq]⟩, hne⟩
            · have key : ∀ (o : Nat) (v : Obj), o ≠ dst → m.objs[o]? = some (some v) →
                  v.x ≠ bx ∧ v.x ≠ by_ ∧ v.y ≠ bx ∧ v.y ≠ by_ := by
                intro o v ho hv
                obtain ⟨⟨l1, l2⟩, s1, s2, s3, s4⟩ := hsepd o v ho hv
                rcases a4 with h | h <;> rcases c4 with h' | h' <;> refine ⟨?_, ?_, ?_, ?_⟩ <;> omega
              intro o o' v v' hne hv hv'
              rcases hobj o v hv with ⟨rfl, rfl⟩ | ⟨ho, hv⟩ <;> rcases hobj o' v' hv' with ⟨h2, h3⟩ | ⟨ho', hv'⟩
              · exact absurd h2.symm hne
              · obtain ⟨k1, k2, k3, k4⟩ := key o' v' ho' hv'
                exact ⟨Ne.symm k1, Ne.symm k3, Ne.symm k2, Ne.symm k4⟩
              · subst h3; exact key o v ho hv
              · exact hi.sep o o' v v' hne hv hv'
            · intro o ho
              refine ⟨by show (m2.objs.set _ _)[o]? = _; rw [List.getElem?_set_ne (Ne.symm ho), c1, a1], ?_⟩
              intro v hv
              obtain ⟨⟨l1, l2⟩, s1, s2, s3, s4⟩ := hsepd o v ho hv
              exact ⟨hother _ l1 s1 s2, hother _ l2 s3 s4⟩
            · simp [c1, a1]

theorem inv_destroy {m m' : Mem} {o : Nat} (hi : m.Inv) (h : m.destroy o = .ok m') :
    m'.Inv ∧ (∀ o', o' ≠ o → Frame m m' o') ∧ m'.objs.length = m.objs.length := by
  unfold Mem.destroy at h
  simp only [bind, Except.bind] at h
  cases hd : m.obj o with
  | error e => simp [hd] at h
  | ok d =>
    simp only [hd, Mem.free, pure, Except.pure, Except.ok.injEq] at h
    subst h
    have hdo := Mem.obj_ok.mp hd
    have hobj : ∀ (o' : Nat) (v : Obj), (m.objs.set o none)[o']? = some (some v) → o' ≠ o ∧ m.objs[o']? = some (some v) := by
      intro o' v hv
      by_cases ho : o' = o
      · subst ho; rw [List.getElem?_set_self (lt_length_of_some hdo)] at hv; simp at hv
      · rw [List.getElem?_set_ne (Ne.symm ho)] at hv; exact ⟨ho, hv⟩
    have hother : ∀ b, b ≠ d.x → b ≠ d.y → ((m.bufs.set d.x none).set d.y none)[b]? = m.bufs[b]? := by
      intro b h1 h2
      rw [List.getElem?_set_ne (Ne.symm h2), List.getElem?_set_ne (Ne.symm h1)]
    refine ⟨⟨?_, ?_⟩, ?_, by simp⟩
    · intro o' v hv
      obtain ⟨ho, hv⟩ := hobj o' v hv
      obtain ⟨s1, s2, s3, s4⟩ := hi.sep o' o v d ho hv hdo
      obtain ⟨⟨p, hp⟩, ⟨q, hq⟩, hne⟩ := hi.live o' v hv
      exact ⟨⟨p, by show (List.set _ _ _)[_]? = _; rw [hother _ s1 s2, hp]⟩, ⟨q, by show (List.set _ _ _)[_]? = _; rw [hother _ s3 s4, hq]⟩, hne⟩
    · intro o1 o2 v1 v2 hne h1 h2
      exact hi.sep o1 o2 v1 v2 hne (hobj _ _ h1).2 (hobj _ _ h2).2
    · intro o' ho
      refine ⟨List.getElem?_set_ne (Ne.symm ho), ?_⟩
      intro v hv
      obtain ⟨s1, s2, s3, s4⟩ := hi.sep o' o v d ho hv hdo
      exact ⟨hother _ s1 s2, hother _ s3 s4⟩

theorem construct_eq {m m' : Mem} {nbt : List Nat} {int : List Interpolation} {x y : List ℝ}
    (h : m.construct nbt int x y = .ok m') :
    ∃ t bs, Tab1D.make nbt int x y = .ok t ∧ spanBounds x (nbt.zip int) 0 = .ok bs ∧
      m' = ⟨m.bufs ++ [some ⟨x.length, x⟩] ++ [some ⟨y.length, y⟩], m.objs ++ [some ⟨nbt, int, m.bufs.length, m.bufs.length + 1,
        bs.map (fun b => HRegion.mk b.1 ⟨m.bufs.length, b.2.1, b.2.2 - b.2.1⟩ ⟨m.bufs.length + 1, b.2.1, b.2.2 - b.2.1⟩)⟩]⟩ := by
  unfold Mem.construct at h
  simp only [bind, Except.bind] at h
  cases ht : Tab1D.make nbt int x y with
  | error e => simp [ht] at h
  | ok t =>
    cases hb : spanBounds x (nbt.zip int) 0 with
    | error e => simp [ht, hb] at h
    | ok bs =>
      simp only [ht, hb, Mem.alloc, pure, Except.pure, Except.ok.injEq] at h
      exact ⟨t, bs, rfl, rfl, by rw [← h]; simp⟩

theorem inv_construct {m m' : Mem} {nbt : List Nat} {int : List Interpolation} {x y : List ℝ} (hi : m.Inv)
    (h : m.construct nbt int x y = .ok m') :
    m'.Inv ∧ (∀ o, o < m.objs.length → Frame m m' o) ∧ m'.objs.length = m.objs.length + 1 := by
  obtain ⟨t, bs, _, _, rfl⟩ := construct_eq h
  obtain ⟨h1, h2⟩ := inv_addObj hi ⟨x.length, x⟩ ⟨y.length, y⟩ ⟨nbt, int, m.bufs.length, m.bufs.length + 1,
        bs.map (fun b => HRegion.mk b.1 ⟨m.bufs.length, b.2.1, b.2.2 - b.2.1⟩ ⟨m.bufs.length + 1, b.2.1, b.2.2 - b.2.1⟩)⟩ rfl rfl
  exact ⟨h1, h2, by simp⟩

theorem copy_eq {m m' : Mem} {s : Nat} (h : m.copy s = .ok m') :
    ∃ d x y, m.objs[s]? = some (some d) ∧ m.bufs[d.x]? = some (some x) ∧ m.bufs[d.y]? = some (some y) ∧
      m' = ⟨m.bufs ++ [some ⟨x.data.length, x.data⟩] ++ [some ⟨y.data.length, y.data⟩],
        m.objs ++ [some ⟨d.nbt, d.int, m.bufs.length, m.bufs.length + 1, d.regions⟩]⟩ := by
  unfold Mem.copy at h
  simp only [bind, Except.bind] at h
  cases hd : m.obj s with
  | error e => simp [hd] at h
  | ok d =>
    cases hx : m.readBuf d.x with
    | error e => simp [hd, hx] at h
    | ok x =>
      cases hy : m.readBuf d.y with
      | error e => simp [hd, hx, hy] at h
      | ok y =>
        simp only [hd, hx, hy, Mem.alloc, pure, Except.pure, Except.ok.injEq] at h
        exact ⟨d, x, y, Mem.obj_ok.mp hd, Mem.readBuf_ok.mp hx, Mem.readBuf_ok.mp hy, by rw [← h]; simp⟩

theorem inv_copy {m m' : Mem} {s : Nat} (hi : m.Inv) (h : m.copy s = .ok m') :
    m'.Inv ∧ (∀ o, o < m.objs.length → Frame m m' o) ∧ m'.objs.length = m.objs.length + 1 := by
  obtain ⟨d, x, y, _, _, _, rfl⟩ := copy_eq h
  obtain ⟨h1, h2⟩ := inv_addObj hi ⟨x.data.length, x.data⟩ ⟨y.data.length, y.data⟩
    ⟨d.nbt, d.int, m.bufs.length, m.bufs.length + 1, d.regions⟩ rfl rfl
  exact ⟨h1, h2, by simp⟩

/-- The operation modifies object `o`. -/
def TabOp.touches : TabOp → Nat → Prop
  | .construct .., _ => False
  | .copy _, _ => False
  | .assign d _, o => d = o
  | .destroy d, o => d = o
  | .linearize d _ _, o => d = o

theorem inv_step {m m' : Mem} {op : TabOp} (hi : m.Inv) (h : m.step op = .ok m') :
    m'.Inv ∧ (∀ o, o < m.objs.length → ¬ op.touches o → Frame m m' o) ∧ m.objs.length ≤ m'.objs.length := by
  cases op with
  | construct nbt int x y =>
    obtain ⟨h1, h2, h3⟩ := inv_construct hi h
    exact ⟨h1, fun o ho _ => h2 o ho, by omega⟩
  | copy s =>
    obtain ⟨h1, h2, h3⟩ := inv_copy hi h
    exact ⟨h1, fun o ho _ => h2 o ho, by omega⟩
  | assign d s =>
    obtain ⟨h1, h2, h3⟩ := inv_assign hi h
    exact ⟨h1, fun o _ ht => h2 o (fun hc => ht hc.symm), by omega⟩
  | destroy d =>
    obtain ⟨h1, h2, h3⟩ := inv_destroy hi h
    exact ⟨h1, fun o _ ht => h2 o (fun hc => ht hc.symm), by omega⟩
  | linearize d xs ys =>
    simp only [Mem.step, Mem.linearize, bind, Except.bind] at h
    cases hd : m.obj d with
    | error e => simp [hd] at h
    | ok dd =>
      simp only [hd] at h
      split at h
      · simp only [Except.ok.injEq] at h
        subst h
        exact ⟨hi, fun o _ _ => Frame.refl m o, le_rfl⟩
      · cases hv : m.view d with
        | error e => simp [hv] at h
        | ok t =>
          simp only [hv] at h
          cases h1 : m.construct [xs.length] [.linLin] xs ys with
          | error e => simp [h1] at h
          | ok m1 =>
            simp only [h1] at h
            cases h2 : m1.assign d m.objs.length with
            | error e => simp [h2] at h
            | ok m2 =>
              simp only [h2] at h
              obtain ⟨a1, a2, a3⟩ := inv_construct hi h1
              obtain ⟨b1, b2, b3⟩ := inv_assign a1 h2
              obtain ⟨c1, c2, c3⟩ := inv_destroy b1 h
              refine ⟨c1, ?_, by omega⟩
              intro o ho ht
              exact ((a2 o ho).trans (b2 o (fun hc => ht hc.symm))).trans (c2 o (by omega))

theorem inv_run : ∀ (ops : List TabOp) {m m' : Mem}, m.Inv → m.run ops = .ok m' →
    m'.Inv ∧ (∀ o, o < m.objs.length → (∀ op ∈ ops, ¬ op.touches o) → Frame m m' o) := by
  intro ops
  induction ops with
  | nil =>
    intro m m' hi h
    simp only [Mem.run, Except.ok.injEq] at h
    subst h
    exact ⟨hi, fun o _ _ => Frame.refl m o⟩
  | cons op ops ih =>
    intro m m' hi h
    simp only [Mem.run, bind, Except.bind] at h
    cases h1 : m.step op with
    | error e => simp [h1] at h
    | ok m1 =>
      simp only [h1] at h
      obtain ⟨a1, a2, a3⟩ := inv_step hi h1
      obtain ⟨b1, b2⟩ := ih a1 h
      refine ⟨b1, ?_⟩
      intro o ho ht
      exact (a2 o ho (ht op (by simp))).trans (b2 o (by omega) (fun op' h' => ht op' (by simp [h'])))

theorem inv_init : Mem.init.Inv := ⟨by intro o d h; simp [Mem.init] at h, by intro o o' d d' _ h; simp [Mem.init] at h⟩

/-- Spans into the object's own buffers. -/
def SelfSpans (d : Obj) : Prop := ∀ g ∈ d.regions, g.xs.buf = d.x ∧ g.ys.buf = d.y

theorem readRegions_congr {m m' : Mem} {d : Obj} (hx : m'.bufs[d.x]? = m.bufs[d.x]?) (hy : m'.bufs[d.y]? = m.bufs[d.y]?) :
    ∀ (gs : List HRegion), (∀ g ∈ gs, g.xs.buf = d.x ∧ g.ys.buf = d.y) → m'.readRegions gs = m.readRegions gs := by
  intro gs
  induction gs with
  | nil => intro _; rfl
  | cons g gs ih =>
    intro h
    obtain ⟨h1, h2⟩ := h g (by simp)
    have e1 : m'.readSpan g.xs = m.readSpan g.xs := by simp only [Mem.readSpan, Mem.readBuf, h1, hx]
    have e2 : m'.readSpan g.ys = m.readSpan g.ys := by simp only [Mem.readSpan, Mem.readBuf, h2, hy]
    simp only [Mem.readRegions, e1, e2, ih (fun g' hg' => h g' (by simp [hg']))]

/-- Reading an object with self-contained spans gives the same result in any memory in which it is framed. -/
theorem view_frame {m m' : Mem} {o : Nat} {d : Obj} (hd : m.objs[o]? = some (some d)) (hs : SelfSpans d) (hf : Frame m m' o) :
    m'.view o = m.view o := by
  obtain ⟨h1, h2⟩ := hf
  obtain ⟨h3, h4⟩ := h2 d hd
  have e1 : m.obj o = .ok d := Mem.obj_ok.mpr hd
  have e2 : m'.obj o = .ok d := Mem.obj_ok.mpr (h1.trans hd)
  simp only [Mem.view, e1, e2, bind, Except.bind, Mem.readBuf, h3, h4, readRegions_congr h3 h4 d.regions hs]

/-- The spans of a freshly constructed table show exactly the regions of the value model. -/
theorem readRegions_fresh {m : Mem} {x y : List ℝ} {bx by_ : Nat} {cx cy : Nat} (hx : m.bufs[bx]? = some (some ⟨cx, x⟩))
    (hy : m.bufs[by_]? = some (some ⟨cy, y⟩)) :
    ∀ (bps : List (Nat × Interpolation)) (low : Nat) (gs : List Region), buildRegions x y bps low = .ok gs →
      ∃ bs, spanBounds x bps low = .ok bs ∧
        m.readRegions (bs.map (fun b => HRegion.mk b.1 ⟨bx, b.2.1, b.2.2 - b.2.1⟩ ⟨by_, b.2.1, b.2.2 - b.2.1⟩)) = .ok gs := by
  intro bps
  induction bps with
  | nil => intro low gs h; simp [buildRegions] at h; subst h; exact ⟨[], rfl, rfl⟩
  | cons p rest ih =>
    obtain ⟨hi, r⟩ := p
    intro low gs h
    simp only [buildRegions, bind, Except.bind] at h
    cases h1 : slice x low hi with
    | error e => simp [h1] at h
    | ok xs =>
      cases h2 : slice y low hi with
      | error e => simp [h1, h2] at h
      | ok ys =>
        simp only [h1, h2] at h
        rcases Region.make_cases r xs ys with h3 | ⟨h3, _⟩
        · simp [h3] at h
        · simp only [h3] at h
          cases h4 : nextLow x hi with
          | error e => simp [h4] at h
          | ok low' =>
            simp only [h4] at h
            cases h5 : buildRegions x y rest low' with
            | error e => simp [h5] at h
            | ok gs' =>
              simp only [h5, pure, Except.pure, Except.ok.injEq] at h
              subst h
              obtain ⟨bs, hb1, hb2⟩ := ih low' gs' h5
              refine ⟨(r, low, hi) :: bs, by simp [spanBounds, h4, hb1, bind, Except.bind, pure, Except.pure], ?_⟩
              have hle : low ≤ hi := by
                unfold slice at h1; split at h1
                · rename_i h; exact h.1
                · simp at h1
              simp only [List.map_cons, Mem.readRegions, Mem.readSpan, Mem.readBuf, hx, hy, bind, Except.bind,
                show low + (hi - low) = hi by omega, h1, h2, hb2, pure, Except.pure]

theorem make_regions {nbt : List Nat} {int : List Interpolation} {x y : List ℝ} {t : Tab1D} (h : Tab1D.make nbt int x y = .ok t) :
    ∃ gs, buildRegions x y (nbt.zip int) 0 = .ok gs ∧ t = ⟨nbt, int, x, y, gs⟩ := by
  unfold Tab1D.make at h
  split at h
  · cases h
  · split at h
    · cases h
    · split at h
      · cases h
      · simp only [bind, Except.bind] at h
        cases hb : buildRegions x y (nbt.zip int) 0 with
        | error e => simp [hb] at h
        | ok gs => simp only [hb, pure, Except.pure, Except.ok.injEq] at h; exact ⟨gs, rfl, h.symm⟩

/-- A freshly constructed object is seen as the value the constructor computes, and its spans are its own. -/
theorem construct_view {m m' : Mem} {nbt : List Nat} {int : List Interpolation} {x y : List ℝ}
    (h : m.construct nbt int x y = .ok m') :
    ∃ t d, Tab1D.make nbt int x y = .ok t ∧ m'.objs[m.objs.length]? = some (some d) ∧ SelfSpans d ∧
      m'.view m.objs.length = .ok t ∧ d.int = int ∧ d.x = m.bufs.length ∧ d.y = m.bufs.length + 1 ∧
      (∃ bs, spanBounds x (nbt.zip int) 0 = .ok bs ∧ d.regions.length = bs.length) := by
  obtain ⟨t, bs, ht, hb, rfl⟩ := construct_eq h
  obtain ⟨gs, hgs, rfl⟩ := make_regions ht
  have hx : (m.bufs ++ [some ⟨x.length, x⟩] ++ [some (Buf.mk y.length y)])[m.bufs.length]? = some (some ⟨x.length, x⟩) := by simp
  have hy : (m.bufs ++ [some (Buf.mk x.length x)] ++ [some ⟨y.length, y⟩])[m.bufs.length + 1]? = some (some ⟨y.length, y⟩) := by simp
  obtain ⟨m', hm'⟩ : ∃ m' : Mem, m' = ⟨m.bufs ++ [some ⟨x.length, x⟩] ++ [some ⟨y.length, y⟩], m.objs ++ [some ⟨nbt, int, m.bufs.length,
    m.bufs.length + 1, bs.map (fun b => HRegion.mk b.1 ⟨m.bufs.length, b.2.1, b.2.2 - b.2.1⟩ ⟨m.bufs.length + 1, b.2.1, b.2.2 - b.2.1⟩)⟩]⟩ := ⟨_, rfl⟩
  rw [← hm']
  have hx' : m'.bufs[m.bufs.length]? = some (some ⟨x.length, x⟩) := by rw [hm']; exact hx
  have hy' : m'.bufs[m.bufs.length + 1]? = some (some ⟨y.length, y⟩) := by rw [hm']; exact hy
  obtain ⟨bs', hb', hr⟩ := readRegions_fresh hx' hy' _ _ _ hgs
  rw [hb] at hb'; cases hb'
  have hobj : m'.objs[m.objs.length]? = some (some ⟨nbt, int, m.bufs.length, m.bufs.length + 1,
    bs.map (fun b => HRegion.mk b.1 ⟨m.bufs.length, b.2.1, b.2.2 - b.2.1⟩ ⟨m.bufs.length + 1, b.2.1, b.2.2 - b.2.1⟩)⟩) := by
    rw [hm']; simp
  refine ⟨_, _, ht, hobj, ?_, ?_, rfl, rfl, rfl, bs, hb, by simp⟩
  · intro g hg
    simp only [List.mem_map] at hg
    obtain ⟨b, _, rfl⟩ := hg
    exact ⟨rfl, rfl⟩
  · simp only [Mem.view, Mem.obj_ok.mpr hobj, Mem.readBuf_ok.mpr hx', Mem.readBuf_ok.mpr hy', hr, bind, Except.bind, pure,
      Except.pure]

end PNDL
