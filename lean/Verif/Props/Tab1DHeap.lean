import Verif.Lemmas.Tab1DHeap

/-! C23: lifetime of `Tabulated1D` objects.  Programs are arbitrary sequences of constructions, copies, assignments,
destructions and `linearize` calls, started from empty memory. -/
namespace PNDL
open Spec

/-- Proved part of C23, originals.  Take any program that ends by constructing a table, and any continuation that does not
assign to, destroy or linearize that table (but may do anything else: copy it, destroy the copies, ...).  Evaluating the table
then still gives what the table's own points determine.
Missing for the full claim: copies, assigned-to and linearized tables, for which it is false (below). -/
theorem C23_original_safe_partial (before after : List TabOp) (nbt : List Nat) (int : List Interpolation) (x y : List ℝ)
    (m m1 m2 : Mem) (h0 : Mem.init.run before = .ok m) (h1 : m.step (.construct nbt int x y) = .ok m1)
    (h2 : m1.run after = .ok m2) (hns : ∀ op ∈ after, ¬ op.touches m.objs.length) :
    ∃ t, Tab1D.make nbt int x y = .ok t ∧ ∀ v, m2.eval m.objs.length v = t.eval v := by
  have hi := (inv_run before inv_init h0).1
  obtain ⟨t, d, ht, hd, hs, hv, _⟩ := construct_view h1
  obtain ⟨a1, _, a3⟩ := inv_construct hi h1
  obtain ⟨_, b2⟩ := inv_run after a1 h2
  refine ⟨t, ht, fun v => ?_⟩
  rw [Mem.eval, view_frame hd hs (b2 _ (by omega) hns), hv]
  rfl

theorem copy_obj {m m' : Mem} {s : Nat} {d : Obj} (hd : m.objs[s]? = some (some d)) (h : m.copy s = .ok m') :
    ∃ d', m'.objs[m.objs.length]? = some (some d') ∧ d'.regions = d.regions ∧ d'.nbt = d.nbt ∧ d'.int = d.int ∧
      m'.bufs[d'.x]? = (m.bufs[d.x]?).map (Option.map (fun b => ⟨b.data.length, b.data⟩)) ∧
      m'.bufs[d'.y]? = (m.bufs[d.y]?).map (Option.map (fun b => ⟨b.data.length, b.data⟩)) := by
  obtain ⟨d0, x, y, e1, e2, e3, rfl⟩ := copy_eq h
  rw [hd] at e1; simp only [Option.some.injEq] at e1; subst e1
  refine ⟨⟨d.nbt, d.int, m.bufs.length, m.bufs.length + 1, d.regions⟩, by simp, rfl, rfl, rfl, ?_, ?_⟩
  · rw [e2]; simp
  · rw [e3]; simp

/-- Proved part of C23, copies: a copy of a constructed table evaluates like the table for as long as *neither of the two* is
assigned to, destroyed or linearized. -/
theorem C23_copy_while_source_lives_partial (before after : List TabOp) (nbt : List Nat) (int : List Interpolation) (x y : List ℝ)
    (m m1 m2 m3 : Mem) (h0 : Mem.init.run before = .ok m) (h1 : m.step (.construct nbt int x y) = .ok m1)
    (h2 : m1.step (.copy m.objs.length) = .ok m2) (h3 : m2.run after = .ok m3)
    (hns : ∀ op ∈ after, ¬ op.touches m.objs.length ∧ ¬ op.touches (m.objs.length + 1)) :
    ∃ t, Tab1D.make nbt int x y = .ok t ∧ ∀ v, m3.eval (m.objs.length + 1) v = t.eval v := by
  have hi := (inv_run before inv_init h0).1
  obtain ⟨t, d, ht, hd, hs, hv, _⟩ := construct_view h1
  obtain ⟨a1, _, a3⟩ := inv_construct hi h1
  obtain ⟨b1, b2, b3⟩ := inv_copy a1 h2
  obtain ⟨c1, c2⟩ := inv_run after b1 h3
  obtain ⟨d', hd', hr, hn, hin, hx, hy⟩ := copy_obj hd h2
  rw [a3] at hd'
  have f1 : Frame m1 m3 m.objs.length :=
    (b2 _ (by omega)).trans (c2 _ (by omega) (fun op ho => (hns op ho).1))
  have f2 : Frame m2 m3 (m.objs.length + 1) := c2 _ (by omega) (fun op ho => (hns op ho).2)
  obtain ⟨⟨bx, hbx⟩, ⟨by_, hby⟩, _⟩ := a1.live _ d hd
  have e1 : m1.obj m.objs.length = .ok d := Mem.obj_ok.mpr hd
  have e2 : m3.obj (m.objs.length + 1) = .ok d' := Mem.obj_ok.mpr (f2.1.trans hd')
  have g1 := f2.2 d' hd'
  have g2 := f1.2 d hd
  rw [hbx] at hx
  rw [hby] at hy
  have r1 : m1.readBuf d.x = .ok bx := Mem.readBuf_ok.mpr hbx
  have r2 : m1.readBuf d.y = .ok by_ := Mem.readBuf_ok.mpr hby
  have r3 : m3.readBuf d'.x = .ok ⟨bx.data.length, bx.data⟩ := Mem.readBuf_ok.mpr (by rw [g1.1, hx]; rfl)
  have r4 : m3.readBuf d'.y = .ok ⟨by_.data.length, by_.data⟩ := Mem.readBuf_ok.mpr (by rw [g1.2, hy]; rfl)
  have r5 : m3.readRegions d'.regions = m1.readRegions d.regions := by
    rw [hr]; exact readRegions_congr g2.1 g2.2 d.regions hs
  have key : m3.view (m.objs.length + 1) = m1.view m.objs.length := by
    simp only [Mem.view, e1, e2, bind, Except.bind, r1, r2, r3, r4, r5, hn, hin]
  refine ⟨t, ht, fun v => ?_⟩
  rw [Mem.eval, key, hv]
  rfl

/-- Reading a region whose buffer was freed. -/
theorem readRegions_freed {m : Mem} {g : HRegion} {gs : List HRegion} (h : m.bufs[g.xs.buf]? = some none) :
    m.readRegions (g :: gs) = .error .ub := by
  simp only [Mem.readRegions, Mem.readSpan, Mem.readBuf, h, bind, Except.bind]

theorem view_freed {m : Mem} {o : Nat} {d : Obj} {g : HRegion} {gs : List HRegion} (hd : m.objs[o]? = some (some d))
    (hx : ∃ b, m.bufs[d.x]? = some (some b)) (hy : ∃ b, m.bufs[d.y]? = some (some b)) (hr : d.regions = g :: gs)
    (h : m.bufs[g.xs.buf]? = some none) (v : ℝ) : m.eval o v = .error .ub := by
  obtain ⟨bx, hx⟩ := hx
  obtain ⟨by_, hy⟩ := hy
  simp only [Mem.eval, Mem.view, Mem.obj_ok.mpr hd, Mem.readBuf_ok.mpr hx, Mem.readBuf_ok.mpr hy, hr, readRegions_freed h, bind,
    Except.bind]

/-- Every successfully constructed table with at least one breakpoint has a region. -/
theorem construct_region {m m1 : Mem} {nbt : List Nat} {int : List Interpolation} {x y : List ℝ} (hne : nbt ≠ [])
    (h1 : m.construct nbt int x y = .ok m1) {d : Obj} (hd : m1.objs[m.objs.length]? = some (some d)) :
    ∃ g gs, d.regions = g :: gs := by
  obtain ⟨t, d', ht, hd', _, _, _, _, _, bs, hb, hl⟩ := construct_view h1
  rw [hd] at hd'; simp only [Option.some.injEq] at hd'; subst hd'
  have hli : nbt.length = int.length := by
    by_contra hc
    simp [Tab1D.make, hc] at ht
  obtain ⟨n, ns, rfl⟩ := List.exists_cons_of_ne_nil hne
  obtain ⟨r, rs, rfl⟩ := List.exists_cons_of_ne_nil (l := int) (by intro hc; subst hc; simp at hli)
  have : bs ≠ [] := by
    rintro rfl
    simp only [List.zip_cons_cons, spanBounds, bind, Except.bind] at hb
    cases h4 : nextLow x n with
    | error e => simp [h4] at hb
    | ok l =>
      simp only [h4] at hb
      cases h5 : spanBounds x (ns.zip rs) l with
      | error e => simp [h5] at hb
      | ok l' => simp [h5, pure, Except.pure] at hb
  have hlen : d.regions ≠ [] := by
    intro hc; rw [hc] at hl; simp at hl; exact this (List.length_eq_zero_iff.mp hl.symm)
  exact List.exists_cons_of_ne_nil hlen

/-- The full claim is false of the code, copy construction: whatever ran before and whatever the table (it only has to have a
region), copying it and destroying the original leaves a copy whose evaluation reads freed storage, for every argument. -/
theorem C23_violation_copy (before : List TabOp) (nbt : List Nat) (int : List Interpolation) (x y : List ℝ) (hne : nbt ≠ [])
    (m m1 m2 m3 : Mem) (h0 : Mem.init.run before = .ok m) (h1 : m.step (.construct nbt int x y) = .ok m1)
    (h2 : m1.step (.copy m.objs.length) = .ok m2) (h3 : m2.step (.destroy m.objs.length) = .ok m3) (v : ℝ) :
    m3.eval (m.objs.length + 1) v = .error .ub := by
  have hi := (inv_run before inv_init h0).1
  obtain ⟨t, d, ht, hd, hs, hv, _⟩ := construct_view h1
  obtain ⟨a1, _, a3⟩ := inv_construct hi h1
  obtain ⟨b1, b2, b3⟩ := inv_copy a1 h2
  obtain ⟨d', hd', hr, -⟩ := copy_obj hd h2
  rw [a3] at hd'
  obtain ⟨g, gs, hg⟩ := construct_region hne h1 hd
  obtain ⟨c1, c2, _⟩ := inv_destroy b1 h3
  have hd2 := (b2 m.objs.length (by omega)).1.trans hd
  have hd3 : m3.objs[m.objs.length + 1]? = some (some d') := (c2 (m.objs.length + 1) (by omega)).1.trans hd'
  obtain ⟨l1, l2, _⟩ := c1.live _ _ hd3
  refine view_freed hd3 l1 l2 (hr.trans hg) ?_ v
  rw [(hs g (by rw [hg]; simp)).1]
  simp only [Mem.step, Mem.destroy, Mem.obj_ok.mpr hd2, bind, Except.bind, pure, Except.pure, Mem.free, Except.ok.injEq] at h3
  rw [← h3]
  obtain ⟨⟨B, hB⟩, _, hxy⟩ := b1.live _ _ hd2
  simp only
  rw [List.getElem?_set_ne (Ne.symm hxy), List.getElem?_set_self (lt_length_of_some hB)]

/-- The operations of `C23_violation_copy` all succeed for every table the constructor accepts. -/
theorem C23_violation_copy_happens (m : Mem) (nbt : List Nat) (int : List Interpolation) (x y : List ℝ) (t : Tab1D)
    (ht : Tab1D.make nbt int x y = .ok t) (hi : m.Inv) :
    ∃ m1 m2 m3, m.step (.construct nbt int x y) = .ok m1 ∧ m1.step (.copy m.objs.length) = .ok m2 ∧
      m2.step (.destroy m.objs.length) = .ok m3 := by
  obtain ⟨gs, hgs, rfl⟩ := make_regions ht
  obtain ⟨bs, hb, _⟩ := readRegions_fresh (m := ⟨[some ⟨0, x⟩, some ⟨0, y⟩], []⟩) (x := x) (y := y) (bx := 0) (by_ := 1) (cx := 0) (cy := 0)
    rfl rfl _ _ _ hgs
  have h1 : ∃ m1, m.construct nbt int x y = .ok m1 := by
    simp only [Mem.construct, ht, hb, bind, Except.bind, pure, Except.pure, Mem.alloc]
    exact ⟨_, rfl⟩
  obtain ⟨m1, h1⟩ := h1
  obtain ⟨_, d, _, hd, _⟩ := construct_view h1
  obtain ⟨a1, _, a3⟩ := inv_construct hi h1
  obtain ⟨⟨bx, hbx⟩, ⟨by_, hby⟩, _⟩ := a1.live _ _ hd
  have h2 : ∃ m2, m1.copy m.objs.length = .ok m2 := by
    simp only [Mem.copy, Mem.obj_ok.mpr hd, Mem.readBuf_ok.mpr hbx, Mem.readBuf_ok.mpr hby, bind, Except.bind, pure, Except.pure,
      Mem.alloc]
    exact ⟨_, rfl⟩
  obtain ⟨m2, h2⟩ := h2
  obtain ⟨b1, b2, b3⟩ := inv_copy a1 h2
  have hd2 := (b2 m.objs.length (by omega)).1.trans hd
  have h3 : ∃ m3, m2.destroy m.objs.length = .ok m3 := by
    simp only [Mem.destroy, Mem.obj_ok.mpr hd2, bind, Except.bind, pure, Except.pure]
    exact ⟨_, rfl⟩
  obtain ⟨m3, h3⟩ := h3
  exact ⟨m1, m2, m3, h1, h2, h3⟩

/-- The full claim is false of the code, `linearize()`: whatever ran before, linearizing a table that is not a single lin-lin
region leaves `*this` with references into the destroyed temporary, and every later evaluation reads freed storage. -/
theorem C23_violation_linearize (before : List TabOp) (nbt : List Nat) (int : List Interpolation) (x y xs ys : List ℝ)
    (hint : int ≠ [.linLin]) (m m1 m2 : Mem) (h0 : Mem.init.run before = .ok m)
    (h1 : m.step (.construct nbt int x y) = .ok m1) (h2 : m1.step (.linearize m.objs.length xs ys) = .ok m2) (v : ℝ) :
    m2.eval m.objs.length v = .error .ub := by
  have hi := (inv_run before inv_init h0).1
  obtain ⟨t, d, ht, hd, hs, hv, hdi, _⟩ := construct_view h1
  obtain ⟨a1, _, a3⟩ := inv_construct hi h1
  simp only [Mem.step, Mem.linearize, Mem.obj_ok.mpr hd, bind, Except.bind, hdi, if_neg hint, hv] at h2
  cases hc : m1.construct [xs.length] [.linLin] xs ys with
  | error e => simp [hc] at h2
  | ok m3 =>
    simp only [hc] at h2
    obtain ⟨t', d', ht', hd', hs', hv', _⟩ := construct_view hc
    obtain ⟨b1, b2, b3⟩ := inv_construct a1 hc
    obtain ⟨g, gs, hg⟩ := construct_region (by simp) hc hd'
    cases ha : m3.assign m.objs.length m1.objs.length with
    | error e => simp [ha] at h2
    | ok m4 =>
      simp only [ha] at h2
      obtain ⟨c1, c2, c3⟩ := inv_assign b1 ha
      obtain ⟨e1, e2, _⟩ := inv_destroy c1 h2
      have hd3 : m3.objs[m.objs.length]? = some (some d) := (b2 _ (by omega)).1.trans hd
      -- the temporary after the assignment
      have hd4 : m4.objs[m1.objs.length]? = some (some d') := (c2 _ (by omega)).1.trans hd'
      -- the target after the assignment
      have hdst : ∃ d4, m4.objs[m.objs.length]? = some (some d4) ∧ d4.regions = d'.regions := by
        simp only [Mem.assign, Mem.obj_ok.mpr hd3, Mem.obj_ok.mpr hd', bind, Except.bind] at ha
        rw [if_neg (by omega)] at ha
        cases k1 : m3.assignBuf d.x d'.x with
        | error e => simp [k1] at ha
        | ok p =>
          obtain ⟨n1, bx⟩ := p
          simp only [k1] at ha
          cases k2 : n1.assignBuf d.y d'.y with
          | error e => simp [k2] at ha
          | ok p =>
            obtain ⟨n2, by_⟩ := p
            simp only [k2, pure, Except.pure, Except.ok.injEq] at ha
            rw [← ha]
            have l1 := (assignBuf_spec k1).1
            have l2 := (assignBuf_spec k2).1
            refine ⟨⟨d'.nbt, d'.int, bx, by_, d'.regions⟩, ?_, rfl⟩
            simp only
            rw [List.getElem?_set_self]
            rw [l2, l1]; omega
      obtain ⟨d4, hd4', hr4⟩ := hdst
      have hd5 : m2.objs[m.objs.length]? = some (some d4) := (e2 _ (by omega)).1.trans hd4'
      obtain ⟨l1, l2, _⟩ := e1.live _ _ hd5
      refine view_freed hd5 l1 l2 (hr4.trans hg) ?_ v
      rw [(hs' g (by rw [hg]; simp)).1]
      obtain ⟨⟨B, hB⟩, _, hxy⟩ := c1.live _ _ hd4
      simp only [Mem.destroy, Mem.obj_ok.mpr hd4, bind, Except.bind, pure, Except.pure, Mem.free, Except.ok.injEq] at h2
      rw [← h2]
      simp only
      rw [List.getElem?_set_ne (Ne.symm hxy), List.getElem?_set_self (lt_length_of_some hB)]

/-- A two-point table is accepted (so the theorems above speak about real histories). -/
theorem C23_example : ∃ t, Tab1D.make [2] [.histogram] [0, 1] [3, 4] = .ok t := by
  have hs : isSorted ([0, 1] : List ℝ) = true := isSorted_iff.mpr (by norm_num)
  refine ⟨⟨[2], [.histogram], [0, 1], [3, 4], [⟨.histogram, [0, 1], [3, 4]⟩]⟩, ?_⟩
  simp [Tab1D.make, buildRegions, slice, hs, Region.make, Interpolation.verifyX, Interpolation.verifyY, nextLow,
      subIdx, bind, Except.bind, pure, Except.pure, Interpolation.hasAdjacentEqual]

example : ∃ m1 m2 m3, Mem.init.step (.construct [2] [.histogram] [0, 1] [3, 4]) = .ok m1 ∧ m1.step (.copy 0) = .ok m2 ∧
    m2.step (.destroy 0) = .ok m3 ∧ m3.eval 1 (1 / 2) = .error .ub := by
  obtain ⟨t, ht⟩ := C23_example
  obtain ⟨m1, m2, m3, h1, h2, h3⟩ := C23_violation_copy_happens Mem.init [2] [.histogram] [0, 1] [3, 4] t ht inv_init
  exact ⟨m1, m2, m3, h1, h2, h3, C23_violation_copy [] [2] [.histogram] [0, 1] [3, 4] (by simp) Mem.init m1 m2 m3 rfl h1 h2 h3 _⟩

end PNDL
