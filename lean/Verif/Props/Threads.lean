import Verif.Model.Threads
import Verif.Props.Rng
import Verif.Props.Library
import Mathlib.Data.List.Basic
import Mathlib.Logic.Function.Iterate

/-! C134, C135: the process-wide generator and a library used by several threads, under every schedule. -/
namespace PNDL
open Spec

/-! ## C134 -/

/-- The `k`-th number (from 0) a single thread gets from state `x`. -/
def Spec.nthNumber (x k : Nat) : ℚ := canonical (lcgStep^[k + 1] x)

theorem rngRun_calls (x n : Nat) :
    rngRun x (List.replicate n .call) = (lcgStep^[n] x, (List.range n).map (nthNumber x)) := by
  induction n generalizing x with
  | zero => simp [rngRun]
  | succ n ih =>
    rw [List.replicate_succ]
    simp only [rngRun, rngOp, rngCall]
    rw [ih, List.range_succ_eq_map]
    simp [nthNumber, Function.comp_def, Function.iterate_succ_apply]

theorem RngSys.run_append (S : RngSys) (a b : List Nat) : S.run (a ++ b) = (S.run a).run b := by
  unfold RngSys.run; rw [List.foldl_append]

/-- What holds in every reachable state. -/
structure RngInv (x : Nat) (S : RngSys) : Prop where
  mem : ∃ k, k ≤ S.out.length ∧ S.mem = lcgStep^[k] x
  loc : ∀ t v, S.loc t = some v → ∃ k, k ≤ S.out.length ∧ v = lcgStep^[k] x
  out : ∀ (j : Nat) t v, S.out[j]? = some (t, v) → ∃ k, k ≤ j ∧ v = nthNumber x k

theorem RngInv.step {x : Nat} {S : RngSys} (h : RngInv x S) (t : Nat) : RngInv x (S.step t) := by
  unfold RngSys.step
  cases ht : S.loc t with
  | none =>
    refine ⟨h.mem, ?_, h.out⟩
    intro u v hu
    simp only at hu
    by_cases e : u = t
    · rw [if_pos e] at hu
      cases hu
      exact h.mem
    · rw [if_neg e] at hu
      exact h.loc u v hu
  | some w =>
    obtain ⟨k, hk, rfl⟩ := h.loc t w ht
    simp only
    refine ⟨⟨k + 1, by simp; omega, by simp only [Function.iterate_succ_apply']⟩, ?_, ?_⟩
    · intro u v hu
      simp only at hu
      by_cases e : u = t
      · rw [if_pos e] at hu; cases hu
      · rw [if_neg e] at hu
        obtain ⟨k', hk', e'⟩ := h.loc u v hu
        exact ⟨k', by simp; omega, e'⟩
    · intro j u v hj
      simp only at hj
      rcases Nat.lt_or_ge j S.out.length with hlt | hge
      · rw [List.getElem?_append_left hlt] at hj
        exact h.out j u v hj
      · rw [List.getElem?_append_right hge] at hj
        have hj0 : j = S.out.length := by
          have := (List.getElem?_eq_some_iff.mp hj).1
          simp at this
          omega
        rw [hj0, Nat.sub_self] at hj
        simp only [List.getElem?_cons_zero, Option.some.injEq, Prod.mk.injEq] at hj
        refine ⟨k, by omega, ?_⟩
        rw [← hj.2, nthNumber, Function.iterate_succ_apply']

theorem RngInv.start (x : Nat) : RngInv x (RngSys.start x) :=
  ⟨⟨0, le_rfl, rfl⟩, fun t v h => (by cases h), fun j t v h => (by simp [RngSys.start] at h)⟩

theorem RngInv.run {x : Nat} {S : RngSys} (h : RngInv x S) (sched : List Nat) : RngInv x (S.run sched) := by
  induction sched generalizing S with
  | nil => exact h
  | cons t sched ih => exact ih (h.step t)

/-- **C134** Under every schedule of any number of threads, the number a call returns is one of the numbers the sequence of a single thread has delivered by then:
the `j`-th call to return gets one of the first `j + 1` numbers. -/
theorem C134_in_sequence (x : Nat) (sched : List Nat) (j t : Nat) (v : ℚ) (h : ((RngSys.start x).run sched).out[j]? = some (t, v)) :
    v ∈ (rngRun x (List.replicate (j + 1) .call)).2 := by
  obtain ⟨k, hk, rfl⟩ := ((RngInv.start x).run sched).out j t v h
  rw [rngRun_calls]
  exact List.mem_map.mpr ⟨k, List.mem_range.mpr (by omega), rfl⟩

theorem pair_step (S : RngSys) (t : Nat) (h : ∀ u, S.loc u = none) :
    (S.run [t, t]).mem = lcgStep S.mem ∧ (∀ u, (S.run [t, t]).loc u = none) ∧ (S.run [t, t]).out = S.out ++ [(t, canonical (lcgStep S.mem))] := by
  have e : S.run [t, t] = (S.step t).step t := rfl
  rw [e]
  have e1 : S.step t = ⟨S.mem, fun u => if u = t then some S.mem else S.loc u, S.out⟩ := by
    unfold RngSys.step; rw [h t]
  rw [e1]
  unfold RngSys.step
  simp only [if_pos trivial]
  refine ⟨trivial, ?_, trivial⟩
  intro u
  by_cases hu : u = t
  · rw [if_pos hu]
  · rw [if_neg hu, if_neg hu]; exact h u

theorem calls_run (calls : List Nat) : ∀ (S : RngSys), (∀ u, S.loc u = none) →
    (S.run (calls.flatMap fun t => [t, t])).mem = (rngRun S.mem (List.replicate calls.length .call)).1 ∧
    (∀ u, (S.run (calls.flatMap fun t => [t, t])).loc u = none) ∧
    (S.run (calls.flatMap fun t => [t, t])).out = S.out ++ calls.zip (rngRun S.mem (List.replicate calls.length .call)).2 := by
  induction calls with
  | nil => intro S h; simp [RngSys.run, rngRun, h]
  | cons t calls ih =>
    intro S h
    obtain ⟨a1, a2, a3⟩ := pair_step S t h
    rw [List.flatMap_cons, RngSys.run_append]
    obtain ⟨b1, b2, b3⟩ := ih _ a2
    rw [a1] at b1 b3
    refine ⟨?_, b2, ?_⟩
    · rw [b1, List.length_cons, List.replicate_succ]
      simp [rngRun, rngOp, rngCall]
    · rw [b3, a3, List.length_cons, List.replicate_succ]
      simp [rngRun, rngOp, rngCall, List.append_assoc]

/-- **C134** (calls that do not overlap, partial) If every call of `rng()` is over before the next one starts, whichever threads make them, the numbers handed out are
those of a single thread, each one once and in order, and the generator is left where a single thread leaves it.  Missing: calls that overlap. -/
theorem C134_serial_partial (x : Nat) (calls : List Nat) :
    let S := (RngSys.start x).run (calls.flatMap fun t => [t, t])
    S.mem = (rngRun x (List.replicate calls.length .call)).1 ∧ S.out = calls.zip (rngRun x (List.replicate calls.length .call)).2 := by
  obtain ⟨h1, _, h3⟩ := calls_run calls (RngSys.start x) (fun _ => rfl)
  exact ⟨h1, by simpa [RngSys.start] using h3⟩

/-- **C134** (the claim is false of overlapping calls) A thread that is delayed inside `rng()` turns the generator back: while it is there another thread draws `n`
numbers; after it has left, the other thread is given the same numbers again (all but the first, which the delayed thread got). -/
theorem C134_violation_replay (x t u n : Nat) (htu : t ≠ u) :
    ((RngSys.start x).run ([t] ++ (List.replicate n u).flatMap (fun a => [a, a]) ++ [t] ++ (List.replicate n u).flatMap (fun a => [a, a]))).out =
      (List.range n).map (fun k => (u, nthNumber x k)) ++ [(t, nthNumber x 0)] ++ (List.range n).map (fun k => (u, nthNumber x (k + 1))) := by
  have zipr : ∀ (n : Nat) (f : Nat → ℚ), (List.replicate n u).zip ((List.range n).map f) = (List.range n).map (fun k => (u, f k)) := by
    intro n f
    apply List.ext_getElem
    · simp
    · intro i h1 h2; simp
  -- a thread waiting with a loaded value does not disturb the calls of another
  have wait : ∀ (n : Nat) (S : RngSys) (v : Nat), S.loc u = none → S.loc t = some v →
      let S' := S.run ((List.replicate n u).flatMap (fun a => [a, a]))
      S'.loc u = none ∧ S'.loc t = some v ∧ S'.mem = lcgStep^[n] S.mem ∧ S'.out = S.out ++ (List.range n).map (fun k => (u, nthNumber S.mem k)) := by
    intro n
    induction n with
    | zero => intro S v h1 h2; simp [RngSys.run, h1, h2]
    | succ n ih =>
      intro S v h1 h2
      have e : S.run [u, u] = ⟨lcgStep S.mem, (S.run [u, u]).loc, S.out ++ [(u, canonical (lcgStep S.mem))]⟩ ∧ (S.run [u, u]).loc u = none ∧
          (S.run [u, u]).loc t = some v := by
        have e0 : S.run [u, u] = (S.step u).step u := rfl
        have e1 : S.step u = ⟨S.mem, fun w => if w = u then some S.mem else S.loc w, S.out⟩ := by
          unfold RngSys.step; rw [h1]
        rw [e0, e1]
        unfold RngSys.step
        simp only [if_pos trivial]
        refine ⟨trivial, trivial, ?_⟩
        rw [if_neg htu, if_neg htu, h2]
      simp only [List.replicate_succ, List.flatMap_cons]
      rw [RngSys.run_append]
      obtain ⟨b1, b2, b3, b4⟩ := ih (S.run [u, u]) v e.2.1 e.2.2
      refine ⟨b1, b2, ?_, ?_⟩
      · rw [b3, e.1, ← Function.iterate_succ_apply]
      · rw [b4, e.1, List.append_assoc, List.range_succ_eq_map]
        simp [nthNumber, Function.comp_def, Function.iterate_succ_apply]
  rw [RngSys.run_append, RngSys.run_append, RngSys.run_append]
  obtain ⟨S1, hS1⟩ : ∃ S, S = (RngSys.start x).run [t] := ⟨_, rfl⟩
  have e1 : S1 = ⟨x, fun w => if w = t then some x else none, []⟩ := by rw [hS1]; rfl
  rw [← hS1]
  obtain ⟨w1, w2, w3, w4⟩ := wait n S1 x (by rw [e1]; exact if_neg (Ne.symm htu)) (by rw [e1]; exact if_pos rfl)
  obtain ⟨S2, hS2⟩ : ∃ S, S = S1.run ((List.replicate n u).flatMap (fun a => [a, a])) := ⟨_, rfl⟩
  rw [← hS2] at w1 w2 w3 w4 ⊢
  have hnone : ∀ w, w ≠ t → S2.loc w = none := by
    intro w hw
    by_cases hwu : w = u
    · rw [hwu]; exact w1
    · have keep : ∀ (sched : List Nat) (S : RngSys), w ∉ sched → (S.run sched).loc w = S.loc w := by
        intro sched
        induction sched with
        | nil => intro S _; rfl
        | cons a sched ih =>
          intro S ha
          rw [List.mem_cons, not_or] at ha
          have : (S.step a).loc w = S.loc w := by
            unfold RngSys.step
            cases S.loc a <;> simp [ha.1]
          show ((S.step a).run sched).loc w = _
          rw [ih _ ha.2, this]
      rw [hS2, keep _ S1 (by
        intro hm
        obtain ⟨b, hb, hb2⟩ := List.mem_flatMap.mp hm
        have := List.eq_of_mem_replicate hb
        simp at hb2
        exact hwu (hb2.trans this)), e1]
      exact if_neg hw
  have e3 : S2.run [t] = ⟨lcgStep x, fun w => if w = t then none else S2.loc w, S2.out ++ [(t, canonical (lcgStep x))]⟩ := by
    show S2.step t = _
    unfold RngSys.step
    rw [w2]
  obtain ⟨_, _, c3⟩ := calls_run (List.replicate n u) (S2.run [t]) (by
    intro w
    rw [e3]
    by_cases hw : w = t
    · exact if_pos hw
    · exact (if_neg hw).trans (hnone w hw))
  rw [c3, e3, w4, e1, List.length_replicate, rngRun_calls, zipr]
  simp [nthNumber, Function.iterate_succ_apply]

/-- Two threads, one call each: both get the same number. -/
example : ((RngSys.start rngInit).run [0, 1, 0, 1]).out = [(0, nthNumber 1 0), (1, nthNumber 1 0)] := by decide +kernel
/-- Two threads, one after the other. -/
example : ((RngSys.start rngInit).run [0, 0, 1, 1]).out = [(0, nthNumber 1 0), (1, nthNumber 1 1)] := by decide +kernel
example : nthNumber 1 0 ≠ nthNumber 1 1 := by decide +kernel

/-! ## C135 -/

section Lib
variable {Key K : Type _} [DecidableEq Key] [Field K] [LinearOrder K]

theorem LibSys.run_append (S : LibSys Key K) (a b : List (LibEv Key K)) : S.run (a ++ b) = (S.run a).run b := by
  unfold LibSys.run; rw [List.foldl_append]

/-- What holds in every reachable state; `L` is the library at the start. -/
structure ThreadInv (L : Lib Key K) (S : LibSys Key K) : Prop where
  keys : ∀ k s, S.lib.lists k = some s → ∃ s0, L.lists k = some s0 ∧ s.temps = s0.temps ∧ s.loaded.length = s.temps.length
  keys' : ∀ k s0, L.lists k = some s0 → ∃ s, S.lib.lists k = some s
  own : ∀ k s (i : Nat) (o : LObj), S.lib.lists k = some s → s.loaded[i]? = some (some o) → (o, k, i) ∈ S.built
  old : ∀ o k i, (o, k, i) ∈ S.built → o.id < S.lib.next
  uniq : ∀ o k i o' k' i', (o, k, i) ∈ S.built → (o', k', i') ∈ S.built → o.id = o'.id → o = o' ∧ k = k' ∧ i = i'
  bld : ∀ t r i, S.pc t = .building r i → Selects L r i
  ret : ∀ t r i, S.pc t = .returning r i → Selects L r i ∧ ∃ s o, S.lib.lists r.key = some s ∧ s.loaded[i]? = some (some o)
  fin : ∀ t r o, (t, r, .ok o) ∈ S.done → ∃ i, Selects L r i ∧ (o, r.key, i) ∈ S.built
  exc : ∀ t r e, (t, r, .error e) ∈ S.done → e = .exc

theorem loadIndex_lt (T tol : K) (l : List K) : ∀ (a i : Nat), loadIndex T tol l a = some i → i < a + l.length := by
  induction l with
  | nil => intro a i h; simp [loadIndex] at h
  | cons x l ih =>
    intro a i h
    unfold loadIndex at h
    simp only at h
    have hcase : i = a ∨ loadIndex T tol l (a + 1) = some i := by
      by_cases c1 : (if l.isEmpty = true then bigT else |T - x|) < |T - x|
      · rw [if_pos c1] at h; exact .inr h
      · rw [if_neg c1] at h
        by_cases c2 : |T - x| ≤ tol
        · rw [if_pos c2] at h; cases h; exact .inl rfl
        · rw [if_neg c2] at h; exact .inr h
    rcases hcase with rfl | h
    · simp
    · have := ih _ _ h; simp only [List.length_cons]; omega

omit [DecidableEq Key] in
/-- Ending a call. -/
theorem ThreadInv.finish {L : Lib Key K} {S : LibSys Key K} (h : ThreadInv L S) (t : Nat) (r : LoadReq Key K) (o : Res LObj)
    (hok : ∀ x, o = .ok x → ∃ i, Selects L r i ∧ (x, r.key, i) ∈ S.built) (her : ∀ e, o = .error e → e = .exc) : ThreadInv L (S.finish t r o) := by
  have pcs : ∀ u p, (S.finish t r o).pc u = p → p ≠ .idle → S.pc u = p := by
    intro u p hp hne
    simp only [LibSys.finish, LibSys.setPc] at hp
    by_cases e : u = t
    · rw [if_pos e] at hp; exact absurd hp.symm hne
    · rwa [if_neg e] at hp
  refine ⟨h.keys, h.keys', h.own, h.old, h.uniq, fun u r' i hu => h.bld u r' i (pcs u _ hu (by simp)), fun u r' i hu => h.ret u r' i (pcs u _ hu (by simp)), ?_, ?_⟩
  · intro u r' x hm
    rcases List.mem_append.mp hm with hm | hm
    · exact h.fin u r' x hm
    · simp only [List.mem_singleton, Prod.mk.injEq] at hm
      obtain ⟨_, rfl, e⟩ := hm
      exact hok x e.symm
  · intro u r' e hm
    rcases List.mem_append.mp hm with hm | hm
    · exact h.exc u r' e hm
    · simp only [List.mem_singleton, Prod.mk.injEq] at hm
      exact her e hm.2.2.symm

theorem ThreadInv.step {L : Lib Key K} {S : LibSys Key K} (h : ThreadInv L S) (ev : LibEv Key K) : ThreadInv L (S.step ev) := by
  cases ev with
  | call t r =>
    cases hpc : S.pc t with
    | building => simp only [LibSys.step, hpc]; exact h
    | returning => simp only [LibSys.step, hpc]; exact h
    | idle =>
      simp only [LibSys.step, hpc]
      cases hl : S.lib.lists r.key with
      | none => exact h.finish t r _ (fun x e => by cases e) (fun e he => by cases he; rfl)
      | some s =>
        simp only
        cases hi : loadIndex r.T r.tol s.temps 0 with
        | none => exact h.finish t r _ (fun x e => by cases e) (fun e he => by cases he; rfl)
        | some i =>
          simp only
          obtain ⟨s0, k1, k2, k3⟩ := h.keys r.key s hl
          have hsel : Selects L r i := ⟨s0, k1, by rw [← k2]; exact hi⟩
          cases hld : s.loaded[i]? with
          | none =>
            exfalso
            have := loadIndex_lt _ _ _ _ _ hi
            rw [List.getElem?_eq_none_iff] at hld
            omega
          | some c =>
            cases c with
            | some o =>
              simp only
              refine ⟨h.keys, h.keys', h.own, h.old, h.uniq, ?_, ?_, h.fin, h.exc⟩
              · intro u r' j hu
                simp only [LibSys.setPc] at hu
                by_cases e : u = t
                · rw [if_pos e] at hu; cases hu
                · rw [if_neg e] at hu; exact h.bld u r' j hu
              · intro u r' j hu
                simp only [LibSys.setPc] at hu
                by_cases e : u = t
                · rw [if_pos e] at hu; cases hu; exact ⟨hsel, s, o, hl, hld⟩
                · rw [if_neg e] at hu; exact h.ret u r' j hu
            | none =>
              simp only
              refine ⟨h.keys, h.keys', h.own, h.old, h.uniq, ?_, ?_, h.fin, h.exc⟩
              · intro u r' j hu
                simp only [LibSys.setPc] at hu
                by_cases e : u = t
                · rw [if_pos e] at hu; cases hu; exact hsel
                · rw [if_neg e] at hu; exact h.bld u r' j hu
              · intro u r' j hu
                simp only [LibSys.setPc] at hu
                by_cases e : u = t
                · rw [if_pos e] at hu; cases hu
                · rw [if_neg e] at hu; exact h.ret u r' j hu
  | go t =>
    cases hpc : S.pc t with
    | idle => simp only [LibSys.step, hpc]; exact h
    | returning r i =>
      simp only [LibSys.step, hpc]
      obtain ⟨hsel, s, o, hl, hld⟩ := h.ret t r i hpc
      simp only [hl, hld]
      exact h.finish t r _ (fun x e => by cases e; exact ⟨i, hsel, h.own _ _ _ _ hl hld⟩) (fun e he => by cases he)
    | building r i =>
      simp only [LibSys.step, hpc]
      by_cases hf : r.fileOk
      · rw [if_pos hf]
        have hsel := h.bld t r i hpc
        obtain ⟨s0, a1, a2⟩ := hsel
        obtain ⟨s, hl⟩ := h.keys' _ _ a1
        obtain ⟨s0', k1, k2, k3⟩ := h.keys _ _ hl
        rw [a1] at k1; cases k1
        have hilt : i < s.loaded.length := by
          have := loadIndex_lt _ _ _ _ _ a2
          rw [k3, k2]; omega
        rw [hl]
        simp only
        obtain ⟨o, ho⟩ : ∃ o : LObj, o = ⟨S.lib.next, if S.lib.shares r.key then s.first.map LObj.id else none⟩ := ⟨_, rfl⟩
        rw [← ho]
        generalize (if S.lib.shares r.key then _ else s.first) = first
        have hoid : o.id = S.lib.next := by rw [ho]
        have look : ∀ k s', (if k = r.key then some (⟨s.temps, s.loaded.set i (some o), first⟩ : STList K) else S.lib.lists k) = some s' →
            (k = r.key ∧ s' = ⟨s.temps, s.loaded.set i (some o), first⟩) ∨ (k ≠ r.key ∧ S.lib.lists k = some s') := by
          intro k s' he
          by_cases hk : k = r.key
          · rw [if_pos hk] at he; cases he; exact .inl ⟨hk, rfl⟩
          · rw [if_neg hk] at he; exact .inr ⟨hk, he⟩
        refine ⟨?_, ?_, ?_, ?_, ?_, ?_, ?_, ?_, h.exc⟩
        · intro k s' he
          rcases look k s' he with ⟨rfl, rfl⟩ | ⟨_, he⟩
          · exact ⟨s0, a1, k2, by simp [k3]⟩
          · exact h.keys k s' he
        · intro k s1 he
          by_cases hk : k = r.key
          · exact ⟨_, if_pos hk⟩
          · obtain ⟨s', hs'⟩ := h.keys' k s1 he
            exact ⟨s', by simp only; rw [if_neg hk]; exact hs'⟩
        · intro k s' j o' he hj
          rcases look k s' he with ⟨rfl, rfl⟩ | ⟨_, he⟩
          · simp only at hj
            by_cases hji : j = i
            · subst hji
              rw [List.getElem?_set_self hilt] at hj
              cases hj
              exact List.mem_cons_self
            · rw [List.getElem?_set_ne (Ne.symm hji)] at hj
              exact List.mem_cons_of_mem _ (h.own _ _ _ _ hl hj)
          · exact List.mem_cons_of_mem _ (h.own _ _ _ _ he hj)
        · intro o' k j hm
          simp only
          rcases List.mem_cons.mp hm with hm | hm
          · cases hm; omega
          · have := h.old _ _ _ hm; omega
        · intro o1 k1 i1 o2 k2 i2 h1 h2 hid
          rcases List.mem_cons.mp h1 with h1 | h1 <;> rcases List.mem_cons.mp h2 with h2 | h2
          · cases h1; cases h2; exact ⟨rfl, rfl, rfl⟩
          · cases h1
            have := h.old _ _ _ h2
            omega
          · cases h2
            have := h.old _ _ _ h1
            omega
          · exact h.uniq _ _ _ _ _ _ h1 h2 hid
        · intro u r' j hu
          simp only [LibSys.setPc] at hu
          by_cases e : u = t
          · rw [if_pos e] at hu; cases hu
          · rw [if_neg e] at hu; exact h.bld u r' j hu
        · intro u r' j hu
          simp only [LibSys.setPc] at hu
          by_cases e : u = t
          · rw [if_pos e] at hu
            cases hu
            exact ⟨⟨s0, a1, a2⟩, _, o, if_pos rfl, List.getElem?_set_self hilt⟩
          · rw [if_neg e] at hu
            obtain ⟨q1, s1, o1, q2, q3⟩ := h.ret u r' j hu
            refine ⟨q1, ?_⟩
            by_cases hk : r'.key = r.key
            · rw [hk, hl] at q2
              cases q2
              by_cases hji : j = i
              · subst hji
                exact ⟨_, o, if_pos hk, List.getElem?_set_self hilt⟩
              · exact ⟨_, o1, if_pos hk, by simp only; rw [List.getElem?_set_ne (Ne.symm hji)]; exact q3⟩
            · exact ⟨s1, o1, by simp only; rw [if_neg hk]; exact q2, q3⟩
        · intro u r' x hm
          obtain ⟨j, b1, b2⟩ := h.fin u r' x hm
          exact ⟨j, b1, List.mem_cons_of_mem _ b2⟩
      · rw [if_neg hf]
        exact h.finish t r _ (fun x e => by cases e) (fun e he => by cases he; rfl)

omit [DecidableEq Key] in
theorem ThreadInv.start {L : Lib Key K} (h : Fresh L) : ThreadInv L (LibSys.start L) where
  keys := fun k s hs => ⟨s, hs, rfl, (h.2.2 k s hs).2.1⟩
  keys' := fun k s hs => ⟨s, hs⟩
  own := fun k s i o hs ho => absurd ho ((h.2.2 k s hs).2.2 i o)
  old := fun o k i hm => (by cases hm)
  uniq := fun o k i o' k' i' hm => (by cases hm)
  bld := fun t r i hp => (by cases hp)
  ret := fun t r i hp => (by cases hp)
  fin := fun t r o hm => (by cases hm)
  exc := fun t r e hm => (by cases hm)

theorem ThreadInv.run {L : Lib Key K} {S : LibSys Key K} (h : ThreadInv L S) (sched : List (LibEv Key K)) : ThreadInv L (S.run sched) := by
  induction sched generalizing S with
  | nil => exact h
  | cons ev sched ih => exact ih (h.step ev)

/-- **C135** Under every schedule of any number of threads that load from one library: a load never reads out of range, and returns data for the table its request
selects: an object returned to two loads, by whichever threads, is one both loads asked for. -/
theorem C135_right_table (L : Lib Key K) (hL : Fresh L) (sched : List (LibEv Key K)) :
    let S := (LibSys.start L).run sched
    (∀ t r e, (t, r, .error e) ∈ S.done → e = .exc) ∧ (∀ t r o, (t, r, .ok o) ∈ S.done → ∃ i, Selects L r i) ∧
    ∀ t r o t' r' o' i i', (t, r, .ok o) ∈ S.done → (t', r', .ok o') ∈ S.done → o.id = o'.id → Selects L r i → Selects L r' i' →
      o = o' ∧ r.key = r'.key ∧ i = i' := by
  have inv := (ThreadInv.start hL).run sched
  refine ⟨inv.exc, fun t r o h => ?_, ?_⟩
  · obtain ⟨i, h1, _⟩ := inv.fin t r o h
    exact ⟨i, h1⟩
  · intro t r o t' r' o' i i' h1 h2 hid s1 s2
    obtain ⟨j, a1, a2⟩ := inv.fin t r o h1
    obtain ⟨j', b1, b2⟩ := inv.fin t' r' o' h2
    obtain ⟨c1, c2, c3⟩ := inv.uniq _ _ _ _ _ _ a2 b2 hid
    have sel : ∀ (r : LoadReq Key K) (i j : Nat), Selects L r i → Selects L r j → i = j := by
      rintro r i j ⟨s, p1, p2⟩ ⟨s', q1, q2⟩
      rw [p1] at q1; cases q1
      rw [p2] at q2; cases q2; rfl
    exact ⟨c1, c2, by rw [sel r i j s1 a1, sel r' i' j' s2 b1, c3]⟩

/-- One call run to its end is `Lib.load`. -/
theorem call_run (S : LibSys Key K) (t : Nat) (r : LoadReq Key K) (h : ∀ u, S.pc u = .idle)
    (hlen : ∀ k s, S.lib.lists k = some s → s.loaded.length = s.temps.length) :
    (S.run [.call t r, .go t, .go t]).lib = (S.lib.load r).1 ∧ (∀ u, (S.run [.call t r, .go t, .go t]).pc u = .idle) ∧
    (S.run [.call t r, .go t, .go t]).done = S.done ++ [(t, r, (S.lib.load r).2)] := by
  have e : S.run [.call t r, .go t, .go t] = ((S.step (.call t r)).step (.go t)).step (.go t) := rfl
  have fin : ∀ (S : LibSys Key K) (o : Res LObj), (∀ u, u ≠ t → S.pc u = .idle) → (S.finish t r o).lib = S.lib ∧ (∀ u, (S.finish t r o).pc u = .idle) ∧
      (S.finish t r o).done = S.done ++ [(t, r, o)] := by
    intro S o hS
    refine ⟨rfl, fun u => ?_, rfl⟩
    simp only [LibSys.finish, LibSys.setPc]
    by_cases hu : u = t
    · rw [if_pos hu]
    · rw [if_neg hu]; exact hS u hu
  have idle : ∀ (S : LibSys Key K), S.pc t = .idle → S.step (.go t) = S := by
    intro S hS
    simp only [LibSys.step, hS]
  have fin2 : ∀ (o : Res LObj), (((S.finish t r o).step (.go t)).step (.go t)) = S.finish t r o := by
    intro o
    have := (fin S o (fun u _ => h u)).2.1 t
    rw [idle _ this, idle _ this]
  rw [e]
  have hst : S.step (.call t r) = (match S.lib.lists r.key with
      | none => S.finish t r (.error .exc)
      | some s =>
        match loadIndex r.T r.tol s.temps 0 with
        | none => S.finish t r (.error .exc)
        | some i =>
          match s.loaded[i]? with
          | none => S.finish t r (.error .ub)
          | some (some _) => ⟨S.lib, S.setPc t (.returning r i), S.done, S.built⟩
          | some none => ⟨S.lib, S.setPc t (.building r i), S.done, S.built⟩) := by
    simp only [LibSys.step, h t]
    rfl
  have hpc : ∀ p u, S.setPc t p u = if u = t then p else .idle := by
    intro p u
    simp only [LibSys.setPc, h u]
  rw [hst]
  unfold Lib.load
  cases hl : S.lib.lists r.key with
  | none => simp only; rw [fin2]; exact fin S _ (fun u _ => h u)
  | some s =>
    simp only
    cases hi : loadIndex r.T r.tol s.temps 0 with
    | none => simp only; rw [fin2]; exact fin S _ (fun u _ => h u)
    | some i =>
      simp only
      have hilt : i < s.loaded.length := by
        have := loadIndex_lt _ _ _ _ _ hi
        rw [hlen _ _ hl]; omega
      cases hld : s.loaded[i]? with
      | none => simp only; rw [fin2]; exact fin S _ (fun u _ => h u)
      | some c =>
        cases c with
        | some o =>
          simp only
          have e1 : (LibSys.mk S.lib (S.setPc t (.returning r i)) S.done S.built).step (.go t) =
              (LibSys.mk S.lib (S.setPc t (.returning r i)) S.done S.built).finish t r (.ok o) := by
            simp only [LibSys.step, hpc, if_pos trivial, hl, hld]
          have hf := fin (LibSys.mk S.lib (S.setPc t (.returning r i)) S.done S.built) (.ok o) (fun u hu => by simp only [hpc, if_neg hu])
          rw [e1, idle _ (hf.2.1 t)]
          exact hf
        | none =>
          simp only
          by_cases hfile : r.fileOk
          · rw [if_pos hfile]
            obtain ⟨o, ho⟩ : ∃ o : LObj, o = ⟨S.lib.next, if S.lib.shares r.key then s.first.map LObj.id else none⟩ := ⟨_, rfl⟩
            obtain ⟨first, hfst⟩ : ∃ f, f = (if S.lib.shares r.key then some (s.first.getD o) else s.first) := ⟨_, rfl⟩
            obtain ⟨M, hM⟩ : ∃ M : LibSys Key K, M = ⟨⟨fun k => if k = r.key then some ⟨s.temps, s.loaded.set i (some o), first⟩ else S.lib.lists k, S.lib.shares,
              S.lib.next + 1, (r.key, i) :: S.lib.reads⟩, S.setPc t (.returning r i), S.done, (o, r.key, i) :: S.built⟩ := ⟨_, rfl⟩
            have e1 : (LibSys.mk S.lib (S.setPc t (.building r i)) S.done S.built).step (.go t) = M := by
              rw [hM]
              simp only [LibSys.step, hpc, if_pos trivial, hl, hfile]
              have hp : (LibSys.mk S.lib (S.setPc t (.building r i)) S.done S.built).setPc t (.returning r i) = S.setPc t (.returning r i) := by
                funext u
                simp only [LibSys.setPc]
                by_cases hu : u = t
                · rw [if_pos hu, if_pos hu]
                · rw [if_neg hu, if_neg hu, if_neg hu]
              rw [hp, hfst, ho]
              cases s.first <;> rfl
            have e2 : M.step (.go t) = M.finish t r (.ok o) := by
              have p1 : M.pc t = .returning r i := by rw [hM]; simp only [hpc, if_pos trivial]
              have p2 : M.lib.lists r.key = some ⟨s.temps, s.loaded.set i (some o), first⟩ := by rw [hM]; exact if_pos rfl
              simp only [LibSys.step, p1, p2, List.getElem?_set_self hilt]
            have hf := fin M (.ok o) (fun u hu => by rw [hM]; simp only [hpc, if_neg hu])
            rw [e1, e2]
            refine ⟨?_, hf.2.1, ?_⟩
            · rw [hf.1, hM, hfst, ho]
              cases s.first <;> rfl
            · rw [hf.2.2, hM, ho]
          · rw [if_neg hfile]
            have e1 : (LibSys.mk S.lib (S.setPc t (.building r i)) S.done S.built).step (.go t) =
                (LibSys.mk S.lib (S.setPc t (.building r i)) S.done S.built).finish t r (.error .exc) := by
              simp only [LibSys.step, hpc, if_pos trivial, hfile]
              rfl
            have hf := fin (LibSys.mk S.lib (S.setPc t (.building r i)) S.done S.built) (.error .exc) (fun u hu => by simp only [hpc, if_neg hu])
            rw [e1, idle _ (hf.2.1 t)]
            exact hf

/-- The outcomes of a history of loads by a single thread. -/
def Spec.outcomes (L : Lib Key K) : List (LoadReq Key K) → List (Res LObj)
  | [] => []
  | r :: h => (L.load r).2 :: Spec.outcomes (L.load r).1 h

/-- **C135** (loads that do not overlap, partial) If every load is over before the next one starts, whichever threads make them, all is as if one thread had made them:
each table is read at most once, and the outcomes are those of C53.  Missing: loads that overlap. -/
theorem C135_serial_partial (L : Lib Key K) (hL : Fresh L) (calls : List (Nat × LoadReq Key K)) :
    let S := (LibSys.start L).run (calls.flatMap fun c => [.call c.1 c.2, .go c.1, .go c.1])
    S.lib = L.run (calls.map Prod.snd) ∧ S.lib.reads.Nodup ∧
    S.done = (calls.zip (outcomes L (calls.map Prod.snd))).map (fun p => (p.1.1, p.1.2, p.2)) := by
  have key : ∀ (calls : List (Nat × LoadReq Key K)) (S : LibSys Key K), CacheInv S.lib → (∀ u, S.pc u = .idle) →
      (S.run (calls.flatMap fun c => [.call c.1 c.2, .go c.1, .go c.1])).lib = S.lib.run (calls.map Prod.snd) ∧
      (S.run (calls.flatMap fun c => [.call c.1 c.2, .go c.1, .go c.1])).done =
        S.done ++ (calls.zip (outcomes S.lib (calls.map Prod.snd))).map (fun p => (p.1.1, p.1.2, p.2)) := by
    intro calls
    induction calls with
    | nil => intro S _ _; simp [LibSys.run, Lib.run, outcomes]
    | cons c calls ih =>
      intro S hinv hidle
      obtain ⟨a1, a2, a3⟩ := call_run S c.1 c.2 hidle hinv.len
      rw [List.flatMap_cons, LibSys.run_append]
      obtain ⟨b1, b2⟩ := ih _ (by rw [a1]; exact hinv.step c.2) a2
      refine ⟨?_, ?_⟩
      · rw [b1, a1]; rfl
      · rw [b2, a3, a1]
        simp [outcomes, List.append_assoc]
  obtain ⟨h1, h2⟩ := key calls (LibSys.start L) (CacheInv.fresh hL) (fun _ => rfl)
  refine ⟨h1, ?_, by simpa [LibSys.start] using h2⟩
  rw [h1]
  exact C53_read_once L hL _

end Lib

/-- **C135** (the claim is false of overlapping loads) Two threads load the same table at the same time: it is read twice, and the two threads hold different objects. -/
theorem C135_violation : ∃ (L : Lib Nat ℚ) (r : LoadReq Nat ℚ) (o o' : LObj), Fresh L ∧
    ((LibSys.start L).run [.call 0 r, .call 1 r, .go 0, .go 0, .go 1, .go 1]).done = [(0, r, .ok o), (1, r, .ok o')] ∧ o.id ≠ o'.id ∧
    ((LibSys.start L).run [.call 0 r, .call 1 r, .go 0, .go 0, .go 1, .go 1]).lib.reads = [(0, 0), (0, 0)] := by
  refine ⟨⟨fun k => if k = 0 then some ⟨[293], [none], none⟩ else none, fun _ => true, 0, []⟩, ⟨0, 293, 1, true⟩, ⟨0, none⟩, ⟨1, some 0⟩, ?_, ?_, ?_, ?_⟩
  · refine ⟨rfl, rfl, ?_⟩
    intro k s h
    by_cases hk : k = 0
    · simp only [if_pos hk, Option.some.injEq] at h
      rw [← h]
      refine ⟨rfl, rfl, ?_⟩
      intro i o
      rcases i with _ | i <;> simp
    · simp only [if_neg hk] at h
      cases h
  · have hi : loadIndex (293 : ℚ) 1 [293] 0 = some 0 := by decide +kernel
    simp [LibSys.run, LibSys.step, LibSys.start, LibSys.setPc, LibSys.finish, hi]
  · decide
  · have hi : loadIndex (293 : ℚ) 1 [293] 0 = some 0 := by decide +kernel
    simp [LibSys.run, LibSys.step, LibSys.start, LibSys.setPc, LibSys.finish, hi]

end PNDL
