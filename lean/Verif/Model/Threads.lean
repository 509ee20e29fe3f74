import Verif.Model.Rng
import Verif.Model.Library

/-! Several threads using the process-wide generator, or one library object.  Steps of different threads interleave arbitrarily; each step is
taken as atomic and immediately visible to all (C++ itself gives racing accesses no meaning at all).  Reading a table, including the use and update of
`first_loaded`, is one step: finer interleavings there are not modelled. -/
namespace PNDL

/-! ### The generator -/

/-- The static engine (src/rng.cpp:31), the state each thread inside `rng()` has read and not yet replaced, and the numbers returned so far, in order
of return, with the thread that got each. -/
structure RngSys where
  mem : Nat
  loc : Nat → Option Nat
  out : List (Nat × ℚ)

/-- The next step of thread `t` in a call of `rng()` (src/rng.cpp:34): `LCG::operator()` first reads the engine's state, then stores the
successor and returns a number made from it. -/
def RngSys.step (S : RngSys) (t : Nat) : RngSys :=
  match S.loc t with
  | none => ⟨S.mem, fun u => if u = t then some S.mem else S.loc u, S.out⟩
  | some v => ⟨lcgStep v, fun u => if u = t then none else S.loc u, S.out ++ [(t, canonical (lcgStep v))]⟩

/-- A schedule: the threads in the order of their steps. -/
def RngSys.run (S : RngSys) (sched : List Nat) : RngSys := sched.foldl RngSys.step S

/-- The generator in state `x`, no thread inside `rng()`. -/
def RngSys.start (x : Nat) : RngSys := ⟨x, fun _ => none, []⟩

/-! ### The library -/

variable {Key K : Type _} [DecidableEq Key] [Field K] [LinearOrder K]

/-- Where a thread is in `load_STNeutron` (src/nd_library.cpp:147-209) or `load_STTSL` (222-274). -/
inductive LoadPc (Key K : Type _) where
  /-- Not in a load. -/
  | idle
  /-- The entry `i` was found empty (line 184 or 257); the table is to be read. -/
  | building (r : LoadReq Key K) (i : Nat)
  /-- The entry `i` is filled; it is to be returned (line 208 or 273). -/
  | returning (r : LoadReq Key K) (i : Nat)

/-- The shared library, the position of each thread, and the finished calls in order of return. -/
structure LibSys (Key K : Type _) where
  lib : Lib Key K
  pc : Nat → LoadPc Key K
  done : List (Nat × LoadReq Key K × Res LObj)
  /-- Ghost: for which table each object was built. -/
  built : List (LObj × Key × Nat)

/-- A scheduling decision: thread `t` calls a load function, or takes the next step of the one it is in. -/
inductive LibEv (Key K : Type _) where
  | call (t : Nat) (r : LoadReq Key K)
  | go (t : Nat)

/-- Position of thread `t` replaced. -/
def LibSys.setPc (S : LibSys Key K) (t : Nat) (p : LoadPc Key K) : Nat → LoadPc Key K := fun u => if u = t then p else S.pc u

/-- The call is over. -/
def LibSys.finish (S : LibSys Key K) (t : Nat) (r : LoadReq Key K) (o : Res LObj) : LibSys Key K :=
  ⟨S.lib, S.setPc t .idle, S.done ++ [(t, r, o)], S.built⟩

/-- One step.  A call by a thread that is inside a call, and a step by one that is not, do nothing. -/
def LibSys.step (S : LibSys Key K) : LibEv Key K → LibSys Key K
  | .call t r =>
    match S.pc t with
    | .idle =>
      match S.lib.lists r.key with
      | none => S.finish t r (.error .exc)
      | some s =>
        match loadIndex r.T r.tol s.temps 0 with
        | none => S.finish t r (.error .exc)
        | some i =>
          match s.loaded[i]? with
          | none => S.finish t r (.error .ub)
          | some (some _) => ⟨S.lib, S.setPc t (.returning r i), S.done, S.built⟩
          | some none => ⟨S.lib, S.setPc t (.building r i), S.done, S.built⟩
    | _ => S
  | .go t =>
    match S.pc t with
    | .idle => S
    | .building r i =>
      if r.fileOk then
        match S.lib.lists r.key with
        | none => S.finish t r (.error .exc)
        | some s =>
          let o : LObj := ⟨S.lib.next, if S.lib.shares r.key then s.first.map LObj.id else none⟩
          let first := if S.lib.shares r.key then (match s.first with | some f => some f | none => some o) else s.first
          let s' : STList K := ⟨s.temps, s.loaded.set i (some o), first⟩
          ⟨⟨fun k => if k = r.key then some s' else S.lib.lists k, S.lib.shares, S.lib.next + 1, (r.key, i) :: S.lib.reads⟩,
            S.setPc t (.returning r i), S.done, (o, r.key, i) :: S.built⟩
      else S.finish t r (.error .exc)
    | .returning r i =>
      match S.lib.lists r.key with
      | none => S.finish t r (.error .exc)
      | some s =>
        match s.loaded[i]? with
        | some (some o) => S.finish t r (.ok o)
        | _ => S.finish t r (.error .ub)

/-- A schedule. -/
def LibSys.run (S : LibSys Key K) (sched : List (LibEv Key K)) : LibSys Key K := sched.foldl LibSys.step S

/-- A library no thread is using. -/
def LibSys.start (L : Lib Key K) : LibSys Key K := ⟨L, fun _ => .idle, [], []⟩

end PNDL
