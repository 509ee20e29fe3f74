import Verif.Model.Elastic

/-! Who owns the elastic distribution of a nuclide: `STNeutron::elastic_` (st_neutron.hpp:231) is a `std::shared_ptr<Elastic>`, `Elastic::broadener_`
(elastic.hpp:163) a `std::shared_ptr<ElasticDopplerBroadener>`.  Everything else in these classes is a value or a pointer to an object that cannot be
changed.  Objects are cells with the use count of `shared_ptr`; a count of zero means destroyed. -/
namespace PNDL

/-- An object owned by shared pointers. -/
structure RcCell (α : Type) where
  val : α
  count : Nat

/-- Copying a shared pointer.  From a destroyed object: undefined. -/
def rcInc {α : Type} (h : List (RcCell α)) (i : Nat) : Res (List (RcCell α)) :=
  match h[i]? with
  | some c => if c.count = 0 then .error .ub else .ok (h.set i ⟨c.val, c.count + 1⟩)
  | none => .error .ub

/-- Destroying a shared pointer: the object is destroyed with the last one. -/
def rcDec {α : Type} (h : List (RcCell α)) (i : Nat) : Res (List (RcCell α)) :=
  match h[i]? with
  | some c => if c.count = 0 then .error .ub else .ok (h.set i ⟨c.val, c.count - 1⟩)
  | none => .error .ub

/-- Using the object behind a pointer or a reference. -/
def rcGet {α : Type} (h : List (RcCell α)) (i : Nat) : Res α :=
  match h[i]? with
  | some c => if c.count = 0 then .error .ub else .ok c.val
  | none => .error .ub

/-- An `Elastic`: its values in `base` (whose broadener is not used), its broadener a cell. -/
structure EObj where
  base : Elastic
  brd : Nat

/-- The objects of a program: broadeners, elastic distributions, nuclide variables (`none` after their destructor), and the shared pointers to
broadeners the program holds itself (`none` after `reset()`). -/
structure ElWorld where
  brds : List (RcCell Broadener)
  els : List (RcCell EObj)
  nucs : List (Option Nat)
  handles : List (Option Nat)

/-- No objects. -/
def ElWorld.empty : ElWorld := ⟨[], [], [], []⟩

/-- The setters other than that of the broadener (src/elastic.cpp:126-138, elastic.hpp:134). -/
inductive Setting where
  | temperature (t : ℝ)
  | useTar (b : Bool)
  | tar (t : ℝ)

/-- The setter it is. -/
def Setting.op : Setting → ElasticOp
  | .temperature t => .setTemperature t
  | .useTar b => .setUseTar b
  | .tar t => .setTar t

/-- What a program can do.  Statements naming a variable or pointer that does not exist, or not any more, do nothing here. -/
inductive ElOp where
  /-- `auto p = std::make_shared<...>()` -/
  | newBroadener (b : Broadener)
  /-- `p.reset()` -/
  | dropBroadener (h : Nat)
  /-- `STNeutron n(ace)` -/
  | newNuc (e : Elastic) (b : Broadener)
  /-- `STNeutron n(ace, v)`, the file having the temperature `T` -/
  | derive (v : Nat) (T : ℝ)
  /-- `STNeutron n(v)`, the copy constructor -/
  | copy (v : Nat)
  /-- `v = u` -/
  | assign (v u : Nat)
  /-- the end of the life of `v` -/
  | destroy (v : Nat)
  /-- `v.elastic().set_elastic_doppler_broadener(p)`; `none` is a null pointer -/
  | setBroadener (v : Nat) (h : Option Nat)
  /-- `v.elastic().set_...(...)` -/
  | set (v : Nat) (s : Setting)

namespace ElWorld

/-- `~shared_ptr<Elastic>`: the last one destroys the `Elastic`, and with it its pointer to the broadener. -/
def dropEl (w : ElWorld) (i : Nat) : Res ElWorld := do
  let e ← rcGet w.els i
  let els ← rcDec w.els i
  let n ← (match els[i]? with | some c => .ok c.count | none => .error .ub : Res Nat)
  if n = 0 then do
    let brds ← rcDec w.brds e.brd
    return { w with els := els, brds := brds }
  else return { w with els := els }

/-- Storing a changed `Elastic` in its cell. -/
def store (w : ElWorld) (i : Nat) (e : EObj) : ElWorld :=
  match w.els[i]? with
  | some c => { w with els := w.els.set i ⟨e, c.count⟩ }
  | none => w

/-- One statement.  `newNuc`: src/st_neutron.cpp:89-93.  `derive`: src/st_neutron.cpp:195-196 with `clone` (elastic.hpp:153-155), whose copy constructor
copies the pointer to the broadener.  `copy`, `assign`, `destroy`: the members generated by the compiler, which copy, assign and destroy the pointer
`elastic_`.  `setBroadener`: src/elastic.cpp:114-122. -/
noncomputable def step (w : ElWorld) : ElOp → Res ElWorld
  | .newBroadener b => .ok { w with brds := w.brds ++ [⟨b, 1⟩], handles := w.handles ++ [some w.brds.length] }
  | .dropBroadener h =>
    match w.handles[h]? with
    | some (some j) => do
      let brds ← rcDec w.brds j
      return { w with brds := brds, handles := w.handles.set h none }
    | _ => .ok w
  | .newNuc e b =>
    .ok { w with brds := w.brds ++ [⟨b, 1⟩], els := w.els ++ [⟨⟨e, w.brds.length⟩, 1⟩], nucs := w.nucs ++ [some w.els.length] }
  | .derive v T =>
    match w.nucs[v]? with
    | some (some i) => do
      let e ← rcGet w.els i
      let brds ← rcInc w.brds e.brd
      let e' : EObj := ⟨(e.base.step (.setTemperature T)).1, e.brd⟩
      return { w with brds := brds, els := w.els ++ [⟨e', 1⟩], nucs := w.nucs ++ [some w.els.length] }
    | _ => .ok w
  | .copy v =>
    match w.nucs[v]? with
    | some (some i) => do
      let els ← rcInc w.els i
      return { w with els := els, nucs := w.nucs ++ [some i] }
    | _ => .ok w
  | .assign v u =>
    match w.nucs[v]?, w.nucs[u]? with
    | some (some i), some (some j) => do
      let els ← rcInc w.els j
      let w' ← dropEl { w with els := els } i
      return { w' with nucs := w'.nucs.set v (some j) }
    | _, _ => .ok w
  | .destroy v =>
    match w.nucs[v]? with
    | some (some i) => do
      let w' ← w.dropEl i
      return { w' with nucs := w'.nucs.set v none }
    | _ => .ok w
  | .setBroadener v (some h) =>
    match w.nucs[v]?, w.handles[h]? with
    | some (some i), some (some j) => do
      let brds ← rcInc w.brds j
      let e ← rcGet w.els i
      let brds ← rcDec brds e.brd
      return store { w with brds := brds } i ⟨e.base, j⟩
    | _, _ => .ok w
  | .setBroadener _ none => .ok w
  | .set v s =>
    match w.nucs[v]? with
    | some (some i) => do
      let e ← rcGet w.els i
      return w.store i ⟨(e.base.step s.op).1, e.brd⟩
    | _ => .ok w

/-- A program. -/
noncomputable def run (w : ElWorld) (ops : List ElOp) : Res ElWorld := ops.foldlM step w

/-- `v.elastic()` as it samples (src/elastic.cpp:64-112). -/
def elastic (w : ElWorld) (v : Nat) : Res Elastic :=
  match w.nucs[v]? with
  | some (some i) => do
    let e ← rcGet w.els i
    let b ← rcGet w.brds e.brd
    return { e.base with broadener := some b }
  | _ => .error .exc

/-- The object `v.elastic().elastic_doppler_broadener()` refers to (elastic.hpp:93-95): a bare reference, using it is `rcGet w.brds`. -/
def broadenerRef (w : ElWorld) (v : Nat) : Res Nat :=
  match w.nucs[v]? with
  | some (some i) => do
    let e ← rcGet w.els i
    return e.brd
  | _ => .error .exc

end ElWorld
end PNDL
