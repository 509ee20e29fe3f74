import Verif.Model.Library
import Verif.Model.NucAce
import Verif.Model.Thermal

/-! `NDLibrary` with the objects it loads (src/nd_library.cpp:134-274).  `Model/Library.lean` models the same cache with opaque objects; here the
objects are the nuclides and thermal scattering laws made from the files, and a program may change the settings of the nuclides it was given
(st_neutron.hpp:173) between the calls. -/
namespace PNDL

/-- `STNeutronList` (nd_library.hpp:149-154).  `files i` is what reading table `i` gives (`ACE(file, type)`, src/nd_library.cpp:188-189); objects are
numbers of heap cells. -/
structure NList where
  temps : List ℝ
  files : List (Res AceFile)
  loaded : List (Option Nat)
  first : Option Nat

/-- `STThermalScatteringLawList` (nd_library.hpp:156-160).  The laws cannot be changed once made, so they are stored themselves. -/
structure TList where
  temps : List ℝ
  files : List (Res TslAce)
  loaded : List (Option ThermalLaw)

/-- The library (nd_library.hpp:164-165) and the nuclides it has made (`heap`). -/
structure NLib (Key : Type) where
  neutrons : Key → Option NList
  tsls : Key → Option TList
  heap : List Nuc

/-- A request after the symbol has been resolved; `readable` tells whether the file can be read at this time. -/
structure NReq (Key : Type) where
  key : Key
  T : ℝ
  tol : ℝ
  readable : Bool

variable {Key : Type} [DecidableEq Key]

/-- Reading and constructing (src/nd_library.cpp:185-199): the first nuclide of a list from its file alone, the others sharing the distributions of the
first one as it is at this time. -/
noncomputable def NLib.build (L : NLib Key) (s : NList) (i fuel : Nat) : Res Nuc := do
  let r ← getAt s.files i
  let f ← r
  match s.first with
  | some p => do
    let o ← getAt L.heap p
    Nuc.makeShared f o
  | none => Nuc.makeAce f fuel

/-- `load_STNeutron` (src/nd_library.cpp:134-209) after the symbol has been resolved: the library after the call, and the object returned.  An exception
leaves the function before anything is stored (200-206). -/
noncomputable def NLib.load (L : NLib Key) (fuel : Nat) (r : NReq Key) : NLib Key × Res Nat :=
  match L.neutrons r.key with
  | none => (L, .error .exc)
  | some s =>
    match loadIndex r.T r.tol s.temps 0 with
    | none => (L, .error .exc)
    | some i =>
      match s.loaded[i]? with
      | none => (L, .error .ub)
      | some (some o) => (L, .ok o)
      | some none =>
        if r.readable = false then (L, .error .exc)
        else
          match L.build s i fuel with
          | .error e => (L, .error e)
          | .ok n =>
            let o := L.heap.length
            let first := match s.first with | some p => some p | none => some o
            let s' : NList := ⟨s.temps, s.files, s.loaded.set i (some o), first⟩
            (⟨fun k => if k = r.key then some s' else L.neutrons k, L.tsls, L.heap ++ [n]⟩, .ok o)

/-- `load_STTSL` (src/nd_library.cpp:211-274) after the name has been found. -/
noncomputable def NLib.loadTsl (L : NLib Key) (r : NReq Key) : NLib Key × Res ThermalLaw :=
  match L.tsls r.key with
  | none => (L, .error .exc)
  | some s =>
    match loadIndex r.T r.tol s.temps 0 with
    | none => (L, .error .exc)
    | some i =>
      match s.loaded[i]? with
      | none => (L, .error .ub)
      | some (some t) => (L, .ok t)
      | some none =>
        if r.readable = false then (L, .error .exc)
        else
          match (do let f ← getAt s.files i; let a ← f; ThermalLaw.makeAce a false : Res ThermalLaw) with
          | .error e => (L, .error e)
          | .ok t =>
            let s' : TList := ⟨s.temps, s.files, s.loaded.set i (some t)⟩
            (⟨L.neutrons, fun k => if k = r.key then some s' else L.tsls k, L.heap⟩, .ok t)

/-- A setter of `nuclide.elastic()` (st_neutron.hpp:173) on object `o`. -/
noncomputable def NLib.set (L : NLib Key) (o : Nat) (op : ElasticOp) : NLib Key :=
  match L.heap[o]? with
  | none => L
  | some n => { L with heap := L.heap.set o { n with elastic := (n.elastic.step op).1 } }

/-- What a program can do with a library. -/
inductive NOp (Key : Type) where
  | load (r : NReq Key)
  | loadTsl (r : NReq Key)
  | set (o : Nat) (op : ElasticOp)

/-- One operation, whatever its outcome. -/
noncomputable def NLib.step (fuel : Nat) (L : NLib Key) : NOp Key → NLib Key
  | .load r => (L.load fuel r).1
  | .loadTsl r => (L.loadTsl r).1
  | .set o op => L.set o op

/-- A history of operations. -/
noncomputable def NLib.run (L : NLib Key) (fuel : Nat) (h : List (NOp Key)) : NLib Key := h.foldl (NLib.step fuel) L

end PNDL
