import Verif.Model.Tab1D

/-! Storage and lifetime of `Tabulated1D` objects.

A `Tabulated1D` owns two vectors `x_`, `y_`; its regions hold `std::span`s, i.e. (buffer, offset, length) references
(tabulated_1d.hpp:265-266, 270-274).  The class declares only its destructor (line 64), so copy construction and copy
assignment are the implicit memberwise ones and there is no move.  Memory is a list of buffers (`none` = deallocated) and a
list of objects (`none` = destroyed); identifiers are never reused. -/
namespace PNDL

/-- A vector's heap buffer. -/
structure Buf where
  cap : Nat
  data : List ℝ

/-- `std::span<const double>`. -/
structure Span where
  buf : Nat
  off : Nat
  len : Nat
  deriving DecidableEq

/-- `InterpolationRange` (tabulated_1d.hpp:264-267). -/
structure HRegion where
  interp : Interpolation
  xs : Span
  ys : Span

/-- A `Tabulated1D` object in memory. -/
structure Obj where
  nbt : List Nat
  int : List Interpolation
  x : Nat
  y : Nat
  regions : List HRegion

/-- Memory. -/
structure Mem where
  bufs : List (Option Buf)
  objs : List (Option Obj)

/-- Read a buffer; deallocated (or never allocated) storage is undefined behaviour. -/
def Mem.readBuf (m : Mem) (b : Nat) : Res Buf :=
  match m.bufs[b]? with
  | some (some d) => .ok d
  | _ => .error .ub

/-- Read through a span. -/
def Mem.readSpan (m : Mem) (s : Span) : Res (List ℝ) := do
  let b ← m.readBuf s.buf
  slice b.data s.off (s.off + s.len)

/-- The object with identifier `o`; using a destroyed object is undefined behaviour. -/
def Mem.obj (m : Mem) (o : Nat) : Res Obj :=
  match m.objs[o]? with
  | some (some d) => .ok d
  | _ => .error .ub

/-- Dereference all regions. -/
def Mem.readRegions (m : Mem) : List HRegion → Res (List Region)
  | [] => .ok []
  | g :: gs => do
    let xs ← m.readSpan g.xs
    let ys ← m.readSpan g.ys
    let rs ← m.readRegions gs
    return ⟨g.interp, xs, ys⟩ :: rs

/-- What the object's member functions see.  Simplification: all spans are dereferenced, while `operator()` stops at the
region it needs; the spans of one object all refer to the same two buffers and every evaluation dereferences at least one, so
liveness is the same. -/
def Mem.view (m : Mem) (o : Nat) : Res Tab1D := do
  let d ← m.obj o
  let x ← m.readBuf d.x
  let y ← m.readBuf d.y
  let gs ← m.readRegions d.regions
  return ⟨d.nbt, d.int, x.data, y.data, gs⟩

/-- `operator()` on object `o` (tabulated_1d.hpp:66-77). -/
noncomputable def Mem.eval (m : Mem) (o : Nat) (v : ℝ) : Res ℝ := do
  let t ← m.view o
  t.eval v

/-- Allocate a buffer holding `data`. -/
def Mem.alloc (m : Mem) (data : List ℝ) : Mem × Nat :=
  (⟨m.bufs ++ [some ⟨data.length, data⟩], m.objs⟩, m.bufs.length)

/-- Deallocate. -/
def Mem.free (m : Mem) (b : Nat) : Mem := ⟨m.bufs.set b none, m.objs⟩

/-- Begin of the spans computed by the constructor loop (src/tabulated_1d.cpp:57-83): `(law, low, hi)` per region. -/
noncomputable def spanBounds (x : List ℝ) : List (Nat × Interpolation) → Nat → Res (List (Interpolation × Nat × Nat))
  | [], _ => .ok []
  | (hi, r) :: rest, low => do
    let low' ← nextLow x hi
    let gs ← spanBounds x rest low'
    return (r, low, hi) :: gs

/-- `Tabulated1D(NBT, INT, x, y)`: copies the arguments into its own vectors and makes spans into them. -/
noncomputable def Mem.construct (m : Mem) (nbt : List Nat) (int : List Interpolation) (x y : List ℝ) : Res Mem := do
  let _ ← Tab1D.make nbt int x y
  let bs ← spanBounds x (nbt.zip int) 0
  let (m1, bx) := m.alloc x
  let (m2, by_) := m1.alloc y
  let regions := bs.map (fun b => HRegion.mk b.1 ⟨bx, b.2.1, b.2.2 - b.2.1⟩ ⟨by_, b.2.1, b.2.2 - b.2.1⟩)
  return ⟨m2.bufs, m2.objs ++ [some ⟨nbt, int, bx, by_, regions⟩]⟩

/-- Implicit copy constructor: the vectors are deep-copied, the regions (spans) are copied as they are. -/
def Mem.copy (m : Mem) (src : Nat) : Res Mem := do
  let d ← m.obj src
  let x ← m.readBuf d.x
  let y ← m.readBuf d.y
  let (m1, bx) := m.alloc x.data
  let (m2, by_) := m1.alloc y.data
  return ⟨m2.bufs, m2.objs ++ [some ⟨d.nbt, d.int, bx, by_, d.regions⟩]⟩

/-- `std::vector` copy assignment (libstdc++): reuses the buffer when the capacity suffices, otherwise allocates a new one
and frees the old. -/
def Mem.assignBuf (m : Mem) (dst src : Nat) : Res (Mem × Nat) := do
  let s ← m.readBuf src
  let d ← m.readBuf dst
  if s.data.length ≤ d.cap then
    .ok (⟨m.bufs.set dst (some ⟨d.cap, s.data⟩), m.objs⟩, dst)
  else
    let (m1, b) := m.alloc s.data
    .ok (m1.free dst, b)

/-- Implicit copy assignment `dst = src`. -/
def Mem.assign (m : Mem) (dst src : Nat) : Res Mem := do
  let d ← m.obj dst
  let s ← m.obj src
  if dst = src then .ok m
  else do
    let (m1, bx) ← m.assignBuf d.x s.x
    let (m2, by_) ← m1.assignBuf d.y s.y
    return ⟨m2.bufs, m2.objs.set dst (some ⟨s.nbt, s.int, bx, by_, s.regions⟩)⟩

/-- Destructor. -/
def Mem.destroy (m : Mem) (o : Nat) : Res Mem := do
  let d ← m.obj o
  let m1 := (m.free d.x).free d.y
  return ⟨m1.bufs, m1.objs.set o none⟩

/-- `Tabulated1D::linearize` (src/tabulated_1d.cpp:120-138).  `xs`, `ys` are the points computed by `pndl::linearize`, which
evaluates `*this` (modelled by requiring that `*this` can be read) and returns a fresh lin-lin table (src/linearize.cpp:81). -/
noncomputable def Mem.linearize (m : Mem) (o : Nat) (xs ys : List ℝ) : Res Mem := do
  let d ← m.obj o
  if d.int = [.linLin] then .ok m
  else do
    let _ ← m.view o
    let m1 ← m.construct [xs.length] [.linLin] xs ys
    let tmp := m.objs.length
    let m2 ← m1.assign o tmp
    m2.destroy tmp

/-- What a program can do with tables. -/
inductive TabOp where
  | construct (nbt : List Nat) (int : List Interpolation) (x y : List ℝ)
  | copy (src : Nat)
  | assign (dst src : Nat)
  | destroy (o : Nat)
  | linearize (o : Nat) (xs ys : List ℝ)

noncomputable def Mem.step (m : Mem) : TabOp → Res Mem
  | .construct nbt int x y => m.construct nbt int x y
  | .copy s => m.copy s
  | .assign d s => m.assign d s
  | .destroy o => m.destroy o
  | .linearize o xs ys => m.linearize o xs ys

noncomputable def Mem.run (m : Mem) : List TabOp → Res Mem
  | [] => .ok m
  | op :: ops => do
    let m' ← m.step op
    m'.run ops

/-- Start of the program. -/
def Mem.init : Mem := ⟨[], []⟩

end PNDL
