import Verif.Model.Interp

/-! `Tabulated1D` (include/PapillonNDL/tabulated_1d.hpp, src/tabulated_1d.cpp) with value semantics: each region holds the
points its spans refer to.  (That the spans really refer to the object's own storage is the subject of `Model/Tab1DHeap.lean`.) -/
namespace PNDL

/-- `Tabulated1D::InterpolationRange` (tabulated_1d.hpp:172-268). -/
structure Region where
  interp : Interpolation
  xs : List ℝ
  ys : List ℝ

/-- `InterpolationRange::InterpolationRange` (src/tabulated_1d.cpp:140-164). -/
noncomputable def Region.make (r : Interpolation) (xs ys : List ℝ) : Res Region := do
  if xs.length ≠ ys.length then .error .exc
  else if xs.length = 0 then .error .exc
  else if isSorted xs = false then .error .exc
  else do
    r.verifyX xs
    r.verifyY ys
    return ⟨r, xs, ys⟩

open Classical in
/-- `InterpolationRange::operator()` (tabulated_1d.hpp:178-196). -/
noncomputable def Region.eval (g : Region) (x : ℝ) : Res ℝ := do
  let mn ← front g.xs
  if x ≤ mn then front g.ys
  else do
    let mx ← back g.xs
    if x ≥ mx then back g.ys
    else do
      let hi := lowerBound g.xs x
      let i ← subIdx hi 1
      let x1 ← getAt g.xs i
      let x2 ← getAt g.xs hi
      let y1 ← getAt g.ys i
      let y2 ← getAt g.ys (i + 1)
      g.interp.interpolate x x1 y1 x2 y2

open Classical in
/-- Clip of an integration bound (tabulated_1d.hpp:88-91 and 207-210 for the lower bound; the tests for the upper
bound, lines 93-96 and 212-215, come in the other order). -/
noncomputable def clipLow (x mn mx : ℝ) : ℝ := if x ≤ mn then mn else if x ≥ mx then mx else x

open Classical in
/-- Clip of the upper bound (tabulated_1d.hpp:93-96, 212-215). -/
noncomputable def clipHigh (x mn mx : ℝ) : ℝ := if x ≥ mx then mx else if x ≤ mn then mn else x

open Classical in
/-- The `while (integrating)` loop of `InterpolationRange::integrate` (tabulated_1d.hpp:227-251): `i` is `low_it`,
`xl`, `xu` the current limits.  `low_it` increases every time round and leaving the span is undefined behaviour, so
`xs.length` units of fuel suffice. -/
noncomputable def Region.loop (g : Region) (xhi : ℝ) : Nat → Nat → ℝ → ℝ → ℝ → Res ℝ
  | 0, _, _, _, _ => .error .diverge
  | fuel + 1, i, xl, xu, acc => do
    let x1 ← getAt g.xs i
    let x2 ← getAt g.xs (i + 1)
    let y1 ← getAt g.ys i
    let y2 ← getAt g.ys (i + 1)
    let xl' := if xl < x1 then x1 else xl
    let xu' := if xu > x2 then x2 else xu
    let v ← g.interp.integrate xl' xu' x1 y1 x2 y2
    let acc' := acc + v
    if xu' = xhi then .ok acc'
    else Region.loop g xhi fuel (i + 1) xu' xhi acc'

open Classical in
/-- `InterpolationRange::integrate` (tabulated_1d.hpp:198-256). -/
noncomputable def Region.integrate (g : Region) (a b : ℝ) : Res ℝ := do
  let inverted : Prop := a > b
  let lo := if inverted then b else a
  let hi := if inverted then a else b
  let mn ← front g.xs
  let mx ← back g.xs
  let xlow := clipLow lo mn mx
  let xhi := clipHigh hi mn mx
  if xlow = xhi then .ok 0
  else do
    let l := lowerBound g.xs xlow
    let v ← getAt g.xs l
    let i ← (if v > xlow then subIdx l 1 else .ok l : Res Nat)
    let s ← Region.loop g xhi g.xs.length i xlow xhi 0
    return if inverted then -s else s

/-- `class Tabulated1D` (tabulated_1d.hpp:270-274). -/
structure Tab1D where
  nbt : List Nat
  int : List Interpolation
  x : List ℝ
  y : List ℝ
  regions : List Region

/-- The span `{v.begin() + lo, v.begin() + hi}`: undefined behaviour unless `lo ≤ hi ≤ size`. -/
def slice {α : Type _} (l : List α) (lo hi : Nat) : Res (List α) :=
  if lo ≤ hi ∧ hi ≤ l.length then .ok ((l.take hi).drop lo) else .error .ub

open Classical in
/-- Where the next region starts (src/tabulated_1d.cpp:77-82). -/
noncomputable def nextLow (x : List ℝ) (hi : Nat) : Res Nat := do
  let low ← subIdx hi 1
  if low < x.length - 1 then do
    let a ← getAt x low
    let b ← getAt x (low + 1)
    return if a = b then low + 1 else low
  else .ok low

/-- The region loop of the constructor (src/tabulated_1d.cpp:57-83), `bps` the remaining breakpoints. -/
noncomputable def buildRegions (x y : List ℝ) : List (Nat × Interpolation) → Nat → Res (List Region)
  | [], _ => .ok []
  | (hi, r) :: rest, low => do
    let xs ← slice x low hi
    let ys ← slice y low hi
    let g ← Region.make r xs ys
    let low' ← nextLow x hi
    let gs ← buildRegions x y rest low'
    return g :: gs

/-- `Tabulated1D(NBT, INT, x, y)` (src/tabulated_1d.cpp:31-84). -/
noncomputable def Tab1D.make (nbt : List Nat) (int : List Interpolation) (x y : List ℝ) : Res Tab1D := do
  if nbt.length ≠ int.length then .error .exc
  else if x.length ≠ y.length then .error .exc
  else if isSorted x = false then .error .exc
  else do
    let gs ← buildRegions x y (nbt.zip int) 0
    return ⟨nbt, int, x, y, gs⟩

/-- `Tabulated1D(interp, x, y)` (src/tabulated_1d.cpp:86-118); the breakpoint is `uint32_t(x.size())`. -/
noncomputable def Tab1D.make1 (r : Interpolation) (x y : List ℝ) : Res Tab1D := do
  let n := x.length % 2 ^ 32
  if x.length ≠ y.length then .error .exc
  else if isSorted x = false then .error .exc
  else do
    let xs ← slice x 0 n
    let ys ← slice y 0 n
    let g ← Region.make r xs ys
    return ⟨[n], [r], x, y, [g]⟩

open Classical in
/-- `while (region_it->max_x() < x) region_it++` (tabulated_1d.hpp:73-74, 101-102): the remaining regions; running
past the last region is undefined behaviour. -/
noncomputable def seekRegion (v : ℝ) : List Region → Res (List Region)
  | [] => .error .ub
  | g :: gs => do
    let mx ← back g.xs
    if mx < v then seekRegion v gs else .ok (g :: gs)

open Classical in
/-- `Tabulated1D::operator()` (tabulated_1d.hpp:66-77). -/
noncomputable def Tab1D.eval (t : Tab1D) (v : ℝ) : Res ℝ := do
  let mn ← front t.x
  if v ≤ mn then do
    let g ← front t.regions
    g.eval v
  else do
    let mx ← back t.x
    if v ≥ mx then do
      let g ← back t.regions
      g.eval v
    else do
      let gs ← seekRegion v t.regions
      let g ← front gs
      g.eval v

open Classical in
/-- The `while (integrating)` loop of `Tabulated1D::integrate` (tabulated_1d.hpp:108-121); `gs` are the regions from
`region` on (past the end: undefined behaviour). -/
noncomputable def tabLoop (xhi : ℝ) : List Region → ℝ → ℝ → ℝ → Res ℝ
  | [], _, _, _ => .error .ub
  | g :: gs, xl, xu, acc => do
    let mn ← front g.xs
    let mx ← back g.xs
    let xl' := if xl < mn then mn else xl
    let xu' := if xu > mx then mx else xu
    let v ← g.integrate xl' xu'
    let acc' := acc + v
    if xu' = xhi then .ok acc'
    else tabLoop xhi gs xu' xhi acc'

open Classical in
/-- `Tabulated1D::integrate` (tabulated_1d.hpp:79-126). -/
noncomputable def Tab1D.integrate (t : Tab1D) (a b : ℝ) : Res ℝ := do
  let inverted : Prop := a > b
  let lo := if inverted then b else a
  let hi := if inverted then a else b
  let mn ← front t.x
  let mx ← back t.x
  let xlow := clipLow lo mn mx
  let xhi := clipHigh hi mn mx
  if xlow = xhi then .ok 0
  else do
    let gs ← seekRegion xlow t.regions
    let s ← tabLoop xhi gs xlow xhi 0
    return if inverted then -s else s

end PNDL
