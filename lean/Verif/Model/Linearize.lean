import Verif.Model.Tab1D
import Mathlib.Data.EReal.Basic

/-! `pndl::linearize` (src/linearize.cpp).  The abscissae live in a type `X` of doubles with the two operations the function
uses on them, so that the loop can be instantiated with exact reals, with correctly rounded binary floating point numbers and
with floating point numbers including overflow.  Ordinates are exact reals. -/
namespace PNDL

/-- The operations on abscissae used by the loop. -/
structure GridOps (X : Type) where
  /-- `std::nextafter(a, b) == b` (src/linearize.cpp:55). -/
  adj : X → X → Prop
  /-- `0.5 * (a + b)` (src/linearize.cpp:59). -/
  mid : X → X → X

/-- `std::abs((f_interp - f_real) / f_real) > tolerance` (src/linearize.cpp:66-67) in IEEE arithmetic with a finite tolerance: for
`f_real = 0` the quotient is infinite, hence larger, unless the numerator is zero too, when it is NaN and the comparison
is false. -/
def needsSplit (tol fInterp fReal : ℝ) : Prop :=
  if fReal = 0 then fInterp ≠ 0 else |(fInterp - fReal) / fReal| > tol

open Classical in
/-- The `while` loop (src/linearize.cpp:50-76); one unit of fuel per iteration.  `i < x.size() - 1` with `size_t`
arithmetic: for an empty vector the right hand side wraps to the largest `size_t`. -/
noncomputable def linLoop {X : Type} (ops : GridOps X) (f : X → ℝ) (tol : ℝ) : Nat → List X → List ℝ → Nat → Res (List X × List ℝ)
  | 0, _, _, _ => .error .diverge
  | fuel + 1, x, y, i =>
    if x.length = 0 ∨ i < x.length - 1 then do
      let a ← getAt x i
      let b ← getAt x (i + 1)
      if ops.adj a b then linLoop ops f tol fuel x y (i + 1)
      else do
        let m := ops.mid a b
        let ya ← getAt y i
        let yb ← getAt y (i + 1)
        let fInterp := 0.5 * (ya + yb)
        let fReal := f m
        if needsSplit tol fInterp fReal then
          linLoop ops f tol fuel (x.insertIdx (i + 1) m) (y.insertIdx (i + 1) fReal) i
        else linLoop ops f tol fuel x y (i + 1)
    else .ok (x, y)

/-- The checks and the loop of `linearize(i_x, i_y, f, tolerance)` (src/linearize.cpp:33-79). -/
noncomputable def linPoints {X : Type} [LinearOrder X] (ops : GridOps X) (f : X → ℝ) (tol : ℝ) (fuel : Nat) (ix : List X)
    (iy : List ℝ) : Res (List X × List ℝ) :=
  if ix.length ≠ iy.length then .error .exc
  else if isSorted ix = false then .error .exc
  else linLoop ops f tol fuel ix iy 0

/-- `linearize(i_x, i_y, f, tolerance)` with real abscissae, including the construction of the result (src/linearize.cpp:33-82). -/
noncomputable def linearize (ops : GridOps ℝ) (f : ℝ → ℝ) (tol : ℝ) (fuel : Nat) (ix iy : List ℝ) : Res Tab1D := do
  let (x, y) ← linPoints ops f tol fuel ix iy
  Tab1D.make1 .linLin x y

open Classical in
/-- `linearize(x_min, x_max, f, tolerance)` (src/linearize.cpp:84-99). -/
noncomputable def linearizeOn (ops : GridOps ℝ) (f : ℝ → ℝ) (tol : ℝ) (fuel : Nat) (xmin xmax : ℝ) : Res Tab1D :=
  if xmax ≤ xmin then .error .exc
  else linearize ops f tol fuel [xmin, xmax] [f xmin, f xmax]

end PNDL
