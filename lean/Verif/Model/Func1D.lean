import Verif.Model.Tab1D
import Mathlib.Data.Real.Basic

/-! `Function1D` and its subclasses (function_1d.hpp, polynomial_1d.hpp, constant.hpp, sum_1d.hpp, difference_1d.hpp). -/
namespace PNDL

/-- Loop of `Polynomial1D::operator()` (src/polynomial_1d.cpp:30-37) over the reversed coefficients. -/
noncomputable def polyLoop (x : ℝ) : List ℝ → ℝ → ℝ
  | [], value => value
  | c :: cs, value => polyLoop x cs (value * x + c)

/-- `Polynomial1D::operator()` (src/polynomial_1d.cpp:30-37). -/
noncomputable def polyEval (coeffs : List ℝ) (x : ℝ) : ℝ := polyLoop x coeffs.reverse 0

/-- Loop of `Polynomial1D::integrate` (src/polynomial_1d.cpp:44-50): reversed coefficients, `exponent`, the two partial sums. -/
noncomputable def polyIntLoop (xlow xhi : ℝ) : List ℝ → ℝ → ℝ → ℝ → Res (ℝ × ℝ)
  | [], _, hi, low => .ok (hi, low)
  | c :: cs, e, hi, low => do
    let k ← rdiv c e
    polyIntLoop xlow xhi cs (e - 1) (hi * xhi + k) (low * xlow + k)

/-- `Polynomial1D::integrate` (src/polynomial_1d.cpp:39-56).  `order() + 1` is `size()` (for the empty vector
`size() - 1` wraps and `+ 1` wraps back). -/
noncomputable def polyIntegrate (coeffs : List ℝ) (xlow xhi : ℝ) : Res ℝ := do
  let (hi, low) ← polyIntLoop xlow xhi coeffs.reverse (coeffs.length : ℝ) 0 0
  return hi * xhi - low * xlow

/-- A `Function1D` object.  Terms are shared pointers to immutable objects, modelled by value. -/
inductive Fn1D where
  | const (v : ℝ)
  | poly (coeffs : List ℝ)
  | tab (t : Tab1D)
  | sum (a b : Fn1D)
  | diff (a b : Fn1D)

/-- `Sum1D::Sum1D` (sum_1d.hpp:47-58); `none` is a null pointer. -/
def Fn1D.mkSum (a b : Option Fn1D) : Res Fn1D :=
  match a, b with
  | some a, some b => .ok (.sum a b)
  | _, _ => .error .exc

/-- `Difference1D::Difference1D` (difference_1d.hpp:48-60). -/
def Fn1D.mkDiff (a b : Option Fn1D) : Res Fn1D :=
  match a, b with
  | some a, some b => .ok (.diff a b)
  | _, _ => .error .exc

/-- `operator()` (constant.hpp:46, src/polynomial_1d.cpp:30, tabulated_1d.hpp:66, sum_1d.hpp:60-62, difference_1d.hpp:62-64). -/
noncomputable def Fn1D.eval : Fn1D → ℝ → Res ℝ
  | .const v, _ => .ok v
  | .poly c, x => .ok (polyEval c x)
  | .tab t, x => t.eval x
  | .sum a b, x => do
    let u ← a.eval x
    let v ← b.eval x
    return u + v
  | .diff a b, x => do
    let u ← a.eval x
    let v ← b.eval x
    return u - v

/-- `integrate` (constant.hpp:47-49, src/polynomial_1d.cpp:39, tabulated_1d.hpp:79, sum_1d.hpp:64-66, difference_1d.hpp:66-68). -/
noncomputable def Fn1D.integrate : Fn1D → ℝ → ℝ → Res ℝ
  | .const v, a, b => .ok (v * (b - a))
  | .poly c, a, b => polyIntegrate c a b
  | .tab t, a, b => t.integrate a b
  | .sum f g, a, b => do
    let u ← f.integrate a b
    let v ← g.integrate a b
    return u + v
  | .diff f g, a, b => do
    let u ← f.integrate a b
    let v ← g.integrate a b
    return u - v

end PNDL
