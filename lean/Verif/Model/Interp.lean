import Verif.Model.Prelude
import Mathlib.Analysis.SpecialFunctions.Pow.Real

/-! The interpolation rules (include/PapillonNDL/interpolation.hpp).

Doubles are modelled by real numbers (no rounding, no signed zero).  Every division is checked (`cdiv`), the logarithm of a
non-positive number and a power without a finite real value give `nonfinite`; C++ would go on with inf or NaN, so an
`ok` result is a guarantee that no such value arose anywhere in the formula. -/
namespace PNDL

open Classical in
/-- Division of doubles; zero divisor ↦ `nonfinite`. -/
noncomputable def rdiv (a b : ℝ) : Res ℝ := if b = 0 then .error .nonfinite else .ok (a / b)

open Classical in
/-- `std::log`. -/
noncomputable def clog (x : ℝ) : Res ℝ := if 0 < x then .ok (Real.log x) else .error .nonfinite

open Classical in
/-- `std::pow(b, e)`: a negative base has a power only for an integer exponent. -/
noncomputable def cpow (b e : ℝ) : Res ℝ :=
  if 0 < b then .ok (b ^ e)
  else if b = 0 then (if 0 < e then .ok 0 else if e = 0 then .ok 1 else .error .nonfinite)
  else if (⌊e⌋ : ℝ) = e then .ok (b ^ ⌊e⌋)
  else .error .nonfinite

/-- `enum class Interpolation` (interpolation.hpp:44-50). -/
inductive Interpolation where
  | histogram
  | linLin
  | linLog
  | logLin
  | logLog
  deriving DecidableEq, Repr

namespace Interpolation

/-- `Histogram/LinLin/LinLog/LogLin/LogLog::interpolate` dispatched by `Interpolator::interpolate`
(interpolation.hpp:98-101, 137-140, 175-178, 215-218, 257-261, 342-348). -/
noncomputable def interpolate (r : Interpolation) (x x1 y1 x2 y2 : ℝ) : Res ℝ :=
  match r with
  | histogram => .ok y1
  | linLin => do
    let q ← rdiv (x - x1) (x2 - x1)
    return q * (y2 - y1) + y1
  | linLog => do
    let q ← rdiv x x1
    let l ← clog q
    let q2 ← rdiv x2 x1
    let l2 ← clog q2
    let t ← rdiv ((y2 - y1) * l) l2
    return y1 + t
  | logLin => do
    let b ← rdiv y2 y1
    let e ← rdiv (x - x1) (x2 - x1)
    let p ← cpow b e
    return y1 * p
  | logLog => do
    let by_ ← rdiv y2 y1
    let ly ← clog by_
    let bx ← rdiv x2 x1
    let lx ← clog bx
    let e ← rdiv ly lx
    let q ← rdiv x x1
    let p ← cpow q e
    return y1 * p

open Classical in
/-- `…::invert` (interpolation.hpp:103-106, 142-145, 180-183, 220-224, 263-267, 359-365). -/
noncomputable def invert (r : Interpolation) (y x1 y1 x2 y2 : ℝ) : Res ℝ :=
  match r with
  | histogram => .ok x1
  | linLin => do
    let q ← rdiv (y - y1) (y2 - y1)
    return q * (x2 - x1) + x1
  | linLog =>
    if y2 ≠ y1 then do
      let b ← rdiv x2 x1
      let e ← rdiv (y - y1) (y2 - y1)
      let p ← cpow b e
      return x1 * p
    else .ok x1
  | logLin =>
    if y1 ≠ y2 then do
      let q ← rdiv y y1
      let l ← clog q
      let q2 ← rdiv y2 y1
      let l2 ← clog q2
      let t ← rdiv ((x2 - x1) * l) l2
      return x1 + t
    else .ok x1
  | logLog => do
    let q ← rdiv y y1
    let l ← clog q
    let q2 ← rdiv y2 y1
    let l2 ← clog q2
    let e ← rdiv l l2
    let b ← rdiv x2 x1
    let p ← cpow b e
    return x1 * p

open Classical in
/-- `…::integrate` (interpolation.hpp:108-111, 147-153, 185-193, 226-235, 269-282, 377-383). -/
noncomputable def integrate (r : Interpolation) (xlow xhi x1 y1 x2 y2 : ℝ) : Res ℝ :=
  match r with
  | histogram => .ok (y1 * (xhi - xlow))
  | linLin => do
    let numerator := (xhi - xlow) * (y1 - y2) * (xhi + xlow - 2 * x1)
    let q ← rdiv numerator (2 * (x1 - x2))
    return q + (xhi - xlow) * y1
  | linLog => do
    let qh ← rdiv xhi x1
    let lh ← clog qh
    let q2 ← rdiv x2 x1
    let l2 ← clog q2
    let nh := xhi * ((y2 - y1) * lh + y1 * l2 + y1 - y2)
    let ql ← rdiv xlow x1
    let ll ← clog ql
    let nl := xlow * ((y2 - y1) * ll + y1 * l2 + y1 - y2)
    let a ← rdiv nh l2
    let b ← rdiv nl l2
    return a - b
  | logLin => do
    let base ← rdiv y2 y1
    let den ← clog base
    let coef := y1 * (x2 - x1)
    let eh ← rdiv (x1 - xhi) (x1 - x2)
    let el ← rdiv (x1 - xlow) (x1 - x2)
    let c ← rdiv coef den
    let ph ← cpow base eh
    let pl ← cpow base el
    return c * (ph - pl)
  | logLog => do
    let yq ← rdiv y2 y1
    let xq ← rdiv x2 x1
    let ly ← clog yq
    let lx ← clog xq
    let e ← rdiv ly lx
    let den := e + 1
    if |den| ≤ 1 / 10 ^ 12 then do
      let q ← rdiv xhi xlow
      let l ← clog q
      return y1 * x1 * l
    else do
      let c ← rdiv y1 den
      let qh ← rdiv xhi x1
      let ph ← cpow qh e
      let ql ← rdiv xlow x1
      let pl ← cpow ql e
      return c * (xhi * ph - xlow * pl)

/-- `has_sign_change` (interpolation.hpp:81-92); `*first` on an empty range is undefined behaviour. -/
noncomputable def hasSignChange (l : List ℝ) : Res Bool := do
  let a ← front l
  return l.any (fun b => @decide (¬ ((b < 0) ↔ (a < 0))) (Classical.propDecidable _))

/-- `std::adjacent_find(first,last) != last`. -/
def hasAdjacentEqual {α : Type _} [DecidableEq α] : List α → Bool
  | [] => false
  | [_] => false
  | a :: b :: l => decide (a = b) || hasAdjacentEqual (b :: l)

/-- `…::verify_x_grid` (interpolation.hpp:113-125, 155-163, 195-203, 237-240, 284-292). -/
noncomputable def verifyX (r : Interpolation) (l : List ℝ) : Res Unit :=
  match r with
  | histogram => if hasAdjacentEqual l then .error .exc else .ok ()
  | linLin => if isSorted l then .ok () else .error .exc
  | linLog => do
    let c ← hasSignChange l
    if c then .error .exc else .ok ()
  | logLin => .ok ()
  | logLog => do
    let c ← hasSignChange l
    if c then .error .exc else .ok ()

/-- `…::verify_y_grid` (interpolation.hpp:127-130, 165-168, 205-208, 242-250, 294-302). -/
noncomputable def verifyY (r : Interpolation) (l : List ℝ) : Res Unit :=
  match r with
  | histogram | linLin | linLog => .ok ()
  | logLin | logLog => do
    let c ← hasSignChange l
    if c then .error .exc else .ok ()

end Interpolation
end PNDL
