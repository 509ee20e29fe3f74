import Mathlib.Order.Defs.LinearOrder

/-
Common vocabulary of the model: outcomes, checked indexing, checked division, the libstdc++ binary searches.
-/
namespace PNDL

/-- The ways a C++ call can fail to return a normal value.
* `exc`       : an exception (`PNDLException`, `std::out_of_range`, ...) leaves the function;
* `ub`        : undefined behaviour (index or iterator out of range, dangling reference, null dereference);
* `nonfinite` : a floating point division by zero (the C++ result would be inf or NaN);
* `diverge`   : fuel ran out in a loop whose termination is not structural. -/
inductive Err where
  | exc
  | ub
  | nonfinite
  | diverge
  deriving DecidableEq, Repr

/-- Result of a C++ call. -/
abbrev Res (α : Type _) := Except Err α

deriving instance DecidableEq for Except

/-- `v[i]` on a `std::vector`, `std::array` or `std::span`: undefined behaviour out of range. -/
def getAt {α : Type _} (l : List α) (i : Nat) : Res α :=
  match l[i]? with
  | some a => .ok a
  | none => .error .ub

/-- `v.at(i)`: throws `std::out_of_range` out of range. -/
def getAtExc {α : Type _} (l : List α) (i : Nat) : Res α :=
  match l[i]? with
  | some a => .ok a
  | none => .error .exc

/-- `v.front()`. -/
def front {α : Type _} (l : List α) : Res α := getAt l 0

/-- `v.back()`; undefined behaviour on an empty vector. -/
def back {α : Type _} (l : List α) : Res α :=
  match l.getLast? with
  | some a => .ok a
  | none => .error .ub

/-- `a - b` on iterators/`size_t` that must not pass below zero: undefined behaviour (an iterator
before `begin()`, or an index wrapped to a huge `size_t`) when `a < b`. -/
def subIdx (a b : Nat) : Res Nat := if b ≤ a then .ok (a - b) else .error .ub

/-- `a / b` on doubles; a zero divisor is a distinct outcome rather than the field's total `a / 0 = 0`. -/
def cdiv {K : Type _} [Div K] [OfNat K 0] [DecidableEq K] (a b : K) : Res K :=
  if b = 0 then .error .nonfinite else .ok (a / b)

/-- The bisection loop of libstdc++'s `std::lower_bound` (`__lower_bound` in `bits/stl_algobase.h`),
on the index range `[first, first+len)`, for the predicate `p` (`*it < value`).  The first argument is fuel
(one unit per iteration; `len` units always suffice because `len` at least halves, see
`Lemmas/Prelude.lean`).  `l[..]? = none` cannot happen when `first+len ≤ size`. -/
def bisect {α : Type _} (p : α → Bool) (l : List α) : Nat → Nat → Nat → Nat
  | 0, first, _ => first
  | fuel + 1, first, len =>
    if len = 0 then first
    else
      match l[first + len / 2]? with
      | none => first
      | some a =>
        if p a then bisect p l fuel (first + len / 2 + 1) (len - len / 2 - 1)
        else bisect p l fuel first (len / 2)

/-- `std::lower_bound(v.begin()+lo, v.begin()+hi, x) - v.begin()`. -/
def lowerBoundRange {α : Type _} [LinearOrder α] (l : List α) (lo hi : Nat) (x : α) : Nat :=
  bisect (fun a => decide (a < x)) l (hi - lo) lo (hi - lo)

/-- `std::lower_bound(v.begin(), v.end(), x) - v.begin()`. -/
def lowerBound {α : Type _} [LinearOrder α] (l : List α) (x : α) : Nat :=
  lowerBoundRange l 0 l.length x

/-- `std::is_sorted(v.begin(), v.end())`: no element is less than its predecessor. -/
def isSorted {α : Type _} [LinearOrder α] : List α → Bool
  | [] => true
  | [_] => true
  | a :: b :: l => !decide (b < a) && isSorted (b :: l)

end PNDL
