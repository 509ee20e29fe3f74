import Verif.Model.Tab1D
import Verif.Spec.Interp

/-! What a valid TAB1 record is, and what it means that regions tile the table. -/
namespace PNDL.Spec
open PNDL

/-- ENDF breakpoints: strictly increasing positive point numbers, the last being the number of points. -/
structure ValidBreakpoints (nbt : List Nat) (n : Nat) : Prop where
  incr : nbt.Pairwise (· < ·)
  pos : ∀ b ∈ nbt, 1 ≤ b
  last : nbt.getLast? = some n

/-- The points numbered `lo, …, hi-1` of a list. -/
def points {α : Type _} (l : List α) (lo hi : Nat) : List α := (l.take hi).drop lo

/-- The regions `gs` are, one per breakpoint, the consecutive pieces of the table `x`, `y` starting at point `low`: each is
non-empty, ends just before its breakpoint `hi`, and the next starts at the last point `hi-1` of this one, or at `hi` if
that point has the same abscissa (a discontinuity at the break).  Hence there is no gap. -/
inductive Tiles (x y : List ℝ) : List (Nat × Interpolation) → Nat → List Region → Prop
  | nil (low) : Tiles x y [] low []
  | cons {low hi nxt : Nat} {r : Interpolation} {rest : List (Nat × Interpolation)} {gs : List Region}
      (nonempty : low < hi) (inside : hi ≤ x.length)
      (next : nxt + 1 = hi ∨ (nxt = hi ∧ hi < x.length ∧ x[hi - 1]? = x[hi]?))
      (tail : Tiles x y rest nxt gs) :
      Tiles x y ((hi, r) :: rest) low (⟨r, points x low hi, points y low hi⟩ :: gs)

/-- Every pair of consecutive points of a region satisfies the requirements of the region's law. -/
def GoodRegion (g : Region) : Prop :=
  ∀ (i : Nat) (x1 x2 y1 y2 : ℝ), g.xs[i]? = some x1 → g.xs[i + 1]? = some x2 → g.ys[i]? = some y1 → g.ys[i + 1]? = some y2 →
    Admissible g.interp x1 y1 x2 y2

/-- Clip to `[mn, mx]`. -/
noncomputable def clip (v mn mx : ℝ) : ℝ := max mn (min v mx)

end PNDL.Spec
