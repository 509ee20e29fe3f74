import Verif.Model.Interp
import Mathlib.Data.Real.Basic

/-! The layout of records in the XSS array of an ACE file. -/
namespace PNDL.Spec

/-- The numbers `block` stand in the array from index `i` on. -/
def Holds (xss : List ℝ) (i : Nat) (block : List ℝ) : Prop := ∃ pre post, xss = pre ++ block ++ post ∧ pre.length = i

/-- ENDF numbers of the interpolation laws. -/
def lawCode : Interpolation → ℝ
  | .histogram => 1
  | .linLin => 2
  | .linLog => 3
  | .logLin => 4
  | .logLog => 5

/-- A tabulated function as an ACE file stores it: interpolation regions (last point, law) and the points. -/
structure TabRecord where
  regions : List (Nat × Interpolation)
  x : List ℝ
  y : List ℝ

/-- `NR, NBT(1..NR), INT(1..NR), NE, x(1..NE), y(1..NE)`. -/
def TabRecord.encode (r : TabRecord) : List ℝ :=
  [(r.regions.length : ℝ)] ++ (r.regions.map (fun p => (p.1 : ℝ)) ++ (r.regions.map (fun p => lawCode p.2) ++
    ([(r.x.length : ℝ)] ++ (r.x ++ r.y))))

/-- The regions meant: none stands for one linear region of all the points. -/
def TabRecord.effective (r : TabRecord) : List (Nat × Interpolation) :=
  if r.regions = [] then [(r.x.length, .linLin)] else r.regions

end PNDL.Spec
