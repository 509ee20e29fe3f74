import Mathlib.Data.Real.Basic

/-! Which two tables an incoming energy uses, and the tables whose densities and cumulatives can be left. -/
namespace PNDL.Spec

/-- The incoming energy `E` uses the tables `l` and `l + 1` of the energies `grid` with the weight `f` of the second one: linear between the neighbouring
energies, the first table below the grid and the last one above. -/
def Uses (grid : List ℝ) (E : ℝ) (l : Nat) (f : ℝ) : Prop :=
  ∃ e0 e1, grid[l]? = some e0 ∧ grid[l + 1]? = some e1 ∧
    ((e0 < E ∧ E ≤ e1 ∧ f = (E - e0) / (e1 - e0)) ∨ (l = 0 ∧ E ≤ e0 ∧ f = 0) ∨ (l + 2 = grid.length ∧ e1 < E ∧ f = 1))

/-- The last value is above all the others (in particular if it is the only one). -/
def SingleTop (l : List ℝ) : Prop := ∃ b, l.getLast? = some b ∧ ∀ e ∈ l.dropLast, e < b

/-- `xi` falls inside a step of the cumulative where the energy does not move and the density rises. -/
def OnRise (energy pdf cdf : List ℝ) (xi : ℝ) : Prop :=
  ∃ (i : Nat) (e p0 p1 c0 c1 : ℝ), energy[i]? = some e ∧ energy[i + 1]? = some e ∧ pdf[i]? = some p0 ∧ pdf[i + 1]? = some p1 ∧
    cdf[i]? = some c0 ∧ cdf[i + 1]? = some c1 ∧ p0 < p1 ∧ c0 < xi ∧ xi < c1

end PNDL.Spec
