import Verif.Model.AceLaws

/-! The outgoing energies a law can give at an incident energy, read off its data. -/
namespace PNDL.Spec
open PNDL

/-- At the incident energy `E` the tables `i` and `i + 1` of a law given at the incident energies `grid` are combined, the upper one with the weight `f`:
the first two below the grid, the last two above it, else the two around `E`, by linear interpolation. -/
def Around (grid : List ℝ) (E : ℝ) (i : Nat) (f : ℝ) : Prop :=
  ∃ e0 e1, grid[i]? = some e0 ∧ grid[i + 1]? = some e1 ∧
    ((i = 0 ∧ f = 0 ∧ E ≤ e0) ∨ (i + 2 = grid.length ∧ f = 1 ∧ e1 < E) ∨ (e0 < E ∧ E ≤ e1 ∧ f = (E - e0) / (e1 - e0)))

/-- `x` lies between the first and the last number of the list. -/
def Spans (l : List ℝ) (x : ℝ) : Prop := ∃ a b, l[0]? = some a ∧ l.getLast? = some b ∧ a ≤ x ∧ x ≤ b

/-- `x` lies between the ends interpolated from the ends of the two lists around `E`. -/
def SpansBetween (grid : List ℝ) (lists : List (List ℝ)) (E x : ℝ) : Prop :=
  ∃ i f l0 l1 a0 b0 a1 b1, Around grid E i f ∧ lists[i]? = some l0 ∧ lists[i + 1]? = some l1 ∧ l0[0]? = some a0 ∧ l0.getLast? = some b0 ∧
    l1[0]? = some a1 ∧ l1.getLast? = some b1 ∧ (1 - f) * a0 + f * a1 ≤ x ∧ x ≤ (1 - f) * b0 + f * b1

/-- The energies an energy law can give.  Sets of bins are not interpolated: one of the sets around `E` is used. -/
def ReachE (E : ℝ) : ELaw → ℝ → Prop
  | .bins d, x => ∃ i b, d.bins[i]? = some b ∧ Spans b x ∧
      ((i = 0 ∧ ∃ e, d.energy[0]? = some e ∧ E ≤ e) ∨ (i + 1 = d.energy.length ∧ ∃ e, d.energy[i]? = some e ∧ e < E) ∨
        (∃ e0 e1, d.energy[i]? = some e0 ∧ d.energy[i + 1]? = some e1 ∧ e0 < E ∧ E < e1) ∨
        ∃ j e0 e1, i = j + 1 ∧ d.energy[j]? = some e0 ∧ d.energy[i]? = some e1 ∧ e0 < E ∧ E ≤ e1)
  | .photon p, x => x = p.Eg ∨ x = p.Eg + p.A / (p.A + 1) * E
  | .level l, x => x = l.c2 * (E - l.c1)
  | .tabular d, x => SpansBetween d.energy (d.tables.map PCTable.values) E x
  | .genEvap t b, x => ∃ T c, t.eval E = .ok T ∧ x = c * T ∧ Spans b c
  | .maxwell _ u, x => 0 ≤ x ∧ x ≤ E - u
  | .evap _ u, x => 0 ≤ x ∧ x ≤ E - u
  | .watt _ _ u, x => 0 ≤ x ∧ x ≤ E - u

/-- The energies a law of a reaction can give; for `N` bodies, up to the kinematic maximum. -/
def ReachL (E : ℝ) : Law → ℝ → Prop
  | .uncorrelated u, x => ReachE E u.energy x
  | .kalbach d, x => SpansBetween d.energy (d.tables.map KalbachTable.energy) E x
  | .tabEnergyAngle d, x => SpansBetween d.energy (d.tables.map EATable.energy) E x
  | .nbody d, x => 0 ≤ x ∧ x ≤ (d.Ap - 1) / d.Ap * (d.A / (d.A + 1) * E + d.Q)

/-- The outgoing energies `x` a reaction can give together with the cosine `mu`: of several laws one whose probability at `E` is not zero must give it; in
the centre-of-mass frame the energy in that frame counts, `x - 2 μ √(E x) / (A + 1) + E / (A + 1)²`. -/
def Reach (E : ℝ) : NDist → ℝ → ℝ → Prop
  | .absorption _, _, _ => False
  | .one l, _, x => ReachL E l x
  | .several ls, _, x => ∃ p ∈ ls, ∃ w, p.2.eval E = .ok w ∧ w ≠ 0 ∧ ReachL E p.1 x
  | .cm awr _ d, mu, x => ∃ mu', Reach E d mu' (x - 2 * mu * Real.sqrt (E * x) / (awr + 1) + E / (awr + 1) ^ 2)

/-- The tables have more than one outgoing energy: the last is above the first. -/
def Wide (l : List ℝ) : Prop := ∀ a b, l[0]? = some a → l.getLast? = some b → a < b

/-- What the claim relies on and no constructor checks: no table is concentrated in one energy, and there is no N-body law with four bodies. -/
def WideELaw : ELaw → Prop
  | .tabular d => ∀ t ∈ d.tables, Wide t.values
  | _ => True

def WideLaw : Law → Prop
  | .uncorrelated u => WideELaw u.energy
  | .kalbach d => ∀ t ∈ d.tables, Wide t.energy
  | .tabEnergyAngle d => ∀ t ∈ d.tables, Wide t.energy
  | .nbody d => d.n ≠ 4

def WideDist : NDist → Prop
  | .absorption _ => True
  | .one l => WideLaw l
  | .several ls => ∀ p ∈ ls, WideLaw p.1
  | .cm _ _ d => WideDist d

end PNDL.Spec
