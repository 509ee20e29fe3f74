import Verif.Model.NucAce
import Verif.Spec.NucAce

/-! First, second, third and fourth chance fission and how they compete. -/
namespace PNDL.Spec

/-- The partial fission reactions: (n,f), (n,n'f), (n,2nf), (n,3nf). -/
def partialMT : Fin 4 → Nat := ![19, 20, 21, 38]

/-- The four partial fission reactions of a nuclide, as `reaction` returns them. -/
def Partials (n : Nuc) (r : Fin 4 → STRxn) : Prop := ∀ j, n.reaction (partialMT j) = .ok (r j)

/-- The cross section with which a reaction competes at an energy: what the cross section evaluates to above its threshold, nothing up to it. -/
def Competes (r : STRxn) (E x : ℝ) : Prop := (r.threshold < E ∧ r.xs.eval E = .ok x) ∨ (E ≤ r.threshold ∧ x = 0)

end PNDL.Spec
