import Verif.Model.AceLaws
import Verif.Spec.Tab1D

/-! What sampling relies on and the constructors that read files do not check. -/
namespace PNDL.Spec
open PNDL

/-- The tabulated cumulative does not begin above 0. -/
def FromZero (t : PCTable) : Prop := ∀ c, t.cdf[0]? = some c → c ≤ 0

/-- The interpolation regions of the table cover it: increasing breakpoints, the last being the number of points. -/
def SafeTab (t : Tab1D) : Prop := ValidBreakpoints t.nbt t.x.length

/-- An angular distribution with at least one energy, whose tables do not begin above 0. -/
def SafeAngle (d : AngleDist) : Prop := d.energy ≠ [] ∧ ∀ t, AngleLaw.table t ∈ d.laws → FromZero t

/-- A list of `n ≥ 1` bounds and a stream all of whose numbers are below `(n - 1) / n`.  (Above, the code takes a bin beyond the last; see C40.) -/
def SafeBins (ω : Tape) (b : List ℝ) : Prop := b ≠ [] ∧ ∀ j, ω j < ((b.length : ℝ) - 1) / b.length

/-- The same for an energy law. -/
def SafeELaw (ω : Tape) : ELaw → Prop
  | .bins d => d.energy ≠ [] ∧ ∀ b ∈ d.bins, SafeBins ω b
  | .photon _ => True
  | .level _ => True
  | .tabular d => 2 ≤ d.energy.length ∧ ∀ t ∈ d.tables, FromZero t
  | .genEvap t b => SafeTab t ∧ SafeBins ω b
  | .maxwell t _ => SafeTab t
  | .evap t _ => SafeTab t
  | .watt a b _ => SafeTab a ∧ SafeTab b

/-- The same for a law of a reaction. -/
def SafeLaw (ω : Tape) : Law → Prop
  | .uncorrelated u => SafeAngle u.angle ∧ SafeELaw ω u.energy
  | .kalbach d => 2 ≤ d.energy.length
  | .tabEnergyAngle d => 2 ≤ d.energy.length ∧ (∀ j, 0 < ω j) ∧ ∀ t ∈ d.tables, ∀ a ∈ t.angles, FromZero a
  | .nbody _ => True

/-- The same for the distribution of a reaction. -/
def SafeDist (ω : Tape) : NDist → Prop
  | .absorption _ => True
  | .one l => SafeLaw ω l
  | .several ls => ∀ p ∈ ls, SafeLaw ω p.1 ∧ SafeTab p.2
  | .cm _ _ d => SafeDist ω d

/-- No negative energy at incoming energy `E` among the data of an energy law: no negative bound, tabulated energy or temperature, incoming energies in
order, and `E` not below the offset of a level. -/
def NonnegELaw (E : ℝ) : ELaw → Prop
  | .bins d => ∀ b ∈ d.bins, ∀ x ∈ b, 0 ≤ x
  | .photon _ => True
  | .level l => 0 ≤ l.c2 ∧ l.c1 ≤ E
  | .tabular d => d.energy.Pairwise (· ≤ ·) ∧ ∀ t ∈ d.tables, ∀ v ∈ t.values, 0 ≤ v
  | .genEvap t b => (∀ T, t.eval E = .ok T → 0 ≤ T) ∧ ∀ x ∈ b, 0 ≤ x
  | .maxwell _ _ => True
  | .evap _ _ => True
  | .watt _ _ _ => True

/-- The same for a law of a reaction; the phase-space law needs a kinematic maximum that is not negative. -/
def NonnegLaw (E : ℝ) : Law → Prop
  | .uncorrelated u => NonnegELaw E u.energy
  | .kalbach d => ∀ t ∈ d.tables, ∀ v ∈ t.energy, 0 ≤ v
  | .tabEnergyAngle d => ∀ t ∈ d.tables, ∀ v ∈ t.energy, 0 ≤ v
  | .nbody d => 0 ≤ (d.Ap - 1) / d.Ap * (d.A / (d.A + 1) * E + d.Q)

/-- The same for the distribution of a reaction; nothing is asked of data in the centre-of-mass frame. -/
def NonnegDist (E : ℝ) : NDist → Prop
  | .absorption _ => True
  | .one l => NonnegLaw E l
  | .several ls => ∀ p ∈ ls, NonnegLaw E p.1
  | .cm _ _ _ => True

end PNDL.Spec
