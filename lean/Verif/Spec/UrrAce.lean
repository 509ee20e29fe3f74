import Verif.Spec.TabRead
import Verif.Model.URR

/-! The block of unresolved resonance probability tables of an ACE file. -/
namespace PNDL.Spec

/-- The block: interpolation law, the flags for the competing reactions and for factors, the incident energies and, for each of
them, the table, band by band with its cumulative probability. -/
structure UrrBlock where
  law : Interpolation
  inelastic : Int
  absorption : Int
  factors : Int
  energies : List ℝ
  np : Nat
  tables : List (List (ℝ × Band))

/-- A table as the file stores it: cumulative probabilities, then totals, elastic, fission, capture, heating. -/
def urrColumns (t : List (ℝ × Band)) : List ℝ :=
  t.map (fun p => p.1) ++ (t.map (fun p => p.2.total) ++ (t.map (fun p => p.2.elastic) ++ (t.map (fun p => p.2.fission) ++
    (t.map (fun p => p.2.capture) ++ t.map (fun p => p.2.heating)))))

/-- The block as the file stores it. -/
def UrrBlock.encode (b : UrrBlock) : List ℝ :=
  [(b.energies.length : ℝ), (b.np : ℝ), lawCode b.law, (b.inelastic : ℝ), (b.absorption : ℝ), (b.factors : ℝ)] ++
    (b.energies ++ b.tables.flatMap urrColumns)

/-- One table for every energy, with the announced number of bands. -/
def UrrBlock.Sized (b : UrrBlock) : Prop := b.tables.length = b.energies.length ∧ (∀ t ∈ b.tables, t.length = b.np) ∧ 1 ≤ b.np

/-- A table that makes sense: the cumulative probabilities increase from a positive number to one (to 15 digits), and no cross
section is negative. -/
def UrrTable (t : List (ℝ × Band)) : Prop :=
  (t.map Prod.fst).Pairwise (· ≤ ·) ∧ (∀ c ∈ (t.map Prod.fst).head?, 0 < c) ∧ (∀ c ∈ (t.map Prod.fst).getLast?, |1 - c| < 1 / 10 ^ 15) ∧
    ∀ p ∈ t, 0 ≤ p.2.total ∧ 0 ≤ p.2.elastic ∧ 0 ≤ p.2.fission ∧ 0 ≤ p.2.capture

/-- The table object holds the table: same bands, and the same cumulative probabilities but for the last, which is one. -/
def HoldsTable (t : List (ℝ × Band)) (o : PTab) : Prop :=
  o.bands = t.map Prod.snd ∧ o.cdf.length = t.length ∧ o.cdf.getLast? = some 1 ∧
    ∀ i, i + 1 < t.length → o.cdf[i]? = (t.map Prod.fst)[i]?

/-- The competing cross section a flag asks for: none if it is not positive, else that of the first reaction with this MT. -/
def Competing (flag : Int) (rxns : List (Rxn ℝ)) (o : Option (XS ℝ)) : Prop :=
  (flag ≤ 0 ∧ o = none) ∨ (0 < flag ∧ ∃ pre r post, rxns = pre ++ r :: post ∧ (r.mt : Int) = flag ∧ (∀ q ∈ pre, (q.mt : Int) ≠ flag) ∧ o = some r.xs)

end PNDL.Spec
