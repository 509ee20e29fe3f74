import Verif.Spec.TabRead
import Verif.Model.Thermal

/-! A thermal scattering file as the ACE format lays it out: the contents, the layout, what makes the contents sensible, and what the
objects made from the file hold. -/
namespace PNDL.Spec

/-- The outgoing distribution of the inelastic part: discrete energies (each with its cosines) for every incident energy, or for every
incident energy a table of energy, density, cumulative probability and cosines. -/
inductive TslDist where
  | discrete (skewed : Bool) (noe : Nat) (out : List (List DiscreteEnergy))
  | continuous (tables : List (List CEDCEntry))

/-- The elastic part: absent, coherent (Bragg edges and cumulative structure factors) or incoherent (cosines for every energy). -/
inductive TslElastic where
  | absent
  | coherent (edges sf : List ℝ)
  | incoherent (nmu : Nat) (energies xs : List ℝ) (cosines : List (List ℝ))

/-- The contents of the file. -/
structure TslRec where
  energies : List ℝ
  xs : List ℝ
  nmu : Nat
  dist : TslDist
  elastic : TslElastic

/-- A discrete energy as the file stores it. -/
def discreteRecord (d : DiscreteEnergy) : List ℝ := d.energy :: d.cosines

/-- A point of a table as the file stores it. -/
def entryRecord (e : CEDCEntry) : List ℝ := [e.e, e.p, e.c] ++ e.mus

/-- A list of numbers with a value for each, as the file stores them: the count, the numbers, the values. -/
def counted (x y : List ℝ) : List ℝ := [(x.length : ℝ)] ++ (x ++ y)

/-- Where the file holds the distribution: `NXS(7)` says which kind, `NXS(3)` how many cosines (one less for discrete energies, one more for
tables), `NXS(4)` how many discrete energies, `JXS(3)` where they start; tables have a list of places and lengths there. -/
def DistHolds (a : TslAce) (ne nmu : Nat) : TslDist → Prop
  | .discrete sk noe out => a.nxs 6 = (if sk then 1 else 0) ∧ a.nxs 3 = noe ∧ a.nxs 2 + 1 = nmu ∧ out.length = ne ∧
      (∀ t ∈ out, t.length = noe ∧ ∀ d ∈ t, d.cosines.length = nmu) ∧
      ∃ i : Nat, a.jxs 2 = (i : Int) + 1 ∧ Holds a.xss i (out.flatMap (fun t => t.flatMap discreteRecord))
  | .continuous tables => a.nxs 6 = 2 ∧ a.nxs 2 - 1 = nmu ∧ tables.length = ne ∧ (∀ t ∈ tables, ∀ e ∈ t, e.mus.length = nmu) ∧
      ∃ (i : Nat) (locs : List Nat), a.jxs 2 = (i : Int) + 1 ∧ locs.length = ne ∧
        Holds a.xss i (locs.map (fun (l : Nat) => (l : ℝ)) ++ tables.map (fun t => (t.length : ℝ))) ∧
        List.Forall₂ (fun l t => Holds a.xss l (t.flatMap entryRecord)) locs tables

/-- Where the file holds the elastic part: `JXS(4)` is its place or zero, `NXS(5)` is four if it is coherent; the cosines of the
incoherent one, `NXS(6) + 1` for each energy, are at `JXS(6)`. -/
def ElasticHolds (a : TslAce) : TslElastic → Prop
  | .absent => a.jxs 3 = 0 ∧ a.nxs 4 ≠ 4
  | .coherent edges sf => a.nxs 4 = 4 ∧ sf.length = edges.length ∧ ∃ i : Nat, a.jxs 3 = (i : Int) + 1 ∧ Holds a.xss i (counted edges sf)
  | .incoherent nmu es xs cs => a.nxs 4 ≠ 4 ∧ a.nxs 5 + 1 = nmu ∧ xs.length = es.length ∧ cs.length = es.length ∧ (∀ c ∈ cs, c.length = nmu) ∧
      (∃ i : Nat, a.jxs 3 = (i : Int) + 1 ∧ Holds a.xss i (counted es xs)) ∧ ∃ j : Nat, a.jxs 5 = (j : Int) + 1 ∧ Holds a.xss j cs.flatten

/-- The file holds the contents. -/
structure TslHolds (a : TslAce) (r : TslRec) : Prop where
  lens : r.xs.length = r.energies.length
  grid : ∃ s : Nat, a.jxs 0 = (s : Int) + 1 ∧ Holds a.xss s (counted r.energies r.xs)
  dist : DistHolds a r.energies.length r.nmu r.dist
  elastic : ElasticHolds a r.elastic

/-- The numbers fit in 32 bits. -/
structure TslSmall (r : TslRec) : Prop where
  ne : r.energies.length < 2 ^ 32
  nmu : r.nmu < 2 ^ 32
  noe : ∀ sk noe out, r.dist = .discrete sk noe out → noe < 2 ^ 32
  inc : ∀ nmu es xs cs, r.elastic = .incoherent nmu es xs cs → nmu < 2 ^ 32 ∧ es.length < 2 ^ 32

/-- Cosines are cosines. -/
def AreCosines (c : List ℝ) : Prop := ∀ m ∈ c, -1 ≤ m ∧ m ≤ 1

/-- A sensible table: not empty, energies from zero up and in order, cumulative probabilities in order, no negative density (to 15 digits),
at least one cosine. -/
structure GoodEntries (t : List CEDCEntry) : Prop where
  ne : t ≠ []
  energy : (t.map (·.e)).Pairwise (· ≤ ·)
  nonneg : ∀ e ∈ t, 0 ≤ e.e
  cdf : (t.map (·.c)).Pairwise (· ≤ ·)
  pdf : ∀ e ∈ t, -(1 / 10 ^ 15) < e.p
  cosines : ∀ e ∈ t, e.mus ≠ [] ∧ AreCosines e.mus

def GoodDist : TslDist → Prop
  | .discrete sk noe out => (sk = true → 6 ≤ noe) ∧ ∀ t ∈ out, ∀ d ∈ t, 0 < d.energy ∧ AreCosines d.cosines
  | .continuous tables => ∀ t ∈ tables, GoodEntries t

def GoodElastic : TslElastic → Prop
  | .absent => True
  | .coherent edges _ => edges ≠ [] ∧ edges.Pairwise (· ≤ ·) ∧ ∀ e ∈ edges, 0 ≤ e
  | .incoherent _ es xs cs => es ≠ [] ∧ es.Pairwise (· ≤ ·) ∧ (∀ x ∈ xs, 0 ≤ x) ∧ ∀ c ∈ cs, c ≠ [] ∧ c.Pairwise (· ≤ ·) ∧ AreCosines c

/-- Sensible contents. -/
structure TslGood (r : TslRec) : Prop where
  ne : r.energies ≠ []
  sorted : r.energies.Pairwise (· ≤ ·)
  dist : GoodDist r.dist
  elastic : GoodElastic r.elastic

/-- A function of the tables: one linear region. -/
def linearTable (x y : List ℝ) : Tab1D := ⟨[x.length], [.linLin], x, y, [⟨.linLin, x, y⟩]⟩

/-- `nmu` equally likely cosines that make up an isotropic distribution. -/
noncomputable def isotropicCosines (nmu : Nat) : List ℝ := (List.range nmu).map (fun (i : Nat) => -1 + (2 * (i : ℝ) + 1) / nmu)

/-- The table with a point at zero in front if its cumulative probability starts above zero. -/
noncomputable def fromZero (nmu : Nat) (t : List CEDCEntry) : List CEDCEntry :=
  open Classical in if ∃ e ∈ t.head?, 0 < e.c then ⟨0, 0, 0, isotropicCosines nmu⟩ :: t else t

/-- The table object holds the table, cosines in order. -/
structure TableIs (nmu : Nat) (t : List CEDCEntry) (o : CEDCTable) : Prop where
  energy : o.energy = (fromZero nmu t).map (·.e)
  pdf : o.pdf = (fromZero nmu t).map (fun e => max 0 e.p)
  cdf : o.cdf = (fromZero nmu t).map (·.c)
  cosines : List.Forall₂ (fun u e => u.Perm e.mus ∧ u.Pairwise (· ≤ ·)) o.cosines (fromZero nmu t)

def DistIs (r : TslRec) (unitBased : Bool) (d : InelDist) : Prop :=
  match r.dist with
  | .discrete sk noe out => d = .discrete ⟨r.energies, out, noe, r.nmu, sk⟩
  | .continuous tables => ∃ ts, d = .continuous ⟨r.energies, ts, r.nmu, unitBased⟩ ∧ List.Forall₂ (TableIs r.nmu) tables ts

def ElasticIs (t : ThermalLaw) : TslElastic → Prop
  | .absent => t.hasCoherent = false ∧ t.hasIncoherent = false
  | .coherent edges sf => t.hasCoherent = true ∧ t.hasIncoherent = false ∧ t.coherent = ⟨edges, sf⟩
  | .incoherent nmu es xs cs => t.hasCoherent = false ∧ t.hasIncoherent = true ∧ t.incoherent = ⟨linearTable es xs, nmu, es, cs⟩

/-- The law made from the file holds the contents. -/
structure TslIs (r : TslRec) (unitBased : Bool) (t : ThermalLaw) : Prop where
  xs : t.inelastic.xs = linearTable r.energies r.xs
  dist : DistIs r unitBased t.inelastic.dist
  elastic : ElasticIs t r.elastic

end PNDL.Spec
