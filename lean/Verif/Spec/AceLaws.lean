import Verif.Spec.TabRead

/-! How an ACE file lays out secondary distributions.  Nothing here refers to the readers. -/
namespace PNDL.Spec

/-- A tabulated density: interpolation law, abscissae, density, cumulative. -/
structure DensityRec where
  law : Interpolation
  x : List ℝ
  pdf : List ℝ
  cdf : List ℝ

/-- All three lists have the same, positive length. -/
def DensityRec.Sized (r : DensityRec) : Prop := r.pdf.length = r.x.length ∧ r.cdf.length = r.x.length ∧ r.x ≠ []

/-- `JJ, NP, x(1..NP), pdf(1..NP), cdf(1..NP)`. -/
def DensityRec.encode (r : DensityRec) : List ℝ :=
  [lawCode r.law] ++ ([(r.x.length : ℝ)] ++ (r.x ++ (r.pdf ++ r.cdf)))

/-- An angular law at one incident energy. -/
inductive AngleRec where
  | isotropic
  | bins (bounds : List ℝ)
  | table (r : DensityRec)

/-- The locator `l` (relative to the AND block starting at `andB`) describes the law: 0 isotropic, positive 33 bin bounds, negative a table. -/
def AngleRec.At (xss : List ℝ) (andB : Nat) (l : Int) : AngleRec → Prop
  | .isotropic => l = 0
  | .bins b => ∃ n : Nat, 1 ≤ n ∧ l = n ∧ b.length = 33 ∧ Holds xss (andB + (n - 1)) b
  | .table r => ∃ n : Nat, 1 ≤ n ∧ l = -(n : Int) ∧ r.Sized ∧ Holds xss (andB + (n - 1)) r.encode

/-- The angular block entry `locb`: number of energies, energies, locators, and the laws the locators point to. -/
def AnglesAt (xss : List ℝ) (andB locb : Nat) (energies : List ℝ) (laws : List AngleRec) : Prop :=
  1 ≤ locb ∧ ∃ locs : List Int,
    Holds xss (andB + (locb - 1)) ([(energies.length : ℝ)] ++ (energies ++ locs.map (fun l => (l : ℝ)))) ∧
    energies.length = laws.length ∧ List.Forall₂ (fun l r => AngleRec.At xss andB l r) locs laws

/-- The incident energies of a tabulated law: `NR, NBT, INT, NE, E(1..NE)`. -/
def incident (regions : List (Nat × Interpolation)) (energies : List ℝ) : List ℝ :=
  [(regions.length : ℝ)] ++ (regions.map (fun p => (p.1 : ℝ)) ++ (regions.map (fun p => lawCode p.2) ++
    ([(energies.length : ℝ)] ++ energies)))

/-- A law with one table per incident energy: the incident energies, then one locator per energy, relative to `base`; the table number `j`
is a record of the kind `At`. -/
def TablesAt {R : Type} (At : Nat → R → Prop) (xss : List ℝ) (base i : Nat) (regions : List (Nat × Interpolation)) (energies : List ℝ)
    (tables : List R) : Prop :=
  ∃ locs : List Nat, Holds xss i (incident regions energies ++ locs.map (fun (l : Nat) => (l : ℝ))) ∧ energies.length = tables.length ∧
    List.Forall₂ (fun l r => 1 ≤ l ∧ At (base + (l - 1)) r) locs tables

/-- A density record at index `j`. -/
def DensityAt (xss : List ℝ) (j : Nat) (r : DensityRec) : Prop := r.Sized ∧ Holds xss j r.encode

/-- A Kalbach-Mann table: `JJ, NP, E, pdf, cdf, R, A`. -/
structure KalbachRec extends DensityRec where
  r : List ℝ
  a : List ℝ

/-- A Kalbach-Mann table at index `j`. -/
def KalbachAt (xss : List ℝ) (j : Nat) (t : KalbachRec) : Prop :=
  t.toDensityRec.Sized ∧ t.r.length = t.x.length ∧ t.a.length = t.x.length ∧ Holds xss j (t.toDensityRec.encode ++ (t.r ++ t.a))

/-- A table with one angular table per outgoing energy; `none` stands for an isotropic one. -/
structure CorrelatedRec extends DensityRec where
  angles : List (Option DensityRec)

/-- The locator `l` of an angular table, relative to `jed`: 0 for isotropic, else a table. -/
def AngleTableAt (xss : List ℝ) (jed l : Nat) : Option DensityRec → Prop
  | none => l = 0
  | some r => 1 ≤ l ∧ DensityAt xss (jed + (l - 1)) r

/-- A correlated table at index `j`: `JJ, NP, E, pdf, cdf, LC`. -/
def CorrelatedAt (xss : List ℝ) (jed j : Nat) (t : CorrelatedRec) : Prop :=
  t.toDensityRec.Sized ∧ t.angles.length = t.x.length ∧ ∃ locs : List Nat,
    Holds xss j (t.toDensityRec.encode ++ locs.map (fun (l : Nat) => (l : ℝ))) ∧ List.Forall₂ (AngleTableAt xss jed) locs t.angles

/-- Bin bounds, the same number of them for every incident energy: `NR, NBT, INT, NE, E, NET, bounds(1..NET)` for each energy. -/
def BinSetsAt (xss : List ℝ) (i : Nat) (regions : List (Nat × Interpolation)) (energies : List ℝ) (net : Nat) (sets : List (List ℝ)) : Prop :=
  Holds xss i (incident regions energies ++ ([(net : ℝ)] ++ sets.flatten)) ∧ energies.length = sets.length ∧ ∀ b ∈ sets, b.length = net

end PNDL.Spec
