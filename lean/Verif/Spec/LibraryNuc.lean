import Verif.Model.LibraryNuc
import Verif.Spec.NucAce

/-! What a library may return. -/
namespace PNDL.Spec
open PNDL

variable {Key : Type} [DecidableEq Key]

/-- A library of which nothing has been loaded: for every table of a nuclide or law one temperature and one empty place, and no nuclide made yet. -/
structure FreshLib (L : NLib Key) : Prop where
  heap : L.heap = []
  neutrons : ∀ k s, L.neutrons k = some s → s.first = none ∧ s.loaded = List.replicate s.temps.length none
  tsls : ∀ k s, L.tsls k = some s → s.loaded = List.replicate s.temps.length none

/-- The two nuclides have the same cross sections: whatever a user asks of them other than the secondary distributions and the list of MTs has the same
answer. -/
structure SameCrossSections (n n' : Nuc) : Prop where
  temperature : n.temperature = n'.temperature
  grid : n.grid = n'.grid
  urrMin : n.urrMin = n'.urrMin
  total : n.total = n'.total
  disap : n.disap = n'.disap
  elastic : n.elasticXS = n'.elasticXS
  heating : n.heating = n'.heating
  fission : n.fissionXS = n'.fissionXS
  photon : n.photon = n'.photon
  urr : n.urr = n'.urr
  has : ∀ mt, n.has mt = n'.has mt
  reaction : ∀ mt, (n.reaction mt).map (fun r => (r.threshold, r.xs)) = (n'.reaction mt).map (fun r => (r.threshold, r.xs))
  evaluate : ∀ E, n.evaluateE E = n'.evaluateE E

/-- The two nuclides have the same distributions and the same settings of elastic scattering. -/
def SameDistributions (n n' : Nuc) : Prop :=
  n.elastic = n'.elastic ∧ (∀ mt, (n.reaction mt).map STRxn.base = (n'.reaction mt).map STRxn.base) ∧ n.fission.nu = n'.fission.nu ∧
    n.fission.families = n'.fission.families

/-- The setters called on object `o` in a history, in order. -/
def settersOf (o : Nat) : List (NOp Key) → List ElasticOp
  | [] => []
  | .set p op :: h => if p = o then op :: settersOf o h else settersOf o h
  | _ :: h => settersOf o h

end PNDL.Spec
