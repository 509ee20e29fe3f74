import Verif.Model.NucAce
import Verif.Spec.AceLaws
import Verif.Spec.STNeutron

/-! What a neutron file contains.  Nothing here refers to the readers. -/
namespace PNDL.Spec

/-- Entry `k` of the reaction blocks: its MT in MTR, its locator in LSIG and, where the locator points in SIG, the (one-based) number of the
grid point its cross section starts at, the number of values and the values. -/
def EntryAt (f : AceFile) (k : Nat) (e : RxnIn ℝ) : Prop :=
  Holds f.xss (f.mtr + k) [(e.mt : ℝ)] ∧ ∃ loc : Nat, 1 ≤ loc ∧ Holds f.xss (f.lsig + k) [(loc : ℝ)] ∧
    Holds f.xss (f.sig + (loc - 1)) ([((e.idx + 1 : ℕ) : ℝ)] ++ ([(e.values.length : ℝ)] ++ e.values))

/-- The file `f` has contents `a`: in the ESZ block `NE` energies and the total, disappearance, elastic and heating columns; in the reaction
blocks `NMT` entries.  (Secondary distributions are looked at separately, so the opaque number standing for them is 0.) -/
structure FileHolds (f : AceFile) (a : AceIn ℝ) : Prop where
  fissile : a.fissile = f.fissile
  grid : a.grid.length = f.ne
  total : a.total.length = f.ne
  disap : a.disap.length = f.ne
  elastic : a.elastic.length = f.ne
  heating : a.heating.length = f.ne
  main : Holds f.xss f.esz (a.grid ++ (a.total ++ (a.disap ++ (a.elastic ++ a.heating))))
  count : a.rxns.length = f.nmt
  entry : ∀ (k : Nat) (e : RxnIn ℝ), a.rxns[k]? = some e → e.dist = 0 ∧ EntryAt f k e

/-- The nuclides a program can construct from files: directly, or sharing the distributions of one constructed before. -/
inductive Made (fuel : Nat) : AceFile → Nuc → Prop
  | direct {f : AceFile} {n : Nuc} : Nuc.makeAce f fuel = .ok n → Made fuel f n
  | shared {f f' : AceFile} {o n : Nuc} : Made fuel f' o → Nuc.makeShared f o = .ok n → Made fuel f n

/-- The same, keeping the contents of the file last read. -/
inductive Read (fuel : Nat) : AceFile → AceIn ℝ → Nuc → Prop
  | direct {f : AceFile} {a : AceIn ℝ} {n : Nuc} : FileHolds f a → Nuc.makeAce f fuel = .ok n → Read fuel f a n
  | shared {f f' : AceFile} {a a' : AceIn ℝ} {o n : Nuc} : Read fuel f' a' o → FileHolds f a → Nuc.makeShared f o = .ok n → Read fuel f a n

end PNDL.Spec
