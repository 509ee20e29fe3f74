import Verif.Model.STNeutron

/-! Specifications for `STNeutron`. -/
namespace PNDL.Spec


variable {K : Type} [Field K] [LinearOrder K]

/-- The objects a program can construct: directly from a file, or from a file and an object constructed before. -/
inductive Built : AceIn K → STN K → Prop
  | direct {a : AceIn K} {s : STN K} : STN.make a = .ok s → Built a s
  | shared {a a' : AceIn K} {b s : STN K} : Built a' b → STN.makeShared a b = .ok s → Built a s

/-- The five fission MTs. -/
def FissionMT (mt : Nat) : Prop := mt = 18 ∨ mt = 19 ∨ mt = 20 ∨ mt = 21 ∨ mt = 38

/-- The file provides reaction `mt`: it is in the MTR block, and fission is only looked at in files with fission data. -/
def Provides (a : AceIn K) (mt : Nat) : Prop := (∃ e ∈ a.rxns, e.mt = mt) ∧ (FissionMT mt → a.fissile = true)

/-- The MTs of the file. -/
def fileMTs (a : AceIn K) : List Nat := a.rxns.map RxnIn.mt

end PNDL.Spec
