import Verif.Model.ElasticObj

/-! The words of C158. -/
namespace PNDL.Spec
open PNDL

/-- Variable `v` is a nuclide, not destroyed. -/
def Lives (w : ElWorld) (v : Nat) : Prop := ∃ i, w.nucs[v]? = some (some i)

/-- The program copies or assigns no nuclide. -/
def CopyFree (ops : List ElOp) : Prop := ∀ op ∈ ops, match op with | .copy _ => False | .assign _ _ => False | _ => True

/-- The statement changes, assigns or destroys variable `u`. -/
def Touches (u : Nat) : ElOp → Prop
  | .set v _ => v = u
  | .setBroadener v _ => v = u
  | .destroy v => v = u
  | .assign v _ => v = u
  | _ => False

/-- A program run from the start leads to `w`. -/
def Reached (w : ElWorld) : Prop := ∃ ops, ElWorld.empty.run ops = .ok w

/-- Someone owns broadener `j`: a pointer of the program, or a nuclide whose elastic distribution uses it. -/
def Owned (w : ElWorld) (j : Nat) : Prop := some j ∈ w.handles ∨ ∃ v, Lives w v ∧ w.broadenerRef v = .ok j

end PNDL.Spec
