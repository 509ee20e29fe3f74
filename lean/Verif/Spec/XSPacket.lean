import Verif.Model.XSPacket

/-! Specification of packets as 7-component vectors. -/
namespace PNDL.Spec
open PNDL

/-- The components of a packet as a vector. -/
def vec {K : Type _} (a : XSPacket K) : List K :=
  [a.total, a.elastic, a.inelastic, a.absorption, a.fission, a.capture, a.heating]

/-- The null packet. -/
def zeroPacket (K : Type _) [OfNat K 0] : XSPacket K := ⟨0, 0, 0, 0, 0, 0, 0⟩

end PNDL.Spec
