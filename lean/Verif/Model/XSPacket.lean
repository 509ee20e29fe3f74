import Verif.Model.Prelude
import Mathlib.Algebra.Field.Defs

/-! `XSPacket` (include/PapillonNDL/xs_packet.hpp). -/
namespace PNDL

/-- `struct XSPacket` (xs_packet.hpp:36-43), over an exact field `K` in place of `double`. -/
structure XSPacket (K : Type _) where
  total : K
  elastic : K
  inelastic : K
  absorption : K
  fission : K
  capture : K
  heating : K
  deriving DecidableEq, Repr

namespace XSPacket
variable {K : Type _} [Field K] [DecidableEq K]

/-- `operator+=` (xs_packet.hpp:45-54): returns the updated `*this`. -/
def addAssign (a o : XSPacket K) : XSPacket K where
  total := a.total + o.total
  elastic := a.elastic + o.elastic
  inelastic := a.inelastic + o.inelastic
  absorption := a.absorption + o.absorption
  fission := a.fission + o.fission
  capture := a.capture + o.capture
  heating := a.heating + o.heating

/-- `operator-=` (xs_packet.hpp:56-65). -/
def subAssign (a o : XSPacket K) : XSPacket K where
  total := a.total - o.total
  elastic := a.elastic - o.elastic
  inelastic := a.inelastic - o.inelastic
  absorption := a.absorption - o.absorption
  fission := a.fission - o.fission
  capture := a.capture - o.capture
  heating := a.heating - o.heating

/-- `operator*=` (xs_packet.hpp:67-76). -/
def mulAssign (a : XSPacket K) (C : K) : XSPacket K where
  total := a.total * C
  elastic := a.elastic * C
  inelastic := a.inelastic * C
  absorption := a.absorption * C
  fission := a.fission * C
  capture := a.capture * C
  heating := a.heating * C

/-- `operator/=` (xs_packet.hpp:78-81): `D = 1. / C; *this *= D`. -/
def divAssign (a : XSPacket K) (C : K) : Res (XSPacket K) := do
  let D ← cdiv 1 C
  return a.mulAssign D

/-- `operator+` (xs_packet.hpp:83-93). -/
def add (a o : XSPacket K) : XSPacket K where
  total := a.total + o.total
  elastic := a.elastic + o.elastic
  inelastic := a.inelastic + o.inelastic
  absorption := a.absorption + o.absorption
  fission := a.fission + o.fission
  capture := a.capture + o.capture
  heating := a.heating + o.heating

/-- binary `operator-` (xs_packet.hpp:95-105). -/
def sub (a o : XSPacket K) : XSPacket K where
  total := a.total - o.total
  elastic := a.elastic - o.elastic
  inelastic := a.inelastic - o.inelastic
  absorption := a.absorption - o.absorption
  fission := a.fission - o.fission
  capture := a.capture - o.capture
  heating := a.heating - o.heating

/-- `operator*` (xs_packet.hpp:107-117, 139-141). -/
def mul (a : XSPacket K) (C : K) : XSPacket K where
  total := a.total * C
  elastic := a.elastic * C
  inelastic := a.inelastic * C
  absorption := a.absorption * C
  fission := a.fission * C
  capture := a.capture * C
  heating := a.heating * C

/-- `operator/` (xs_packet.hpp:119-122). -/
def div (a : XSPacket K) (C : K) : Res (XSPacket K) := do
  let D ← cdiv 1 C
  return a.mul D

/-- unary `operator-` (xs_packet.hpp:126-136), as written: line 132 negates `absorption` into `fission`. -/
def neg (a : XSPacket K) : XSPacket K where
  total := -a.total
  elastic := -a.elastic
  inelastic := -a.inelastic
  absorption := -a.absorption
  fission := -a.absorption
  capture := -a.capture
  heating := -a.heating

end XSPacket
end PNDL
