import Verif.Model.AceBinary

/-! `ACE::save_binary` interrupted: the process or the machine stops, or the disk is full, before the file is complete. -/
namespace PNDL

/-- The contents of the file when `save_binary` (src/ace.cpp:258-325) stops.  `none`: before the file is opened.  Opening it (line 259, `std::ofstream` without
`std::ios_base::app`) throws the old contents away; the bytes are then written in order, so `some k` is a stop with the first `k` of them in the file.  Whether a
write succeeded is never looked at. -/
def ACE.saveStopped (divT : Nat → Nat) (a : ACE) (old : List Byte) : Option Nat → List Byte
  | none => old
  | some k => (a.saveBinary divT).2.take k

end PNDL
