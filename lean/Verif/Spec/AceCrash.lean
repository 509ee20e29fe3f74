import Verif.Model.AceCrash
import Verif.Spec.AceBinary

/-! The words of C159. -/
namespace PNDL.Spec
open PNDL

/-- How many bytes of XSS are among the first `t` bytes of its records, `n` the number of entries.  A record is 4 bytes, up to 512 entries of 8 bytes, 4 bytes. -/
def xssBytes (t n : Nat) : Nat := min (8 * n) (4096 * (t / 4104) + min 4096 (t % 4104 - 4))

/-- An array of `w`-byte numbers of which only the first `p` bytes arrived in an array of zeros: complete entries as they were, at most one with its low bytes
only, zeros from there on. -/
def arrived (w p : Nat) (l : List Nat) : List Nat := l.mapIdx fun i x => x % 256 ^ (p - w * i)

end PNDL.Spec
