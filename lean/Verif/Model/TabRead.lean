import Verif.Model.PCTable
import Verif.Model.Func1D

/-! Reading tabulated functions out of the XSS array. -/
namespace PNDL

/-- `ace.xss<uint32_t>(i)` (ace.hpp:140-143): the entry truncated to an unsigned integer.  Simplification: a negative entry (undefined for
the cast) counts as zero, and an entry of 2^32 or more is not reduced. -/
noncomputable def natAt (xss : List ℝ) (i : Nat) : Res Nat := do
  let v ← getAt xss i
  return ⌊v⌋.toNat

/-- `ace.xss<uint32_t>(i, n)` (ace.hpp:184-193). -/
noncomputable def natSlice (xss : List ℝ) (i n : Nat) : Res (List Nat) := do
  let l ← xssSlice xss i n
  return l.map (fun v => ⌊v⌋.toNat)

/-- `static_cast<Interpolation>(x)` given to an `Interpolator`: a number that is no enumerator leaves the first alternative of the variant,
`Histogram` (interpolation.hpp:313-331, 429). -/
noncomputable def interpCast (x : ℝ) : Interpolation := (interpOfCode x).getD .histogram

/-- `ace.xss<Interpolation>(i, n)` (ace.hpp:184-193). -/
noncomputable def interpSlice (xss : List ℝ) (i n : Nat) : Res (List Interpolation) := do
  let l ← xssSlice xss i n
  return l.map interpCast

/-- The record reader used for nu (src/fission.cpp:286-303), for yields (src/reaction_base.cpp:74-90) and for the probability of a delayed
family (src/delayed_family.cpp:46-61): with no or one region the break point in the file is ignored. -/
noncomputable def readTab (xss : List ℝ) (i : Nat) : Res Tab1D := do
  let nr ← natAt xss i
  let ne ← natAt xss (i + 1 + 2 * nr)
  let x ← xssSlice xss (i + 2 + 2 * nr) ne
  let y ← xssSlice xss (i + 2 + 2 * nr + ne) ne
  if nr = 0 then Tab1D.make1 .linLin x y
  else if nr = 1 then do
    let c ← getAt xss (i + 2)
    Tab1D.make1 (interpCast c) x y
  else do
    let nbt ← natSlice xss (i + 1) nr
    let int ← interpSlice xss (i + 1 + nr) nr
    Tab1D.make nbt int x y

/-- The common part of the other readers of such records (src/maxwellian.cpp:33-48, src/evaporation.cpp:31-47, src/watt.cpp:33-48, 66-81,
src/general_evaporation.cpp:31-47, src/reaction_base.cpp:200-215): without regions, one linear region of all the points.  Returns the four
vectors and the index just past the record. -/
noncomputable def readTabRaw (xss : List ℝ) (i : Nat) : Res ((List Nat × List Interpolation) × (List ℝ × List ℝ) × Nat) := do
  let nr ← natAt xss i
  let ne ← natAt xss (i + 1 + 2 * nr)
  let nbt ← (if nr = 0 then .ok [ne] else natSlice xss (i + 1) nr : Res (List Nat))
  let int ← (if nr = 0 then .ok [.linLin] else interpSlice xss (i + 1 + nr) nr : Res (List Interpolation))
  let x ← xssSlice xss (i + 2 + 2 * nr) ne
  let y ← xssSlice xss (i + 2 + 2 * nr + ne) ne
  return ((nbt, int), (x, y), i + 2 + 2 * nr + 2 * ne)

/-- `Tabulated1D(NBT, INT, energy, …)` on what was read (e.g. src/maxwellian.cpp:55). -/
noncomputable def readTabB (xss : List ℝ) (i : Nat) : Res (Tab1D × Nat) := do
  let ((nbt, int), (x, y), next) ← readTabRaw xss i
  let t ← Tab1D.make nbt int x y
  return (t, next)

/-- `Maxwellian(ace, i)` (src/maxwellian.cpp:31-65) and `Evaporation(ace, i)` (src/evaporation.cpp:29-63): temperature and restriction
energy. -/
noncomputable def tempAce (xss : List ℝ) (i : Nat) : Res (Tab1D × ℝ) := do
  let ((nbt, int), (x, y), next) ← readTabRaw xss i
  let u ← getAt xss next
  let t ← Tab1D.make nbt int x y
  return (t, u)

/-- `Watt(ace, i)` (src/watt.cpp:31-98): `a`, `b` and the restriction energy. -/
noncomputable def wattAce (xss : List ℝ) (i : Nat) : Res (Tab1D × Tab1D × ℝ) := do
  let (a, i') ← readTabB xss i
  let (b, i'') ← readTabB xss i'
  let u ← getAt xss i''
  return (a, b, u)

/-- `GeneralEvaporation(ace, i)` (src/general_evaporation.cpp:29-74): temperature and bin bounds. -/
noncomputable def genEvapAce (xss : List ℝ) (i : Nat) : Res (Tab1D × List ℝ) := do
  let ((nbt, int), (x, y), next) ← readTabRaw xss i
  let nx ← natAt xss next
  let bounds ← xssSlice xss next nx
  if isSorted bounds = false then .error .exc
  else do
    let t ← Tab1D.make nbt int x y
    return (t, bounds)

/-- `LevelInelasticScatter(ace, i)` (src/level_inelastic_scatter.cpp:29-33). -/
def levelAce (xss : List ℝ) (i : Nat) : Res (ℝ × ℝ) := do
  let c1 ← getAt xss i
  let c2 ← getAt xss (i + 1)
  return (c1, c2)

end PNDL
