import Verif.Model.TabRead
import Verif.Model.Tape
import Verif.Model.Bracket
import Mathlib.Data.List.Sort

/-! Thermal scattering laws: coherent elastic, incoherent elastic (ACE), incoherent inelastic with its two distributions, and the
container `STThermalScatteringLaw`. -/
namespace PNDL

/-- The part of an ACE file the thermal scattering classes read (ace.hpp:96-142): `nxs(i)`, `jxs(i)` and the XSS array. -/
structure TslAce where
  nxs : Nat → Int
  jxs : Nat → Int
  xss : List ℝ

/-- `static_cast<uint32_t>(z)` of an `int32_t` or of 32-bit arithmetic on one. -/
def asU32 (z : Int) : Nat := (z % 2 ^ 32).toNat

/-- `static_cast<std::size_t>(ace.jxs(k) - 1)`: a pointer of zero or less wraps to an index no vector has, and the read that
follows is undefined. -/
def locator (j : Int) : Res Nat := if 1 ≤ j then .ok (j - 1).toNat else .error .ub

/-! ### Coherent elastic -/

/-- `class STCoherentElastic` (st_coherent_elastic.hpp:127-129). -/
structure CohElastic where
  edges : List ℝ
  sf : List ℝ

open Classical in
/-- `STCoherentElastic(ace)` (src/st_coherent_elastic.cpp:30-52). -/
noncomputable def CohElastic.makeAce (a : TslAce) : Res CohElastic := do
  if a.nxs 4 = 4 then do
    let i ← locator (a.jxs 3)
    let ne ← natAt a.xss i
    let es ← xssSlice a.xss (i + 1) ne
    let ss ← xssSlice a.xss (i + 1 + ne) ne
    if isSorted es = false then .error .exc
    else do
      let e0 ← front es
      if e0 < 0 then .error .exc else return ⟨es, ss⟩
  else return ⟨[], []⟩

open Classical in
/-- `xs(E)` (st_coherent_elastic.hpp:52-66). -/
noncomputable def CohElastic.xs (c : CohElastic) (E : ℝ) : Res ℝ := do
  if c.edges.length = 0 then return 0
  else do
    let first ← front c.edges
    let last ← back c.edges
    if first < E ∧ E < last then do
      let l ← subIdx (lowerBound c.edges E) 1
      let s ← getAt c.sf l
      rdiv s E
    else if E < first then return 0
    else do
      let s ← back c.sf
      rdiv s E

open Classical in
/-- `sample_angle_energy(E_in, rng)` (st_coherent_elastic.hpp:68-103): cosine, energy, new position on the tape. -/
noncomputable def CohElastic.sample (c : CohElastic) (E : ℝ) (ω : Tape) (k : Nat) : Res (ℝ × ℝ × Nat) := do
  if c.edges.length = 0 then .error .exc
  else do
    let first ← front c.edges
    if first < E then do
      let l ← subIdx (lowerBound c.edges E) 1
      let s ← getAt c.sf l
      let si := lowerBoundRange c.sf 0 l (ω k * s)
      let eb ← getAt c.edges si
      let q ← rdiv (2 * eb) E
      return (1 - q, E, k + 1)
    else return (1, E, k)

/-! ### Smeared discrete cosines -/

/-- `a + f * (b - a)` on entry `j` of two vectors (e.g. st_incoherent_elastic_ace.hpp:83-84). -/
noncomputable def mixAt (u v : List ℝ) (f : ℝ) (j : Nat) : Res ℝ := do
  let a ← getAt u j
  let b ← getAt v j
  return a + f * (b - a)

/-- The smearing shared by the incoherent elastic and inelastic laws (st_incoherent_elastic_ace.hpp:83-99,
src/continuous_energy_discrete_cosines.cpp:276-296, 349-369): `u`, `v` are the two vectors of cosines, `f` the weight, `j` the
chosen index, `n` is `Nmu` and `xi` the last random number. -/
noncomputable def smear (u v : List ℝ) (f : ℝ) (n j : Nat) (xi : ℝ) : Res ℝ := do
  let m ← mixAt u v f j
  let lo ← (if j ≠ 0 then mixAt u v f (j - 1) else .ok (-1 - (m + 1)) : Res ℝ)
  let hi ← (if j ≠ n - 1 then mixAt u v f (j + 1) else .ok (1 - (m - 1)) : Res ℝ)
  return m + min (m - lo) (hi - m) * (xi - 1 / 2)

/-! ### Incoherent elastic -/

/-- `class STIncoherentElasticACE` (st_incoherent_elastic_ace.hpp:131-135). -/
structure IncElastic where
  xs : Tab1D
  nmu : Nat
  energy : List ℝ
  cosines : List (List ℝ)

open Classical in
/-- The cosines of one incoming energy (src/st_incoherent_elastic_ace.cpp:61-85). -/
noncomputable def incCosines (xss : List ℝ) (nmu i : Nat) : Res (List ℝ) := do
  let c ← xssSlice xss i nmu
  if isSorted c = false then .error .exc
  else do
    let a ← front c
    if a < -1 then .error .exc
    else do
      let b ← back c
      if b > 1 then .error .exc else return c

/-- The loop over the incoming energies (src/st_incoherent_elastic_ace.cpp:60-86), `n` of them left. -/
noncomputable def incCosinesAll (xss : List ℝ) (nmu : Nat) : Nat → Nat → Res (List (List ℝ))
  | 0, _ => .ok []
  | n + 1, i => do
    let c ← incCosines xss nmu i
    let cs ← incCosinesAll xss nmu n (i + nmu)
    return c :: cs

open Classical in
/-- `STIncoherentElasticACE(ace)` (src/st_incoherent_elastic_ace.cpp:28-88). -/
noncomputable def IncElastic.makeAce (a : TslAce) : Res IncElastic := do
  if a.nxs 4 = 4 ∨ a.jxs 3 = 0 then do
    let t ← Tab1D.make1 .histogram [0, 100] [0, 0]
    return ⟨t, 0, [], []⟩
  else do
    let i ← locator (a.jxs 3)
    let ne ← natAt a.xss i
    let es ← xssSlice a.xss (i + 1) ne
    let xs ← xssSlice a.xss (i + 1 + ne) ne
    if ∃ x ∈ xs, x < 0 then .error .exc
    else do
      let t ← Tab1D.make1 .linLin es xs
      let nmu := asU32 (a.nxs 5 + 1)
      let j ← locator (a.jxs 5)
      let cs ← incCosinesAll a.xss nmu ne j
      return ⟨t, nmu, es, cs⟩

/-- `sample_angle_energy(E_in, rng)` (st_incoherent_elastic_ace.hpp:53-102). -/
noncomputable def IncElastic.sample (d : IncElastic) (E : ℝ) (ω : Tape) (k : Nat) : Res (ℝ × ℝ × Nat) := do
  if d.energy.length = 0 then .error .exc
  else do
    let (i, f) ← bracketIn d.energy E
    let j := ⌊(d.nmu : ℝ) * ω k⌋₊
    let u ← getAt d.cosines i
    let v ← getAt d.cosines (i + 1)
    let mu ← smear u v f d.nmu j (ω (k + 1))
    return (mu, E, k + 2)

/-! ### Incoherent inelastic: discrete energies -/

/-- `struct DiscreteEnergy` (discrete_cosines_energies.hpp:51-54). -/
structure DiscreteEnergy where
  energy : ℝ
  cosines : List ℝ

/-- `class DiscreteCosinesEnergies` (discrete_cosines_energies.hpp:83-87). -/
structure DiscreteCE where
  energy : List ℝ
  out : List (List DiscreteEnergy)
  noe : Nat
  nmu : Nat
  skewed : Bool

open Classical in
/-- One discrete energy (src/discrete_cosines_energies.cpp:82-104). -/
noncomputable def readDiscrete (xss : List ℝ) (nmu i : Nat) : Res DiscreteEnergy := do
  let e ← getAt xss i
  if e ≤ 0 then .error .exc
  else do
    let mu ← xssSlice xss (i + 1) nmu
    if ∃ m ∈ mu, m < -1 ∨ m > 1 then .error .exc else return ⟨e, mu⟩

/-- The inner loop (src/discrete_cosines_energies.cpp:81-105). -/
noncomputable def readDiscretes (xss : List ℝ) (nmu : Nat) : Nat → Nat → Res (List DiscreteEnergy)
  | 0, _ => .ok []
  | n + 1, i => do
    let d ← readDiscrete xss nmu i
    let ds ← readDiscretes xss nmu n (i + 1 + nmu)
    return d :: ds

/-- The outer loop (src/discrete_cosines_energies.cpp:76-106). -/
noncomputable def readDiscreteTables (xss : List ℝ) (nmu noe : Nat) : Nat → Nat → Res (List (List DiscreteEnergy))
  | 0, _ => .ok []
  | n + 1, i => do
    let d ← readDiscretes xss nmu noe i
    let ds ← readDiscreteTables xss nmu noe n (i + noe * (1 + nmu))
    return d :: ds

/-- `DiscreteCosinesEnergies(ace)` (src/discrete_cosines_energies.cpp:33-107). -/
noncomputable def DiscreteCE.makeAce (a : TslAce) : Res DiscreteCE := do
  if a.nxs 6 ≠ 0 ∧ a.nxs 6 ≠ 1 then .error .exc
  else do
    let skewed := decide (a.nxs 6 = 1)
    let s ← locator (a.jxs 0)
    let ne ← natAt a.xss s
    let es ← xssSlice a.xss (s + 1) ne
    if isSorted es = false then .error .exc
    else do
      let noe := asU32 (a.nxs 3)
      if skewed = true ∧ noe < 6 then .error .exc
      else do
        let nmu := asU32 (a.nxs 2 + 1)
        let i ← locator (a.jxs 2)
        let out ← readDiscreteTables a.xss nmu noe ne i
        return ⟨es, out, noe, nmu, skewed⟩

open Classical in
/-- The index of the outgoing energy (src/discrete_cosines_energies.cpp:114-137) and the new position on the tape.  The unsigned
subtractions are those of a skewed law, for which `Noe ≥ 6`. -/
noncomputable def DiscreteCE.pick (d : DiscreteCE) (ω : Tape) (k : Nat) : Res (Nat × Nat) := do
  if d.skewed = false then return (⌊(d.noe : ℝ) * ω k⌋₊, k + 1)
  else do
    let c ← rdiv 1 (10 * ((d.noe : ℝ) - 3))
    let xi := ω k
    if 5 * c ≤ xi ∧ xi < 1 - 5 * c then do
      let n ← subIdx d.noe 4
      return (⌊(n : ℝ) * ω (k + 1) + 2⌋₊, k + 2)
    else if xi < c then return (0, k + 1)
    else if c ≤ xi ∧ xi < 5 * c then return (1, k + 1)
    else if 1 - 5 * c ≤ xi ∧ xi < 1 - c then do
      let n ← subIdx d.noe 2
      return (n, k + 1)
    else do
      let n ← subIdx d.noe 1
      return (n, k + 1)

/-- The entries `[j].cosines[m]` and `[j].energy` of one vector of discrete energies. -/
def discreteAt (t : List DiscreteEnergy) (j m : Nat) : Res (ℝ × ℝ) := do
  let e ← getAt t j
  let mu ← getAt e.cosines m
  return (mu, e.energy)

/-- `sample_angle_energy(E_in, rng)` (src/discrete_cosines_energies.cpp:109-167). -/
noncomputable def DiscreteCE.sample (d : DiscreteCE) (E : ℝ) (ω : Tape) (k : Nat) : Res (ℝ × ℝ × Nat) := do
  let m := ⌊(d.nmu : ℝ) * ω k⌋₊
  let (j, k') ← d.pick ω (k + 1)
  let it := lowerBound d.energy E
  if it = 0 then do
    let t ← front d.out
    let (mu, e) ← discreteAt t j m
    return (mu, e, k')
  else if it = d.energy.length then do
    let t ← back d.out
    let (mu, e) ← discreteAt t j m
    return (mu, e, k')
  else do
    let i ← subIdx it 1
    let e0 ← getAt d.energy i
    let e1 ← getAt d.energy (i + 1)
    let f ← rdiv (E - e0) (e1 - e0)
    let t0 ← getAt d.out i
    let t1 ← getAt d.out (i + 1)
    let (mu0, x0) ← discreteAt t0 j m
    let (mu1, x1) ← discreteAt t1 j m
    return (clampMu (mu0 + f * (mu1 - mu0)), x0 + f * (x1 - x0), k')

/-! ### Incoherent inelastic: continuous energies -/

/-- `struct CEDCTable` (continuous_energy_discrete_cosines.hpp:56-61). -/
structure CEDCTable where
  energy : List ℝ
  pdf : List ℝ
  cdf : List ℝ
  cosines : List (List ℝ)

/-- `class ContinuousEnergyDiscreteCosines` (continuous_energy_discrete_cosines.hpp:113-116). -/
structure ContinuousCE where
  energy : List ℝ
  tables : List CEDCTable
  nmu : Nat
  unitBased : Bool

open Classical in
/-- `std::sort` on a vector of numbers that is not sorted (src/continuous_energy_discrete_cosines.cpp:141-145). -/
noncomputable def sortIfNeeded (l : List ℝ) : List ℝ := if isSorted l then l else l.insertionSort (· ≤ ·)

/-- One outgoing energy: energy, density, cumulative, cosines. -/
structure CEDCEntry where
  e : ℝ
  p : ℝ
  c : ℝ
  mus : List ℝ

open Classical in
/-- One pass of the inner loop, without the insertion of the extra entry (src/continuous_energy_discrete_cosines.cpp:86-104,
141-168). -/
noncomputable def readEntry (xss : List ℝ) (nmu l : Nat) : Res CEDCEntry := do
  let e ← getAt xss l
  let p ← getAt xss (l + 1)
  let p' := if p < 0 ∧ |p| < 1 / 10 ^ 20 then 0 else p
  let c ← getAt xss (l + 2)
  let mus ← xssSlice xss (l + 3) nmu
  let mus' := sortIfNeeded mus
  let a ← front mus'
  if a < -1 then .error .exc
  else do
    let b ← back mus'
    if b > 1 then .error .exc else return ⟨e, p', c, mus'⟩

/-- The inner loop over the `n` outgoing energies in the file (src/continuous_energy_discrete_cosines.cpp:85-169).  The
position is a `uint32_t` in the code; wrapping past 2^32 is not modelled. -/
noncomputable def readEntries (xss : List ℝ) (nmu : Nat) : Nat → Nat → Res (List CEDCEntry)
  | 0, _ => .ok []
  | n + 1, l => do
    let e ← readEntry xss nmu l
    let es ← readEntries xss nmu n (l + 3 + nmu)
    return e :: es

/-- `discrete_angles[i]` (src/continuous_energy_discrete_cosines.cpp:122-128). -/
noncomputable def isoCosine (dmu : ℝ) : Nat → ℝ
  | 0 => -1 + 1 / 2 * dmu
  | i + 1 => isoCosine dmu i + dmu

open Classical in
/-- The entry added in front when the cumulative starts above zero (src/continuous_energy_discrete_cosines.cpp:111-135). -/
noncomputable def addZero (nmu : Nat) (es : List CEDCEntry) : List CEDCEntry :=
  match es with
  | [] => []
  | e :: rest =>
    if e.c > 0 then ⟨0, 0, 0, (List.range nmu).map (isoCosine (2 / (nmu : ℝ)))⟩ :: e :: rest else e :: rest

open Classical in
/-- One table (src/continuous_energy_discrete_cosines.cpp:70-210). -/
noncomputable def CEDCTable.read (xss : List ℝ) (nmu noe l : Nat) : Res CEDCTable := do
  let es ← readEntries xss nmu noe l
  let es' := addZero nmu es
  let energy := es'.map (·.e)
  let cdf := es'.map (·.c)
  let pdf := es'.map (·.p)
  if isSorted energy = false then .error .exc
  else do
    let e0 ← front energy
    if e0 < 0 then .error .exc
    else if isSorted cdf = false then .error .exc
    else if ∃ p ∈ pdf, p < 0 ∧ 1 / 10 ^ 15 ≤ |p| then .error .exc
    else return ⟨energy, pdf.map (fun p => if p < 0 then 0 else p), cdf, es'.map (·.mus)⟩

/-- The loop over the incoming energies (src/continuous_energy_discrete_cosines.cpp:70-211). -/
noncomputable def readCEDCs (xss : List ℝ) (nmu : Nat) : List (Nat × Nat) → Res (List CEDCTable)
  | [] => .ok []
  | (loc, noe) :: rest => do
    let t ← CEDCTable.read xss nmu noe loc
    let ts ← readCEDCs xss nmu rest
    return t :: ts

/-- `ContinuousEnergyDiscreteCosines(ace, unit_based_interpolation)` (src/continuous_energy_discrete_cosines.cpp:33-212). -/
noncomputable def ContinuousCE.makeAce (a : TslAce) (unitBased : Bool) : Res ContinuousCE := do
  if a.nxs 6 ≠ 2 then .error .exc
  else do
    let s ← locator (a.jxs 0)
    let ne ← natAt a.xss s
    let es ← xssSlice a.xss (s + 1) ne
    if isSorted es = false then .error .exc
    else do
      let nmu := asU32 (a.nxs 2 - 1)
      let i ← locator (a.jxs 2)
      let locs ← natSlice a.xss i ne
      let noes ← natSlice a.xss (i + ne) ne
      let ts ← readCEDCs a.xss nmu (locs.zip noes)
      return ⟨es, ts, nmu, unitBased⟩

open Classical in
/-- `CEDCTable::sample_energy(xi, j)` (src/continuous_energy_discrete_cosines.cpp:378-410): energy and `j`. -/
noncomputable def CEDCTable.sampleEnergy (t : CEDCTable) (xi : ℝ) : Res (ℝ × Nat) := do
  let it := lowerBound t.cdf xi
  let l ← (if it = 0 then .ok 0 else if it = t.cdf.length then subIdx t.energy.length 2 else subIdx it 1 : Res Nat)
  let p0 ← getAt t.pdf l
  let p1 ← getAt t.pdf (l + 1)
  let v0 ← getAt t.energy l
  let c0 ← getAt t.cdf l
  let v1 ← getAt t.energy (l + 1)
  let e ← (if p0 = p1 then histInterp xi v0 p0 c0 else linInterp xi v0 v1 p0 p1 c0 : Res ℝ)
  return (e, l)

/-- The cosine, once the table and the interval `j` of outgoing energies are known (src/continuous_energy_discrete_cosines.cpp:273-300,
346-373). -/
noncomputable def CEDCTable.sampleMu (t : CEDCTable) (nmu j : Nat) (xi r1 r2 : ℝ) : Res ℝ := do
  let k := ⌊(nmu : ℝ) * r1⌋₊
  let c0 ← getAt t.cdf j
  let c1 ← getAt t.cdf (j + 1)
  let f ← rdiv (xi - c0) (c1 - c0)
  let u ← getAt t.cosines j
  let v ← getAt t.cosines (j + 1)
  let mu ← smear u v f nmu k r2
  return clampMu mu

open Classical in
/-- `sample_with_unit_based_interpolation` (src/continuous_energy_discrete_cosines.cpp:222-303). -/
noncomputable def ContinuousCE.sampleUnit (d : ContinuousCE) (E : ℝ) (ω : Tape) (k : Nat) : Res (ℝ × ℝ × Nat) := do
  let (l, f) ← bracketIn d.energy E
  let t0 ← getAt d.tables l
  let t1 ← getAt d.tables (l + 1)
  let a0 ← front t0.energy
  let b0 ← back t0.energy
  let a1 ← front t1.energy
  let b1 ← back t1.energy
  let Emin := a0 + f * (a1 - a0)
  let Emax := b0 + f * (b1 - b0)
  let xi := ω k
  let (t, a, b) := if ω (k + 1) > f then (t0, a0, b0) else (t1, a1, b1)
  let (Eh, j) ← t.sampleEnergy xi
  let q ← rdiv (Eh - a) (b - a)
  let mu ← t.sampleMu d.nmu j xi (ω (k + 2)) (ω (k + 3))
  return (mu, Emin + q * (Emax - Emin), k + 4)

open Classical in
/-- `sample_without_unit_based_interpolation` (src/continuous_energy_discrete_cosines.cpp:305-376). -/
noncomputable def ContinuousCE.samplePlain (d : ContinuousCE) (E : ℝ) (ω : Tape) (k : Nat) : Res (ℝ × ℝ × Nat) := do
  let (l, f) ← bracketIn d.energy E
  let i := if f > 1 / 2 then l + 1 else l
  let t ← getAt d.tables i
  let (Eo, j) ← t.sampleEnergy (ω k)
  let Ei ← getAt d.energy i
  let Eout ← (if Eo < 1 / 2 * Ei then do
      let q ← rdiv (2 * E) Ei
      return Eo * (q - 1)
    else .ok (Eo + (E - Ei)) : Res ℝ)
  let mu ← t.sampleMu d.nmu j (ω k) (ω (k + 1)) (ω (k + 2))
  return (mu, Eout, k + 3)

/-- `sample_angle_energy` (src/continuous_energy_discrete_cosines.cpp:214-220). -/
noncomputable def ContinuousCE.sample (d : ContinuousCE) (E : ℝ) (ω : Tape) (k : Nat) : Res (ℝ × ℝ × Nat) :=
  if d.unitBased = false then d.samplePlain E ω k else d.sampleUnit E ω k

/-! ### Incoherent inelastic and the container -/

/-- The distribution behind `STIncoherentInelastic::angle_energy_`. -/
inductive InelDist where
  | discrete (d : DiscreteCE)
  | continuous (d : ContinuousCE)

/-- `STIncoherentInelastic::sample_angle_energy(E_in, rng)` (st_incoherent_inelastic.hpp:56-59): that of the distribution. -/
noncomputable def InelDist.sample (d : InelDist) (E : ℝ) (ω : Tape) (k : Nat) : Res (ℝ × ℝ × Nat) :=
  match d with
  | .discrete d => d.sample E ω k
  | .continuous d => d.sample E ω k

/-- `class STIncoherentInelastic` (st_incoherent_inelastic.hpp:86-88). -/
structure IncInelastic where
  xs : Tab1D
  dist : InelDist

/-- `STIncoherentInelastic(ace, unit_based_interpolation)` (src/st_incoherent_inelastic.cpp:30-65). -/
noncomputable def IncInelastic.makeAce (a : TslAce) (unitBased : Bool) : Res IncInelastic := do
  let s ← locator (a.jxs 0)
  let ne ← natAt a.xss s
  let es ← xssSlice a.xss (s + 1) ne
  let xs ← xssSlice a.xss (s + 1 + ne) ne
  let t ← Tab1D.make1 .linLin es xs
  if a.nxs 6 = 0 ∨ a.nxs 6 = 1 then do
    let d ← DiscreteCE.makeAce a
    return ⟨t, .discrete d⟩
  else if a.nxs 6 = 2 then do
    let d ← ContinuousCE.makeAce a unitBased
    return ⟨t, .continuous d⟩
  else .error .exc

/-- `class STThermalScatteringLaw` (st_thermal_scattering_law.hpp:119-128), without zaid, AWR and temperature. -/
structure ThermalLaw where
  hasCoherent : Bool
  hasIncoherent : Bool
  coherent : CohElastic
  incoherent : IncElastic
  inelastic : IncInelastic

/-- `STThermalScatteringLaw(ace, unit_based_interpolation)` (src/st_thermal_scattering_law.cpp:29-85). -/
noncomputable def ThermalLaw.makeAce (a : TslAce) (unitBased : Bool) : Res ThermalLaw := do
  let ii ← IncInelastic.makeAce a unitBased
  if a.jxs 3 ≠ 0 then
    if a.nxs 4 = 4 then do
      let ce ← CohElastic.makeAce a
      let ie ← IncElastic.makeAce a
      return ⟨true, false, ce, ie, ii⟩
    else do
      let ie ← IncElastic.makeAce a
      let ce ← CohElastic.makeAce a
      return ⟨false, true, ce, ie, ii⟩
  else do
    let ie ← IncElastic.makeAce a
    let ce ← CohElastic.makeAce a
    return ⟨false, false, ce, ie, ii⟩

/-- `xs(E)` (st_thermal_scattering_law.hpp:112-117). -/
noncomputable def ThermalLaw.xs (t : ThermalLaw) (E : ℝ) : Res ℝ := do
  let ii ← t.inelastic.xs.eval E
  let ie ← t.incoherent.xs.eval E
  let ce ← t.coherent.xs E
  return ii + ie + ce

/-- `max_energy()` (st_thermal_scattering_law.hpp:74, st_incoherent_inelastic.hpp:74). -/
def ThermalLaw.maxEnergy (t : ThermalLaw) : Res ℝ := back t.inelastic.xs.x

end PNDL
