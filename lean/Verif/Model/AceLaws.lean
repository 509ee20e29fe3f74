import Verif.Model.Angle
import Verif.Model.Energy
import Verif.Model.Kalbach
import Verif.Model.CMDist
import Verif.Model.Fission

/-! The constructors that read secondary distributions out of an ACE file, and the assembly of a reaction from them. -/
namespace PNDL

open Classical in
/-- `ace.xss<int>(i)` (ace.hpp:140-143): truncation towards zero.  Simplification: entries outside the range of `int` (undefined for the cast)
are kept. -/
noncomputable def intAt (xss : List ℝ) (i : Nat) : Res Int := do
  let v ← getAt xss i
  return (if 0 ≤ v then ⌊v⌋ else ⌈v⌉)

/-! ### Angular distributions -/

/-- `EquiprobableAngleBins(ace, i)` (src/equiprobable_angle_bins.cpp:30-54): 33 numbers, then the tests that the other constructor makes. -/
noncomputable def binsAce (xss : List ℝ) (i : Nat) : Res (List ℝ) := do
  let b ← xssSlice xss i 33
  binsMake b

/-- `AngleTable(ace, i)` (src/angle_table.cpp:31-47). -/
noncomputable def angleTableAce (xss : List ℝ) (i : Nat) : Res PCTable := do
  let t ← PCTable.makeAce xss i 1
  angleTableMake t

/-- One round of the loop over the incident energies (src/angle_distribution.cpp:66-78): the sign of the locator tells the kind of table. -/
noncomputable def angleLawAce (xss : List ℝ) (andB : Nat) (l : Int) : Res AngleLaw :=
  if 0 < l then do
    let loc ← subIdx (andB + l.natAbs) 1
    let b ← binsAce xss loc
    return .bins b
  else if l < 0 then do
    let loc ← subIdx (andB + l.natAbs) 1
    let t ← angleTableAce xss loc
    return .table t
  else .ok .isotropic

/-- The loop itself (src/angle_distribution.cpp:66-89); `n` locators remain, the next at index `k`. -/
noncomputable def angleLawsAce (xss : List ℝ) (andB : Nat) : Nat → Nat → Res (List AngleLaw)
  | 0, _ => .ok []
  | n + 1, k => do
    let l ← intAt xss k
    let a ← angleLawAce xss andB l
    let as ← angleLawsAce xss andB n (k + 1)
    return a :: as

/-- `AngleDistribution(ace, locb)` (src/angle_distribution.cpp:43-98); `andB` is `ace.AND()`. -/
noncomputable def AngleDist.makeAce (xss : List ℝ) (andB : Nat) (locb : Int) : Res AngleDist :=
  if locb < 0 then .error .exc
  else if 0 < locb then do
    let i ← subIdx (andB + locb.toNat) 1
    let ne ← natAt xss i
    let es ← xssSlice xss (i + 1) ne
    if isSorted es = false then .error .exc
    else do
      let laws ← angleLawsAce xss andB ne (i + 1 + ne)
      return ⟨es, laws⟩
  else .ok ⟨[1 / 10 ^ 5], [.isotropic]⟩

/-! ### Energy laws -/

/-- The loop reading the bin sets (src/equiprobable_energy_bins.cpp:55-57): set number `j` begins at `k + j * net`. -/
noncomputable def binSetsAce (xss : List ℝ) (net k : Nat) : Nat → Nat → Res (List (List ℝ))
  | 0, _ => .ok []
  | n + 1, j => do
    let b ← xssSlice xss (k + j * net) net
    let bs ← binSetsAce xss net k n (j + 1)
    return b :: bs

/-- `EquiprobableEnergyBins(ace, i)` (src/equiprobable_energy_bins.cpp:31-69). -/
noncomputable def EnergyBins.makeAce (xss : List ℝ) (i : Nat) : Res EnergyBins := do
  let nr ← natAt xss i
  let ne ← natAt xss (i + 1 + 2 * nr)
  let es ← xssSlice xss (i + 2 + 2 * nr) ne
  if isSorted es = false then .error .exc
  else do
    let net ← natAt xss (i + 2 + 2 * nr + ne)
    let bs ← binSetsAce xss net (i + 3 + 2 * nr + ne) ne 0
    if bs.any (fun b => !isSorted b) then .error .exc else .ok ⟨es, bs⟩

open Classical in
/-- The search of `pdf_bins` (src/equiprobable_energy_bins.cpp:154-160) and of `GeneralEvaporation::pdf` (src/general_evaporation.cpp:104-110):
`n` rounds remain, `i` is the next bin; without a match `bin` stays 0. -/
noncomputable def energyBinSearch (bounds : List ℝ) (x : ℝ) : Nat → Nat → Res Nat
  | 0, _ => .ok 0
  | n + 1, i => do
    let lo ← getAt bounds i
    let hi ← getAt bounds (i + 1)
    if lo ≤ x ∧ hi ≥ x then .ok i else energyBinSearch bounds x n (i + 1)

open Classical in
/-- `pdf_bins(E_out, bounds)` (src/equiprobable_energy_bins.cpp:150-167).  The reads come first here, so that a set with one bound is an access out of range
and not a division by zero. -/
noncomputable def pdfBins (bounds : List ℝ) (x : ℝ) : Res ℝ := do
  let f ← front bounds
  let b ← back bounds
  if x < f ∨ x > b then .ok 0
  else do
    let bin ← energyBinSearch bounds x (bounds.length - 1) 0
    let lo ← getAt bounds bin
    let hi ← getAt bounds (bin + 1)
    let p ← rdiv 1 ((bounds.length - 1 : ℕ) : ℝ)
    rdiv p (hi - lo)

/-- `EquiprobableEnergyBins::pdf` (src/equiprobable_energy_bins.cpp:121-141). -/
noncomputable def EnergyBins.pdfAt (d : EnergyBins) (E Eout : ℝ) : Res ℝ := do
  let it := lowerBound d.energy E
  if it = 0 then do let b ← front d.bins; pdfBins b Eout
  else if it = d.energy.length then do let b ← back d.bins; pdfBins b Eout
  else do
    let l ← subIdx it 1
    let e0 ← getAt d.energy l
    let e1 ← getAt d.energy (l + 1)
    let f ← rdiv (E - e0) (e1 - e0)
    let b0 ← getAt d.bins l
    let p0 ← pdfBins b0 Eout
    let b1 ← getAt d.bins (l + 1)
    let p1 ← pdfBins b1 Eout
    return (1 - f) * p0 + f * p1

open Classical in
/-- `GeneralEvaporation::pdf` (src/general_evaporation.cpp:97-118). -/
noncomputable def genEvapPdf (temp : Tab1D) (bounds : List ℝ) (E Eout : ℝ) : Res ℝ := do
  let T ← temp.eval E
  let chi ← rdiv Eout T
  let f ← front bounds
  let b ← back bounds
  if chi < f ∨ chi > b then .ok 0
  else do
    let bin ← energyBinSearch bounds chi (bounds.length - 1) 0
    let lo ← getAt bounds bin
    let hi ← getAt bounds (bin + 1)
    let p ← rdiv 1 ((bounds.length - 1 : ℕ) : ℝ)
    rdiv p ((hi - lo) * T)

/-- `class DiscretePhoton` (discrete_photon.hpp:121-124). -/
structure Photon where
  lp : Int
  A : ℝ
  Eg : ℝ

open Classical in
/-- `DiscretePhoton(l, E, AWR)` (discrete_photon.hpp:77-92). -/
noncomputable def Photon.make (l : Int) (E awr : ℝ) : Res Photon :=
  if l ≠ 0 ∧ l ≠ 1 ∧ l ≠ 2 then .error .exc
  else if E ≤ 0 then .error .exc
  else if awr ≤ 0 then .error .exc
  else .ok ⟨l, awr, E⟩

/-- `DiscretePhoton(ace, i)` (discrete_photon.hpp:46-70): the same tests on what is read. -/
noncomputable def Photon.makeAce (xss : List ℝ) (awr : ℝ) (i : Nat) : Res Photon := do
  let lp ← intAt xss i
  let eg ← getAt xss (i + 1)
  Photon.make lp eg awr

/-- `sample_energy` (discrete_photon.hpp:96-100): nothing is drawn. -/
noncomputable def Photon.sample (p : Photon) (E : ℝ) (k : Nat) : Res (ℝ × Nat) :=
  if p.lp = 0 ∨ p.lp = 1 then .ok (p.Eg, k)
  else do
    let q ← rdiv p.A (p.A + 1)
    return (p.Eg + q * E, k)

/-- The loop reading the tables of `TabularEnergy(ace, i, JED)` (src/tabular_energy.cpp:41-56). -/
noncomputable def tablesAce {T : Type} (mk : Nat → Res T) (xss : List ℝ) (base : Nat) : Nat → Nat → Res (List T)
  | 0, _ => .ok []
  | n + 1, k => do
    let l ← natAt xss k
    let loc ← subIdx (base + l) 1
    let t ← mk loc
    let ts ← tablesAce mk xss base n (k + 1)
    return t :: ts

/-- `TabularEnergy(ace, i, JED)` (src/tabular_energy.cpp:27-57): the incoming energies are not tested. -/
noncomputable def TabEnergy.makeAce (xss : List ℝ) (i jed : Nat) : Res TabEnergy := do
  let nr ← natAt xss i
  let ne ← natAt xss (i + 1 + 2 * nr)
  let es ← xssSlice xss (i + 2 + 2 * nr) ne
  let ts ← tablesAce (fun loc => PCTable.makeAce xss loc 1) xss jed ne (i + 2 + 2 * nr + ne)
  return ⟨es, ts⟩

/-! ### Correlated laws -/

/-- `Kalbach(ace, i)` (src/kalbach.cpp:28-64); `dlw` is `ace.DLW()`. -/
noncomputable def Kalbach.makeAce (xss : List ℝ) (dlw i : Nat) : Res Kalbach := do
  let nr ← natAt xss i
  let ne ← natAt xss (i + 1 + 2 * nr)
  let es ← xssSlice xss (i + 2 + 2 * nr) ne
  if isSorted es = false then .error .exc
  else do
    let ts ← tablesAce (fun loc => KalbachTable.makeAce xss loc) xss dlw ne (i + 2 + 2 * nr + ne)
    return ⟨es, ts⟩

/-- `TabularEnergyAngle(ace, i, JED)` (src/tabular_energy_angle.cpp:27-65). -/
noncomputable def TabEnergyAngle.makeAce (xss : List ℝ) (dlw i jed : Nat) : Res TabEnergyAngle := do
  let nr ← natAt xss i
  let ne ← natAt xss (i + 1 + 2 * nr)
  let es ← xssSlice xss (i + 2 + 2 * nr) ne
  if isSorted es = false then .error .exc
  else do
    let ts ← tablesAce (fun loc => EATable.makeAce xss loc jed) xss dlw ne (i + 2 + 2 * nr + ne)
    return ⟨es, ts⟩

/-- `NBody(ace, i, iQ)` (src/nbody.cpp:31-58): the same tests on what is read. -/
noncomputable def NBody.makeAce (xss : List ℝ) (awr : ℝ) (i : Nat) (q : ℝ) : Res NBody := do
  let n ← natAt xss i
  let ap ← getAt xss (i + 1)
  NBody.make n ap awr q

/-! ### The objects a reaction is made of -/

/-- The classes derived from `EnergyLaw` that an ACE file can give (src/reaction_base.cpp:221-251). -/
inductive ELaw where
  | bins (d : EnergyBins)
  | photon (p : Photon)
  | level (l : Level)
  | tabular (d : TabEnergy)
  | genEvap (t : Tab1D) (bounds : List ℝ)
  | maxwell (t : Tab1D) (u : ℝ)
  | evap (t : Tab1D) (u : ℝ)
  | watt (a b : Tab1D) (u : ℝ)

/-- The virtual call `sample_energy` (energy_law.hpp); `fuel` bounds the rejection loops. -/
noncomputable def ELaw.sample (fuel : Nat) (l : ELaw) (E : ℝ) (ω : Tape) (k : Nat) : Res (ℝ × Nat) :=
  match l with
  | .bins d => d.sample false E ω k
  | .photon p => p.sample E k
  | .level l => l.sample E k
  | .tabular d => d.sample E ω k
  | .genEvap t b => genEvapSample t b E ω k
  | .maxwell t u => maxwellSample t u fuel E ω k
  | .evap t u => evapSample t u fuel E ω k
  | .watt a b u => wattSample a b u fuel E ω k

/-- The virtual call `pdf` (energy_law.hpp); `none` for discrete laws (discrete_photon.hpp:102-105, src/level_inelastic_scatter.cpp:52-55). -/
noncomputable def ELaw.pdf (l : ELaw) (E Eout : ℝ) : Res (Option ℝ) :=
  match l with
  | .bins d => (d.pdfAt E Eout).map some
  | .photon _ => .ok none
  | .level _ => .ok none
  | .tabular d => (d.pdfAt E Eout).map some
  | .genEvap t b => (genEvapPdf t b E Eout).map some
  | .maxwell t u => (maxwellPdf t u E Eout).map some
  | .evap t u => (evapPdf t u E Eout).map some
  | .watt a b u => (wattPdf a b u E Eout).map some

/-- `class Uncorrelated` (uncorrelated.hpp). -/
structure Uncorr where
  angle : AngleDist
  energy : ELaw

/-- `Uncorrelated(angle, energy)` (src/uncorrelated.cpp:28-35); `none` is a null pointer. -/
def Uncorr.make (angle : AngleDist) (energy : Option ELaw) : Res Uncorr :=
  match energy with
  | none => .error .exc
  | some e => .ok ⟨angle, e⟩

/-- `sample_angle_energy` (src/uncorrelated.cpp:37-42). -/
noncomputable def Uncorr.sample (fuel : Nat) (u : Uncorr) (E : ℝ) (ω : Tape) (k : Nat) : Res (ℝ × ℝ × Nat) := do
  let (mu, k') ← u.angle.sample fuel E ω k
  let (e, k'') ← u.energy.sample fuel E ω k'
  return (mu, e, k'')

/-- `angle_pdf` (src/uncorrelated.cpp:44-46). -/
noncomputable def Uncorr.anglePdf (u : Uncorr) (E mu : ℝ) : Res (Option ℝ) := (u.angle.pdf E mu).map some

/-- `pdf` (src/uncorrelated.cpp:48-61). -/
noncomputable def Uncorr.pdf (u : Uncorr) (E mu Eout : ℝ) : Res (Option ℝ) := do
  let o ← u.energy.pdf E Eout
  match o with
  | none => return none
  | some p => do
    let a ← u.angle.pdf E mu
    return some (p * a)

/-- What one law of a reaction can be (src/reaction_base.cpp:219-275). -/
inductive Law where
  | uncorrelated (u : Uncorr)
  | kalbach (d : Kalbach)
  | tabEnergyAngle (d : TabEnergyAngle)
  | nbody (d : NBody)

/-- The law as an `AngleEnergy`. -/
noncomputable def Law.toAE (fuel : Nat) : Law → AE
  | .uncorrelated u => ⟨u.sample fuel, u.anglePdf, u.pdf⟩
  | .kalbach d => ⟨d.sample, fun E mu => (d.anglePdf E mu).map some, fun E mu Eo => (d.pdfAt E mu Eo).map some⟩
  | .tabEnergyAngle d => ⟨d.sample, fun E mu => (d.anglePdf E mu).map some, fun E mu Eo => (d.pdfAt E mu Eo).map some⟩
  | .nbody d => ⟨d.sample, fun _ _ => .ok (some 0.5), fun E _ Eo => (d.pdf E Eo).map some⟩

/-- Where a file keeps its blocks: the accessors `ace.MTR()`, `LQR()`, `TYR()`, `LAND()`, `AND()`, `LDLW()`, `DLW()` and `awr()`
(ace.hpp:239-279), and the XSS array. -/
structure AceBlocks where
  xss : List ℝ
  awr : ℝ
  mtr : Nat
  lqr : Nat
  tyr : Nat
  land : Nat
  andB : Nat
  ldlw : Nat
  dlw : Nat

/-- An energy law of an uncorrelated reaction (src/reaction_base.cpp:221-251); the numbers that need an angular distribution. -/
noncomputable def energyLawAce (a : AceBlocks) (law : Int) (j : Nat) : Option (Res ELaw) :=
  if law = 1 then some ((EnergyBins.makeAce a.xss j).map .bins)
  else if law = 2 then some ((Photon.makeAce a.xss a.awr j).map .photon)
  else if law = 3 then some ((levelAce a.xss j).map (fun p => .level ⟨p.1, p.2⟩))
  else if law = 4 then some ((TabEnergy.makeAce a.xss j a.dlw).map .tabular)
  else if law = 5 then some ((genEvapAce a.xss j).map (fun p => .genEvap p.1 p.2))
  else if law = 7 then some ((tempAce a.xss j).map (fun p => .maxwell p.1 p.2))
  else if law = 9 then some ((tempAce a.xss j).map (fun p => .evap p.1 p.2))
  else if law = 11 then some ((wattAce a.xss j).map (fun p => .watt p.1 p.2.1 p.2.2))
  else none

/-- The chain of tests on the law number (src/reaction_base.cpp:219-275); `angle` is the angular distribution, if there is one. -/
noncomputable def lawAce (a : AceBlocks) (q : ℝ) (angle : Option AngleDist) (law : Int) (j : Nat) : Res Law :=
  match energyLawAce a law j, angle with
  | some e, some ang => do
    let e ← e
    let u ← Uncorr.make ang (some e)
    return .uncorrelated u
  | some _, none => .error .exc
  | none, _ =>
    if law = 44 then (Kalbach.makeAce a.xss a.dlw j).map .kalbach
    else if law = 61 then (TabEnergyAngle.makeAce a.xss a.dlw j a.dlw).map .tabEnergyAngle
    else if law = 66 then (NBody.makeAce a.xss a.awr j q).map .nbody
    else .error .exc

/-- The loop over the laws (src/reaction_base.cpp:189-283) with at most `fuel` rounds. -/
noncomputable def lawsAce (a : AceBlocks) (q : ℝ) (angle : Option AngleDist) : Nat → Nat → Res (List (Law × Tab1D))
  | 0, _ => .error .diverge
  | fuel + 1, i => do
    let lnw ← natAt a.xss i
    let law ← intAt a.xss (i + 1)
    let idat ← natAt a.xss (i + 2)
    let j ← subIdx (a.dlw + idat) 1
    let (p, _) ← readTabB a.xss (i + 3)
    let d ← lawAce a q angle law j
    if lnw = 0 then return [(d, p)]
    else do
      let i' ← subIdx (a.dlw + lnw) 1
      let rest ← lawsAce a q angle fuel i'
      return (d, p) :: rest

/-- `load_neutron_distributions` (src/reaction_base.cpp:162-284). -/
noncomputable def loadAce (a : AceBlocks) (q : ℝ) (indx fuel : Nat) : Res (List (Law × Tab1D)) := do
  let locb ← intAt a.xss (a.land + indx + 1)
  let angle ← (if 0 ≤ locb then do let d ← AngleDist.makeAce a.xss a.andB locb; return some d else .ok none : Res (Option AngleDist))
  let locc ← natAt a.xss (a.ldlw + indx)
  let i ← subIdx (a.dlw + locc) 1
  lawsAce a q angle fuel i

/-- The distribution of a reaction: absorption, a law, or several (src/reaction_base.cpp:104-137). -/
inductive NDist where
  | absorption (mt : Nat)
  | one (l : Law)
  | several (ls : List (Law × Tab1D))
  | cm (awr q : ℝ) (d : NDist)

/-- The members of `ReactionBase` that the file determines (reaction_base.hpp:90-95); the threshold is set by the daughter class. -/
structure RxnBase where
  mt : Nat
  q : ℝ
  awr : ℝ
  yield : Fn1D
  dist : NDist

open Classical in
/-- `ReactionBase(ace, indx)` (src/reaction_base.cpp:49-138).  `CMDistribution` (cm_distribution.hpp) and the pointer tests of
`MultipleDistribution` cannot fail here. -/
noncomputable def RxnBase.makeAce (a : AceBlocks) (indx fuel : Nat) : Res RxnBase := do
  let mt ← natAt a.xss (a.mtr + indx)
  let q ← getAt a.xss (a.lqr + indx)
  let tyr ← getAt a.xss (a.tyr + indx)
  let yield ← readYield a.xss a.dlw tyr
  if |tyr| ≠ 0 then do
    let ls ← loadAce a q indx fuel
    let d ← (match ls with
      | [] => .error .ub
      | [l] => .ok (.one l.1)
      | ls => .ok (.several ls) : Res NDist)
    return ⟨mt, q, a.awr, yield, if tyr < 0 then .cm a.awr q d else d⟩
  else return ⟨mt, q, a.awr, yield, .absorption mt⟩

/-- A reaction's distribution as an `AngleEnergy`; sampling an absorption throws (absorption.hpp:46-63). -/
noncomputable def NDist.toAE (fuel : Nat) : NDist → AE
  | .absorption _ => ⟨fun _ _ _ => .error .exc, fun _ _ => .ok none, fun _ _ _ => .ok none⟩
  | .one l => l.toAE fuel
  | .several ls =>
    let m : Multi := ⟨ls.map (fun p => p.1.toAE fuel), ls.map Prod.snd⟩
    ⟨m.sample, m.anglePdf, m.pdf⟩
  | .cm awr q d =>
    let c : CMDist := ⟨awr, q, d.toAE fuel⟩
    ⟨c.sample, c.anglePdf, c.pdf⟩

open Classical in
/-- `sample_neutron_angle_energy` (reaction_base.hpp:75-80). -/
noncomputable def RxnBase.sample (r : RxnBase) (threshold : ℝ) (fuel : Nat) (E : ℝ) (ω : Tape) (k : Nat) : Res (ℝ × ℝ × Nat) :=
  if E < threshold then .ok (0, 0, k) else (r.dist.toAE fuel).sample E ω k

open Classical in
/-- The tests of the other constructor of `ReactionBase` (src/reaction_base.cpp:140-160). -/
noncomputable def RxnBase.checkArgs (awr threshold : ℝ) : Res Unit :=
  if threshold < 0 then .error .exc
  else if awr ≤ 0 then .error .exc
  else .ok ()

end PNDL
