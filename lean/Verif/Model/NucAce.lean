import Verif.Model.AceLaws
import Verif.Model.URR
import Verif.Model.Elastic
import Verif.Model.Mixture

/-! `STNeutron(ace)` as a whole (src/st_neutron.cpp, src/fission.cpp, src/reaction.cpp, src/energy_grid.cpp): every member read from the
arrays of the file.  `Model/STNeutron.lean` models the same constructors on the contents of the file; the two are related in
`Props/NucAce.lean`. -/
namespace PNDL

/-- What the constructors ask of an `ACE` object besides `AceBlocks`: `fissile()`, `temperature()`, the block positions `ESZ()`, `LSIG()`,
`SIG()`, `DNEDL()`, `DNED()` and the entries `nxs(2)`, `nxs(3)`, `nxs(7)`, `jxs(1)`, `jxs(23)`, `jxs(24)` (ace.hpp:225-310).  `gpd` and
`lunr` are `none` if `jxs(11)`, `jxs(22)` are zero, else the positions.  Simplification: block positions are not negative. -/
structure AceFile extends AceBlocks where
  fissile : Bool
  temperature : ℝ
  esz : Nat
  ne : Nat
  nmt : Nat
  lsig : Nat
  sig : Nat
  gpd : Option Nat
  lunr : Option Nat
  nu : Int
  dnu : Int
  bdd : Int
  dnedl : Nat
  dned : Nat
  ngrps : Nat

/-- `EnergyGrid(ace)` (src/energy_grid.cpp:28-63): the grid hashed into 8192 bins (energy_grid.hpp:53), and `urr_min_energy`, read at
`URN + 6` if there is such a block, else 50000. -/
noncomputable def EGrid.readAce (f : AceFile) : Res (EGrid × ℝ) := do
  let es ← xssSlice f.xss f.esz f.ne
  let u ← (match f.lunr with
    | some l => getAt f.xss (l + 6)
    | none => .ok 50000 : Res ℝ)
  let g ← EGrid.makeAce es 8192
  return (g, u)

/-- `CrossSection(ace, i, E_grid, false, is_heating)` (src/cross_section.cpp:30-62): `NE` values at `i`, start index 0. -/
noncomputable def XS.readPlain (f : AceFile) (grid : List ℝ) (i : Nat) (heating : Bool) : Res (XS ℝ) := do
  let vs ← xssSlice f.xss i f.ne
  XS.makeAce vs grid 0 heating

/-- `CrossSection(ace, i, E_grid)` (src/cross_section.cpp:30-62): start index and number of values first.  `- 1` in `uint32_t`. -/
noncomputable def XS.readIndexed (f : AceFile) (grid : List ℝ) (i : Nat) : Res (XS ℝ) := do
  let ie ← natAt f.xss i
  let n ← natAt f.xss (i + 1)
  let vs ← xssSlice f.xss (i + 2) n
  XS.makeAce vs grid (if ie = 0 then 2 ^ 32 - 1 else ie - 1) false

/-- `Reaction<CrossSection>` (reaction.hpp, reaction_base.hpp:90-95). -/
structure STRxn where
  base : RxnBase
  threshold : ℝ
  xs : XS ℝ

/-- The part common to both constructors (src/reaction.cpp:37-42, 62-67). -/
noncomputable def STRxn.make (f : AceFile) (grid : List ℝ) (indx : Nat) (base : RxnBase) : Res STRxn := do
  let loca ← natAt f.xss (f.lsig + indx)
  let i ← subIdx (f.sig + loca) 1
  let s ← XS.readIndexed f grid i
  let t ← getAt grid s.index
  return ⟨base, t, s⟩

/-- `Reaction(ace, indx, egrid)` (src/reaction.cpp:34-49). -/
noncomputable def STRxn.fromAce (f : AceFile) (fuel : Nat) (grid : List ℝ) (indx : Nat) : Res STRxn := do
  let b ← RxnBase.makeAce f.toAceBlocks indx fuel
  STRxn.make f grid indx b

/-- `Reaction(ace, indx, egrid, reac)` (src/reaction.cpp:51-74); the comparison of the MTs never fails. -/
noncomputable def STRxn.fromOther (f : AceFile) (grid : List ℝ) (indx : Nat) (reac : STRxn) : Res STRxn :=
  STRxn.make f grid indx reac.base

/-- What `prompt_spectrum_` can be (src/fission.cpp:176-188). -/
inductive Prompt where
  | absorption
  | mt18 (d : NDist)
  | summed (m19 m20 m21 m38 : STRxn)

/-- `class Fission` (fission.hpp:150-161), without the ZAID. -/
structure Fission where
  nu : Nu
  m18 : Option STRxn
  m19 : Option STRxn
  m20 : Option STRxn
  m21 : Option STRxn
  m38 : Option STRxn
  spectrum : Prompt
  families : List (Family ELaw)
  mts : List Nat

/-- The energy law of a delayed family (src/delayed_family.cpp:78-103): fewer laws than for a reaction; `dned` is `ace.DNED()`. -/
noncomputable def familyLawAce (xss : List ℝ) (dned : Nat) (law : Int) (j : Nat) : Res ELaw :=
  if law = 1 then (EnergyBins.makeAce xss j).map .bins
  else if law = 4 then (TabEnergy.makeAce xss j dned).map .tabular
  else if law = 5 then (genEvapAce xss j).map (fun p => .genEvap p.1 p.2)
  else if law = 7 then (tempAce xss j).map (fun p => .maxwell p.1 p.2)
  else if law = 9 then (tempAce xss j).map (fun p => .evap p.1 p.2)
  else if law = 11 then (wattAce xss j).map (fun p => .watt p.1 p.2.1 p.2.2)
  else .error .exc

/-- `mt18_` … `mt38_` and `mt_list_` during the loop (src/fission.cpp:145-169). -/
structure FisState where
  m18 : Option STRxn
  m19 : Option STRxn
  m20 : Option STRxn
  m21 : Option STRxn
  m38 : Option STRxn
  mts : List Nat

/-- Storing a reaction and its MT (src/fission.cpp:152-167). -/
def FisState.put (s : FisState) (mt : Nat) (r : STRxn) : FisState :=
  if mt = 18 then { s with m18 := some r, mts := s.mts ++ [18] }
  else if mt = 19 then { s with m19 := some r, mts := s.mts ++ [19] }
  else if mt = 20 then { s with m20 := some r, mts := s.mts ++ [20] }
  else if mt = 21 then { s with m21 := some r, mts := s.mts ++ [21] }
  else { s with m38 := some r, mts := s.mts ++ [38] }

/-- The stored reaction for an MT. -/
def FisState.get (s : FisState) (mt : Nat) : Option STRxn :=
  if mt = 18 then s.m18 else if mt = 19 then s.m19 else if mt = 20 then s.m20 else if mt = 21 then s.m21 else if mt = 38 then s.m38 else none

/-- One turn of the loop (src/fission.cpp:148-168); `mk mt indx` makes the reaction. -/
noncomputable def FisState.step (f : AceFile) (mk : Nat → Nat → Res STRxn) (s : FisState) (indx : Nat) : Res FisState := do
  let mt ← natAt f.xss (f.mtr + indx)
  if isFisMT mt then do
    let r ← mk mt indx
    return s.put mt r
  else return s

/-- The prompt spectrum (src/fission.cpp:176-192, 249-265, src/summed_fission_spectrum.cpp:30-47). -/
def FisState.prompt (s : FisState) : Res Prompt :=
  match s.m18 with
  | some r => .ok (.mt18 r.base.dist)
  | none =>
    if s.m19.isSome || s.m20.isSome || s.m21.isSome || s.m38.isSome then
      match s.m19, s.m20, s.m21, s.m38 with
      | some a, some b, some c, some d => .ok (.summed a b c d)
      | _, _, _, _ => .error .exc
    else .ok .absorption

/-- `Fission(ace, energy_grid)` (src/fission.cpp:37-194). -/
noncomputable def Fission.makeAce (f : AceFile) (fuel : Nat) (grid : List ℝ) : Res Fission := do
  let nu ← Nu.make f.fissile f.xss f.nu f.dnu
  if f.fissile = false then return ⟨nu, none, none, none, none, none, .absorption, [], []⟩
  else do
    let fam ← PNDL.families (familyLawAce f.xss f.dned) f.xss f.bdd f.dnedl f.dned f.ngrps
    let s ← (List.range f.nmt).foldlM (FisState.step f (fun _ i => STRxn.fromAce f fuel grid i)) ⟨none, none, none, none, none, []⟩
    let p ← s.prompt
    return ⟨nu, s.m18, s.m19, s.m20, s.m21, s.m38, p, fam, s.mts⟩

/-- `Fission(ace, energy_grid, fission)` (src/fission.cpp:196-267). -/
noncomputable def Fission.makeShared (f : AceFile) (grid : List ℝ) (o : Fission) : Res Fission := do
  if f.fissile = false then return ⟨o.nu, none, none, none, none, none, o.spectrum, o.families, []⟩
  else do
    let os : FisState := ⟨o.m18, o.m19, o.m20, o.m21, o.m38, []⟩
    let s ← (List.range f.nmt).foldlM (FisState.step f (fun mt i => do let r ← deref (os.get mt); STRxn.fromOther f grid i r))
      ⟨none, none, none, none, none, []⟩
    let p ← s.prompt
    return ⟨o.nu, s.m18, s.m19, s.m20, s.m21, s.m38, p, o.families, s.mts⟩

/-- `Fission::has_reaction` (fission.hpp:107-120). -/
def Fission.has (f : Fission) (mt : Nat) : Bool := (FisState.get ⟨f.m18, f.m19, f.m20, f.m21, f.m38, []⟩ mt).isSome

/-- `Fission::reaction` (fission.hpp:129-147). -/
def Fission.reaction (f : Fission) (mt : Nat) : Res STRxn :=
  match FisState.get ⟨f.m18, f.m19, f.m20, f.m21, f.m38, []⟩ mt with
  | some r => .ok r
  | none => .error .exc

/-- The members of a reaction that `compute_fission_xs` and `URRPTables` look at. -/
def STRxn.forget (r : STRxn) : Rxn ℝ := ⟨r.base.mt, r.threshold, r.xs, 0⟩

/-- The fission reactions as `compute_fission_xs` sees them (src/st_neutron.cpp:237-294). -/
def Fission.forget (f : Fission) : Fis ℝ :=
  ⟨f.m18.map STRxn.forget, f.m19.map STRxn.forget, f.m20.map STRxn.forget, f.m21.map STRxn.forget, f.m38.map STRxn.forget, f.mts⟩

/-- `class STNeutron` (st_neutron.hpp:218-237), without the ZAID. -/
structure Nuc where
  awr : ℝ
  fissile : Bool
  temperature : ℝ
  grid : EGrid
  urrMin : ℝ
  total : XS ℝ
  disap : XS ℝ
  elasticXS : XS ℝ
  heating : XS ℝ
  fissionXS : XS ℝ
  photon : XS ℝ
  elastic : Elastic
  fission : Fission
  urr : URR
  mts : List Nat
  idx : List Int
  rxns : List STRxn

/-- `mt_list_`, `reaction_indices_`, `reactions_` during the loop (src/st_neutron.cpp:72-85). -/
structure NucState where
  mts : List Nat
  idx : List Int
  rxns : List STRxn

/-- One turn of the loop (src/st_neutron.cpp:77-85, 181-191).  `reaction_indices_[MT]` beyond the 892 entries is undefined behaviour. -/
noncomputable def NucState.step (f : AceFile) (mk : Nat → Nat → Res STRxn) (s : NucState) (indx : Nat) : Res NucState := do
  let mt ← natAt f.xss (f.mtr + indx)
  if isFisMT mt then return s
  else do
    let r ← mk mt indx
    if mt < 892 then return ⟨s.mts ++ [mt], s.idx.set mt (s.rxns.length : Int), s.rxns ++ [r]⟩ else .error .ub

/-- The cross sections of the ESZ block and the photon production (src/st_neutron.cpp:52-69). -/
noncomputable def mainAce (f : AceFile) (grid : List ℝ) : Res (MainXS ℝ × XS ℝ) := do
  let t ← XS.readPlain f grid (f.esz + f.ne) false
  let d ← XS.readPlain f grid (f.esz + 2 * f.ne) false
  let e ← XS.readPlain f grid (f.esz + 3 * f.ne) false
  let h ← XS.readPlain f grid (f.esz + 4 * f.ne) true
  let g ← (match f.gpd with
    | some i => XS.readPlain f grid i false
    | none => XS.makeConst 0 grid : Res (XS ℝ))
  return (⟨t, d, e, h⟩, g)

/-- `has_reaction` for the MTs outside fission (st_neutron.hpp:135). -/
def hasIdx (idx : List Int) (mt : Nat) : Res Bool :=
  if mt > 891 then .ok false
  else do
    let i ← getAt idx mt
    return decide (¬ i < 0)

/-- `reactions_[reaction_indices_[mt]]` (st_neutron.hpp:154). -/
def rxnAt (idx : List Int) (rxns : List STRxn) (mt : Nat) : Res STRxn := do
  let i ← getAt idx mt
  getInt rxns i

/-- The capture cross section handed to `URRPTables` (src/st_neutron.cpp:112-118). -/
noncomputable def captureXS (grid : List ℝ) (idx : List Int) (rxns : List STRxn) : Res (XS ℝ) := do
  let h ← hasIdx idx 102
  if h = false then XS.makeConst 0 grid
  else do
    let r ← rxnAt idx rxns 102
    return r.xs

/-- `STNeutron(ace)` (src/st_neutron.cpp:30-132).  `fuel` bounds the chains of laws and the rejection loops of the elastic distribution. -/
noncomputable def Nuc.makeAce (f : AceFile) (fuel : Nat) : Res Nuc := do
  let (g, u) ← EGrid.readAce f
  let (m, ph) ← mainAce f g.energy
  let s ← (List.range f.nmt).foldlM (NucState.step f (fun _ i => STRxn.fromAce f fuel g.energy i)) ⟨[], List.replicate 892 (-1), []⟩
  let l0 ← intAt f.xss f.land
  let ad ← AngleDist.makeAce f.xss f.andB l0
  let el ← Elastic.make (some (svtSample fuel)) (ad.sample fuel) f.awr f.temperature true 400
  let fi ← Fission.makeAce f fuel g.energy
  let fx ← computeFission f.fissile g.energy fi.forget
  let cx ← captureXS g.energy s.idx s.rxns
  let ur ← URR.make f.xss f.lunr ⟨m.elastic, cx, fx, m.heating⟩ (s.rxns.map STRxn.forget)
  return ⟨f.awr, f.fissile, f.temperature, g, u, m.total, m.disap, m.elastic, m.heating, fx, ph, el, fi, ur,
    (s.mts ++ fi.mts).insertionSort (· ≤ ·), s.idx, s.rxns⟩

/-- `STNeutron(ace, nuclide)` (src/st_neutron.cpp:134-235): weight ratio, fissile flag, distributions, nu, families from `o`. -/
noncomputable def Nuc.makeShared (f : AceFile) (o : Nuc) : Res Nuc := do
  let (g, u) ← EGrid.readAce f
  let (m, ph) ← mainAce f g.energy
  let s ← (List.range f.nmt).foldlM (NucState.step f (fun mt i => do
      let k ← getAt o.idx mt
      let r ← getInt o.rxns k
      STRxn.fromOther f g.energy i r)) ⟨List.replicate f.nmt 0, List.replicate 892 (-1), []⟩
  let fi ← Fission.makeShared f g.energy o.fission
  let fx ← computeFission o.fissile g.energy fi.forget
  let cx ← captureXS g.energy s.idx s.rxns
  let ur ← URR.make f.xss f.lunr ⟨m.elastic, cx, fx, m.heating⟩ (s.rxns.map STRxn.forget)
  return ⟨o.awr, o.fissile, f.temperature, g, u, m.total, m.disap, m.elastic, m.heating, fx, ph,
    (o.elastic.step (.setTemperature f.temperature)).1, fi, ur, (s.mts ++ fi.mts).insertionSort (· ≤ ·), s.idx, s.rxns⟩

/-- `has_reaction` (st_neutron.hpp:131-137). -/
def Nuc.has (n : Nuc) (mt : Nat) : Res Bool := if isFisMT mt then .ok (n.fission.has mt) else hasIdx n.idx mt

/-- `reaction` (st_neutron.hpp:143-156). -/
def Nuc.reaction (n : Nuc) (mt : Nat) : Res STRxn := do
  let h ← n.has mt
  if h = false then .error .exc
  else if isFisMT mt then n.fission.reaction mt
  else rxnAt n.idx n.rxns mt

/-- `evaluate_xs(Ein, i)` (st_neutron.hpp:188-206). -/
noncomputable def Nuc.evaluate (n : Nuc) (E : ℝ) (i : Nat) : Res (XSPacket ℝ) := do
  let total ← n.total.evalIdx E i
  let elastic ← n.elasticXS.evalIdx E i
  let fission ← n.fissionXS.evalIdx E i
  let d ← n.disap.evalIdx E i
  let absorption := d + fission
  let heating ← n.heating.evalIdx E i
  let inel := total - elastic - absorption
  let inelastic := if inel < 0 then 0 else inel
  let h ← n.has 102
  let capture ← (if h then do let r ← n.reaction 102; r.xs.evalIdx E i else .ok 0)
  return { total, elastic, inelastic, absorption, fission, capture, heating }

/-- `evaluate_xs(Ein)` (st_neutron.hpp:212-215). -/
noncomputable def Nuc.evaluateE (n : Nuc) (E : ℝ) : Res (XSPacket ℝ) := do
  let i ← n.grid.lowerIndex E
  n.evaluate E i

end PNDL
