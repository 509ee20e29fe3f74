import Verif.Model.CrossSection
import Verif.Model.XSPacket
import Verif.Model.EnergyGrid
import Mathlib.Data.List.Sort

/-! `Reaction<CrossSection>` (src/reaction.cpp), the reaction bookkeeping of `Fission` (fission.hpp, src/fission.cpp) and `STNeutron`
(st_neutron.hpp, src/st_neutron.cpp).  The file is abstracted to what these constructors read from it: whether it is fissile, the energies,
the four main cross sections, and for each entry of the MTR block its MT, its cross section block and its secondary distributions.  Not
modelled here: the construction of the distributions (one opaque number stands for them), elastic scattering, photon production and the URR
tables (see `Model/URR.lean`). -/
namespace PNDL

variable {K : Type} [Field K] [LinearOrder K]

/-- One entry of the MTR block: MT (`uint32_t`), start index and values of its cross section (SIG block, src/cross_section.cpp:30-42), and an
opaque number for its secondary neutron distributions. -/
structure RxnIn (K : Type _) where
  mt : Nat
  idx : Nat
  values : List K
  dist : Nat

/-- `Reaction<CrossSection>` with the `mt_`, `threshold_` and distributions of `ReactionBase` (reaction.hpp:44-83). -/
structure Rxn (K : Type _) where
  mt : Nat
  threshold : K
  xs : XS K
  dist : Nat
  deriving DecidableEq

/-- The part common to both constructors (src/reaction.cpp:37-42, 62-67): `mt` and `dist` come from the file or from the other reaction.
`energy(0)` is `(*energy_grid_)[index_ + 0]` (cross_section.hpp:245). -/
def Rxn.make (grid : List K) (e : RxnIn K) (mt dist : Nat) : Res (Rxn K) := do
  let s ← XS.makeAce e.values grid e.idx false
  let t ← getAt grid s.index
  return ⟨mt, t, s, dist⟩

/-- `Reaction(ace, indx, egrid)` (src/reaction.cpp:34-49, src/reaction_base.cpp:57). -/
def Rxn.fromAce (grid : List K) (e : RxnIn K) : Res (Rxn K) := Rxn.make grid e e.mt e.dist

/-- `Reaction(ace, indx, egrid, reac)` (src/reaction.cpp:51-74): the base is copied from `reac` before `mt()` is compared with `reac.mt()`,
so the comparison never fails. -/
def Rxn.fromOther (grid : List K) (e : RxnIn K) (reac : Rxn K) : Res (Rxn K) := Rxn.make grid e reac.mt reac.dist

/-- `mt == 18 || mt == 19 || mt == 20 || mt == 21 || mt == 38` (st_neutron.hpp:132, 151, src/st_neutron.cpp:79, 183). -/
def isFisMT (mt : Nat) : Bool := mt == 18 || mt == 19 || mt == 20 || mt == 21 || mt == 38

/-- The reaction members of `class Fission` (fission.hpp:154-158, 161); `none` is a null pointer. -/
structure Fis (K : Type _) where
  m18 : Option (Rxn K)
  m19 : Option (Rxn K)
  m20 : Option (Rxn K)
  m21 : Option (Rxn K)
  m38 : Option (Rxn K)
  mts : List Nat

/-- No reactions (src/fission.cpp:42-49). -/
def Fis.none : Fis K := ⟨Option.none, Option.none, Option.none, Option.none, Option.none, []⟩

/-- One turn of the loop over the MTs (src/fission.cpp:149-168). -/
def Fis.step (grid : List K) (f : Fis K) (e : RxnIn K) : Res (Fis K) :=
  if e.mt = 18 then do let r ← Rxn.fromAce grid e; return { f with m18 := some r, mts := f.mts ++ [18] }
  else if e.mt = 19 then do let r ← Rxn.fromAce grid e; return { f with m19 := some r, mts := f.mts ++ [19] }
  else if e.mt = 20 then do let r ← Rxn.fromAce grid e; return { f with m20 := some r, mts := f.mts ++ [20] }
  else if e.mt = 21 then do let r ← Rxn.fromAce grid e; return { f with m21 := some r, mts := f.mts ++ [21] }
  else if e.mt = 38 then do let r ← Rxn.fromAce grid e; return { f with m38 := some r, mts := f.mts ++ [38] }
  else .ok f

/-- `*p` on a shared pointer: undefined behaviour when null. -/
def deref {α : Type _} : Option α → Res α
  | some a => .ok a
  | Option.none => .error .ub

/-- One turn of the loop of the sharing constructor (src/fission.cpp:217-241). -/
def Fis.stepShared (grid : List K) (b : Fis K) (f : Fis K) (e : RxnIn K) : Res (Fis K) :=
  if e.mt = 18 then do let o ← deref b.m18; let r ← Rxn.fromOther grid e o; return { f with m18 := some r, mts := f.mts ++ [18] }
  else if e.mt = 19 then do let o ← deref b.m19; let r ← Rxn.fromOther grid e o; return { f with m19 := some r, mts := f.mts ++ [19] }
  else if e.mt = 20 then do let o ← deref b.m20; let r ← Rxn.fromOther grid e o; return { f with m20 := some r, mts := f.mts ++ [20] }
  else if e.mt = 21 then do let o ← deref b.m21; let r ← Rxn.fromOther grid e o; return { f with m21 := some r, mts := f.mts ++ [21] }
  else if e.mt = 38 then do let o ← deref b.m38; let r ← Rxn.fromOther grid e o; return { f with m38 := some r, mts := f.mts ++ [38] }
  else .ok f

/-- The creation of the prompt spectrum (src/fission.cpp:176-192, 249-265): without MT 18 but with one of the partial reactions,
`SummedFissionSpectrum` throws unless all four are there (src/summed_fission_spectrum.cpp:35-47). -/
def Fis.checkSpectrum (f : Fis K) : Res (Fis K) :=
  if f.m18.isSome then .ok f
  else if f.m19.isSome || f.m20.isSome || f.m21.isSome || f.m38.isSome then
    if f.m19.isSome && f.m20.isSome && f.m21.isSome && f.m38.isSome then .ok f else .error .exc
  else .ok f

/-- `Fission(ace, energy_grid)` (src/fission.cpp:50, 145-192), reactions only. -/
def Fis.make (fissile : Bool) (grid : List K) (rxns : List (RxnIn K)) : Res (Fis K) :=
  if fissile = false then .ok Fis.none
  else do
    let f ← rxns.foldlM (Fis.step grid) Fis.none
    f.checkSpectrum

/-- `Fission(ace, energy_grid, fission)` (src/fission.cpp:210-267), reactions only. -/
def Fis.makeShared (fissile : Bool) (grid : List K) (rxns : List (RxnIn K)) (b : Fis K) : Res (Fis K) :=
  if fissile = false then .ok Fis.none
  else do
    let f ← rxns.foldlM (Fis.stepShared grid b) Fis.none
    f.checkSpectrum

/-- `Fission::has_reaction` (fission.hpp:107-120). -/
def Fis.has (f : Fis K) (mt : Nat) : Bool :=
  if mt = 18 ∧ f.m18.isSome then true
  else if mt = 19 ∧ f.m19.isSome then true
  else if mt = 20 ∧ f.m20.isSome then true
  else if mt = 21 ∧ f.m21.isSome then true
  else if mt = 38 ∧ f.m38.isSome then true
  else false

/-- `Fission::reaction` (fission.hpp:129-147). -/
def Fis.reaction (f : Fis K) (mt : Nat) : Res (Rxn K) :=
  if f.has mt = false then .error .exc
  else if mt = 18 then deref f.m18
  else if mt = 19 then deref f.m19
  else if mt = 20 then deref f.m20
  else if mt = 21 then deref f.m21
  else deref f.m38

/-- The file as far as it is modelled. -/
structure AceIn (K : Type _) where
  fissile : Bool
  grid : List K
  total : List K
  disap : List K
  elastic : List K
  heating : List K
  rxns : List (RxnIn K)

/-- `class STNeutron` (st_neutron.hpp:218-237), without the members listed at the top. -/
structure STN (K : Type _) where
  fissile : Bool
  grid : List K
  total : XS K
  disap : XS K
  elastic : XS K
  heating : XS K
  fissionXS : XS K
  fis : Fis K
  mts : List Nat
  idx : List Int
  rxns : List (Rxn K)

/-- `mt_list_`, `reaction_indices_` and `reactions_` during the loop (src/st_neutron.cpp:72-85, 176-191). -/
structure RState (K : Type _) where
  mts : List Nat
  idx : List Int
  rxns : List (Rxn K)

/-- One turn of the loop (src/st_neutron.cpp:77-85): `current_reaction_index` is the number of reactions so far; `reaction_indices_[MT]` is
undefined behaviour beyond the 892 entries. -/
def STN.step (grid : List K) (s : RState K) (e : RxnIn K) : Res (RState K) :=
  if isFisMT e.mt then .ok s
  else do
    let r ← Rxn.fromAce grid e
    if e.mt < 892 then .ok ⟨s.mts ++ [e.mt], s.idx.set e.mt (s.rxns.length : Int), s.rxns ++ [r]⟩ else .error .ub

/-- `v[static_cast<size_t>(i)]`: a negative index becomes a huge one. -/
def getInt {α : Type _} (l : List α) (i : Int) : Res α := if i < 0 then .error .ub else getAt l i.toNat

/-- One turn of the loop of the sharing constructor (src/st_neutron.cpp:181-191). -/
def STN.stepShared (grid : List K) (b : STN K) (s : RState K) (e : RxnIn K) : Res (RState K) :=
  if isFisMT e.mt then .ok s
  else do
    let i ← getAt b.idx e.mt
    let o ← getInt b.rxns i
    let r ← Rxn.fromOther grid e o
    if e.mt < 892 then .ok ⟨s.mts ++ [e.mt], s.idx.set e.mt (s.rxns.length : Int), s.rxns ++ [r]⟩ else .error .ub

/-- `if (has_reaction(mt) && reaction(mt).xs().index() < lowest_index) lowest_index = …` (src/st_neutron.cpp:248-270). -/
def lowerIdx (r : Option (Rxn K)) (l : Nat) : Nat :=
  match r with
  | some r => if r.xs.index < l then r.xs.index else l
  | Option.none => l

/-- `if (has_reaction(mt)) fiss_xs[…] += reaction(mt).xs()[i]` (src/st_neutron.cpp:276-290). -/
def addAt (r : Option (Rxn K)) (i : Nat) (v : K) : Res K :=
  match r with
  | some r => do let x ← r.xs.at i; return v + x
  | Option.none => .ok v

/-- One element of the sum (src/st_neutron.cpp:275-291). -/
def sumAt (f : Fis K) (i : Nat) : Res K := do
  let a ← addAt f.m19 i 0
  let b ← addAt f.m20 i a
  let c ← addAt f.m21 i b
  addAt f.m38 i c

/-- `compute_fission_xs` (src/st_neutron.cpp:237-294). -/
def computeFission (fissile : Bool) (grid : List K) (f : Fis K) : Res (XS K) :=
  if fissile = false then XS.makeConst 0 grid
  else
    match f.m18 with
    | some r => .ok r.xs
    | Option.none => do
      let low := lowerIdx f.m38 (lowerIdx f.m21 (lowerIdx f.m20 (lowerIdx f.m19 grid.length)))
      let vs ← (List.range' low (grid.length - low)).mapM (sumAt f)
      XS.make vs grid low

/-- The four main cross sections (src/st_neutron.cpp:53-61, 157-165): start index 0. -/
structure MainXS (K : Type _) where
  total : XS K
  disap : XS K
  elastic : XS K
  heating : XS K

/-- src/st_neutron.cpp:53-61, 157-165. -/
def MainXS.make (a : AceIn K) : Res (MainXS K) := do
  let t ← XS.makeAce a.total a.grid 0 false
  let d ← XS.makeAce a.disap a.grid 0 false
  let e ← XS.makeAce a.elastic a.grid 0 false
  let h ← XS.makeAce a.heating a.grid 0 true
  return ⟨t, d, e, h⟩

/-- `STNeutron(ace)` (src/st_neutron.cpp:30-132).  `std::sort` is `insertionSort`. -/
def STN.make (a : AceIn K) : Res (STN K) := do
  let m ← MainXS.make a
  let s ← a.rxns.foldlM (STN.step a.grid) ⟨[], List.replicate 892 (-1), []⟩
  let f ← Fis.make a.fissile a.grid a.rxns
  let x ← computeFission a.fissile a.grid f
  return ⟨a.fissile, a.grid, m.total, m.disap, m.elastic, m.heating, x, f, (s.mts ++ f.mts).insertionSort (· ≤ ·), s.idx, s.rxns⟩

/-- `STNeutron(ace, nuclide)` (src/st_neutron.cpp:134-235).  `mt_list_.resize(NMT, 0)` (line 179) leaves `NMT` zeros in front.  `fissile_` is
the other nuclide's, while `Fission` asks the file. -/
def STN.makeShared (a : AceIn K) (b : STN K) : Res (STN K) := do
  let m ← MainXS.make a
  let s ← a.rxns.foldlM (STN.stepShared a.grid b) ⟨List.replicate a.rxns.length 0, List.replicate 892 (-1), []⟩
  let f ← Fis.makeShared a.fissile a.grid a.rxns b.fis
  let x ← computeFission b.fissile a.grid f
  return ⟨b.fissile, a.grid, m.total, m.disap, m.elastic, m.heating, x, f, (s.mts ++ f.mts).insertionSort (· ≤ ·), s.idx, s.rxns⟩

/-- `has_reaction` (st_neutron.hpp:131-137): `mt > 891` is tested before the array is read. -/
def STN.has (s : STN K) (mt : Nat) : Res Bool :=
  if isFisMT mt then .ok (s.fis.has mt)
  else if mt > 891 then .ok false
  else do
    let i ← getAt s.idx mt
    return decide (¬ i < 0)

/-- `reaction` (st_neutron.hpp:143-156). -/
def STN.reaction (s : STN K) (mt : Nat) : Res (Rxn K) := do
  let h ← s.has mt
  if h = false then .error .exc
  else if isFisMT mt then s.fis.reaction mt
  else do
    let i ← getAt s.idx mt
    getInt s.rxns i

/-- `evaluate_xs(Ein, i)` (st_neutron.hpp:188-206). -/
def STN.evaluate (s : STN K) (E : K) (i : Nat) : Res (XSPacket K) := do
  let total ← s.total.evalIdx E i
  let elastic ← s.elastic.evalIdx E i
  let fission ← s.fissionXS.evalIdx E i
  let d ← s.disap.evalIdx E i
  let absorption := d + fission
  let heating ← s.heating.evalIdx E i
  let inel := total - elastic - absorption
  let inelastic := if inel < 0 then 0 else inel
  let h ← s.has 102
  let capture ← (if h then do let r ← s.reaction 102; r.xs.evalIdx E i else .ok 0)
  return { total, elastic, inelastic, absorption, fission, capture, heating }

/-- `evaluate_xs(Ein)` (st_neutron.hpp:212-215), `g` being the energy grid object. -/
noncomputable def STN.evaluateE (g : EGrid) (s : STN ℝ) (E : ℝ) : Res (XSPacket ℝ) := do
  let i ← g.lowerIndex E
  s.evaluate E i

end PNDL
