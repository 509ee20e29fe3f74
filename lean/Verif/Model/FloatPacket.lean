import Verif.Model.Float
import Verif.Model.FloatKin
import Verif.Model.URR

/-! The cross-section packets of `STNeutron` and `URRPTables` in binary64 arithmetic: every operation rounded by `fl`, as in `Model/Float.lean`.
`std::log` and `std::exp` are the library functions `flog` and `fexp`, of which nothing is assumed. -/
namespace PNDL

/-- `CrossSection::operator()(double E, size_t i)` (cross_section.hpp:143-163) with the linear formula as a parameter; nothing else in it
computes. -/
noncomputable def XS.evalIdxWith (lin : ℝ → ℝ → ℝ → ℝ → ℝ → Res ℝ) (s : XS ℝ) (E : ℝ) (i : Nat) : Res ℝ :=
  if s.single then s.evalSingle E
  else if i < s.index then .ok 0
  else if s.pastEnd i then back s.values
  else do
    let El ← getAt s.grid i
    let Eh ← getAt s.grid (i + 1)
    let sl ← getAt s.values (i - s.index)
    let sh ← getAt s.values (i - s.index + 1)
    lin E El Eh sl sh

/-- `CrossSection::operator()(double E, size_t i)` in floating point. -/
noncomputable def XS.evalIdxFl (fl : ℝ → ℝ) (s : XS ℝ) (E : ℝ) (i : Nat) : Res ℝ :=
  s.evalIdxWith (fun E El Eh sl sh => linFl fl E El sl Eh sh) E i

/-- `fiss_xs[…] += reaction(mt).xs()[i]` (src/st_neutron.cpp:276-290) in floating point. -/
noncomputable def addAtFl (fl : ℝ → ℝ) (r : Option (Rxn ℝ)) (i : Nat) (v : ℝ) : Res ℝ :=
  match r with
  | some r => do let x ← r.xs.at i; return fl (v + x)
  | Option.none => .ok v

/-- One element of the sum (src/st_neutron.cpp:275-291) in floating point. -/
noncomputable def sumAtFl (fl : ℝ → ℝ) (f : Fis ℝ) (i : Nat) : Res ℝ := do
  let a ← addAtFl fl f.m19 i 0
  let b ← addAtFl fl f.m20 i a
  let c ← addAtFl fl f.m21 i b
  addAtFl fl f.m38 i c

/-- `compute_fission_xs` (src/st_neutron.cpp:237-294) in floating point; nothing else in the constructors of `STNeutron` adds cross sections. -/
noncomputable def computeFissionFl (fl : ℝ → ℝ) (fissile : Bool) (grid : List ℝ) (f : Fis ℝ) : Res (XS ℝ) :=
  if fissile = false then XS.makeConst 0 grid
  else
    match f.m18 with
    | some r => .ok r.xs
    | Option.none => do
      let low := lowerIdx f.m38 (lowerIdx f.m21 (lowerIdx f.m20 (lowerIdx f.m19 grid.length)))
      let vs ← (List.range' low (grid.length - low)).mapM (sumAtFl fl f)
      XS.make vs grid low

/-- `STNeutron::evaluate_xs(Ein, i)` (st_neutron.hpp:188-206) in floating point. -/
noncomputable def STN.evaluateFl (fl : ℝ → ℝ) (s : STN ℝ) (E : ℝ) (i : Nat) : Res (XSPacket ℝ) := do
  let total ← s.total.evalIdxFl fl E i
  let elastic ← s.elastic.evalIdxFl fl E i
  let fission ← s.fissionXS.evalIdxFl fl E i
  let d ← s.disap.evalIdxFl fl E i
  let absorption := fl (d + fission)
  let heating ← s.heating.evalIdxFl fl E i
  let inel := fl (fl (total - elastic) - absorption)
  let inelastic := if inel < 0 then 0 else inel
  let h ← s.has 102
  let capture ← (if h then do let r ← s.reaction 102; r.xs.evalIdxFl fl E i else .ok 0)
  return { total, elastic, inelastic, absorption, fission, capture, heating }

/-- `std::log` on a positive argument. -/
noncomputable def clogFl (flog : ℝ → ℝ) (x : ℝ) : Res ℝ := if x ≤ 0 then .error .nonfinite else .ok (flog x)

open Classical in
/-- The search for the energy interval (urr_ptables.hpp:113-134) in floating point. -/
noncomputable def URR.bracketFl (fl flog : ℝ → ℝ) (u : URR) (E : ℝ) : Res (Nat × ℝ) := do
  let l := lowerBound u.energy E
  let v ← getAt u.energy l
  if E = v then
    if l + 1 = u.energy.length then do
      let k ← subIdx l 1
      return (k, 1)
    else return (l, 0)
  else do
    let k ← subIdx l 1
    let a ← getAt u.energy k
    let b ← getAt u.energy (k + 1)
    if u.interp = .linLin then do
      let f ← rdivFl fl (fl (E - a)) (fl (b - a))
      return (k, f)
    else do
      let q1 ← rdivFl fl E a
      let l1 ← clogFl flog q1
      let q2 ← rdivFl fl b a
      let l2 ← clogFl flog q2
      let f ← rdivFl fl l1 l2
      return (k, f)

open Classical in
/-- One component between the two bands (urr_ptables.hpp:156-193) in floating point. -/
noncomputable def mixBandFl (fl flog fexp : ℝ → ℝ) (r : Interpolation) (lo hi f : ℝ) : Res ℝ :=
  if r = .linLin then .ok (fl (lo + fl (f * fl (hi - lo))))
  else if 0 < lo ∧ 0 < hi then do
    let a ← clogFl flog lo
    let q ← rdivFl fl hi lo
    let b ← clogFl flog q
    return fexp (fl (a + fl (f * b)))
  else .ok 0

/-- `if (factors_) x *= xs(E, i)` (urr_ptables.hpp:196-201) in floating point. -/
noncomputable def scaleByFl (fl : ℝ → ℝ) (factors : Bool) (xs : XS ℝ) (E : ℝ) (i : Nat) (v : ℝ) : Res ℝ :=
  if factors then do
    let s ← xs.evalIdxFl fl E i
    return fl (v * s)
  else .ok v

/-- `if (p) x = p->evaluate(E, i)`, 0 otherwise (urr_ptables.hpp:210-218), in floating point. -/
noncomputable def evalOptFl (fl : ℝ → ℝ) (x : Option (XS ℝ)) (E : ℝ) (i : Nat) : Res ℝ :=
  match x with
  | some s => s.evalIdxFl fl E i
  | none => .ok 0

open Classical in
/-- `URRPTables::evaluate_xs(E, i, xi)` (urr_ptables.hpp:103-227) in floating point. -/
noncomputable def URR.evaluateFl (fl flog fexp : ℝ → ℝ) (u : URR) (E : ℝ) (i : Nat) (xi : ℝ) : Res (Option (XSPacket ℝ)) :=
  if u.isValid = false then .ok none
  else do
    let e0 ← front u.energy
    let e1 ← back u.energy
    if E < e0 ∨ E > e1 then .ok none
    else do
      let (k, f) ← u.bracketFl fl flog E
      let tl ← getAt u.tables k
      let th ← getAt u.tables (k + 1)
      let bl ← getAt tl.bands (bandOf tl.cdf xi)
      let bh ← getAt th.bands (bandOf th.cdf xi)
      let el ← mixBandFl fl flog fexp u.interp bl.elastic bh.elastic f
      let ca ← mixBandFl fl flog fexp u.interp bl.capture bh.capture f
      let fi ← mixBandFl fl flog fexp u.interp bl.fission bh.fission f
      let he ← mixBandFl fl flog fexp u.interp bl.heating bh.heating f
      let el ← scaleByFl fl u.factors u.elastic E i el
      let ca ← scaleByFl fl u.factors u.capture E i ca
      let fi ← scaleByFl fl u.factors u.fission E i fi
      let he ← scaleByFl fl u.factors u.heating E i he
      let el := clamp0 el
      let ca := clamp0 ca
      let fi := clamp0 fi
      let he := clamp0 he
      let inel ← evalOptFl fl u.inelastic E i
      let other ← evalOptFl fl u.absorption E i
      let ab := fl (fl (ca + fi) + other)
      return some { total := fl (fl (el + inel) + ab), elastic := el, inelastic := inel, absorption := ab, fission := fi, capture := ca, heating := he }

end PNDL
