import Verif.Model.STNeutron
import Verif.Model.PCTable
import Verif.Model.Tape

/-! `URRPTables` (include/PapillonNDL/urr_ptables.hpp, src/urr_ptables.cpp). -/
namespace PNDL

/-- `PTable::XSBand` (urr_ptables.hpp:60-66). -/
structure Band where
  total : ℝ
  elastic : ℝ
  fission : ℝ
  capture : ℝ
  heating : ℝ

/-- `URRPTables::PTable` (urr_ptables.hpp:68-69). -/
structure PTab where
  cdf : List ℝ
  bands : List Band

/-- `class URRPTables` (urr_ptables.hpp:310-321); `total_` and `disappearance_` are stored but never used.  The three cross sections that
multiply factors, the optional competing cross sections, and the tables. -/
structure URR where
  interp : Interpolation
  factors : Bool
  elastic : XS ℝ
  capture : XS ℝ
  fission : XS ℝ
  heating : XS ℝ
  inelastic : Option (XS ℝ)
  absorption : Option (XS ℝ)
  energy : List ℝ
  tables : List PTab

/-- The smooth cross sections given to the constructor. -/
structure Smooth where
  elastic : XS ℝ
  capture : XS ℝ
  fission : XS ℝ
  heating : XS ℝ

/-- Assembling the bands from the five columns (src/urr_ptables.cpp:116-182). -/
def zipBands : List ℝ → List ℝ → List ℝ → List ℝ → List ℝ → List Band
  | t :: ts, e :: es, f :: fs, c :: cs, h :: hs => ⟨t, e, f, c, h⟩ :: zipBands ts es fs cs hs
  | _, _, _, _, _ => []

open Classical in
/-- One table (src/urr_ptables.cpp:84-183).  Each column is read as a whole before it is checked. -/
noncomputable def readTable (xss : List ℝ) (i n : Nat) : Res PTab := do
  let cdf ← xssSlice xss i n
  if isSorted cdf = false then .error .exc
  else do
    let c0 ← front cdf
    if c0 ≤ 0 then .error .exc
    else do
      let cl ← back cdf
      if |1 - cl| < 1 / 10 ^ 15 then do
        let ts ← xssSlice xss (i + n) n
        if ∃ x ∈ ts, x < 0 then .error .exc
        else do
          let es ← xssSlice xss (i + 2 * n) n
          if ∃ x ∈ es, x < 0 then .error .exc
          else do
            let fs ← xssSlice xss (i + 3 * n) n
            if ∃ x ∈ fs, x < 0 then .error .exc
            else do
              let cs ← xssSlice xss (i + 4 * n) n
              if ∃ x ∈ cs, x < 0 then .error .exc
              else do
                let hs ← xssSlice xss (i + 5 * n) n
                return ⟨setLast cdf 1, zipBands ts es fs cs hs⟩
      else .error .exc

/-- The loop over the incident energies (src/urr_ptables.cpp:83-184). -/
noncomputable def readTables (xss : List ℝ) (n : Nat) : Nat → Nat → Res (List PTab)
  | 0, _ => .ok []
  | k + 1, i => do
    let t ← readTable xss i n
    let ts ← readTables xss n k (i + 6 * n)
    return t :: ts

/-- The search for a competing reaction (src/urr_ptables.cpp:196-209, 215-228).  The flag is truncated to an integer. -/
noncomputable def findCompeting (flag : ℝ) (rxns : List (Rxn ℝ)) : Res (Option (XS ℝ)) :=
  if ⌊flag⌋ > 0 then
    match rxns.find? (fun r => decide ((r.mt : Int) = ⌊flag⌋)) with
    | some r => .ok (some r.xs)
    | none => .error .exc
  else .ok none

open Classical in
/-- `URRPTables(ace, …)` (src/urr_ptables.cpp:38-243); `lunr = none` if there is no such block (`ace.jxs(22) == 0`).  Casts of XSS entries
to integers truncate; negative counts (undefined for the unsigned cast) count as zero. -/
noncomputable def URR.make (xss : List ℝ) (lunr : Option Nat) (sm : Smooth) (rxns : List (Rxn ℝ)) : Res URR :=
  match lunr with
  | none => .ok ⟨.linLin, false, sm.elastic, sm.capture, sm.fission, sm.heating, none, none, [], []⟩
  | some l => do
    let ne ← getAt xss l
    let np ← getAt xss (l + 1)
    let code ← getAt xss (l + 2)
    let inel ← getAt xss (l + 3)
    let abs ← getAt xss (l + 4)
    let fac ← getAt xss (l + 5)
    let NE := ⌊ne⌋.toNat
    let NP := ⌊np⌋.toNat
    let energy ← xssSlice xss (l + 6) NE
    let tables ← readTables xss NP NE (l + 6 + NE)
    match interpOfCode code with
    | some r =>
      if r ≠ .linLin ∧ r ≠ .logLog then .error .exc
      else do
        let i ← findCompeting inel rxns
        let a ← findCompeting abs rxns
        return ⟨r, decide (⌊fac⌋ = 1), sm.elastic, sm.capture, sm.fission, sm.heating, i, a, energy, tables⟩
    | none => .error .exc

/-- `is_valid` (urr_ptables.hpp:92). -/
def URR.isValid (u : URR) : Bool := decide (u.energy.length > 2)

/-- `energy_in_range` (urr_ptables.hpp:250-270). -/
noncomputable def URR.inRange (u : URR) (E : ℝ) : Res Bool :=
  if u.energy.length < 2 then .ok false
  else do
    let a ← front u.energy
    let b ← back u.energy
    return decide (a ≤ E) && decide (E ≤ b)

open Classical in
/-- The search for the energy interval (urr_ptables.hpp:113-134): lower index and interpolation fraction. -/
noncomputable def URR.bracket (u : URR) (E : ℝ) : Res (Nat × ℝ) := do
  let l := lowerBound u.energy E
  let v ← getAt u.energy l
  if E = v then
    if l + 1 = u.energy.length then do
      let k ← subIdx l 1
      return (k, 1)
    else return (l, 0)
  else do
    let k ← subIdx l 1
    let a ← getAt u.energy k
    let b ← getAt u.energy (k + 1)
    if u.interp = .linLin then do
      let f ← rdiv (E - a) (b - a)
      return (k, f)
    else do
      let q1 ← rdiv E a
      let l1 ← clog q1
      let q2 ← rdiv b a
      let l2 ← clog q2
      let f ← rdiv l1 l2
      return (k, f)

open Classical in
/-- The search for the band (urr_ptables.hpp:141-148): the first entry with `cdf >= xi`, or the size if there is none. -/
noncomputable def bandOf (cdf : List ℝ) (xi : ℝ) : Nat := cdf.findIdx (fun c => decide (c ≥ xi))

open Classical in
/-- One component between the two bands (urr_ptables.hpp:156-193). -/
noncomputable def mixBand (r : Interpolation) (lo hi f : ℝ) : Res ℝ :=
  if r = .linLin then .ok (lo + f * (hi - lo))
  else if 0 < lo ∧ 0 < hi then do
    let a ← clog lo
    let q ← rdiv hi lo
    let b ← clog q
    return Real.exp (a + f * b)
  else .ok 0

/-- `if (factors_) x *= xs(E, i)` (urr_ptables.hpp:196-201). -/
noncomputable def scaleBy (factors : Bool) (xs : XS ℝ) (E : ℝ) (i : Nat) (v : ℝ) : Res ℝ :=
  if factors then do
    let s ← xs.evalIdx E i
    return v * s
  else .ok v

open Classical in
/-- `if (x < 0.) x = 0.` (urr_ptables.hpp:204-207). -/
noncomputable def clamp0 (v : ℝ) : ℝ := if v < 0 then 0 else v

/-- `if (p) x = p->evaluate(E, i)`, 0 otherwise (urr_ptables.hpp:210-218). -/
noncomputable def evalOpt (x : Option (XS ℝ)) (E : ℝ) (i : Nat) : Res ℝ :=
  match x with
  | some s => s.evalIdx E i
  | none => .ok 0

open Classical in
/-- `evaluate_xs(E, i, xi)` (urr_ptables.hpp:103-227). -/
noncomputable def URR.evaluate (u : URR) (E : ℝ) (i : Nat) (xi : ℝ) : Res (Option (XSPacket ℝ)) :=
  if u.isValid = false then .ok none
  else do
    let e0 ← front u.energy
    let e1 ← back u.energy
    if E < e0 ∨ E > e1 then .ok none
    else do
      let (k, f) ← u.bracket E
      let tl ← getAt u.tables k
      let th ← getAt u.tables (k + 1)
      let bl ← getAt tl.bands (bandOf tl.cdf xi)
      let bh ← getAt th.bands (bandOf th.cdf xi)
      let el ← mixBand u.interp bl.elastic bh.elastic f
      let ca ← mixBand u.interp bl.capture bh.capture f
      let fi ← mixBand u.interp bl.fission bh.fission f
      let he ← mixBand u.interp bl.heating bh.heating f
      let el ← scaleBy u.factors u.elastic E i el
      let ca ← scaleBy u.factors u.capture E i ca
      let fi ← scaleBy u.factors u.fission E i fi
      let he ← scaleBy u.factors u.heating E i he
      let el := clamp0 el
      let ca := clamp0 ca
      let fi := clamp0 fi
      let he := clamp0 he
      let inel ← evalOpt u.inelastic E i
      let other ← evalOpt u.absorption E i
      let ab := ca + fi + other
      return some { total := el + inel + ab, elastic := el, inelastic := inel, absorption := ab, fission := fi, capture := ca, heating := he }

/-- `evaluate_xs(E, xi)` (urr_ptables.hpp:236-245). -/
noncomputable def URR.evaluateE (g : EGrid) (u : URR) (E xi : ℝ) : Res (Option (XSPacket ℝ)) :=
  if u.isValid = false then .ok none
  else do
    let i ← g.lowerIndex E
    u.evaluate E i xi

end PNDL
