import Verif.Model.Interp

/-! `PCTable` (include/PapillonNDL/pctable.hpp, src/pctable.cpp): a tabulated probability density with its cumulative.
Doubles are real numbers. -/
namespace PNDL

/-- `class PCTable` (pctable.hpp:139-142). -/
structure PCTable where
  values : List ℝ
  pdf : List ℝ
  cdf : List ℝ
  interp : Interpolation

/-- `cdf_[cdf_.size() - 1] = 1.` (src/pctable.cpp:71, 125). -/
noncomputable def setLast (l : List ℝ) (v : ℝ) : List ℝ := l.set (l.length - 1) v

open Classical in
/-- The tests common to both constructors (src/pctable.cpp:55-88, 112-138), on a table with at least one point. -/
noncomputable def PCTable.check (values pdf cdf : List ℝ) (interp : Interpolation) : Res PCTable := do
  if isSorted values = false then .error .exc
  else if isSorted cdf = false then .error .exc
  else do
    let last ← back cdf
    let cdf' ← (if last ≠ 1 then (if |last - 1| < 1 / 10 ^ 7 then .ok (setLast cdf 1) else .error .exc) else .ok cdf : Res (List ℝ))
    if ∃ p ∈ pdf, p < 0 then .error .exc else .ok ⟨values, pdf, cdf', interp⟩

/-- `PCTable(values, pdf, cdf, interp)` (src/pctable.cpp:91-139). -/
noncomputable def PCTable.make (values pdf cdf : List ℝ) (interp : Interpolation) : Res PCTable :=
  if interp ≠ .histogram ∧ interp ≠ .linLin then .error .exc
  else if values.length ≠ pdf.length ∨ pdf.length ≠ cdf.length then .error .exc
  else if values.length = 0 then .error .exc
  else PCTable.check values pdf cdf interp

/-- `ace.xss(i, len)` (src/ace.cpp:346-350): a slice of the XSS array, undefined behaviour outside it. -/
def xssSlice (xss : List ℝ) (i len : Nat) : Res (List ℝ) :=
  if i + len ≤ xss.length then .ok ((xss.drop i).take len) else .error .ub

/-- `static_cast<Interpolation>(x)` for the enumerators 1 … 5 (interpolation.hpp:44-50); any other number is a value of the
enumeration that is none of its enumerators, which `none` stands for. -/
noncomputable def interpOfCode (x : ℝ) : Option Interpolation :=
  match ⌊x⌋ with
  | 1 => some .histogram
  | 2 => some .linLin
  | 3 => some .linLog
  | 4 => some .logLin
  | 5 => some .logLog
  | _ => none

/-- `PCTable(ace, i, normalization)` (src/pctable.cpp:30-89).  The casts of XSS entries to integers truncate; negative
entries (undefined for the unsigned cast) count as zero. -/
noncomputable def PCTable.makeAce (xss : List ℝ) (i : Nat) (norm : ℝ) : Res PCTable := do
  let code ← getAt xss i
  match interpOfCode code with
  | some r =>
    if r ≠ .histogram ∧ r ≠ .linLin then .error .exc
    else do
      let np ← getAt xss (i + 1)
      let NP := ⌊np⌋.toNat
      if NP = 0 then .error .exc
      else do
        let vs ← xssSlice xss (i + 2) NP
        let ps ← xssSlice xss (i + 2 + NP) NP
        let cs ← xssSlice xss (i + 2 + NP + NP) NP
        PCTable.check (vs.map (· * norm)) ps cs r
  | none => .error .exc

/-- `histogram_interp` (pctable.hpp:144-146). -/
noncomputable def histInterp (xi v0 p0 c0 : ℝ) : Res ℝ := do
  let q ← rdiv (xi - c0) p0
  return v0 + q

/-- `linear_interp` (pctable.hpp:148-153). -/
noncomputable def linInterp (xi v0 v1 p0 p1 c0 : ℝ) : Res ℝ := do
  let m ← rdiv (p1 - p0) (v1 - v0)
  let im ← rdiv 1 m
  return v0 + im * (Real.sqrt (max (p0 * p0 + 2 * m * (xi - c0)) 0) - p0)

open Classical in
/-- `sample_value(xi)` (pctable.hpp:66-81). -/
noncomputable def PCTable.sample (t : PCTable) (xi : ℝ) : Res ℝ := do
  let l := lowerBound t.cdf xi
  let c ← getAt t.cdf l
  if xi = c then getAt t.values l
  else do
    let l ← subIdx l 1
    let v0 ← getAt t.values l
    let p0 ← getAt t.pdf l
    let c0 ← getAt t.cdf l
    if t.interp = .histogram then histInterp xi v0 p0 c0
    else do
      let p1 ← getAt t.pdf (l + 1)
      if p0 = p1 then histInterp xi v0 p0 c0
      else do
        let v1 ← getAt t.values (l + 1)
        linInterp xi v0 v1 p0 p1 c0

/-- `min_value()`, `max_value()` (pctable.hpp:106-111). -/
def PCTable.minValue (t : PCTable) : Res ℝ := front t.values
/-- `max_value()` (pctable.hpp:111). -/
def PCTable.maxValue (t : PCTable) : Res ℝ := back t.values

open Classical in
/-- `pdf(value)` (pctable.hpp:87-101). -/
noncomputable def PCTable.pdfAt (t : PCTable) (x : ℝ) : Res ℝ := do
  let mn ← t.minValue
  let mx ← t.maxValue
  if x < mn ∨ x > mx then .ok 0
  else do
    let l := lowerBound t.values x
    let v ← getAt t.values l
    if x = v then getAt t.pdf l
    else do
      let l ← subIdx l 1
      let p0 ← getAt t.pdf l
      if t.interp = .histogram then .ok p0
      else do
        let v0 ← getAt t.values l
        let v1 ← getAt t.values (l + 1)
        let p1 ← getAt t.pdf (l + 1)
        Interpolation.linLin.interpolate x v0 p0 v1 p1

end PNDL
