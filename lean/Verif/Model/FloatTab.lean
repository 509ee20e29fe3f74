import Verif.Model.FloatKin
import Verif.Model.PCTable

/-! Sampling a tabulated density in binary64 arithmetic: every operation rounded by `fl`, as in `Model/Float.lean`. -/
namespace PNDL

/-- `histogram_interp` (pctable.hpp:144-146) in floating point. -/
noncomputable def histInterpFl (fl : ℝ → ℝ) (xi v0 p0 c0 : ℝ) : Res ℝ := do
  let q ← rdivFl fl (fl (xi - c0)) p0
  return fl (v0 + q)

/-- `linear_interp` (pctable.hpp:148-153) in floating point. -/
noncomputable def linInterpFl (fl : ℝ → ℝ) (xi v0 v1 p0 p1 c0 : ℝ) : Res ℝ := do
  let m ← rdivFl fl (fl (p1 - p0)) (fl (v1 - v0))
  let arg := fl (fl (p0 * p0) + fl (fl (2 * m) * fl (xi - c0)))
  let im ← rdivFl fl 1 m
  return fl (v0 + fl (im * fl (fl (Real.sqrt (max arg 0)) - p0)))

open Classical in
/-- `sample_value(xi)` (pctable.hpp:66-81) with the two formulas used inside a cell as parameters; nothing else in it computes. -/
noncomputable def PCTable.sampleWith (hist : ℝ → ℝ → ℝ → ℝ → Res ℝ) (lin : ℝ → ℝ → ℝ → ℝ → ℝ → ℝ → Res ℝ) (t : PCTable) (xi : ℝ) : Res ℝ := do
  let l := lowerBound t.cdf xi
  let c ← getAt t.cdf l
  if xi = c then getAt t.values l
  else do
    let l ← subIdx l 1
    let v0 ← getAt t.values l
    let p0 ← getAt t.pdf l
    let c0 ← getAt t.cdf l
    if t.interp = .histogram then hist xi v0 p0 c0
    else do
      let p1 ← getAt t.pdf (l + 1)
      if p0 = p1 then hist xi v0 p0 c0
      else do
        let v1 ← getAt t.values (l + 1)
        lin xi v0 v1 p0 p1 c0

/-- `sample_value(xi)` in floating point. -/
noncomputable def PCTable.sampleFl (fl : ℝ → ℝ) (t : PCTable) (xi : ℝ) : Res ℝ := t.sampleWith (histInterpFl fl) (linInterpFl fl) xi

end PNDL
