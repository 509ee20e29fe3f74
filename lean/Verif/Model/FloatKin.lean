import Verif.Model.Float
import Verif.Model.Frame

/-! Kinematics in binary64 arithmetic: every operation rounded by `fl`, as in `Model/Float.lean`. -/
namespace PNDL

/-- `std::sqrt`, correctly rounded; the square root of a negative number is NaN. -/
noncomputable def csqrtFl (fl : ℝ → ℝ) (x : ℝ) : Res ℝ := do
  let r ← csqrt x
  return fl r

/-- Division. -/
noncomputable def rdivFl (fl : ℝ → ℝ) (x y : ℝ) : Res ℝ := do
  let r ← rdiv x y
  return fl r

/-- `CMToLab::transform` (frame.hpp:63-72) in floating point.  `std::pow(A + 1., 2.)` is the rounded product, as compilers replace it. -/
noncomputable def cmToLabFl (fl : ℝ → ℝ) (Ein A mu Eout : ℝ) : Res (ℝ × ℝ) := do
  let M := fl (A + 1)
  let s ← csqrtFl fl (fl (Ein * Eout))
  let q ← rdivFl fl (fl (Ein + fl (fl (fl (2 * mu) * M) * s))) (fl (M * M))
  let L := fl (Eout + q)
  let r1 ← rdivFl fl Eout L
  let s1 ← csqrtFl fl r1
  let w ← rdivFl fl 1 M
  let r2 ← rdivFl fl Ein L
  let s2 ← csqrtFl fl r2
  return (fl (fl (mu * s1) + fl (w * s2)), L)

namespace Vec
/-- `operator+` (vector.hpp:41-43) in floating point. -/
noncomputable def addFl (fl : ℝ → ℝ) (u v : Vec) : Vec := ⟨fl (u.x + v.x), fl (u.y + v.y), fl (u.z + v.z)⟩
/-- `operator-` (vector.hpp:45-47) in floating point. -/
noncomputable def subFl (fl : ℝ → ℝ) (u v : Vec) : Vec := ⟨fl (u.x - v.x), fl (u.y - v.y), fl (u.z - v.z)⟩
/-- `operator*` (vector.hpp:49) in floating point. -/
noncomputable def smulFl (fl : ℝ → ℝ) (u : Vec) (c : ℝ) : Vec := ⟨fl (u.x * c), fl (u.y * c), fl (u.z * c)⟩
/-- `operator/` (vector.hpp:51) in floating point. -/
noncomputable def sdivFl (fl : ℝ → ℝ) (u : Vec) (c : ℝ) : Res Vec := do
  let x ← rdivFl fl u.x c
  let y ← rdivFl fl u.y c
  let z ← rdivFl fl u.z c
  return ⟨x, y, z⟩
/-- `dot` (vector.hpp:53) in floating point. -/
noncomputable def dotFl (fl : ℝ → ℝ) (u v : Vec) : ℝ := fl (fl (fl (u.x * v.x) + fl (u.y * v.y)) + fl (u.z * v.z))
/-- `magnitude` (vector.hpp:55) in floating point. -/
noncomputable def magFl (fl : ℝ → ℝ) (u : Vec) : ℝ := fl (Real.sqrt (fl (fl (fl (u.x * u.x) + fl (u.y * u.y)) + fl (u.z * u.z))))

open Classical in
/-- `rotate(mu, phi)` (vector.hpp:57-88) in floating point; `tau` is the double `2. * PI`, `fcos` and `fsin` the library's functions, `tol` the
double `1.E-10`. -/
noncomputable def rotateFl (fl fcos fsin : ℝ → ℝ) (tau tol : ℝ) (u : Vec) (mu phi : ℝ) : Res Vec := do
  let mu := if mu < -1 then -1 else if mu > 1 then 1 else mu
  let phi := if phi < 0 then 0 else if phi > tau then tau else phi
  let c := fcos phi
  let s := fsin phi
  let C ← csqrtFl fl (fl (1 - fl (mu * mu)))
  if |fl (1 - fl (u.z * u.z))| > tol then do
    let den ← csqrtFl fl (fl (1 - fl (u.z * u.z)))
    let q1 ← rdivFl fl (fl (C * fl (fl (fl (c * u.x) * u.z) - fl (s * u.y)))) den
    let q2 ← rdivFl fl (fl (C * fl (fl (fl (c * u.y) * u.z) + fl (s * u.x)))) den
    return ⟨fl (fl (u.x * mu) + q1), fl (fl (u.y * mu) + q2), fl (fl (u.z * mu) - fl (fl (c * C) * den))⟩
  else do
    let den ← csqrtFl fl (fl (1 - fl (u.y * u.y)))
    let q1 ← rdivFl fl (fl (C * fl (fl (fl (c * u.x) * u.y) + fl (s * u.z)))) den
    let q2 ← rdivFl fl (fl (C * fl (fl (fl (c * u.y) * u.z) - fl (s * u.x)))) den
    return ⟨fl (fl (u.x * mu) + q1), fl (fl (u.y * mu) - fl (fl (c * C) * den)), fl (fl (u.z * mu) + q2)⟩
end Vec

/-- `Elastic::sample_angle_energy` (src/elastic.cpp:66-112) in floating point from the incident energy, the target velocity, the cosine in the
centre of mass and the random number for the azimuth: lab cosine and lab energy. -/
noncomputable def elasticFl (fl fcos fsin : ℝ → ℝ) (tau tol awr E : ℝ) (vt : Vec) (muCm xi : ℝ) : Res (ℝ × ℝ) := do
  let s ← csqrtFl fl E
  let vn := (Vec.mk 0 0 1).smulFl fl s
  let vcm ← (vn.addFl fl (vt.smulFl fl awr)).sdivFl fl (fl (awr + 1))
  let Vn := vn.subFl fl vcm
  let Sn := Vn.magFl fl
  let Un ← Vn.sdivFl fl Sn
  let d ← Un.rotateFl fl fcos fsin tau tol muCm (fl (tau * xi))
  let vout := (d.smulFl fl Sn).addFl fl vcm
  let sout := vout.magFl fl
  let uout ← vout.sdivFl fl sout
  return ((Vec.mk 0 0 1).dotFl fl uout, fl (sout * sout))

end PNDL
