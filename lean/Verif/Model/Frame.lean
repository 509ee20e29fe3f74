import Verif.Model.Tape

/-! Frame transformations (include/PapillonNDL/frame.hpp) and the direction vector of src/vector.hpp. -/
namespace PNDL

/-- `CMToLab::transform(Ein, A, mu, Eout)` (frame.hpp:63-72): lab cosine and energy. -/
noncomputable def cmToLab (Ein A mu Eout : ℝ) : Res (ℝ × ℝ) := do
  let s ← csqrt (Ein * Eout)
  let q ← rdiv (Ein + 2 * mu * (A + 1) * s) ((A + 1) ^ 2)
  let El := Eout + q
  let r1 ← rdiv Eout El
  let s1 ← csqrt r1
  let i ← rdiv 1 (A + 1)
  let r2 ← rdiv Ein El
  let s2 ← csqrt r2
  return (mu * s1 + i * s2, El)

/-- `LabToCM::transform(Ein, A, mu, Eout)` (frame.hpp:170-179): CM cosine and energy. -/
noncomputable def labToCm (Ein A mu Eout : ℝ) : Res (ℝ × ℝ) := do
  let s ← csqrt (Ein * Eout)
  let i ← rdiv 1 (A + 1)
  let r ← rdiv Ein Eout
  let s2 ← csqrt r
  let C := Ein + 2 * (A + 1) * s * (mu - i * s2)
  let q ← rdiv C ((A + 1) * (A + 1))
  let Ec := Eout - q
  let r3 ← rdiv Eout Ec
  let s3 ← csqrt r3
  return (s3 * (mu - i * s2), Ec)

/-- `g` (frame.hpp:134-135, 206-207). -/
noncomputable def frameG (Ein A Q : ℝ) : Res ℝ := do
  let Ec ← rdiv (A * Ein) (A + 1)
  let i ← rdiv 1 (A * A)
  let r ← rdiv Ec (Ec + Q)
  csqrt (i * r)

/-- `CMToLab::angle_jacobian(Ein, A, Q, mu, mu_cm)` (frame.hpp:131-142). -/
noncomputable def angleJacobianQ (Ein A Q mu muCm : ℝ) : Res ℝ := do
  let g ← frameG Ein A Q
  let s1 ← csqrt (1 - muCm * muCm)
  let s2 ← csqrt (1 - mu * mu)
  rdiv ((g + muCm) ^ 2 * s1) (mu * mu * (1 + g * muCm) * s2)

/-- `CMToLab::angle_jacobian(Ein, A, mu, Eout)` (frame.hpp:95-101, 112-120). -/
noncomputable def angleJacobianE (Ein A mu Eout : ℝ) : Res ℝ := do
  let s ← csqrt (Ein * Eout)
  let i ← rdiv 1 (A + 1)
  let r ← rdiv Ein Eout
  let s2 ← csqrt r
  let C := Ein + 2 * (A + 1) * s * (mu - i * s2)
  let q ← rdiv C ((A + 1) * (A + 1))
  let Ec := Eout - q
  let r3 ← rdiv Eout Ec
  let s3 ← csqrt r3
  let m ← rdiv mu (A + 1)
  rdiv s3 (1 - m * s2)

/-- `CMToLab::jacobian(Eout, Eout_cm)` (frame.hpp:151-153). -/
noncomputable def jointJacobian (Eout EoutCm : ℝ) : Res ℝ := do
  let r ← rdiv Eout EoutCm
  csqrt r

open Classical in
/-- The acceptance test `-1. <= a || a <= 1.` (frame.hpp:233, 245, 246). -/
noncomputable def inUnit (a : ℝ) : Option ℝ := if -1 ≤ a ∨ a ≤ 1 then some a else none

open Classical in
/-- `LabToCM::angle(Ein, A, Q, mu)` (frame.hpp:201-250).  At `mu = 0` the C++ has `n = +inf`, so `b2_4ac` is `inf - inf`, a NaN,
the first test fails and the second holds.  A zero divisor in `a2` can only come with `c = 0`; the NaN then fails both
comparisons.  An undefined `g` is an error here; in C++ it is a NaN that gives `{-g, none}` or `{none, none}`. -/
noncomputable def labToCmAngle (Ein A Q mu : ℝ) : Res (Option ℝ × Option ℝ) := do
  let g ← frameG Ein A Q
  if mu = 0 then return (some (-g), none)
  else do
    let n := (1 - mu * mu) / (mu * mu)
    let a := 1 + n
    let b := 2 * g * n
    let c := n * g * g - 1
    let disc := b * b - 4 * a * c
    if disc < 0 then return (none, none)
    else if disc = 0 then do
      let a1 ← rdiv (-2 * c) b
      return (inUnit a1, none)
    else do
      let a1 := (-b + Real.sqrt disc) / (2 * a)
      let o2 := match rdiv (2 * c) (-b + Real.sqrt disc) with
        | .ok a2 => inUnit a2
        | .error _ => none
      return (inUnit a1, o2)

/-! ### `struct Vector` (src/vector.hpp:32-89) -/

/-- `struct Vector`. -/
structure Vec where
  x : ℝ
  y : ℝ
  z : ℝ

namespace Vec
/-- `operator+` (vector.hpp:41-43). -/
noncomputable def add (u v : Vec) : Vec := ⟨u.x + v.x, u.y + v.y, u.z + v.z⟩
/-- `operator-` (vector.hpp:45-47). -/
noncomputable def sub (u v : Vec) : Vec := ⟨u.x - v.x, u.y - v.y, u.z - v.z⟩
/-- `operator*` (vector.hpp:49). -/
noncomputable def smul (u : Vec) (c : ℝ) : Vec := ⟨u.x * c, u.y * c, u.z * c⟩
/-- `operator/` (vector.hpp:51). -/
noncomputable def sdiv (u : Vec) (c : ℝ) : Res Vec := do
  let x ← rdiv u.x c
  let y ← rdiv u.y c
  let z ← rdiv u.z c
  return ⟨x, y, z⟩
/-- `dot` (vector.hpp:53). -/
noncomputable def dot (u v : Vec) : ℝ := u.x * v.x + u.y * v.y + u.z * v.z
/-- `magnitude` (vector.hpp:55). -/
noncomputable def mag (u : Vec) : ℝ := Real.sqrt (u.x * u.x + u.y * u.y + u.z * u.z)

open Classical in
/-- `rotate(mu, phi)` (vector.hpp:57-88). -/
noncomputable def rotate (u : Vec) (mu phi : ℝ) : Res Vec := do
  let mu := if mu < -1 then -1 else if mu > 1 then 1 else mu
  let phi := if phi < 0 then 0 else if phi > 2 * Real.pi then 2 * Real.pi else phi
  let c := Real.cos phi
  let s := Real.sin phi
  let C ← csqrt (1 - mu * mu)
  if |1 - u.z * u.z| > 1 / 10 ^ 10 then do
    let den ← csqrt (1 - u.z * u.z)
    let q1 ← rdiv (C * (c * u.x * u.z - s * u.y)) den
    let q2 ← rdiv (C * (c * u.y * u.z + s * u.x)) den
    return ⟨u.x * mu + q1, u.y * mu + q2, u.z * mu - c * C * den⟩
  else do
    let den ← csqrt (1 - u.y * u.y)
    let q1 ← rdiv (C * (c * u.x * u.y + s * u.z)) den
    let q2 ← rdiv (C * (c * u.y * u.z - s * u.x)) den
    return ⟨u.x * mu + q1, u.y * mu - c * C * den, u.z * mu + q2⟩
end Vec

end PNDL
