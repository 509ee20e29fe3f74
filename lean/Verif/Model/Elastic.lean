import Verif.Model.Frame
import Verif.Model.CrossSection
import Verif.Model.EnergyGrid

/-! Elastic scattering: src/elastic.cpp, src/elastic_svt.cpp, src/elastic_dbrc.cpp. -/
namespace PNDL

/-- `ElasticDopplerBroadener::sample_target_velocity(Ein, kT, awr, rng)` (elastic_doppler_broadener.hpp): any sampler. -/
abbrev Broadener := ℝ → ℝ → ℝ → Tape → Nat → Res (Vec × Nat)

/-- `AngleDistribution::sample_angle(E_in, rng)`: any sampler. -/
abbrev AngleSampler := ℝ → Tape → Nat → Res (ℝ × Nat)

/-- `K_TO_EV * EV_TO_MEV` (src/constants.hpp:31-34). -/
noncomputable def kToMeV : ℝ := 1 / 11604.51812 * (1 / 10 ^ 6)

/-- `class Elastic` (elastic.hpp:158-163); `none` is the null pointer. -/
structure Elastic where
  angle : AngleSampler
  awr : ℝ
  kT : ℝ
  useTar : Bool
  tar : ℝ
  broadener : Option Broadener

open Classical in
/-- `Elastic(broadener, angle, awr, temperature, use_tar, tar_threshold)` (src/elastic.cpp:33-62). -/
noncomputable def Elastic.make (b : Option Broadener) (angle : AngleSampler) (awr temperature : ℝ) (useTar : Bool) (tar : ℝ) :
    Res Elastic :=
  if awr ≤ 0 then .error .exc
  else if temperature * kToMeV < 0 then .error .exc
  else if tar < 0 then .error .exc
  else if b.isNone then .error .exc
  else .ok ⟨angle, awr, temperature * kToMeV, useTar, tar, b⟩

/-- `temperature()` (src/elastic.cpp:124): `kT_ * MEV_TO_EV * EV_TO_K`. -/
noncomputable def Elastic.temperature (e : Elastic) : ℝ := e.kT * 10 ^ 6 * 11604.51812

/-- The setters (src/elastic.cpp:114-138, elastic.hpp:134). -/
inductive ElasticOp where
  | setBroadener (b : Option Broadener)
  | setTemperature (t : ℝ)
  | setUseTar (b : Bool)
  | setTar (t : ℝ)

open Classical in
/-- One setter call: the object after it, and whether it threw. -/
noncomputable def Elastic.step (e : Elastic) : ElasticOp → Elastic × Bool
  | .setBroadener b => match b with
    | none => (e, true)
    | some f => ({ e with broadener := some f }, false)
  | .setTemperature t => ({ e with kT := t * kToMeV }, false)
  | .setUseTar b => ({ e with useTar := b }, false)
  | .setTar t => ({ e with tar := t }, decide (t < 0))

/-- A history of setter calls, exceptions being caught by the caller. -/
noncomputable def Elastic.run (e : Elastic) : List ElasticOp → Elastic
  | [] => e
  | op :: ops => Elastic.run (e.step op).1 ops

/-- The two-body collision with target velocity `vt` (src/elastic.cpp:78-111), from the draws at `k`. -/
noncomputable def Elastic.collide (e : Elastic) (E : ℝ) (vn vt : Vec) (ω : Tape) (k : Nat) : Res (ℝ × ℝ × Nat) := do
  let vcm ← (vn.add (vt.smul e.awr)).sdiv (e.awr + 1)
  let Vn := vn.sub vcm
  let Sn := Vn.mag
  let Un ← Vn.sdiv Sn
  let (muCm, k) ← e.angle E ω k
  let d ← Un.rotate muCm (2 * Real.pi * ω k)
  let vout := (d.smul Sn).add vcm
  let sout := vout.mag
  let uout ← vout.sdiv sout
  return ((Vec.mk 0 0 1).dot uout, sout * sout, k + 1)

open Classical in
/-- `Elastic::sample_angle_energy` (src/elastic.cpp:64-112): lab cosine, lab energy, next draw. -/
noncomputable def Elastic.sample (e : Elastic) (E : ℝ) (ω : Tape) (k : Nat) : Res (ℝ × ℝ × Nat) := do
  let s ← csqrt E
  let vn := (Vec.mk 0 0 1).smul s
  if e.useTar = true ∧ E ≥ e.tar * e.kT then e.collide E vn ⟨0, 0, 0⟩ ω k
  else match e.broadener with
    | none => .error .ub
    | some b => do
      let (vt, k) ← b E e.kT e.awr ω k
      e.collide E vn vt ω k

/-! ### Sampling of the velocity of the target -/

open Classical in
/-- `x_sqrd` (src/elastic_svt.cpp:43-50) and the next draw; logarithms of products and sums in the order of the text. -/
noncomputable def svtX (P : ℝ) (ω : Tape) (k : Nat) : Res ℝ × Nat :=
  if ω k < P then (do let l ← clog (ω (k + 1) * ω (k + 2)); return -l, k + 3)
  else (do
    let c := Real.cos (Real.pi / 2 * ω (k + 1))
    let l1 ← clog (ω (k + 2))
    let l2 ← clog (ω (k + 3))
    return -l1 - l2 * c * c, k + 4)

/-- `P_accept` (src/elastic_svt.cpp:54-55). -/
noncomputable def svtAccept (x2 y mu : ℝ) : Res ℝ := do
  let x ← csqrt x2
  let r ← csqrt (y * y + x2 - 2 * y * x * mu)
  rdiv r (x + y)

open Classical in
/-- The loop (src/elastic_svt.cpp:41-58).  A non-finite `x_sqrd` or `P_accept` fails the last comparison. -/
noncomputable def svtLoop (y P : ℝ) (ω : Tape) : Nat → Nat → Res (ℝ × ℝ × Nat)
  | 0, _ => .error .diverge
  | fuel + 1, k =>
    let (rx, k) := svtX P ω k
    let mu := 2 * ω k - 1
    match rx.bind (fun x2 => (svtAccept x2 y mu).bind fun p => if ω (k + 1) < p then .ok x2 else .error .nonfinite) with
    | .ok x2 => .ok (x2, mu, k + 2)
    | .error _ => svtLoop y P ω fuel (k + 2)

/-- `ElasticSVT::sample_target_velocity` (src/elastic_svt.cpp:32-69).  When `awr * Ein / kT` is negative, infinite or undefined,
every `P_accept` is a NaN and the loop never ends. -/
noncomputable def svtSample (fuel : Nat) : Broadener := fun Ein kT awr ω k =>
  match (rdiv (awr * Ein) kT).bind csqrt with
  | .error _ => .error .diverge
  | .ok y => do
    let P ← rdiv 2 (Real.sqrt Real.pi * y + 2)
    let (x2, mu, k) ← svtLoop y P ω fuel k
    let r ← rdiv (x2 * kT) awr
    let st ← csqrt r
    let ut ← (Vec.mk 0 0 1).rotate mu (2 * Real.pi * ω k)
    return (ut.smul st, k + 1)

/-- The loop over tabulated values (src/elastic_dbrc.cpp:42-44): `n` values from index `i`. -/
noncomputable def maxXsLoop (values : List ℝ) : Nat → Nat → ℝ → Res ℝ
  | 0, _, m => .ok m
  | n + 1, i, m => do
    let v ← getAt values i
    maxXsLoop values n (i + 1) (max m v)

/-- `ElasticDBRC::max_xs_value(Emin, Emax)` (src/elastic_dbrc.cpp:33-47); `xs()[i]` is entry `i` of the stored values
(cross_section.hpp:250), whatever the index of the first one. -/
noncomputable def maxXs (g : EGrid) (s : XS ℝ) (Emin Emax : ℝ) : Res ℝ := do
  let imin ← g.lowerIndex Emin
  let a ← s.eval Emin
  let imax ← g.lowerIndex Emax
  let b ← s.eval Emax
  maxXsLoop s.values (imax - imin) (imin + 1) (max a b)

open Classical in
/-- The loop (src/elastic_dbrc.cpp:65-79), `sfuel` bounding the inner SVT loop. -/
noncomputable def dbrcLoop (g : EGrid) (s : XS ℝ) (Ein kT awr sE lo hi xmax : ℝ) (sfuel : Nat) (ω : Tape) :
    Nat → Nat → Res (Vec × Nat)
  | 0, _ => .error .diverge
  | fuel + 1, k => do
    let (vt, k) ← svtSample sfuel Ein kT awr ω k
    let vr := (Vec.mk 0 0 sE).sub vt
    let Er := vr.dot vr
    if Er < lo ∨ Er > hi then dbrcLoop g s Ein kT awr sE lo hi xmax sfuel ω fuel k
    else do
      let i ← g.lowerIndex Er
      let x ← s.evalIdx Er i
      if ω k * xmax < x then return (vt, k + 1)
      else dbrcLoop g s Ein kT awr sE lo hi xmax sfuel ω fuel (k + 1)

/-- `ElasticDBRC::sample_target_velocity` (src/elastic_dbrc.cpp:49-82). -/
noncomputable def dbrcSample (g : EGrid) (s : XS ℝ) (sfuel fuel : Nat) : Broadener := fun Ein kT awr ω k => do
  let sE ← csqrt Ein
  let q ← rdiv (awr * Ein) kT
  let y ← csqrt q
  let ymin := max 0 (y - 4)
  let lo ← rdiv (ymin * ymin * kT) awr
  let ymax := y + 4
  let hi ← rdiv (ymax * ymax * kT) awr
  let xmax ← maxXs g s lo hi
  dbrcLoop g s Ein kT awr sE lo hi xmax sfuel ω fuel k

end PNDL
