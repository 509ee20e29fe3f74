import Verif.Model.Energy
import Verif.Model.FloatPacket

/-! The rejection-sampled spectra and the N-body law in binary64 arithmetic: every operation rounded by `fl`, as in `Model/Float.lean`.  `flog`, `fexp`
and `fcos` are the library's functions, `pi` the double `PI`.  A parameter tabulated against the incoming energy is given by its value there. -/
namespace PNDL

/-- `std::log(xi1) + std::log(xi2) * c * c` (src/maxwellian.cpp:87, src/watt.cpp:123, src/nbody.cpp:109) in floating point. -/
noncomputable def logSumFl (fl flog : ℝ → ℝ) (xi1 xi2 c : ℝ) : Res ℝ := do
  let l1 ← clogFl flog xi1
  let l2 ← clogFl flog xi2
  return fl (l1 + fl (fl (l2 * c) * c))

/-- Candidate of `Maxwellian::sample_energy` (src/maxwellian.cpp:81-87) in floating point. -/
noncomputable def maxwellCandFl (fl flog fcos : ℝ → ℝ) (pi T : ℝ) (ω : Tape) (k : Nat) : Res ℝ := do
  let c := fcos (fl (fl (pi * ω (k + 2)) / 2))
  let s ← logSumFl fl flog (ω k) (ω (k + 1)) c
  return fl (-T * s)

/-- `Maxwellian::sample_energy` (src/maxwellian.cpp:71-93) in floating point, the temperature being `T`. -/
noncomputable def maxwellSampleFl (fl flog fcos : ℝ → ℝ) (pi T U : ℝ) (fuel : Nat) (E : ℝ) (ω : Tape) (k : Nat) : Res (ℝ × Nat) :=
  rejLoop (maxwellCandFl fl flog fcos pi T ω) 3 (fl (E - U)) fuel k

open Classical in
/-- `g = 1 - exp(-w)` with `w = du / T` (src/evaporation.cpp:82-83) in floating point; temperature zero as in `evapG`. -/
noncomputable def evapGFl (fl fexp : ℝ → ℝ) (T du : ℝ) : Res ℝ :=
  if T = 0 then (if 0 < du then .ok 1 else .error .nonfinite) else .ok (fl (1 - fexp (-fl (du / T))))

/-- Candidate of `Evaporation::sample_energy` (src/evaporation.cpp:79-85) in floating point. -/
noncomputable def evapCandFl (fl flog fexp : ℝ → ℝ) (T du : ℝ) (ω : Tape) (k : Nat) : Res ℝ := do
  let g ← evapGFl fl fexp T du
  let l ← clogFl flog (fl (fl (1 - fl (g * ω k)) * fl (1 - fl (g * ω (k + 1)))))
  return fl (-T * l)

/-- `Evaporation::sample_energy` (src/evaporation.cpp:69-91) in floating point, the temperature being `T`. -/
noncomputable def evapSampleFl (fl flog fexp : ℝ → ℝ) (T U : ℝ) (fuel : Nat) (E : ℝ) (ω : Tape) (k : Nat) : Res (ℝ × Nat) :=
  rejLoop (evapCandFl fl flog fexp T (fl (E - U)) ω) 2 (fl (E - U)) fuel k

/-- Candidate of `Watt::sample_energy` (src/watt.cpp:117-125) in floating point. -/
noncomputable def wattCandFl (fl flog fcos : ℝ → ℝ) (pi a b : ℝ) (ω : Tape) (k : Nat) : Res ℝ := do
  let c := fcos (fl (fl (pi * ω (k + 2)) / 2))
  let s ← logSumFl fl flog (ω k) (ω (k + 1)) c
  let w := fl (-a * s)
  let r ← csqrtFl fl (fl (fl (fl (a * a) * b) * w))
  return fl (fl (w + fl (fl (fl (0.25 * a) * a) * b)) + fl (fl (fl (2 * ω (k + 3)) - 1) * r))

/-- `Watt::sample_energy` (src/watt.cpp:104-131) in floating point, the parameters being `a` and `b`. -/
noncomputable def wattSampleFl (fl flog fcos : ℝ → ℝ) (pi a b U : ℝ) (fuel : Nat) (E : ℝ) (ω : Tape) (k : Nat) : Res (ℝ × Nat) :=
  rejLoop (wattCandFl fl flog fcos pi a b ω) 4 (fl (E - U)) fuel k

/-- `maxwellian_spectrum` (src/nbody.cpp:107-110) in floating point; draws in the order of the text. -/
noncomputable def maxwellianSpectrumFl (fl flog fcos : ℝ → ℝ) (pi : ℝ) (ω : Tape) (k : Nat) : Res ℝ := do
  let a := fl (fl (pi * ω k) / 2)
  let s ← logSumFl fl flog (ω (k + 1)) (ω (k + 2)) (fcos a)
  return -s

/-- `Emax` (src/nbody.cpp:82) in floating point; `A / (A + 1)` and `(Ap - 1) / Ap` by positive numbers. -/
noncomputable def NBody.emaxFl (fl : ℝ → ℝ) (d : NBody) (E : ℝ) : ℝ :=
  fl (fl (fl (d.Ap - 1) / d.Ap) * fl (fl (fl (d.A / fl (d.A + 1)) * E) + d.Q))

/-- `NBody::sample_angle_energy` (src/nbody.cpp:80-105) in floating point; draws in the order of the text.  `std::pow(c, 2.)` is the rounded
product. -/
noncomputable def NBody.sampleFl (fl flog fcos : ℝ → ℝ) (pi : ℝ) (d : NBody) (E : ℝ) (ω : Tape) (k : Nat) : Res (ℝ × ℝ × Nat) := do
  let x ← maxwellianSpectrumFl fl flog fcos pi ω k
  let k := k + 3
  let (y, k) ← (
    if d.n = 3 then do let y ← maxwellianSpectrumFl fl flog fcos pi ω k; return (y, k + 3)
    else if d.n = 4 then do let l ← clogFl flog (fl (fl (ω k * ω (k + 1)) * ω (k + 2))); return (-l, k + 3)
    else if d.n = 5 then do
      let l1 ← clogFl flog (fl (fl (fl (ω k * ω (k + 1)) * ω (k + 2)) * ω (k + 3)))
      let l2 ← clogFl flog (ω (k + 4))
      let c := fcos (fl (fl (0.5 * pi) * ω (k + 5)))
      return (fl (-l1 - fl (l2 * fl (c * c))), k + 6)
    else .ok (0, k) : Res (ℝ × Nat))
  let q ← rdivFl fl x (fl (x + y))
  return (fl (fl (2 * ω k) - 1), fl (q * d.emaxFl fl E), k + 1)

end PNDL
