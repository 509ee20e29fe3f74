import Verif.Model.Interp

/-! Random streams.  `rng()` (the `std::function<double()>` passed to every sampling method) is modelled as reading the next
entry of an infinite tape `ω`; the position `k` is threaded through the calls.  A draw is `ω k`, and the next call starts at
`k + 1`.  Rejection loops take a bound on their number of iterations and give `diverge` beyond it; C++ would loop on. -/
namespace PNDL

/-- A random stream. -/
abbrev Tape := Nat → ℝ

open Classical in
/-- `if (std::abs(mu) > 1.) mu = std::copysign(1., mu);` -/
noncomputable def clampMu (mu : ℝ) : ℝ := if |mu| > 1 then (if mu < 0 then -1 else 1) else mu

open Classical in
/-- `std::sqrt`. -/
noncomputable def csqrt (x : ℝ) : Res ℝ := if 0 ≤ x then .ok (Real.sqrt x) else .error .nonfinite

end PNDL
