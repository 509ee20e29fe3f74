import Verif.Model.Prelude
import Mathlib.Data.Rat.Defs
import Mathlib.Algebra.Order.Field.Rat

/-! The package random number generator (src/rng.cpp). -/
namespace PNDL

/-- Multiplier, increment, modulus of `LCG` (src/rng.cpp:28-29). -/
def lcgA : Nat := 2806196910506780709
def lcgC : Nat := 1
def lcgM : Nat := 2 ^ 63

/-- `LCG::operator()` state update (src/rng.cpp:28-29; `std::linear_congruential_engine`): the new state is also the
value returned. -/
def lcgStep (x : Nat) : Nat := (lcgA * x + lcgC) % lcgM

/-- `LCG::seed(s)` ([rand.eng.lcong]): since the increment is not 0 mod m, the state is `s mod m`. -/
def lcgSeed (s : Nat) : Nat := s % lcgM

/-- `LCG::default_seed` (1). -/
def lcgDefaultSeed : Nat := 1

/-- `LCG::discard(n)`: the libstdc++ loop of `n` steps. -/
def lcgDiscard : Nat → Nat → Nat
  | 0, x => x
  | n + 1, x => lcgDiscard n (lcgStep x)

/-- Conversion of an unsigned 63-bit integer to `double`: round to nearest, ties to even, to 53
significant bits.  `e` is the number of dropped bits. -/
def roundBits (e n : Nat) : Nat :=
  let q := n / 2 ^ e
  let r := n % 2 ^ e
  if 2 * r < 2 ^ e then q * 2 ^ e
  else if 2 * r > 2 ^ e then (q + 1) * 2 ^ e
  else if q % 2 = 0 then q * 2 ^ e else (q + 1) * 2 ^ e

/-- `static_cast<double>(n)` for `n < 2^63` (exact value of the resulting double). -/
def toDouble53 (n : Nat) : Nat := roundBits (Nat.log2 n + 1 - 53) n

/-- `std::generate_canonical<double,53>` on this engine, libstdc++: 63 random bits exceed 53, so exactly one
engine call `x` is used; the result is `double(x)/2^63`, and a result `≥ 1` is replaced by
`nextafter(1,0) = 1 - 2^-53`. -/
def canonical (x : Nat) : ℚ :=
  if toDouble53 x ≥ lcgM then (2 ^ 53 - 1 : ℚ) / 2 ^ 53 else (toDouble53 x : ℚ) / 2 ^ 63

/-- `rng()` (src/rng.cpp:34): new state and returned value (`unit_dist` is `[0,1)`, so `u*(1-0)+0 = u`). -/
def rngCall (x : Nat) : Nat × ℚ := (lcgStep x, canonical (lcgStep x))

/-- The public operations of src/rng.cpp:34-40. -/
inductive RngOp where
  | call
  | reset
  | seed (s : Nat)
  | advance (n : Nat)
  deriving Repr, DecidableEq

/-- One operation on the static engine: new state and the value returned, if any. -/
def rngOp (x : Nat) : RngOp → Nat × List ℚ
  | .call => ((rngCall x).1, [(rngCall x).2])
  | .reset => (lcgSeed lcgDefaultSeed, [])
  | .seed s => (lcgSeed s, [])
  | .advance n => (lcgDiscard n x, [])

/-- A history of operations: final state, and all returned values in order. -/
def rngRun : Nat → List RngOp → Nat × List ℚ
  | x, [] => (x, [])
  | x, o :: os =>
    let (x', out) := rngOp x o
    let (x'', out') := rngRun x' os
    (x'', out ++ out')

/-- The static engine `lcg` at program start (src/rng.cpp:31). -/
def rngInit : Nat := lcgSeed lcgDefaultSeed

end PNDL
