import Verif.Lemmas.Rng
import Verif.Lemmas.Base
import Mathlib.Data.Fintype.EquivFin

/-! C06–C08: the package random number generator. -/
namespace PNDL

/-! ## C06 — stream position arithmetic -/

theorem rngRun_append (x : Nat) (o1 o2 : List RngOp) :
    rngRun x (o1 ++ o2) = ((rngRun (rngRun x o1).1 o2).1, (rngRun x o1).2 ++ (rngRun (rngRun x o1).1 o2).2) := by
  induction o1 generalizing x with
  | nil => simp [rngRun]
  | cons o os ih => simp [rngRun, ih, List.append_assoc]

/-- `rng_advance(n)` leaves the generator exactly where `n` calls of `rng()` leave it. -/
theorem C06_advance_is_n_calls (x n : Nat) :
    (rngRun x [.advance n]).1 = (rngRun x (List.replicate n .call)).1 := by
  simp only [rngRun, rngOp]
  induction n generalizing x with
  | zero => simp [lcgDiscard, rngRun]
  | succ n ih => rw [lcgDiscard, ih, List.replicate_succ]; simp [rngRun, rngOp, rngCall]

/-- Whatever follows an advance sees exactly what it would have seen after `n` draws (the drawn values aside). -/
theorem C06_advance_then (x n : Nat) (ops : List RngOp) :
    rngRun x (.advance n :: ops) =
      ((rngRun x (List.replicate n .call ++ ops)).1, (rngRun x (List.replicate n .call ++ ops)).2.drop n) := by
  have h := C06_advance_is_n_calls x n
  have hlen : (rngRun x (List.replicate n .call)).2.length = n := by
    clear h
    induction n generalizing x with
    | zero => simp [rngRun]
    | succ n ih => rw [List.replicate_succ]; simp [rngRun, rngOp, ih]
  rw [rngRun_append, ← h, List.drop_append, hlen, List.drop_of_length_le (by omega)]
  simp [rngRun, rngOp]

/-- Advances compose additively. -/
theorem C06_advance_compose (x m n : Nat) (ops : List RngOp) :
    rngRun x (.advance m :: .advance n :: ops) = rngRun x (.advance (m + n) :: ops) := by
  simp [rngRun, rngOp, lcgDiscard_add]

/-- After `rng_seed(s)` the values and the final state depend on `s` only (and only on `s mod 2^63`), not on the
earlier history. -/
theorem C06_seed_determines (x y s t : Nat) (hst : s % 2 ^ 63 = t % 2 ^ 63) (ops : List RngOp) :
    rngRun x (.seed s :: ops) = rngRun y (.seed t :: ops) := by
  have : lcgSeed s = lcgSeed t := hst
  simp [rngRun, rngOp, this]

/-- `rng_reset()` is `rng_seed` of the default seed 1, and puts the generator back in its program-start state. -/
theorem C06_reset (x : Nat) (ops : List RngOp) :
    rngRun x (.reset :: ops) = rngRun x (.seed 1 :: ops) ∧ rngRun x (.reset :: ops) = rngRun rngInit ops := by
  simp [rngRun, rngOp, rngInit, lcgDefaultSeed]

/-- Closed form of the `n`-th state from any seed: `a^n s + (1 + a + … + a^(n-1)) mod 2^63`. -/
theorem C06_closed_form (x s n : Nat) :
    (rngRun x [.seed s, .advance n]).1 =
      (2806196910506780709 ^ n * s + ((List.range n).map (2806196910506780709 ^ ·)).sum) % 2 ^ 63 := by
  have hg : ∀ n, geo lcgA n = ((List.range n).map (2806196910506780709 ^ ·)).sum := by
    intro n
    induction n with
    | zero => simp [geo]
    | succ n ih =>
      rw [List.range_succ, List.map_append, List.sum_append, ← ih, show n + 1 = 1 + n by omega, geo_add]
      simp [geo, lcgA]; ring
  simp only [rngRun, rngOp]
  rw [lcgDiscard_closed _ (lcgSeed s) (Nat.mod_lt _ (by decide)), ← hg]
  unfold lcgSeed lcgC lcgM
  rw [Nat.mul_one, Nat.add_mod, Nat.mul_mod, Nat.mod_mod, ← Nat.mul_mod, ← Nat.add_mod]
  rfl

example : (rngRun 5 [.seed 1, .call, .call, .call]).1 = (rngRun 77 [.seed (1 + 2 ^ 63), .advance 3]).1 := by decide
example : (rngRun 5 [.reset, .call]).1 = 2806196910506780710 := by decide

/-! ## C07 — full period -/

/-- The state reached from a valid state after `n > 0` draws is the starting state exactly when `2^63` divides `n`. -/
theorem C07_period (x n : Nat) (hx : x < 2 ^ 63) :
    (rngRun x (List.replicate n .call)).1 = x ↔ 2 ^ 63 ∣ n := by
  rw [← C06_advance_is_n_calls]
  exact lcgDiscard_eq_self_iff n x hx

/-- From any seed every 63-bit state is reached within one period, at exactly one position. -/
theorem C07_visits_every_state (s t : Nat) (ht : t < 2 ^ 63) :
    ∃! n, n < 2 ^ 63 ∧ (rngRun s [.seed s, .advance n]).1 = t := by
  have hs : lcgSeed s < lcgM := Nat.mod_lt _ (by decide)
  simp only [rngRun, rngOp]
  generalize lcgSeed s = x at hs
  have inj : ∀ m n, m ≤ n → n < lcgM → lcgDiscard m x = lcgDiscard n x → m = n := by
    intro m n hmn hn h
    obtain ⟨k, rfl⟩ := Nat.exists_eq_add_of_le hmn
    rw [lcgDiscard_add] at h
    have := (lcgDiscard_eq_self_iff k _ (lcgDiscard_lt m x hs)).mp h.symm
    obtain ⟨q, hq⟩ := this
    rcases Nat.eq_zero_or_pos q with h0 | h0
    · subst h0; omega
    · have : lcgM * 1 ≤ lcgM * q := Nat.mul_le_mul_left _ h0
      omega
  have inj' : ∀ m n, m < lcgM → n < lcgM → lcgDiscard m x = lcgDiscard n x → m = n := by
    intro m n hm hn h
    rcases Nat.le_total m n with hmn | hmn
    · exact inj m n hmn hn h
    · exact (inj n m hmn hm h.symm).symm
  have hinj : Function.Injective (fun n : Fin lcgM => (⟨lcgDiscard n.val x, lcgDiscard_lt _ x hs⟩ : Fin lcgM)) := by
    intro a b hab
    simp only [Fin.mk.injEq] at hab
    exact Fin.ext (inj' _ _ a.isLt b.isLt hab)
  obtain ⟨n, hn⟩ := (Finite.injective_iff_surjective.mp hinj) ⟨t, ht⟩
  have hn : lcgDiscard n.val x = t := congrArg Fin.val hn
  exact ⟨n.val, ⟨n.isLt, hn⟩, fun m hm => inj' _ _ hm.1 n.isLt (hm.2.trans hn.symm)⟩

example : (1 : Nat) < 2 ^ 63 := by decide

/-! ## C08 — output range -/

theorem canonical_range (x : Nat) : 0 ≤ canonical x ∧ canonical x < 1 := by
  unfold canonical
  split
  · constructor <;> norm_num
  · rename_i h
    constructor
    · positivity
    · rw [div_lt_one (by norm_num)]
      have : toDouble53 x < 2 ^ 63 := by unfold lcgM at h; omega
      exact_mod_cast this

/-- Every value ever returned, in every history, lies in `[0,1)`. -/
theorem C08_range (x : Nat) (ops : List RngOp) : ∀ u ∈ (rngRun x ops).2, 0 ≤ u ∧ u < 1 := by
  induction ops generalizing x with
  | nil => simp [rngRun]
  | cons o os ih =>
    intro u hu
    simp only [rngRun, List.mem_append] at hu
    rcases hu with hu | hu
    · cases o <;> simp [rngOp, rngCall] at hu
      subst hu
      exact canonical_range _
    · exact ih _ u hu

/-- The clamp in `generate_canonical` is what keeps the upper end open: the top engine values round to `2^63`, i.e. to 1.0. -/
theorem C08_clamp_needed : (toDouble53 (2 ^ 63 - 1) : ℚ) / 2 ^ 63 = 1 := by
  have : toDouble53 (2 ^ 63 - 1) = 2 ^ 63 := by decide +kernel
  rw [this]; norm_num

/-- How close the returned double is to the exact `x / 2^63`: within half a unit in the 53rd bit (or the clamp). -/
theorem C08_rounding_error (e n : Nat) : 2 * (roundBits e n) ≤ 2 * n + 2 ^ e ∧ 2 * n ≤ 2 * roundBits e n + 2 ^ e := by
  have h := Nat.div_add_mod n (2 ^ e)
  have hm := Nat.mod_lt n (show 2 ^ e > 0 by positivity)
  unfold roundBits
  simp only
  generalize n / 2 ^ e = q at *
  generalize n % 2 ^ e = r at *
  generalize 2 ^ e = p at *
  rw [Nat.mul_comm] at h
  have h2 : (q + 1) * p = q * p + p := by ring
  split
  · constructor <;> omega
  · split
    · rw [h2]; constructor <;> omega
    · split
      · constructor <;> omega
      · rw [h2]; constructor <;> omega

example : (rngRun 1 [.call]).2.length = 1 := by decide

end PNDL
