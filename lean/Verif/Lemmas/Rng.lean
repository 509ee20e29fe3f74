import Verif.Model.Rng
import Mathlib.Algebra.Order.Ring.Rat
import Mathlib.Tactic.Ring
import Mathlib.Tactic.Linarith
import Mathlib.Tactic.NormNum
import Mathlib.Data.Nat.ModEq
import Mathlib.Data.Nat.Prime.Basic
import Mathlib.Data.Fintype.Card
import Mathlib.Algebra.Ring.Parity

namespace PNDL

theorem lcgDiscard_succ' (n x : Nat) : lcgDiscard (n + 1) x = lcgStep (lcgDiscard n x) := by
  induction n generalizing x with
  | zero => rfl
  | succ n ih => rw [lcgDiscard, ih, lcgDiscard]

theorem lcgDiscard_add (m n x : Nat) : lcgDiscard (m + n) x = lcgDiscard n (lcgDiscard m x) := by
  induction m generalizing x with
  | zero => simp [lcgDiscard]
  | succ m ih => rw [show m + 1 + n = (m + n) + 1 by omega, lcgDiscard, ih, lcgDiscard]

/-- `1 + a + … + a^(n-1)`. -/
def geo (a : Nat) : Nat → Nat
  | 0 => 0
  | n + 1 => a * geo a n + 1

theorem geo_pow (a n : Nat) (ha : 1 ≤ a) : (a - 1) * geo a n + 1 = a ^ n := by
  obtain ⟨b, rfl⟩ := Nat.exists_eq_add_of_le ha
  induction n with
  | zero => simp [geo]
  | succ n ih =>
    rw [geo, pow_succ, ← ih]
    simp only [Nat.add_sub_cancel_left]
    ring

theorem geo_add (a m n : Nat) : geo a (m + n) = a ^ n * geo a m + geo a n := by
  induction n with
  | zero => simp [geo]
  | succ n ih => rw [← Nat.add_assoc, geo, ih, geo]; ring

theorem lcgDiscard_lt (n x : Nat) (hx : x < lcgM) : lcgDiscard n x < lcgM := by
  induction n generalizing x with
  | zero => exact hx
  | succ n ih => rw [lcgDiscard]; exact ih _ (Nat.mod_lt _ (by decide))

theorem lcgDiscard_closed (n x : Nat) (hx : x < lcgM) :
    lcgDiscard n x = (lcgA ^ n * x + geo lcgA n * lcgC) % lcgM := by
  induction n with
  | zero => simp [lcgDiscard, geo, Nat.mod_eq_of_lt hx]
  | succ n ih =>
    rw [lcgDiscard_succ', ih]
    unfold lcgStep
    rw [Nat.add_mod, Nat.mul_mod, Nat.mod_mod, ← Nat.mul_mod, ← Nat.add_mod]
    congr 1
    rw [geo, lcgC]; ring

theorem geo_odd {a n : Nat} (ha : Odd a) : Odd (geo a n) ↔ Odd n := by
  induction n with
  | zero => simp [geo]
  | succ n ih =>
    rw [geo, Nat.odd_add_one, Nat.odd_mul, Nat.odd_add_one]
    simp [ha, ih]

theorem one_add_pow_mod4 {a : Nat} (ha : a % 4 = 1) (n : Nat) : (1 + a ^ n) % 4 = 2 := by
  have : a ^ n % 4 = 1 := by
    rw [Nat.pow_mod, ha]; simp
  omega

theorem geo_double (a n : Nat) : geo a (2 * n) = geo a n * (1 + a ^ n) := by
  rw [show 2 * n = n + n by omega, geo_add]; ring

/-- The 2-adic valuation of `1 + a + … + a^(n-1)` is that of `n`, when `a ≡ 1 (mod 4)`. -/
theorem pow_dvd_geo {a : Nat} (ha : a % 4 = 1) : ∀ k n, 2 ^ k ∣ geo a n ↔ 2 ^ k ∣ n := by
  have hodd : Odd a := by rw [Nat.odd_iff]; omega
  intro k
  induction k with
  | zero => simp
  | succ k ih =>
    intro n
    rcases Nat.even_or_odd n with he | ho
    · obtain ⟨m, hm⟩ := he
      have hm2 : n = 2 * m := by omega
      subst hm2
      rw [geo_double]
      obtain ⟨q, hq⟩ : ∃ q, 1 + a ^ m = 2 * q ∧ Odd q := by
        have := one_add_pow_mod4 ha m
        exact ⟨(1 + a ^ m) / 2, by omega, by rw [Nat.odd_iff]; omega⟩
      rw [hq.1, show geo a m * (2 * q) = 2 * (geo a m * q) by ring, pow_succ', Nat.mul_dvd_mul_iff_left (by decide),
        Nat.mul_dvd_mul_iff_left (by decide), ← ih m]
      constructor
      · intro h
        exact (Nat.Coprime.dvd_mul_right (Nat.Coprime.pow_left k (Nat.coprime_two_left.mpr hq.2))).mp h
      · intro h; exact h.mul_right q
    · constructor
      · intro h
        have : 2 ∣ geo a n := (Dvd.intro_left (2 ^ k) rfl : 2 ∣ 2 ^ (k + 1)).trans h
        have h2 := (geo_odd (n := n) hodd).mpr ho
        rw [Nat.odd_iff] at h2; omega
      · intro h
        have : 2 ∣ n := (Dvd.intro_left (2 ^ k) rfl : 2 ∣ 2 ^ (k + 1)).trans h
        rw [Nat.odd_iff] at ho; omega

theorem dvd_iff_of_odd {k g q : Nat} (hq : Odd q) : 2 ^ k ∣ g * q ↔ 2 ^ k ∣ g :=
  Nat.Coprime.dvd_mul_right (Nat.Coprime.pow_left k (Nat.coprime_two_left.mpr hq))

theorem lcgDiscard_eq_self_iff (n x : Nat) (hx : x < lcgM) : lcgDiscard n x = x ↔ lcgM ∣ n := by
  rw [lcgDiscard_closed n x hx]
  have hp := geo_pow lcgA n (by decide)
  have e : lcgA ^ n * x + geo lcgA n * lcgC = x + geo lcgA n * ((lcgA - 1) * x + 1) := by
    rw [← hp, lcgC]; ring
  rw [e]
  have hodd : Odd ((lcgA - 1) * x + 1) := by
    rw [Nat.odd_add_one, Nat.not_odd_iff_even]
    exact (show Even (lcgA - 1) by decide).mul_right x
  have h1 : (x + geo lcgA n * ((lcgA - 1) * x + 1)) % lcgM = x ↔ lcgM ∣ geo lcgA n * ((lcgA - 1) * x + 1) := by
    constructor
    · intro h
      have h3 : (x + geo lcgA n * ((lcgA - 1) * x + 1)) ≡ x + 0 [MOD lcgM] := by
        unfold Nat.ModEq; rw [h, Nat.add_zero, Nat.mod_eq_of_lt hx]
      exact (Nat.modEq_zero_iff_dvd).mp (Nat.ModEq.add_left_cancel' x h3)
    · rintro ⟨q, hq⟩
      rw [hq, Nat.add_mul_mod_self_left, Nat.mod_eq_of_lt hx]
  rw [h1]
  show 2 ^ 63 ∣ _ ↔ 2 ^ 63 ∣ _
  rw [dvd_iff_of_odd hodd, pow_dvd_geo (by decide)]

end PNDL
