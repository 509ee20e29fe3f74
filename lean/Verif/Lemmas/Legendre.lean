import Verif.Spec.Legendre
import Verif.Model.Legendre
import Verif.Lemmas.Base
import Verif.Lemmas.Prelude
import Mathlib.Analysis.SpecialFunctions.Integrals.Basic
import Mathlib.Analysis.Calculus.Deriv.Polynomial
import Mathlib.Topology.Algebra.Polynomial

/-! Lemmas about the Legendre polynomials and the `Legendre` class. -/
namespace PNDL
open Spec Polynomial MeasureTheory

theorem bonnet (n : Nat) : C ((n : ℝ) + 2) * legPoly (n + 2) =
    C (2 * (n : ℝ) + 3) * X * legPoly (n + 1) - C ((n : ℝ) + 1) * legPoly n := by
  have h : (n : ℝ) + 2 ≠ 0 := by positivity
  rw [legPoly, ← mul_assoc, ← C_mul, mul_one_div_cancel h, C_1, one_mul]

theorem legLoop_eval (x : ℝ) : ∀ (k l : Nat),
    legLoop x k (l + 1) ((legPoly l).eval x) ((legPoly (l + 1)).eval x) = (legPoly (l + 1 + k)).eval x := by
  intro k
  induction k with
  | zero => intro l; rfl
  | succ k ih =>
    intro l
    rw [legLoop]
    have e : ((2 * ((l + 1 : ℕ) : ℝ) + 1) * x * (legPoly (l + 1)).eval x - ((l + 1 : ℕ) : ℝ) * (legPoly l).eval x) /
        (((l + 1 : ℕ) : ℝ) + 1) = (legPoly (l + 2)).eval x := by
      have h : (l : ℝ) + 2 ≠ 0 := by positivity
      rw [legPoly]
      simp only [eval_mul, eval_sub, eval_C, eval_X]
      push_cast
      field_simp
      ring
    rw [e, ih (l + 1)]
    congr 2; omega

theorem legPoly2 (x : ℝ) : (legPoly 2).eval x = 0.5 * (3 * x * x - 1) := by
  rw [show legPoly 2 = legPoly (0 + 2) from rfl, legPoly, legPoly, legPoly]
  simp only [eval_mul, eval_sub, eval_C, eval_X, eval_one, Nat.cast_zero]; ring
theorem legPoly3 (x : ℝ) : (legPoly 3).eval x = 0.5 * (5 * x * x * x - 3 * x) := by
  rw [show legPoly 3 = legPoly (1 + 2) from rfl, legPoly]
  simp only [eval_mul, eval_sub, eval_C, eval_X, Nat.cast_one]
  rw [show (1 + 1 : ℕ) = 2 from rfl, legPoly2, legPoly]; simp only [eval_X]; ring
theorem legPoly4 (x : ℝ) : (legPoly 4).eval x = 0.125 * (35 * (x * x) * (x * x) - 30 * (x * x) + 3) := by
  rw [show legPoly 4 = legPoly (2 + 2) from rfl, legPoly]
  simp only [eval_mul, eval_sub, eval_C, eval_X]
  rw [show (2 + 1 : ℕ) = 3 from rfl, legPoly2, legPoly3]; push_cast; ring

/-- The code evaluates the Legendre polynomials. -/
theorem legendre_eval (n : Nat) (x : ℝ) : legendre n x = (legPoly n).eval x := by
  unfold legendre
  split
  · simp [legPoly]
  · simp [legPoly]
  · rw [legPoly2]
  · rw [legPoly3]
  · rw [legPoly4]
  · rename_i h0 h1 h2 h3 h4
    have e3 : (0.5 : ℝ) * (5 * (x * x * x) - 3 * x) = (legPoly 3).eval x := by rw [legPoly3]; ring
    have e4 : (0.125 : ℝ) * (35 * (x * x * x * x) - 30 * (x * x) + 3) = (legPoly 4).eval x := by rw [legPoly4]; ring
    rw [e3, e4]
    have hn : 5 ≤ n := by
      by_contra hc
      have hn : n = 0 ∨ n = 1 ∨ n = 2 ∨ n = 3 ∨ n = 4 := by omega
      rcases hn with h | h | h | h | h
      · exact h0 h
      · exact h1 h
      · exact h2 h
      · exact h3 h
      · exact h4 h
    rw [show (4 : ℕ) = 3 + 1 from rfl, legLoop_eval x (n - (3 + 1)) 3]
    congr 2; omega

theorem legPoly_one (n : Nat) : (legPoly n).eval 1 = 1 := by
  induction n using Nat.strong_induction_on with
  | _ n ih =>
    match n with
    | 0 => simp [legPoly]
    | 1 => simp [legPoly]
    | n + 2 =>
      have h : (n : ℝ) + 2 ≠ 0 := by positivity
      rw [legPoly]
      simp only [eval_mul, eval_sub, eval_C, eval_X, ih (n + 1) (by omega), ih n (by omega)]
      field_simp; ring

theorem legPoly_neg_one (n : Nat) : (legPoly n).eval (-1) = (-1) ^ n := by
  induction n using Nat.strong_induction_on with
  | _ n ih =>
    match n with
    | 0 => simp [legPoly]
    | 1 => simp [legPoly]
    | n + 2 =>
      have h : (n : ℝ) + 2 ≠ 0 := by positivity
      rw [legPoly]
      simp only [eval_mul, eval_sub, eval_C, eval_X, ih (n + 1) (by omega), ih n (by omega)]
      field_simp; ring

/-- Derivative identities. -/
theorem leg_deriv (n : Nat) :
    X * derivative (legPoly (n + 1)) - derivative (legPoly n) = C ((n : ℝ) + 1) * legPoly (n + 1) ∧
    (X ^ 2 - 1) * derivative (legPoly (n + 1)) = C ((n : ℝ) + 1) * (X * legPoly (n + 1) - legPoly n) := by
  induction n with
  | zero => simp [legPoly]; ring
  | succ n ih =>
    obtain ⟨hB, hC⟩ := ih
    have hn : C ((n : ℝ) + 2) ≠ 0 := by
      rw [Ne, C_eq_zero]; positivity
    have bo := bonnet n
    have hd := congrArg derivative bo
    simp only [derivative_mul, derivative_sub, derivative_C, derivative_X, zero_mul, zero_add, mul_one] at hd
    have c2 : C ((n : ℝ) + 2) = C (n : ℝ) + 2 := by rw [C_add]; rfl
    have c1 : C ((n : ℝ) + 1) = C (n : ℝ) + 1 := by rw [C_add]; rfl
    have c3 : C (2 * (n : ℝ) + 3) = 2 * C (n : ℝ) + 3 := by rw [C_add, C_mul]; rfl
    rw [c2] at hn
    rw [c1] at hB hC
    rw [c1, c2, c3] at bo hd
    -- P'_{n+2} = X P'_{n+1} + (n+2) P_{n+1}
    have hA : derivative (legPoly (n + 2)) = X * derivative (legPoly (n + 1)) + (C (n : ℝ) + 2) * legPoly (n + 1) := by
      apply mul_left_cancel₀ hn
      linear_combination hd + (C (n : ℝ) + 1) * hB
    have cc : C (((n + 1 : ℕ) : ℝ) + 1) = C (n : ℝ) + 2 := by rw [← c2]; congr 1; push_cast; ring
    rw [cc]
    constructor
    · rw [show n + 1 + 1 = n + 2 from rfl]
      linear_combination X * hA + hC - bo
    · rw [show n + 1 + 1 = n + 2 from rfl]
      linear_combination (X ^ 2 - 1) * hA + X * hC - X * bo

/-- `P'_{n+2} − P'_n = (2n+3) P_{n+1}`. -/
theorem leg_deriv_diff (n : Nat) :
    derivative (legPoly (n + 2)) - derivative (legPoly n) = C (2 * (n : ℝ) + 3) * legPoly (n + 1) := by
  obtain ⟨hB, hC⟩ := leg_deriv n
  obtain ⟨hB', hC'⟩ := leg_deriv (n + 1)
  have bo := bonnet n
  have hd := congrArg derivative bo
  simp only [derivative_mul, derivative_sub, derivative_C, derivative_X, zero_mul, zero_add, mul_one] at hd
  have hn : C ((n : ℝ) + 2) ≠ 0 := by
    rw [Ne, C_eq_zero]; positivity
  have c2 : C ((n : ℝ) + 2) = C (n : ℝ) + 2 := by rw [C_add]; rfl
  have c1 : C ((n : ℝ) + 1) = C (n : ℝ) + 1 := by rw [C_add]; rfl
  have c3 : C (2 * (n : ℝ) + 3) = 2 * C (n : ℝ) + 3 := by rw [C_add, C_mul]; rfl
  rw [c2] at hn
  rw [c1] at hB
  rw [c1, c2, c3] at hd
  rw [c3]
  apply mul_left_cancel₀ hn
  linear_combination hd + (2 * C (n : ℝ) + 3) * hB

/-- The integral of a polynomial over `[-1,1]`. -/
noncomputable def polyInt (p : ℝ[X]) : ℝ := ∫ x in (-1 : ℝ)..1, p.eval x

theorem poly_integrable (p : ℝ[X]) (a b : ℝ) : IntervalIntegrable (fun x => p.eval x) volume a b :=
  p.continuous.intervalIntegrable a b

theorem polyInt_add (p q : ℝ[X]) : polyInt (p + q) = polyInt p + polyInt q := by
  unfold polyInt
  simp only [eval_add]
  exact intervalIntegral.integral_add (poly_integrable _ _ _) (poly_integrable _ _ _)

theorem polyInt_sub (p q : ℝ[X]) : polyInt (p - q) = polyInt p - polyInt q := by
  unfold polyInt
  simp only [eval_sub]
  exact intervalIntegral.integral_sub (poly_integrable _ _ _) (poly_integrable _ _ _)

theorem polyInt_C_mul (c : ℝ) (p : ℝ[X]) : polyInt (C c * p) = c * polyInt p := by
  unfold polyInt
  simp only [eval_mul, eval_C]
  exact intervalIntegral.integral_const_mul _ _

theorem polyInt_derivative (p : ℝ[X]) : polyInt (derivative p) = p.eval 1 - p.eval (-1) := by
  unfold polyInt
  exact intervalIntegral.integral_eq_sub_of_hasDerivAt (fun x _ => p.hasDerivAt x) (poly_integrable _ _ _)

/-- Legendre's differential equation. -/
theorem leg_ode (n : Nat) :
    derivative ((X ^ 2 - 1) * derivative (legPoly n)) = C ((n : ℝ) * ((n : ℝ) + 1)) * legPoly n := by
  match n with
  | 0 => simp [legPoly]
  | n + 1 =>
    obtain ⟨hB, hC⟩ := leg_deriv n
    rw [hC]
    simp only [derivative_mul, derivative_sub, derivative_C, derivative_X, zero_mul, zero_add, one_mul]
    have c : C (((n + 1 : ℕ) : ℝ) * (((n + 1 : ℕ) : ℝ) + 1)) = C ((n : ℝ) + 1) * (C ((n : ℝ) + 1) + 1) := by
      rw [← C_1, ← C_add, ← C_mul]; congr 1; push_cast; ring
    rw [c]
    linear_combination C ((n : ℝ) + 1) * hB

theorem leg_orthogonal {m n : Nat} (h : m ≠ n) : polyInt (legPoly m * legPoly n) = 0 := by
  have key : polyInt (derivative ((X ^ 2 - 1) * derivative (legPoly n) * legPoly m
      - (X ^ 2 - 1) * derivative (legPoly m) * legPoly n)) = 0 := by
    rw [polyInt_derivative]; simp
  have e : derivative ((X ^ 2 - 1) * derivative (legPoly n) * legPoly m
      - (X ^ 2 - 1) * derivative (legPoly m) * legPoly n) =
      C ((n : ℝ) * ((n : ℝ) + 1) - (m : ℝ) * ((m : ℝ) + 1)) * (legPoly m * legPoly n) := by
    rw [derivative_sub, derivative_mul, derivative_mul (f := (X ^ 2 - 1) * derivative (legPoly m)), leg_ode, leg_ode, C_sub]
    ring
  rw [e, polyInt_C_mul] at key
  rcases mul_eq_zero.mp key with h' | h'
  · exfalso
    have hm : (0 : ℝ) ≤ m := Nat.cast_nonneg m
    have hn : (0 : ℝ) ≤ n := Nat.cast_nonneg n
    have : ((n : ℝ) - m) * (n + m + 1) = 0 := by linear_combination h'
    rcases mul_eq_zero.mp this with h2 | h2
    · exact h (by exact_mod_cast (by linarith : (m : ℝ) = n))
    · linarith
  · exact h'

theorem leg_deriv_orth (m : Nat) : ∀ k, k ≤ m → polyInt (legPoly m * derivative (legPoly k)) = 0 := by
  intro k
  induction k using Nat.strong_induction_on with
  | _ k ih =>
    intro hk
    match k with
    | 0 => simp [legPoly, polyInt]
    | 1 =>
      have := leg_orthogonal (m := m) (n := 0) (by omega)
      simpa [legPoly] using this
    | k + 2 =>
      have e : legPoly m * derivative (legPoly (k + 2)) =
          legPoly m * derivative (legPoly k) + C (2 * (k : ℝ) + 3) * (legPoly m * legPoly (k + 1)) := by
        linear_combination legPoly m * leg_deriv_diff k
      rw [e, polyInt_add, polyInt_C_mul, ih k (by omega) (by omega), leg_orthogonal (by omega)]
      ring

theorem leg_norm (n : Nat) : polyInt (legPoly n * legPoly n) = 2 / (2 * (n : ℝ) + 1) := by
  match n with
  | 0 => simp [legPoly, polyInt]; norm_num
  | n + 1 =>
    have h1 : polyInt (derivative (X * (legPoly (n + 1) * legPoly (n + 1)))) = 2 := by
      rw [polyInt_derivative]
      simp only [eval_mul, eval_X, legPoly_one, legPoly_neg_one]
      rw [← mul_pow]; norm_num
    obtain ⟨hB, _⟩ := leg_deriv n
    have e : derivative (X * (legPoly (n + 1) * legPoly (n + 1))) =
        C (2 * (n : ℝ) + 3) * (legPoly (n + 1) * legPoly (n + 1)) + C 2 * (legPoly (n + 1) * derivative (legPoly n)) := by
      simp only [derivative_mul, derivative_X, one_mul]
      have c1 : C ((n : ℝ) + 1) = C (n : ℝ) + 1 := by rw [C_add]; rfl
      have c3 : C (2 * (n : ℝ) + 3) = 2 * C (n : ℝ) + 3 := by rw [C_add, C_mul]; rfl
      have c4 : (C 2 : ℝ[X]) = 2 := rfl
      rw [c1] at hB
      rw [c3, c4]
      linear_combination 2 * legPoly (n + 1) * hB
    rw [e, polyInt_add, polyInt_C_mul, polyInt_C_mul, leg_deriv_orth (n + 1) n (by omega)] at h1
    have h : 2 * ((n + 1 : ℕ) : ℝ) + 1 = 2 * (n : ℝ) + 3 := by push_cast; ring
    rw [h, eq_div_iff (by positivity)]
    linarith

/-! ### The series -/

/-- The series as a polynomial. -/
noncomputable def legSeries : Nat → List ℝ → ℝ[X]
  | _, [] => 0
  | l, a :: as => C a * legPoly l + legSeries (l + 1) as

theorem legSum_eval (mu : ℝ) : ∀ (as : List ℝ) (l : Nat) (acc : ℝ), legSum mu l acc as = acc + (legSeries l as).eval mu := by
  intro as
  induction as with
  | nil => intro l acc; simp [legSum, legSeries]
  | cons a as ih =>
    intro l acc
    rw [legSum, ih, legSeries, legendre_eval]
    simp only [eval_add, eval_mul, eval_C]; ring

theorem legPdf_eval (a : List ℝ) (mu : ℝ) : legPdf a mu = (legSeries 0 a).eval mu := by
  rw [legPdf, legSum_eval, zero_add]

theorem legSeries_moment (n : Nat) : ∀ (as : List ℝ) (l : Nat),
    polyInt (legSeries l as * legPoly n) = if l ≤ n then (as[n - l]?.getD 0) * (2 / (2 * (n : ℝ) + 1)) else 0 := by
  intro as
  induction as with
  | nil => intro l; simp [legSeries, polyInt]
  | cons a as ih =>
    intro l
    have e : legSeries l (a :: as) * legPoly n = C a * (legPoly l * legPoly n) + legSeries (l + 1) as * legPoly n := by
      rw [legSeries]; ring
    rw [e, polyInt_add, polyInt_C_mul, ih]
    rcases Nat.lt_trichotomy l n with h | h | h
    · rw [leg_orthogonal (by omega), if_pos (by omega), if_pos (by omega)]
      have : n - l = n - (l + 1) + 1 := by omega
      rw [this]; simp
    · subst h
      rw [leg_norm, if_neg (by omega), if_pos le_rfl]; simp
    · rw [leg_orthogonal (by omega), if_neg (by omega), if_neg (by omega)]; ring

/-! ### The scans over the 2001 cosines -/

theorem posLoop_iff (f : ℝ → ℝ) : ∀ (n : Nat) (mu : ℝ),
    posLoop f n mu = true ↔ ∀ i : Nat, i < n → 0 ≤ f (mu + i * 0.001) := by
  intro n
  induction n with
  | zero => intro mu; simp [posLoop]
  | succ n ih =>
    intro mu
    rw [posLoop]
    by_cases h : f mu < 0
    · rw [if_pos h]
      refine ⟨fun hc => absurd hc (by simp), fun hc => ?_⟩
      have := hc 0 (by omega); simp at this; linarith
    · rw [if_neg h, ih]
      constructor
      · intro hc i hi
        rcases i with _ | i
        · simpa using h
        · have := hc i (by omega)
          convert this using 2
          push_cast; ring
      · intro hc i hi
        have := hc (i + 1) (by omega)
        convert this using 2
        push_cast; ring

theorem maxLoop_spec (f : ℝ → ℝ) : ∀ (n : Nat) (mu cur : ℝ),
    cur ≤ maxLoop f n mu cur ∧ (∀ i : Nat, i < n → f (mu + (i + 1) * 0.001) ≤ maxLoop f n mu cur) ∧
      (maxLoop f n mu cur = cur ∨ ∃ i : Nat, i < n ∧ maxLoop f n mu cur = f (mu + (i + 1) * 0.001)) := by
  intro n
  induction n with
  | zero => intro mu cur; simp [maxLoop]
  | succ n ih =>
    intro mu cur
    rw [maxLoop]
    obtain ⟨h1, h2, h3⟩ := ih (mu + 0.001) (if f (mu + 0.001) > cur then f (mu + 0.001) else cur)
    refine ⟨?_, ?_, ?_⟩
    · refine le_trans ?_ h1
      split_ifs with h
      · exact h.le
      · exact le_rfl
    · intro i hi
      rcases i with _ | i
      · refine le_trans ?_ h1
        have e : mu + (((0 : ℕ) : ℝ) + 1) * 0.001 = mu + 0.001 := by push_cast; ring
        rw [e]
        split_ifs with h
        · exact le_rfl
        · exact not_lt.mp h
      · have := h2 i (by omega)
        convert this using 2
        push_cast; ring
    · rcases h3 with h | ⟨i, hi, h⟩
      · rw [h]
        split_ifs with hc
        · right; exact ⟨0, by omega, by congr 1; push_cast; ring⟩
        · left; rfl
      · right; exact ⟨i + 1, by omega, by rw [h]; congr 1; push_cast; ring⟩

end PNDL
