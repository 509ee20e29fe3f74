import Verif.Lemmas.Legendre
import Mathlib.Analysis.Calculus.MeanValue
import Mathlib.Analysis.Calculus.Deriv.Polynomial

/-! Legendre polynomials and their derivatives are bounded on `[-1, 1]`. -/
namespace PNDL
open Polynomial Spec

/-- `|P_n| ≤ 1` on `[-1, 1]`. -/
theorem legPoly_sq_le (n : Nat) (x : ℝ) (h0 : -1 ≤ x) (h1 : x ≤ 1) : ((legPoly n).eval x) ^ 2 ≤ 1 := by
  rcases Nat.eq_zero_or_pos n with rfl | hn
  · simp [legPoly]
  have hN : (0 : ℝ) < (n : ℝ) * ((n : ℝ) + 1) := by
    have : (0 : ℝ) < n := by exact_mod_cast hn
    positivity
  obtain ⟨P, hP⟩ : ∃ P, P = legPoly n := ⟨_, rfl⟩
  obtain ⟨N, hNd⟩ : ∃ N : ℝ, N = (n : ℝ) * ((n : ℝ) + 1) := ⟨_, rfl⟩
  rw [← hNd] at hN
  let F : ℝ[X] := C N * P ^ 2 + (1 - X ^ 2) * derivative P ^ 2
  have hode : (X ^ 2 - 1) * derivative (derivative P) + 2 * X * derivative P = C N * P := by
    have := leg_ode n
    rw [← hP, ← hNd] at this
    rw [← this]
    simp only [derivative_mul, derivative_sub, derivative_X_pow, derivative_one]
    simp
    rw [show (C (2 : ℝ) : ℝ[X]) = 2 from map_ofNat C 2]
    ring
  have hF : derivative F = 2 * X * derivative P ^ 2 := by
    have e : derivative F = 2 * C N * P * derivative P - 2 * X * derivative P ^ 2 + 2 * (1 - X ^ 2) * derivative P * derivative (derivative P) := by
      simp only [F, derivative_add, derivative_mul, derivative_sub, derivative_one, derivative_C, derivative_pow]
      simp
      rw [show (C (2 : ℝ) : ℝ[X]) = 2 from map_ofNat C 2]
      ring
    rw [e]
    linear_combination (2 * derivative P) * (-hode)
  have hder : ∀ t, HasDerivAt (fun x => F.eval x) (2 * t * (derivative P).eval t ^ 2) t := by
    intro t
    have := F.hasDerivAt t
    rw [hF] at this
    simpa using this
  have hFx : ∀ t, N * P.eval t ^ 2 + (1 - t ^ 2) * (derivative P).eval t ^ 2 = F.eval t := by
    intro t; simp [F]
  have hend1 : F.eval 1 = N := by rw [← hFx, hP, legPoly_one]; ring
  have hend2 : F.eval (-1) = N := by
    rw [← hFx, hP, legPoly_neg_one, ← pow_mul, mul_comm n 2, pow_mul]
    norm_num
  have hle : F.eval x ≤ N := by
    rcases le_total 0 x with hx | hx
    · rw [← hend1]
      have hm : MonotoneOn (fun x => F.eval x) (Set.Icc 0 1) := by
        refine monotoneOn_of_deriv_nonneg (convex_Icc 0 1) F.continuous.continuousOn F.differentiable.differentiableOn fun t ht => ?_
        rw [interior_Icc] at ht
        rw [(hder t).deriv]
        have := ht.1.le
        positivity
      exact hm ⟨hx, h1⟩ ⟨by norm_num, le_rfl⟩ h1
    · rw [← hend2]
      have hm : AntitoneOn (fun x => F.eval x) (Set.Icc (-1) 0) := by
        refine antitoneOn_of_deriv_nonpos (convex_Icc (-1) 0) F.continuous.continuousOn F.differentiable.differentiableOn fun t ht => ?_
        rw [interior_Icc] at ht
        rw [(hder t).deriv]
        have := ht.2.le
        nlinarith [sq_nonneg (eval t (derivative P))]
      exact hm ⟨le_rfl, by norm_num⟩ ⟨h0, hx⟩ h0
  rw [← hFx, hP] at hle
  have : 0 ≤ (1 - x ^ 2) * (derivative (legPoly n)).eval x ^ 2 := mul_nonneg (by nlinarith) (sq_nonneg _)
  have h : N * (legPoly n).eval x ^ 2 ≤ N * 1 := by linarith
  exact le_of_mul_le_mul_left h hN

theorem legPoly_abs_le (n : Nat) (x : ℝ) (h0 : -1 ≤ x) (h1 : x ≤ 1) : |(legPoly n).eval x| ≤ 1 :=
  abs_le_one_iff_mul_self_le_one.mpr (by have := legPoly_sq_le n x h0 h1; rwa [sq] at this)

/-- `|P_n'| ≤ n(n+1)/2` on `[-1, 1]`. -/
theorem legPoly_deriv_le (n : Nat) : ∀ x : ℝ, -1 ≤ x → x ≤ 1 → |(derivative (legPoly n)).eval x| ≤ (n : ℝ) * (n + 1) / 2 := by
  induction n using Nat.strong_induction_on with
  | _ n ih =>
    intro x h0 h1
    match n with
    | 0 => simp [legPoly]
    | 1 => simp [legPoly]
    | n + 2 =>
      have h := leg_deriv_diff n
      have e : (derivative (legPoly (n + 2))).eval x = (derivative (legPoly n)).eval x + (2 * (n : ℝ) + 3) * (legPoly (n + 1)).eval x := by
        have := congrArg (fun p => p.eval x) h
        simp only [eval_sub, eval_mul, eval_C] at this
        linarith
      rw [e]
      have i1 := ih n (by omega) x h0 h1
      have i2 := legPoly_abs_le (n + 1) x h0 h1
      refine (abs_add_le _ _).trans ?_
      rw [abs_mul, abs_of_pos (by positivity : (0 : ℝ) < 2 * (n : ℝ) + 3)]
      have : (2 * (n : ℝ) + 3) * |eval x (legPoly (n + 1))| ≤ (2 * (n : ℝ) + 3) * 1 := mul_le_mul_of_nonneg_left i2 (by positivity)
      push_cast
      nlinarith

/-- `|P_n''| ≤ (n-1)n(n+1)(n+2)/8` on `[-1, 1]`. -/
theorem legPoly_deriv2_le (n : Nat) : ∀ x : ℝ, -1 ≤ x → x ≤ 1 →
    |(derivative (derivative (legPoly n))).eval x| ≤ ((n : ℝ) - 1) * n * (n + 1) * (n + 2) / 8 := by
  induction n using Nat.strong_induction_on with
  | _ n ih =>
    intro x h0 h1
    match n with
    | 0 => simp [legPoly]
    | 1 => simp [legPoly]
    | n + 2 =>
      have h := congrArg derivative (leg_deriv_diff n)
      have e : (derivative (derivative (legPoly (n + 2)))).eval x =
          (derivative (derivative (legPoly n))).eval x + (2 * (n : ℝ) + 3) * (derivative (legPoly (n + 1))).eval x := by
        rw [derivative_sub, derivative_C_mul] at h
        have := congrArg (fun p => p.eval x) h
        simp only [eval_sub, eval_mul, eval_C] at this
        linarith
      rw [e]
      have i1 := ih n (by omega) x h0 h1
      have i2 := legPoly_deriv_le (n + 1) x h0 h1
      refine (abs_add_le _ _).trans ?_
      rw [abs_mul, abs_of_pos (by positivity : (0 : ℝ) < 2 * (n : ℝ) + 3)]
      have : (2 * (n : ℝ) + 3) * |eval x (derivative (legPoly (n + 1)))| ≤ (2 * (n : ℝ) + 3) * (((n + 1 : ℕ) : ℝ) * ((n + 1 : ℕ) + 1) / 2) :=
        mul_le_mul_of_nonneg_left i2 (by positivity)
      push_cast at this ⊢
      nlinarith

/-- A polynomial whose second derivative is at most `B` differs from its value at a stationary point by at most `B d²`. -/
theorem poly_near {p : ℝ[X]} {B x y : ℝ} (hx : -1 ≤ x ∧ x ≤ 1) (hy : -1 ≤ y ∧ y ≤ 1) (hB : ∀ t, -1 ≤ t → t ≤ 1 → |(derivative (derivative p)).eval t| ≤ B)
    (hs : (derivative p).eval x = 0) : |p.eval y - p.eval x| ≤ B * |y - x| * |y - x| := by
  have hcv : Convex ℝ (Set.Icc (-1 : ℝ) 1) := convex_Icc _ _
  have h1 : ∀ t ∈ segment ℝ x y, ‖(derivative p).eval t‖ ≤ B * |y - x| := by
    intro t ht
    have htI : t ∈ Set.Icc (-1 : ℝ) 1 := hcv.segment_subset hx hy ht
    have := hcv.norm_image_sub_le_of_norm_hasDerivWithin_le (f := fun t => (derivative p).eval t) (f' := fun t => (derivative (derivative p)).eval t) (C := B)
      (fun t _ => ((derivative p).hasDerivAt t).hasDerivWithinAt) (fun t ht => hB t ht.1 ht.2) (x := x) (y := t) hx htI
    rw [hs, sub_zero] at this
    refine this.trans (mul_le_mul_of_nonneg_left ?_ ?_)
    · rw [segment_eq_uIcc] at ht
      exact Set.abs_sub_left_of_mem_uIcc ht
    · exact (abs_nonneg _).trans (hB x hx.1 hx.2)
  have := (convex_segment x y).norm_image_sub_le_of_norm_hasDerivWithin_le (f := fun t => p.eval t) (f' := fun t => (derivative p).eval t) (C := B * |y - x|)
    (fun t _ => (p.hasDerivAt t).hasDerivWithinAt) h1 (left_mem_segment ℝ x y) (right_mem_segment ℝ x y)
  simpa using this

end PNDL
