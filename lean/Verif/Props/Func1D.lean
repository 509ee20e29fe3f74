import Verif.Model.Func1D
import Verif.Props.Tab1D
import Mathlib.Analysis.SpecialFunctions.Integrals.Basic

/-! C24 (polynomials) and C25 (sums, differences, constants). -/
namespace PNDL
open Spec MeasureTheory

/-- Specification: the polynomial with the given coefficients, constant term first. -/
noncomputable def Spec.polynomial (c : List ℝ) (x : ℝ) : ℝ := ∑ i ∈ Finset.range c.length, c.getD i 0 * x ^ i

theorem polynomial_cons (c : ℝ) (cs : List ℝ) (x : ℝ) : polynomial (c :: cs) x = c + x * polynomial cs x := by
  unfold polynomial
  rw [List.length_cons, Finset.sum_range_succ', Finset.mul_sum, add_comm]
  simp only [List.getD_cons_zero, pow_zero, mul_one, List.getD_cons_succ]
  congr 1
  refine Finset.sum_congr rfl fun i _ => by ring

theorem polyLoop_append (x : ℝ) : ∀ (l l' : List ℝ) (v : ℝ), polyLoop x (l ++ l') v = polyLoop x l' (polyLoop x l v) := by
  intro l
  induction l with
  | nil => intro l' v; rfl
  | cons a l ih => intro l' v; exact ih l' _

/-- `operator()` computes the polynomial, whatever the degree (including no coefficients at all). -/
theorem C24_eval (c : List ℝ) (x : ℝ) : (Fn1D.poly c).eval x = .ok (polynomial c x) := by
  show Except.ok (polyEval c x) = _
  congr 1
  unfold polyEval
  induction c with
  | nil => simp [polyLoop, polynomial]
  | cons a cs ih =>
    rw [List.reverse_cons, polyLoop_append, ih, polynomial_cons]
    simp only [polyLoop]
    ring

/-- Antiderivative computed by the loop. -/
noncomputable def antider (e : ℕ) : List ℝ → ℝ → ℝ
  | [], _ => 0
  | c :: cs, x => c / (e + 1) + x * antider (e + 1) cs x

theorem polyIntLoop_append (a b : ℝ) : ∀ (l : List ℝ) (c e hi low : ℝ),
    polyIntLoop a b (l ++ [c]) e hi low =
      (do let p ← polyIntLoop a b l e hi low
          let k ← rdiv c (e - l.length)
          return (p.1 * b + k, p.2 * a + k)) := by
  intro l
  induction l with
  | nil => intro c e hi low; simp [polyIntLoop, bind, Except.bind, pure, Except.pure]
  | cons d l ih =>
    intro c e hi low
    simp only [List.cons_append, polyIntLoop, bind, Except.bind]
    cases h : rdiv d e with
    | error er => rfl
    | ok k =>
      simp only
      rw [ih]
      simp only [bind, Except.bind, List.length_cons, Nat.cast_add, Nat.cast_one, sub_add_eq_sub_sub, sub_right_comm e]

theorem polyIntLoop_spec (a b : ℝ) : ∀ (c : List ℝ) (e : ℕ),
    polyIntLoop a b c.reverse ((e + c.length : ℕ) : ℝ) 0 0 = .ok (antider e c b, antider e c a) := by
  intro c
  induction c with
  | nil => intro e; rfl
  | cons d c ih =>
    intro e
    rw [List.reverse_cons, polyIntLoop_append]
    have h1 := ih (e + 1)
    rw [show e + 1 + c.length = e + (d :: c).length by simp; omega] at h1
    rw [h1]
    have h2 : (((e + (d :: c).length : ℕ) : ℝ) - (c.reverse.length : ℝ)) = (e : ℝ) + 1 := by
      simp only [List.length_cons, List.length_reverse, Nat.cast_add, Nat.cast_one]; ring
    have h3 : ((e : ℝ) + 1) ≠ 0 := by positivity
    simp only [bind, Except.bind, h2, rdiv_ok h3, pure, Except.pure, antider]
    congr 2 <;> ring

theorem antider_sum : ∀ (c : List ℝ) (e : ℕ) (x : ℝ),
    antider e c x = ∑ i ∈ Finset.range c.length, c.getD i 0 / (e + i + 1) * x ^ i := by
  intro c
  induction c with
  | nil => intro e x; simp [antider]
  | cons d c ih =>
    intro e x
    rw [antider, ih, List.length_cons, Finset.sum_range_succ', Finset.mul_sum, add_comm]
    simp only [List.getD_cons_zero, pow_zero, mul_one, List.getD_cons_succ]
    congr 1
    · refine Finset.sum_congr rfl fun i _ => ?_
      push_cast
      rw [show ((e : ℝ) + 1 + i + 1) = (e : ℝ) + (i + 1) + 1 by ring]
      ring
    · simp

theorem polynomial_continuous (c : List ℝ) : Continuous (polynomial c) := by
  unfold polynomial
  fun_prop

/-- `integrate` computes the exact integral, whatever the degree and the bounds. -/
theorem C24_integrate (c : List ℝ) (a b : ℝ) : (Fn1D.poly c).integrate a b = .ok (∫ x in a..b, polynomial c x) := by
  have h := polyIntLoop_spec a b c 0
  rw [Nat.zero_add] at h
  show polyIntegrate c a b = _
  unfold polyIntegrate
  rw [h]
  simp only [bind, Except.bind, pure, Except.pure]
  congr 1
  unfold polynomial
  rw [intervalIntegral.integral_finsetSum (fun i _ => Continuous.intervalIntegrable (by fun_prop) _ _), antider_sum, antider_sum,
    Finset.sum_mul, Finset.sum_mul, ← Finset.sum_sub_distrib]
  refine Finset.sum_congr rfl fun i _ => ?_
  rw [intervalIntegral.integral_const_mul, integral_pow]
  push_cast
  have : ((i : ℝ) + 1) ≠ 0 := by positivity
  field_simp
  ring

example : (Fn1D.poly [1, 2, 3]).eval 2 = .ok 17 := by
  rw [C24_eval]; norm_num [polynomial, Finset.sum_range_succ]
example : (Fn1D.poly [1, 2, 3]).integrate 0 2 = .ok 14 := by
  show polyIntegrate [1, 2, 3] 0 2 = _
  norm_num [polyIntegrate, polyIntLoop, rdiv, bind, Except.bind, pure, Except.pure]
example : (Fn1D.poly []).integrate 0 2 = .ok 0 := by
  rw [C24_integrate]; simp [polynomial]

/-! ## C25 -/

/-- `f` evaluates to `g` between `a` and `b`, and its `integrate(a,b)` is the integral of `g`. -/
def Spec.Exact (f : Fn1D) (g : ℝ → ℝ) (a b : ℝ) : Prop :=
  (∀ x ∈ Set.uIcc a b, f.eval x = .ok (g x)) ∧ IntervalIntegrable g volume a b ∧ f.integrate a b = .ok (∫ x in a..b, g x)

/-- A constant is exact on every interval. -/
theorem C25_const (v a b : ℝ) : Exact (.const v) (fun _ => v) a b := by
  refine ⟨fun _ _ => rfl, intervalIntegrable_const, ?_⟩
  simp [Fn1D.integrate, mul_comm]

/-- The sum and the difference of exact functions are exact: pointwise sum/difference of values, and the integral of it. -/
theorem C25_sum_diff (f₁ f₂ : Fn1D) (g₁ g₂ : ℝ → ℝ) (a b : ℝ) (h₁ : Exact f₁ g₁ a b) (h₂ : Exact f₂ g₂ a b) :
    (∃ s, Fn1D.mkSum (some f₁) (some f₂) = .ok s ∧ Exact s (fun x => g₁ x + g₂ x) a b) ∧
      ∃ d, Fn1D.mkDiff (some f₁) (some f₂) = .ok d ∧ Exact d (fun x => g₁ x - g₂ x) a b := by
  obtain ⟨e1, i1, s1⟩ := h₁
  obtain ⟨e2, i2, s2⟩ := h₂
  refine ⟨⟨_, rfl, fun x hx => ?_, i1.add i2, ?_⟩, _, rfl, fun x hx => ?_, i1.sub i2, ?_⟩
  · simp only [Fn1D.eval, e1 x hx, e2 x hx, bind, Except.bind, pure, Except.pure]
  · simp only [Fn1D.integrate, s1, s2, bind, Except.bind, pure, Except.pure, intervalIntegral.integral_add i1 i2]
  · simp only [Fn1D.eval, e1 x hx, e2 x hx, bind, Except.bind, pure, Except.pure]
  · simp only [Fn1D.integrate, s1, s2, bind, Except.bind, pure, Except.pure, intervalIntegral.integral_sub i1 i2]

/-- A null term makes the constructor throw. -/
theorem C25_null (f : Option Fn1D) : Fn1D.mkSum none f = .error .exc ∧ Fn1D.mkSum f none = .error .exc ∧
    Fn1D.mkDiff none f = .error .exc ∧ Fn1D.mkDiff f none = .error .exc := by
  cases f <;> exact ⟨rfl, rfl, rfl, rfl⟩

/-- Specification: what an expression tree means, given what its tables mean. -/
noncomputable def Spec.meaning (T : Tab1D → ℝ → ℝ) : Fn1D → ℝ → ℝ
  | .const v, _ => v
  | .poly c, x => polynomial c x
  | .tab t, x => T t x
  | .sum f g, x => meaning T f x + meaning T g x
  | .diff f g, x => meaning T f x - meaning T g x

/-- The tables occurring in an expression tree. -/
def Spec.tables : Fn1D → List Tab1D
  | .const _ => []
  | .poly _ => []
  | .tab t => [t]
  | .sum f g => tables f ++ tables g
  | .diff f g => tables f ++ tables g

/-- Every expression tree, of any depth, evaluates to its meaning and integrates it exactly, on every interval on which the
tables at its leaves do. -/
theorem C25_tree (T : Tab1D → ℝ → ℝ) (a b : ℝ) :
    ∀ f : Fn1D, (∀ t ∈ tables f, Exact (.tab t) (T t) a b) → Exact f (meaning T f) a b
  | .const v, _ => C25_const v a b
  | .poly c, _ => ⟨fun x _ => C24_eval c x, (polynomial_continuous c).intervalIntegrable _ _, C24_integrate c a b⟩
  | .tab t, h => h t (by simp [tables])
  | .sum f g, h => by
    obtain ⟨⟨s, hs, he⟩, _⟩ := C25_sum_diff f g _ _ a b (C25_tree T a b f (fun t ht => h t (by simp [tables, ht])))
      (C25_tree T a b g (fun t ht => h t (by simp [tables, ht])))
    simp only [Fn1D.mkSum, Except.ok.injEq] at hs
    subst hs; exact he
  | .diff f g, h => by
    obtain ⟨_, ⟨s, hs, he⟩⟩ := C25_sum_diff f g _ _ a b (C25_tree T a b f (fun t ht => h t (by simp [tables, ht])))
      (C25_tree T a b g (fun t ht => h t (by simp [tables, ht])))
    simp only [Fn1D.mkDiff, Except.ok.injEq] at hs
    subst hs; exact he

/-- In particular every tree of polynomials and constants, on every interval. -/
theorem C25_smooth_tree (f : Fn1D) (hf : tables f = []) (a b : ℝ) : Exact f (meaning (fun _ _ => 0) f) a b :=
  C25_tree _ a b f (by rw [hf]; simp)

/-- Well-formed tables are exact on intervals inside their domain, so `C25_tree` applies to trees containing them. -/
theorem C25_table (nbt : List Nat) (int : List Interpolation) (x y : List ℝ) (t : Tab1D) (h : IntegrableTable nbt int x y t)
    (mn mx : ℝ) (hmn : x[0]? = some mn) (hmx : x.getLast? = some mx) (a b : ℝ) (ha : mn ≤ a ∧ a ≤ mx) (hb : mn ≤ b ∧ b ≤ mx) :
    ∃ G, Exact (.tab t) G a b := by
  obtain ⟨G, hG⟩ := C21_total nbt int x y t h
  obtain ⟨h1, h2⟩ := integrableTable_core h hmn hmx G (fun v _ _ => hG v) a b
  have ca : clip a mn mx = a := by unfold clip; rw [min_eq_left ha.2, max_eq_right ha.1]
  have cb : clip b mn mx = b := by unfold clip; rw [min_eq_left hb.2, max_eq_right hb.1]
  rw [ca, cb] at h1 h2
  exact ⟨G, fun v _ => hG v, h1, h2⟩

example : ∃ g, Exact (.diff (.sum (.poly [0, 1]) (.const 2)) (.poly [1])) g 0 1 := ⟨_, C25_smooth_tree _ rfl 0 1⟩

end PNDL
