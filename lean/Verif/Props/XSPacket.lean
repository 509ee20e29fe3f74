import Verif.Spec.XSPacket
import Verif.Lemmas.Base

/-! C09: `XSPacket` is a vector space (except for unary minus). -/
set_option linter.unusedSectionVars false
namespace PNDL
open Spec
variable {K : Type _} [Field K] [DecidableEq K]

theorem vec_injective {a b : XSPacket K} (h : vec a = vec b) : a = b := by
  cases a; cases b; simp [vec] at h; simp [h]

/-- The operators act component-wise. -/
theorem C09_componentwise (a b : XSPacket K) (c : K) :
    vec (a.add b) = List.zipWith (· + ·) (vec a) (vec b) ∧
    vec (a.sub b) = List.zipWith (· - ·) (vec a) (vec b) ∧
    vec (a.mul c) = (vec a).map (· * c) ∧
    (c ≠ 0 → ∃ q, a.div c = .ok q ∧ vec q = (vec a).map (· / c)) ∧
    (c = 0 → a.div c = .error .nonfinite) := by
  refine ⟨rfl, rfl, rfl, ?_, ?_⟩
  · intro hc
    refine ⟨a.mul (1 / c), by simp [XSPacket.div, cdiv_of_ne hc, bind, Except.bind, pure, Except.pure], ?_⟩
    simp [vec, XSPacket.mul, div_eq_mul_inv]
  · rintro rfl; simp [XSPacket.div, cdiv_zero, bind, Except.bind]

/-- Compound assignments agree with the binary operators. -/
theorem C09_compound_assignment (a b : XSPacket K) (c : K) :
    a.addAssign b = a.add b ∧ a.subAssign b = a.sub b ∧ a.mulAssign c = a.mul c ∧ a.divAssign c = a.div c :=
  ⟨rfl, rfl, rfl, rfl⟩

/-- The vector-space laws of `+`, `-`, `*`, `/`. -/
theorem C09_vector_laws (a b d : XSPacket K) (c e : K) :
    a.add b = b.add a ∧ (a.add b).add d = a.add (b.add d) ∧ a.add (zeroPacket K) = a ∧
    (a.add b).sub b = a ∧ a.sub a = zeroPacket K ∧
    (a.add b).mul c = (a.mul c).add (b.mul c) ∧ a.mul (c + e) = (a.mul c).add (a.mul e) ∧
    (a.mul c).mul e = a.mul (c * e) ∧ a.mul 1 = a ∧
    (c ≠ 0 → (a.mul c).div c = .ok a) := by
  refine ⟨?_, ?_, ?_, ?_, ?_, ?_, ?_, ?_, ?_, ?_⟩
  on_goal 10 =>
    intro hc
    have : (a.mul c).mul (1 / c) = a := by
      apply vec_injective; simp [vec, XSPacket.mul, hc]
    simp only [XSPacket.div, cdiv_of_ne hc, bind, Except.bind, pure, Except.pure, this]
  all_goals
    apply vec_injective
    simp only [vec, XSPacket.add, XSPacket.sub, XSPacket.mul, zeroPacket, List.cons.injEq, and_true]
    refine ⟨?_, ?_, ?_, ?_, ?_, ?_, ?_⟩ <;> ring

/-- The full claim "`-a` is the additive inverse of `a`" is false of the shipped code. -/
theorem C09_violation_neg : ∃ a : XSPacket ℚ, a.add a.neg ≠ zeroPacket ℚ :=
  ⟨⟨3, 1, 0, 2, 1, 1, 0⟩, by decide +kernel⟩

/-- Exactly which packets unary minus negates correctly: those whose fission equals their absorption. -/
theorem C09_neg_iff (a : XSPacket K) : a.add a.neg = zeroPacket K ↔ a.fission = a.absorption := by
  constructor
  · intro h
    have := congrArg XSPacket.fission h
    simp only [XSPacket.add, XSPacket.neg, zeroPacket] at this
    exact add_neg_eq_zero.mp this
  · intro h
    apply vec_injective
    simp [vec, XSPacket.add, XSPacket.neg, zeroPacket, h]

/-- Proved part of the inverse law: every component but `fission` is negated. -/
theorem C09_neg_components_partial (a : XSPacket K) :
    (a.add a.neg).total = 0 ∧ (a.add a.neg).elastic = 0 ∧ (a.add a.neg).inelastic = 0 ∧
    (a.add a.neg).absorption = 0 ∧ (a.add a.neg).capture = 0 ∧ (a.add a.neg).heating = 0 := by
  simp [XSPacket.add, XSPacket.neg]

example : ((⟨3, 1, 0, 2, 1, 1, 0⟩ : XSPacket ℚ).mul 2).div 2 = .ok ⟨3, 1, 0, 2, 1, 1, 0⟩ := by decide +kernel

end PNDL
