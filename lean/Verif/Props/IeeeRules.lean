import Verif.Lemmas.STNeutron
import Verif.Model.Ieee
import Mathlib.Data.EReal.Operations
import Mathlib.Data.EReal.Inv

/-! C140, C141: the arithmetic with special values follows the rules of IEEE 754, stated with the extended real numbers of Mathlib. -/
namespace PNDL

/-- The extended real number that a `double` other than NaN stands for. -/
noncomputable def Spec.extended : Num → EReal
  | .fin x => (x : EReal)
  | .inf s => if s then ⊥ else ⊤
  | .nan => 0

open Spec

private theorem ext_coe (x : ℝ) : extended (.fin x) = (x : EReal) := rfl
private theorem ext_neg : extended (.inf true) = ⊥ := rfl
private theorem ext_pos : extended (.inf false) = ⊤ := rfl

/-- C140: sums, products and quotients of numbers that are not NaN are those of extended real numbers; the result is NaN exactly for
`∞ - ∞`, `0 · ∞`, `0 / 0` and `∞ / ∞`; a number other than zero divided by zero is an infinity of its sign. -/
theorem C140_arithmetic (a b : Num) (ha : a ≠ .nan) (hb : b ≠ .nan) :
    ((Num.add a b = .nan ↔ (extended a = ⊤ ∧ extended b = ⊥) ∨ (extended a = ⊥ ∧ extended b = ⊤)) ∧
      (Num.add a b ≠ .nan → extended (Num.add a b) = extended a + extended b)) ∧
    ((Num.mul a b = .nan ↔ (extended a = 0 ∧ (extended b = ⊤ ∨ extended b = ⊥)) ∨ ((extended a = ⊤ ∨ extended a = ⊥) ∧ extended b = 0)) ∧
      (Num.mul a b ≠ .nan → extended (Num.mul a b) = extended a * extended b)) ∧
    ((Num.div a b = .nan ↔ (extended a = 0 ∧ extended b = 0) ∨ ((extended a = ⊤ ∨ extended a = ⊥) ∧ (extended b = ⊤ ∨ extended b = ⊥))) ∧
      (extended b ≠ 0 → Num.div a b ≠ .nan → extended (Num.div a b) = extended a / extended b) ∧
      (extended b = 0 → (0 < extended a → Num.div a b = .inf false) ∧ (extended a < 0 → Num.div a b = .inf true))) := by
  refine ⟨⟨?_, ?_⟩, ⟨?_, ?_⟩, ⟨?_, ?_, ?_⟩⟩
  · cases a with
    | nan => exact absurd rfl ha
    | fin x =>
      cases b with
      | nan => exact absurd rfl hb
      | fin y => simp [Num.add, extended]
      | inf t => cases t <;> simp [Num.add, extended]
    | inf s =>
      cases b with
      | nan => exact absurd rfl hb
      | fin y => cases s <;> simp [Num.add, extended]
      | inf t => cases s <;> cases t <;> simp [Num.add, extended]
  · cases a with
    | nan => exact absurd rfl ha
    | fin x =>
      cases b with
      | nan => exact absurd rfl hb
      | fin y => simp [Num.add, extended]
      | inf t => cases t <;> simp [Num.add, extended]
    | inf s =>
      cases b with
      | nan => exact absurd rfl hb
      | fin y => cases s <;> simp [Num.add, extended]
      | inf t => cases s <;> cases t <;> simp [Num.add, extended]
  · cases a with
    | nan => exact absurd rfl ha
    | fin x =>
      cases b with
      | nan => exact absurd rfl hb
      | fin y => simp [Num.mul, extended]
      | inf t => cases t <;> simp [Num.mul, extended]
    | inf s =>
      cases b with
      | nan => exact absurd rfl hb
      | fin y => cases s <;> simp [Num.mul, extended]
      | inf t => cases s <;> cases t <;> simp [Num.mul, extended]
  · cases a with
    | nan => exact absurd rfl ha
    | fin x =>
      cases b with
      | nan => exact absurd rfl hb
      | fin y => simp [Num.mul, extended]
      | inf t =>
        intro h
        have hx : x ≠ 0 := by rintro rfl; simp [Num.mul] at h
        rcases lt_or_gt_of_ne hx with hx' | hx' <;> cases t <;>
          simp [Num.mul, extended, hx, hx', hx'.le, not_lt.mpr hx'.le, EReal.coe_mul_top_of_pos, EReal.coe_mul_top_of_neg, EReal.coe_mul_bot_of_pos,
            EReal.coe_mul_bot_of_neg]
    | inf s =>
      cases b with
      | nan => exact absurd rfl hb
      | fin x =>
        intro h
        have hx : x ≠ 0 := by rintro rfl; simp [Num.mul] at h
        rcases lt_or_gt_of_ne hx with hx' | hx' <;> cases s <;>
          simp [Num.mul, extended, hx, hx', hx'.le, not_lt.mpr hx'.le, EReal.top_mul_coe_of_pos, EReal.top_mul_coe_of_neg, EReal.bot_mul_coe_of_pos,
            EReal.bot_mul_coe_of_neg]
      | inf t => cases s <;> cases t <;> simp [Num.mul, extended]
  · cases a with
    | nan => exact absurd rfl ha
    | fin x =>
      cases b with
      | nan => exact absurd rfl hb
      | fin y =>
        by_cases hy : y = 0 <;> by_cases hx : x = 0 <;> simp [Num.div, extended, hx, hy]
      | inf t => cases t <;> simp [Num.div, extended]
    | inf s =>
      cases b with
      | nan => exact absurd rfl hb
      | fin y => cases s <;> simp [Num.div, extended]
      | inf t => cases s <;> cases t <;> simp [Num.div, extended]
  · cases a with
    | nan => exact absurd rfl ha
    | fin x =>
      cases b with
      | nan => exact absurd rfl hb
      | fin y =>
        intro hy _
        have hy : y ≠ 0 := by simpa [extended] using hy
        simp [Num.div, extended, hy, EReal.coe_div]
      | inf t => cases t <;> simp [Num.div, extended]
    | inf s =>
      cases b with
      | nan => exact absurd rfl hb
      | fin y =>
        intro hy _
        have hy : y ≠ 0 := by simpa [extended] using hy
        rcases lt_or_gt_of_ne hy with hy' | hy' <;> cases s <;>
          simp [Num.div, extended, hy', not_lt.mpr hy'.le, EReal.top_div_of_pos_ne_top, EReal.top_div_of_neg_ne_bot, EReal.bot_div_of_pos_ne_top,
            EReal.bot_div_of_neg_ne_bot]
      | inf t => cases s <;> cases t <;> simp [Num.div]
  · intro h
    cases b with
    | nan => exact absurd rfl hb
    | inf t => cases t <;> simp [extended] at h
    | fin y =>
      have hy : y = 0 := by simpa [extended] using h
      subst hy
      cases a with
      | nan => exact absurd rfl ha
      | fin x =>
        refine ⟨fun hx => ?_, fun hx => ?_⟩
        · have hx : 0 < x := by simpa [extended] using hx
          simp [Num.div, hx.ne', hx.le]
        · have hx : x < 0 := by simpa [extended] using hx
          simp [Num.div, hx.ne, hx]
      | inf s => cases s <;> simp [Num.div, extended]

/-- C140: an operation with NaN gives NaN; a comparison with NaN is false; other comparisons are those of extended real numbers; a square root of a
negative number and a logarithm of a negative number are NaN, and nothing else is. -/
theorem C140_special (a b : Num) :
    (Num.add .nan b = .nan ∧ Num.add a .nan = .nan ∧ Num.mul .nan b = .nan ∧ Num.mul a .nan = .nan ∧ Num.div .nan b = .nan ∧ Num.div a .nan = .nan ∧
      Num.sqrt .nan = .nan ∧ Num.log .nan = .nan ∧ Num.exp .nan = .nan ∧ Num.sinh .nan = .nan) ∧
    (¬ Num.lt .nan b ∧ ¬ Num.lt a .nan ∧ ¬ Num.eq .nan b ∧ ¬ Num.eq a .nan ∧ ¬ Num.le .nan b ∧ ¬ Num.le a .nan) ∧
    (a ≠ .nan → b ≠ .nan → (Num.lt a b ↔ extended a < extended b) ∧ (Num.eq a b ↔ extended a = extended b) ∧ (Num.le a b ↔ extended a ≤ extended b)) ∧
    (a ≠ .nan → (Num.sqrt a = .nan ↔ extended a < 0) ∧ (Num.log a = .nan ↔ extended a < 0)) := by
  have hlt : ∀ a b : Num, a ≠ .nan → b ≠ .nan → ((Num.lt a b ↔ extended a < extended b) ∧ (Num.eq a b ↔ extended a = extended b)) := by
    intro a b ha hb
    cases a with
    | nan => exact absurd rfl ha
    | fin x =>
      cases b with
      | nan => exact absurd rfl hb
      | fin y => simp [Num.lt, Num.eq, extended]
      | inf t => cases t <;> simp [Num.lt, Num.eq, extended]
    | inf s =>
      cases b with
      | nan => exact absurd rfl hb
      | fin y => cases s <;> simp [Num.lt, Num.eq, extended]
      | inf t => cases s <;> cases t <;> simp [Num.lt, Num.eq, extended]
  refine ⟨?_, ?_, fun ha hb => ?_, fun ha => ?_⟩
  · cases a <;> cases b <;> simp [Num.add, Num.mul, Num.div, Num.sqrt, Num.log, Num.exp, Num.sinh]
  · cases a <;> cases b <;> simp [Num.lt, Num.eq, Num.le]
  · obtain ⟨h1, h2⟩ := hlt a b ha hb
    exact ⟨h1, h2, by unfold Num.le; rw [h1, h2, le_iff_lt_or_eq]⟩
  · cases a with
    | nan => exact absurd rfl ha
    | fin x =>
      refine ⟨by simp [Num.sqrt, extended], ?_⟩
      rcases lt_trichotomy x 0 with h | h | h
      · simp [Num.log, extended, h, h.le, h.ne, not_lt.mpr h.le]
      · simp [Num.log, extended, h]
      · simp [Num.log, extended, h, h.le]
    | inf s => cases s <;> simp [Num.sqrt, Num.log, extended]

/-- `0 / 0` and `1 / 0`. -/
example : Num.div (.fin 0) (.fin 0) = .nan ∧ Num.div (.fin 1) (.fin 0) = .inf false :=
  ⟨((C140_arithmetic (.fin 0) (.fin 0) (by simp) (by simp)).2.2.1).mpr (Or.inl ⟨by simp [extended], by simp [extended]⟩),
    ((C140_arithmetic (.fin 1) (.fin 0) (by simp) (by simp)).2.2.2.2 (by simp [extended])).1 (by simp [extended])⟩

/-- C141: limiting a cosine leaves NaN, and otherwise gives the nearest number of -1 to 1; an infinity becomes the end of its sign. -/
theorem C141_limit (a : Num) : (Num.clamp a = .nan ↔ a = .nan) ∧ (a ≠ .nan → extended (Num.clamp a) = Max.max (-1) (Min.min 1 (extended a))) := by
  refine ⟨by cases a <;> simp [Num.clamp], fun hn => ?_⟩
  cases a with
  | nan => exact absurd rfl hn
  | inf s =>
    cases s
    · simp only [Num.clamp, extended]; simp
      exact EReal.coe_le_coe_iff.mpr (by norm_num : (-1 : ℝ) ≤ 1)
    · simp only [Num.clamp, extended]; simp
  | fin x =>
    have : clampMu x = Max.max (-1) (Min.min 1 x) := by
      unfold clampMu
      by_cases h : |x| > 1
      · rw [if_pos h]
        by_cases h0 : x < 0
        · rw [if_pos h0]
          rw [abs_of_neg h0] at h
          rw [min_eq_right (by linarith), max_eq_left (by linarith)]
        · rw [if_neg h0]
          rw [abs_of_nonneg (not_lt.mp h0)] at h
          rw [min_eq_left h.le]; norm_num
      · rw [if_neg h]
        obtain ⟨h1, h2⟩ := abs_le.mp (not_lt.mp h)
        rw [min_eq_right h2, max_eq_right h1]
    rw [Num.clamp, extended, this, extended, EReal.coe_strictMono.monotone.map_max, EReal.coe_strictMono.monotone.map_min]
    rfl

/-- C141: whatever the tables and the incident energy, the cosine that a Kalbach-Mann law returns is NaN or a number from -1 to 1, never an
infinity. -/
theorem C141_cosine (d : Kalbach) (E : ℝ) (ω : Tape) (k n : Nat) (mu Eout : Num) (h : d.sampleN E ω k = .ok (mu, Eout, n)) :
    mu = .nan ∨ ∃ x : ℝ, mu = .fin x ∧ -1 ≤ x ∧ x ≤ 1 := by
  unfold Kalbach.sampleN at h
  obtain ⟨⟨l, f⟩, _, h⟩ := bind_ok h
  obtain ⟨t0, _, h⟩ := bind_ok h
  obtain ⟨t1, _, h⟩ := bind_ok h
  obtain ⟨⟨a0, b0, a1, b1, Emin, Emax⟩, _, h⟩ := bind_ok h
  obtain ⟨⟨Eh, a, b, R, A⟩, _, h⟩ := bind_ok h
  obtain ⟨raw, hraw⟩ : ∃ raw, raw = kalbachCosineN R A (ω (k + 2)) (ω (k + 3)) := ⟨_, rfl⟩
  have hm : Num.clamp raw = mu := by rw [hraw]; exact congrArg Prod.fst (Except.ok.inj h)
  subst hm
  cases raw with
  | nan => exact Or.inl rfl
  | inf s => cases s <;> exact Or.inr ⟨_, rfl, by norm_num⟩
  | fin x =>
    refine Or.inr ⟨_, rfl, ?_⟩
    unfold clampMu
    by_cases h : |x| > 1
    · rw [if_pos h]
      split_ifs <;> norm_num
    · rw [if_neg h]
      exact abs_le.mp (not_lt.mp h)

/-- `-∞` becomes `-1`. -/
example : extended (Num.clamp (.inf true)) = -1 := by
  rw [(C141_limit _).2 (by simp)]
  simp [extended]

end PNDL
