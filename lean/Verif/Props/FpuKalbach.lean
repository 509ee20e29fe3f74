import Verif.Spec.FpuKalbach
import Verif.Lemmas.FloatSqrt
import Verif.Props.Fpu
import Mathlib.Analysis.SpecialFunctions.Arsinh
import Mathlib.Analysis.Complex.ExponentialBounds

/-! C157: the cosines of Kalbach-Mann data on a floating point unit. -/
namespace PNDL
open Spec

private theorem clamp_range (a : Num) : Num.clamp a = .nan ∨ ∃ mu, Num.clamp a = .fin mu ∧ -1 ≤ mu ∧ mu ≤ 1 := by
  cases a with
  | nan => exact Or.inl rfl
  | inf s => right; cases s
             · exact ⟨1, rfl, by norm_num, le_rfl⟩
             · exact ⟨-1, rfl, le_rfl, by norm_num⟩
  | fin x =>
    right
    refine ⟨clampMu x, rfl, ?_⟩
    unfold clampMu
    by_cases h : |x| > 1
    · rw [if_pos h]
      split <;> constructor <;> norm_num
    · rw [if_neg h]
      exact abs_le.mp (not_lt.mp h)

private theorem clamp_nan {a : Num} (h : Num.clamp a = .nan) : a = .nan := by
  cases a with
  | nan => rfl
  | inf s => cases h
  | fin x => cases h

/-- **C157** Whatever the arithmetic, the library and the parameters, the cosine is NaN or in `[-1, 1]`. -/
theorem C157_range (p : Fpu) (R A x1 x2 : Num) : p.kalbach R A x1 x2 = .nan ∨ ∃ mu, p.kalbach R A x1 x2 = .fin mu ∧ -1 ≤ mu ∧ mu ≤ 1 := clamp_range _

/-- **C157** With exact arithmetic and library it is the cosine of C141. -/
theorem C157_exact (R A : Num) (x1 x2 : ℝ) : Fpu.exact.kalbach R A (.fin x1) (.fin x2) = Num.clamp (kalbachCosineN R A x1 x2) := by
  unfold Fpu.kalbach kalbachCosineN
  simp only [Fpu.ex_add, Fpu.ex_sub, Fpu.ex_mul, Fpu.ex_div]
  have h1 : Num.sub (Num.mul (.fin 2) (.fin x2)) (.fin 1) = .fin (2 * x2 - 1) := by
    simp [Num.sub, Num.mul, Num.neg, Num.add, sub_eq_add_neg]
  have h2 : Num.sub (.fin 1) (.fin x2) = .fin (1 - x2) := by
    simp [Num.sub, Num.neg, Num.add, sub_eq_add_neg]
  rw [h1, h2]
  rfl

section
variable {p : Fpu} {fl : ℝ → ℝ} (hp : RoundsBy p fl)
include hp

private theorem rnd_fin {x : ℝ} (h : |x| < overflow64) : p.rnd x = .fin (fl x) := by rw [hp.2, if_pos h]

private theorem rnd_nonneg {x : ℝ} (h : 0 ≤ x) : Nonneg (p.rnd x) := by
  rw [hp.2]
  by_cases hc : |x| < overflow64
  · rw [if_pos hc]; exact fl_nonneg hp.1 h
  · rw [if_neg hc]; show decide (x < 0) = false; simpa using h

/-- `2 ξ - 1`. -/
private theorem two_sub_one {x : ℝ} (h0 : 0 ≤ x) (h1 : x ≤ 1) : ∃ y, p.sub (p.mul (.fin 2) (.fin x)) (.fin 1) = .fin y ∧ -1 ≤ y ∧ y ≤ 1 := by
  obtain ⟨mu, _, h2, h3, h4⟩ := C155_isotropic p ⟨fl, hp.1, hp.2⟩ x h0 h1
  exact ⟨mu, h4, h2, h3⟩

/-- Products with a factor in `[-1, 1]` do not overflow. -/
private theorem mul_unit {y S : ℝ} (hy0 : -1 ≤ y) (hy1 : y ≤ 1) (hS : IsFinite64 S) : ∃ t, p.mul (.fin y) (.fin S) = .fin t ∧ IsDouble t ∧ |t| ≤ |S| := by
  have hSa : IsDouble |S| := by
    rcases abs_choice S with h | h <;> rw [h]
    · exact hS.1
    · exact hS.1.neg
  have hyS : |y * S| ≤ |S| := by
    rw [abs_mul]
    exact mul_le_of_le_one_left (abs_nonneg S) (abs_le.mpr ⟨hy0, hy1⟩)
  refine ⟨fl (y * S), rnd_fin hp (hyS.trans_lt hS.2), (hp.1 _).1, ?_⟩
  rw [abs_le] at hyS ⊢
  exact ⟨le_fl hp.1 hSa.neg hyS.1, fl_le hp.1 hSa hyS.2⟩

/-- `T + sqrt(T * T + 1)` is a number that is not negative. -/
private theorem arg_nonneg (hl : IeeeLibrary p fl) {t : ℝ} (ht : IsFinite64 t) :
    Nonneg (p.add (.fin t) (p.sqrt (p.add (p.mul (.fin t) (.fin t)) (.fin 1)))) := by
  have hfl := hp.1
  by_cases h1 : |t * t| < overflow64
  · have e1 : p.mul (.fin t) (.fin t) = .fin (fl (t * t)) := rnd_fin hp h1
    rw [e1]
    have f0 : 0 ≤ fl (t * t) := fl_nonneg hfl (mul_self_nonneg t)
    by_cases h2 : |fl (t * t) + 1| < overflow64
    · have e2 : p.add (.fin (fl (t * t))) (.fin 1) = .fin (fl (fl (t * t) + 1)) := rnd_fin hp h2
      rw [e2, hl.1 _ (fl_nonneg hfl (by linarith))]
      apply rnd_nonneg hp
      have := le_fl_sqrt hfl ht.1
      linarith [neg_abs_le t]
    · have e2 : p.add (.fin (fl (t * t))) (.fin 1) = .inf false := by
        show p.rnd _ = _
        rw [hp.2, if_neg h2]
        simp only [Num.inf.injEq, decide_eq_false_iff_not, not_lt]
        linarith
      rw [e2, hl.2.1]
      rfl
  · have e1 : p.mul (.fin t) (.fin t) = .inf false := by
      show p.rnd _ = _
      rw [hp.2, if_neg h1]
      simp only [Num.inf.injEq, decide_eq_false_iff_not, not_lt]
      exact mul_self_nonneg t
    rw [e1]
    have e2 : p.add (.inf false) (.fin 1) = .inf false := rfl
    rw [e2, hl.2.1]
    rfl

/-- A positive factor does not make NaN of a number. -/
private theorem mul_ne_nan {y : ℝ} (hy : 0 < y) {a : Num} (ha : a ≠ .nan) : p.mul (.fin y) a ≠ .nan := by
  cases a with
  | nan => exact absurd rfl ha
  | inf s =>
    unfold Fpu.mul
    simp only [Num.mul]
    rw [if_neg hy.ne']
    simp [Fpu.round]
  | fin x =>
    show p.rnd _ ≠ _
    rw [hp.2]
    split <;> simp

private theorem recip {A : ℝ} (hA : 0 < A) (hA64 : 1 / A < overflow64) : ∃ y, p.div (.fin 1) (.fin A) = .fin y ∧ (0 < y ∨ y = 0) ∧ (A ≤ 2 ^ 1074 → 0 < y) := by
  have h0 : 0 < 1 / A := by positivity
  refine ⟨fl (1 / A), ?_, (lt_or_eq_of_le (fl_nonneg hp.1 h0.le)).imp id Eq.symm, ?_⟩
  · unfold Fpu.div
    simp only [Num.div]
    rw [if_neg hA.ne']
    exact rnd_fin hp (by rw [abs_of_pos h0]; exact hA64)
  · intro hb
    have hd : IsDouble eta := by simpa using isDouble_scaled (m := 1) (by norm_num) 0
    have : eta ≤ 1 / A := by
      unfold eta
      rw [zpow_neg, one_div]
      exact inv_anti₀ hA (by simpa using hb)
    exact lt_of_lt_of_le eta_pos (le_fl hp.1 hd this)

/-- **C157** In binary64 arithmetic with a correctly rounded square root the cosine is a number in `[-1, 1]`, for every `R`, every random number and every
positive `A` for which the library returns finite values of `sinh(A)`, `exp(A)` and `exp(-A)`. -/
theorem C157_number_partial (hl : IeeeLibrary p fl) (R : Num) (A S ea eb x1 x2 : ℝ) (hA : 0 < A) (hA1 : 1 / A < overflow64) (hA2 : A ≤ 2 ^ 1074)
    (hS : p.sinh (.fin A) = .fin S) (hS64 : IsFinite64 S) (hea : p.exp (.fin A) = .fin ea) (ha0 : 0 ≤ ea) (heb : p.exp (.fin (-A)) = .fin eb)
    (hb0 : 0 ≤ eb) (h0 : 0 ≤ x2) (h1 : x2 ≤ 1) : ∃ mu, p.kalbach R (.fin A) (.fin x1) (.fin x2) = .fin mu ∧ -1 ≤ mu ∧ mu ≤ 1 := by
  rcases C157_range p R (.fin A) (.fin x1) (.fin x2) with h | h
  · exfalso
    unfold Fpu.kalbach at h
    have h := clamp_nan h
    obtain ⟨y, hy, _, hpos⟩ := recip hp hA hA1
    have hy0 := hpos hA2
    by_cases hc : Num.lt R (.fin x1)
    · rw [if_pos hc] at h
      simp only at h
      obtain ⟨z, hz, z0, z1⟩ := two_sub_one hp h0 h1
      obtain ⟨t, ht, htd, hts⟩ := mul_unit hp z0 z1 hS64
      rw [hz, hS, ht, hy] at h
      exact mul_ne_nan hp hy0 (hl.2.2 _ (arg_nonneg hp hl ⟨htd, hts.trans_lt hS64.2⟩)) h
    · rw [if_neg hc] at h
      have e3 : Num.neg (.fin A) = .fin (-A) := rfl
      rw [hy, hea, e3, heb] at h
      refine mul_ne_nan hp hy0 (hl.2.2 _ ?_) h
      have hx : ∃ w, p.sub (.fin 1) (.fin x2) = .fin w ∧ 0 ≤ w := by
        obtain ⟨w, hw, _⟩ : ∃ w, p.sub (.fin 1) (.fin x2) = .fin w ∧ w = fl (1 + -x2) := by
          refine ⟨fl (1 + -x2), rnd_fin hp ?_, rfl⟩
          rw [abs_of_nonneg (by linarith)]
          have : (2 : ℝ) ≤ overflow64 := by
            unfold overflow64
            have e : (2 : ℝ) ^ 1024 = 2 ^ 54 * 2 ^ 970 := by rw [← pow_add]
            rw [e]
            have h : (2 : ℝ) ^ 3 ≤ 2 ^ 970 := pow_le_pow_right₀ (by norm_num) (by norm_num)
            generalize (2 : ℝ) ^ 970 = z at h ⊢
            norm_num at h ⊢
            linarith
          linarith
        rename_i hw'
        exact ⟨w, hw, by rw [hw']; exact fl_nonneg hp.1 (by linarith)⟩
      obtain ⟨w, hw, hw0⟩ := hx
      rw [hw]
      have n1 : Nonneg (p.mul (.fin x2) (.fin ea)) := rnd_nonneg hp (mul_nonneg h0 ha0)
      have n2 : Nonneg (p.mul (.fin w) (.fin eb)) := rnd_nonneg hp (mul_nonneg hw0 hb0)
      generalize p.mul (.fin x2) (.fin ea) = a at n1 ⊢
      generalize p.mul (.fin w) (.fin eb) = b at n2 ⊢
      cases a with
      | nan => exact absurd n1 id
      | inf s =>
        cases s with
        | true => exact absurd n1 (by simp [Nonneg])
        | false =>
          cases b with
          | nan => exact absurd n2 id
          | inf t => cases t with
                     | true => exact absurd n2 (by simp [Nonneg])
                     | false => rfl
          | fin v => rfl
      | fin u =>
        cases b with
        | nan => exact absurd n2 id
        | inf t => cases t with
                   | true => exact absurd n2 (by simp [Nonneg])
                   | false => rfl
        | fin v => exact rnd_nonneg hp (add_nonneg n1 n2)
  · exact h

/-- **C157** The full claim is false of the code: the slope `A = 0`, accepted and meaning isotropic emission, gives NaN for every draw of the first kind. -/
theorem C157_violation_zero (R : Num) (x1 x2 : ℝ) (hs : p.sinh (.fin 0) = .fin 0) (hq : p.sqrt (.fin 1) = .fin 1)
    (hlog : p.log (.fin 1) = .fin 0) (h0 : 0 ≤ x2) (h1 : x2 ≤ 1) (hc : Num.lt R (.fin x1)) : p.kalbach R (.fin 0) (.fin x1) (.fin x2) = .nan := by
  have hov : (1 : ℝ) < overflow64 := by
    have := (C155_isotropic p ⟨fl, hp.1, hp.2⟩ 1 zero_le_one le_rfl)
    unfold overflow64
    have e : (2 : ℝ) ^ 1024 = 2 ^ 54 * 2 ^ 970 := by rw [← pow_add]
    rw [e]
    have h : (2 : ℝ) ^ 3 ≤ 2 ^ 970 := pow_le_pow_right₀ (by norm_num) (by norm_num)
    generalize (2 : ℝ) ^ 970 = z at h ⊢
    norm_num at h ⊢
    linarith
  obtain ⟨z, hz, z0, z1⟩ := two_sub_one hp h0 h1
  have hov0 : (0 : ℝ) < overflow64 := by linarith
  have r0 : p.rnd 0 = .fin 0 := by rw [rnd_fin hp (by rw [abs_zero]; exact hov0), fl_self hp.1 isDouble_zero]
  have r1 : p.rnd 1 = .fin 1 := by rw [rnd_fin hp (by rw [abs_one]; exact hov), fl_self hp.1 isDouble_one]
  unfold Fpu.kalbach
  rw [if_pos hc]
  simp only
  have e1 : p.mul (.fin z) (.fin 0) = .fin 0 := by show p.rnd (z * 0) = _; rw [mul_zero, r0]
  have e2 : p.mul (.fin 0) (.fin 0) = .fin 0 := by show p.rnd (0 * 0) = _; rw [mul_zero, r0]
  have e3 : p.add (.fin 0) (.fin 1) = .fin 1 := by show p.rnd (0 + 1) = _; rw [zero_add, r1]
  have e4 : p.div (.fin 1) (.fin 0) = .inf false := by
    unfold Fpu.div
    simp [Num.div, Fpu.round]
  rw [hz, hs, e1, e2, e3, hq, e3, hlog, e4]
  simp [Fpu.mul, Num.mul, Fpu.round, Num.clamp]

omit hp in
/-- **C157** So it is where `sinh(A)` overflows, for every draw that should go backwards. -/
theorem C157_violation_overflow (hl : IeeeLibrary p fl) (R : Num) (A x1 x2 : ℝ) (hs : p.sinh (.fin A) = .inf false) (hlog : p.log .nan = .nan)
    (z : ℝ) (hz : p.sub (p.mul (.fin 2) (.fin x2)) (.fin 1) = .fin z) (hneg : z < 0) (hc : Num.lt R (.fin x1)) :
    p.kalbach R (.fin A) (.fin x1) (.fin x2) = .nan := by
  unfold Fpu.kalbach
  rw [if_pos hc]
  simp only
  rw [hz, hs]
  have e1 : p.mul (.fin z) (.inf false) = .inf true := by
    unfold Fpu.mul
    simp only [Num.mul]
    rw [if_neg hneg.ne, decide_eq_true hneg]
    rfl
  have e2 : p.mul (.inf true) (.inf true) = .inf false := rfl
  have e3 : p.add (.inf false) (.fin 1) = .inf false := rfl
  have e4 : p.add (.inf true) (.inf false) = .nan := by simp [Fpu.add, Num.add, Fpu.round]
  rw [e1, e2, e3, hl.2.1, e4, hlog]
  generalize p.div (.fin 1) (.fin A) = a
  cases a <;> rfl

/-- **C157** Where `sinh(A)` does not overflow but its square does, draws that should go backwards go straight ahead. -/
theorem C157_violation_sign (hl : IeeeLibrary p fl) (R : Num) (A S x1 x2 : ℝ) (hA : 0 < A) (hA1 : 1 / A < overflow64) (hA2 : A ≤ 2 ^ 1074)
    (hs : p.sinh (.fin A) = .fin S) (hlog : p.log (.inf false) = .inf false)
    (t : ℝ) (ht : p.mul (p.sub (p.mul (.fin 2) (.fin x2)) (.fin 1)) (.fin S) = .fin t) (hneg : t ≤ -2 ^ 512) (hc : Num.lt R (.fin x1)) :
    p.kalbach R (.fin A) (.fin x1) (.fin x2) = .fin 1 := by
  unfold Fpu.kalbach
  rw [if_pos hc]
  simp only
  rw [hs, ht]
  have e1 : p.mul (.fin t) (.fin t) = .inf false := by
    show p.rnd (t * t) = _
    have hb : overflow64 ≤ t * t := by
      have h : (2 : ℝ) ^ 512 * 2 ^ 512 ≤ (-t) * (-t) := mul_le_mul (by linarith) (by linarith) (by positivity) (by
        have : (0 : ℝ) < 2 ^ 512 := by positivity
        generalize (2 : ℝ) ^ 512 = w at *
        linarith)
      rw [← pow_add] at h
      unfold overflow64
      have : (0 : ℝ) < 2 ^ 970 := by positivity
      have h2 : -t * -t = t * t := by ring
      rw [h2] at h
      have h3 : (2 : ℝ) ^ 1024 ≤ t * t := h
      generalize (2 : ℝ) ^ 1024 = v at *
      generalize (2 : ℝ) ^ 970 = w at *
      linarith
    rw [hp.2, if_neg (by rw [abs_of_nonneg (mul_self_nonneg t), not_lt]; exact hb)]
    simp only [Num.inf.injEq, decide_eq_false_iff_not, not_lt]
    exact mul_self_nonneg t
  have e3 : p.add (.inf false) (.fin 1) = .inf false := rfl
  have e4 : p.add (.fin t) (.inf false) = .inf false := rfl
  obtain ⟨y, hy, _, hpos⟩ := recip hp hA hA1
  rw [e1, e3, hl.2.1, e4, hlog, hy]
  have e5 : p.mul (.fin y) (.inf false) = .inf false := by
    unfold Fpu.mul
    simp only [Num.mul]
    rw [if_neg (hpos hA2).ne', decide_eq_false (not_lt.mpr (hpos hA2).le)]
    rfl
  rw [e5]
  rfl

/-- **C157** And from `T = (2ξ-1) sinh(A) <= -2^28` on, `T + sqrt(T*T + 1)` cancels to zero: all these draws, which should give different cosines, give `-1`. -/
theorem C157_violation_cancel (hl : IeeeLibrary p fl) (R : Num) (A S x1 x2 : ℝ) (hA : 0 < A) (hA1 : 1 / A < overflow64) (hA2 : A ≤ 2 ^ 1074)
    (hs : p.sinh (.fin A) = .fin S) (hlog : p.log (.fin 0) = .inf true)
    (t : ℝ) (ht : p.mul (p.sub (p.mul (.fin 2) (.fin x2)) (.fin 1)) (.fin S) = .fin t) (htd : IsDouble t) (h1 : t ≤ -2 ^ 28) (h2 : -2 ^ 500 ≤ t)
    (hc : Num.lt R (.fin x1)) :
    p.kalbach R (.fin A) (.fin x1) (.fin x2) = .fin (-1) := by
  have hfl := hp.1
  unfold Fpu.kalbach
  rw [if_pos hc]
  simp only
  rw [hs, ht]
  have hov : (2 : ℝ) ^ 1001 < overflow64 := by
    unfold overflow64
    have e : (2 : ℝ) ^ 1024 = 2 ^ 23 * 2 ^ 1001 := by rw [← pow_add]
    rw [e]
    have h : (2 : ℝ) ^ 970 ≤ 2 ^ 1001 := pow_le_pow_right₀ (by norm_num) (by norm_num)
    have hq : (0 : ℝ) < 2 ^ 1001 := by positivity
    generalize (2 : ℝ) ^ 970 = z at h ⊢
    generalize (2 : ℝ) ^ 1001 = w at h hq ⊢
    norm_num
    linarith
  have hD : ∀ n : ℕ, IsDouble ((2 : ℝ) ^ n) := fun n => by
    have := isDouble_zpow (m := 1) (by norm_num) (z := (n : ℤ)) (by omega)
    simpa using this
  have hle : t * t ≤ 2 ^ 1000 := by
    have h28 : (0 : ℝ) < 2 ^ 28 := by positivity
    have : (-t) * (-t) ≤ 2 ^ 500 * 2 ^ 500 := mul_le_mul (by linarith) (by linarith) (by linarith) (by positivity)
    rw [← pow_add] at this
    calc t * t = -t * -t := by ring
      _ ≤ _ := this
  have f0 : 0 ≤ fl (t * t) := fl_nonneg hfl (mul_self_nonneg t)
  have f1 : fl (t * t) ≤ 2 ^ 1000 := fl_le hfl (hD 1000) hle
  have h1000 : (2 : ℝ) ^ 1000 + 1 ≤ 2 ^ 1001 := by
    have e : (2 : ℝ) ^ 1001 = 2 * 2 ^ 1000 := by rw [← pow_succ']
    rw [e]
    have : (1 : ℝ) ≤ 2 ^ 1000 := one_le_pow₀ (by norm_num)
    generalize (2 : ℝ) ^ 1000 = z at this ⊢
    linarith
  have e1 : p.mul (.fin t) (.fin t) = .fin (fl (t * t)) := by
    refine rnd_fin hp ?_
    rw [abs_of_nonneg (mul_self_nonneg t)]
    generalize (2 : ℝ) ^ 1000 = z at *
    generalize (2 : ℝ) ^ 1001 = w at *
    linarith
  have e2 : p.add (.fin (fl (t * t))) (.fin 1) = .fin (fl (fl (t * t) + 1)) := by
    refine rnd_fin hp ?_
    rw [abs_of_nonneg (by linarith)]
    generalize (2 : ℝ) ^ 1000 = z at *
    generalize (2 : ℝ) ^ 1001 = w at *
    linarith
  have ht28 : (2 : ℝ) ^ 28 ≤ |t| := by
    have h28 : (0 : ℝ) < 2 ^ 28 := by positivity
    rw [abs_of_nonpos (by linarith)]; linarith
  have e3 : p.sqrt (.fin (fl (fl (t * t) + 1))) = .fin (-t) := by
    rw [hl.1 _ (fl_nonneg hfl (by linarith)), fl_sqrt_cancel hfl htd ht28, abs_of_nonpos]
    have h28 : (0 : ℝ) < 2 ^ 28 := by positivity
    linarith
  have e4 : p.add (.fin t) (.fin (-t)) = .fin 0 := by
    show p.rnd (t + -t) = _
    have : (0 : ℝ) < 2 ^ 1001 := by positivity
    rw [add_neg_cancel, rnd_fin hp (by rw [abs_zero]; exact this.trans hov), fl_self hfl isDouble_zero]
  obtain ⟨y, hy, _, hpos⟩ := recip hp hA hA1
  rw [e1, e2, e3, e4, hlog, hy]
  have e5 : p.mul (.fin y) (.inf true) = .inf true := by
    unfold Fpu.mul
    simp only [Num.mul]
    rw [if_neg (hpos hA2).ne', decide_eq_false (not_lt.mpr (hpos hA2).le)]
    rfl
  rw [e5]
  rfl

end

/-! ### A unit with a correctly rounded library -/

/-- Values of the library: the exact ones, rounded. -/
private noncomputable def flNum (fl : ℝ → ℝ) : Num → Num
  | .fin x => .fin (fl x)
  | a => a

open Classical in
private noncomputable def correctFpu (fl : ℝ → ℝ) : Fpu :=
  { Fpu.exact with
    rnd := fun x => if |x| < overflow64 then .fin (fl x) else .inf (decide (x < 0))
    sqrt := fun a => flNum fl (Num.sqrt a)
    log := fun a => flNum fl (Num.log a)
    exp := fun a => flNum fl (Num.exp a)
    sinh := fun a => flNum fl (Num.sinh a) }

private theorem correct_rounds {fl : ℝ → ℝ} (hfl : IsRoundToNearest fl) : RoundsBy (correctFpu fl) fl := ⟨hfl, fun _ => rfl⟩

private theorem correct_lib (fl : ℝ → ℝ) : IeeeLibrary (correctFpu fl) fl := by
  refine ⟨?_, by simp [correctFpu, Num.sqrt, flNum], ?_⟩
  · intro x hx
    simp [correctFpu, Num.sqrt, not_lt.mpr hx, flNum]
  · intro a ha
    cases a with
    | nan => exact absurd ha id
    | inf s => cases s with
      | true => simp [Nonneg] at ha
      | false => simp [correctFpu, Num.log, flNum]
    | fin x =>
      have hx : 0 ≤ x := ha
      by_cases h : 0 < x
      · simp [correctFpu, Num.log, flNum, h]
      · have : x = 0 := le_antisymm (not_lt.mp h) hx
        simp [correctFpu, Num.log, flNum, this]

private theorem exp40 : (2 : ℝ) ^ 40 ≤ Real.exp 40 ∧ Real.exp 40 ≤ 2 ^ 80 := by
  have h : Real.exp 40 = Real.exp 1 ^ 40 := by rw [← Real.exp_nat_mul]; norm_num
  have h1 := Real.exp_one_gt_d9
  have h2 := Real.exp_one_lt_d9
  rw [h]
  constructor
  · exact pow_le_pow_left₀ (by norm_num) (by linarith) 40
  · calc Real.exp 1 ^ 40 ≤ 4 ^ 40 := pow_le_pow_left₀ (Real.exp_pos 1).le (by linarith) 40
      _ = 2 ^ 80 := by norm_num

private theorem sinh40 : (2 : ℝ) ^ 38 ≤ Real.sinh 40 ∧ Real.sinh 40 ≤ 2 ^ 80 := by
  obtain ⟨h1, h2⟩ := exp40
  have h3 : Real.exp (-40) ≤ 1 := Real.exp_le_one_iff.mpr (by norm_num)
  have h4 := Real.exp_pos (-40)
  rw [Real.sinh_eq]
  norm_num at h1 h2 ⊢
  constructor <;> linarith

/-- **C157** The cancellation on a machine whose library rounds correctly: at `A = 40`, first random number 1/2 above `R = 0`, second random number 1/4, every
correctly rounding machine returns the cosine `-1`; the exact cosine is above `-1`. -/
theorem C157_violation_example {fl : ℝ → ℝ} (hfl : IsRoundToNearest fl) : ∃ p : Fpu, RoundsBy p fl ∧ IeeeLibrary p fl ∧
    (∀ x, p.sinh (.fin x) = .fin (fl (Real.sinh x))) ∧ (∀ x, 0 < x → p.log (.fin x) = .fin (fl (Real.log x))) ∧ p.log (.fin 0) = .inf true ∧
    p.kalbach (.fin 0) (.fin 40) (.fin (1 / 2)) (.fin (1 / 4)) = .fin (-1) ∧
    ∃ mu, Fpu.exact.kalbach (.fin 0) (.fin 40) (.fin (1 / 2)) (.fin (1 / 4)) = .fin mu ∧ -1 < mu ∧ mu < 0 := by
  have hp := correct_rounds hfl
  refine ⟨correctFpu fl, hp, correct_lib fl, fun x => rfl, fun x hx => by simp [correctFpu, Num.log, hx, flNum],
    by simp [correctFpu, Num.log, flNum], ?_, ?_⟩
  · obtain ⟨s0, s1⟩ := sinh40
    have hov : (2 : ℝ) ^ 80 < overflow64 := by
      unfold overflow64
      have e : (2 : ℝ) ^ 1024 = 2 ^ 54 * 2 ^ 970 := by rw [← pow_add]
      rw [e]
      have h : (2 : ℝ) ^ 80 ≤ 2 ^ 970 := pow_le_pow_right₀ (by norm_num) (by norm_num)
      generalize (2 : ℝ) ^ 970 = z at h ⊢
      norm_num at h ⊢
      linarith
    have hov' : (1208925819614629174706176 : ℝ) < overflow64 := by norm_num at hov; exact hov
    have hD : ∀ n : ℕ, IsDouble ((2 : ℝ) ^ n) := fun n => by
      have := isDouble_zpow (m := 1) (by norm_num) (z := (n : ℤ)) (by omega)
      simpa using this
    have f0 := le_fl hfl (hD 38) s0
    have f1 := fl_le hfl (hD 80) s1
    have dh : IsDouble (1 / 2 : ℝ) := by
      have := isDouble_zpow (m := 1) (by norm_num) (z := -1) (by norm_num)
      norm_num at this ⊢
      exact this
    have hz : (correctFpu fl).sub ((correctFpu fl).mul (.fin 2) (.fin (1 / 4))) (.fin 1) = .fin (-(1 / 2)) := by
      have e1 : (correctFpu fl).mul (.fin 2) (.fin (1 / 4)) = .fin (1 / 2) := by
        show (correctFpu fl).rnd (2 * (1 / 4)) = _
        rw [rnd_fin hp (by rw [abs_of_pos (by norm_num)]; linarith), show (2 : ℝ) * (1 / 4) = 1 / 2 by norm_num, fl_self hfl dh]
      rw [e1]
      show (correctFpu fl).rnd (1 / 2 + -1) = _
      rw [rnd_fin hp (by rw [abs_of_neg (by norm_num)]; linarith), show (1 / 2 : ℝ) + -1 = -(1 / 2) by norm_num, fl_self hfl dh.neg]
    have ht : (correctFpu fl).mul ((correctFpu fl).sub ((correctFpu fl).mul (.fin 2) (.fin (1 / 4))) (.fin 1)) (.fin (fl (Real.sinh 40))) =
        .fin (fl (-(1 / 2) * fl (Real.sinh 40))) := by
      rw [hz]
      refine rnd_fin hp ?_
      norm_num at f0 f1
      rw [abs_of_nonpos (by linarith)]
      linarith
    refine C157_violation_cancel hp (correct_lib fl) _ 40 (fl (Real.sinh 40)) (1 / 2) (1 / 4) (by norm_num) (by linarith) ?_ rfl
      (by simp [correctFpu, Num.log, flNum]) _ ht (hfl _).1 ?_ ?_ ?_
    · calc (40 : ℝ) ≤ 2 ^ 6 := by norm_num
        _ ≤ 2 ^ 1074 := pow_le_pow_right₀ (by norm_num) (by norm_num)
    · refine (fl_le hfl (hD 37).neg ?_).trans ?_
      · norm_num at f0 ⊢; linarith
      · norm_num
    · have h : (2 : ℝ) ^ 80 ≤ 2 ^ 500 := pow_le_pow_right₀ (by norm_num) (by norm_num)
      have h' : -(2 : ℝ) ^ 80 ≤ fl (-(1 / 2) * fl (Real.sinh 40)) := le_fl hfl (hD 80).neg (by norm_num at f0 f1 ⊢; linarith)
      generalize (2 : ℝ) ^ 500 = w at *
      linarith
    · show (0 : ℝ) < 1 / 2
      norm_num
  · have hs := Real.sinh_pos_iff.mpr (show (0 : ℝ) < 40 by norm_num)
    obtain ⟨T, hT⟩ : ∃ T, T = (2 * (1 / 4) - 1) * Real.sinh 40 := ⟨_, rfl⟩
    have hTs : T = -(Real.sinh 40 / 2) := by rw [hT]; ring
    have hpos : 0 < T + Real.sqrt (T * T + 1) := by
      have : |T| < Real.sqrt (T * T + 1) := by
        rw [Real.lt_sqrt (abs_nonneg T), sq_abs]; nlinarith
      linarith [neg_abs_le T]
    have has : Real.log (T + Real.sqrt (T * T + 1)) = Real.arsinh T := by
      unfold Real.arsinh
      rw [show 1 + T ^ 2 = T * T + 1 by ring]
    have lo : -40 < Real.arsinh T := by
      rw [← Real.arsinh_sinh (-40), Real.arsinh_lt_arsinh, Real.sinh_neg, hTs]
      linarith
    have hi : Real.arsinh T < 0 := by
      rw [Real.arsinh_neg_iff, hTs]; linarith
    refine ⟨clampMu (1 / 40 * Real.arsinh T), ?_, ?_⟩
    · rw [C157_exact]
      unfold kalbachCosineN
      rw [if_pos (show Num.lt (.fin 0) (.fin (1 / 2)) from (by norm_num : (0 : ℝ) < 1 / 2))]
      simp only [Num.sinh, Num.mul]
      rw [← hT]
      have hq : Num.sqrt (Num.add (.fin (T * T)) (.fin 1)) = .fin (Real.sqrt (T * T + 1)) := by
        simp only [Num.add, Num.sqrt]
        rw [if_neg (by nlinarith [mul_self_nonneg T])]
      rw [hq]
      have hlg : Num.log (Num.add (.fin T) (.fin (Real.sqrt (T * T + 1)))) = .fin (Real.arsinh T) := by
        simp only [Num.add, Num.log]
        rw [if_pos hpos, has]
      rw [hlg]
      have hd : Num.div (.fin 1) (.fin 40) = .fin (1 / 40) := by simp [Num.div]
      rw [hd]
      rfl
    · unfold clampMu
      have hb : |1 / 40 * Real.arsinh T| ≤ 1 := by rw [abs_le]; constructor <;> linarith
      rw [if_neg (not_lt.mpr hb)]
      constructor <;> linarith

/-- The conditions of `C157_number_partial` at `A = 40` on the same machine. -/
example {fl : ℝ → ℝ} (hfl : IsRoundToNearest fl) (R : Num) (x1 : ℝ) :
    ∃ mu, (correctFpu fl).kalbach R (.fin 40) (.fin x1) (.fin (1 / 3)) = .fin mu ∧ -1 ≤ mu ∧ mu ≤ 1 := by
  obtain ⟨s0, s1⟩ := sinh40
  have hov : (2 : ℝ) ^ 80 < overflow64 := by
    unfold overflow64
    have e : (2 : ℝ) ^ 1024 = 2 ^ 54 * 2 ^ 970 := by rw [← pow_add]
    rw [e]
    have h : (2 : ℝ) ^ 80 ≤ 2 ^ 970 := pow_le_pow_right₀ (by norm_num) (by norm_num)
    generalize (2 : ℝ) ^ 970 = z at h ⊢
    norm_num at h ⊢
    linarith
  have hov' : (1208925819614629174706176 : ℝ) < overflow64 := by norm_num at hov; exact hov
  have hD : IsDouble ((2 : ℝ) ^ 80) := by
    have := isDouble_zpow (m := 1) (by norm_num) (z := 80) (by norm_num)
    simpa using this
  have f0 := fl_nonneg hfl (show 0 ≤ Real.sinh 40 from (Real.sinh_nonneg_iff.mpr (by norm_num)))
  have f1 := fl_le hfl hD s1
  refine C157_number_partial (correct_rounds hfl) (correct_lib fl) R 40 (fl (Real.sinh 40)) (fl (Real.exp 40)) (fl (Real.exp (-40))) x1 (1 / 3) (by norm_num)
    (by linarith) ?_ rfl ⟨(hfl _).1, ?_⟩ rfl (fl_nonneg hfl (Real.exp_pos _).le) rfl (fl_nonneg hfl (Real.exp_pos _).le) (by norm_num) (by norm_num)
  · calc (40 : ℝ) ≤ 2 ^ 6 := by norm_num
      _ ≤ 2 ^ 1074 := pow_le_pow_right₀ (by norm_num) (by norm_num)
  · rw [abs_of_nonneg f0]
    exact f1.trans_lt hov

end PNDL
