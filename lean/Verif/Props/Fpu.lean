import Verif.Spec.Fpu
import Verif.Lemmas.Float
import Verif.Lemmas.STNeutron

/-! C155: the analytic spectra on a floating point unit. -/
namespace PNDL
open Spec

/-! ### The window -/

private theorem loop_window {cand : Nat → Num} {n : Nat} {du : Num} : ∀ {fuel k : Nat} {r : Num × Nat}, Fpu.loop cand n du fuel k = .ok r →
    Num.le (.fin 0) r.1 ∧ Num.le r.1 du := by
  intro fuel
  induction fuel with
  | zero => intro k r h; cases h
  | succ fuel ih =>
    intro k r h
    unfold Fpu.loop at h
    by_cases hc : Num.le (.fin 0) (cand k) ∧ Num.le (cand k) du
    · rw [if_pos hc] at h
      rw [← Except.ok.inj h]
      exact hc
    · rw [if_neg hc] at h
      exact ih h

/-- **C155** On any floating point unit with any library — correct or not — and for any parameters, infinities and NaN included, an energy
returned by the Maxwell, evaporation and Watt spectra compares as not negative and not above the computed `E_in - U`. -/
theorem C155_window (p : Fpu) (T U E : Num) (fuel : Nat) (ω : Nat → Num) (k : Nat) (r : Num × Nat)
    (h : p.maxwell T U E fuel ω k = .ok r ∨ p.evap T U E fuel ω k = .ok r ∨ ∃ a b, p.watt a b U E fuel ω k = .ok r) :
    Num.le (.fin 0) r.1 ∧ Num.le r.1 (p.sub E U) := by
  rcases h with h | h | ⟨a, b, h⟩
  · exact loop_window h
  · exact loop_window h
  · exact loop_window h

private theorem le_fin {a : Num} {x y : ℝ} (h0 : Num.le (.fin x) a) (h1 : Num.le a (.fin y)) : ∃ e, a = .fin e ∧ x ≤ e ∧ e ≤ y := by
  cases a with
  | fin e =>
    refine ⟨e, rfl, ?_, ?_⟩
    · rcases h0 with h | h
      · exact le_of_lt h
      · exact le_of_eq h
    · rcases h1 with h | h
      · exact le_of_lt h
      · exact le_of_eq h
  | inf s =>
    cases s
    · rcases h1 with h | h <;> simp [Num.lt, Num.eq] at h
    · rcases h0 with h | h <;> simp [Num.lt, Num.eq] at h
  | nan => rcases h0 with h | h <;> simp [Num.lt, Num.eq] at h

/-- **C155** In binary64 arithmetic, with any library, the energies returned by these spectra are finite numbers between zero and the
incoming energy, if that is a finite number and the restriction energy is not negative; more precisely they are at most `E - U`, rounded. -/
theorem C155_binary64 (p : Fpu) (hp : Binary64 p) (T : Num) (U E : ℝ) (hE : IsFinite64 E) (hU : IsFinite64 U) (hU0 : 0 ≤ U) (fuel : Nat)
    (ω : Nat → Num) (k : Nat) (r : Num × Nat)
    (h : p.maxwell T (.fin U) (.fin E) fuel ω k = .ok r ∨ p.evap T (.fin U) (.fin E) fuel ω k = .ok r ∨
      ∃ a b, p.watt a b (.fin U) (.fin E) fuel ω k = .ok r) :
    ∃ e d, r.1 = .fin e ∧ p.sub (.fin E) (.fin U) = .fin d ∧ 0 ≤ e ∧ e ≤ d ∧ e ≤ E := by
  obtain ⟨h0, h1⟩ := C155_window p T (.fin U) (.fin E) fuel ω k r h
  obtain ⟨fl, hfl, hr⟩ := hp
  by_cases hs : |E - U| < overflow64
  · have hd : p.sub (.fin E) (.fin U) = .fin (fl (E - U)) := by
      show p.rnd (E + -U) = _
      rw [← sub_eq_add_neg, hr, if_pos hs]
    rw [hd] at h1
    obtain ⟨e, he, a, b⟩ := le_fin h0 h1
    exact ⟨e, _, he, hd, a, b, b.trans (fl_le hfl hE.1 (by linarith))⟩
  · -- then `E - U` overflows downwards, and nothing is accepted
    have hn : E - U < 0 := by
      by_contra hc
      rw [not_lt] at hc
      rw [abs_of_nonneg hc] at hs
      have := (abs_lt.mp hE.2).2
      linarith
    have hd : p.sub (.fin E) (.fin U) = .inf true := by
      show p.rnd (E + -U) = _
      rw [← sub_eq_add_neg, hr, if_neg hs]
      simp [hn]
    rw [hd] at h1
    exfalso
    cases hv : r.1 with
    | fin e => rw [hv] at h1; rcases h1 with h | h <;> simp [Num.lt, Num.eq] at h
    | inf s => rw [hv] at h0 h1; cases s <;> rcases h0 with h | h <;> simp [Num.lt, Num.eq] at h <;> rcases h1 with h | h <;> simp [Num.lt, Num.eq] at h
    | nan => rw [hv] at h0; rcases h0 with h | h <;> simp [Num.lt, Num.eq] at h

/-! ### Signs -/

private def NN (a : Num) : Prop := a = .nan ∨ Num.le (.fin 0) a
private def NP (a : Num) : Prop := a = .nan ∨ Num.le a (.fin 0)

private theorem nn_fin {x : ℝ} : NN (.fin x) ↔ 0 ≤ x := by
  simp [NN, Num.le, Num.lt, Num.eq, le_iff_lt_or_eq]
private theorem np_fin {x : ℝ} : NP (.fin x) ↔ x ≤ 0 := by
  simp [NP, Num.le, Num.lt, Num.eq, le_iff_lt_or_eq]
private theorem nn_inf {s : Bool} : NN (.inf s) ↔ s = false := by simp [NN, Num.le, Num.lt, Num.eq]
private theorem np_inf {s : Bool} : NP (.inf s) ↔ s = true := by simp [NP, Num.le, Num.lt, Num.eq]
private theorem nn_nan : NN .nan := Or.inl rfl
private theorem np_nan : NP .nan := Or.inl rfl

private theorem nn_neg {a : Num} (h : NP a) : NN (Num.neg a) := by
  cases a with
  | fin x => rw [np_fin] at h; simp only [Num.neg]; rw [nn_fin]; linarith
  | inf s => rw [np_inf] at h; simp [Num.neg, nn_inf, h]
  | nan => exact nn_nan

private theorem np_neg {a : Num} (h : NN a) : NP (Num.neg a) := by
  cases a with
  | fin x => rw [nn_fin] at h; simp only [Num.neg]; rw [np_fin]; linarith
  | inf s => rw [nn_inf] at h; simp [Num.neg, np_inf, h]
  | nan => exact np_nan

private theorem overflow_big : (2 : ℝ) ≤ overflow64 - 2 := by
  unfold overflow64
  have : (2 : ℝ) ^ 1024 = 2 ^ 54 * 2 ^ 970 := by rw [← pow_add]
  rw [this]
  have h : (2 : ℝ) ^ 3 ≤ 2 ^ 970 := pow_le_pow_right₀ (by norm_num) (by norm_num)
  generalize (2 : ℝ) ^ 970 = z at h ⊢
  norm_num at h ⊢
  linarith

private theorem overflow_pos : (0 : ℝ) < overflow64 := by linarith [overflow_big]

section
variable {p : Fpu} (hp : Binary64 p)
include hp

private theorem rnd_nn {x : ℝ} (h : 0 ≤ x) : NN (p.rnd x) := by
  obtain ⟨fl, hfl, hr⟩ := hp
  rw [hr]
  split
  · exact nn_fin.mpr (fl_nonneg hfl h)
  · rw [nn_inf]; simpa using h

private theorem rnd_np {x : ℝ} (h : x ≤ 0) : NP (p.rnd x) := by
  obtain ⟨fl, hfl, hr⟩ := hp
  rw [hr]
  by_cases hc : |x| < overflow64
  · rw [if_pos hc]
    exact np_fin.mpr (fl_le hfl isDouble_zero h)
  · rw [if_neg hc, np_inf]
    have : x ≠ 0 := by
      rintro rfl
      apply hc
      rw [abs_zero]
      exact overflow_pos
    simpa using lt_of_le_of_ne h this

private theorem round_nn {a : Num} (h : NN a) : NN (p.round a) := by
  cases a with
  | fin x => exact rnd_nn hp (nn_fin.mp h)
  | inf s => exact h
  | nan => exact h

private theorem round_np {a : Num} (h : NP a) : NP (p.round a) := by
  cases a with
  | fin x => exact rnd_np hp (np_fin.mp h)
  | inf s => exact h
  | nan => exact h

private theorem add_np {a b : Num} (ha : NP a) (hb : NP b) : NP (p.add a b) := by
  refine round_np hp ?_
  cases a with
  | fin x => cases b with
    | fin y => rw [np_fin] at ha hb; simp only [Num.add]; rw [np_fin]; linarith
    | inf t => exact hb
    | nan => exact np_nan
  | inf s => cases b with
    | fin y => exact ha
    | inf t => rw [np_inf] at ha hb; simp [Num.add, ha, hb, np_inf]
    | nan => exact np_nan
  | nan => cases b <;> exact np_nan

private theorem add_nn {a b : Num} (ha : NN a) (hb : NN b) : NN (p.add a b) := by
  refine round_nn hp ?_
  cases a with
  | fin x => cases b with
    | fin y => rw [nn_fin] at ha hb; simp only [Num.add]; rw [nn_fin]; linarith
    | inf t => exact hb
    | nan => exact nn_nan
  | inf s => cases b with
    | fin y => exact ha
    | inf t => rw [nn_inf] at ha hb; simp [Num.add, ha, hb, nn_inf]
    | nan => exact nn_nan
  | nan => cases b <;> exact nn_nan

private theorem sub_nn {a b : Num} (ha : NN a) (hb : NP b) : NN (p.sub a b) := add_nn hp ha (nn_neg hb)

private theorem mul_np_nn {a b : Num} (ha : NP a) (hb : NN b) : NP (p.mul a b) := by
  refine round_np hp ?_
  cases a with
  | fin x =>
    rw [np_fin] at ha
    cases b with
    | fin y => rw [nn_fin] at hb; simp only [Num.mul]; rw [np_fin]; exact mul_nonpos_of_nonpos_of_nonneg ha hb
    | inf t =>
      rw [nn_inf] at hb; subst hb
      simp only [Num.mul]
      by_cases h : x = 0
      · rw [if_pos h]; exact np_nan
      · rw [if_neg h, np_inf]; simpa using lt_of_le_of_ne ha h
    | nan => exact np_nan
  | inf s =>
    rw [np_inf] at ha; subst ha
    cases b with
    | fin y =>
      rw [nn_fin] at hb
      simp only [Num.mul]
      by_cases h : y = 0
      · rw [if_pos h]; exact np_nan
      · rw [if_neg h, np_inf]; simpa using hb
    | inf t => rw [nn_inf] at hb; subst hb; simp [Num.mul, np_inf]
    | nan => exact np_nan
  | nan => cases b <;> exact np_nan

private theorem mul_nn {a b : Num} (ha : NN a) (hb : NN b) : NN (p.mul a b) := by
  refine round_nn hp ?_
  cases a with
  | fin x =>
    rw [nn_fin] at ha
    cases b with
    | fin y => rw [nn_fin] at hb; simp only [Num.mul]; rw [nn_fin]; exact mul_nonneg ha hb
    | inf t =>
      rw [nn_inf] at hb; subst hb
      simp only [Num.mul]
      by_cases h : x = 0
      · rw [if_pos h]; exact nn_nan
      · rw [if_neg h, nn_inf]; simpa using ha
    | nan => exact nn_nan
  | inf s =>
    rw [nn_inf] at ha; subst ha
    cases b with
    | fin y =>
      rw [nn_fin] at hb
      simp only [Num.mul]
      by_cases h : y = 0
      · rw [if_pos h]; exact nn_nan
      · rw [if_neg h, nn_inf]; simpa using hb
    | inf t => rw [nn_inf] at hb; subst hb; simp [Num.mul, nn_inf]
    | nan => exact nn_nan
  | nan => cases b <;> exact nn_nan

private theorem mul_np_np {a b : Num} (ha : NP a) (hb : NP b) : NN (p.mul a b) := by
  refine round_nn hp ?_
  cases a with
  | fin x =>
    rw [np_fin] at ha
    cases b with
    | fin y => rw [np_fin] at hb; simp only [Num.mul]; rw [nn_fin]; exact mul_nonneg_of_nonpos_of_nonpos ha hb
    | inf t =>
      rw [np_inf] at hb; subst hb
      simp only [Num.mul]
      by_cases h : x = 0
      · rw [if_pos h]; exact nn_nan
      · rw [if_neg h, nn_inf]; simpa using lt_of_le_of_ne ha h
    | nan => exact nn_nan
  | inf s =>
    rw [np_inf] at ha; subst ha
    cases b with
    | fin y =>
      rw [np_fin] at hb
      simp only [Num.mul]
      by_cases h : y = 0
      · rw [if_pos h]; exact nn_nan
      · rw [if_neg h, nn_inf]; simpa using lt_of_le_of_ne hb h
    | inf t => rw [np_inf] at hb; subst hb; simp [Num.mul, nn_inf]
    | nan => exact nn_nan
  | nan => cases b <;> exact nn_nan

private theorem mul_nn_np {a b : Num} (ha : NN a) (hb : NP b) : NP (p.mul a b) := by
  refine round_np hp ?_
  cases a with
  | fin x =>
    rw [nn_fin] at ha
    cases b with
    | fin y => rw [np_fin] at hb; simp only [Num.mul]; rw [np_fin]; exact mul_nonpos_of_nonneg_of_nonpos ha hb
    | inf t =>
      rw [np_inf] at hb; subst hb
      simp only [Num.mul]
      by_cases h : x = 0
      · rw [if_pos h]; exact np_nan
      · rw [if_neg h, np_inf]; simpa using ha
    | nan => exact np_nan
  | inf s =>
    rw [nn_inf] at ha; subst ha
    cases b with
    | fin y =>
      rw [np_fin] at hb
      simp only [Num.mul]
      by_cases h : y = 0
      · rw [if_pos h]; exact np_nan
      · rw [if_neg h, np_inf]; simpa using lt_of_le_of_ne hb h
    | inf t => rw [np_inf] at hb; subst hb; simp [Num.mul, np_inf]
    | nan => exact np_nan
  | nan => cases b <;> exact np_nan

omit hp in
private theorem nn_or_np (a : Num) : NN a ∨ NP a := by
  cases a with
  | fin x => rcases le_total 0 x with h | h
             · exact Or.inl (nn_fin.mpr h)
             · exact Or.inr (np_fin.mpr h)
  | inf s => cases s
             · exact Or.inl (nn_inf.mpr rfl)
             · exact Or.inr (np_inf.mpr rfl)
  | nan => exact Or.inl nn_nan

/-- `a * c * c` has the sign of `a`, for every `c`. -/
private theorem mulmul_np {a : Num} (ha : NP a) (c : Num) : NP (p.mul (p.mul a c) c) := by
  rcases nn_or_np c with hc | hc
  · exact mul_np_nn hp (mul_np_nn hp ha hc) hc
  · exact mul_nn_np hp (mul_np_np hp ha hc) hc

private theorem rnd_within {x d : ℝ} (h0 : 0 ≤ x) (h1 : x ≤ d) (hd : IsFinite64 d) : ∃ e, p.rnd x = .fin e ∧ IsDouble e ∧ 0 ≤ e ∧ e ≤ d := by
  obtain ⟨fl, hfl, hr⟩ := hp
  have : |x| < overflow64 := by
    rw [abs_of_nonneg h0]
    exact h1.trans_lt ((le_abs_self d).trans_lt hd.2)
  exact ⟨fl x, by rw [hr, if_pos this], (hfl x).1, fl_nonneg hfl h0, fl_le hfl hd.1 h1⟩

omit hp in
private theorem finite_small {d : ℝ} (hd : IsDouble d) (h0 : 0 ≤ d) (h2 : d ≤ 2) : IsFinite64 d :=
  ⟨hd, by rw [abs_of_nonneg h0]; linarith [overflow_big]⟩

omit hp in
private theorem finite_one : IsFinite64 1 := finite_small isDouble_one (by norm_num) (by norm_num)

/-- Products of numbers between zero and one. -/
private theorem unit_mul {a b : Num} (ha : ∃ x, a = .fin x ∧ 0 ≤ x ∧ x ≤ 1) (hb : ∃ x, b = .fin x ∧ 0 ≤ x ∧ x ≤ 1) :
    ∃ x, p.mul a b = .fin x ∧ 0 ≤ x ∧ x ≤ 1 := by
  obtain ⟨x, rfl, x0, x1⟩ := ha
  obtain ⟨y, rfl, y0, y1⟩ := hb
  obtain ⟨e, h1, _, h2, h3⟩ := rnd_within hp (mul_nonneg x0 y0) (mul_le_one₀ x1 y0 y1) finite_one
  exact ⟨e, h1, h2, h3⟩

private theorem spectrum_nn (hl : SaneLibrary p) {ω : Nat → Num} (hω : ∀ i, ∃ x, ω i = .fin x ∧ 0 ≤ x ∧ x ≤ 1) (k : Nat) :
    NN (p.spectrum ω k) := by
  have hlog : ∀ i, NP (p.log (ω i)) := by
    intro i
    obtain ⟨x, hx, h0, h1⟩ := hω i
    rw [hx]
    exact hl.1 x h0 h1
  exact nn_neg (add_np hp (hlog _) (mulmul_np hp (hlog _) _))

omit hp in
private theorem spectrum_double {fl : ℝ → ℝ} (hfl : IsRoundToNearest fl) (hr : ∀ x, p.rnd x = if |x| < overflow64 then .fin (fl x) else .inf (decide (x < 0)))
    {ω : Nat → Num} {k : Nat} {x : ℝ} (h : p.spectrum ω k = .fin x) : IsDouble x := by
  unfold Fpu.spectrum Fpu.add at h
  simp only at h
  generalize Num.add (p.log (ω (k + 1))) _ = s at h
  cases s with
  | fin y =>
    simp only [Fpu.round] at h
    rw [hr] at h
    by_cases hc : |y| < overflow64
    · rw [if_pos hc] at h
      simp only [Num.neg, Num.fin.injEq] at h
      rw [← h]
      exact (hfl y).1.neg
    · rw [if_neg hc] at h
      simp [Num.neg] at h
  | inf s => simp [Fpu.round, Num.neg] at h
  | nan => simp [Fpu.round, Num.neg] at h

private theorem nbodyY_nn (hl : SaneLibrary p) (n : Nat) {ω : Nat → Num} (hω : ∀ i, ∃ x, ω i = .fin x ∧ 0 ≤ x ∧ x ≤ 1) (k : Nat) :
    NN (p.nbodyY n ω k).1 := by
  have hlog : ∀ a, (∃ x, a = .fin x ∧ 0 ≤ x ∧ x ≤ 1) → NP (p.log a) := by
    rintro a ⟨x, rfl, h0, h1⟩
    exact hl.1 x h0 h1
  unfold Fpu.nbodyY
  split
  · exact spectrum_nn hp hl hω k
  · split
    · exact nn_neg (hlog _ (unit_mul hp (unit_mul hp (hω _) (hω _)) (hω _)))
    · split
      · exact sub_nn hp (nn_neg (hlog _ (unit_mul hp (unit_mul hp (unit_mul hp (hω _) (hω _)) (hω _)) (hω _))))
          (mul_np_nn hp (hlog _ (hω _)) (hl.2 _))
      · exact nn_fin.mpr le_rfl

/-- The share `x / (x + y)` is NaN or between zero and one. -/
private theorem share {a b : Num} (ha : NN a) (hd : ∀ x, a = .fin x → IsDouble x) (hb : NN b) :
    p.div a (p.add a b) = .nan ∨ ∃ q, p.div a (p.add a b) = .fin q ∧ 0 ≤ q ∧ q ≤ 1 := by
  have hz : ∃ q, p.rnd 0 = .fin q ∧ 0 ≤ q ∧ q ≤ 1 := by
    obtain ⟨e, h1, _, h2, h3⟩ := rnd_within hp le_rfl zero_le_one finite_one
    exact ⟨e, h1, h2, h3⟩
  cases a with
  | nan =>
    left
    cases b <;> rfl
  | inf s =>
    rw [nn_inf] at ha; subst ha
    left
    cases b with
    | nan => rfl
    | inf t => rw [nn_inf] at hb; subst hb; rfl
    | fin y => rfl
  | fin x =>
    have hx := nn_fin.mp ha
    cases b with
    | nan => left; rfl
    | inf t => right; rw [nn_inf] at hb; subst hb; exact hz
    | fin y =>
      have hy := nn_fin.mp hb
      obtain ⟨fl, hfl, hr⟩ := id hp
      have hs : p.add (.fin x) (.fin y) = p.rnd (x + y) := rfl
      rw [hs, hr]
      by_cases hc : |x + y| < overflow64
      · rw [if_pos hc]
        have hle : x ≤ fl (x + y) := le_fl hfl (hd x rfl) (by linarith)
        by_cases h0 : fl (x + y) = 0
        · left
          have : x = 0 := by rw [h0] at hle; linarith
          unfold Fpu.div
          simp only [Num.div]
          rw [if_pos h0, if_pos this]
          rfl
        · right
          have hpos : 0 < fl (x + y) := lt_of_le_of_ne (fl_nonneg hfl (by linarith)) (Ne.symm h0)
          unfold Fpu.div
          simp only [Num.div]
          rw [if_neg h0]
          obtain ⟨e, h1, _, h2, h3⟩ := rnd_within hp (div_nonneg hx hpos.le) ((div_le_one hpos).mpr hle) finite_one
          exact ⟨e, h1, h2, h3⟩
      · rw [if_neg hc]
        right
        exact hz

end

/-- **C155** N-body phase space in binary64: if the random numbers are between zero and one and the library knows the sign of a logarithm, the
energy is NaN or a number between zero and the computed `Emax`, and the cosine is in `[-1, 1]`. -/
theorem C155_nbody_partial (p : Fpu) (hp : Binary64 p) (hl : SaneLibrary p) (n : Nat) (Ap A Q E : Num) (v : ℝ) (hv : p.nbodyEmax Ap A Q E = .fin v)
    (hv64 : IsFinite64 v) (hv0 : 0 ≤ v) (ω : Nat → Num) (hω : ∀ i, ∃ x, ω i = .fin x ∧ 0 ≤ x ∧ x ≤ 1) (k : Nat) :
    (∃ mu, (p.nbody n Ap A Q E ω k).1 = .fin mu ∧ -1 ≤ mu ∧ mu ≤ 1) ∧
      ((p.nbody n Ap A Q E ω k).2.1 = .nan ∨ ∃ e, (p.nbody n Ap A Q E ω k).2.1 = .fin e ∧ 0 ≤ e ∧ e ≤ v) := by
  constructor
  · obtain ⟨x, hx, x0, x1⟩ := hω (k + 3 + (p.nbodyY n ω (k + 3)).2)
    obtain ⟨fl, hfl, hr⟩ := hp
    have h2 : |2 * x| < overflow64 := by rw [abs_of_nonneg (by linarith)]; linarith [overflow_big]
    have d2 : IsDouble 2 := by simpa using isDouble_nat (n := 2) (by norm_num)
    have f0 := fl_nonneg hfl (show 0 ≤ 2 * x by linarith)
    have f1 := fl_le hfl d2 (show 2 * x ≤ 2 by linarith)
    have h1 : |fl (2 * x) + -1| < overflow64 := by rw [abs_lt]; constructor <;> linarith [overflow_big]
    refine ⟨fl (fl (2 * x) + -1), ?_, le_fl hfl isDouble_one.neg (by linarith), fl_le hfl isDouble_one (by linarith)⟩
    show p.sub (p.mul (.fin 2) (ω (k + 3 + (p.nbodyY n ω (k + 3)).2))) (.fin 1) = _
    rw [hx]
    have e1 : p.mul (.fin 2) (.fin x) = .fin (fl (2 * x)) := by
      show p.rnd (2 * x) = _
      rw [hr, if_pos h2]
    rw [e1]
    show p.rnd (fl (2 * x) + -1) = _
    rw [hr, if_pos h1]
  · obtain ⟨fl, hfl, hr⟩ := id hp
    show p.mul (p.div (p.spectrum ω k) (p.add (p.spectrum ω k) (p.nbodyY n ω (k + 3)).1)) (p.nbodyEmax Ap A Q E) = .nan ∨ _
    have hshow : (p.nbody n Ap A Q E ω k).2.1 = p.mul (p.div (p.spectrum ω k) (p.add (p.spectrum ω k) (p.nbodyY n ω (k + 3)).1)) (p.nbodyEmax Ap A Q E) := rfl
    rw [hshow, hv]
    rcases share hp (spectrum_nn hp hl hω k) (fun x hx => spectrum_double hfl hr hx) (nbodyY_nn hp hl n hω (k + 3)) with h | ⟨q, h, q0, q1⟩
    · left; rw [h]; rfl
    · right
      rw [h]
      obtain ⟨e, h1, _, h2, h3⟩ := rnd_within hp (mul_nonneg q0 hv0) (mul_le_of_le_one_left hv0 q1) hv64
      exact ⟨e, h1, h2, h3⟩

/-- **C155** The full claim is false of the code: the second of its random numbers may be zero, and then N-body phase space returns NaN. -/
theorem C155_violation_nbody (p : Fpu) (hp : Binary64 p) (hl : SaneLibrary p) (hlog : p.log (.fin 0) = .inf true) (n : Nat) (Ap A Q E : Num)
    (ω : Nat → Num) (hω : ∀ i, ∃ x, ω i = .fin x ∧ 0 ≤ x ∧ x ≤ 1) (k : Nat) (h0 : ω (k + 1) = .fin 0) :
    (p.nbody n Ap A Q E ω k).2.1 = .nan := by
  have hnp : NP (p.log (ω (k + 2))) := by
    obtain ⟨x, hx, a, b⟩ := hω (k + 2)
    rw [hx]
    exact hl.1 x a b
  have hx : p.spectrum ω k = .nan ∨ p.spectrum ω k = .inf false := by
    unfold Fpu.spectrum
    simp only
    rw [h0, hlog]
    have := mulmul_np hp hnp (p.cos (p.div (p.mul p.pi (ω k)) (.fin 2)))
    generalize p.mul (p.mul (p.log (ω (k + 2))) _) _ = z at this
    cases z with
    | fin y => right; rfl
    | inf s => rw [np_inf] at this; subst this; right; rfl
    | nan => left; rfl
  have hy := nbodyY_nn hp hl n hω (k + 3)
  show p.mul (p.div (p.spectrum ω k) (p.add (p.spectrum ω k) (p.nbodyY n ω (k + 3)).1)) (p.nbodyEmax Ap A Q E) = .nan
  generalize (p.nbodyY n ω (k + 3)).1 = y at hy
  generalize p.nbodyEmax Ap A Q E = m
  have hq : p.div (p.spectrum ω k) (p.add (p.spectrum ω k) y) = .nan := by
    rcases hx with h | h
    · rw [h]; cases y <;> rfl
    · rw [h]
      cases y with
      | fin v => rfl
      | inf s => rw [nn_inf] at hy; subst hy; rfl
      | nan => rfl
  rw [hq]
  cases m <;> rfl

/-- **C155** Isotropic cosines are in `[-1, 1]`, also without the limiting. -/
theorem C155_isotropic (p : Fpu) (hp : Binary64 p) (x : ℝ) (h0 : 0 ≤ x) (h1 : x ≤ 1) : ∃ mu, p.isotropic (.fin x) = .fin mu ∧ -1 ≤ mu ∧ mu ≤ 1 ∧
    p.sub (p.mul (.fin 2) (.fin x)) (.fin 1) = .fin mu := by
  obtain ⟨fl, hfl, hr⟩ := hp
  have h2 : |2 * x| < overflow64 := by rw [abs_of_nonneg (by linarith)]; linarith [overflow_big]
  have d2 : IsDouble 2 := by simpa using isDouble_nat (n := 2) (by norm_num)
  have f0 := fl_nonneg hfl (show 0 ≤ 2 * x by linarith)
  have f1 := fl_le hfl d2 (show 2 * x ≤ 2 by linarith)
  have h1 : |fl (2 * x) + -1| < overflow64 := by rw [abs_lt]; constructor <;> linarith [overflow_big]
  have a := le_fl hfl isDouble_one.neg (show -1 ≤ fl (2 * x) + -1 by linarith)
  have b := fl_le hfl isDouble_one (show fl (2 * x) + -1 ≤ 1 by linarith)
  have e1 : p.mul (.fin 2) (.fin x) = .fin (fl (2 * x)) := by
    show p.rnd (2 * x) = _
    rw [hr, if_pos h2]
  have e2 : p.sub (p.mul (.fin 2) (.fin x)) (.fin 1) = .fin (fl (fl (2 * x) + -1)) := by
    rw [e1]
    show p.rnd (fl (2 * x) + -1) = _
    rw [hr, if_pos h1]
  refine ⟨_, ?_, a, b, e2⟩
  unfold Fpu.isotropic
  rw [e2]
  simp only [Num.clamp, Num.fin.injEq]
  unfold clampMu
  rw [if_neg (by rw [not_lt, abs_le]; exact ⟨a, b⟩)]

/-- **C155** Levels: above an offset that is not negative, and with a factor in `[0, 1]`, the energy is a number between zero and the incoming
energy. -/
theorem C155_level (p : Fpu) (hp : Binary64 p) (C1 C2 E : ℝ) (hE : IsFinite64 E) (h10 : 0 ≤ C1) (hC : C1 ≤ E)
    (h20 : 0 ≤ C2) (h21 : C2 ≤ 1) : ∃ e, p.level (.fin C1) (.fin C2) (.fin E) = .fin e ∧ 0 ≤ e ∧ e ≤ E := by
  obtain ⟨d, h1, _, h2, h3⟩ := rnd_within hp (show 0 ≤ E + -C1 by linarith) (show E + -C1 ≤ E by linarith) hE
  have hE0 : 0 ≤ E := h10.trans hC
  obtain ⟨e, k1, _, k2, k3⟩ := rnd_within hp (mul_nonneg h20 h2) ((mul_le_of_le_one_left h2 h21).trans h3) hE
  refine ⟨e, ?_, k2, k3⟩
  have : p.sub (.fin E) (.fin C1) = .fin d := h1
  unfold Fpu.level
  rw [this]
  exact k1

/-! ### Exact arithmetic -/

private theorem le_fin_fin {a : Num} {du : ℝ} : (Num.le (.fin 0) a ∧ Num.le a (.fin du)) ↔ ∃ e, a = .fin e ∧ e ≥ 0 ∧ e ≤ du := by
  constructor
  · rintro ⟨h0, h1⟩; exact le_fin h0 h1
  · rintro ⟨e, rfl, h0, h1⟩
    exact ⟨(lt_or_eq_of_le h0).imp id id, (lt_or_eq_of_le h1).imp id id⟩

private theorem loop_exact {cand : Nat → Res ℝ} {candN : Nat → Num} (h : ∀ k e, candN k = .fin e ↔ cand k = .ok e) (n : Nat) (du : ℝ) :
    ∀ fuel k, Fpu.loop candN n (.fin du) fuel k = (rejLoop cand n du fuel k).map fun r => (.fin r.1, r.2) := by
  intro fuel
  induction fuel with
  | zero => intro k; rfl
  | succ fuel ih =>
    intro k
    unfold Fpu.loop rejLoop
    cases hc : cand k with
    | error err =>
      rw [if_neg, ih]
      rintro hh
      obtain ⟨e, he, _⟩ := le_fin_fin.mp hh
      rw [(h k e).mp he] at hc
      cases hc
    | ok e =>
      have he := (h k e).mpr hc
      simp only
      by_cases hb : e ≥ 0 ∧ e ≤ du
      · rw [if_pos (le_fin_fin.mpr ⟨e, he, hb⟩), if_pos hb, he]
        rfl
      · rw [if_neg, if_neg hb, ih]
        rintro hh
        obtain ⟨e', he', hb'⟩ := le_fin_fin.mp hh
        rw [he] at he'
        cases he'
        exact hb hb'

theorem Fpu.ex_round (a : Num) : Fpu.exact.round a = a := by cases a <;> rfl
theorem Fpu.ex_add (a b : Num) : Fpu.exact.add a b = Num.add a b := Fpu.ex_round _
theorem Fpu.ex_sub (a b : Num) : Fpu.exact.sub a b = Num.sub a b := Fpu.ex_round _
theorem Fpu.ex_mul (a b : Num) : Fpu.exact.mul a b = Num.mul a b := Fpu.ex_round _
theorem Fpu.ex_div (a b : Num) : Fpu.exact.div a b = Num.div a b := Fpu.ex_round _

private theorem log_cases (x : ℝ) : (∃ l, clog x = .ok l ∧ Num.log (.fin x) = .fin l) ∨
    ((∃ e, clog x = .error e) ∧ ∀ l, Num.log (.fin x) ≠ .fin l) := by
  by_cases h : 0 < x
  · exact Or.inl ⟨Real.log x, by simp [clog, h], by simp [Num.log, h]⟩
  · refine Or.inr ⟨⟨.nonfinite, by simp [clog, h]⟩, ?_⟩
    intro l
    by_cases h0 : x = 0 <;> simp [Num.log, h, h0]

/-- Sums and products with a special value are special. -/
private theorem add_fin {a b : Num} {x : ℝ} (h : Num.add a b = .fin x) : ∃ u v, a = .fin u ∧ b = .fin v ∧ x = u + v := by
  cases a <;> cases b <;> simp only [Num.add] at h
  case fin.fin u v => exact ⟨u, v, rfl, rfl, by simpa using h.symm⟩
  case inf.inf => split at h <;> cases h
  all_goals cases h

private theorem mul_fin {a b : Num} {x : ℝ} (h : Num.mul a b = .fin x) : ∃ u v, a = .fin u ∧ b = .fin v ∧ x = u * v := by
  cases a <;> cases b <;> simp only [Num.mul] at h
  case fin.fin u v => exact ⟨u, v, rfl, rfl, by simpa using h.symm⟩
  case inf.fin => split at h <;> cases h
  case fin.inf => split at h <;> cases h
  all_goals cases h

private theorem gammaSum_exact (ω : Tape) (k : Nat) (c : ℝ) (hc : c = Real.cos (Real.pi * ω (k + 2) / 2)) :
    (∃ l1 l2, clog (ω k) = .ok l1 ∧ clog (ω (k + 1)) = .ok l2 ∧
      Fpu.exact.gammaSum (.fin (ω k)) (.fin (ω (k + 1))) (.fin (ω (k + 2))) = .fin (l1 + l2 * c * c)) ∨
    (((∃ e, clog (ω k) = .error e) ∨ ∃ e, clog (ω (k + 1)) = .error e) ∧
      ∀ x, Fpu.exact.gammaSum (.fin (ω k)) (.fin (ω (k + 1))) (.fin (ω (k + 2))) ≠ .fin x) := by
  have hcos : Fpu.exact.cos (Fpu.exact.div (Fpu.exact.mul Fpu.exact.pi (.fin (ω (k + 2)))) (.fin 2)) = .fin c := by
    rw [Fpu.ex_mul, Fpu.ex_div]
    simp [Fpu.exact, Num.mul, Num.div, hc]
  have hg : Fpu.exact.gammaSum (.fin (ω k)) (.fin (ω (k + 1))) (.fin (ω (k + 2))) =
      Num.add (Num.log (.fin (ω k))) (Num.mul (Num.mul (Num.log (.fin (ω (k + 1)))) (.fin c)) (.fin c)) := by
    unfold Fpu.gammaSum
    simp only
    rw [hcos, Fpu.ex_add, Fpu.ex_mul, Fpu.ex_mul]
    rfl
  rw [hg]
  rcases log_cases (ω k) with ⟨l1, a1, b1⟩ | ⟨a1, b1⟩
  · rcases log_cases (ω (k + 1)) with ⟨l2, a2, b2⟩ | ⟨a2, b2⟩
    · left
      exact ⟨l1, l2, a1, a2, by rw [b1, b2]; rfl⟩
    · right
      refine ⟨Or.inr a2, ?_⟩
      intro x hx
      obtain ⟨u, v, _, h2, _⟩ := add_fin hx
      obtain ⟨u', v', h3, _, _⟩ := mul_fin h2
      obtain ⟨u'', v'', h4, _, _⟩ := mul_fin h3
      exact b2 _ h4
  · right
    refine ⟨Or.inl a1, ?_⟩
    intro x hx
    obtain ⟨u, v, h1, _, _⟩ := add_fin hx
    exact b1 _ h1

/-- **C155** With exact arithmetic and an exact library the Maxwell spectrum is the one of C42 and C103. -/
theorem C155_exact_maxwell (temp : Tab1D) (U E T : ℝ) (hT : temp.eval E = .ok T) (fuel : Nat) (ω : Tape) (k : Nat) :
    Fpu.exact.maxwell (.fin T) (.fin U) (.fin E) fuel (fun i => .fin (ω i)) k =
      (maxwellSample temp U fuel E ω k).map fun r => (.fin r.1, r.2) := by
  have hs : maxwellSample temp U fuel E ω k = rejLoop (maxwellCand T ω) 3 (E - U) fuel k := by
    unfold maxwellSample
    rw [hT]
    rfl
  have hd : Fpu.exact.sub (.fin E) (.fin U) = .fin (E - U) := by
    rw [Fpu.ex_sub]; simp [Num.sub, Num.neg, Num.add, sub_eq_add_neg]
  rw [hs]
  unfold Fpu.maxwell
  rw [hd]
  refine loop_exact ?_ 3 (E - U) fuel k
  intro k e
  simp only
  rw [Fpu.ex_mul]
  unfold maxwellCand
  simp only
  rcases gammaSum_exact ω k _ rfl with ⟨l1, l2, h1, h2, h3⟩ | ⟨hh, h3⟩
  · rw [h1, h2, h3]
    show Num.fin (-T * _) = .fin e ↔ Except.ok (-T * _) = .ok e
    rw [Num.fin.injEq, Except.ok.injEq]
  · constructor
    · intro h
      obtain ⟨u, v, _, hv, _⟩ := mul_fin h
      exact absurd hv (h3 v)
    · intro h
      rcases hh with ⟨e', he⟩ | ⟨e', he⟩
      · rw [he] at h; cases h
      · rw [he] at h
        cases hx : clog (ω k) with
        | error e'' => rw [hx] at h; cases h
        | ok l => rw [hx] at h; cases h

private theorem sqrt_cases (x : ℝ) : (∃ l, csqrt x = .ok l ∧ Num.sqrt (.fin x) = .fin l) ∨
    ((∃ e, csqrt x = .error e) ∧ ∀ l, Num.sqrt (.fin x) ≠ .fin l) := by
  by_cases h : 0 ≤ x
  · exact Or.inl ⟨Real.sqrt x, by simp [csqrt, h], by simp [Num.sqrt, not_lt.mpr h]⟩
  · exact Or.inr ⟨⟨.nonfinite, by simp [csqrt, h]⟩, fun l => by simp [Num.sqrt, not_le.mp h]⟩

/-- **C155** With exact arithmetic and an exact library the Watt spectrum is the one of C42 and C103. -/
theorem C155_exact_watt (ta tb : Tab1D) (U E a b : ℝ) (ha : ta.eval E = .ok a) (hb : tb.eval E = .ok b) (fuel : Nat) (ω : Tape) (k : Nat) :
    Fpu.exact.watt (.fin a) (.fin b) (.fin U) (.fin E) fuel (fun i => .fin (ω i)) k =
      (wattSample ta tb U fuel E ω k).map fun r => (.fin r.1, r.2) := by
  have hs : wattSample ta tb U fuel E ω k = rejLoop (wattCand a b ω) 4 (E - U) fuel k := by
    unfold wattSample
    rw [ha, hb]
    rfl
  have hd : Fpu.exact.sub (.fin E) (.fin U) = .fin (E - U) := by
    rw [Fpu.ex_sub]; simp [Num.sub, Num.neg, Num.add, sub_eq_add_neg]
  rw [hs]
  unfold Fpu.watt
  rw [hd]
  refine loop_exact ?_ 4 (E - U) fuel k
  intro k e
  simp only [Fpu.ex_mul, Fpu.ex_add, Fpu.ex_sub]
  unfold wattCand
  simp only
  rcases gammaSum_exact ω k _ rfl with ⟨l1, l2, h1, h2, h3⟩ | ⟨hh, h3⟩
  · rw [h1, h2, h3]
    obtain ⟨w, hw⟩ : ∃ w, w = -a * (l1 + l2 * Real.cos (Real.pi * ω (k + 2) / 2) * Real.cos (Real.pi * ω (k + 2) / 2)) := ⟨_, rfl⟩
    have e1 : Num.mul (Num.neg (.fin a)) (.fin (l1 + l2 * Real.cos (Real.pi * ω (k + 2) / 2) * Real.cos (Real.pi * ω (k + 2) / 2))) = .fin w := by
      rw [hw]; rfl
    rw [e1]
    simp only [bind, Except.bind, pure, Except.pure]
    rw [← hw]
    have e2 : Num.mul (Num.mul (Num.mul (.fin a) (.fin a)) (.fin b)) (.fin w) = .fin (a * a * b * w) := rfl
    rw [e2]
    rcases sqrt_cases (a * a * b * w) with ⟨s, s1, s2⟩ | ⟨⟨e', s1⟩, s2⟩
    · rw [s1]
      have : Fpu.exact.sqrt (.fin (a * a * b * w)) = .fin s := s2
      rw [this]
      simp only [Num.mul, Num.add, Num.sub, Num.neg, Num.fin.injEq, Except.ok.injEq, ← sub_eq_add_neg]
    · rw [s1]
      constructor
      · intro h
        obtain ⟨u, v, _, hv, _⟩ := add_fin h
        obtain ⟨u', v', _, hv', _⟩ := mul_fin hv
        exact absurd hv' (s2 v')
      · intro h; cases h
  · constructor
    · intro h
      obtain ⟨u, v, hu, _, _⟩ := add_fin h
      obtain ⟨u', v', hu', _, _⟩ := add_fin hu
      obtain ⟨u'', v'', _, hv, _⟩ := mul_fin hu'
      exact absurd hv (h3 v'')
    · intro h
      rcases hh with ⟨e', he⟩ | ⟨e', he⟩
      · rw [he] at h; cases h
      · rw [he] at h
        cases hx : clog (ω k) with
        | error e'' => rw [hx] at h; cases h
        | ok l => rw [hx] at h; cases h

/-- **C155** With exact arithmetic and an exact library the evaporation spectrum is the one of C42 and C103, at temperature zero too. -/
theorem C155_exact_evap (temp : Tab1D) (U E T : ℝ) (hT : temp.eval E = .ok T) (fuel : Nat) (ω : Tape) (k : Nat) :
    Fpu.exact.evap (.fin T) (.fin U) (.fin E) fuel (fun i => .fin (ω i)) k =
      (evapSample temp U fuel E ω k).map fun r => (.fin r.1, r.2) := by
  have hs : evapSample temp U fuel E ω k = rejLoop (evapCand T (E - U) ω) 2 (E - U) fuel k := by
    unfold evapSample
    rw [hT]
    rfl
  have hd : Fpu.exact.sub (.fin E) (.fin U) = .fin (E - U) := by
    rw [Fpu.ex_sub]; simp [Num.sub, Num.neg, Num.add, sub_eq_add_neg]
  rw [hs]
  unfold Fpu.evap
  rw [hd]
  refine loop_exact ?_ 2 (E - U) fuel k
  intro k e
  simp only [Fpu.ex_mul, Fpu.ex_sub, Fpu.ex_div]
  have fin_case : ∀ g : ℝ, evapG T (E - U) = .ok g →
      Num.sub (.fin 1) (Fpu.exact.exp (Num.neg (Num.div (.fin (E - U)) (.fin T)))) = .fin g →
      (Num.mul (Num.neg (.fin T)) (Fpu.exact.log (Num.mul
        (Num.sub (.fin 1) (Num.mul (Num.sub (.fin 1) (Fpu.exact.exp (Num.neg (Num.div (.fin (E - U)) (.fin T))))) (.fin (ω k))))
        (Num.sub (.fin 1) (Num.mul (Num.sub (.fin 1) (Fpu.exact.exp (Num.neg (Num.div (.fin (E - U)) (.fin T))))) (.fin (ω (k + 1))))))) = .fin e ↔
        evapCand T (E - U) ω k = .ok e) := by
    intro g hg hgN
    rw [hgN]
    unfold evapCand
    rw [hg]
    have e1 : Num.mul (Num.sub (.fin 1) (Num.mul (.fin g) (.fin (ω k)))) (Num.sub (.fin 1) (Num.mul (.fin g) (.fin (ω (k + 1))))) =
        .fin ((1 - g * ω k) * (1 - g * ω (k + 1))) := by
      simp only [Num.mul, Num.sub, Num.neg, Num.add, ← sub_eq_add_neg]
    rw [e1]
    have e2 : Fpu.exact.log = Num.log := rfl
    rw [e2]
    simp only [bind, Except.bind, pure, Except.pure]
    rcases log_cases ((1 - g * ω k) * (1 - g * ω (k + 1))) with ⟨l, a1, b1⟩ | ⟨⟨e', a1⟩, b1⟩
    · rw [a1, b1]
      simp only [Num.neg, Num.mul, Num.fin.injEq, Except.ok.injEq]
    · rw [a1]
      constructor
      · intro h
        obtain ⟨u, v, _, hv, _⟩ := mul_fin h
        exact absurd hv (b1 v)
      · intro h; cases h
  by_cases h0 : T = 0
  · by_cases hpos : 0 < E - U
    · refine fin_case 1 (by simp only [evapG]; rw [if_pos h0, if_pos hpos]) ?_
      simp only [Num.div]
      rw [if_pos h0, if_neg hpos.ne', decide_eq_false (not_lt.mpr hpos.le)]
      simp [Num.neg, Fpu.exact, Num.exp, Num.sub, Num.add]
    · have hg : evapG T (E - U) = .error .nonfinite := by simp only [evapG]; rw [if_pos h0, if_neg hpos]
      constructor
      · intro h
        exfalso
        obtain ⟨u, v, _, hv, _⟩ := mul_fin h
        have hne : ∀ g, Num.sub (.fin 1) (Fpu.exact.exp (Num.neg (Num.div (.fin (E - U)) (.fin T)))) ≠ .fin g := by
          intro g
          simp only [Num.div]
          rw [if_pos h0]
          by_cases hz : E - U = 0
          · rw [if_pos hz]; simp [Num.neg, Fpu.exact, Num.exp, Num.sub, Num.add]
          · have hneg : E - U < 0 := lt_of_le_of_ne (not_lt.mp hpos) hz
            rw [if_neg hz, decide_eq_true hneg]
            simp [Num.neg, Fpu.exact, Num.exp, Num.sub, Num.add]
        have e2 : Fpu.exact.log = Num.log := rfl
        rw [e2] at hv
        generalize Num.sub (.fin 1) (Fpu.exact.exp (Num.neg (Num.div (.fin (E - U)) (.fin T)))) = G at hv hne
        have key : ∀ x : ℝ, ∀ y, Num.sub (.fin 1) (Num.mul G (.fin x)) ≠ .fin y := by
          intro x y hh
          unfold Num.sub at hh
          obtain ⟨u', v', _, hv', _⟩ := add_fin hh
          cases hm : Num.mul G (.fin x) with
          | fin z => obtain ⟨u'', v'', hG, _⟩ := mul_fin hm; exact hne _ hG
          | inf s => rw [hm] at hv'; simp [Num.neg] at hv'
          | nan => rw [hm] at hv'; simp [Num.neg] at hv'
        have hlog : ∀ m : Num, (∀ z, m ≠ .fin z) → ∀ z, Num.log m ≠ .fin z := by
          intro m hm z
          cases m with
          | fin q => exact absurd rfl (hm q)
          | inf s => cases s <;> simp [Num.log]
          | nan => simp [Num.log]
        refine hlog _ ?_ v hv
        intro z hz
        obtain ⟨u', v', hu', _⟩ := mul_fin hz
        exact key _ _ hu'
      · intro h
        unfold evapCand at h
        rw [hg] at h
        cases h
  · refine fin_case (1 - Real.exp (-((E - U) / T))) (by simp only [evapG]; rw [if_neg h0]) ?_
    simp only [Num.div]
    rw [if_neg h0]
    simp only [Num.neg, Fpu.exact, Num.exp, Num.sub, Num.add, ← sub_eq_add_neg]

private theorem log_of_ok {x l : ℝ} (h : clog x = .ok l) : Num.log (.fin x) = .fin l := by
  rcases log_cases x with ⟨l', a, b⟩ | ⟨⟨e, a⟩, _⟩
  · rw [h] at a; cases a; exact b
  · rw [h] at a; cases a

private theorem spectrum_of_ok {ω : Tape} {k : Nat} {x : ℝ} (h : maxwellianSpectrum ω k = .ok x) :
    Fpu.exact.spectrum (fun i => .fin (ω i)) k = .fin x := by
  unfold maxwellianSpectrum at h
  simp only [bind, Except.bind, pure, Except.pure] at h
  cases h1 : clog (ω (k + 1)) with
  | error e => rw [h1] at h; cases h
  | ok l1 =>
    cases h2 : clog (ω (k + 2)) with
    | error e => rw [h1, h2] at h; cases h
    | ok l2 =>
      rw [h1, h2] at h
      have hx := Except.ok.inj h
      unfold Fpu.spectrum
      simp only [Fpu.ex_mul, Fpu.ex_add, Fpu.ex_div]
      have e0 : Fpu.exact.cos (Num.div (Num.mul Fpu.exact.pi (.fin (ω k))) (.fin 2)) = .fin (Real.cos (Real.pi * ω k / 2)) := by
        simp [Fpu.exact, Num.mul, Num.div]
      have e1 : Fpu.exact.log = Num.log := rfl
      rw [e0, e1, log_of_ok h1, log_of_ok h2, ← hx]
      rfl

/-- **C155** Where the N-body sampler of C43 and C104 has a result, it is that of the exact floating point unit. -/
theorem C155_exact_nbody (d : NBody) (hAp : d.Ap ≠ 0) (hA : d.A + 1 ≠ 0) (E : ℝ) (ω : Tape) (k : Nat) (mu e : ℝ) (k' : Nat)
    (h : d.sample E ω k = .ok (mu, e, k')) :
    Fpu.exact.nbody d.n (.fin d.Ap) (.fin d.A) (.fin d.Q) (.fin E) (fun i => .fin (ω i)) k = (.fin mu, .fin e, k') := by
  have hem : Fpu.exact.nbodyEmax (.fin d.Ap) (.fin d.A) (.fin d.Q) (.fin E) = .fin (d.emax E) := by
    unfold Fpu.nbodyEmax NBody.emax
    simp only [Fpu.ex_mul, Fpu.ex_add, Fpu.ex_div, Fpu.ex_sub, Num.sub, Num.neg, Num.add, Num.div, Num.mul]
    rw [if_neg hAp, if_neg hA]
    simp only [← sub_eq_add_neg]
  unfold NBody.sample at h
  simp only at h
  obtain ⟨x, hx, h⟩ := bind_ok h
  have hxN := spectrum_of_ok hx
  obtain ⟨yk, hy, h⟩ := bind_ok h
  obtain ⟨y, ky⟩ := yk
  simp only at h
  obtain ⟨q, hq, h⟩ := bind_ok h
  have hr := Except.ok.inj h
  have hyN : Fpu.exact.nbodyY d.n (fun i => .fin (ω i)) (k + 3) = (.fin y, ky - (k + 3)) ∧ k + 3 ≤ ky := by
    unfold Fpu.nbodyY
    by_cases h3 : d.n = 3
    · rw [if_pos h3] at hy ⊢
      obtain ⟨y', hy', hy⟩ := bind_ok hy
      have := Except.ok.inj hy
      simp only [Prod.mk.injEq] at this
      obtain ⟨rfl, rfl⟩ := this
      rw [spectrum_of_ok hy']
      exact ⟨by simp, by omega⟩
    · rw [if_neg h3] at hy ⊢
      by_cases h4 : d.n = 4
      · rw [if_pos h4] at hy ⊢
        obtain ⟨l, hl, hy⟩ := bind_ok hy
        have := Except.ok.inj hy
        simp only [Prod.mk.injEq] at this
        obtain ⟨rfl, rfl⟩ := this
        simp only [Fpu.ex_mul]
        have e1 : Fpu.exact.log = Num.log := rfl
        have e2 : Num.mul (Num.mul (.fin (ω (k + 3))) (.fin (ω (k + 3 + 1)))) (.fin (ω (k + 3 + 2))) =
          .fin (ω (k + 3) * ω (k + 3 + 1) * ω (k + 3 + 2)) := rfl
        rw [e1, e2, log_of_ok hl]
        exact ⟨by simp [Num.neg], by omega⟩
      · rw [if_neg h4] at hy ⊢
        by_cases h5 : d.n = 5
        · rw [if_pos h5] at hy ⊢
          obtain ⟨l1, hl1, hy⟩ := bind_ok hy
          obtain ⟨l2, hl2, hy⟩ := bind_ok hy
          have := Except.ok.inj hy
          simp only [Prod.mk.injEq] at this
          obtain ⟨rfl, rfl⟩ := this
          simp only [Fpu.ex_mul, Fpu.ex_sub]
          have e1 : Fpu.exact.log = Num.log := rfl
          have e2 : Num.mul (Num.mul (Num.mul (.fin (ω (k + 3))) (.fin (ω (k + 3 + 1)))) (.fin (ω (k + 3 + 2)))) (.fin (ω (k + 3 + 3))) =
            .fin (ω (k + 3) * ω (k + 3 + 1) * ω (k + 3 + 2) * ω (k + 3 + 3)) := rfl
          rw [e1, e2, log_of_ok hl1, log_of_ok hl2]
          refine ⟨?_, by omega⟩
          simp only [Fpu.exact, Num.mul, Num.neg, Num.sub, Num.add, Prod.mk.injEq, Num.fin.injEq]
          exact ⟨by ring, by omega⟩
        · rw [if_neg h5] at hy ⊢
          have := Except.ok.inj hy
          simp only [Prod.mk.injEq] at this
          obtain ⟨rfl, rfl⟩ := this
          exact ⟨by simp, le_rfl⟩
  unfold Fpu.nbody
  simp only
  rw [hyN.1, hxN, hem]
  simp only [Fpu.ex_mul, Fpu.ex_add, Fpu.ex_div, Fpu.ex_sub]
  have hk : k + 3 + (ky - (k + 3)) = ky := by omega
  rw [hk]
  simp only [Prod.mk.injEq] at hr
  obtain ⟨rfl, rfl, rfl⟩ := hr
  unfold rdiv at hq
  by_cases h0 : x + y = 0
  · rw [if_pos h0] at hq; cases hq
  · rw [if_neg h0] at hq
    rw [← Except.ok.inj hq]
    simp only [Num.add, Num.div, Num.mul, Num.sub, Num.neg]
    rw [if_neg h0]
    simp only [Num.mul, ← sub_eq_add_neg]

/-! ### The hypotheses can be met -/

open Classical in
private noncomputable def exampleFpu (fl : ℝ → ℝ) : Fpu :=
  { Fpu.exact with rnd := fun x => if |x| < overflow64 then .fin (fl x) else .inf (decide (x < 0)), square := fun _ => .fin 1 }

/-- There are binary64 units with a sane library. -/
example : ∃ p : Fpu, Binary64 p ∧ SaneLibrary p ∧ p.log (.fin 0) = .inf true := by
  obtain ⟨fl, hfl⟩ := exists_rounding
  refine ⟨exampleFpu fl, ⟨fl, hfl, fun x => rfl⟩, ⟨?_, fun a => Or.inr (Or.inl (by simp [exampleFpu, Num.lt]))⟩, by simp [exampleFpu, Fpu.exact, Num.log]⟩
  intro x h0 h1
  right
  show Num.le (Num.log (.fin x)) _
  by_cases h : 0 < x
  · simp only [Num.log, if_pos h]
    exact (lt_or_eq_of_le (Real.log_nonpos h0 h1)).imp id id
  · have : x = 0 := le_antisymm (not_lt.mp h) h0
    subst this
    left
    simp [Num.log, Num.lt]

/-- Draws with the value zero are meant: `0` is a finite binary64 number in `[0, 1)`. -/
example : IsFinite64 0 := ⟨isDouble_zero, by rw [abs_zero]; exact overflow_pos⟩

/-- A spectrum that accepts at once, in exact arithmetic: `T = 1`, `U = 0`, `E = 1`, all draws one. -/
example : Fpu.exact.maxwell (.fin 1) (.fin 0) (.fin 1) 1 (fun _ => .fin 1) 0 = .ok (.fin 0, 3) := by
  have hc : Fpu.exact.mul (Num.neg (.fin 1)) (Fpu.exact.gammaSum (.fin 1) (.fin 1) (.fin 1)) = .fin 0 := by
    unfold Fpu.gammaSum
    simp only [Fpu.ex_mul, Fpu.ex_add, Fpu.ex_div]
    simp [Fpu.exact, Num.log, Num.mul, Num.div, Num.add, Num.neg]
  unfold Fpu.maxwell Fpu.loop
  simp only [hc]
  rw [if_pos]
  show Num.le _ (Fpu.exact.mul (Num.neg (.fin 1)) (Fpu.exact.gammaSum (.fin 1) (.fin 1) (.fin 1))) ∧
    Num.le (Fpu.exact.mul (Num.neg (.fin 1)) (Fpu.exact.gammaSum (.fin 1) (.fin 1) (.fin 1))) _
  rw [hc, Fpu.ex_sub]
  simp [Num.le, Num.lt, Num.eq, Num.sub, Num.neg, Num.add]

end PNDL
