import Verif.Model.Energy
import Verif.Lemmas.Interp
import Verif.Props.Angle

/-! C42, C43: rejection-sampled spectra and the N-body law. -/
namespace PNDL
open Spec

/-! ## C42 -/

/-- `e` is acceptable: `0 ≤ e ≤ du`. -/
def Spec.Accepts (du : ℝ) (r : Res ℝ) : Prop := ∃ e, r = .ok e ∧ 0 ≤ e ∧ e ≤ du

/-- The loop returns the first acceptable candidate. -/
theorem rejLoop_ok {cand : Nat → Res ℝ} {n : Nat} {du : ℝ} : ∀ {fuel k : Nat} {e : ℝ} {k' : Nat},
    rejLoop cand n du fuel k = .ok (e, k') → 0 ≤ e ∧ e ≤ du ∧
      ∃ m, m < fuel ∧ k' = k + (m + 1) * n ∧ cand (k + m * n) = .ok e ∧ ∀ j < m, ¬ Accepts du (cand (k + j * n)) := by
  intro fuel
  induction fuel with
  | zero => intro k e k' h; cases h
  | succ fuel ih =>
    intro k e k' h
    have again : ∀ (hna : ¬ Accepts du (cand k)), rejLoop cand n du fuel (k + n) = .ok (e, k') → 0 ≤ e ∧ e ≤ du ∧
      ∃ m, m < fuel + 1 ∧ k' = k + (m + 1) * n ∧ cand (k + m * n) = .ok e ∧ ∀ j < m, ¬ Accepts du (cand (k + j * n)) := by
      intro hna h
      obtain ⟨a, b, m, m1, m2, m3, m4⟩ := ih h
      refine ⟨a, b, m + 1, by omega, by rw [m2]; ring, by rw [← m3]; congr 1; ring, ?_⟩
      intro j hj
      rcases j with _ | j
      · simpa using hna
      · have := m4 j (by omega)
        rwa [show k + n + j * n = k + (j + 1) * n by ring] at this
    rw [rejLoop] at h
    split at h
    · rename_i e' he'
      split at h
      · rename_i hc
        cases h
        exact ⟨hc.1, hc.2, 0, by omega, by ring, by simpa using he', fun j hj => absurd hj (by omega)⟩
      · rename_i hc
        refine again ?_ h
        rintro ⟨x, hx, h1, h2⟩
        rw [he'] at hx
        cases hx
        exact hc ⟨h1, h2⟩
    · rename_i er he'
      refine again ?_ h
      rintro ⟨x, hx, _⟩
      rw [he'] at hx
      cases hx

/-- The loop stops as soon as an acceptable candidate comes. -/
theorem rejLoop_stops {cand : Nat → Res ℝ} {n : Nat} {du : ℝ} : ∀ {m k : Nat}, Accepts du (cand (k + m * n)) →
    ∀ fuel, m < fuel → ∃ r, rejLoop cand n du fuel k = .ok r := by
  intro m
  induction m with
  | zero =>
    intro k h fuel hf
    obtain ⟨fuel, rfl⟩ : ∃ f, fuel = f + 1 := ⟨fuel - 1, by omega⟩
    obtain ⟨e, he, h1, h2⟩ := h
    rw [Nat.zero_mul, Nat.add_zero] at he
    rw [rejLoop, he]
    exact ⟨_, if_pos ⟨h1, h2⟩⟩
  | succ m ih =>
    intro k h fuel hf
    obtain ⟨fuel, rfl⟩ : ∃ f, fuel = f + 1 := ⟨fuel - 1, by omega⟩
    have := ih (k := k + n) (by rwa [show k + n + m * n = k + (m + 1) * n by ring]) fuel (by omega)
    rw [rejLoop]
    split
    · split
      · exact ⟨_, rfl⟩
      · exact this
    · exact this

/-- The loop never ends exactly when no candidate is acceptable. -/
theorem rejLoop_diverges_iff {cand : Nat → Res ℝ} {n : Nat} {du : ℝ} {k : Nat} :
    (∀ fuel, rejLoop cand n du fuel k = .error .diverge) ↔ ∀ m, ¬ Accepts du (cand (k + m * n)) := by
  constructor
  · intro h m hm
    obtain ⟨r, hr⟩ := rejLoop_stops hm (m + 1) (by omega)
    rw [h] at hr
    cases hr
  · intro h fuel
    induction fuel generalizing k with
    | zero => rfl
    | succ fuel ih =>
      rw [rejLoop]
      have h' : ∀ m, ¬ Accepts du (cand (k + n + m * n)) := fun m => by
        have := h (m + 1); rwa [show k + n + m * n = k + (m + 1) * n by ring]
      split
      · rename_i e he
        split
        · rename_i hc
          have h0 := h 0
          rw [Nat.zero_mul, Nat.add_zero] at h0
          exact absurd ⟨e, he, hc⟩ h0
        · exact ih h'
      · exact ih h'

/-- C42: whenever Maxwellian sampling returns, the energy is within the restriction. -/
theorem C42_maxwell (temp : Tab1D) (U E : ℝ) (fuel k : Nat) (ω : Tape) (e : ℝ) (k' : Nat)
    (h : maxwellSample temp U fuel E ω k = .ok (e, k')) : 0 ≤ e ∧ e ≤ E - U := by
  unfold maxwellSample at h
  cases hT : temp.eval E with
  | error er => rw [hT] at h; cases h
  | ok T => rw [hT] at h; exact ⟨(rejLoop_ok h).1, (rejLoop_ok h).2.1⟩

/-- C42 for Evaporation. -/
theorem C42_evaporation (temp : Tab1D) (U E : ℝ) (fuel k : Nat) (ω : Tape) (e : ℝ) (k' : Nat)
    (h : evapSample temp U fuel E ω k = .ok (e, k')) : 0 ≤ e ∧ e ≤ E - U := by
  unfold evapSample at h
  cases hT : temp.eval E with
  | error er => rw [hT] at h; cases h
  | ok T => rw [hT] at h; exact ⟨(rejLoop_ok h).1, (rejLoop_ok h).2.1⟩

/-- C42 for Watt. -/
theorem C42_watt (ta tb : Tab1D) (U E : ℝ) (fuel k : Nat) (ω : Tape) (e : ℝ) (k' : Nat)
    (h : wattSample ta tb U fuel E ω k = .ok (e, k')) : 0 ≤ e ∧ e ≤ E - U := by
  unfold wattSample at h
  cases ha : ta.eval E with
  | error er => rw [ha] at h; cases h
  | ok a =>
    cases hb : tb.eval E with
    | error er => rw [ha, hb] at h; cases h
    | ok b => rw [ha, hb] at h; exact ⟨(rejLoop_ok h).1, (rejLoop_ok h).2.1⟩

/-- C42: the three densities vanish outside `[0, E - U]`. -/
theorem C42_pdf (ta tb : Tab1D) (U E Eout : ℝ) (h : Eout < 0 ∨ E - U < Eout) :
    maxwellPdf ta U E Eout = .ok 0 ∧ evapPdf ta U E Eout = .ok 0 ∧ wattPdf ta tb U E Eout = .ok 0 := by
  refine ⟨?_, ?_, ?_⟩
  · unfold maxwellPdf; exact if_pos h
  · unfold evapPdf; exact if_pos h
  · unfold wattPdf; exact if_pos h

/-- Below the restriction energy none of the three samplers ever returns. -/
theorem C42_no_return (ta tb : Tab1D) (U E a b : ℝ) (hU : E < U) (ha : ta.eval E = .ok a) (hb : tb.eval E = .ok b)
    (ω : Tape) (fuel k : Nat) : maxwellSample ta U fuel E ω k = .error .diverge ∧
      evapSample ta U fuel E ω k = .error .diverge ∧ wattSample ta tb U fuel E ω k = .error .diverge := by
  have hno : ∀ r, ¬ Accepts (E - U) r := by rintro r ⟨e, _, h1, h2⟩; linarith
  refine ⟨?_, ?_, ?_⟩
  · unfold maxwellSample; rw [ha]; exact rejLoop_diverges_iff.mpr (fun m => hno _) fuel
  · unfold evapSample; rw [ha]; exact rejLoop_diverges_iff.mpr (fun m => hno _) fuel
  · unfold wattSample; rw [ha, hb]; exact rejLoop_diverges_iff.mpr (fun m => hno _) fuel

/-- Draws strictly between 0 and 1. -/
def Spec.OpenTape (ω : Tape) : Prop := ∀ k, 0 < ω k ∧ ω k < 1

/-- The common factor of the Maxwellian candidates is positive. -/
theorem maxwell_core_pos {ω : Tape} (hω : OpenTape ω) (i j : Nat) (c : ℝ) :
    clog (ω i) = .ok (Real.log (ω i)) ∧ clog (ω j) = .ok (Real.log (ω j)) ∧
      Real.log (ω i) + Real.log (ω j) * c * c < 0 := by
  refine ⟨clog_ok (hω i).1, clog_ok (hω j).1, ?_⟩
  have h1 := Real.log_neg (hω i).1 (hω i).2
  have h2 := Real.log_neg (hω j).1 (hω j).2
  nlinarith [mul_self_nonneg c]

/-- C42: with a positive temperature a Maxwellian candidate is always positive, so the sampler only rejects energies above
`E - U`, and it returns the first candidate that is not. -/
theorem C42_maxwell_candidates (T : ℝ) (hT : 0 < T) (ω : Tape) (hω : OpenTape ω) (k : Nat) :
    ∃ e, maxwellCand T ω k = .ok e ∧ 0 < e := by
  obtain ⟨h1, h2, h3⟩ := maxwell_core_pos hω k (k + 1) (Real.cos (Real.pi * ω (k + 2) / 2))
  refine ⟨-T * (Real.log (ω k) + Real.log (ω (k + 1)) * Real.cos (Real.pi * ω (k + 2) / 2) *
    Real.cos (Real.pi * ω (k + 2) / 2)), ?_, ?_⟩
  · unfold maxwellCand
    rw [h1, h2]
    rfl
  · nlinarith

theorem evapG_ok {T du : ℝ} (h : T ≠ 0) : evapG T du = .ok (1 - Real.exp (-(du / T))) := by
  unfold evapG
  rw [if_neg h]

/-- C42: with a positive temperature and `E > U`, every Evaporation candidate is positive. -/
theorem C42_evaporation_candidates (T du : ℝ) (hT : 0 < T) (hdu : 0 < du) (ω : Tape) (hω : OpenTape ω) (k : Nat) :
    ∃ e, evapCand T du ω k = .ok e ∧ 0 < e := by
  have hw : 0 < du / T := div_pos hdu hT
  have hexp1 := Real.exp_pos (-(du / T))
  have hexp2 : Real.exp (-(du / T)) < 1 := by rw [Real.exp_lt_one_iff]; linarith
  have key : ∀ i, 0 < 1 - (1 - Real.exp (-(du / T))) * ω i ∧ 1 - (1 - Real.exp (-(du / T))) * ω i < 1 := by
    intro i
    obtain ⟨a, b⟩ := hω i
    constructor
    · nlinarith
    · nlinarith [mul_pos (show 0 < 1 - Real.exp (-(du / T)) by linarith) a]
  have hp : 0 < (1 - (1 - Real.exp (-(du / T))) * ω k) * (1 - (1 - Real.exp (-(du / T))) * ω (k + 1)) :=
    mul_pos (key k).1 (key (k + 1)).1
  have hp1 : (1 - (1 - Real.exp (-(du / T))) * ω k) * (1 - (1 - Real.exp (-(du / T))) * ω (k + 1)) < 1 := by
    nlinarith [key k, key (k + 1)]
  refine ⟨-T * Real.log ((1 - (1 - Real.exp (-(du / T))) * ω k) * (1 - (1 - Real.exp (-(du / T))) * ω (k + 1))), ?_, ?_⟩
  · unfold evapCand
    rw [evapG_ok hT.ne']
    simp only [bind, Except.bind]
    rw [clog_ok hp]
    rfl
  · have := Real.log_neg hp hp1
    nlinarith

/-- C42: with positive parameters a Watt candidate is never negative. -/
theorem C42_watt_candidates (a b : ℝ) (ha : 0 < a) (hb : 0 < b) (ω : Tape) (hω : OpenTape ω) (k : Nat) :
    ∃ e, wattCand a b ω k = .ok e ∧ 0 ≤ e := by
  obtain ⟨h1, h2, h3⟩ := maxwell_core_pos hω k (k + 1) (Real.cos (Real.pi * ω (k + 2) / 2))
  obtain ⟨w, hw⟩ : ∃ w, w = -a * (Real.log (ω k) + Real.log (ω (k + 1)) * Real.cos (Real.pi * ω (k + 2) / 2) *
    Real.cos (Real.pi * ω (k + 2) / 2)) := ⟨_, rfl⟩
  have hw0 : 0 < w := by rw [hw]; nlinarith
  have hs : 0 ≤ a * a * b * w := by positivity
  refine ⟨w + 0.25 * a * a * b + (2 * ω (k + 3) - 1) * Real.sqrt (a * a * b * w), ?_, ?_⟩
  · unfold wattCand
    rw [h1, h2]
    simp only [bind, Except.bind, ← hw, csqrt, if_pos hs]
    rfl
  · obtain ⟨c, d⟩ := hω (k + 3)
    have hsq := Real.sqrt_nonneg (a * a * b * w)
    have e1 : Real.sqrt (a * a * b * w) = Real.sqrt w * Real.sqrt (a * a * b) := by
      rw [mul_comm, Real.sqrt_mul hw0.le]
    have e2 := Real.mul_self_sqrt hw0.le
    have e3 := Real.mul_self_sqrt (show 0 ≤ a * a * b by positivity)
    have : Real.sqrt (a * a * b * w) ≤ w + 0.25 * a * a * b := by
      rw [e1]
      nlinarith [sq_nonneg (Real.sqrt w - Real.sqrt (a * a * b) / 2)]
    nlinarith

/-! ## C43 -/

/-- C43: which parameters the constructor accepts. -/
theorem C43_accepts (n : Nat) (Ap A Q : ℝ) :
    (∃ d, NBody.make n Ap A Q = .ok d) ↔ (n = 3 ∨ n = 4 ∨ n = 5) ∧ 0 < Ap ∧ 0 < A := by
  unfold NBody.make
  constructor
  · rintro ⟨d, h⟩
    split at h
    · cases h
    split at h
    · cases h
    split at h
    · cases h
    rename_i h1 h2 h3
    exact ⟨by omega, not_le.mp h2, not_le.mp h3⟩
  · rintro ⟨h1, h2, h3⟩
    refine ⟨⟨n, Ap, A, Q⟩, ?_⟩
    rw [if_neg (by omega), if_neg (not_le.mpr h2), if_neg (not_le.mpr h3)]

/-- C43: the accepted object has the parameters given, and rejection is by exception. -/
theorem C43_make (n : Nat) (Ap A Q : ℝ) :
    NBody.make n Ap A Q = .ok ⟨n, Ap, A, Q⟩ ∨ NBody.make n Ap A Q = .error .exc := by
  unfold NBody.make
  split
  · exact .inr rfl
  split
  · exact .inr rfl
  split
  · exact .inr rfl
  · exact .inl rfl

theorem maxwellianSpectrum_pos {ω : Tape} (hω : OpenTape ω) (k : Nat) : ∃ x, maxwellianSpectrum ω k = .ok x ∧ 0 < x := by
  obtain ⟨h1, h2, h3⟩ := maxwell_core_pos hω (k + 1) (k + 2) (Real.cos (Real.pi * ω k / 2))
  refine ⟨-(Real.log (ω (k + 1)) + Real.log (ω (k + 2)) * Real.cos (Real.pi * ω k / 2) * Real.cos (Real.pi * ω k / 2)), ?_, ?_⟩
  · unfold maxwellianSpectrum
    rw [h1, h2]
    rfl
  · linarith

/-- C43: every draw succeeds, the cosine is in `[-1, 1)` and the energy is a fraction in `(0, 1]` of the kinematic maximum. -/
theorem C43_fraction (n : Nat) (Ap A Q : ℝ) (d : NBody) (hd : NBody.make n Ap A Q = .ok d) (E : ℝ) (ω : Tape) (hω : OpenTape ω)
    (k : Nat) : ∃ mu t k', d.sample E ω k = .ok (mu, t * ((Ap - 1) / Ap * (A / (A + 1) * E + Q)), k') ∧
      -1 ≤ mu ∧ mu < 1 ∧ 0 < t ∧ t ≤ 1 := by
  have hacc := (C43_accepts n Ap A Q).mp ⟨d, hd⟩
  have hd' : d = ⟨n, Ap, A, Q⟩ := by
    rcases C43_make n Ap A Q with h | h <;> rw [h] at hd <;> cases hd; rfl
  subst hd'
  obtain ⟨x, hx, hx0⟩ := maxwellianSpectrum_pos hω k
  have fin : ∀ (y : ℝ) (k1 : Nat), 0 < y →
      ∃ mu t k', (do let q ← rdiv x (x + y); return (2 * ω k1 - 1, q * (NBody.mk n Ap A Q).emax E, k1 + 1) : Res (ℝ × ℝ × Nat)) =
        .ok (mu, t * ((Ap - 1) / Ap * (A / (A + 1) * E + Q)), k') ∧ -1 ≤ mu ∧ mu < 1 ∧ 0 < t ∧ t ≤ 1 := by
    intro y k1 hy
    refine ⟨2 * ω k1 - 1, x / (x + y), k1 + 1, ?_, ?_, ?_, by positivity, ?_⟩
    · rw [rdiv_ok (by positivity)]; rfl
    · linarith [(hω k1).1]
    · linarith [(hω k1).2]
    · rw [div_le_one (by positivity)]; linarith
  unfold NBody.sample
  rw [hx]
  simp only [bind, Except.bind]
  rcases hacc.1 with h | h | h
  · subst h
    obtain ⟨y, hy, hy0⟩ := maxwellianSpectrum_pos hω (k + 3)
    simp only [if_true, hy, pure, Except.pure]
    exact fin y _ hy0
  · subst h
    have hp : 0 < ω (k + 3) * ω (k + 3 + 1) * ω (k + 3 + 2) := mul_pos (mul_pos (hω _).1 (hω _).1) (hω _).1
    have hp1 : ω (k + 3) * ω (k + 3 + 1) * ω (k + 3 + 2) < 1 := by
      have := mul_lt_one_of_nonneg_of_lt_one_left (hω (k + 3)).1.le (hω (k + 3)).2 (hω (k + 3 + 1)).2.le
      exact mul_lt_one_of_nonneg_of_lt_one_left (mul_pos (hω _).1 (hω _).1).le this (hω (k + 3 + 2)).2.le
    simp only [if_neg (show ¬ (4 : Nat) = 3 by decide), if_true, clog_ok hp, pure, Except.pure]
    exact fin _ _ (by have := Real.log_neg hp hp1; linarith)
  · subst h
    have hp : 0 < ω (k + 3) * ω (k + 3 + 1) * ω (k + 3 + 2) * ω (k + 3 + 3) :=
      mul_pos (mul_pos (mul_pos (hω _).1 (hω _).1) (hω _).1) (hω _).1
    have hp1 : ω (k + 3) * ω (k + 3 + 1) * ω (k + 3 + 2) * ω (k + 3 + 3) < 1 := by
      have h1 := mul_lt_one_of_nonneg_of_lt_one_left (hω (k + 3)).1.le (hω (k + 3)).2 (hω (k + 3 + 1)).2.le
      have h2 := mul_lt_one_of_nonneg_of_lt_one_left (mul_pos (hω _).1 (hω _).1).le h1 (hω (k + 3 + 2)).2.le
      exact mul_lt_one_of_nonneg_of_lt_one_left (mul_pos (mul_pos (hω _).1 (hω _).1) (hω _).1).le h2 (hω (k + 3 + 3)).2.le
    simp only [if_neg (show ¬ (5 : Nat) = 3 by decide), if_neg (show ¬ (5 : Nat) = 4 by decide), if_true, clog_ok hp,
      clog_ok (hω (k + 3 + 4)).1, pure, Except.pure]
    refine fin _ _ ?_
    have h1 := Real.log_neg hp hp1
    have h2 := Real.log_neg (hω (k + 3 + 4)).1 (hω (k + 3 + 4)).2
    nlinarith [sq_nonneg (Real.cos (0.5 * Real.pi * ω (k + 3 + 5)))]

/-- C43, whenever the kinematic maximum is not negative: every sampled energy lies in `[0, Emax]`.  Missing: the constructor
also accepts parameters with a negative maximum (`C43_violation`). -/
theorem C43_in_range_partial (n : Nat) (Ap A Q : ℝ) (d : NBody) (hd : NBody.make n Ap A Q = .ok d) (E : ℝ)
    (hE : 0 ≤ (Ap - 1) / Ap * (A / (A + 1) * E + Q)) (ω : Tape) (hω : OpenTape ω) (k : Nat) :
    ∃ mu e k', d.sample E ω k = .ok (mu, e, k') ∧ -1 ≤ mu ∧ mu < 1 ∧ 0 ≤ e ∧ e ≤ (Ap - 1) / Ap * (A / (A + 1) * E + Q) := by
  obtain ⟨mu, t, k', h, a, b, c, e⟩ := C43_fraction n Ap A Q d hd E ω hω k
  refine ⟨mu, _, k', h, a, b, mul_nonneg c.le hE, ?_⟩
  nlinarith

/-- The full claim is false of the code: with a total mass ratio below 1, which the constructor accepts, every sampled energy is
negative. -/
theorem C43_violation (n : Nat) (hn : n = 3 ∨ n = 4 ∨ n = 5) : ∃ d, NBody.make n (1 / 2) 1 0 = .ok d ∧
    ∀ ω, OpenTape ω → ∀ k, ∃ mu e k', d.sample 2 ω k = .ok (mu, e, k') ∧ e < 0 := by
  obtain ⟨d, hd⟩ := (C43_accepts n (1 / 2) 1 0).mpr ⟨hn, by norm_num, by norm_num⟩
  refine ⟨d, hd, fun ω hω k => ?_⟩
  obtain ⟨mu, t, k', h, a, b, c, e⟩ := C43_fraction n (1 / 2) 1 0 d hd 2 ω hω k
  refine ⟨mu, _, k', h, ?_⟩
  norm_num
  exact c

example : OpenTape (fun _ => 1 / 2) := fun _ => by norm_num
example : (0 : ℝ) ≤ (3 - 1) / 3 * (2 / (2 + 1) * 14 + (-2.2)) := by norm_num

end PNDL
