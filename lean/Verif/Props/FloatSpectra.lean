import Verif.Model.FloatSpectra
import Verif.Props.Spectra
import Verif.Props.FloatBase

/-! C167: rejection-sampled spectra and the N-body law in double arithmetic. -/
namespace PNDL
open Spec

/-- What is asked of the mathematical library: on doubles, a logarithm that is negative below 1, zero at 1, and returns doubles, and an exponential
of non-positive numbers that lies in `[0, 1]`.  Nothing is asked of its accuracy, nor of the cosine. -/
structure Spec.SoundLibm (flog fexp : ℝ → ℝ) : Prop where
  log_neg : ∀ x : ℝ, IsDouble x → 0 < x → x < 1 → flog x < 0
  log_one : flog 1 = 0
  log_double : ∀ x : ℝ, IsDouble (flog x)
  exp_unit : ∀ x : ℝ, x ≤ 0 → 0 ≤ fexp x ∧ fexp x ≤ 1

theorem clogFl_ok {flog : ℝ → ℝ} {x : ℝ} (h : 0 < x) : clogFl flog x = .ok (flog x) := if_neg (not_le.mpr h)

section
variable {fl flog fexp fcos : ℝ → ℝ} (hfl : IsRoundToNearest fl) (hm : SoundLibm flog fexp)
include hfl hm

/-- The sum of logarithms is negative, whatever the cosine. -/
theorem logSumFl_neg {x y c : ℝ} (dx : IsDouble x) (dy : IsDouble y) (x0 : 0 < x) (x1 : x < 1) (y0 : 0 < y) (y1 : y < 1) :
    ∃ s, logSumFl fl flog x y c = .ok s ∧ s < 0 ∧ IsDouble s := by
  unfold logSumFl
  rw [clogFl_ok x0, clogFl_ok y0]
  refine ⟨_, rfl, ?_, (hfl _).1⟩
  have l1 := hm.log_neg x dx x0 x1
  have l2 := hm.log_neg y dy y0 y1
  have hp : fl (fl (flog y * c) * c) ≤ 0 := by
    refine fl_nonpos hfl ?_
    rcases le_total 0 c with h | h
    · exact mul_nonpos_of_nonpos_of_nonneg (fl_nonpos hfl (mul_nonpos_of_nonpos_of_nonneg l2.le h)) h
    · exact mul_nonpos_of_nonneg_of_nonpos (fl_nonneg hfl (mul_nonneg_of_nonpos_of_nonpos l2.le h)) h
  have := fl_le hfl (hm.log_double x) (show flog x + fl (fl (flog y * c) * c) ≤ flog x by linarith)
  linarith

/-- **C167** Every Maxwellian candidate is a number and not negative. -/
theorem C167_maxwell_candidates (pi T : ℝ) (hT : 0 ≤ T) (ω : Tape) (hω : OpenTape ω) (dω : ∀ i, IsDouble (ω i)) (k : Nat) :
    ∃ e, maxwellCandFl fl flog fcos pi T ω k = .ok e ∧ 0 ≤ e := by
  obtain ⟨s, hs, hn, _⟩ := logSumFl_neg hfl hm (c := fcos (fl (fl (pi * ω (k + 2)) / 2))) (dω k) (dω (k + 1)) (hω k).1 (hω k).2 (hω (k + 1)).1
    (hω (k + 1)).2
  unfold maxwellCandFl
  simp only [hs, bind, Except.bind]
  exact ⟨_, rfl, fl_nonneg hfl (by nlinarith)⟩

/-- The factor of the evaporation law lies in `[0, 1]`. -/
theorem evapGFl_unit {T du : ℝ} (hT : 0 ≤ T) (hdu : 0 ≤ du) {g : ℝ} (h : evapGFl fl fexp T du = .ok g) : 0 ≤ g ∧ g ≤ 1 := by
  unfold evapGFl at h
  by_cases h0 : T = 0
  · rw [if_pos h0] at h
    split at h
    · cases h; exact ⟨zero_le_one, le_rfl⟩
    · cases h
  · rw [if_neg h0] at h
    cases h
    have hw := fl_nonneg hfl (div_nonneg hdu hT)
    obtain ⟨e0, e1⟩ := hm.exp_unit (-fl (du / T)) (by linarith)
    exact ⟨fl_nonneg hfl (by linarith), fl_le hfl isDouble_one (by linarith)⟩

/-- **C167** Every evaporation candidate that is a number is not negative. -/
theorem C167_evaporation_candidates (T du : ℝ) (hT : 0 ≤ T) (hdu : 0 ≤ du) (ω : Tape) (hω : OpenTape ω) (k : Nat) (e : ℝ)
    (h : evapCandFl fl flog fexp T du ω k = .ok e) : 0 ≤ e := by
  unfold evapCandFl at h
  obtain ⟨g, hg, h⟩ := bind_ok h
  obtain ⟨l, hl, h⟩ := bind_ok h
  simp only [pure, Except.pure, Except.ok.injEq] at h
  obtain ⟨g0, g1⟩ := evapGFl_unit hfl hm hT hdu hg
  have factor : ∀ i, 0 ≤ fl (1 - fl (g * ω i)) ∧ fl (1 - fl (g * ω i)) ≤ 1 := by
    intro i
    have a0 := fl_nonneg hfl (mul_nonneg g0 (hω i).1.le)
    have a1 := fl_le hfl isDouble_one (show g * ω i ≤ 1 by nlinarith [(hω i).1, (hω i).2])
    exact ⟨fl_nonneg hfl (by linarith), fl_le hfl isDouble_one (by linarith)⟩
  obtain ⟨a0, a1⟩ := factor k
  obtain ⟨b0, b1⟩ := factor (k + 1)
  unfold clogFl at hl
  split at hl
  · cases hl
  rename_i hp
  cases hl
  have hp1 := fl_le hfl isDouble_one (show fl (1 - fl (g * ω k)) * fl (1 - fl (g * ω (k + 1))) ≤ 1 by nlinarith)
  have hln : flog (fl (fl (1 - fl (g * ω k)) * fl (1 - fl (g * ω (k + 1))))) ≤ 0 := by
    rcases hp1.lt_or_eq with h1 | h1
    · exact (hm.log_neg _ (hfl _).1 (not_le.mp hp) h1).le
    · rw [h1, hm.log_one]
  rw [← h]
  exact fl_nonneg hfl (by nlinarith)

/-- **C167** Every Watt candidate is a number: the argument of the square root is never negative. -/
theorem C167_watt_candidates (pi a b : ℝ) (ha : 0 ≤ a) (hb : 0 ≤ b) (ω : Tape) (hω : OpenTape ω) (dω : ∀ i, IsDouble (ω i)) (k : Nat) :
    ∃ e, wattCandFl fl flog fcos pi a b ω k = .ok e := by
  obtain ⟨s, hs, hn, _⟩ := logSumFl_neg hfl hm (c := fcos (fl (fl (pi * ω (k + 2)) / 2))) (dω k) (dω (k + 1)) (hω k).1 (hω k).2 (hω (k + 1)).1
    (hω (k + 1)).2
  have hw : 0 ≤ fl (-a * s) := fl_nonneg hfl (by nlinarith)
  have hr := fl_nonneg hfl (mul_nonneg (fl_nonneg hfl (mul_nonneg (fl_nonneg hfl (mul_self_nonneg a)) hb)) hw)
  unfold wattCandFl
  simp only [hs, bind, Except.bind]
  rw [csqrtFl, csqrt_ok hr]
  exact ⟨_, rfl⟩

omit hm in
/-- The energy available, as computed, is not above the incoming energy when the restriction energy is not negative. -/
private theorem avail_le {E U e : ℝ} (dE : IsDouble E) (hU : 0 ≤ U) (h : e ≤ fl (E - U)) : e ≤ E :=
  h.trans (fl_le hfl dE (by linarith))

/-- **C167** Maxwellian, in double arithmetic: an energy that is returned is between 0 and the computed `E_in - U`, so not above `E_in` when
`U` is not negative; it is the first candidate not above that, as no candidate is negative. -/
theorem C167_maxwell (pi T U E : ℝ) (hT : 0 ≤ T) (dE : IsDouble E) (ω : Tape) (hω : OpenTape ω) (dω : ∀ i, IsDouble (ω i)) (fuel k : Nat)
    (e : ℝ) (k' : Nat) (h : maxwellSampleFl fl flog fcos pi T U fuel E ω k = .ok (e, k')) :
    0 ≤ e ∧ e ≤ fl (E - U) ∧ (0 ≤ U → e ≤ E) ∧ ∃ m : Nat, k' = k + 3 * (m + 1) ∧ maxwellCandFl fl flog fcos pi T ω (k + 3 * m) = .ok e ∧
      ∀ j : Nat, j < m → ∃ x, maxwellCandFl fl flog fcos pi T ω (k + 3 * j) = .ok x ∧ fl (E - U) < x := by
  obtain ⟨a, b, m, _, m2, m3, m4⟩ := rejLoop_ok h
  refine ⟨a, b, fun hU => avail_le hfl dE hU b, m, by rw [m2]; ring, by rw [mul_comm]; exact m3, ?_⟩
  intro j hj
  obtain ⟨x, hx, x0⟩ := C167_maxwell_candidates hfl hm (fcos := fcos) pi T hT ω hω dω (k + j * 3)
  refine ⟨x, by rw [mul_comm]; exact hx, ?_⟩
  by_contra hc
  exact m4 j hj ⟨x, hx, x0, not_lt.mp hc⟩

/-- **C167** Evaporation, in double arithmetic: the same; a candidate that is passed over is above the computed `E_in - U` or not a number. -/
theorem C167_evaporation (T U E : ℝ) (hT : 0 ≤ T) (dE : IsDouble E) (ω : Tape) (hω : OpenTape ω) (fuel k : Nat)
    (e : ℝ) (k' : Nat) (h : evapSampleFl fl flog fexp T U fuel E ω k = .ok (e, k')) :
    0 ≤ e ∧ e ≤ fl (E - U) ∧ (0 ≤ U → e ≤ E) ∧ ∃ m : Nat, k' = k + 2 * (m + 1) ∧
      evapCandFl fl flog fexp T (fl (E - U)) ω (k + 2 * m) = .ok e ∧
      ∀ j : Nat, j < m → ∀ x, evapCandFl fl flog fexp T (fl (E - U)) ω (k + 2 * j) = .ok x → fl (E - U) < x := by
  obtain ⟨a, b, m, _, m2, m3, m4⟩ := rejLoop_ok h
  refine ⟨a, b, fun hU => avail_le hfl dE hU b, m, by rw [m2]; ring, by rw [mul_comm]; exact m3, ?_⟩
  intro j hj x hx
  rw [mul_comm] at hx
  have x0 := C167_evaporation_candidates hfl hm T _ hT (a.trans b) ω hω _ x hx
  by_contra hc
  exact m4 j hj ⟨x, hx, x0, not_lt.mp hc⟩

omit hm in
/-- **C167** Watt, in double arithmetic: an energy that is returned is between 0 and the computed `E_in - U`. -/
theorem C167_watt (pi a b U E : ℝ) (dE : IsDouble E) (ω : Tape) (fuel k : Nat) (e : ℝ) (k' : Nat)
    (h : wattSampleFl fl flog fcos pi a b U fuel E ω k = .ok (e, k')) :
    0 ≤ e ∧ e ≤ fl (E - U) ∧ (0 ≤ U → e ≤ E) ∧ ∃ m : Nat, k' = k + 4 * (m + 1) ∧ wattCandFl fl flog fcos pi a b ω (k + 4 * m) = .ok e ∧
      ∀ j : Nat, j < m → ∀ x, wattCandFl fl flog fcos pi a b ω (k + 4 * j) = .ok x → x < 0 ∨ fl (E - U) < x := by
  obtain ⟨a', b', m, _, m2, m3, m4⟩ := rejLoop_ok h
  refine ⟨a', b', fun hU => b'.trans (fl_le hfl dE (by linarith)), m, by rw [m2]; ring, by rw [mul_comm]; exact m3, ?_⟩
  intro j hj x hx
  rw [mul_comm] at hx
  by_contra hc
  push Not at hc
  exact m4 j hj ⟨x, hx, hc.1, hc.2⟩

omit hm in
/-- **C167** When the computed `E_in - U` is negative -- that is, whenever `E_in < U`, for doubles -- none of the three ever returns. -/
theorem C167_no_return (pi T a b U E : ℝ) (dE : IsDouble E) (dU : IsDouble U) (hU : E < U) (ω : Tape) (fuel k : Nat) :
    maxwellSampleFl fl flog fcos pi T U fuel E ω k = .error .diverge ∧ evapSampleFl fl flog fexp T U fuel E ω k = .error .diverge ∧
      wattSampleFl fl flog fcos pi a b U fuel E ω k = .error .diverge := by
  have hneg : fl (E - U) < 0 := by
    have h1 := fl_sub_pos hfl dU dE hU
    rcases (fl_nonpos hfl (show E - U ≤ 0 by linarith)).lt_or_eq with h | h
    · exact h
    · exfalso
      obtain ⟨m, hm⟩ := dE.int_mul
      obtain ⟨n, hn⟩ := dU.int_mul
      have he : (0 : ℝ) < eta := by unfold eta; positivity
      have hmn : m < n := by
        have : (m : ℝ) * eta < (n : ℝ) * eta := by rw [← hm, ← hn]; exact hU
        exact_mod_cast lt_of_mul_lt_mul_right this he.le
      have h2 : E - U ≤ ((-1 : ℤ) : ℝ) * eta := by
        rw [hm, hn, ← sub_mul]
        refine mul_le_mul_of_nonneg_right ?_ he.le
        have : m - n ≤ -1 := by omega
        exact_mod_cast this
      have h3 := fl_le hfl (isDouble_small (k := -1) (by norm_num)) h2
      rw [h] at h3
      push_cast at h3
      linarith
  have hno : ∀ r, ¬ Accepts (fl (E - U)) r := by rintro r ⟨e, _, h1, h2⟩; linarith
  exact ⟨rejLoop_diverges_iff.mpr (fun m => hno _) fuel, rejLoop_diverges_iff.mpr (fun m => hno _) fuel, rejLoop_diverges_iff.mpr (fun m => hno _) fuel⟩

/-- A Maxwellian variable of the N-body law is positive. -/
theorem maxwellianSpectrumFl_pos {pi : ℝ} {ω : Tape} (hω : OpenTape ω) (dω : ∀ i, IsDouble (ω i)) (k : Nat) :
    ∃ x, maxwellianSpectrumFl fl flog fcos pi ω k = .ok x ∧ 0 < x ∧ IsDouble x := by
  obtain ⟨s, hs, hn, ds⟩ := logSumFl_neg hfl hm (c := fcos (fl (fl (pi * ω k) / 2))) (dω (k + 1)) (dω (k + 2)) (hω (k + 1)).1 (hω (k + 1)).2
    (hω (k + 2)).1 (hω (k + 2)).2
  unfold maxwellianSpectrumFl
  simp only [hs, bind, Except.bind]
  exact ⟨_, rfl, by linarith, ds.neg⟩

omit hm in
private theorem prod_unit {x y : ℝ} {a b : ℕ} (x0 : (2 : ℝ) ^ (-(a : ℤ)) ≤ x) (x1 : x < 1) (y0 : (2 : ℝ) ^ (-(b : ℤ)) ≤ y) (y1 : y < 1)
    (dx : IsDouble x) (hab : a + b ≤ 1000) :
    (2 : ℝ) ^ (-((a + b : ℕ) : ℤ)) ≤ fl (x * y) ∧ fl (x * y) < 1 ∧ IsDouble (fl (x * y)) := by
  have p0 : (0 : ℝ) < (2 : ℝ) ^ (-(a : ℤ)) := by positivity
  have q0 : (0 : ℝ) < (2 : ℝ) ^ (-(b : ℤ)) := by positivity
  refine ⟨le_fl hfl ?_ ?_, ?_, (hfl _).1⟩
  · have h := isDouble_zpow (m := 1) (by norm_num) (z := -((a + b : ℕ) : ℤ)) (by omega)
    simpa using h
  · rw [show (-((a + b : ℕ) : ℤ)) = -(a : ℤ) + -(b : ℤ) by push_cast; ring, zpow_add₀ (by norm_num)]
    exact mul_le_mul x0 y0 q0.le (p0.le.trans x0)
  · have := fl_le hfl dx (show x * y ≤ x by nlinarith)
    linarith

/-- **C167** N-body, in double arithmetic: with draws not below `2^-64` every draw succeeds, the cosine is in `[-1, 1]`, and the energy is a
fraction in `[0, 1]` of the computed kinematic maximum: between 0 and it when it is not negative. -/
theorem C167_nbody (n : Nat) (Ap A Q pi : ℝ) (d : NBody) (hd : NBody.make n Ap A Q = .ok d) (E : ℝ) (ω : Tape) (hω : OpenTape ω)
    (dω : ∀ i, IsDouble (ω i)) (hsm : ∀ i, (2 : ℝ) ^ (-64 : ℤ) ≤ ω i) (k : Nat) :
    ∃ mu e k', d.sampleFl fl flog fcos pi E ω k = .ok (mu, e, k') ∧ -1 ≤ mu ∧ mu ≤ 1 ∧
      (0 ≤ d.emaxFl fl E → 0 ≤ e ∧ e ≤ d.emaxFl fl E) ∧ (d.emaxFl fl E ≤ 0 → e ≤ 0 ∧ d.emaxFl fl E ≤ e) := by
  have hacc := (C43_accepts n Ap A Q).mp ⟨d, hd⟩
  have hd' : d = ⟨n, Ap, A, Q⟩ := by
    rcases C43_make n Ap A Q with h | h <;> rw [h] at hd <;> cases hd; rfl
  have dM : IsDouble (d.emaxFl fl E) := (hfl _).1
  obtain ⟨M, hM⟩ : ∃ M, M = d.emaxFl fl E := ⟨_, rfl⟩
  obtain ⟨x, hx, hx0, dx⟩ := maxwellianSpectrumFl_pos hfl hm (fcos := fcos) (pi := pi) hω dω k
  have fin : ∀ (y : ℝ) (k1 : Nat), 0 ≤ y →
      ∃ mu e k', (do let q ← rdivFl fl x (fl (x + y)); return (fl (fl (2 * ω k1) - 1), fl (q * d.emaxFl fl E), k1 + 1) : Res (ℝ × ℝ × Nat)) =
        .ok (mu, e, k') ∧ -1 ≤ mu ∧ mu ≤ 1 ∧ (0 ≤ d.emaxFl fl E → 0 ≤ e ∧ e ≤ d.emaxFl fl E) ∧
        (d.emaxFl fl E ≤ 0 → e ≤ 0 ∧ d.emaxFl fl E ≤ e) := by
    intro y k1 hy
    have hs : x ≤ fl (x + y) := le_fl hfl dx (by linarith)
    have hsp : 0 < fl (x + y) := by linarith
    rw [rdivFl_ok hsp.ne']
    have q0 := fl_nonneg hfl (div_nonneg hx0.le hsp.le)
    have q1 := fl_le hfl isDouble_one ((div_le_one hsp).mpr hs)
    have h2 := (dω k1).two_mul
    refine ⟨_, _, _, rfl, ?_, ?_, ?_, ?_⟩
    · rw [fl_self hfl h2]
      exact le_fl hfl isDouble_one.neg (by linarith [(hω k1).1])
    · rw [fl_self hfl h2]
      exact fl_le hfl isDouble_one (by linarith [(hω k1).2])
    · intro hE
      exact ⟨fl_nonneg hfl (mul_nonneg q0 hE), fl_le hfl dM (by nlinarith)⟩
    · intro hE
      exact ⟨fl_nonpos hfl (mul_nonpos_of_nonneg_of_nonpos q0 hE), le_fl hfl dM (by nlinarith)⟩
  unfold NBody.sampleFl
  simp only [hx, bind, Except.bind]
  have hn : d.n = n := by rw [hd']
  have p1 : ∀ i, (2 : ℝ) ^ (-((64 : ℕ) : ℤ)) ≤ ω i := fun i => by simpa using hsm i
  have o1 : ∀ i, ω i < 1 := fun i => (hω i).2
  obtain ⟨p2, o2, d2⟩ := prod_unit hfl (p1 (k + 3)) (o1 (k + 3)) (p1 (k + 3 + 1)) (o1 (k + 3 + 1)) (dω (k + 3)) (by norm_num)
  obtain ⟨p3, o3, d3⟩ := prod_unit hfl p2 o2 (p1 (k + 3 + 2)) (o1 (k + 3 + 2)) d2 (by norm_num)
  obtain ⟨p4, o4, d4⟩ := prod_unit hfl p3 o3 (p1 (k + 3 + 3)) (o1 (k + 3 + 3)) d3 (by norm_num)
  have z3 : 0 < fl (fl (ω (k + 3) * ω (k + 3 + 1)) * ω (k + 3 + 2)) := lt_of_lt_of_le (by positivity) p3
  have z4 : 0 < fl (fl (fl (ω (k + 3) * ω (k + 3 + 1)) * ω (k + 3 + 2)) * ω (k + 3 + 3)) := lt_of_lt_of_le (by positivity) p4
  rcases hacc.1 with h | h | h
  · rw [h] at hn
    obtain ⟨y, hy, hy0, _⟩ := maxwellianSpectrumFl_pos hfl hm (fcos := fcos) (pi := pi) hω dω (k + 3)
    simp only [hn, if_true, hy, pure, Except.pure]
    exact fin y _ hy0.le
  · rw [h] at hn
    simp only [hn, if_neg (show ¬ (4 : Nat) = 3 by decide), if_true, clogFl_ok z3, pure, Except.pure]
    exact fin _ _ (by have := hm.log_neg _ d3 z3 o3; linarith)
  · rw [h] at hn
    simp only [hn, if_neg (show ¬ (5 : Nat) = 3 by decide), if_neg (show ¬ (5 : Nat) = 4 by decide), if_true, clogFl_ok z4,
      clogFl_ok (hω (k + 3 + 4)).1, pure, Except.pure]
    refine fin _ _ (fl_nonneg hfl ?_)
    have h1 := hm.log_neg _ d4 z4 o4
    have h2 := hm.log_neg _ (dω (k + 3 + 4)) (hω (k + 3 + 4)).1 (hω (k + 3 + 4)).2
    have h3 := fl_nonneg hfl (mul_self_nonneg (fcos (fl (fl (0.5 * pi) * ω (k + 3 + 5)))))
    have h4 := fl_nonpos hfl (mul_nonpos_of_nonpos_of_nonneg h2.le h3)
    linarith

omit hm in
/-- **C167** The computed kinematic maximum is not negative when the total mass ratio is at least 1 and the energy available, as computed, is
not negative; it never exceeds that energy. -/
theorem C167_nbody_max (n : Nat) (Ap A Q E : ℝ) (d : NBody) (hd : NBody.make n Ap A Q = .ok d) (hAp : 1 ≤ Ap) (dAp : IsDouble Ap)
    (hav : 0 ≤ fl (fl (fl (A / fl (A + 1)) * E) + Q)) : 0 ≤ d.emaxFl fl E ∧ d.emaxFl fl E ≤ fl (fl (fl (A / fl (A + 1)) * E) + Q) := by
  have hd' : d = ⟨n, Ap, A, Q⟩ := by
    rcases C43_make n Ap A Q with h | h <;> rw [h] at hd <;> cases hd; rfl
  subst hd'
  have a0 := fl_nonneg hfl (show 0 ≤ Ap - 1 by linarith)
  have a1 := fl_le hfl dAp (show Ap - 1 ≤ Ap by linarith)
  have q0 := fl_nonneg hfl (div_nonneg a0 (show 0 ≤ Ap by linarith))
  have q1 := fl_le hfl isDouble_one ((div_le_one (show 0 < Ap by linarith)).mpr a1)
  unfold NBody.emaxFl
  exact ⟨fl_nonneg hfl (mul_nonneg q0 hav), fl_le hfl (hfl _).1 (by nlinarith)⟩

end

/-- **C167** (the model) Without rounding the models are those of C42 and C43. -/
theorem C167_exact (temp ta tb : Tab1D) (U E T a b : ℝ) (hT : temp.eval E = .ok T) (ha : ta.eval E = .ok a) (hb : tb.eval E = .ok b) (d : NBody)
    (fuel : Nat) (ω : Tape) (k : Nat) :
    maxwellSampleFl (fun r => r) Real.log Real.cos Real.pi T U fuel E ω k = maxwellSample temp U fuel E ω k ∧
    evapSampleFl (fun r => r) Real.log Real.exp T U fuel E ω k = evapSample temp U fuel E ω k ∧
    wattSampleFl (fun r => r) Real.log Real.cos Real.pi a b U fuel E ω k = wattSample ta tb U fuel E ω k ∧
    d.sampleFl (fun r => r) Real.log Real.cos Real.pi E ω k = d.sample E ω k := by
  have hc : ∀ x, clogFl Real.log x = clog x := by
    intro x
    unfold clogFl clog
    by_cases h : 0 < x
    · rw [if_pos h, if_neg (not_le.mpr h)]
    · rw [if_neg h, if_pos (not_lt.mp h)]
  have hq : ∀ x, csqrtFl (fun r => r) x = csqrt x := by
    intro x
    unfold csqrtFl
    cases csqrt x <;> rfl
  refine ⟨?_, ?_, ?_, ?_⟩
  · unfold maxwellSampleFl maxwellSample
    rw [hT]
    have : maxwellCandFl (fun r => r) Real.log Real.cos Real.pi T ω = maxwellCand T ω := by
      funext k
      unfold maxwellCandFl maxwellCand logSumFl
      simp only [hc, bind_assoc, pure_bind]
    rw [this]; rfl
  · unfold evapSampleFl evapSample
    rw [hT]
    have : evapCandFl (fun r => r) Real.log Real.exp T (E - U) ω = evapCand T (E - U) ω := by
      funext k
      unfold evapCandFl evapCand evapGFl evapG
      simp only [hc]
    rw [this]; rfl
  · unfold wattSampleFl wattSample
    rw [ha, hb]
    have : wattCandFl (fun r => r) Real.log Real.cos Real.pi a b ω = wattCand a b ω := by
      funext k
      unfold wattCandFl wattCand logSumFl
      simp only [hc, hq, bind_assoc, pure_bind]
    rw [this]; rfl
  · have hms : ∀ k, maxwellianSpectrumFl (fun r => r) Real.log Real.cos Real.pi ω k = maxwellianSpectrum ω k := by
      intro k
      unfold maxwellianSpectrumFl maxwellianSpectrum logSumFl
      simp only [hc, bind_assoc, pure_bind]
    unfold NBody.sampleFl NBody.sample NBody.emaxFl NBody.emax
    simp only [hms, hc, rdivFl_id, ← pow_two]

/-- The correctly rounded logarithm and exponential meet the requirements. -/
theorem soundLibm_rounded {fl : ℝ → ℝ} (hfl : IsRoundToNearest fl) : SoundLibm (fun x => fl (Real.log x)) (fun x => fl (Real.exp x)) := by
  refine ⟨?_, ?_, fun x => (hfl _).1, ?_⟩
  · intro x dx x0 x1
    have h1 := double_below_one dx x1
    have h2 := Real.log_le_sub_one_of_pos x0
    have hu := uround_pos
    have du : IsDouble uround := by
      rw [uround_eq]
      simpa using isDouble_zpow (m := 1) (by norm_num) (z := -53) (by norm_num)
    have := fl_le hfl du.neg (show Real.log x ≤ -uround by linarith)
    linarith
  · simp only [Real.log_one]
    exact fl_self hfl isDouble_zero
  · intro x hx
    exact ⟨fl_nonneg hfl (Real.exp_pos x).le, fl_le hfl isDouble_one (Real.exp_le_one_iff.mpr hx)⟩

/-- The hypotheses are met. -/
example (fl : ℝ → ℝ) (hfl : IsRoundToNearest fl) : ∃ mu e k',
    (NBody.mk 4 3 2 (-2)).sampleFl fl (fun x => fl (Real.log x)) Real.cos Real.pi 14 (fun _ => 1 / 2) 0 = .ok (mu, e, k') ∧ -1 ≤ mu ∧ mu ≤ 1 := by
  have half : IsDouble (1 / 2 : ℝ) := by simpa using isDouble_zpow (m := 1) (by norm_num) (z := -1) (by norm_num)
  have hd : NBody.make 4 3 2 (-2) = .ok (⟨4, 3, 2, -2⟩ : NBody) := by
    obtain ⟨d, hd⟩ := (C43_accepts 4 3 2 (-2)).mpr ⟨by norm_num, by norm_num, by norm_num⟩
    rcases C43_make 4 3 2 (-2) with h | h
    · exact h
    · rw [h] at hd; cases hd
  obtain ⟨mu, e, k', h, a, b, _⟩ := C167_nbody hfl (soundLibm_rounded hfl) (fcos := Real.cos) 4 3 2 (-2) Real.pi _ hd 14 (fun _ => 1 / 2)
    (fun _ => by norm_num) (fun _ => half) (fun _ => by norm_num) 0
  exact ⟨mu, e, k', h, a, b⟩

/-- A Maxwellian candidate: temperature 1 and the draws one half. -/
example (fl : ℝ → ℝ) (hfl : IsRoundToNearest fl) : ∃ e, maxwellCandFl fl (fun x => fl (Real.log x)) Real.cos Real.pi 1 (fun _ => 1 / 2) 0 = .ok e ∧
    0 ≤ e := by
  have half : IsDouble (1 / 2 : ℝ) := by simpa using isDouble_zpow (m := 1) (by norm_num) (z := -1) (by norm_num)
  exact C167_maxwell_candidates hfl (soundLibm_rounded hfl) _ _ zero_le_one _ (fun _ => by norm_num) (fun _ => half) _

end PNDL
