import Verif.Lemmas.Legendre
import Verif.Lemmas.Tab1D

/-! C37 (the polynomials and the normalisation) and C38 (`set_moment`) of `Legendre`. -/
namespace PNDL
open Spec Polynomial MeasureTheory

/-! ## C37 -/

/-- C37: orders 0 and 1. -/
theorem C37_start (x : ℝ) : legendre 0 x = 1 ∧ legendre 1 x = x := ⟨rfl, rfl⟩

/-- C37: Bonnet's recursion holds at every order, including across the closed forms of orders 2 to 4 and the iteration. -/
theorem C37_bonnet (n : Nat) (x : ℝ) :
    ((n : ℝ) + 2) * legendre (n + 2) x = (2 * (n : ℝ) + 3) * x * legendre (n + 1) x - ((n : ℝ) + 1) * legendre n x := by
  have h := congrArg (fun p => p.eval x) (bonnet n)
  simpa [legendre_eval] using h

/-- C37: the value at 1 is 1, and `(-1)^n` at -1. -/
theorem C37_ends (n : Nat) : legendre n 1 = 1 ∧ legendre n (-1) = (-1) ^ n := by
  rw [legendre_eval, legendre_eval]; exact ⟨legPoly_one n, legPoly_neg_one n⟩

/-- C37: what the code evaluates are orthogonal polynomials on `[-1,1]` with the norm of the Legendre polynomials. -/
theorem C37_orthogonal (m n : Nat) :
    ∫ x in (-1 : ℝ)..1, legendre m x * legendre n x = if m = n then 2 / (2 * (n : ℝ) + 1) else 0 := by
  have e : ∫ x in (-1 : ℝ)..1, legendre m x * legendre n x = polyInt (legPoly m * legPoly n) := by
    unfold polyInt; simp only [legendre_eval, eval_mul]
  rw [e]
  split_ifs with h
  · rw [h, leg_norm]
  · exact leg_orthogonal h

/-- The moments of a series: the integral of `pdf · P_n` is `a_n · 2/(2n+1)`. -/
theorem moment_of_series (a : List ℝ) (n : Nat) :
    ∫ x in (-1 : ℝ)..1, legPdf a x * legendre n x = (a[n]?.getD 0) * (2 / (2 * (n : ℝ) + 1)) := by
  have e : ∫ x in (-1 : ℝ)..1, legPdf a x * legendre n x = polyInt (legSeries 0 a * legPoly n) := by
    unfold polyInt; simp only [legendre_eval, legPdf_eval, eval_mul]
  rw [e, legSeries_moment, if_pos (Nat.zero_le _), Nat.sub_zero]

/-- C37: the density integrates to 1 over `[-1,1]` whatever the higher coefficients, as soon as the first is 1/2. -/
theorem C37_normalised (a : List ℝ) (h : a[0]? = some (1 / 2)) : ∫ x in (-1 : ℝ)..1, legPdf a x = 1 := by
  have := moment_of_series a 0
  simpa [legendre, h] using this

theorem scaleMoments_get : ∀ (as : List ℝ) (l i : Nat),
    (scaleMoments l as)[i]? = (as[i]?).map (fun v => v * ((2 * ((l + i : ℕ) : ℝ) + 1) / 2)) := by
  intro as
  induction as with
  | nil => intro l i; simp [scaleMoments]
  | cons a as ih =>
    intro l i
    rcases i with _ | i
    · simp [scaleMoments]
    · rw [scaleMoments, List.getElem?_cons_succ, ih, List.getElem?_cons_succ]
      have : l + 1 + i = l + (i + 1) := by omega
      rw [this]

/-- C37: a density constructed from moments has exactly these moments (and is normalised). -/
theorem C37_moments (ms : List ℝ) (n : Nat) :
    ∫ x in (-1 : ℝ)..1, legPdf (Legendre.make ms).1.a x * legendre n x = (1 :: ms)[n]?.getD 0 := by
  rw [moment_of_series]
  show (scaleMoments 0 (1 :: ms))[n]?.getD 0 * _ = _
  rw [scaleMoments_get]
  cases h : (1 :: ms)[n]? with
  | none => simp
  | some v =>
    simp only [Option.map_some, Option.getD_some, Nat.zero_add]
    have : 2 * (n : ℝ) + 1 ≠ 0 := by positivity
    field_simp

/-- C37: both constructors give a normalised density. -/
theorem C37_constructors (ms : List ℝ) :
    ∫ x in (-1 : ℝ)..1, legPdf (Legendre.make ms).1.a x = 1 ∧ ∫ x in (-1 : ℝ)..1, legPdf Legendre.default.1.a x = 1 := by
  constructor
  · apply C37_normalised
    show (scaleMoments 0 (1 :: ms))[0]? = _
    rw [scaleMoments_get]; simp
  · apply C37_normalised
    show [(0.5 : ℝ)][0]? = _
    norm_num

/-- A non-isotropic density: first moment 1/3, so `pdf(mu) = 1/2 + mu/2`. -/
example : legPdf (Legendre.make [1 / 3]).1.a (1 / 2) = 3 / 4 := by
  show legSum _ _ _ (scaleMoments 0 [1, 1 / 3]) = _
  norm_num [legSum, scaleMoments, legendre]

/-! ## C38 -/

theorem positive_iff (a : List ℝ) : positive a = true ↔ ∀ i : Nat, i ≤ 2000 → 0 ≤ legPdf a (-1 + i * 0.001) := by
  unfold positive
  rw [posLoop_iff]
  constructor
  · intro h i hi; exact h i (by omega)
  · intro h i hi; exact h i (by omega)

/-- The coefficients after a call that is not refused outright. -/
noncomputable def newCoeffs (a : List ℝ) (l : Nat) (v : ℝ) : List ℝ :=
  (if l ≥ a.length then resizeUp a (l + 1) else a).set l (v * (2 * (l : ℝ) + 1) / 2)

theorem newCoeffs_get (a : List ℝ) (l : Nat) (v : ℝ) (i : Nat) :
    (newCoeffs a l v)[i]?.getD 0 = if i = l then v * (2 * (l : ℝ) + 1) / 2 else a[i]?.getD 0 := by
  unfold newCoeffs resizeUp
  by_cases h : l ≥ a.length
  · rw [if_pos h, List.getElem?_set]
    by_cases hi : l = i
    · subst hi; rw [if_pos rfl, if_pos rfl, if_pos (by simp; omega)]; rfl
    · rw [if_neg hi, if_neg (Ne.symm hi), List.getElem?_append]
      split_ifs with h2
      · rfl
      · rw [List.getElem?_eq_none (not_lt.mp h2), List.getElem?_replicate]
        split_ifs <;> rfl
  · rw [if_neg h, List.getElem?_set]
    by_cases hi : l = i
    · subst hi; rw [if_pos rfl, if_pos rfl, if_pos (by omega)]; rfl
    · rw [if_neg hi, if_neg (Ne.symm hi)]

theorem setMoment_eq (s : Legendre) (l : Nat) (v : ℝ) (hl : l ≠ 0) :
    s.setMoment l v = Legendre.finish (newCoeffs s.a l v) := by
  unfold Legendre.setMoment newCoeffs; rw [if_neg hl]

/-- C38: the moment of order 0 cannot be changed: the call throws and leaves the object as it was. -/
theorem C38_order_zero (s : Legendre) (v : ℝ) : s.setMoment 0 v = (s, .error .exc) := rfl

/-- C38, what holds of a successful call: exactly the coefficient of order `l` changed, to `a·(2l+1)/2`, and the density is
non-negative at the 2001 cosines `-1, -0.999, …, 1`, where the stored maximum bounds it.
Missing for the full claim: non-negativity between those cosines (`C38_violation_negative`) and the object being unchanged when
the call throws (`C38_violation_unchanged`). -/
theorem C38_success_partial (s : Legendre) (l : Nat) (v : ℝ) (h : (s.setMoment l v).2 = .ok ()) :
    (∀ i, (s.setMoment l v).1.a[i]?.getD 0 = if i = l then v * (2 * (l : ℝ) + 1) / 2 else s.a[i]?.getD 0) ∧
    ∀ i : Nat, i ≤ 2000 → 0 ≤ legPdf (s.setMoment l v).1.a (-1 + i * 0.001) ∧
      1.001 * legPdf (s.setMoment l v).1.a (-1 + i * 0.001) ≤ (s.setMoment l v).1.pdfMax := by
  have hl : l ≠ 0 := by rintro rfl; cases h
  rw [setMoment_eq s l v hl] at h ⊢
  unfold Legendre.finish at h ⊢
  simp only at h ⊢
  have hp : positive (newCoeffs s.a l v) = true := by
    by_contra hc
    rw [Bool.not_eq_true] at hc
    rw [if_pos hc] at h; cases h
  refine ⟨newCoeffs_get s.a l v, fun i hi => ⟨(positive_iff _).mp hp i hi, ?_⟩⟩
  obtain ⟨h1, h2, _⟩ := maxLoop_spec (legPdf (newCoeffs s.a l v)) 2000 (-1) (legPdf (newCoeffs s.a l v) (-1))
  unfold findMax
  have : legPdf (newCoeffs s.a l v) (-1 + i * 0.001) ≤
      maxLoop (legPdf (newCoeffs s.a l v)) 2000 (-1) (legPdf (newCoeffs s.a l v) (-1)) := by
    rcases i with _ | i
    · simpa using h1
    · have := h2 i (by omega)
      rw [show ((i + 1 : ℕ) : ℝ) = (i : ℝ) + 1 by push_cast; ring]
      exact this
  linarith

/-- C38: a call either succeeds or throws; it throws exactly when `l = 0` or the new density is negative at one of the 2001
cosines. -/
theorem C38_outcome (s : Legendre) (l : Nat) (v : ℝ) :
    (s.setMoment l v).2 = .error .exc ∧ (l = 0 ∨ ∃ i : Nat, i ≤ 2000 ∧ legPdf (newCoeffs s.a l v) (-1 + i * 0.001) < 0) ∨
    (s.setMoment l v).2 = .ok () ∧ l ≠ 0 ∧ ∀ i : Nat, i ≤ 2000 → 0 ≤ legPdf (newCoeffs s.a l v) (-1 + i * 0.001) := by
  by_cases hl : l = 0
  · subst hl; left; exact ⟨rfl, Or.inl rfl⟩
  · rw [setMoment_eq s l v hl]
    unfold Legendre.finish
    by_cases hp : positive (newCoeffs s.a l v) = true
    · right; exact ⟨by simp [hp], hl, (positive_iff _).mp hp⟩
    · left
      refine ⟨by simp [hp], Or.inr ?_⟩
      by_contra hc
      simp only [not_exists, not_and, not_lt] at hc
      exact hp ((positive_iff _).mpr hc)

/-- The full claim is false of the code: a call that throws has already changed the coefficients. -/
theorem C38_violation_unchanged :
    (Legendre.default.1.setMoment 1 1).2 = .error .exc ∧ (Legendre.default.1.setMoment 1 1).1.a ≠ Legendre.default.1.a := by
  have ha : newCoeffs Legendre.default.1.a 1 1 = [0.5, 1.5] := by
    show newCoeffs [0.5] 1 1 = _
    norm_num [newCoeffs, resizeUp, List.replicate]
  constructor
  · rcases C38_outcome Legendre.default.1 1 1 with h | ⟨_, _, h⟩
    · exact h.1
    · exfalso
      have := h 0 (by omega)
      rw [ha] at this
      norm_num [legPdf, legSum, legendre] at this
  · rw [setMoment_eq _ _ _ (by norm_num), ha]
    show [(0.5 : ℝ), 1.5] ≠ [0.5]
    simp

/-- The density used below: negative only near -0.9995, between two of the 2001 cosines. -/
noncomputable def dip : List ℝ :=
  let κ : ℝ := 1 / (2 / 3 + 2 * 0.9995 ^ 2 - 2 / 10 ^ 7)
  [1 / 2, 2 * 0.9995 * κ, 2 / 3 * κ]

theorem dip_pdf (mu : ℝ) : legPdf dip mu = 1 / (2 / 3 + 2 * 0.9995 ^ 2 - 2 / 10 ^ 7) * ((mu + 0.9995) ^ 2 - 1 / 10 ^ 7) := by
  norm_num [legPdf, legSum, dip, legendre]; ring

/-- The full claim is false of the code: on an object reached from the default one, a call can succeed although the density it
installs is negative inside `[-1,1]`. -/
theorem C38_violation_negative : ∃ (m1 m2 mu : ℝ),
    ((Legendre.default.1.setMoment 1 m1).1.setMoment 2 m2).2 = .ok () ∧ -1 ≤ mu ∧ mu ≤ 1 ∧
    legPdf ((Legendre.default.1.setMoment 1 m1).1.setMoment 2 m2).1.a mu < 0 := by
  obtain ⟨κ, hκ⟩ : ∃ κ : ℝ, κ = 1 / (2 / 3 + 2 * 0.9995 ^ 2 - 2 / 10 ^ 7) := ⟨_, rfl⟩
  have hκ0 : 0 < κ := by rw [hκ]; norm_num
  obtain ⟨s, hs⟩ : ∃ s, s = (Legendre.default.1.setMoment 1 (2 * 0.9995 * κ * 2 / 3)).1 := ⟨_, rfl⟩
  have hsa : s.a = [1 / 2, 2 * 0.9995 * κ] := by
    rw [hs, setMoment_eq _ _ _ (by norm_num)]
    show newCoeffs [0.5] 1 _ = _
    norm_num [newCoeffs, resizeUp, List.replicate]
  have hn : newCoeffs s.a 2 (2 / 3 * κ * 2 / 5) = dip := by
    rw [hsa]
    unfold dip; simp only [← hκ]
    norm_num [newCoeffs, resizeUp, List.replicate]
  refine ⟨2 * 0.9995 * κ * 2 / 3, 2 / 3 * κ * 2 / 5, -0.9995, ?_, by norm_num, by norm_num, ?_⟩ <;> rw [← hs]
  · rcases C38_outcome s 2 (2 / 3 * κ * 2 / 5) with ⟨_, h⟩ | h
    · exfalso
      rcases h with h | ⟨i, _, h⟩
      · exact absurd h (by norm_num)
      · rw [hn, dip_pdf, ← hκ] at h
        have h2 : (0 : ℝ) ≤ (i : ℝ) * (i - 1) := by
          rcases i with _ | i
          · simp
          · push_cast; have : (0 : ℝ) ≤ i := Nat.cast_nonneg i; nlinarith
        have : (0 : ℝ) ≤ (-1 + (i : ℝ) * 0.001 + 0.9995) ^ 2 - 1 / 10 ^ 7 := by
          have e : (-1 + (i : ℝ) * 0.001 + 0.9995) ^ 2 - 1 / 10 ^ 7 = ((i : ℝ) * (i - 1) + 15 / 100) / 10 ^ 6 := by ring
          rw [e]; positivity
        have := mul_nonneg hκ0.le this
        linarith
    · exact h.1
  · rw [setMoment_eq _ _ _ (by norm_num)]
    show legPdf (newCoeffs s.a 2 (2 / 3 * κ * 2 / 5)) _ < 0
    rw [hn, dip_pdf, ← hκ]
    have : ((-0.9995 : ℝ) + 0.9995) ^ 2 - 1 / 10 ^ 7 < 0 := by norm_num
    exact mul_neg_of_pos_of_neg hκ0 this

/-- A history of `set_moment` calls, successful or not. -/
noncomputable def Legendre.run (s : Legendre) (calls : List (Nat × ℝ)) : Legendre :=
  calls.foldl (fun s c => (s.setMoment c.1 c.2).1) s

/-- C38: after every history of calls, thrown ones included, the density is still normalised. -/
theorem C38_history_normalised (s : Legendre) (h : s.a[0]? = some (1 / 2)) (calls : List (Nat × ℝ)) :
    ∫ x in (-1 : ℝ)..1, legPdf (s.run calls).a x = 1 := by
  apply C37_normalised
  unfold Legendre.run
  induction calls generalizing s with
  | nil => exact h
  | cons c cs ih =>
    rw [List.foldl_cons]
    apply ih
    obtain ⟨l, v⟩ := c
    by_cases hl : l = 0
    · subst hl; exact h
    · rw [setMoment_eq _ _ _ hl]
      show (newCoeffs s.a l v)[0]? = _
      have hlen := lt_length_of_some h
      unfold newCoeffs resizeUp
      by_cases hge : l ≥ s.a.length
      · rw [if_pos hge, List.getElem?_set, if_neg hl, List.getElem?_append_left hlen, h]
      · rw [if_neg hge, List.getElem?_set, if_neg hl, h]

example : Legendre.default.1.a[0]? = some (1 / 2) := by
  show [(0.5 : ℝ)][0]? = _
  norm_num

end PNDL
