import Verif.Model.FloatFunc
import Verif.Lemmas.Float
import Verif.Props.FloatKin
import Verif.Props.Func1D

/-! C168: polynomials, inelastic levels and discrete photons in double arithmetic. -/
namespace PNDL
open Spec

private theorem polyLoopFl_append (fl : ℝ → ℝ) (x : ℝ) : ∀ (l l' : List ℝ) (v : ℝ),
    polyLoopFl fl x (l ++ l') v = polyLoopFl fl x l' (polyLoopFl fl x l v) := by
  intro l
  induction l with
  | nil => intro l' v; rfl
  | cons a l ih => intro l' v; exact ih l' _

/-- One step of Horner's rule. -/
theorem polyEvalFl_cons (fl : ℝ → ℝ) (c : ℝ) (cs : List ℝ) (x : ℝ) : polyEvalFl fl (c :: cs) x = fl (fl (polyEvalFl fl cs x * x) + c) := by
  unfold polyEvalFl
  rw [List.reverse_cons, polyLoopFl_append]
  rfl

private theorem abs_polynomial (x : ℝ) : ∀ c : List ℝ, |polynomial c x| ≤ polynomial (c.map abs) |x| := by
  intro c
  induction c with
  | nil => simp [polynomial]
  | cons a cs ih =>
    rw [List.map_cons, polynomial_cons, polynomial_cons]
    calc |a + x * polynomial cs x| ≤ |a| + |x * polynomial cs x| := abs_add_le _ _
      _ = |a| + |x| * |polynomial cs x| := by rw [abs_mul]
      _ ≤ _ := by gcongr

section
variable {fl : ℝ → ℝ} (hfl : IsRoundToNearest fl)
include hfl

/-- **C168** The value of a polynomial: with `n` coefficients, the result differs from the polynomial by at most `((1 + u)^2n - 1) Σ |c_i| |x|^i`
and, for products that underflow, `(1 + u)^2n η Σ_{j<n} |x|^j`. -/
theorem C168_polynomial (c : List ℝ) (dc : ∀ a ∈ c, IsDouble a) (x : ℝ) :
    |polyEvalFl fl c x - polynomial c x| ≤ ((1 + uround) ^ (2 * c.length) - 1) * polynomial (c.map abs) |x| +
      (1 + uround) ^ (2 * c.length) * eta * ∑ j ∈ Finset.range c.length, |x| ^ j := by
  induction c with
  | nil => simp [polyEvalFl, polyLoopFl, polynomial]
  | cons a cs ih =>
    have hi := ih (fun b hb => dc b (List.mem_cons_of_mem _ hb))
    have hab := abs_polynomial x cs
    rw [polyEvalFl_cons, polynomial_cons, List.map_cons, polynomial_cons, List.length_cons, Finset.sum_range_succ']
    have hG : ∑ j ∈ Finset.range cs.length, |x| ^ (j + 1) = |x| * ∑ j ∈ Finset.range cs.length, |x| ^ j := by
      rw [Finset.mul_sum]
      exact Finset.sum_congr rfl fun j _ => by ring
    rw [hG, pow_zero, show 2 * (cs.length + 1) = 2 * cs.length + 2 by ring, pow_add]
    have hQ : (1 : ℝ) ≤ (1 + uround) ^ (2 * cs.length) := one_le_pow₀ (by linarith [uround_pos])
    obtain ⟨Q, hQd⟩ : ∃ Q, Q = (1 + uround) ^ (2 * cs.length) := ⟨_, rfl⟩
    obtain ⟨G, hGd⟩ : ∃ G, G = ∑ j ∈ Finset.range cs.length, |x| ^ j := ⟨_, rfl⟩
    obtain ⟨P, hPd⟩ : ∃ P, P = polynomial (cs.map abs) |x| := ⟨_, rfl⟩
    obtain ⟨p, hpd⟩ : ∃ p, p = polynomial cs x := ⟨_, rfl⟩
    obtain ⟨v, hvd⟩ : ∃ v, v = polyEvalFl fl cs x := ⟨_, rfl⟩
    rw [← hQd] at hQ
    rw [← hQd, ← hGd, ← hPd, ← hpd, ← hvd] at hi
    rw [← hPd, ← hpd] at hab
    rw [← hQd, ← hGd, ← hPd, ← hpd, ← hvd]
    have hu := uround_pos
    have he : (0 : ℝ) < eta := by unfold eta; positivity
    have e1 := (fl_error hfl (v * x)).1
    have e2 := fl_add_error hfl (hfl (v * x)).1 (dc a List.mem_cons_self)
    obtain ⟨t, ht⟩ : ∃ t, t = fl (v * x) := ⟨_, rfl⟩
    rw [← ht] at e1 e2 ⊢
    obtain ⟨s, hs⟩ : ∃ s, s = fl (t + a) := ⟨_, rfl⟩
    rw [← hs] at e2 ⊢
    obtain ⟨X, hX⟩ : ∃ X, X = |x| := ⟨_, rfl⟩
    have hX0 : 0 ≤ X := by rw [hX]; exact abs_nonneg x
    rw [abs_mul, ← hX] at e1
    rw [← hX]
    obtain ⟨e, hed⟩ : ∃ e, e = |v - p| := ⟨_, rfl⟩
    rw [← hed] at hi
    have hv : |v| ≤ P + e := by
      calc |v| = |p + (v - p)| := by ring_nf
        _ ≤ |p| + |v - p| := abs_add_le _ _
        _ ≤ P + e := by rw [hed]; linarith
    have hvX : |v| * X ≤ (P + e) * X := mul_le_mul_of_nonneg_right hv hX0
    have h1 : |t + a| ≤ (1 + uround) * (|v| * X) + eta / 2 + |a| := by
      calc |t + a| = |(t - v * x) + v * x + a| := by ring_nf
        _ ≤ |t - v * x| + |v * x| + |a| := (abs_add_le _ _).trans (by gcongr; exact abs_add_le _ _)
        _ ≤ _ := by rw [abs_mul, ← hX]; linarith
    have h2 : |s - (a + x * p)| ≤ uround * |t + a| + (uround * (|v| * X) + eta / 2) + e * X := by
      calc |s - (a + x * p)| = |(s - (t + a)) + (t - v * x) + (v - p) * x| := by ring_nf
        _ ≤ |s - (t + a)| + |t - v * x| + |(v - p) * x| := (abs_add_le _ _).trans (by gcongr; exact abs_add_le _ _)
        _ ≤ _ := by rw [abs_mul, ← hX, ← hed]; linarith
    have hP0 : 0 ≤ P := (abs_nonneg _).trans hab
    have heX : e * X ≤ ((Q - 1) * P + Q * eta * G) * X := mul_le_mul_of_nonneg_right hi hX0
    obtain ⟨q, hq⟩ : ∃ q, q = (1 + uround) ^ 2 := ⟨_, rfl⟩
    have hq1 : 1 + uround ≤ q := by rw [hq]; nlinarith
    rw [← hq]
    have h3 : |s - (a + x * p)| ≤ uround * |a| + (q - 1) * (P * X) + q * (e * X) + (1 + uround) * (eta / 2) := by
      have k1 := mul_le_mul_of_nonneg_left h1 hu.le
      have k2 : (q - 1) * (|v| * X) ≤ (q - 1) * ((P + e) * X) := mul_le_mul_of_nonneg_left hvX (by linarith)
      have k3 : uround * ((1 + uround) * (|v| * X)) + uround * (|v| * X) = (q - 1) * (|v| * X) := by rw [hq]; ring
      linarith
    have h4 : q * (e * X) ≤ q * (((Q - 1) * P + Q * eta * G) * X) := mul_le_mul_of_nonneg_left heX (by linarith)
    have h5 : uround * |a| ≤ (Q * q - 1) * |a| := by
      refine mul_le_mul_of_nonneg_right ?_ (abs_nonneg a)
      nlinarith
    have h6 : (1 + uround) * (eta / 2) ≤ Q * q * eta := by
      have : 1 + uround ≤ Q * q := by nlinarith
      nlinarith
    have h7 : (Q * q - 1) * (|a| + X * P) + Q * q * eta * (X * G + 1) =
        (Q * q - 1) * |a| + (q - 1) * (P * X) + q * (((Q - 1) * P + Q * eta * G) * X) + Q * q * eta := by ring
    rw [h7]
    linarith

/-- **C168** With coefficients and argument not negative, the computed value is not negative and does not decrease with the argument. -/
theorem C168_polynomial_mono (c : List ℝ) (hc : ∀ a ∈ c, 0 ≤ a) (x y : ℝ) (hx : 0 ≤ x) (hxy : x ≤ y) :
    0 ≤ polyEvalFl fl c x ∧ polyEvalFl fl c x ≤ polyEvalFl fl c y := by
  induction c with
  | nil => simp [polyEvalFl, polyLoopFl]
  | cons a cs ih =>
    obtain ⟨h0, h1⟩ := ih (fun b hb => hc b (List.mem_cons_of_mem _ hb))
    have ha := hc a List.mem_cons_self
    rw [polyEvalFl_cons, polyEvalFl_cons]
    have hm := fl_nonneg hfl (mul_nonneg h0 hx)
    refine ⟨fl_nonneg hfl (by linarith), fl_mono hfl ?_⟩
    have := fl_mono hfl (mul_le_mul h1 hxy hx (h0.trans h1))
    linarith

/-- **C168** A polynomial of degree zero is its coefficient. -/
theorem C168_polynomial_const (a x : ℝ) (da : IsDouble a) : polyEvalFl fl [a] x = a := by
  rw [polyEvalFl_cons]
  simp only [polyEvalFl, List.reverse_nil, polyLoopFl, zero_mul, fl_self hfl isDouble_zero, zero_add, fl_self hfl da]

/-- The loop of `integrate`. -/
private theorem polyIntLoopFl_ok (a b : ℝ) : ∀ (l : List ℝ), l.length ≤ 2 ^ 53 → ∀ hi low : ℝ,
    ∃ r, polyIntLoopFl fl a b l (l.length : ℝ) hi low = .ok r ∧ (a = b → hi = low → r.1 = r.2) ∧
      ((∀ c ∈ l, 0 ≤ c) → 0 ≤ a → a ≤ b → 0 ≤ low → low ≤ hi → 0 ≤ r.2 ∧ r.2 ≤ r.1) := by
  intro l
  induction l with
  | nil => intro _ hi low; exact ⟨_, rfl, fun _ h => h, fun _ _ _ h h' => ⟨h, h'⟩⟩
  | cons c cs ih =>
    intro hl hi low
    rw [List.length_cons] at hl
    have hne : ((cs.length + 1 : ℕ) : ℝ) ≠ 0 := by positivity
    have hsub : fl (((cs.length + 1 : ℕ) : ℝ) - 1) = (cs.length : ℝ) := by
      rw [show ((cs.length + 1 : ℕ) : ℝ) - 1 = (cs.length : ℝ) by push_cast; ring]
      exact fl_self hfl (isDouble_nat (by omega))
    obtain ⟨r, hr, h1, h2⟩ := ih (by omega) (fl (fl (hi * b) + fl (c / ((cs.length + 1 : ℕ) : ℝ))))
      (fl (fl (low * a) + fl (c / ((cs.length + 1 : ℕ) : ℝ))))
    refine ⟨r, ?_, ?_, ?_⟩
    · simp only [polyIntLoopFl, List.length_cons, rdivFl_ok hne, bind, Except.bind, hsub]
      exact hr
    · intro hab hlo
      exact h1 hab (by rw [hab, hlo])
    · intro hc ha hab hlow hle
      have hk := fl_nonneg hfl (div_nonneg (hc c List.mem_cons_self) (show (0 : ℝ) ≤ ((cs.length + 1 : ℕ) : ℝ) by positivity))
      have hm := fl_nonneg hfl (mul_nonneg hlow ha)
      have hmm := fl_mono hfl (mul_le_mul hle hab ha (hlow.trans hle))
      exact h2 (fun d hd => hc d (List.mem_cons_of_mem _ hd)) ha hab (fl_nonneg hfl (by linarith)) (fl_mono hfl (by linarith))

/-- **C168** The integral of a polynomial always exists (no division by zero), is 0 over an empty range, and is not negative when the coefficients
and the bounds are not negative and the bounds are in order. -/
theorem C168_integrate (c : List ℝ) (hn : c.length ≤ 2 ^ 53) (a b : ℝ) : ∃ v, polyIntegrateFl fl c a b = .ok v ∧ (a = b → v = 0) ∧
    ((∀ x ∈ c, 0 ≤ x) → 0 ≤ a → a ≤ b → 0 ≤ v) := by
  obtain ⟨r, hr, h1, h2⟩ := polyIntLoopFl_ok hfl a b c.reverse (by rw [List.length_reverse]; exact hn) 0 0
  rw [List.length_reverse] at hr
  unfold polyIntegrateFl
  rw [fl_self hfl (isDouble_nat hn), hr]
  refine ⟨_, rfl, ?_, ?_⟩
  · intro hab
    rw [h1 hab rfl, hab, sub_self]
    exact fl_self hfl isDouble_zero
  · intro hc ha hab
    obtain ⟨g0, g1⟩ := h2 (fun x hx => hc x (List.mem_reverse.mp hx)) ha hab le_rfl le_rfl
    have := fl_mono hfl (mul_le_mul g1 hab ha (g0.trans g1))
    exact fl_nonneg hfl (by linarith)

/-- **C168** A level made from a Q-value and a mass ratio: refused exactly for a mass ratio that is not positive; otherwise the second parameter is
in `[0, 1]` and the first is not negative. -/
theorem C168_level_make (Q awr : ℝ) (dA : IsDouble awr) : (Level.makeFl fl Q awr = .error .exc ↔ awr ≤ 0) ∧
    ∀ l, Level.makeFl fl Q awr = .ok l → 0 ≤ l.c1 ∧ 0 ≤ l.c2 ∧ l.c2 ≤ 1 ∧ IsDouble l.c1 ∧ IsDouble l.c2 := by
  unfold Level.makeFl
  by_cases h : awr ≤ 0
  · rw [if_pos h]
    exact ⟨⟨fun _ => h, fun _ => rfl⟩, fun l hl => by cases hl⟩
  · rw [if_neg h]
    have hA : 0 < awr := not_le.mp h
    have hs : awr ≤ fl (awr + 1) := le_fl hfl dA (by linarith)
    have hs0 : 0 < fl (awr + 1) := by linarith
    rw [rdivFl_ok hA.ne', rdivFl_ok hs0.ne']
    simp only [bind, Except.bind, pure, Except.pure]
    refine ⟨⟨fun e => (by cases e), fun e => absurd e h⟩, ?_⟩
    intro l hl
    simp only [Except.ok.injEq] at hl
    subst hl
    have t0 := fl_nonneg hfl (div_nonneg hA.le hs0.le)
    have t1 := fl_le hfl isDouble_one ((div_le_one hs0).mpr hs)
    exact ⟨fl_nonneg hfl (div_nonneg (fl_nonneg hfl (mul_nonneg hs0.le (abs_nonneg Q))) hA.le), fl_nonneg hfl (mul_nonneg t0 t0),
      fl_le hfl isDouble_one (by nlinarith), (hfl _).1, (hfl _).1⟩

/-- **C168** The energy after inelastic scattering on a level: no energy is gained, it is not negative at and above the first parameter and not
positive below, and the two roundings change it by at most `(2u + u²)` of itself and half the smallest double. -/
theorem C168_level (l : Level) (d1 : IsDouble l.c1) (h1 : 0 ≤ l.c1) (h20 : 0 ≤ l.c2) (h21 : l.c2 ≤ 1) (E : ℝ) (dE : IsDouble E) (k : Nat) :
    ∃ e, l.sampleFl fl E k = .ok (e, k) ∧ (l.c1 ≤ E → 0 ≤ e ∧ e ≤ E) ∧ (E < l.c1 → e ≤ 0) ∧
      |e - l.c2 * (E - l.c1)| ≤ (2 * uround + uround ^ 2) * |l.c2 * (E - l.c1)| + eta / 2 := by
  refine ⟨_, rfl, ?_, ?_, ?_⟩
  · intro hE
    have d0 := fl_nonneg hfl (show 0 ≤ E - l.c1 by linarith)
    have d1 := fl_le hfl dE (show E - l.c1 ≤ E by linarith)
    exact ⟨fl_nonneg hfl (mul_nonneg h20 d0), fl_le hfl dE (by nlinarith)⟩
  · intro hE
    exact fl_nonpos hfl (mul_nonpos_of_nonneg_of_nonpos h20 (fl_nonpos hfl (by linarith)))
  · have e1 := fl_sub_error hfl dE d1
    have e2 := (fl_error hfl (l.c2 * fl (E - l.c1))).1
    obtain ⟨d, hd⟩ : ∃ d, d = fl (E - l.c1) := ⟨_, rfl⟩
    obtain ⟨r, hr⟩ : ∃ r, r = E - l.c1 := ⟨_, rfl⟩
    rw [← hd, ← hr] at e1
    rw [← hd] at e2
    rw [← hd, ← hr]
    have hu := uround_pos
    rw [abs_mul, abs_of_nonneg h20] at e2
    have hdr : |d| ≤ (1 + uround) * |r| := by
      calc |d| = |r + (d - r)| := by ring_nf
        _ ≤ |r| + |d - r| := abs_add_le _ _
        _ ≤ _ := by linarith
    have k1 := mul_le_mul_of_nonneg_left e1 h20
    have k2 := mul_le_mul_of_nonneg_left (mul_le_mul_of_nonneg_left hdr h20) hu.le
    rw [abs_mul, abs_of_nonneg h20]
    calc |fl (l.c2 * d) - l.c2 * r| = |(fl (l.c2 * d) - l.c2 * d) + l.c2 * (d - r)| := by ring_nf
      _ ≤ |fl (l.c2 * d) - l.c2 * d| + |l.c2 * (d - r)| := abs_add_le _ _
      _ = |fl (l.c2 * d) - l.c2 * d| + l.c2 * |d - r| := by rw [abs_mul l.c2, abs_of_nonneg h20]
      _ ≤ _ := by linarith

/-- **C168** The energy after inelastic scattering does not decrease with the incoming energy. -/
theorem C168_level_mono (l : Level) (h20 : 0 ≤ l.c2) (E E' e e' : ℝ) (hE : E ≤ E') (k k1 k2 : Nat) (h : l.sampleFl fl E k = .ok (e, k1))
    (h' : l.sampleFl fl E' k = .ok (e', k2)) : e ≤ e' := by
  cases h
  cases h'
  exact fl_mono hfl (mul_le_mul_of_nonneg_left (fl_mono hfl (by linarith)) h20)

/-- **C168** An accepted photon law: flags 0 and 1 give the tabulated energy exactly; flag 2 an energy that is between it and the rounded sum of it
and the incoming energy, and does not decrease with the incoming energy. -/
theorem C168_photon (lp : Int) (Eg A : ℝ) (p : Photon) (hp : Photon.make lp Eg A = .ok p) (dE : IsDouble Eg) (dA : IsDouble A) (E : ℝ)
    (dI : IsDouble E) (hE : 0 ≤ E) (k : Nat) :
    ∃ e, p.sampleFl fl E k = .ok (e, k) ∧ (lp = 0 ∨ lp = 1 → e = Eg) ∧ Eg ≤ e ∧ e ≤ fl (Eg + E) ∧ 0 < e ∧
      ∀ E' : ℝ, E ≤ E' → ∃ e', p.sampleFl fl E' k = .ok (e', k) ∧ e ≤ e' := by
  unfold Photon.make at hp
  split at hp
  · cases hp
  rename_i hlp
  split at hp
  · cases hp
  rename_i hEg
  split at hp
  · cases hp
  rename_i hA
  cases hp
  rw [not_le] at hEg hA
  have hle : Eg ≤ fl (Eg + E) := le_fl hfl dE (by linarith)
  by_cases h : lp = 0 ∨ lp = 1
  · have hs : ∀ E' : ℝ, Photon.sampleFl fl ⟨lp, A, Eg⟩ E' k = .ok (Eg, k) := fun E' => if_pos h
    exact ⟨Eg, hs E, fun _ => rfl, le_rfl, hle, hEg, fun E' _ => ⟨Eg, hs E', le_rfl⟩⟩
  · have ha : A ≤ fl (A + 1) := le_fl hfl dA (by linarith)
    have ha0 : 0 < fl (A + 1) := by linarith
    have q0 := fl_nonneg hfl (div_nonneg hA.le ha0.le)
    have q1 := fl_le hfl isDouble_one ((div_le_one ha0).mpr ha)
    have hs : ∀ E' : ℝ, Photon.sampleFl fl ⟨lp, A, Eg⟩ E' k = .ok (fl (Eg + fl (fl (A / fl (A + 1)) * E')), k) := by
      intro E'
      unfold Photon.sampleFl
      rw [if_neg h, rdivFl_ok ha0.ne']
      rfl
    have m0 := fl_nonneg hfl (mul_nonneg q0 hE)
    have m1 := fl_le hfl dI (show fl (A / fl (A + 1)) * E ≤ E by nlinarith)
    have lo := le_fl hfl dE (show Eg ≤ Eg + fl (fl (A / fl (A + 1)) * E) by linarith)
    refine ⟨_, hs E, fun h' => absurd h' h, lo, fl_mono hfl (by linarith), by linarith, fun E' hE' => ⟨_, hs E', fl_mono hfl ?_⟩⟩
    have := fl_mono hfl (mul_le_mul_of_nonneg_left hE' q0)
    linarith

end

/-- **C168** (the model) Without rounding the models are those of C24, C74 and C98. -/
theorem C168_exact (c : List ℝ) (x a b Q awr E : ℝ) (l : Level) (p : Photon) (k : Nat) :
    polyEvalFl (fun r => r) c x = polyEval c x ∧ polyIntegrateFl (fun r => r) c a b = polyIntegrate c a b ∧
    Level.makeFl (fun r => r) Q awr = Level.make Q awr ∧ l.sampleFl (fun r => r) E k = l.sample E k ∧
    p.sampleFl (fun r => r) E k = p.sample E k := by
  have hd : ∀ u v : ℝ, rdivFl (fun r => r) u v = rdiv u v := by
    intro u v
    unfold rdivFl
    cases rdiv u v <;> rfl
  refine ⟨?_, ?_, ?_, rfl, ?_⟩
  · unfold polyEvalFl polyEval
    generalize c.reverse = l
    generalize (0 : ℝ) = v
    induction l generalizing v with
    | nil => rfl
    | cons d ds ih => exact ih _
  · unfold polyIntegrateFl polyIntegrate
    have : ∀ (l : List ℝ) (e hi low : ℝ), polyIntLoopFl (fun r => r) a b l e hi low = polyIntLoop a b l e hi low := by
      intro l
      induction l with
      | nil => intro e hi low; rfl
      | cons d ds ih => intro e hi low; simp only [polyIntLoopFl, polyIntLoop, hd, ih]
    simp only [this]
  · unfold Level.makeFl Level.make
    simp only [hd]
  · unfold Photon.sampleFl Photon.sample
    simp only [hd]

/-- The hypotheses are met: a polynomial, a level and a photon. -/
example (fl : ℝ → ℝ) (hfl : IsRoundToNearest fl) : 0 ≤ polyEvalFl fl [2, 3, 1] 5 ∧ (∃ v, polyIntegrateFl fl [2, 3, 1] 1 5 = .ok v ∧ 0 ≤ v) ∧
    (∃ l, Level.makeFl fl (-1) 2 = .ok l) ∧ ∃ e, Photon.sampleFl fl ⟨2, 2, 3⟩ 5 0 = .ok (e, 0) ∧ 3 ≤ e := by
  refine ⟨(C168_polynomial_mono hfl [2, 3, 1] (by simp) 5 5 (by norm_num) le_rfl).1, ?_, ?_, ?_⟩
  · obtain ⟨v, hv, _, h⟩ := C168_integrate hfl [2, 3, 1] (by simp) 1 5
    exact ⟨v, hv, h (by simp) (by norm_num) (by norm_num)⟩
  · have := (C168_level_make hfl (-1) 2 (isDouble_nat (n := 2) (by norm_num))).1
    cases h : Level.makeFl fl (-1) 2 with
    | ok l => exact ⟨l, rfl⟩
    | error e =>
      exfalso
      unfold Level.makeFl at h
      have hs : (2 : ℝ) ≤ fl (2 + 1) := le_fl hfl (isDouble_nat (n := 2) (by norm_num)) (by norm_num)
      rw [if_neg (by norm_num), rdivFl_ok (by norm_num), rdivFl_ok (by linarith)] at h
      cases h
  · have hp : Photon.make 2 3 2 = .ok (⟨2, 2, 3⟩ : Photon) := by
      unfold Photon.make
      norm_num
    obtain ⟨e, he, _, h, _⟩ := C168_photon hfl 2 3 2 _ hp (isDouble_nat (n := 3) (by norm_num)) (isDouble_nat (n := 2) (by norm_num)) 5
      (isDouble_nat (n := 5) (by norm_num)) (by norm_num) 0
    exact ⟨e, he, h⟩

end PNDL
