import Verif.Lemmas.WattLaw
import Verif.Spec.Law

/-! Gamma distributed functions of a stream, and the ratio of two of them. -/
namespace PNDL
open MeasureTheory Spec Set
open scoped ENNReal

/-- With probability one all random numbers are strictly between 0 and 1. -/
theorem iid_open : ∀ᵐ ω ∂Spec.iid, ∀ k : Nat, 0 < ω k ∧ ω k < 1 := by
  rw [ae_all_iff]
  intro k
  have hm : MeasurePreserving (fun ω : Tape => ω k) Spec.iid Spec.unif := measurePreserving_eval_infinitePi (fun _ : Nat => Spec.unif) k
  have h : ∀ᵐ x ∂Spec.unif, 0 < x ∧ x < 1 := by
    rw [unif_eq_Ioo]
    exact (ae_restrict_iff' measurableSet_Ioo).mpr (Filter.Eventually.of_forall fun x hx => hx)
  exact hm.quasiMeasurePreserving.ae h

/-- `Y`, made of the first `n` draws, has the gamma law of parameter `a` (up to a constant), independently of what follows. -/
def IsGamma (n : Nat) (Y : Tape → ℝ) (a : ℝ) : Prop :=
  Measurable Y ∧ ∃ C : ℝ≥0∞, C ≠ ∞ ∧ ∀ H : ℝ × Tape → ℝ≥0∞, Measurable H →
    ∫⁻ ω, H (Y ω, dropT n ω) ∂Spec.iid = C * gInt a fun u => ∫⁻ ω, H (u, ω) ∂Spec.iid

theorem measurable_of_dropT {Y : Tape → ℝ} (hY : Measurable Y) (k : Nat) : Measurable fun ω => Y (dropT k ω) := hY.comp (measurable_dropT k)

theorem isGamma_one : IsGamma 1 (fun ω => -Real.log (ω 0)) 1 := by
  have hY : Measurable fun ω : Tape => -Real.log (ω 0) := (Real.measurable_log.comp (measurable_pi_apply 0)).neg
  refine ⟨hY, 1, by simp, fun H hH => ?_⟩
  rw [one_mul, ← unif_log]
  refine (lintegral_cons (f := fun ω => H (-Real.log (ω 0), dropT 1 ω)) (hH.comp (hY.prodMk (measurable_dropT 1)))).trans ?_
  refine lintegral_congr fun x => lintegral_congr fun ω => ?_
  have : dropT 1 (consT x ω) = ω := by have := dropT_consT 0 x ω; simpa using this
  rw [this, consT_zero]

theorem isGamma_add {n : Nat} {Y : Tape → ℝ} {a : ℝ} (ha : 0 < a) (h : IsGamma n Y a) :
    IsGamma (n + 1) (fun ω => -Real.log (ω 0) + Y (dropT 1 ω)) (a + 1) := by
  obtain ⟨hY, C, hC, hlaw⟩ := h
  have h0 : Measurable fun ω : Tape => -Real.log (ω 0) := (Real.measurable_log.comp (measurable_pi_apply 0)).neg
  have hYY : Measurable fun ω : Tape => -Real.log (ω 0) + Y (dropT 1 ω) := h0.add (measurable_of_dropT hY 1)
  refine ⟨hYY, C * ENNReal.ofReal (1 / a), ENNReal.mul_ne_top hC ENNReal.ofReal_ne_top, fun H hH => ?_⟩
  have hint : Measurable fun u => ∫⁻ ω, H (u, ω) ∂Spec.iid := hH.lintegral_prod_right'
  refine (lintegral_cons (f := fun ω => H (-Real.log (ω 0) + Y (dropT 1 ω), dropT (n + 1) ω)) (hH.comp (hYY.prodMk (measurable_dropT _)))).trans ?_
  have e1 : ∀ x : ℝ, ∫⁻ ω, H (-Real.log (consT x ω 0) + Y (dropT 1 (consT x ω)), dropT (n + 1) (consT x ω)) ∂Spec.iid =
      C * gInt a fun u => ∫⁻ ω, H (-Real.log x + u, ω) ∂Spec.iid := by
    intro x
    rw [← hlaw (fun p => H (-Real.log x + p.1, p.2)) (hH.comp ((measurable_const.add measurable_fst).prodMk measurable_snd))]
    refine lintegral_congr fun ω => ?_
    have : dropT 1 (consT x ω) = ω := by have := dropT_consT 0 x ω; simpa using this
    rw [this, consT_zero, dropT_consT]
  simp only [e1]
  rw [lintegral_const_mul' _ _ hC, unif_log (fun s => gInt a fun u => ∫⁻ ω, H (s + u, ω) ∂Spec.iid), gInt_add ha hint, mul_assoc]

theorem isGamma_half : IsGamma 2 (fun ω => -Real.log (ω 0) * Real.cos (Real.pi * ω 1 / 2) ^ 2) (1 / 2) := by
  have hY : Measurable fun ω : Tape => -Real.log (ω 0) * Real.cos (Real.pi * ω 1 / 2) ^ 2 :=
    ((Real.measurable_log.comp (measurable_pi_apply 0)).neg).mul
      ((Real.measurable_cos.comp (((measurable_pi_apply (X := fun _ : Nat => ℝ) 1).const_mul Real.pi).div_const 2)).pow_const 2)
  refine ⟨hY, ENNReal.ofReal (1 / Real.sqrt Real.pi), ENNReal.ofReal_ne_top, fun H hH => ?_⟩
  have hint : Measurable fun u => ∫⁻ ω, H (u, ω) ∂Spec.iid := hH.lintegral_prod_right'
  rw [← gInt_half hint, ← unif_log]
  refine (lintegral_cons (f := fun ω => H (-Real.log (ω 0) * Real.cos (Real.pi * ω 1 / 2) ^ 2, dropT 2 ω)) (hH.comp (hY.prodMk (measurable_dropT _)))).trans ?_
  refine lintegral_congr fun x => ?_
  have hY2 : Measurable fun ω : Tape => -Real.log x * Real.cos (Real.pi * ω 0 / 2) ^ 2 :=
    ((Real.measurable_cos.comp (((measurable_pi_apply (X := fun _ : Nat => ℝ) 0).const_mul Real.pi).div_const 2)).pow_const 2).const_mul _
  have hd : ∀ ω, dropT 2 (consT x ω) = dropT 1 ω := fun ω => dropT_consT 1 x ω
  have h1 : ∀ ω, consT x ω 1 = ω 0 := fun ω => rfl
  simp only [hd, h1, consT_zero]
  refine (lintegral_cons (f := fun ω => H (-Real.log x * Real.cos (Real.pi * ω 0 / 2) ^ 2, dropT 1 ω)) (hH.comp (hY2.prodMk (measurable_dropT _)))).trans ?_
  refine lintegral_congr fun z => lintegral_congr fun ω => ?_
  have : dropT 1 (consT z ω) = ω := by have := dropT_consT 0 z ω; simpa using this
  rw [this, consT_zero]

/-- The same with the angle drawn first, as `maxwellian_spectrum` of `NBody` does. -/
theorem isGamma_maxwell : IsGamma 3 (fun ω => -(Real.log (ω 1) + Real.log (ω 2) * Real.cos (Real.pi * ω 0 / 2) * Real.cos (Real.pi * ω 0 / 2))) (3 / 2) := by
  have hpi := Real.sqrt_pos.mpr Real.pi_pos
  have hY : Measurable fun ω : Tape => -(Real.log (ω 1) + Real.log (ω 2) * Real.cos (Real.pi * ω 0 / 2) * Real.cos (Real.pi * ω 0 / 2)) := by
    have hc := Real.measurable_cos.comp (((measurable_pi_apply (X := fun _ : Nat => ℝ) 0).const_mul Real.pi).div_const 2)
    exact ((Real.measurable_log.comp (measurable_pi_apply 1)).add (((Real.measurable_log.comp (measurable_pi_apply 2)).mul hc).mul hc)).neg
  refine ⟨hY, ENNReal.ofReal (1 / Real.sqrt Real.pi) * ENNReal.ofReal (1 / (1 / 2)), ENNReal.mul_ne_top ENNReal.ofReal_ne_top ENNReal.ofReal_ne_top, fun H hH => ?_⟩
  let J : ℝ → ℝ≥0∞ := fun u => ∫⁻ ω, H (u, ω) ∂Spec.iid
  have hJ : Measurable J := hH.lintegral_prod_right'
  -- peel the three draws
  have e1 : ∫⁻ ω, H (-(Real.log (ω 1) + Real.log (ω 2) * Real.cos (Real.pi * ω 0 / 2) * Real.cos (Real.pi * ω 0 / 2)), dropT 3 ω) ∂Spec.iid =
      ∫⁻ z, ∫⁻ x, ∫⁻ y, J (-Real.log x + -Real.log y * Real.cos (Real.pi * z / 2) ^ 2) ∂Spec.unif ∂Spec.unif ∂Spec.unif := by
    refine (lintegral_cons (f := fun ω => H (-(Real.log (ω 1) + Real.log (ω 2) * Real.cos (Real.pi * ω 0 / 2) * Real.cos (Real.pi * ω 0 / 2)), dropT 3 ω))
      (hH.comp (hY.prodMk (measurable_dropT _)))).trans ?_
    refine lintegral_congr fun z => ?_
    have hd : ∀ ω, dropT 3 (consT z ω) = dropT 2 ω := fun ω => dropT_consT 2 z ω
    have h1 : ∀ ω, consT z ω 1 = ω 0 := fun ω => rfl
    have h2 : ∀ ω, consT z ω 2 = ω 1 := fun ω => rfl
    simp only [hd, h1, h2, consT_zero]
    have hm2 : Measurable fun ω : Tape => -(Real.log (ω 0) + Real.log (ω 1) * Real.cos (Real.pi * z / 2) * Real.cos (Real.pi * z / 2)) :=
      ((Real.measurable_log.comp (measurable_pi_apply 0)).add (((Real.measurable_log.comp (measurable_pi_apply 1)).mul_const _).mul_const _)).neg
    refine (lintegral_cons (f := fun ω => H (-(Real.log (ω 0) + Real.log (ω 1) * Real.cos (Real.pi * z / 2) * Real.cos (Real.pi * z / 2)), dropT 2 ω))
      (hH.comp (hm2.prodMk (measurable_dropT _)))).trans ?_
    refine lintegral_congr fun x => ?_
    have hd' : ∀ ω, dropT 2 (consT x ω) = dropT 1 ω := fun ω => dropT_consT 1 x ω
    have h1' : ∀ ω, consT x ω 1 = ω 0 := fun ω => rfl
    simp only [hd', h1', consT_zero]
    have hm3 : Measurable fun ω : Tape => -(Real.log x + Real.log (ω 0) * Real.cos (Real.pi * z / 2) * Real.cos (Real.pi * z / 2)) :=
      ((((Real.measurable_log.comp (measurable_pi_apply 0)).mul_const _).mul_const _).const_add _).neg
    refine (lintegral_cons (f := fun ω => H (-(Real.log x + Real.log (ω 0) * Real.cos (Real.pi * z / 2) * Real.cos (Real.pi * z / 2)), dropT 1 ω))
      (hH.comp (hm3.prodMk (measurable_dropT _)))).trans ?_
    refine lintegral_congr fun y => lintegral_congr fun ω => ?_
    have : dropT 1 (consT y ω) = ω := by have := dropT_consT 0 y ω; simpa using this
    rw [this, consT_zero]
    congr 2
    ring
  rw [e1]
  -- exchange the order
  have mJ : Measurable fun p : ℝ × ℝ × ℝ => J (-Real.log p.2.1 + -Real.log p.2.2 * Real.cos (Real.pi * p.1 / 2) ^ 2) := by
    refine hJ.comp ?_
    have := Real.measurable_log
    have := Real.measurable_cos
    fun_prop
  have sw1 : ∫⁻ z, ∫⁻ x, ∫⁻ y, J (-Real.log x + -Real.log y * Real.cos (Real.pi * z / 2) ^ 2) ∂Spec.unif ∂Spec.unif ∂Spec.unif =
      ∫⁻ x, ∫⁻ z, ∫⁻ y, J (-Real.log x + -Real.log y * Real.cos (Real.pi * z / 2) ^ 2) ∂Spec.unif ∂Spec.unif ∂Spec.unif := by
    apply lintegral_lintegral_swap
    have : Measurable fun q : (ℝ × ℝ) × ℝ => J (-Real.log q.1.2 + -Real.log q.2 * Real.cos (Real.pi * q.1.1 / 2) ^ 2) :=
      mJ.comp (f := fun q : (ℝ × ℝ) × ℝ => (q.1.1, q.1.2, q.2)) (by fun_prop)
    exact (this.lintegral_prod_right').aemeasurable
  have sw2 : ∀ x : ℝ, ∫⁻ z, ∫⁻ y, J (-Real.log x + -Real.log y * Real.cos (Real.pi * z / 2) ^ 2) ∂Spec.unif ∂Spec.unif =
      ∫⁻ y, ∫⁻ z, J (-Real.log x + -Real.log y * Real.cos (Real.pi * z / 2) ^ 2) ∂Spec.unif ∂Spec.unif := by
    intro x
    apply lintegral_lintegral_swap
    exact (mJ.comp (f := fun q : ℝ × ℝ => (q.1, x, q.2)) (by fun_prop)).aemeasurable
  rw [sw1]
  simp only [sw2]
  have e2 : ∀ s : ℝ, ∫⁻ y, ∫⁻ z, J (s + -Real.log y * Real.cos (Real.pi * z / 2) ^ 2) ∂Spec.unif ∂Spec.unif =
      ENNReal.ofReal (1 / Real.sqrt Real.pi) * gInt (1 / 2) (fun t => J (s + t)) := by
    intro s
    rw [unif_log (fun r => ∫⁻ z, J (s + r * Real.cos (Real.pi * z / 2) ^ 2) ∂Spec.unif)]
    exact gInt_half (f := fun t => J (s + t)) (hJ.comp (measurable_const_add s))
  simp only [e2]
  rw [lintegral_const_mul' _ _ ENNReal.ofReal_ne_top, unif_log (fun s => gInt (1 / 2) fun t => J (s + t)), gInt_add (by norm_num) hJ, mul_assoc,
    show (1 : ℝ) / 2 + 1 = 3 / 2 by norm_num]

/-- Two independent gamma numbers, one after the other. -/
theorem isGamma_pair {n m : Nat} {X Y : Tape → ℝ} {a b : ℝ} (hX : IsGamma n X a) (hY : IsGamma m Y b) :
    ∃ C : ℝ≥0∞, C ≠ ∞ ∧ ∀ H : ℝ × ℝ × Tape → ℝ≥0∞, Measurable H →
      ∫⁻ ω, H (X ω, Y (dropT n ω), dropT (n + m) ω) ∂Spec.iid = C * gInt a fun x => gInt b fun y => ∫⁻ ω, H (x, y, ω) ∂Spec.iid := by
  obtain ⟨mX, C, hC, lX⟩ := hX
  obtain ⟨mY, D, hD, lY⟩ := hY
  refine ⟨C * D, ENNReal.mul_ne_top hC hD, fun H hH => ?_⟩
  have h1 := lX (fun p => H (p.1, Y p.2, dropT m p.2)) (hH.comp (measurable_fst.prodMk ((mY.comp measurable_snd).prodMk ((measurable_dropT m).comp measurable_snd))))
  have h2 : ∀ x : ℝ, ∫⁻ ω, H (x, Y ω, dropT m ω) ∂Spec.iid = D * gInt b fun y => ∫⁻ ω, H (x, y, ω) ∂Spec.iid := fun x =>
    lY (fun p => H (x, p.1, p.2)) (hH.comp (measurable_const.prodMk measurable_id))
  simp only [h2, dropT_dropT] at h1
  rw [h1, mul_assoc]
  congr 1
  unfold gInt
  rw [← lintegral_const_mul' _ _ hD]
  refine lintegral_congr fun x => ?_
  rw [mul_left_comm]

/-- The ratio of two gamma numbers has a beta law. -/
theorem gInt_beta {a b : ℝ} (ha : 0 < a) (hb : 0 < b) {f : ℝ → ℝ≥0∞} (hf : Measurable f) :
    gInt a (fun x => gInt b fun y => f (x / (x + y))) =
      ENNReal.ofReal (Real.Gamma (a + b)) * ∫⁻ r in Ioo (0 : ℝ) 1, ENNReal.ofReal (r ^ (a - 1) * (1 - r) ^ (b - 1)) * f r := by
  -- for a given `x`, `r = x / (x + y)` runs over `(0, 1)`
  have inner : ∀ x ∈ Ioi (0 : ℝ), gInt b (fun y => f (x / (x + y))) =
      ∫⁻ r in Ioo (0 : ℝ) 1, ENNReal.ofReal (x ^ b * ((1 - r) ^ (b - 1) * r ^ (-(b + 1))) * Real.exp (x - x / r)) * f r := by
    intro x hx
    have hx0 : (0 : ℝ) < x := hx
    have himg : (fun r => x / r - x) '' Ioo (0 : ℝ) 1 = Ioi 0 := by
      ext y
      constructor
      · rintro ⟨r, ⟨h0, h1⟩, rfl⟩
        show 0 < x / r - x
        rw [sub_pos, lt_div_iff₀ h0]
        nlinarith
      · intro hy
        have hy0 : (0 : ℝ) < y := hy
        refine ⟨x / (x + y), ⟨by positivity, (div_lt_one (by positivity)).mpr (by linarith)⟩, ?_⟩
        show x / (x / (x + y)) - x = y
        field_simp
        ring
    have hder : ∀ r ∈ Ioo (0 : ℝ) 1, HasDerivWithinAt (fun r => x / r - x) (-(x / r ^ 2)) (Ioo 0 1) r := by
      intro r hr
      have h1 : HasDerivAt (fun r : ℝ => r⁻¹) (-(r ^ 2)⁻¹) r := hasDerivAt_inv hr.1.ne'
      have h2 := ((h1.const_mul x).sub_const x).hasDerivWithinAt (s := Ioo (0 : ℝ) 1)
      refine (h2.congr_deriv ?_).congr (fun y _ => ?_) ?_
      · ring
      · rw [div_eq_mul_inv]
      · rw [div_eq_mul_inv]
    have hinj : InjOn (fun r : ℝ => x / r - x) (Ioo 0 1) := fun p hp q hq h => by
      have h' : x / p = x / q := by have h'' : x / p - x = x / q - x := h; linarith
      have hp0 := hp.1
      have hq0 := hq.1
      rw [div_eq_div_iff hp0.ne' hq0.ne'] at h'
      exact (mul_left_cancel₀ hx0.ne' h').symm
    unfold gInt
    rw [← himg, lintegral_image_eq_lintegral_abs_deriv_mul measurableSet_Ioo hder hinj]
    refine setLIntegral_congr_fun measurableSet_Ioo fun r hr => ?_
    obtain ⟨h0, h1⟩ := hr
    have hr1 : 0 < 1 - r := by linarith
    show ENNReal.ofReal |-(x / r ^ 2)| * (ENNReal.ofReal ((x / r - x) ^ (b - 1) * Real.exp (-(x / r - x))) * f (x / (x + (x / r - x)))) = _
    rw [ofReal_assoc (abs_nonneg _), abs_neg, abs_of_pos (by positivity)]
    congr 2
    · have hxr : x / r - x = x * ((1 - r) * r⁻¹) := by field_simp
      have p1 : (x * ((1 - r) * r⁻¹)) ^ (b - 1) = x ^ (b - 1) * ((1 - r) ^ (b - 1) * (r ^ (b - 1))⁻¹) := by
        rw [Real.mul_rpow hx0.le (by positivity), Real.mul_rpow hr1.le (by positivity), Real.inv_rpow h0.le]
      have p2 : x ^ b = x ^ (b - 1) * x := by rw [Real.rpow_sub_one hx0.ne']; field_simp
      have p3 : r ^ (-(b + 1)) = (r ^ (b - 1))⁻¹ * (r ^ 2)⁻¹ := by
        rw [Real.rpow_neg h0.le, show b + 1 = (b - 1) + 2 by ring, Real.rpow_add h0, mul_inv]
        norm_num
      rw [neg_sub, hxr, p1, p2, p3]
      ring
    · rw [add_sub_cancel]
      field_simp
  have hm : Measurable fun p : ℝ × ℝ => ENNReal.ofReal (p.1 ^ (a - 1) * Real.exp (-p.1)) *
      (ENNReal.ofReal (p.1 ^ b * ((1 - p.2) ^ (b - 1) * p.2 ^ (-(b + 1))) * Real.exp (p.1 - p.1 / p.2)) * f p.2) :=
    (by fun_prop : Measurable fun p : ℝ × ℝ => ENNReal.ofReal (p.1 ^ (a - 1) * Real.exp (-p.1))).mul
      ((by fun_prop : Measurable fun p : ℝ × ℝ => ENNReal.ofReal (p.1 ^ b * ((1 - p.2) ^ (b - 1) * p.2 ^ (-(b + 1))) * Real.exp (p.1 - p.1 / p.2))).mul
        (hf.comp measurable_snd))
  have e1 : gInt a (fun x => gInt b fun y => f (x / (x + y))) = ∫⁻ x in Ioi (0 : ℝ), ∫⁻ r in Ioo (0 : ℝ) 1, ENNReal.ofReal (x ^ (a - 1) * Real.exp (-x)) *
      (ENNReal.ofReal (x ^ b * ((1 - r) ^ (b - 1) * r ^ (-(b + 1))) * Real.exp (x - x / r)) * f r) := by
    show ∫⁻ x in Ioi (0 : ℝ), ENNReal.ofReal (x ^ (a - 1) * Real.exp (-x)) * gInt b (fun y => f (x / (x + y))) = _
    refine setLIntegral_congr_fun measurableSet_Ioi fun x hx => ?_
    show ENNReal.ofReal (x ^ (a - 1) * Real.exp (-x)) * gInt b (fun y => f (x / (x + y))) = _
    rw [inner x hx, lintegral_const_mul' _ _ ENNReal.ofReal_ne_top]
  rw [e1, lintegral_lintegral_swap hm.aemeasurable, ← lintegral_const_mul' _ _ ENNReal.ofReal_ne_top]
  refine setLIntegral_congr_fun measurableSet_Ioo fun r hr => ?_
  obtain ⟨h0, h1⟩ := hr
  have hr1 : 0 < 1 - r := by linarith
  have e2 : ∀ x ∈ Ioi (0 : ℝ), ENNReal.ofReal (x ^ (a - 1) * Real.exp (-x)) *
      (ENNReal.ofReal (x ^ b * ((1 - r) ^ (b - 1) * r ^ (-(b + 1))) * Real.exp (x - x / r)) * f r) =
      ENNReal.ofReal ((x / r) ^ (a + b - 1) * Real.exp (-x / r) / r) * (fun _ => (1 : ℝ≥0∞)) x * (ENNReal.ofReal (r ^ (a - 1) * (1 - r) ^ (b - 1)) * f r) := by
    intro x hx
    have hx0 : (0 : ℝ) < x := hx
    rw [mul_one, ofReal_assoc (by positivity), ofReal_assoc (by positivity)]
    congr 2
    have p1 : x ^ (a - 1) * x ^ b = x ^ (a + b - 1) := by rw [← Real.rpow_add hx0]; congr 1; ring
    have p2 : (x / r) ^ (a + b - 1) = x ^ (a + b - 1) * r ^ (-(a + b - 1)) := by
      rw [Real.div_rpow hx0.le h0.le, Real.rpow_neg h0.le, div_eq_mul_inv]
    have p3 : r ^ (-(b + 1)) = r ^ (-(a + b - 1)) * r ^ (a - 1) / r := by
      rw [← Real.rpow_add h0, eq_div_iff h0.ne', ← Real.rpow_add_one h0.ne']; congr 1; ring
    have p4 : Real.exp (-x) * Real.exp (x - x / r) = Real.exp (-x / r) := by rw [← Real.exp_add]; congr 1; ring
    rw [p2, p3, ← p1, ← p4]
    ring
  show ∫⁻ x in Ioi (0 : ℝ), ENNReal.ofReal (x ^ (a - 1) * Real.exp (-x)) *
      (ENNReal.ofReal (x ^ b * ((1 - r) ^ (b - 1) * r ^ (-(b + 1))) * Real.exp (x - x / r)) * f r) = _
  rw [setLIntegral_congr_fun measurableSet_Ioi e2, lintegral_mul_const _ (by fun_prop)]
  have key := gInt_one (a := a + b) (by linarith)
  have hsc := gInt_scale (a := a + b) h0 (fun _ => 1)
  rw [← hsc, key]

end PNDL
