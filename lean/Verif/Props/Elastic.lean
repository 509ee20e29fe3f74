import Verif.Model.Elastic
import Verif.Props.FrameAngle
import Verif.Props.CrossSection
import Verif.Props.EnergyGrid

/-! C48, C49: elastic scattering. -/
namespace PNDL
open Spec

theorem sdiv_ok {u : Vec} {c : ℝ} (h : c ≠ 0) : u.sdiv c = .ok ⟨u.x / c, u.y / c, u.z / c⟩ := by
  unfold Vec.sdiv
  rw [rdiv_ok h, rdiv_ok h, rdiv_ok h]
  rfl

theorem sdiv_zero (u : Vec) : u.sdiv 0 = .error .nonfinite := by
  unfold Vec.sdiv
  rw [rdiv_zero]
  rfl

theorem mag_sq (u : Vec) : u.mag * u.mag = u.x ^ 2 + u.y ^ 2 + u.z ^ 2 := by
  unfold Vec.mag
  rw [Real.mul_self_sqrt (by nlinarith [mul_self_nonneg u.x, mul_self_nonneg u.y, mul_self_nonneg u.z])]
  ring

theorem mag_nonneg (u : Vec) : 0 ≤ u.mag := Real.sqrt_nonneg _

theorem sdiv_unit {u : Vec} (h : u.mag ≠ 0) : IsUnit3 ⟨u.x / u.mag, u.y / u.mag, u.z / u.mag⟩ := by
  unfold IsUnit3
  have := mag_sq u
  simp only
  field_simp
  nlinarith

theorem three_sq {a b c : ℝ} (h : a ^ 2 + b ^ 2 + c ^ 2 = 0) : a = 0 ∧ b = 0 ∧ c = 0 := by
  refine ⟨?_, ?_, ?_⟩ <;> rw [← sq_eq_zero_iff] <;> linarith [sq_nonneg a, sq_nonneg b, sq_nonneg c]

theorem sq_eq_one_iff_of_side {a : ℝ} (h : a ^ 2 = 1) : a = 1 ∨ a = -1 := by
  have : (a - 1) * (a + 1) = 0 := by linarith [h, sq_abs a, (by ring : (a - 1) * (a + 1) = a ^ 2 - 1)]
  rcases mul_eq_zero.mp this with h | h
  · left; linarith
  · right; linarith

/-! ## C48 -/

/-- Kinetic energy (squared speed) seen from a frame moving with velocity `w`. -/
noncomputable def Spec.energyIn (v w : Vec) : ℝ := (v.x - w.x) ^ 2 + (v.y - w.y) ^ 2 + (v.z - w.z) ^ 2

/-- The velocity of the centre of mass of a neutron and a target `awr` times as heavy. -/
noncomputable def Spec.cmVelocity (awr : ℝ) (vn vt : Vec) : Vec :=
  ⟨(vn.x + awr * vt.x) / (awr + 1), (vn.y + awr * vt.y) / (awr + 1), (vn.z + awr * vt.z) / (awr + 1)⟩

/-- C48, any target velocity: whatever is returned comes from an outgoing velocity whose energy in the centre of mass is that of the
incoming neutron there, and whose direction there makes the sampled cosine with the incoming one; the returned energy is its
squared length and the cosine its direction cosine, which is in `[-1, 1]`. -/
theorem C48_collision (e : Elastic) (hA : 0 < e.awr) (E : ℝ) (vn vt : Vec) (ω : Tape) (k : Nat) (mu Eo : ℝ) (k' : Nat)
    (h : e.collide E vn vt ω k = .ok (mu, Eo, k')) :
    ∃ (vout : Vec) (muCm : ℝ) (k1 : Nat), e.angle E ω k = .ok (muCm, k1) ∧
      energyIn vout (cmVelocity e.awr vn vt) = energyIn vn (cmVelocity e.awr vn vt) ∧
      (vout.sub (cmVelocity e.awr vn vt)).dot (vn.sub (cmVelocity e.awr vn vt)) =
        clip muCm (-1) 1 * energyIn vn (cmVelocity e.awr vn vt) ∧
      Eo = vout.x ^ 2 + vout.y ^ 2 + vout.z ^ 2 ∧ mu * Real.sqrt Eo = vout.z ∧ -1 ≤ mu ∧ mu ≤ 1 ∧ 0 < Eo := by
  have hA1 : e.awr + 1 ≠ 0 := by positivity
  unfold Elastic.collide at h
  rw [sdiv_ok hA1] at h
  simp only [bind, Except.bind] at h
  have hcm : (⟨(vn.add (vt.smul e.awr)).x / (e.awr + 1), (vn.add (vt.smul e.awr)).y / (e.awr + 1),
      (vn.add (vt.smul e.awr)).z / (e.awr + 1)⟩ : Vec) = cmVelocity e.awr vn vt := by
    unfold cmVelocity Vec.add Vec.smul
    simp only [Vec.mk.injEq]
    refine ⟨?_, ?_, ?_⟩ <;> ring
  rw [hcm] at h
  obtain ⟨w, hw⟩ : ∃ w, w = cmVelocity e.awr vn vt := ⟨_, rfl⟩
  rw [← hw] at h ⊢
  by_cases hS : (vn.sub w).mag = 0
  · rw [hS, sdiv_zero] at h; cases h
  rw [sdiv_ok hS] at h
  simp only at h
  cases hang : e.angle E ω k with
  | error er => rw [hang] at h; cases h
  | ok p =>
    obtain ⟨muCm, k1⟩ := p
    rw [hang] at h
    simp only at h
    obtain ⟨d, hd, hdu, hdd⟩ := C47_rotate ⟨(vn.sub w).x / (vn.sub w).mag, (vn.sub w).y / (vn.sub w).mag, (vn.sub w).z / (vn.sub w).mag⟩
      (sdiv_unit hS) muCm (2 * Real.pi * ω k1)
    rw [hd] at h
    simp only at h
    obtain ⟨S, hSd⟩ : ∃ S, S = (vn.sub w).mag := ⟨_, rfl⟩
    have hSq := mag_sq (vn.sub w)
    rw [← hSd] at h hS hdd hSq
    obtain ⟨vo, hvo⟩ : ∃ vo, vo = (d.smul S).add w := ⟨_, rfl⟩
    rw [← hvo] at h
    by_cases hso : vo.mag = 0
    · rw [hso, sdiv_zero] at h; cases h
    rw [sdiv_ok hso] at h
    simp only [pure, Except.pure, Except.ok.injEq, Prod.mk.injEq] at h
    obtain ⟨h1, h2, _⟩ := h
    have hvq := mag_sq vo
    have hvx : vo.x = d.x * S + w.x := by rw [hvo]; rfl
    have hvy : vo.y = d.y * S + w.y := by rw [hvo]; rfl
    have hvz : vo.z = d.z * S + w.z := by rw [hvo]; rfl
    have hmu : mu = vo.z / vo.mag := by
      rw [← h1]; unfold Vec.dot; simp only; ring
    have hmag : 0 < vo.mag := lt_of_le_of_ne (mag_nonneg _) (Ne.symm hso)
    have hz2 : vo.z ^ 2 ≤ vo.mag * vo.mag := by rw [hvq]; nlinarith [sq_nonneg vo.x, sq_nonneg vo.y]
    have habs : |vo.z| ≤ vo.mag := abs_le_of_sq_le_sq (by nlinarith) hmag.le
    refine ⟨vo, muCm, k1, rfl, ?_, ?_, ?_, ?_, ?_, ?_, ?_⟩
    · unfold energyIn
      rw [hvx, hvy, hvz]
      unfold IsUnit3 at hdu
      unfold Vec.sub at hSq
      simp only at hSq
      linear_combination S ^ 2 * hdu + hSq
    · unfold energyIn
      unfold Vec.dot at hdd ⊢
      unfold Vec.sub at hSq hdd ⊢
      simp only at hSq hdd ⊢
      rw [hvx, hvy, hvz]
      field_simp at hdd
      linear_combination S * hdd + (clip muCm (-1) 1) * hSq
    · rw [← h2]; exact hvq
    · rw [← h2, Real.sqrt_mul_self (mag_nonneg _), hmu]
      field_simp
    · rw [hmu, le_div_iff₀ hmag]
      linarith [neg_le_of_abs_le habs]
    · rw [hmu, div_le_one hmag]
      exact le_of_abs_le habs
    · rw [← h2]; positivity

/-- C48: when the target is taken at rest, every returned energy is `E (A² + 2 A μ + 1) / (A + 1)²` for the sampled CM cosine `μ`,
hence lies between `((A-1)/(A+1))² E` and `E`, and the lab cosine is the one of two-body kinematics, in `[-1, 1]`. -/
theorem C48_target_at_rest (e : Elastic) (hA : 0 < e.awr) (E : ℝ) (hE : 0 < E) (ω : Tape) (k : Nat) (mu Eo : ℝ) (k' : Nat)
    (htar : e.useTar = true ∧ e.tar * e.kT ≤ E) (h : e.sample E ω k = .ok (mu, Eo, k')) :
    ∃ muCm k1, e.angle E ω k = .ok (muCm, k1) ∧
      Eo = E * (e.awr ^ 2 + 2 * e.awr * clip muCm (-1) 1 + 1) / (e.awr + 1) ^ 2 ∧
      ((e.awr - 1) / (e.awr + 1)) ^ 2 * E ≤ Eo ∧ Eo ≤ E ∧ -1 ≤ mu ∧ mu ≤ 1 ∧
      mu * Real.sqrt Eo = (1 + e.awr * clip muCm (-1) 1) / (e.awr + 1) * Real.sqrt E := by
  have hA1 : 0 < e.awr + 1 := by positivity
  unfold Elastic.sample at h
  rw [csqrt_ok hE.le] at h
  simp only [bind, Except.bind] at h
  rw [if_pos htar] at h
  obtain ⟨vo, muCm, k1, a1, a2, a3, a4, a5, a6, a7, a8⟩ := C48_collision e hA E _ _ ω k mu Eo k' h
  obtain ⟨s, hs⟩ : ∃ s, s = Real.sqrt E := ⟨_, rfl⟩
  have hs2 : s ^ 2 = E := by rw [hs]; exact Real.sq_sqrt hE.le
  have hs0 : 0 < s := by rw [hs]; exact Real.sqrt_pos.mpr hE
  obtain ⟨m, hm⟩ : ∃ m, m = clip muCm (-1) 1 := ⟨_, rfl⟩
  obtain ⟨hm1, hm2⟩ : -1 ≤ m ∧ m ≤ 1 := by rw [hm]; exact rot_mu_mem muCm
  rw [← hs, ← hm] at a3
  rw [← hs] at a2
  rw [← hs]
  unfold energyIn cmVelocity Vec.smul at a2
  unfold energyIn cmVelocity Vec.smul Vec.sub Vec.dot at a3
  simp only [zero_mul, mul_zero, add_zero, zero_div, sub_zero, one_mul] at a2 a3
  obtain ⟨A, hAd⟩ : ∃ A, A = e.awr := ⟨_, rfl⟩
  rw [← hAd] at a2 a3 hA hA1 ⊢
  have hz : vo.z = (1 + A * m) / (A + 1) * s := by
    have h1 : s - s / (A + 1) = A * s / (A + 1) := by field_simp; ring
    rw [h1] at a3
    have h2 : (vo.z - s / (A + 1)) * (A * s / (A + 1)) = m * (A * s / (A + 1)) * (A * s / (A + 1)) := by
      linear_combination a3
    have h3 : vo.z - s / (A + 1) = m * (A * s / (A + 1)) := mul_right_cancel₀ (by positivity) h2
    rw [show vo.z = m * (A * s / (A + 1)) + s / (A + 1) by linarith]
    field_simp
    ring
  have hEo : Eo = E * (A ^ 2 + 2 * A * m + 1) / (A + 1) ^ 2 := by
    rw [a4, ← hs2]
    have h1 : s - s / (A + 1) = A * s / (A + 1) := by field_simp; ring
    rw [h1] at a2
    have : vo.x ^ 2 + vo.y ^ 2 + vo.z ^ 2 = (A * s / (A + 1)) ^ 2 + 2 * vo.z * (s / (A + 1)) - (s / (A + 1)) ^ 2 := by
      linear_combination a2
    rw [this, hz]
    field_simp
    ring
  refine ⟨muCm, k1, a1, by rw [← hm]; exact hEo, ?_, ?_, a6, a7, by rw [← hm, a5, hz]⟩
  · rw [hEo, div_pow, div_mul_eq_mul_div]
    apply div_le_div_of_nonneg_right _ (by positivity)
    nlinarith [mul_nonneg hE.le (mul_nonneg hA.le (show 0 ≤ 1 + m by linarith))]
  · rw [hEo, div_le_iff₀ (by positivity)]
    nlinarith [mul_nonneg hE.le (mul_nonneg hA.le (show 0 ≤ 1 - m by linarith))]

/-- C48: with the target at rest a sample is always returned when the angle law gives one, except for the head-on collision with a
target of equal mass (the neutron stops, and its direction is `0/0`). -/
theorem C48_defined (e : Elastic) (hA : 0 < e.awr) (E : ℝ) (hE : 0 < E) (ω : Tape) (k : Nat) (muCm : ℝ) (k1 : Nat)
    (htar : e.useTar = true ∧ e.tar * e.kT ≤ E) (hang : e.angle E ω k = .ok (muCm, k1))
    (hne : ¬ (e.awr = 1 ∧ muCm ≤ -1)) : ∃ mu Eo, e.sample E ω k = .ok (mu, Eo, k1 + 1) := by
  have hA1 : 0 < e.awr + 1 := by positivity
  have hs0 : 0 < Real.sqrt E := Real.sqrt_pos.mpr hE
  unfold Elastic.sample
  rw [csqrt_ok hE.le]
  simp only [bind, Except.bind]
  rw [if_pos htar]
  unfold Elastic.collide
  rw [sdiv_ok hA1.ne']
  simp only [bind, Except.bind]
  obtain ⟨s, hs⟩ : ∃ s, s = Real.sqrt E := ⟨_, rfl⟩
  rw [← hs] at hs0 ⊢
  obtain ⟨V, hV⟩ : ∃ V, V = ((Vec.mk 0 0 1).smul s).sub ⟨(((Vec.mk 0 0 1).smul s).add ((Vec.mk 0 0 0).smul e.awr)).x / (e.awr + 1),
    (((Vec.mk 0 0 1).smul s).add ((Vec.mk 0 0 0).smul e.awr)).y / (e.awr + 1),
    (((Vec.mk 0 0 1).smul s).add ((Vec.mk 0 0 0).smul e.awr)).z / (e.awr + 1)⟩ := ⟨_, rfl⟩
  have hVe : V = ⟨0, 0, e.awr * s / (e.awr + 1)⟩ := by
    rw [hV]; unfold Vec.sub Vec.add Vec.smul
    simp only [Vec.mk.injEq]
    refine ⟨by ring, by ring, by field_simp; ring⟩
  rw [← hV, hVe]
  have hp : 0 < e.awr * s / (e.awr + 1) := by positivity
  have hmag : (Vec.mk 0 0 (e.awr * s / (e.awr + 1))).mag = e.awr * s / (e.awr + 1) := by
    unfold Vec.mag
    simp only [mul_zero, zero_add]
    exact Real.sqrt_mul_self hp.le
  rw [hmag, sdiv_ok hp.ne']
  simp only [hang]
  have hunit : IsUnit3 ⟨0 / (e.awr * s / (e.awr + 1)), 0 / (e.awr * s / (e.awr + 1)),
      e.awr * s / (e.awr + 1) / (e.awr * s / (e.awr + 1))⟩ := by
    unfold IsUnit3; simp only [zero_div, div_self hp.ne']; norm_num
  obtain ⟨d, hd, hdu, hdd⟩ := C47_rotate _ hunit muCm (2 * Real.pi * ω k1)
  rw [hd]
  simp only
  have hdz : d.z = clip muCm (-1) 1 := by
    unfold Vec.dot at hdd
    simp only [zero_div, div_self hp.ne'] at hdd
    linarith
  obtain ⟨w, hw⟩ : ∃ w : Vec, w = ⟨(((Vec.mk 0 0 1).smul s).add ((Vec.mk 0 0 0).smul e.awr)).x / (e.awr + 1),
    (((Vec.mk 0 0 1).smul s).add ((Vec.mk 0 0 0).smul e.awr)).y / (e.awr + 1),
    (((Vec.mk 0 0 1).smul s).add ((Vec.mk 0 0 0).smul e.awr)).z / (e.awr + 1)⟩ := ⟨_, rfl⟩
  have hwe : w = ⟨0, 0, s / (e.awr + 1)⟩ := by
    rw [hw]; unfold Vec.add Vec.smul
    simp only [Vec.mk.injEq]
    refine ⟨by ring, by ring, by ring⟩
  rw [← hw, hwe]
  have hmne : ((d.smul (e.awr * s / (e.awr + 1))).add ⟨0, 0, s / (e.awr + 1)⟩).mag ≠ 0 := by
    intro h0
    have := mag_sq ((d.smul (e.awr * s / (e.awr + 1))).add ⟨0, 0, s / (e.awr + 1)⟩)
    rw [h0] at this
    unfold Vec.smul Vec.add at this
    simp only [add_zero, mul_zero] at this
    unfold IsUnit3 at hdu
    obtain ⟨hx, hy, hz⟩ := three_sq (a := d.x * (e.awr * s / (e.awr + 1))) (b := d.y * (e.awr * s / (e.awr + 1)))
      (c := d.z * (e.awr * s / (e.awr + 1)) + s / (e.awr + 1)) (by linarith)
    have hx' : d.x = 0 := by rcases mul_eq_zero.mp hx with h | h; exacts [h, absurd h hp.ne']
    have hy' : d.y = 0 := by rcases mul_eq_zero.mp hy with h | h; exacts [h, absurd h hp.ne']
    rw [hx', hy'] at hdu
    have hz1 : d.z * e.awr = -1 := by
      have hz' : (d.z * e.awr + 1) * (s / (e.awr + 1)) = 0 := by rw [← hz]; ring
      rcases mul_eq_zero.mp hz' with h | h
      · linarith
      · exact absurd h (by positivity)
    have hz2 : d.z ^ 2 = 1 := by linarith
    have hz3 : d.z = -1 := by
      rcases sq_eq_one_iff_of_side hz2 with h | h
      · exfalso; rw [h] at hz1; linarith
      · exact h
    apply hne
    rw [hz3] at hz1
    refine ⟨by linarith, ?_⟩
    rw [hdz] at hz3
    by_contra hc
    rw [not_le] at hc
    unfold clip at hz3
    have : -1 < max (-1) (min muCm 1) := lt_max_of_lt_right (lt_min hc (by norm_num))
    linarith
  rw [sdiv_ok hmne]
  exact ⟨_, _, rfl⟩

/-- The hypotheses are met: a heavy target at rest and an angle law that always gives the cosine 0. -/
example (ω : Tape) (k : Nat) : ∃ mu Eo, (Elastic.mk (fun _ _ k => .ok (0, k)) 12 1 true 400 none).sample 1000 ω k = .ok (mu, Eo, k + 1) :=
  C48_defined _ (by norm_num) 1000 (by norm_num) ω k 0 k (by norm_num) rfl (by norm_num)

/-! ## C49 -/

/-- A setter argument that keeps the object valid. -/
def Spec.GoodOp : ElasticOp → Prop
  | .setTemperature t => 0 ≤ t
  | .setTar t => 0 ≤ t
  | _ => True

/-- The validity claimed of the object. -/
def Spec.ElasticValid (e : Elastic) : Prop := 0 ≤ e.tar ∧ 0 ≤ e.temperature ∧ e.broadener ≠ none

theorem kToMeV_pos : 0 < kToMeV := by unfold kToMeV; norm_num

/-- A constructed object is valid. -/
theorem C49_constructed (b : Option Broadener) (angle : AngleSampler) (awr t : ℝ) (u : Bool) (tar : ℝ) (e : Elastic)
    (h : Elastic.make b angle awr t u tar = .ok e) : ElasticValid e ∧ 0 < e.awr := by
  unfold Elastic.make at h
  split at h
  · cases h
  split at h
  · cases h
  split at h
  · cases h
  split at h
  · cases h
  rename_i h1 h2 h3 h4
  cases h
  refine ⟨⟨not_lt.mp h3, ?_, ?_⟩, not_le.mp h1⟩
  · unfold Elastic.temperature
    have := not_lt.mp h2
    simp only
    positivity
  · intro hc
    simp only at hc
    rw [hc] at h4
    simp at h4

/-- C49, the part that holds for every history, including calls that throw: the broadener is never null and the mass ratio
positive. -/
theorem C49_broadener (e : Elastic) (ops : List ElasticOp) (hb : e.broadener ≠ none) (hA : 0 < e.awr) :
    (e.run ops).broadener ≠ none ∧ 0 < (e.run ops).awr := by
  induction ops generalizing e with
  | nil => exact ⟨hb, hA⟩
  | cons op ops ih =>
    apply ih
    · cases op with
      | setBroadener b => cases b <;> simp_all [Elastic.step]
      | _ => simpa [Elastic.step] using hb
    · cases op with
      | setBroadener b => cases b <;> simpa [Elastic.step] using hA
      | _ => simpa [Elastic.step] using hA

/-- C49, for histories in which no negative temperature or threshold is passed: the object stays valid.  Missing: negative
arguments (`C49_violation_threshold`, `C49_violation_temperature`). -/
theorem C49_valid_partial (e : Elastic) (ops : List ElasticOp) (h : ElasticValid e) (hops : ∀ op ∈ ops, GoodOp op) :
    ElasticValid (e.run ops) := by
  induction ops generalizing e with
  | nil => exact h
  | cons op ops ih =>
    apply ih _ _ (fun o ho => hops o (List.mem_cons_of_mem _ ho))
    have hg := hops op List.mem_cons_self
    obtain ⟨h1, h2, h3⟩ := h
    cases op with
    | setBroadener b =>
      cases b with
      | none => exact ⟨h1, h2, h3⟩
      | some f => exact ⟨h1, h2, by simp [Elastic.step]⟩
    | setTemperature t =>
      refine ⟨h1, ?_, h3⟩
      unfold Elastic.temperature Elastic.step
      have := kToMeV_pos
      have : 0 ≤ t := hg
      simp only
      positivity
    | setUseTar b => exact ⟨h1, h2, h3⟩
    | setTar t => exact ⟨hg, h2, h3⟩

/-- A null broadener is refused without effect. -/
theorem C49_null_refused (e : Elastic) : e.step (.setBroadener none) = (e, true) := rfl

/-- `set_temperature` stores what it is given (up to the unit conversion, which round-trips exactly over the reals). -/
theorem C49_temperature_round_trip (e : Elastic) (t : ℝ) : (e.step (.setTemperature t)).1.temperature = t := by
  unfold Elastic.temperature Elastic.step kToMeV
  simp only
  norm_num
  ring

/-- The full claim is false of the code, for every object: `set_tar_threshold` stores a negative threshold before throwing. -/
theorem C49_violation_threshold (e : Elastic) (t : ℝ) (ht : t < 0) :
    (e.step (.setTar t)).2 = true ∧ (e.step (.setTar t)).1.tar = t ∧ ¬ ElasticValid (e.step (.setTar t)).1 := by
  refine ⟨by simp [Elastic.step, ht], rfl, ?_⟩
  rintro ⟨h, _⟩
  exact absurd h (not_le.mpr ht)

/-- The full claim is false of the code, for every object: `set_temperature` accepts a negative temperature silently. -/
theorem C49_violation_temperature (e : Elastic) (t : ℝ) (ht : t < 0) :
    (e.step (.setTemperature t)).2 = false ∧ ¬ ElasticValid (e.step (.setTemperature t)).1 := by
  refine ⟨rfl, ?_⟩
  rintro ⟨_, h, _⟩
  rw [C49_temperature_round_trip] at h
  linarith

/-- The consequence: after it, sampling with the SVT broadener and without the target-at-rest approximation never returns. -/
theorem C49_violation_hang (angle : AngleSampler) (awr t E tar : ℝ) (hA : 0 < awr) (ht : t < 0) (hE : 0 < E) (fuel : Nat) (ω : Tape)
    (k : Nat) (e : Elastic) (he : e = ⟨angle, awr, 0, false, tar, some (svtSample fuel)⟩) :
    (e.step (.setTemperature t)).1.sample E ω k = .error .diverge := by
  subst he
  have hk := mul_neg_of_neg_of_pos ht kToMeV_pos
  have hneg : awr * E / (t * kToMeV) < 0 := div_neg_of_pos_of_neg (by positivity) hk
  unfold Elastic.sample Elastic.step
  rw [csqrt_ok hE.le]
  simp only [bind, Except.bind, svtSample, rdiv_ok hk.ne, csqrt_bad hneg]
  simp

end PNDL
