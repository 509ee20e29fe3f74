import Verif.Model.FloatKin
import Verif.Lemmas.FloatRel
import Verif.Props.Float
import Verif.Props.Frame
import Verif.Lemmas.STNeutron
import Verif.Props.Rng

/-! C131, C132: kinematics in binary64 arithmetic. -/
namespace PNDL
open Spec

theorem csqrtFl_ok {fl : ℝ → ℝ} {x : ℝ} (h : 0 ≤ x) : csqrtFl fl x = .ok (fl (Real.sqrt x)) := by
  simp [csqrtFl, csqrt_ok h, bind, Except.bind, pure, Except.pure]
theorem rdivFl_ok {fl : ℝ → ℝ} {x y : ℝ} (h : y ≠ 0) : rdivFl fl x y = .ok (fl (x / y)) := by
  simp [rdivFl, rdiv_ok h, bind, Except.bind, pure, Except.pure]

section
variable {fl : ℝ → ℝ} (hfl : IsRoundToNearest fl)
include hfl

/-- The rounded root of the rounded square is not smaller than the number. -/
theorem sqrt_sq_fl {c : ℝ} (hd : IsDouble c) (hc : (2 : ℝ) ^ (-500 : ℤ) ≤ c) : c ≤ fl (Real.sqrt (fl (c * c))) := by
  have hη := eta_pos
  have hsmall : (2 : ℝ) ^ (-1022 : ℤ) ≤ (2 : ℝ) ^ (-500 : ℤ) := zpow_le_zpow_right₀ (by norm_num) (by norm_num)
  obtain ⟨m, e, h1, h2, hcm⟩ := double_normal hd (hsmall.trans hc)
  have hcpos : 0 < c := lt_of_lt_of_le (by positivity) hc
  have hcc : (2 : ℝ) ^ (-1022 : ℤ) ≤ c * c := by
    refine le_trans ?_ (mul_le_mul hc hc (by positivity) hcpos.le)
    rw [← zpow_add₀ (by norm_num)]
    exact zpow_le_zpow_right₀ (by norm_num) (by norm_num)
  by_contra hlt
  rw [not_le] at hlt
  obtain ⟨w, hw⟩ : ∃ w, w = Real.sqrt (fl (c * c)) := ⟨_, rfl⟩
  rw [← hw] at hlt
  have hsq0 : 0 ≤ fl (c * c) := fl_nonneg hfl (mul_nonneg hcpos.le hcpos.le)
  have hww : w * w = fl (c * c) := by rw [hw, Real.mul_self_sqrt hsq0]
  have hw0 : 0 ≤ w := by rw [hw]; exact Real.sqrt_nonneg _
  have hwc : w < c := by
    by_contra hn
    exact absurd (le_fl hfl hd (not_lt.mp hn)) (not_le.mpr hlt)
  have hnear := (near_fl hfl (Or.inr hcc)).2.2.1
  rw [pow_one] at hnear
  have hpe : (0 : ℝ) < 2 ^ e * eta := by positivity
  have hbest := (hfl w).2 c hd
  rw [abs_of_pos (show 0 < c - w by linarith)] at hbest
  have hbest' := (abs_le.mp hbest).1
  rcases eq_or_lt_of_le h1 with hm | hm
  · -- a power of two: the square is exact
    have hexact : fl (c * c) = c * c := by
      refine fl_self hfl ?_
      have he : c = (2 : ℝ) ^ ((52 : ℤ) + e - 1074) := by
        rw [hcm, ← hm]
        unfold eta
        push_cast
        rw [zpow_sub₀ (by norm_num), zpow_add₀ (by norm_num)]
        norm_num
        ring
      have hz : (-500 : ℤ) ≤ 52 + e - 1074 := by
        rw [he] at hc
        exact (zpow_le_zpow_iff_right₀ (by norm_num)).mp hc
      have := isDouble_zpow (m := 1) (by norm_num) (z := (52 + e - 1074) + (52 + e - 1074)) (by omega)
      rw [zpow_add₀ (by norm_num), ← he] at this
      simpa using this
    rw [hexact] at hww
    nlinarith
  · have hstep : fl w ≤ ((m - 1 : ℤ) : ℝ) * 2 ^ e * eta := by
      by_contra hn
      have hno := no_double_between (m := m - 1) (by omega) e (hfl w).1
      refine hno ⟨not_le.mp hn, ?_⟩
      push_cast
      rw [sub_add_cancel, ← hcm]
      exact hlt
    have hwle : w ≤ c - 2 ^ e * eta / 2 := by
      push_cast at hstep
      have : ((m : ℝ) - 1) * 2 ^ e * eta = c - 2 ^ e * eta := by rw [hcm]; ring
      linarith
    have hsq : w * w ≤ (c - 2 ^ e * eta / 2) * (c - 2 ^ e * eta / 2) := mul_self_le_mul_self hw0 hwle
    rw [hww] at hsq
    have h53 : (m : ℝ) ≤ 2 ^ 53 - 1 := by
      have : m ≤ 2 ^ 53 - 1 := by omega
      exact_mod_cast this
    have h52 : (2 : ℝ) ^ 52 ≤ m := by exact_mod_cast h1
    have hce : c = m * (2 ^ e * eta) := by rw [hcm]; ring
    generalize (2 : ℝ) ^ e * eta = g at *
    rw [uround_eq] at hnear
    have key : c * g - g * g / 4 ≤ c * c * (1 / 2 ^ 53) := by nlinarith
    rw [hce] at key
    have key2 : ((m : ℝ) - 1 / 4) * (g * g) ≤ m * m * (1 / 2 ^ 53) * (g * g) := by nlinarith
    have key3 : (m : ℝ) - 1 / 4 ≤ m * m * (1 / 2 ^ 53) := le_of_mul_le_mul_right key2 (mul_pos hpe hpe)
    have key4 : (m : ℝ) * m ≤ m * (2 ^ 53 - 1) := mul_le_mul_of_nonneg_left h53 (by linarith)
    linarith

theorem sqrt_sq_fl_abs {c : ℝ} (hd : IsDouble c) (hc : (2 : ℝ) ^ (-500 : ℤ) ≤ |c|) : |c| ≤ fl (Real.sqrt (fl (c * c))) := by
  have : IsDouble |c| := by
    rcases abs_choice c with h | h <;> rw [h]
    exacts [hd, hd.neg]
  have := sqrt_sq_fl hfl this hc
  rwa [abs_mul_abs_self] at this

theorem mag_ge (v : Vec) (hx : IsDouble v.x) (hy : IsDouble v.y) (hz : IsDouble v.z) :
    ((2 : ℝ) ^ (-500 : ℤ) ≤ |v.x| → |v.x| ≤ v.magFl fl) ∧ ((2 : ℝ) ^ (-500 : ℤ) ≤ |v.y| → |v.y| ≤ v.magFl fl) ∧
    ((2 : ℝ) ^ (-500 : ℤ) ≤ |v.z| → |v.z| ≤ v.magFl fl) := by
  have px := fl_nonneg hfl (mul_self_nonneg v.x)
  have py := fl_nonneg hfl (mul_self_nonneg v.y)
  have pz := fl_nonneg hfl (mul_self_nonneg v.z)
  have a1 : fl (v.x * v.x) ≤ fl (fl (v.x * v.x) + fl (v.y * v.y)) := le_fl hfl (hfl _).1 (by linarith)
  have a2 : fl (v.y * v.y) ≤ fl (fl (v.x * v.x) + fl (v.y * v.y)) := le_fl hfl (hfl _).1 (by linarith)
  have a3 : fl (fl (v.x * v.x) + fl (v.y * v.y)) ≤ fl (fl (fl (v.x * v.x) + fl (v.y * v.y)) + fl (v.z * v.z)) := le_fl hfl (hfl _).1 (by linarith)
  have a4 : fl (v.z * v.z) ≤ fl (fl (fl (v.x * v.x) + fl (v.y * v.y)) + fl (v.z * v.z)) := le_fl hfl (hfl _).1 (by linarith [fl_nonneg hfl (add_nonneg px py)])
  refine ⟨fun h => ?_, fun h => ?_, fun h => ?_⟩
  · exact (sqrt_sq_fl_abs hfl hx h).trans (fl_mono hfl (Real.sqrt_le_sqrt (a1.trans a3)))
  · exact (sqrt_sq_fl_abs hfl hy h).trans (fl_mono hfl (Real.sqrt_le_sqrt (a2.trans a3)))
  · exact (sqrt_sq_fl_abs hfl hz h).trans (fl_mono hfl (Real.sqrt_le_sqrt a4))

/-- If all components are tiny so is the energy. -/
theorem mag_small (v : Vec) (hx : |v.x| < (2 : ℝ) ^ (-500 : ℤ)) (hy : |v.y| < (2 : ℝ) ^ (-500 : ℤ)) (hz : |v.z| < (2 : ℝ) ^ (-500 : ℤ)) :
    fl (v.magFl fl * v.magFl fl) ≤ (2 : ℝ) ^ (-998 : ℤ) := by
  have dbl : ∀ z : ℤ, -1074 ≤ z → IsDouble ((2 : ℝ) ^ z) := fun z hz => by simpa using isDouble_zpow (m := 1) (by norm_num) hz
  have sq : ∀ c : ℝ, |c| < (2 : ℝ) ^ (-500 : ℤ) → fl (c * c) ≤ (2 : ℝ) ^ (-1000 : ℤ) := by
    intro c h
    refine fl_le hfl (dbl _ (by norm_num)) ?_
    rw [← abs_mul_abs_self, show (-1000 : ℤ) = -500 + -500 by norm_num, zpow_add₀ (by norm_num)]
    exact mul_le_mul h.le h.le (abs_nonneg c) (by positivity)
  have two : ∀ z : ℤ, (2 : ℝ) ^ z + (2 : ℝ) ^ z = (2 : ℝ) ^ (z + 1) := by
    intro z
    rw [zpow_add₀ (by norm_num)]
    norm_num
    ring
  have s1 : fl (fl (v.x * v.x) + fl (v.y * v.y)) ≤ (2 : ℝ) ^ (-999 : ℤ) := by
    refine fl_le hfl (dbl _ (by norm_num)) ?_
    have := two (-1000)
    norm_num only at this
    rw [← this]
    exact add_le_add (sq _ hx) (sq _ hy)
  have s2 : fl (fl (fl (v.x * v.x) + fl (v.y * v.y)) + fl (v.z * v.z)) ≤ (2 : ℝ) ^ (-998 : ℤ) := by
    refine fl_le hfl (dbl _ (by norm_num)) ?_
    have := two (-999)
    norm_num only at this
    rw [← this]
    refine add_le_add s1 ((sq _ hz).trans (zpow_le_zpow_right₀ (by norm_num) (by norm_num)))
  have s3 : v.magFl fl ≤ (2 : ℝ) ^ (-499 : ℤ) := by
    refine fl_le hfl (dbl _ (by norm_num)) ?_
    rw [Real.sqrt_le_left (by positivity), pow_two, ← zpow_add₀ (by norm_num)]
    exact s2
  have s0 : 0 ≤ v.magFl fl := fl_nonneg hfl (Real.sqrt_nonneg _)
  refine fl_le hfl (dbl _ (by norm_num)) ?_
  rw [show (-998 : ℤ) = -499 + -499 by norm_num, zpow_add₀ (by norm_num)]
  exact mul_le_mul s3 s3 s0 (by positivity)

/-- **C131** Elastic scattering in binary64 arithmetic: whatever the incident energy, the target velocity, the cosine in the centre of mass, the random number, the
rounding, and whatever `cos` and `sin` return, if a result is returned its energy is not negative, and unless this energy is below `2^-998` (`10^-300` MeV)
its cosine is in `[-1, 1]`.  Missing: collisions in which the neutron is stopped, see `C131_violation`. -/
theorem C131_cosine_partial (fcos fsin : ℝ → ℝ) (tau tol awr E : ℝ) (vt : Vec) (muCm xi mu E' : ℝ)
    (h : elasticFl fl fcos fsin tau tol awr E vt muCm xi = .ok (mu, E')) :
    IsDouble mu ∧ IsDouble E' ∧ 0 ≤ E' ∧ ((2 : ℝ) ^ (-998 : ℤ) < E' → -1 ≤ mu ∧ mu ≤ 1) := by
  unfold elasticFl at h
  obtain ⟨s, _, h⟩ := bind_ok h
  obtain ⟨vcm, _, h⟩ := bind_ok h
  obtain ⟨Un, _, h⟩ := bind_ok h
  obtain ⟨d, _, h⟩ := bind_ok h
  obtain ⟨uo, hu, h⟩ := bind_ok h
  obtain ⟨v, hv⟩ : ∃ v, v = (Vec.addFl fl (d.smulFl fl ((Vec.subFl fl ((Vec.mk 0 0 1).smulFl fl s) vcm).magFl fl)) vcm) := ⟨_, rfl⟩
  rw [← hv] at h hu
  have dx : IsDouble v.x := by rw [hv]; exact (hfl _).1
  have dy : IsDouble v.y := by rw [hv]; exact (hfl _).1
  have dz : IsDouble v.z := by rw [hv]; exact (hfl _).1
  cases h
  refine ⟨(hfl _).1, (hfl _).1, fl_nonneg hfl (mul_self_nonneg _), fun hE => ?_⟩
  have hzm : |v.z| ≤ v.magFl fl ∧ 0 < v.magFl fl := by
    obtain ⟨g1, g2, g3⟩ := mag_ge hfl v dx dy dz
    have hp : (0 : ℝ) < (2 : ℝ) ^ (-500 : ℤ) := by positivity
    have hex : (2 : ℝ) ^ (-500 : ℤ) ≤ v.magFl fl := by
      by_contra hn
      rw [not_le] at hn
      have b1 : |v.x| < (2 : ℝ) ^ (-500 : ℤ) := by
        by_contra hc
        exact absurd ((not_lt.mp hc).trans (g1 (not_lt.mp hc))) (not_le.mpr hn)
      have b2 : |v.y| < (2 : ℝ) ^ (-500 : ℤ) := by
        by_contra hc
        exact absurd ((not_lt.mp hc).trans (g2 (not_lt.mp hc))) (not_le.mpr hn)
      have b3 : |v.z| < (2 : ℝ) ^ (-500 : ℤ) := by
        by_contra hc
        exact absurd ((not_lt.mp hc).trans (g3 (not_lt.mp hc))) (not_le.mpr hn)
      exact absurd (mag_small hfl v b1 b2 b3) (not_le.mpr hE)
    refine ⟨?_, lt_of_lt_of_le hp hex⟩
    rcases le_or_gt ((2 : ℝ) ^ (-500 : ℤ)) |v.z| with hc | hc
    · exact g3 hc
    · exact hc.le.trans hex
  unfold Vec.sdivFl at hu
  rw [rdivFl_ok hzm.2.ne', rdivFl_ok hzm.2.ne', rdivFl_ok hzm.2.ne'] at hu
  cases hu
  have hm1 : IsDouble (-1 : ℝ) := isDouble_one.neg
  have hz1 : |v.z / v.magFl fl| ≤ 1 := by
    rw [abs_div, abs_of_pos hzm.2, div_le_one hzm.2]
    exact hzm.1
  have h2 := le_fl hfl hm1 (abs_le.mp hz1).1
  have h3 := fl_le hfl isDouble_one (abs_le.mp hz1).2
  have hz0 : fl (0 : ℝ) = 0 := fl_self hfl isDouble_zero
  have hfin : Vec.dotFl fl ⟨0, 0, 1⟩ ⟨fl (v.x / v.magFl fl), fl (v.y / v.magFl fl), fl (v.z / v.magFl fl)⟩ = fl (v.z / v.magFl fl) := by
    simp only [Vec.dotFl, zero_mul, one_mul, hz0, add_zero, zero_add]
    rw [fl_self hfl (hfl _).1, fl_self hfl (hfl _).1]
  rw [hfin]
  exact ⟨h2, h3⟩

/-- The code does not have C131 for every collision: a neutron of 4 MeV that is scattered straight back in the centre of mass by a proton at rest stops, and the
cosine is `0/0`, whatever the rounding, `cos` and `sin`. -/
theorem C131_violation (fcos fsin : ℝ → ℝ) (tau tol xi : ℝ) (htol : 0 ≤ tol) :
    elasticFl fl fcos fsin tau tol 1 4 ⟨0, 0, 0⟩ (-1) xi = .error .nonfinite := by
  have h0 : fl (0 : ℝ) = 0 := fl_self hfl isDouble_zero
  have h1 : fl (1 : ℝ) = 1 := fl_self hfl isDouble_one
  have h1' : fl (-1 : ℝ) = -1 := fl_self hfl isDouble_one.neg
  have h2 : fl (2 : ℝ) = 2 := by simpa using fl_self hfl (isDouble_nat (n := 2) (by norm_num))
  have hs : Real.sqrt 4 = 2 := by rw [show (4 : ℝ) = 2 ^ 2 by norm_num, Real.sqrt_sq (by norm_num)]
  unfold elasticFl
  rw [csqrtFl_ok (by norm_num), hs]
  have e2 : (1 : ℝ) + 1 = 2 := by norm_num
  have e3 : (2 : ℝ) - 1 = 1 := by norm_num
  have e4 : (2 : ℝ) / 2 = 1 := by norm_num
  have e5 : (-1 : ℝ) + 1 = 0 := by norm_num
  simp only [bind, Except.bind, pure, Except.pure, Vec.smulFl, Vec.addFl, Vec.subFl, Vec.sdivFl, Vec.magFl, zero_mul, one_mul, mul_one, mul_zero, add_zero,
    zero_add, h0, h1, h2, e2]
  rw [rdivFl_ok (by norm_num), rdivFl_ok (by norm_num)]
  simp only [zero_div, h0, e4, h1, sub_zero, e3, mul_one, mul_zero, add_zero, zero_add, Real.sqrt_one]
  rw [rdivFl_ok (by norm_num), rdivFl_ok (by norm_num)]
  simp only [zero_div, div_one, h0, h1, Vec.rotateFl, bind, Except.bind, pure, Except.pure]
  rw [if_neg (show ¬ ((-1 : ℝ) < -1) by norm_num), if_neg (show ¬ ((-1 : ℝ) > 1) by norm_num)]
  rw [show (-1 : ℝ) * -1 = 1 by norm_num, mul_one, h1, sub_self, h0, csqrtFl_ok le_rfl, Real.sqrt_zero, h0]
  simp only [abs_zero, mul_zero, zero_mul, h0, sub_zero, h1]
  rw [if_neg (not_lt.mpr htol), csqrtFl_ok (by norm_num), Real.sqrt_one, h1]
  simp only
  rw [rdivFl_ok (by norm_num)]
  simp only [zero_div, h0, one_mul, h1', add_zero, mul_one, sub_zero, e5, mul_zero, Real.sqrt_zero, neg_mul]
  simp [rdivFl, rdiv_zero, bind, Except.bind]

/-! ### The change of frame -/

theorem fl_round {m : ℤ} {z : ℤ} (h1 : 2 ^ 52 < m) (h2 : m < 2 ^ 53) (hz : -1074 ≤ z) {r : ℝ} (h : |r - m * (2 : ℝ) ^ z| < (2 : ℝ) ^ z / 2) :
    fl r = m * (2 : ℝ) ^ z := by
  obtain ⟨e, he⟩ : ∃ e : ℕ, z = e + (-1074 : ℤ) := ⟨(z + 1074).toNat, by omega⟩
  have hg : (2 : ℝ) ^ z = 2 ^ e * eta := by
    unfold eta
    rw [← zpow_natCast, ← zpow_add₀ (by norm_num), ← he]
  rw [hg] at h ⊢
  have hpe : (0 : ℝ) < 2 ^ e * eta := mul_pos (by positivity) eta_pos
  have hd : IsDouble (m * (2 ^ e * eta)) := by
    rw [← mul_assoc]
    exact isDouble_scaled (by rw [abs_of_pos (by omega)]; omega) e
  have hb := (hfl r).2 _ hd
  rw [abs_sub_comm (_ * _) r] at hb
  have hdiff : |fl r - m * (2 ^ e * eta)| < 2 ^ e * eta := by
    have := abs_sub_le (fl r) r (m * (2 ^ e * eta))
    linarith
  rw [abs_lt] at hdiff
  have n1 := no_double_between (m := m - 1) (by omega) e (hfl r).1
  have n2 := no_double_between (m := m) (by omega) e (hfl r).1
  push_cast at n1
  rw [sub_add_cancel] at n1
  rcases lt_trichotomy (fl r) (m * (2 ^ e * eta)) with hlt | heq | hgt
  · exact absurd ⟨by linarith [hdiff.1], by linarith⟩ n1
  · exact heq
  · exact absurd ⟨by linarith, by linarith [hdiff.2]⟩ n2

theorem fl_sqrt_round {m : ℤ} {z : ℤ} (h1 : 2 ^ 52 < m) (h2 : m < 2 ^ 53) (hz : -1074 ≤ z) {r : ℝ} (h0 : 0 ≤ r)
    (ha : ((m : ℝ) - 1 / 2) ^ 2 * ((2 : ℝ) ^ z) ^ 2 < r) (hb : r < ((m : ℝ) + 1 / 2) ^ 2 * ((2 : ℝ) ^ z) ^ 2) : fl (Real.sqrt r) = m * (2 : ℝ) ^ z := by
  refine fl_round hfl h1 h2 hz ?_
  have hm : (2 : ℝ) ^ 52 < m := by exact_mod_cast h1
  have hg : (0 : ℝ) < (2 : ℝ) ^ z := by positivity
  rw [← mul_pow] at ha hb
  have a1 := (Real.lt_sqrt (mul_nonneg (by linarith) hg.le)).mpr ha
  have a2 := (Real.sqrt_lt' (mul_pos (by linarith) hg)).mpr hb
  rw [abs_lt]
  constructor <;> linarith

/-- **C132** The change from the centre of mass to the laboratory in binary64 arithmetic, for emission in the forward half space of the centre of mass: the
computed energy is positive and both the energy and the cosine differ from what exact arithmetic gives by at most `2^-49` of it; so the cosine is at most
`1 + 2^-49`.  Missing: `cosine ≤ 1`, see `C132_violation_cosine`, and backward emission, see `C132_violation_energy`. -/
theorem C132_forward_partial (Ein A mu Eout : ℝ) (dEin : IsDouble Ein) (dA : IsDouble A) (dmu : IsDouble mu) (dE : IsDouble Eout)
    (hEin : (2 : ℝ) ^ (-200 : ℤ) ≤ Ein) (hEin2 : Ein ≤ (2 : ℝ) ^ (200 : ℤ)) (hE : (2 : ℝ) ^ (-200 : ℤ) ≤ Eout) (hE2 : Eout ≤ (2 : ℝ) ^ (200 : ℤ))
    (hA : 0 ≤ A) (hA2 : A ≤ (2 : ℝ) ^ (100 : ℤ)) (hmu : mu = 0 ∨ (2 : ℝ) ^ (-200 : ℤ) ≤ mu) (hmu1 : mu ≤ 1) :
    ∃ mu' L' mL L, cmToLabFl fl Ein A mu Eout = .ok (mu', L') ∧ cmToLab Ein A mu Eout = .ok (mL, L) ∧ 0 < L' ∧ 0 ≤ mu' ∧
      |L' - L| ≤ (2 : ℝ) ^ (-49 : ℤ) * L ∧ |mu' - mL| ≤ (2 : ℝ) ^ (-49 : ℤ) * mL ∧ mu' ≤ 1 + (2 : ℝ) ^ (-49 : ℤ) := by
  have small : ∀ z : ℤ, -1022 ≤ z → (2 : ℝ) ^ (-1022 : ℤ) ≤ (2 : ℝ) ^ z := fun z h => zpow_le_zpow_right₀ (by norm_num) h
  have half : ∀ z : ℤ, (2 : ℝ) ^ z / 2 = (2 : ℝ) ^ (z - 1) := fun z => by rw [zpow_sub₀ (by norm_num)]; norm_num
  have pEin : 0 < Ein := lt_of_lt_of_le (by positivity) hEin
  have pE : 0 < Eout := lt_of_lt_of_le (by positivity) hE
  have pmu : 0 ≤ mu := by
    rcases hmu with h | h
    · exact h.ge
    · exact le_trans (by positivity) h
  have ddouble : ∀ r, IsDouble (fl r) := fun r => (hfl r).1
  -- the mass factor
  have nM : Near 1 (A + 1) (fl (A + 1)) := near_add hfl dA isDouble_one (by linarith)
  have M1 : 1 ≤ fl (A + 1) := le_fl hfl isDouble_one (by linarith)
  have M2 : A + 1 ≤ (2 : ℝ) ^ (101 : ℤ) := by
    have h1 : (2 : ℝ) ^ (101 : ℤ) = (2 : ℝ) ^ (100 : ℤ) + (2 : ℝ) ^ (100 : ℤ) := by norm_num
    have h2 : (1 : ℝ) ≤ (2 : ℝ) ^ (100 : ℤ) := by norm_num
    linarith
  have pM : 0 < A + 1 := by linarith
  -- the root of the product of the energies
  have hP : (2 : ℝ) ^ (-400 : ℤ) ≤ Ein * Eout := by
    rw [show (-400 : ℤ) = -200 + -200 by norm_num, zpow_add₀ (by norm_num)]
    exact mul_le_mul hEin hE (by positivity) pEin.le
  have pP : 0 < Ein * Eout := mul_pos pEin pE
  have nP := near_fl hfl (Or.inr ((small (-400) (by norm_num)).trans hP))
  have pP' := nP.pos pP
  have nS0 : Near 1 (Real.sqrt (Ein * Eout)) (Real.sqrt (fl (Ein * Eout))) := Near.sqrt (nP.mono (by norm_num))
  have hS : (2 : ℝ) ^ (-200 : ℤ) ≤ Real.sqrt (Ein * Eout) := by
    apply Real.le_sqrt_of_sq_le
    rw [pow_two, ← zpow_add₀ (by norm_num)]
    exact hP
  have hS' := nS0.half_le (by norm_num) hS
  rw [half] at hS'
  have nS := nS0.trans (near_fl hfl (Or.inr ((small _ (by norm_num)).trans hS')))
  -- the cross term
  have e2mu : fl (2 * mu) = 2 * mu := by
    refine fl_self hfl ?_
    obtain ⟨m, e, hm, rfl⟩ := dmu
    exact ⟨m, e + 1, hm, by ring⟩
  have tz : ∀ (c : ℝ), 1 / 2 ≤ c → ∀ x, (x = 0 ∨ (2 : ℝ) ^ (-300 : ℤ) ≤ x) → x * c = 0 ∨ (2 : ℝ) ^ (-1022 : ℤ) ≤ x * c := by
    intro c hc x hx
    rcases hx with rfl | hx
    · left; ring
    · right
      have h1 : (2 : ℝ) ^ (-300 : ℤ) * (1 / 2) ≤ x * c := mul_le_mul hx hc (by norm_num) (le_trans (by positivity) hx)
      refine le_trans ?_ h1
      rw [show (1 / 2 : ℝ) = (2 : ℝ) ^ (-1 : ℤ) by norm_num, ← zpow_add₀ (by norm_num)]
      exact small _ (by norm_num)
  have h2mu : 2 * mu = 0 ∨ (2 : ℝ) ^ (-200 : ℤ) ≤ 2 * mu := by
    rcases hmu with h | h
    · left; rw [h]; ring
    · right; linarith
  have h2mu300 : 2 * mu = 0 ∨ (2 : ℝ) ^ (-300 : ℤ) ≤ 2 * mu := h2mu.imp id fun h => le_trans (zpow_le_zpow_right₀ (by norm_num) (by norm_num)) h
  have nT1 : Near 2 (2 * mu * (A + 1)) (fl (2 * mu * fl (A + 1))) :=
    ((Near.refl (by linarith)).mul nM).trans (near_fl hfl (tz _ (by linarith) _ h2mu300))
  have hT1 : fl (2 * mu * fl (A + 1)) = 0 ∨ (2 : ℝ) ^ (-201 : ℤ) ≤ fl (2 * mu * fl (A + 1)) := by
    rcases h2mu with h | h
    · left; rw [h, zero_mul]; exact fl_self hfl isDouble_zero
    · right
      have h1 : (2 : ℝ) ^ (-200 : ℤ) ≤ 2 * mu * (A + 1) := h.trans (le_mul_of_one_le_right (by linarith) (by linarith))
      have := nT1.half_le (by norm_num) h1
      rwa [half] at this
  have nT0 := nT1.mul nS
  have hT : fl (2 * mu * fl (A + 1)) * fl (Real.sqrt (fl (Ein * Eout))) = 0 ∨
      (2 : ℝ) ^ (-1022 : ℤ) ≤ fl (2 * mu * fl (A + 1)) * fl (Real.sqrt (fl (Ein * Eout))) := by
    rcases hT1 with h | h
    · left; rw [h, zero_mul]
    · right
      have h1 := nS.half_le (by norm_num) hS
      rw [half] at h1
      have := mul_le_mul h h1 (by positivity) (le_trans (by positivity) h)
      rw [← zpow_add₀ (by norm_num)] at this
      exact (small _ (by norm_num)).trans this
  have nT := nT0.trans (near_fl hfl hT)
  have hTpos : 0 ≤ 2 * mu * (A + 1) * Real.sqrt (Ein * Eout) := mul_nonneg (mul_nonneg (by linarith) pM.le) (Real.sqrt_nonneg _)
  have nN0 : Near 6 (Ein + 2 * mu * (A + 1) * Real.sqrt (Ein * Eout)) (Ein + fl (fl (2 * mu * fl (A + 1)) * fl (Real.sqrt (fl (Ein * Eout))))) :=
    ((Near.refl pEin.le).mono (by norm_num)).add (nT.mono (by norm_num))
  have nN := nN0.trans (near_add hfl dEin (ddouble _) nN0.2.1)
  -- the quotient
  have hMM : (2 : ℝ) ^ (-1022 : ℤ) ≤ fl (A + 1) * fl (A + 1) := by
    have : (1 : ℝ) ≤ fl (A + 1) * fl (A + 1) := one_le_mul_of_one_le_of_one_le M1 M1
    have h1 := small 0 (by norm_num)
    rw [zpow_zero] at h1
    linarith
  have nMM := (nM.mul nM).trans (near_fl hfl (Or.inr hMM))
  have pMM : 0 < (A + 1) * (A + 1) := mul_pos pM pM
  have nQ0 := nN.div nMM pMM
  have hQex : (2 : ℝ) ^ (-402 : ℤ) ≤ (Ein + 2 * mu * (A + 1) * Real.sqrt (Ein * Eout)) / ((A + 1) * (A + 1)) := by
    rw [le_div_iff₀ pMM]
    have h1 : (A + 1) * (A + 1) ≤ (2 : ℝ) ^ (101 : ℤ) * (2 : ℝ) ^ (101 : ℤ) := mul_le_mul M2 M2 pM.le (by positivity)
    have h2 : (2 : ℝ) ^ (-402 : ℤ) * ((A + 1) * (A + 1)) ≤ (2 : ℝ) ^ (-402 : ℤ) * ((2 : ℝ) ^ (101 : ℤ) * (2 : ℝ) ^ (101 : ℤ)) := mul_le_mul_of_nonneg_left h1 (by positivity)
    rw [← zpow_add₀ (by norm_num), ← zpow_add₀ (by norm_num), show (-402 + (101 + 101) : ℤ) = -200 by norm_num] at h2
    linarith
  have hQ' := nQ0.half_le (by norm_num) hQex
  rw [half] at hQ'
  have nQ := nQ0.trans (near_fl hfl (Or.inr ((small _ (by norm_num)).trans hQ')))
  -- the energy
  have nL0 := ((Near.refl pE.le).mono (show 0 ≤ 11 by norm_num)).add (nQ.mono (show _ ≤ 11 by norm_num))
  have nL := nL0.trans (near_add hfl dE (ddouble _) nL0.2.1)
  have pQ : 0 < (Ein + 2 * mu * (A + 1) * Real.sqrt (Ein * Eout)) / ((A + 1) * (A + 1)) := lt_of_lt_of_le (by positivity) hQex
  have pL : 0 < Eout + (Ein + 2 * mu * (A + 1) * Real.sqrt (Ein * Eout)) / ((A + 1) * (A + 1)) := by linarith
  have pL' := nL.pos pL
  have hL2 : Eout + (Ein + 2 * mu * (A + 1) * Real.sqrt (Ein * Eout)) / ((A + 1) * (A + 1)) ≤ (2 : ℝ) ^ (203 : ℤ) := by
    have h1 : Real.sqrt (Ein * Eout) ≤ (2 : ℝ) ^ (200 : ℤ) := by
      rw [Real.sqrt_le_left (by positivity), pow_two]
      exact mul_le_mul hEin2 hE2 pE.le (by positivity)
    have h2 : (Ein + 2 * mu * (A + 1) * Real.sqrt (Ein * Eout)) / ((A + 1) * (A + 1)) ≤ Ein + 2 * Real.sqrt (Ein * Eout) := by
      rw [div_le_iff₀ pMM]
      have hs0 := Real.sqrt_nonneg (Ein * Eout)
      have k1 : 1 ≤ (A + 1) * (A + 1) := one_le_mul_of_one_le_of_one_le (by linarith) (by linarith)
      have k2 : Ein ≤ Ein * ((A + 1) * (A + 1)) := le_mul_of_one_le_right pEin.le k1
      have k3 : mu * (A + 1) ≤ (A + 1) * (A + 1) := mul_le_mul_of_nonneg_right (by linarith) pM.le
      have k4 := mul_le_mul_of_nonneg_right k3 hs0
      nlinarith
    have h3 : (2 : ℝ) ^ (203 : ℤ) = 8 * (2 : ℝ) ^ (200 : ℤ) := by norm_num
    linarith
  generalize hLx : Eout + (Ein + 2 * mu * (A + 1) * Real.sqrt (Ein * Eout)) / ((A + 1) * (A + 1)) = L at *
  generalize hLc : fl (Eout + fl (fl (Ein + fl (fl (2 * mu * fl (A + 1)) * fl (Real.sqrt (fl (Ein * Eout))))) / fl (fl (A + 1) * fl (A + 1)))) = L' at *
  have nL12 : Near 12 L L' := nL.mono (by norm_num)
  -- the roots of the ratios
  have ratio : ∀ x, IsDouble x → (2 : ℝ) ^ (-200 : ℤ) ≤ x → Near 8 (Real.sqrt (x / L)) (fl (Real.sqrt (fl (x / L')))) ∧ 0 ≤ fl (x / L') ∧
      (2 : ℝ) ^ (-202 : ℤ) ≤ Real.sqrt (x / L) := by
    intro x _ hx
    have px : 0 < x := lt_of_lt_of_le (by positivity) hx
    have n0 := (Near.refl px.le).div nL12 pL
    have hex : (2 : ℝ) ^ (-403 : ℤ) ≤ x / L := by
      rw [le_div_iff₀ pL]
      have h2 : (2 : ℝ) ^ (-403 : ℤ) * L ≤ (2 : ℝ) ^ (-403 : ℤ) * (2 : ℝ) ^ (203 : ℤ) := mul_le_mul_of_nonneg_left hL2 (by positivity)
      rw [← zpow_add₀ (by norm_num), show (-403 + 203 : ℤ) = -200 by norm_num] at h2
      exact h2.trans hx
    have h1 := n0.half_le (by norm_num) hex
    rw [half] at h1
    have n1 := n0.trans (near_fl hfl (Or.inr ((small _ (by norm_num)).trans h1)))
    have n2 : Near 7 (Real.sqrt (x / L)) (Real.sqrt (fl (x / L'))) := Near.sqrt (n1.mono (by norm_num))
    have hsq : (2 : ℝ) ^ (-202 : ℤ) ≤ Real.sqrt (x / L) := by
      apply Real.le_sqrt_of_sq_le
      rw [pow_two, ← zpow_add₀ (by norm_num)]
      exact le_trans (zpow_le_zpow_right₀ (by norm_num) (by norm_num)) hex
    have h3 := n2.half_le (by norm_num) hsq
    rw [half] at h3
    exact ⟨n2.trans (near_fl hfl (Or.inr ((small _ (by norm_num)).trans h3))), n1.2.1, hsq⟩
  obtain ⟨nR1, pR1, qR1⟩ := ratio Eout dE hE
  obtain ⟨nR2, pR2, qR2⟩ := ratio Ein dEin hEin
  -- the cosine
  have nC1 : Near 9 (mu * Real.sqrt (Eout / L)) (fl (mu * fl (Real.sqrt (fl (Eout / L'))))) := by
    have n0 := (Near.refl pmu).mul nR1
    refine (n0.trans (near_fl hfl ?_)).mono (by norm_num)
    rcases hmu with h | h
    · left; rw [h, zero_mul]
    · right
      have h1 := nR1.half_le (by norm_num) qR1
      rw [half] at h1
      have := mul_le_mul h h1 (by positivity) pmu
      rw [← zpow_add₀ (by norm_num)] at this
      exact (small _ (by norm_num)).trans this
  have hI : (2 : ℝ) ^ (-102 : ℤ) ≤ 1 / (A + 1) := by
    rw [le_div_iff₀ pM]
    have h2 := mul_le_mul_of_nonneg_left M2 (show (0 : ℝ) ≤ (2 : ℝ) ^ (-102 : ℤ) by positivity)
    rw [← zpow_add₀ (by norm_num)] at h2
    norm_num at h2 ⊢
    linarith
  have nI0 := (Near.refl (show (0 : ℝ) ≤ 1 by norm_num)).div nM pM
  have hI' := nI0.half_le (by norm_num) hI
  rw [half] at hI'
  have nI := nI0.trans (near_fl hfl (Or.inr ((small _ (by norm_num)).trans hI')))
  have nC2 : Near 11 (1 / (A + 1) * Real.sqrt (Ein / L)) (fl (fl (1 / fl (A + 1)) * fl (Real.sqrt (fl (Ein / L'))))) := by
    refine ((nI.mul nR2).trans (near_fl hfl (Or.inr ?_))).mono (by norm_num)
    have h1 := nR2.half_le (by norm_num) qR2
    have h2 := nI.half_le (by norm_num) hI
    rw [half] at h1 h2
    have := mul_le_mul h2 h1 (by positivity) (le_trans (by positivity) h2)
    rw [← zpow_add₀ (by norm_num)] at this
    exact (small _ (by norm_num)).trans this
  have nC0 := (nC1.mono (show 9 ≤ 11 by norm_num)).add nC2
  have nC := nC0.trans (near_add hfl (ddouble _) (ddouble _) nC0.2.1)
  -- assembling
  have hex : cmToLab Ein A mu Eout = .ok (mu * Real.sqrt (Eout / L) + 1 / (A + 1) * Real.sqrt (Ein / L), L) := by
    unfold cmToLab
    rw [csqrt_ok pP.le]
    simp only [bind, Except.bind, pure, Except.pure]
    rw [rdiv_ok (by positivity)]
    simp only
    rw [show (A + 1) ^ 2 = (A + 1) * (A + 1) by ring, hLx, rdiv_ok pL.ne', rdiv_ok pM.ne', rdiv_ok pL.ne']
    simp only
    rw [csqrt_ok (div_pos pE pL).le]
    simp only
    rw [csqrt_ok (div_pos pEin pL).le]
  have hcos := C45_cosine Ein A mu Eout _ _ pEin.le (by linarith) pE (by linarith) hmu1 hex
  have pM' : fl (A + 1) ≠ 0 := by linarith
  have pMM' : fl (fl (A + 1) * fl (A + 1)) ≠ 0 := (nMM.pos pMM).ne'
  have errC := nC.error (by norm_num)
  refine ⟨_, L', _, L, ?_, hex, pL', nC.2.1, nL12.error (by norm_num), errC, ?_⟩
  · unfold cmToLabFl
    rw [csqrtFl_ok pP'.le]
    simp only [bind, Except.bind, pure, Except.pure, e2mu]
    rw [rdivFl_ok pMM']
    simp only
    rw [hLc, rdivFl_ok pL'.ne', rdivFl_ok pM', rdivFl_ok pL'.ne']
    simp only
    rw [csqrtFl_ok pR1]
    simp only
    rw [csqrtFl_ok pR2]
  · have h1 := (abs_le.mp errC).2
    have h2 := mul_le_mul_of_nonneg_left hcos.2.1 (show (0 : ℝ) ≤ (2 : ℝ) ^ (-49 : ℤ) by positivity)
    linarith [hcos.2.1]

/-- The code does not keep the cosine at most 1: at 20 MeV on a target of atomic weight ratio 15, a neutron emitted straight ahead with 29 MeV in the centre of mass
gets the cosine `1 + 2^-52` in the laboratory, whatever the rule for ties. -/
theorem C132_violation_cosine : ∃ L, cmToLabFl fl 20 15 1 29 = .ok (1 + (2 : ℝ) ^ (-52 : ℤ), L) := by
  have int : ∀ n : ℕ, n ≤ 2 ^ 53 → fl (n : ℝ) = n := fun n h => fl_self hfl (isDouble_nat h)
  have d : ∀ (m : ℤ) (z : ℤ), |m| ≤ 2 ^ 53 → -1074 ≤ z → fl (m * (2 : ℝ) ^ z) = m * (2 : ℝ) ^ z := fun m z h1 h2 => fl_self hfl (isDouble_zpow h1 h2)
  have f1 : fl (15 + 1) = 16 := by rw [show (15 + 1 : ℝ) = (16 : ℕ) by norm_num, int _ (by norm_num)]; norm_num
  have f2 : fl (20 * 29) = 580 := by rw [show (20 * 29 : ℝ) = (580 : ℕ) by norm_num, int _ (by norm_num)]; norm_num
  have f3 : fl (2 * 1) = 2 := by rw [show (2 * 1 : ℝ) = (2 : ℕ) by norm_num, int _ (by norm_num)]; norm_num
  have f4 : fl (2 * 16) = 32 := by rw [show (2 * 16 : ℝ) = (32 : ℕ) by norm_num, int _ (by norm_num)]; norm_num
  have f5 : fl (16 * 16) = 256 := by rw [show (16 * 16 : ℝ) = (256 : ℕ) by norm_num, int _ (by norm_num)]; norm_num
  have s0 : fl (Real.sqrt 580) = 6778815107249446 * (2 : ℝ) ^ (-48 : ℤ) := by
    have := fl_sqrt_round hfl (m := 6778815107249446) (z := -48) (by norm_num) (by norm_num) (by norm_num) (r := 580) (by norm_num) (by norm_num) (by norm_num)
    exact_mod_cast this
  have f6 : fl (32 * (6778815107249446 * (2 : ℝ) ^ (-48 : ℤ))) = 6778815107249446 * (2 : ℝ) ^ (-43 : ℤ) := by
    have := d 6778815107249446 (-43) (by norm_num) (by norm_num)
    rw [show (32 * (6778815107249446 * (2 : ℝ) ^ (-48 : ℤ))) = ((6778815107249446 : ℤ) : ℝ) * (2 : ℝ) ^ (-43 : ℤ) by norm_num, this]
    norm_num
  have f7 : fl (20 + 6778815107249446 * (2 : ℝ) ^ (-43 : ℤ)) = 6954736967693606 * (2 : ℝ) ^ (-43 : ℤ) := by
    have := d 6954736967693606 (-43) (by norm_num) (by norm_num)
    rw [show (20 + 6778815107249446 * (2 : ℝ) ^ (-43 : ℤ)) = ((6954736967693606 : ℤ) : ℝ) * (2 : ℝ) ^ (-43 : ℤ) by norm_num, this]
    norm_num
  have f8 : fl (6954736967693606 * (2 : ℝ) ^ (-43 : ℤ) / 256) = 6954736967693606 * (2 : ℝ) ^ (-51 : ℤ) := by
    have := d 6954736967693606 (-51) (by norm_num) (by norm_num)
    rw [show (6954736967693606 * (2 : ℝ) ^ (-43 : ℤ) / 256) = ((6954736967693606 : ℤ) : ℝ) * (2 : ℝ) ^ (-51 : ℤ) by norm_num, this]
    norm_num
  have f9 : fl (29 + 6954736967693606 * (2 : ℝ) ^ (-51 : ℤ)) = 4516058222785362 * (2 : ℝ) ^ (-47 : ℤ) := by
    have := fl_round hfl (m := 4516058222785362) (z := -47) (by norm_num) (by norm_num) (by norm_num) (r := 29 + 6954736967693606 * (2 : ℝ) ^ (-51 : ℤ))
      (by rw [abs_lt]; norm_num)
    exact_mod_cast this
  have f10 : fl (29 / (4516058222785362 * (2 : ℝ) ^ (-47 : ℤ))) = 8140255415915585 * (2 : ℝ) ^ (-53 : ℤ) := by
    have := fl_round hfl (m := 8140255415915585) (z := -53) (by norm_num) (by norm_num) (by norm_num) (r := 29 / (4516058222785362 * (2 : ℝ) ^ (-47 : ℤ)))
      (by rw [abs_lt]; norm_num)
    exact_mod_cast this
  have f11 : fl (20 / (4516058222785362 * (2 : ℝ) ^ (-47 : ℤ))) = 5613969252355576 * (2 : ℝ) ^ (-53 : ℤ) := by
    have := fl_round hfl (m := 5613969252355576) (z := -53) (by norm_num) (by norm_num) (by norm_num) (r := 20 / (4516058222785362 * (2 : ℝ) ^ (-47 : ℤ)))
      (by rw [abs_lt]; norm_num)
    exact_mod_cast this
  have s1 : fl (Real.sqrt (8140255415915585 * (2 : ℝ) ^ (-53 : ℤ))) = 8562762551632282 * (2 : ℝ) ^ (-53 : ℤ) := by
    have := fl_sqrt_round hfl (m := 8562762551632282) (z := -53) (by norm_num) (by norm_num) (by norm_num) (r := 8140255415915585 * (2 : ℝ) ^ (-53 : ℤ)) (by positivity) (by norm_num) (by norm_num)
    exact_mod_cast this
  have s2 : fl (Real.sqrt (5613969252355576 * (2 : ℝ) ^ (-53 : ℤ))) = 7110987249739377 * (2 : ℝ) ^ (-53 : ℤ) := by
    have := fl_sqrt_round hfl (m := 7110987249739377) (z := -53) (by norm_num) (by norm_num) (by norm_num) (r := 5613969252355576 * (2 : ℝ) ^ (-53 : ℤ)) (by positivity) (by norm_num) (by norm_num)
    exact_mod_cast this
  have f12 : fl (1 / 16) = 1 / 16 := by
    have := d 1 (-4) (by norm_num) (by norm_num)
    norm_num at this ⊢
    exact this
  have f13 : fl (1 * (8562762551632282 * (2 : ℝ) ^ (-53 : ℤ))) = 8562762551632282 * (2 : ℝ) ^ (-53 : ℤ) := by
    have := d 8562762551632282 (-53) (by norm_num) (by norm_num)
    rw [one_mul]
    exact_mod_cast this
  have f14 : fl (1 / 16 * (7110987249739377 * (2 : ℝ) ^ (-53 : ℤ))) = 7110987249739377 * (2 : ℝ) ^ (-57 : ℤ) := by
    have := d 7110987249739377 (-57) (by norm_num) (by norm_num)
    rw [show (1 / 16 * (7110987249739377 * (2 : ℝ) ^ (-53 : ℤ))) = ((7110987249739377 : ℤ) : ℝ) * (2 : ℝ) ^ (-57 : ℤ) by norm_num, this]
    norm_num
  have f15 : fl (8562762551632282 * (2 : ℝ) ^ (-53 : ℤ) + 7110987249739377 * (2 : ℝ) ^ (-57 : ℤ)) = 1 + (2 : ℝ) ^ (-52 : ℤ) := by
    have := fl_round hfl (m := 4503599627370497) (z := -52) (by norm_num) (by norm_num) (by norm_num)
      (r := 8562762551632282 * (2 : ℝ) ^ (-53 : ℤ) + 7110987249739377 * (2 : ℝ) ^ (-57 : ℤ)) (by rw [abs_lt]; norm_num)
    rw [this]
    norm_num
  refine ⟨4516058222785362 * (2 : ℝ) ^ (-47 : ℤ), ?_⟩
  unfold cmToLabFl
  rw [f1, f2, f3]
  simp only [bind, Except.bind, pure, Except.pure]
  rw [f4, f5, csqrtFl_ok (by norm_num), s0]
  simp only
  rw [f6, f7, rdivFl_ok (by norm_num), f8]
  simp only
  rw [f9, rdivFl_ok (by positivity), f10]
  simp only
  rw [csqrtFl_ok (by positivity), s1]
  simp only
  rw [rdivFl_ok (by norm_num), f12]
  simp only
  rw [rdivFl_ok (by positivity), f11]
  simp only
  rw [csqrtFl_ok (by positivity), s2]
  simp only
  rw [f13, f14, f15]

/-- Nor does it keep the energy positive: at 5 MeV on a proton, a neutron emitted straight back with the largest energy below `5/4` MeV in the centre of mass, for which exact
arithmetic gives a positive energy and a cosine, gets the energy `-2^-52`, and its cosine is the root of a negative number. -/
theorem C132_violation_energy (e : ℝ) (he : e = 5 / 4 - (2 : ℝ) ^ (-52 : ℤ)) : IsDouble e ∧ cmToLabFl fl 5 1 (-1) e = .error .nonfinite ∧
    ∃ m L, cmToLab 5 1 (-1) e = .ok (m, L) ∧ 0 < L := by
  have hpos : 0 < e := by rw [he]; norm_num
  have d : ∀ (m : ℤ) (z : ℤ) (r : ℝ), |m| ≤ 2 ^ 53 → -1074 ≤ z → r = m * (2 : ℝ) ^ z → fl r = r := fun m z r h1 h2 h => by
    rw [h]; exact fl_self hfl (isDouble_zpow h1 h2)
  refine ⟨?_, ?_, ?_⟩
  · have := isDouble_zpow (m := 5 * 2 ^ 50 - 1) (by norm_num) (z := -52) (by norm_num)
    rw [he]
    rwa [show (((5 * 2 ^ 50 - 1 : ℤ)) : ℝ) * (2 : ℝ) ^ (-52 : ℤ) = 5 / 4 - (2 : ℝ) ^ (-52 : ℤ) by norm_num] at this
  · have f1 : fl (1 + 1) = 2 := by rw [d 2 0 (1 + 1) (by norm_num) (by norm_num) (by norm_num)]; norm_num
    have f2 : fl (5 * e) = 25 / 4 - (2 : ℝ) ^ (-50 : ℤ) := by
      have := fl_round hfl (m := 25 * 2 ^ 48 - 1) (z := -50) (by norm_num) (by norm_num) (by norm_num) (r := 5 * e) (by rw [he, abs_lt]; norm_num)
      rw [this]
      norm_num
    have f3 : fl (2 * -1) = -2 := by rw [d (-2) 0 (2 * -1) (by norm_num) (by norm_num) (by norm_num)]; norm_num
    have f4 : fl (-2 * 2) = -4 := by rw [d (-4) 0 (-2 * 2) (by norm_num) (by norm_num) (by norm_num)]; norm_num
    have f5 : fl (2 * 2) = 4 := by rw [d 4 0 (2 * 2) (by norm_num) (by norm_num) (by norm_num)]; norm_num
    have s0 : fl (Real.sqrt (25 / 4 - (2 : ℝ) ^ (-50 : ℤ))) = 5 / 2 := by
      have := fl_sqrt_round hfl (m := 5 * 2 ^ 50) (z := -51) (by norm_num) (by norm_num) (by norm_num) (r := 25 / 4 - (2 : ℝ) ^ (-50 : ℤ)) (by norm_num) (by norm_num) (by norm_num)
      rw [this]
      norm_num
    have f6 : fl (-4 * (5 / 2)) = -10 := by rw [d (-10) 0 _ (by norm_num) (by norm_num) (by norm_num)]; norm_num
    have f7 : fl (5 + -10) = -5 := by rw [d (-5) 0 _ (by norm_num) (by norm_num) (by norm_num)]; norm_num
    have f8 : fl (-5 / 4) = -5 / 4 := d (-5) (-2) _ (by norm_num) (by norm_num) (by norm_num)
    have f9 : fl (e + -5 / 4) = -(2 : ℝ) ^ (-52 : ℤ) := by
      rw [d (-1) (-52) _ (by norm_num) (by norm_num) (by rw [he]; norm_num), he]
      norm_num
    have hneg : fl (e / -(2 : ℝ) ^ (-52 : ℤ)) < 0 := by
      have h1 : IsDouble (-1 : ℝ) := isDouble_one.neg
      have h2 : e / -(2 : ℝ) ^ (-52 : ℤ) ≤ -1 := by rw [he]; norm_num
      linarith [fl_le hfl h1 h2]
    unfold cmToLabFl
    rw [f1, f2, f3]
    simp only [bind, Except.bind, pure, Except.pure]
    rw [f4, f5, csqrtFl_ok (by norm_num), s0]
    simp only
    rw [f6, f7, rdivFl_ok (by norm_num), f8]
    simp only
    rw [f9, rdivFl_ok (neg_ne_zero.mpr (by positivity))]
    simp only
    simp only [csqrtFl, csqrt_bad hneg, bind, Except.bind]
  · have hne : ¬ ((-1 : ℝ) = -1 ∧ e = 5 / (1 + 1) ^ 2) := by
      rintro ⟨_, h⟩
      rw [he] at h
      norm_num at h
    obtain ⟨m, L, h⟩ := C44_defined 5 1 (-1) e (by norm_num) (by norm_num) hpos (by norm_num) (by norm_num) hne
    exact ⟨m, L, h, (C44_cm_lab_cm 5 1 (-1) e m L (by norm_num) (by norm_num) hpos h).1⟩

end

/-- A collision that satisfies the hypotheses of `C131_cosine_partial`: forward scattering of a 4 MeV neutron by a proton at rest. -/
example (fl : ℝ → ℝ) (hfl : IsRoundToNearest fl) (fcos fsin : ℝ → ℝ) (tau tol xi : ℝ) (htol : 0 ≤ tol) :
    elasticFl fl fcos fsin tau tol 1 4 ⟨0, 0, 0⟩ 1 xi = .ok (1, 4) ∧ (2 : ℝ) ^ (-998 : ℤ) < 4 := by
  refine ⟨?_, lt_of_le_of_lt (zpow_le_one_of_nonpos₀ (by norm_num) (by norm_num)) (by norm_num)⟩
  have h0 : fl (0 : ℝ) = 0 := fl_self hfl isDouble_zero
  have h1 : fl (1 : ℝ) = 1 := fl_self hfl isDouble_one
  have h2 : fl (2 : ℝ) = 2 := by simpa using fl_self hfl (isDouble_nat (n := 2) (by norm_num))
  have h4 : fl (4 : ℝ) = 4 := by simpa using fl_self hfl (isDouble_nat (n := 4) (by norm_num))
  have hs : Real.sqrt 4 = 2 := by rw [show (4 : ℝ) = 2 ^ 2 by norm_num, Real.sqrt_sq (by norm_num)]
  unfold elasticFl
  rw [csqrtFl_ok (by norm_num), hs]
  have e2 : (1 : ℝ) + 1 = 2 := by norm_num
  have e3 : (2 : ℝ) - 1 = 1 := by norm_num
  have e4 : (2 : ℝ) / 2 = 1 := by norm_num
  have e5 : (2 : ℝ) * 2 = 4 := by norm_num
  simp only [bind, Except.bind, pure, Except.pure, Vec.smulFl, Vec.addFl, Vec.subFl, Vec.sdivFl, Vec.magFl, zero_mul, one_mul, mul_one, mul_zero, add_zero,
    zero_add, h0, h2, e2]
  rw [rdivFl_ok (by norm_num), rdivFl_ok (by norm_num)]
  simp only [zero_div, h0, e4, h1, sub_zero, e3, mul_one, mul_zero, add_zero, zero_add, Real.sqrt_one]
  rw [rdivFl_ok (by norm_num), rdivFl_ok (by norm_num)]
  simp only [zero_div, div_one, h0, h1, Vec.rotateFl, bind, Except.bind, pure, Except.pure]
  rw [if_neg (show ¬ ((1 : ℝ) < -1) by norm_num), if_neg (show ¬ ((1 : ℝ) > 1) by norm_num)]
  rw [mul_one, h1, sub_self, h0, csqrtFl_ok le_rfl, Real.sqrt_zero, h0]
  simp only [abs_zero, mul_zero, zero_mul, h0, sub_zero, h1]
  rw [if_neg (not_lt.mpr htol), csqrtFl_ok (by norm_num), Real.sqrt_one, h1]
  simp only
  rw [rdivFl_ok (by norm_num)]
  simp only [zero_div, h0, h1, add_zero, zero_add, sub_zero, mul_zero, mul_one, e2, h2, e5, h4, hs]
  rw [rdivFl_ok (by norm_num), rdivFl_ok (by norm_num)]
  simp only [zero_div, h0, e4, h1, Vec.dotFl, mul_zero, zero_mul, one_mul, add_zero, zero_add]

theorem toDouble53_bits (n : ℕ) : ∃ m e : ℕ, m ≤ 2 ^ 53 ∧ toDouble53 n = m * 2 ^ e := by
  rcases Nat.eq_zero_or_pos n with rfl | hn
  · exact ⟨0, 0, by norm_num, by decide⟩
  have hlog : n < 2 ^ (Nat.log2 n + 1) := Nat.lt_log2_self
  obtain ⟨e, he⟩ : ∃ e, e = Nat.log2 n + 1 - 53 := ⟨_, rfl⟩
  have hq : n / 2 ^ e < 2 ^ 53 := by
    rw [Nat.div_lt_iff_lt_mul (by positivity), ← pow_add]
    exact lt_of_lt_of_le hlog (Nat.pow_le_pow_right (by norm_num) (by omega))
  rw [toDouble53, ← he, roundBits]
  split
  · exact ⟨_, e, hq.le, rfl⟩
  · split
    · exact ⟨_, e, hq, rfl⟩
    · split
      · exact ⟨_, e, hq.le, rfl⟩
      · exact ⟨_, e, hq, rfl⟩

/-- **C129** The numbers the package's own generator returns, in any history of its calls, are binary64 numbers in `[0, 1)`: the theorems on drawn indices
apply to them. -/
theorem C129_rng (x : Nat) (ops : List RngOp) : ∀ u ∈ (rngRun x ops).2, IsDouble (u : ℝ) ∧ (0 : ℝ) ≤ u ∧ (u : ℝ) < 1 := by
  have hcan : ∀ n, IsDouble ((canonical n : ℚ) : ℝ) := by
    intro n
    unfold canonical
    split
    · have := isDouble_zpow (m := 2 ^ 53 - 1) (by norm_num) (z := -53) (by norm_num)
      norm_num at this ⊢
      exact this
    · obtain ⟨m, e, hm, h⟩ := toDouble53_bits n
      have := isDouble_zpow (m := m) (by rw [abs_of_nonneg (by positivity)]; exact_mod_cast hm) (z := (e : ℤ) + -63) (by omega)
      rw [zpow_add₀ (by norm_num), zpow_natCast] at this
      rw [h]
      push_cast at this ⊢
      rw [show ((m : ℝ) * 2 ^ e / 2 ^ 63) = m * (2 ^ e * (2 : ℝ) ^ (-63 : ℤ)) by rw [zpow_neg]; norm_num; ring]
      exact this
  have hd : ∀ u ∈ (rngRun x ops).2, IsDouble (u : ℝ) := by
    induction ops generalizing x with
    | nil => simp [rngRun]
    | cons o os ih =>
      intro u hu
      simp only [rngRun, List.mem_append] at hu
      rcases hu with hu | hu
      · cases o <;> simp [rngOp, rngCall] at hu
        subst hu
        exact hcan _
      · exact ih _ u hu
  intro u hu
  obtain ⟨h1, h2⟩ := C08_range x ops u hu
  exact ⟨hd u hu, by exact_mod_cast h1, by exact_mod_cast h2⟩

/-- The hypotheses of `C132_forward_partial` hold of a neutron of 1 MeV emitted at 60 degrees with 1/2 MeV from a target of atomic weight ratio 235. -/
example (fl : ℝ → ℝ) (hfl : IsRoundToNearest fl) : ∃ mu' L', cmToLabFl fl 1 235 (1 / 2) (1 / 2) = .ok (mu', L') ∧ 0 < L' ∧ mu' ≤ 1 + (2 : ℝ) ^ (-49 : ℤ) := by
  have hh : IsDouble (1 / 2 : ℝ) := by
    have := isDouble_zpow (m := 1) (by norm_num) (z := -1) (by norm_num)
    norm_num at this ⊢
    exact this
  have h235 : IsDouble (235 : ℝ) := by simpa using isDouble_nat (n := 235) (by norm_num)
  obtain ⟨mu', L', _, _, h1, _, h2, _, _, _, h3⟩ := C132_forward_partial hfl 1 235 (1 / 2) (1 / 2) isDouble_one h235 hh hh (by norm_num) (by norm_num) (by norm_num)
    (by norm_num) (by norm_num) (by norm_num) (Or.inr (by norm_num)) (by norm_num)
  exact ⟨mu', L', h1, h2, h3⟩

end PNDL
