import Verif.Props.Frame

/-! C46, C47. -/
namespace PNDL
open Spec

/-! ## C46 -/

/-- A root of the quadratic solved by `LabToCM::angle` is a cosine whose lab cosine is `mu` up to sign. -/
theorem quad_root {g mu x : ℝ} (hmu : mu ≠ 0) (h1 : -1 ≤ mu) (h2 : mu ≤ 1)
    (h : (1 + (1 - mu * mu) / (mu * mu)) * x ^ 2 + 2 * g * ((1 - mu * mu) / (mu * mu)) * x +
      ((1 - mu * mu) / (mu * mu) * g * g - 1) = 0) :
    -1 ≤ x ∧ x ≤ 1 ∧ (g + x) ^ 2 = mu ^ 2 * (1 + 2 * g * x + g ^ 2) := by
  have hsq : 0 < mu * mu := mul_self_pos.mpr hmu
  have hle : mu * mu ≤ 1 := by nlinarith
  obtain ⟨n, hn⟩ : ∃ n, n = (1 - mu * mu) / (mu * mu) := ⟨_, rfl⟩
  have hn0 : 0 ≤ n := by rw [hn]; apply div_nonneg <;> linarith
  have hnm : n * (mu * mu) = 1 - mu * mu := by rw [hn]; field_simp
  rw [← hn] at h
  have hx : 1 - x ^ 2 = n * (x + g) ^ 2 := by linear_combination -h
  have hx2 : x ^ 2 ≤ 1 := by nlinarith [mul_nonneg hn0 (sq_nonneg (x + g))]
  refine ⟨by nlinarith, by nlinarith, ?_⟩
  linear_combination (-mu ^ 2) * hx + (- (x + g) ^ 2) * hnm

theorem quad_root_conv {g mu x : ℝ} (hmu : mu ≠ 0) (h : (g + x) ^ 2 = mu ^ 2 * (1 + 2 * g * x + g ^ 2)) :
    (1 + (1 - mu * mu) / (mu * mu)) * x ^ 2 + 2 * g * ((1 - mu * mu) / (mu * mu)) * x +
      ((1 - mu * mu) / (mu * mu) * g * g - 1) = 0 := by
  field_simp
  linear_combination h

theorem inUnit_some {a x : ℝ} (h : inUnit a = some x) : x = a := by
  unfold inUnit at h; split at h <;> cases h; rfl

theorem inUnit_eq (a : ℝ) : inUnit a = some a := by
  unfold inUnit
  rw [if_pos]
  rcases le_total (-1) a with h | h
  · exact .inl h
  · exact .inr (by linarith)

/-- C46, for lab cosines other than 0: every returned CM cosine is in `[-1, 1]` and maps to the given lab cosine up to its sign.
Missing: `mu = 0` (`C46_violation_zero`) and the sign (`C46_violation_sign`). -/
theorem C46_sound_partial (Ein A Q mu g : ℝ) (o1 o2 : Option ℝ) (hg : frameG Ein A Q = .ok g) (hmu : mu ≠ 0) (h1 : -1 ≤ mu)
    (h2 : mu ≤ 1) (h : labToCmAngle Ein A Q mu = .ok (o1, o2)) (x : ℝ) (hx : o1 = some x ∨ o2 = some x) :
    -1 ≤ x ∧ x ≤ 1 ∧ (g + x) ^ 2 = mu ^ 2 * (1 + 2 * g * x + g ^ 2) := by
  have hsq : 0 < mu * mu := mul_self_pos.mpr hmu
  have hle : mu * mu ≤ 1 := by nlinarith
  unfold labToCmAngle at h
  rw [hg] at h
  simp only [bind, Except.bind, if_neg hmu, pure, Except.pure] at h
  apply quad_root hmu h1 h2
  obtain ⟨n, hn⟩ : ∃ n, n = (1 - mu * mu) / (mu * mu) := ⟨_, rfl⟩
  have hn0 : 0 ≤ n := by rw [hn]; apply div_nonneg <;> linarith
  rw [← hn] at h ⊢
  obtain ⟨a, ha⟩ : ∃ a, a = 1 + n := ⟨_, rfl⟩
  obtain ⟨b, hb⟩ : ∃ b, b = 2 * g * n := ⟨_, rfl⟩
  obtain ⟨c, hc⟩ : ∃ c, c = n * g * g - 1 := ⟨_, rfl⟩
  have ha0 : 0 < a := by linarith
  rw [← ha, ← hb, ← hc] at h ⊢
  split at h
  · cases h; rcases hx with hx | hx <;> cases hx
  · split at h
    · rename_i hd
      have hb0 : b ≠ 0 := by
        intro h0
        rw [h0] at hd
        have hc0 : c = 0 := by
          have : a * c = 0 := by linarith
          rcases mul_eq_zero.mp this with h | h
          · exact absurd h ha0.ne'
          · exact h
        rw [h0] at hb
        have : n * g * g = 1 := by linarith
        have hng : n * g = 0 := by linarith
        rw [hng] at this
        norm_num at this
      rw [rdiv_ok hb0] at h
      simp only [Except.ok.injEq, Prod.mk.injEq] at h
      obtain ⟨rfl, rfl⟩ := h
      rcases hx with hx | hx
      · rw [inUnit_some hx]
        field_simp
        linear_combination (-c) * hd
      · cases hx
    · rename_i hd1 hd2
      have hd0 : 0 < b * b - 4 * a * c := lt_of_le_of_ne (not_lt.mp hd1) (Ne.symm hd2)
      obtain ⟨r, hr⟩ : ∃ r, r = Real.sqrt (b * b - 4 * a * c) := ⟨_, rfl⟩
      have hr2 : r ^ 2 = b * b - 4 * a * c := by rw [hr]; exact Real.sq_sqrt hd0.le
      rw [← hr] at h
      simp only [Except.ok.injEq, Prod.mk.injEq] at h
      obtain ⟨rfl, rfl⟩ := h
      rcases hx with hx | hx
      · rw [inUnit_some hx]
        field_simp
        linear_combination hr2
      · by_cases hz : -b + r = 0
        · rw [hz, rdiv_zero] at hx; cases hx
        · rw [rdiv_ok hz] at hx
          simp only at hx
          rw [inUnit_some hx]
          field_simp
          linear_combination c * hr2

/-- C46, in terms of the kinematics: the lab cosine of every returned CM cosine is `mu` or `-mu`. -/
theorem C46_maps_back_partial (Ein A Q mu g : ℝ) (o1 o2 : Option ℝ) (hg : frameG Ein A Q = .ok g) (hmu : mu ≠ 0) (h1 : -1 ≤ mu)
    (h2 : mu ≤ 1) (h : labToCmAngle Ein A Q mu = .ok (o1, o2)) (x : ℝ) (hx : o1 = some x ∨ o2 = some x)
    (hD : 0 < 1 + 2 * g * x + g ^ 2) : labCos g x = mu ∨ labCos g x = -mu := by
  obtain ⟨_, _, h3⟩ := C46_sound_partial Ein A Q mu g o1 o2 hg hmu h1 h2 h x hx
  have hs : 0 < Real.sqrt (1 + 2 * g * x + g ^ 2) := Real.sqrt_pos.mpr hD
  rw [← sq_eq_sq_iff_eq_or_eq_neg]
  unfold labCos
  rw [div_pow, Real.sq_sqrt hD.le, h3]
  field_simp

/-- C46: completeness.  Every CM cosine whose lab cosine is `mu` is returned, unless the constant term of the quadratic is
exactly zero (then see `C46_violation_missed`). -/
theorem C46_complete_partial (Ein A Q mu g x : ℝ) (hg : frameG Ein A Q = .ok g) (hmu : mu ≠ 0) (h1 : -1 ≤ mu) (h2 : mu ≤ 1)
    (hD : 0 < 1 + 2 * g * x + g ^ 2) (hx : labCos g x = mu) (hc : (1 - mu * mu) / (mu * mu) * g * g ≠ 1) :
    ∃ o1 o2, labToCmAngle Ein A Q mu = .ok (o1, o2) ∧ (o1 = some x ∨ o2 = some x) := by
  have hsq : 0 < mu * mu := mul_self_pos.mpr hmu
  have hle : mu * mu ≤ 1 := by nlinarith
  have hx' : (g + x) ^ 2 = mu ^ 2 * (1 + 2 * g * x + g ^ 2) := by
    have hs : 0 < Real.sqrt (1 + 2 * g * x + g ^ 2) := Real.sqrt_pos.mpr hD
    rw [← hx]; unfold labCos
    rw [div_pow, Real.sq_sqrt hD.le, div_mul_cancel₀ _ hD.ne']
  have hroot := quad_root_conv hmu hx'
  unfold labToCmAngle
  rw [hg]
  simp only [bind, Except.bind, if_neg hmu, pure, Except.pure]
  obtain ⟨n, hn⟩ : ∃ n, n = (1 - mu * mu) / (mu * mu) := ⟨_, rfl⟩
  have hn0 : 0 ≤ n := by rw [hn]; apply div_nonneg <;> linarith
  rw [← hn] at hroot hc ⊢
  obtain ⟨a, ha⟩ : ∃ a, a = 1 + n := ⟨_, rfl⟩
  obtain ⟨b, hb⟩ : ∃ b, b = 2 * g * n := ⟨_, rfl⟩
  obtain ⟨c, hc'⟩ : ∃ c, c = n * g * g - 1 := ⟨_, rfl⟩
  have ha0 : 0 < a := by linarith
  have hc0 : c ≠ 0 := by rw [hc']; intro h; exact hc (by linarith)
  rw [← ha, ← hb, ← hc'] at hroot ⊢
  have hdisc : b * b - 4 * a * c = (2 * a * x + b) ^ 2 := by linear_combination (-4 * a) * hroot
  have hd0 : 0 ≤ b * b - 4 * a * c := by rw [hdisc]; positivity
  rw [if_neg (not_lt.mpr hd0)]
  by_cases hd : b * b - 4 * a * c = 0
  · rw [if_pos hd]
    have hlin : 2 * a * x + b = 0 := by
      rw [hdisc] at hd; exact pow_eq_zero_iff (by norm_num) |>.mp hd
    have hb0 : b ≠ 0 := by
      intro h0; rw [h0] at hd
      have : a * c = 0 := by linarith
      exact (mul_ne_zero ha0.ne' hc0) this
    rw [rdiv_ok hb0]
    refine ⟨_, _, rfl, .inl ?_⟩
    rw [inUnit_eq]
    congr 1
    field_simp
    linear_combination (-2) * hroot + x * hlin
  · rw [if_neg hd]
    have hdp : 0 < b * b - 4 * a * c := lt_of_le_of_ne hd0 (Ne.symm hd)
    have hr : Real.sqrt (b * b - 4 * a * c) = |2 * a * x + b| := by rw [hdisc]; exact Real.sqrt_sq_eq_abs _
    rw [hr]
    rcases abs_cases (2 * a * x + b) with ⟨he, _⟩ | ⟨he, hneg⟩
    · refine ⟨_, _, rfl, .inl ?_⟩
      rw [inUnit_eq, he]
      congr 1
      field_simp
      ring
    · refine ⟨_, _, rfl, .inr ?_⟩
      have hden : -b + |2 * a * x + b| = -2 * (a * x + b) := by rw [he]; ring
      have hne : a * x + b ≠ 0 := by
        intro h0
        apply hc0
        linear_combination hroot - x * h0
      have hne' : -2 * (a * x + b) ≠ 0 := mul_ne_zero (by norm_num) hne
      rw [hden, rdiv_ok hne']
      simp only
      rw [inUnit_eq]
      congr 1
      field_simp
      linear_combination (-1) * hroot

theorem frameG_half : frameG 1 2 0 = .ok (1 / 2) := by
  have h : Real.sqrt (1 / (2 * 2) * (2 * 1 / (2 + 1) / (2 * 1 / (2 + 1) + 0))) = 1 / 2 := by
    rw [Real.sqrt_eq_iff_mul_self_eq (by norm_num) (by norm_num)]; norm_num
  unfold frameG
  simp only [bind, Except.bind]
  rw [rdiv_ok (by norm_num), rdiv_ok (by norm_num)]
  simp only
  rw [rdiv_ok (by norm_num)]
  simp only
  rw [csqrt_ok (by norm_num), h]

theorem frameG_two : frameG 8 1 (-3) = .ok 2 := by
  have h : Real.sqrt (1 / (1 * 1) * (1 * 8 / (1 + 1) / (1 * 8 / (1 + 1) + -3))) = 2 := by
    rw [Real.sqrt_eq_iff_mul_self_eq (by norm_num) (by norm_num)]; norm_num
  unfold frameG
  simp only [bind, Except.bind]
  rw [rdiv_ok (by norm_num), rdiv_ok (by norm_num)]
  simp only
  rw [rdiv_ok (by norm_num)]
  simp only
  rw [csqrt_ok (by norm_num), h]

/-- The full claim is false of the code: at `mu = 0` the value `-g` is returned without a test, here `-2`. -/
theorem C46_violation_zero : labToCmAngle 8 1 (-3) 0 = .ok (some (-2), none) := by
  unfold labToCmAngle
  rw [frameG_two]
  simp only [bind, Except.bind, if_true, pure, Except.pure]

/-- The full claim is false of the code: for a straight-ahead lab cosine `-1` is returned as well, which maps to the lab cosine
`-1`. -/
theorem C46_violation_sign : frameG 1 2 0 = .ok (1 / 2) ∧ labToCmAngle 1 2 0 1 = .ok (some 1, some (-1)) ∧
    labCos (1 / 2) (-1) = -1 := by
  refine ⟨frameG_half, ?_, ?_⟩
  · have h4 : Real.sqrt 4 = 2 := by rw [Real.sqrt_eq_iff_mul_self_eq (by norm_num) (by norm_num)]; norm_num
    unfold labToCmAngle
    rw [frameG_half]
    norm_num [bind, Except.bind, pure, Except.pure, h4, rdiv, inUnit]
  · have h4 : Real.sqrt (1 / 4) = 1 / 2 := by rw [Real.sqrt_eq_iff_mul_self_eq (by norm_num) (by norm_num)]; norm_num
    unfold labCos
    rw [show (1 : ℝ) + 2 * (1 / 2) * -1 + (1 / 2) ^ 2 = 1 / 4 by norm_num, h4]
    norm_num

/-- `LabToCM::angle` only depends on the square of the lab cosine, so it cannot tell forward from backward. -/
theorem C46_violation_even (Ein A Q mu : ℝ) : labToCmAngle Ein A Q (-mu) = labToCmAngle Ein A Q mu := by
  unfold labToCmAngle
  simp only [neg_mul_neg, neg_eq_zero]

/-- The excluded case of `C46_complete_partial`: the second solution `-4/5` of `mu = 2/√5`, `g = 2` is lost in `0/0`. -/
theorem C46_violation_missed : labToCmAngle 8 1 (-3) (2 / Real.sqrt 5) = .ok (some 0, none) ∧
    labCos 2 (-4 / 5) = 2 / Real.sqrt 5 ∧ labCos 2 0 = 2 / Real.sqrt 5 := by
  have h5 : (0 : ℝ) < Real.sqrt 5 := Real.sqrt_pos.mpr (by norm_num)
  have h55 : Real.sqrt 5 * Real.sqrt 5 = 5 := Real.mul_self_sqrt (by norm_num)
  have hmm : 2 / Real.sqrt 5 * (2 / Real.sqrt 5) = 4 / 5 := by
    rw [div_mul_div_comm, h55]; norm_num
  refine ⟨?_, ?_, ?_⟩
  · unfold labToCmAngle
    rw [frameG_two]
    have hne : 2 / Real.sqrt 5 ≠ 0 := by positivity
    simp only [bind, Except.bind, if_neg hne, pure, Except.pure, hmm]
    norm_num [rdiv, inUnit]
  · unfold labCos
    have : Real.sqrt (1 + 2 * 2 * (-4 / 5) + 2 ^ 2) = 3 / Real.sqrt 5 := by
      rw [Real.sqrt_eq_iff_mul_self_eq (by norm_num) (by positivity), div_mul_div_comm, h55]; norm_num
    rw [this]
    field_simp
    norm_num
  · unfold labCos
    rw [show (1 : ℝ) + 2 * 2 * 0 + 2 ^ 2 = 5 by norm_num]
    norm_num

/-! ## C47 -/

/-- The cosine used by `rotate`: the given one brought into `[-1, 1]`. -/
theorem rot_mu_mem (mu : ℝ) : -1 ≤ clip mu (-1) 1 ∧ clip mu (-1) 1 ≤ 1 := by
  unfold clip
  exact ⟨le_max_left _ _, max_le (by norm_num) (min_le_right _ _)⟩

/-- C47: rotating a unit vector gives a unit vector whose scalar product with the original is the (clipped) cosine, for every
azimuth. -/
theorem C47_rotate (u : Vec) (hu : IsUnit3 u) (mu phi : ℝ) :
    ∃ v, u.rotate mu phi = .ok v ∧ IsUnit3 v ∧ u.dot v = clip mu (-1) 1 := by
  obtain ⟨m, hm⟩ : ∃ m, m = clip mu (-1) 1 := ⟨_, rfl⟩
  have hm' : (if mu < -1 then -1 else if mu > 1 then 1 else mu) = m := by
    rw [hm]; unfold clip
    split
    · rename_i h; rw [min_eq_left (by linarith), max_eq_left h.le]
    · rename_i h
      split
      · rename_i h'; rw [min_eq_right h'.le]; norm_num
      · rename_i h'; rw [min_eq_left (not_lt.mp h'), max_eq_right (not_lt.mp h)]
  obtain ⟨hm1, hm2⟩ : -1 ≤ m ∧ m ≤ 1 := by rw [hm]; exact rot_mu_mem mu
  obtain ⟨p, hp⟩ : ∃ p, p = (if phi < 0 then 0 else if phi > 2 * Real.pi then 2 * Real.pi else phi) := ⟨_, rfl⟩
  obtain ⟨C, hC⟩ : ∃ C, C = Real.sqrt (1 - m * m) := ⟨_, rfl⟩
  have hC2 : C ^ 2 = 1 - m * m := by rw [hC]; exact Real.sq_sqrt (by nlinarith)
  have hcs := Real.sin_sq_add_cos_sq p
  obtain ⟨c, hc⟩ : ∃ c, c = Real.cos p := ⟨_, rfl⟩
  obtain ⟨s, hs⟩ : ∃ s, s = Real.sin p := ⟨_, rfl⟩
  rw [← hc, ← hs] at hcs
  rcases u with ⟨x, y, z⟩
  unfold IsUnit3 at hu
  simp only at hu
  unfold Vec.rotate
  simp only [hm', ← hp, ← hc, ← hs]
  rw [csqrt_ok (show 0 ≤ 1 - m * m by nlinarith), ← hC]
  simp only [bind, Except.bind]
  rw [← hm]
  split
  · rename_i hz
    have hz0 : 0 ≤ 1 - z * z := by nlinarith [sq_nonneg x, sq_nonneg y]
    have hz1 : 0 < 1 - z * z := by
      rw [abs_of_nonneg hz0] at hz
      have : (0 : ℝ) < 1 / 10 ^ 10 := by positivity
      linarith
    obtain ⟨d, hd⟩ : ∃ d, d = Real.sqrt (1 - z * z) := ⟨_, rfl⟩
    have hd0 : 0 < d := by rw [hd]; exact Real.sqrt_pos.mpr hz1
    have hd2 : d ^ 2 = 1 - z * z := by rw [hd]; exact Real.sq_sqrt hz0
    rw [csqrt_ok hz0, ← hd]
    simp only
    rw [rdiv_ok hd0.ne', rdiv_ok hd0.ne']
    obtain ⟨w1, hw1⟩ : ∃ w1, w1 = (c * x * z - s * y) / d := ⟨_, rfl⟩
    obtain ⟨w2, hw2⟩ : ∃ w2, w2 = (c * y * z + s * x) / d := ⟨_, rfl⟩
    have e1 : w1 * d = c * x * z - s * y := by rw [hw1]; field_simp
    have e2 : w2 * d = c * y * z + s * x := by rw [hw2]; field_simp
    have o : x * w1 + y * w2 - z * c * d = 0 := by
      have : d * (x * w1 + y * w2 - z * c * d) = 0 := by
        linear_combination x * e1 + y * e2 + (z * c) * (hu - hd2)
      rcases mul_eq_zero.mp this with h | h
      · exact absurd h hd0.ne'
      · exact h
    have nn : w1 ^ 2 + w2 ^ 2 + (c * d) ^ 2 = 1 := by
      have : d ^ 2 * (w1 ^ 2 + w2 ^ 2 + (c * d) ^ 2 - 1) = 0 := by
        have f1 : (w1 * d) ^ 2 = (c * x * z - s * y) ^ 2 := by rw [e1]
        have f2 : (w2 * d) ^ 2 = (c * y * z + s * x) ^ 2 := by rw [e2]
        have f3 : x ^ 2 + y ^ 2 = d ^ 2 := by linear_combination hu - hd2
        linear_combination f1 + f2 + (c ^ 2 * z ^ 2 + s ^ 2) * f3 + d ^ 2 * hcs + (c ^ 2 * d ^ 2) * hd2
      rcases mul_eq_zero.mp this with h | h
      · exact absurd h (by positivity)
      · linarith
    refine ⟨_, rfl, ?_, ?_⟩
    · unfold IsUnit3
      simp only
      rw [show C * (c * x * z - s * y) / d = C * w1 by rw [hw1]; ring, show C * (c * y * z + s * x) / d = C * w2 by rw [hw2]; ring]
      linear_combination m ^ 2 * hu + 2 * m * C * o + C ^ 2 * nn + hC2
    · unfold Vec.dot
      simp only
      rw [show C * (c * x * z - s * y) / d = C * w1 by rw [hw1]; ring, show C * (c * y * z + s * x) / d = C * w2 by rw [hw2]; ring]
      linear_combination m * hu + C * o
  · rename_i hz
    have hz0 : 0 ≤ 1 - z * z := by nlinarith [sq_nonneg x, sq_nonneg y]
    have hz1 : 1 - z * z ≤ 1 / 10 ^ 10 := by rw [abs_of_nonneg hz0] at hz; linarith
    have hy0 : 0 < 1 - y * y := by
      have : (1 : ℝ) / 10 ^ 10 < 1 := by norm_num
      nlinarith [sq_nonneg x]
    obtain ⟨d, hd⟩ : ∃ d, d = Real.sqrt (1 - y * y) := ⟨_, rfl⟩
    have hd0 : 0 < d := by rw [hd]; exact Real.sqrt_pos.mpr hy0
    have hd2 : d ^ 2 = 1 - y * y := by rw [hd]; exact Real.sq_sqrt hy0.le
    rw [csqrt_ok hy0.le, ← hd]
    simp only
    rw [rdiv_ok hd0.ne', rdiv_ok hd0.ne']
    obtain ⟨w1, hw1⟩ : ∃ w1, w1 = (c * x * y + s * z) / d := ⟨_, rfl⟩
    obtain ⟨w2, hw2⟩ : ∃ w2, w2 = (c * y * z - s * x) / d := ⟨_, rfl⟩
    have e1 : w1 * d = c * x * y + s * z := by rw [hw1]; field_simp
    have e2 : w2 * d = c * y * z - s * x := by rw [hw2]; field_simp
    have o : x * w1 + z * w2 - y * c * d = 0 := by
      have : d * (x * w1 + z * w2 - y * c * d) = 0 := by
        linear_combination x * e1 + z * e2 + (y * c) * (hu - hd2)
      rcases mul_eq_zero.mp this with h | h
      · exact absurd h hd0.ne'
      · exact h
    have nn : w1 ^ 2 + w2 ^ 2 + (c * d) ^ 2 = 1 := by
      have : d ^ 2 * (w1 ^ 2 + w2 ^ 2 + (c * d) ^ 2 - 1) = 0 := by
        have f1 : (w1 * d) ^ 2 = (c * x * y + s * z) ^ 2 := by rw [e1]
        have f2 : (w2 * d) ^ 2 = (c * y * z - s * x) ^ 2 := by rw [e2]
        have f3 : x ^ 2 + z ^ 2 = d ^ 2 := by linear_combination hu - hd2
        linear_combination f1 + f2 + (c ^ 2 * y ^ 2 + s ^ 2) * f3 + d ^ 2 * hcs + (c ^ 2 * d ^ 2) * hd2
      rcases mul_eq_zero.mp this with h | h
      · exact absurd h (by positivity)
      · linarith
    refine ⟨_, rfl, ?_, ?_⟩
    · unfold IsUnit3
      simp only
      rw [show C * (c * x * y + s * z) / d = C * w1 by rw [hw1]; ring, show C * (c * y * z - s * x) / d = C * w2 by rw [hw2]; ring]
      linear_combination m ^ 2 * hu + 2 * m * C * o + C ^ 2 * nn + hC2
    · unfold Vec.dot
      simp only
      rw [show C * (c * x * y + s * z) / d = C * w1 by rw [hw1]; ring, show C * (c * y * z - s * x) / d = C * w2 by rw [hw2]; ring]
      linear_combination m * hu + C * o

/-- C47 with the cosine in `[-1, 1]`, as documented. -/
theorem C47_cosine (u : Vec) (hu : IsUnit3 u) (mu phi : ℝ) (h1 : -1 ≤ mu) (h2 : mu ≤ 1) :
    ∃ v, u.rotate mu phi = .ok v ∧ IsUnit3 v ∧ u.dot v = mu := by
  obtain ⟨v, a, b, c⟩ := C47_rotate u hu mu phi
  refine ⟨v, a, b, ?_⟩
  rw [c]; unfold clip; rw [min_eq_left h2, max_eq_right h1]

example : IsUnit3 ⟨3 / 5, 0, 4 / 5⟩ := by unfold IsUnit3; norm_num

end PNDL
