import Verif.Lemmas.Balance
import Verif.Props.ElasticLaw
import Verif.Props.DbrcLaw

/-! The outcome of an elastic collision as a function of the target velocity, the cosine and the azimuth drawn. -/
namespace PNDL
open MeasureTheory Spec Set
open scoped ENNReal Real

open Classical in
/-- First vector across the direction `u`, as `rotate` takes it. -/
noncomputable def axisA (u : Vec) : Vec :=
  if |1 - u.z * u.z| > 1 / 10 ^ 10 then ⟨u.x * u.z / Real.sqrt (1 - u.z * u.z), u.y * u.z / Real.sqrt (1 - u.z * u.z), -Real.sqrt (1 - u.z * u.z)⟩
  else ⟨u.x * u.y / Real.sqrt (1 - u.y * u.y), -Real.sqrt (1 - u.y * u.y), u.y * u.z / Real.sqrt (1 - u.y * u.y)⟩

open Classical in
/-- Second vector across the direction `u`. -/
noncomputable def axisB (u : Vec) : Vec :=
  if |1 - u.z * u.z| > 1 / 10 ^ 10 then ⟨-u.y / Real.sqrt (1 - u.z * u.z), u.x / Real.sqrt (1 - u.z * u.z), 0⟩
  else ⟨u.z / Real.sqrt (1 - u.y * u.y), 0, -u.x / Real.sqrt (1 - u.y * u.y)⟩

/-- The direction at cosine `m` and azimuth `2πx` from `u`, with the axes `a`, `b` across it. -/
noncomputable def Spec.turned (u a b : Vec) (m x : ℝ) : Vec :=
  (u.smul m).add (((a.smul (Real.cos (2 * π * x))).add (b.smul (Real.sin (2 * π * x)))).smul (Real.sqrt (1 - m * m)))

/-- Orthonormal axes. -/
def Spec.Frame3 (u a b : Vec) : Prop := u.dot u = 1 ∧ a.dot a = 1 ∧ b.dot b = 1 ∧ u.dot a = 0 ∧ u.dot b = 0 ∧ a.dot b = 0

theorem axes_frame {u : Vec} (hu : IsUnit3 u) : Frame3 u (axisA u) (axisB u) := by
  rcases u with ⟨x, y, z⟩
  unfold IsUnit3 at hu
  simp only at hu
  unfold axisA axisB
  simp only
  by_cases hz : |1 - z * z| > 1 / 10 ^ 10
  · rw [if_pos hz, if_pos hz]
    have hz0 : 0 ≤ 1 - z * z := by nlinarith [sq_nonneg x, sq_nonneg y]
    have hz1 : 0 < 1 - z * z := by
      rw [abs_of_nonneg hz0] at hz
      have : (0 : ℝ) < 1 / 10 ^ 10 := by positivity
      linarith
    obtain ⟨d, hd⟩ : ∃ d, d = Real.sqrt (1 - z * z) := ⟨_, rfl⟩
    have hd0 : 0 < d := by rw [hd]; exact Real.sqrt_pos.mpr hz1
    have hd2 : d ^ 2 = 1 - z * z := by rw [hd]; exact Real.sq_sqrt hz0
    have f3 : x ^ 2 + y ^ 2 = d ^ 2 := by linear_combination hu - hd2
    rw [← hd]
    unfold Frame3 Vec.dot
    simp only
    refine ⟨by linear_combination hu, ?_, ?_, ?_, ?_, ?_⟩ <;> field_simp
    · linear_combination z ^ 2 * f3 + d ^ 2 * hd2
    · linear_combination f3
    · linear_combination z * f3
    · ring
    · ring
  · rw [if_neg hz, if_neg hz]
    have hz0 : 0 ≤ 1 - z * z := by nlinarith [sq_nonneg x, sq_nonneg y]
    have hz1 : 1 - z * z ≤ 1 / 10 ^ 10 := by rw [abs_of_nonneg hz0] at hz; linarith
    have hy0 : 0 < 1 - y * y := by
      have : (1 : ℝ) / 10 ^ 10 < 1 := by norm_num
      nlinarith [sq_nonneg x]
    obtain ⟨d, hd⟩ : ∃ d, d = Real.sqrt (1 - y * y) := ⟨_, rfl⟩
    have hd0 : 0 < d := by rw [hd]; exact Real.sqrt_pos.mpr hy0
    have hd2 : d ^ 2 = 1 - y * y := by rw [hd]; exact Real.sq_sqrt hy0.le
    have f3 : x ^ 2 + z ^ 2 = d ^ 2 := by linear_combination hu - hd2
    rw [← hd]
    unfold Frame3 Vec.dot
    simp only
    refine ⟨by linear_combination hu, ?_, ?_, ?_, ?_, ?_⟩ <;> field_simp
    · linear_combination y ^ 2 * f3 + d ^ 2 * hd2
    · linear_combination f3
    · linear_combination y * f3
    · ring
    · ring

theorem rotate_turned {u : Vec} (hu : IsUnit3 u) {m x : ℝ} (h1 : -1 ≤ m) (h2 : m ≤ 1) (h3 : 0 ≤ x) (h4 : x ≤ 1) :
    u.rotate m (2 * π * x) = .ok (turned u (axisA u) (axisB u) m x) := by
  have hpi := Real.pi_pos
  rcases u with ⟨ux, uy, uz⟩
  unfold IsUnit3 at hu
  simp only at hu
  unfold Vec.rotate turned axisA axisB
  simp only
  have n1 : ¬ m < -1 := not_lt.mpr h1
  have n2 : ¬ m > 1 := not_lt.mpr h2
  have n3 : ¬ 2 * π * x < 0 := not_lt.mpr (by positivity)
  have n4 : ¬ 2 * π * x > 2 * π := not_lt.mpr (by nlinarith)
  simp only [if_neg n1, if_neg n2, if_neg n3, if_neg n4]
  rw [csqrt_ok (show 0 ≤ 1 - m * m by nlinarith)]
  simp only [bind, Except.bind]
  by_cases hz : |1 - uz * uz| > 1 / 10 ^ 10
  · simp only [if_pos hz]
    have hz0 : 0 ≤ 1 - uz * uz := by nlinarith [sq_nonneg ux, sq_nonneg uy]
    have hz1 : 0 < 1 - uz * uz := by
      rw [abs_of_nonneg hz0] at hz
      have : (0 : ℝ) < 1 / 10 ^ 10 := by positivity
      linarith
    have hd0 := Real.sqrt_pos.mpr hz1
    rw [csqrt_ok hz0]
    simp only
    rw [rdiv_ok hd0.ne', rdiv_ok hd0.ne']
    unfold Vec.add Vec.smul
    simp only [pure, Except.pure, Except.ok.injEq, Vec.mk.injEq]
    refine ⟨?_, ?_, ?_⟩ <;> ring
  · simp only [if_neg hz]
    have hz0 : 0 ≤ 1 - uz * uz := by nlinarith [sq_nonneg ux, sq_nonneg uy]
    have hz1 : 1 - uz * uz ≤ 1 / 10 ^ 10 := by rw [abs_of_nonneg hz0] at hz; linarith
    have hy0 : 0 < 1 - uy * uy := by
      have : (1 : ℝ) / 10 ^ 10 < 1 := by norm_num
      nlinarith [sq_nonneg ux]
    have hd0 := Real.sqrt_pos.mpr hy0
    rw [csqrt_ok hy0.le]
    simp only
    rw [rdiv_ok hd0.ne', rdiv_ok hd0.ne']
    unfold Vec.add Vec.smul
    simp only [pure, Except.pure, Except.ok.injEq, Vec.mk.injEq]
    refine ⟨?_, ?_, ?_⟩ <;> ring

/-- The components of a vector along orthonormal axes. -/
theorem frame_pythagoras {u a b : Vec} (h : Frame3 u a b) (w : Vec) : w.dot u ^ 2 + w.dot a ^ 2 + w.dot b ^ 2 = w.dot w := by
  obtain ⟨h1, h2, h3, h4, h5, h6⟩ := h
  unfold Vec.dot at *
  obtain ⟨M, hM⟩ : ∃ M : Matrix (Fin 3) (Fin 3) ℝ, M = !![u.x, u.y, u.z; a.x, a.y, a.z; b.x, b.y, b.z] := ⟨_, rfl⟩
  have hMM : M * M.transpose = 1 := by
    rw [hM]
    ext i j
    fin_cases i <;> fin_cases j <;> simp [Matrix.mul_apply, Fin.sum_univ_three] <;> linarith
  have hMM' := mul_eq_one_comm.mp hMM
  rw [hM] at hMM'
  have e : ∀ i j : Fin 3, _ := fun i j => congrFun (congrFun hMM' i) j
  have e00 := e 0 0
  have e01 := e 0 1
  have e02 := e 0 2
  have e11 := e 1 1
  have e12 := e 1 2
  have e22 := e 2 2
  simp [Matrix.mul_apply, Fin.sum_univ_three] at e00 e01 e02 e11 e12 e22
  linear_combination w.x ^ 2 * e00 + 2 * w.x * w.y * e01 + 2 * w.x * w.z * e02 + w.y ^ 2 * e11 + 2 * w.y * w.z * e12 + w.z ^ 2 * e22

/-- A function of the component of the new direction along a vector, averaged over cosine and azimuth. -/
theorem turned_average {u a b : Vec} (h : Frame3 u a b) (w : Vec) {f : ℝ → ℝ≥0∞} (hf : Measurable f) :
    ∫⁻ m in Ioo (-1 : ℝ) 1, ∫⁻ x, f (w.dot (turned u a b m x)) ∂Spec.unif = ∫⁻ m in Ioo (-1 : ℝ) 1, f (Real.sqrt (w.dot w) * m) := by
  have e := sphere_average ⟨w.dot b, -w.dot a, w.dot u⟩ hf
  have hmag : (Vec.mk (w.dot b) (-w.dot a) (w.dot u)).mag = Real.sqrt (w.dot w) := by
    unfold Vec.mag
    rw [← frame_pythagoras h w]
    congr 1
    simp only
    ring
  rw [hmag] at e
  rw [← e]
  refine lintegral_congr fun m => lintegral_congr fun x => ?_
  congr 1
  unfold turned velOf Vec.dot Vec.add Vec.smul
  simp only [Real.sqrt_one]
  ring

/-! ### The velocity after the collision -/

/-- The velocity of the neutron after a collision with a target of velocity `v`, for centre-of-mass cosine `m` and azimuth `2πx` about the axes
`a`, `b`. -/
noncomputable def Spec.scattered (a b : Vec → Vec) (A E : ℝ) (v : Vec) (m x : ℝ) : Vec :=
  let W := cmVelocity A ⟨0, 0, Real.sqrt E⟩ v
  let V := (Vec.mk 0 0 (Real.sqrt E)).sub W
  let u : Vec := ⟨V.x / V.mag, V.y / V.mag, V.z / V.mag⟩
  W.add ((turned u (a u) (b u) m x).smul V.mag)

/-- Cosine and energy of a velocity. -/
noncomputable def Spec.cosEnergy (v : Vec) : ℝ × ℝ := (v.z / v.mag, v.dot v)

/-- The direction of motion in the centre of mass. -/
noncomputable def cmDir (A s : ℝ) (v : Vec) : Vec :=
  let V := (Vec.mk 0 0 s).sub (cmVelocity A ⟨0, 0, s⟩ v)
  ⟨V.x / V.mag, V.y / V.mag, V.z / V.mag⟩

theorem cm_rel {A : ℝ} (hA : 0 < A) (vn v : Vec) : vn.sub (cmVelocity A vn v) = (vn.sub v).smul (A / (A + 1)) := by
  have : A + 1 ≠ 0 := by linarith
  unfold cmVelocity Vec.sub Vec.smul
  simp only [Vec.mk.injEq]
  refine ⟨?_, ?_, ?_⟩ <;> field_simp <;> ring

theorem mag_smul {c : ℝ} (hc : 0 ≤ c) (v : Vec) : (v.smul c).mag = c * Real.sqrt (v.dot v) := by
  unfold Vec.mag Vec.smul Vec.dot
  simp only
  rw [show v.x * c * (v.x * c) + v.y * c * (v.y * c) + v.z * c * (v.z * c) = c ^ 2 * (v.x * v.x + v.y * v.y + v.z * v.z) by ring, Real.sqrt_mul (sq_nonneg c),
    Real.sqrt_sq hc]

theorem frame_turned {u a b : Vec} (h : Frame3 u a b) {m : ℝ} (h1 : -1 ≤ m) (h2 : m ≤ 1) (x : ℝ) : (turned u a b m x).dot (turned u a b m x) = 1 := by
  obtain ⟨e1, e2, e3, e4, e5, e6⟩ := h
  have hcs := Real.sin_sq_add_cos_sq (2 * π * x)
  have hm : Real.sqrt (1 - m * m) ^ 2 = 1 - m * m := Real.sq_sqrt (by nlinarith)
  unfold turned Vec.dot Vec.add Vec.smul at *
  simp only
  generalize Real.sqrt (1 - m * m) = C at *
  generalize Real.cos (2 * π * x) = c at *
  generalize Real.sin (2 * π * x) = s at *
  linear_combination m ^ 2 * e1 + C ^ 2 * c ^ 2 * e2 + C ^ 2 * s ^ 2 * e3 + 2 * m * C * c * e4 + 2 * m * C * s * e5 + 2 * C ^ 2 * c * s * e6 + C ^ 2 * hcs + hm

/-- The energy after the collision. -/
theorem scattered_energy {a b : Vec → Vec} (hab : ∀ u, IsUnit3 u → Frame3 u (a u) (b u)) {A E : ℝ} {v : Vec}
    (hV : ((Vec.mk 0 0 (Real.sqrt E)).sub (cmVelocity A ⟨0, 0, Real.sqrt E⟩ v)).mag ≠ 0) {m : ℝ} (h1 : -1 ≤ m) (h2 : m ≤ 1) (x : ℝ) :
    (scattered a b A E v m x).dot (scattered a b A E v m x) =
      (cmVelocity A ⟨0, 0, Real.sqrt E⟩ v).dot (cmVelocity A ⟨0, 0, Real.sqrt E⟩ v) +
        ((Vec.mk 0 0 (Real.sqrt E)).sub (cmVelocity A ⟨0, 0, Real.sqrt E⟩ v)).mag ^ 2 +
        2 * ((Vec.mk 0 0 (Real.sqrt E)).sub (cmVelocity A ⟨0, 0, Real.sqrt E⟩ v)).mag *
          (cmVelocity A ⟨0, 0, Real.sqrt E⟩ v).dot (turned (cmDir A (Real.sqrt E) v) (a (cmDir A (Real.sqrt E) v)) (b (cmDir A (Real.sqrt E) v)) m x) := by
  have hu := frame_turned (hab _ (sdiv_unit hV)) h1 h2 x
  unfold scattered cmDir
  simp only
  generalize cmVelocity A ⟨0, 0, Real.sqrt E⟩ v = W at *
  generalize turned _ _ _ m x = d at *
  generalize ((Vec.mk 0 0 (Real.sqrt E)).sub W).mag = S at *
  unfold Vec.dot Vec.add Vec.smul at *
  simp only
  linear_combination S ^ 2 * hu


theorem measurable_mag {γ : Type} [MeasurableSpace γ] {f : γ → Vec} (hf : Measurable f) : Measurable fun t => (f t).mag := by
  have hx := measurable_x.comp hf
  have hy := measurable_y.comp hf
  have hz := measurable_z.comp hf
  unfold Vec.mag
  exact Real.continuous_sqrt.measurable.comp (((hx.mul hx).add (hy.mul hy)).add (hz.mul hz))

theorem measurable_dots {γ : Type} [MeasurableSpace γ] {f g : γ → Vec} (hf : Measurable f) (hg : Measurable g) : Measurable fun t => (f t).dot (g t) := by
  unfold Vec.dot
  exact (((measurable_x.comp hf).mul (measurable_x.comp hg)).add ((measurable_y.comp hf).mul (measurable_y.comp hg))).add
    ((measurable_z.comp hf).mul (measurable_z.comp hg))

theorem measurable_axisA : Measurable axisA := by
  have hx := measurable_x
  have hy := measurable_y
  have hz := measurable_z
  unfold axisA
  refine Measurable.ite ?_ (measurable_vec (by fun_prop) (by fun_prop) (by fun_prop)) (measurable_vec (by fun_prop) (by fun_prop) (by fun_prop))
  exact (show Measurable fun u : Vec => |1 - u.z * u.z| by fun_prop) measurableSet_Ioi

theorem measurable_axisB : Measurable axisB := by
  have hx := measurable_x
  have hy := measurable_y
  have hz := measurable_z
  unfold axisB
  refine Measurable.ite ?_ (measurable_vec (by fun_prop) (by fun_prop) (by fun_prop)) (measurable_vec (by fun_prop) (by fun_prop) (by fun_prop))
  exact (show Measurable fun u : Vec => |1 - u.z * u.z| by fun_prop) measurableSet_Ioi

theorem measurable_cmv (A s : ℝ) : Measurable fun v : Vec => cmVelocity A ⟨0, 0, s⟩ v := by
  have hx := measurable_x
  have hy := measurable_y
  have hz := measurable_z
  unfold cmVelocity
  exact measurable_vec (by fun_prop) (by fun_prop) (by fun_prop)

theorem measurable_cmRel (A s : ℝ) : Measurable fun v : Vec => (Vec.mk 0 0 s).sub (cmVelocity A ⟨0, 0, s⟩ v) := by
  have h := measurable_cmv A s
  exact measurable_vec (measurable_const.sub (measurable_x.comp h)) (measurable_const.sub (measurable_y.comp h)) (measurable_const.sub (measurable_z.comp h))

theorem measurable_cmDir (A s : ℝ) : Measurable (cmDir A s) := by
  have h := measurable_cmRel A s
  have hm := measurable_mag h
  exact measurable_vec ((measurable_x.comp h).div hm) ((measurable_y.comp h).div hm) ((measurable_z.comp h).div hm)

theorem measurable_scattered {a b : Vec → Vec} (ha : Measurable a) (hb : Measurable b) (A E : ℝ) :
    Measurable fun q : (Vec × ℝ) × ℝ => scattered a b A E q.1.1 q.1.2 q.2 := by
  have hv : Measurable fun q : (Vec × ℝ) × ℝ => q.1.1 := measurable_fst.comp measurable_fst
  have hm : Measurable fun q : (Vec × ℝ) × ℝ => q.1.2 := measurable_snd.comp measurable_fst
  have hW := (measurable_cmv A (Real.sqrt E)).comp hv
  have hS := measurable_mag ((measurable_cmRel A (Real.sqrt E)).comp hv)
  have hu := (measurable_cmDir A (Real.sqrt E)).comp hv
  have hA := ha.comp hu
  have hB := hb.comp hu
  have hC : Measurable fun q : (Vec × ℝ) × ℝ => Real.sqrt (1 - q.1.2 * q.1.2) := by fun_prop
  have hc : Measurable fun q : (Vec × ℝ) × ℝ => Real.cos (2 * π * q.2) := by fun_prop
  have hs : Measurable fun q : (Vec × ℝ) × ℝ => Real.sin (2 * π * q.2) := by fun_prop
  have comp : ∀ (p : Vec → ℝ), Measurable p → Measurable fun q : (Vec × ℝ) × ℝ => p (cmVelocity A ⟨0, 0, Real.sqrt E⟩ q.1.1) +
      (p (cmDir A (Real.sqrt E) q.1.1) * q.1.2 + (p (a (cmDir A (Real.sqrt E) q.1.1)) * Real.cos (2 * π * q.2) +
        p (b (cmDir A (Real.sqrt E) q.1.1)) * Real.sin (2 * π * q.2)) * Real.sqrt (1 - q.1.2 * q.1.2)) *
        ((Vec.mk 0 0 (Real.sqrt E)).sub (cmVelocity A ⟨0, 0, Real.sqrt E⟩ q.1.1)).mag := by
    intro p hp
    exact (hp.comp hW).add ((((hp.comp hu).mul hm).add ((((hp.comp hA).mul hc).add ((hp.comp hB).mul hs)).mul hC)).mul hS)
  exact measurable_vec (comp _ measurable_x) (comp _ measurable_y) (comp _ measurable_z)

theorem measurable_cosEnergy : Measurable cosEnergy :=
  (measurable_z.div (measurable_mag measurable_id)).prodMk measurable_sqr

/-- The energy after a collision with isotropic scattering in the centre of mass, averaged over directions. -/
theorem energy_average {a b : Vec → Vec} (hab : ∀ u, IsUnit3 u → Frame3 u (a u) (b u)) {A E : ℝ} (hA : 0 < A) {v : Vec}
    (hV : 0 < ((Vec.mk 0 0 (Real.sqrt E)).sub v).dot ((Vec.mk 0 0 (Real.sqrt E)).sub v)) {T : Set ℝ} (hT : MeasurableSet T) :
    ENNReal.ofReal (1 / 2) * ∫⁻ m in Ioo (-1 : ℝ) 1, ∫⁻ x, T.indicator 1 ((scattered a b A E v m x).dot (scattered a b A E v m x)) ∂Spec.unif =
      dirAvg (A / (A + 1)) T (((Vec.mk 0 0 (Real.sqrt E)).sub v).dot ((Vec.mk 0 0 (Real.sqrt E)).sub v))
        ((cmVelocity A ⟨0, 0, Real.sqrt E⟩ v).dot (cmVelocity A ⟨0, 0, Real.sqrt E⟩ v)) := by
  have ha0 : 0 < A / (A + 1) := by positivity
  have hmag : ((Vec.mk 0 0 (Real.sqrt E)).sub (cmVelocity A ⟨0, 0, Real.sqrt E⟩ v)).mag =
      A / (A + 1) * Real.sqrt (((Vec.mk 0 0 (Real.sqrt E)).sub v).dot ((Vec.mk 0 0 (Real.sqrt E)).sub v)) := by
    rw [cm_rel hA, mag_smul ha0.le]
  have hS : 0 < A / (A + 1) * Real.sqrt (((Vec.mk 0 0 (Real.sqrt E)).sub v).dot ((Vec.mk 0 0 (Real.sqrt E)).sub v)) :=
    mul_pos ha0 (Real.sqrt_pos.mpr hV)
  have hne : ((Vec.mk 0 0 (Real.sqrt E)).sub (cmVelocity A ⟨0, 0, Real.sqrt E⟩ v)).mag ≠ 0 := by rw [hmag]; exact hS.ne'
  have hq := Real.sq_sqrt hV.le
  unfold dirAvg
  congr 1
  have e1 : ∫⁻ m in Ioo (-1 : ℝ) 1, ∫⁻ x, T.indicator (1 : ℝ → ℝ≥0∞) ((scattered a b A E v m x).dot (scattered a b A E v m x)) ∂Spec.unif =
      ∫⁻ m in Ioo (-1 : ℝ) 1, ∫⁻ x, T.indicator (1 : ℝ → ℝ≥0∞) ((cmVelocity A ⟨0, 0, Real.sqrt E⟩ v).dot (cmVelocity A ⟨0, 0, Real.sqrt E⟩ v) +
        ((Vec.mk 0 0 (Real.sqrt E)).sub (cmVelocity A ⟨0, 0, Real.sqrt E⟩ v)).mag ^ 2 +
        2 * ((Vec.mk 0 0 (Real.sqrt E)).sub (cmVelocity A ⟨0, 0, Real.sqrt E⟩ v)).mag *
          (cmVelocity A ⟨0, 0, Real.sqrt E⟩ v).dot (turned (cmDir A (Real.sqrt E) v) (a (cmDir A (Real.sqrt E) v)) (b (cmDir A (Real.sqrt E) v)) m x)) ∂Spec.unif :=
    setLIntegral_congr_fun measurableSet_Ioo fun m hm => lintegral_congr fun x => by rw [scattered_energy hab hne hm.1.le hm.2.le x]
  rw [e1, hmag]
  have mT : Measurable (T.indicator (1 : ℝ → ℝ≥0∞)) := measurable_one.indicator hT
  rw [turned_average (show Frame3 (cmDir A (Real.sqrt E) v) (a (cmDir A (Real.sqrt E) v)) (b (cmDir A (Real.sqrt E) v)) from hab _ (sdiv_unit hne)) (cmVelocity A ⟨0, 0, Real.sqrt E⟩ v)
    (f := fun t => T.indicator (1 : ℝ → ℝ≥0∞) ((cmVelocity A ⟨0, 0, Real.sqrt E⟩ v).dot (cmVelocity A ⟨0, 0, Real.sqrt E⟩ v) +
      (A / (A + 1) * Real.sqrt (((Vec.mk 0 0 (Real.sqrt E)).sub v).dot ((Vec.mk 0 0 (Real.sqrt E)).sub v))) ^ 2 +
      2 * (A / (A + 1) * Real.sqrt (((Vec.mk 0 0 (Real.sqrt E)).sub v).dot ((Vec.mk 0 0 (Real.sqrt E)).sub v))) * t)) (mT.comp (by fun_prop))]
  refine lintegral_congr fun m => ?_
  rw [mul_pow, hq]

/-- A collision at positive relative speed almost never stops the neutron. -/
theorem dirAvg_zero {A q w : ℝ} (hA : 0 < A) (hq : 0 < q) (hw : 0 ≤ w) : dirAvg (A / (A + 1)) {0} q w = 0 := by
  have ha : 0 < A / (A + 1) := by positivity
  obtain ⟨S, hS⟩ : ∃ S, S = A / (A + 1) * Real.sqrt q := ⟨_, rfl⟩
  have hS0 : 0 < S := by rw [hS]; exact mul_pos ha (Real.sqrt_pos.mpr hq)
  have hS2 : S ^ 2 = (A / (A + 1)) ^ 2 * q := by rw [hS, mul_pow, Real.sq_sqrt hq.le]
  have hw2 := Real.sq_sqrt hw
  have hw0 := Real.sqrt_nonneg w
  unfold dirAvg
  rw [← hS2, ← hS]
  have : ∀ c ∈ Ioo (-1 : ℝ) 1, ({0} : Set ℝ).indicator (1 : ℝ → ℝ≥0∞) (w + S ^ 2 + 2 * S * (Real.sqrt w * c)) = 0 := by
    intro c hc
    refine indicator_of_notMem ?_ _
    rw [mem_singleton_iff]
    obtain ⟨c1, c2⟩ := hc
    intro h0
    rcases hw0.eq_or_lt with h | h
    · rw [← h] at h0 hw2; nlinarith
    · have : 0 < S * Real.sqrt w * (1 + c) := mul_pos (mul_pos hS0 h) (by linarith)
      nlinarith [sq_nonneg (Real.sqrt w - S)]
  rw [setLIntegral_congr_fun measurableSet_Ioo this]
  simp

/-! ### The sampler -/

/-- The collision for given values of the quantities drawn. -/
noncomputable def gasHit (A kT E : ℝ) (q : (Vec × ℝ) × ℝ) : Res (ℝ × ℝ) :=
  ((Elastic.mk (fun _ _ k => .ok (q.1.2, k)) A kT false 0 none).collide E ⟨0, 0, Real.sqrt E⟩ q.1.1 (fun _ => q.2) 0).map fun r => (r.1, r.2.1)

theorem gasHit_ok {A kT E : ℝ} (hA : 0 < A) {v : Vec} {m x : ℝ} (h1 : -1 ≤ m) (h2 : m ≤ 1) (h3 : 0 ≤ x) (h4 : x ≤ 1)
    (hV : ((Vec.mk 0 0 (Real.sqrt E)).sub (cmVelocity A ⟨0, 0, Real.sqrt E⟩ v)).mag ≠ 0)
    (he : (scattered axisA axisB A E v m x).dot (scattered axisA axisB A E v m x) ≠ 0) :
    gasHit A kT E ((v, m), x) = .ok (cosEnergy (scattered axisA axisB A E v m x)) := by
  have hA1 : A + 1 ≠ 0 := by linarith
  unfold gasHit Elastic.collide
  simp only
  rw [sdiv_ok hA1]
  simp only [bind, Except.bind]
  have hcm : (⟨((Vec.mk 0 0 (Real.sqrt E)).add (v.smul A)).x / (A + 1), ((Vec.mk 0 0 (Real.sqrt E)).add (v.smul A)).y / (A + 1),
      ((Vec.mk 0 0 (Real.sqrt E)).add (v.smul A)).z / (A + 1)⟩ : Vec) = cmVelocity A ⟨0, 0, Real.sqrt E⟩ v := by
    unfold cmVelocity Vec.add Vec.smul
    simp only [Vec.mk.injEq]
    refine ⟨?_, ?_, ?_⟩ <;> ring
  rw [hcm, sdiv_ok hV]
  simp only
  rw [rotate_turned (sdiv_unit hV) h1 h2 h3 h4]
  simp only
  have hout : ((turned (cmDir A (Real.sqrt E) v) (axisA (cmDir A (Real.sqrt E) v)) (axisB (cmDir A (Real.sqrt E) v)) m x).smul
      ((Vec.mk 0 0 (Real.sqrt E)).sub (cmVelocity A ⟨0, 0, Real.sqrt E⟩ v)).mag).add (cmVelocity A ⟨0, 0, Real.sqrt E⟩ v) = scattered axisA axisB A E v m x := by
    unfold scattered cmDir Vec.add
    simp only [Vec.mk.injEq]
    refine ⟨?_, ?_, ?_⟩ <;> rw [add_comm]
  unfold cmDir at hout
  simp only at hout
  rw [hout]
  have hm : (scattered axisA axisB A E v m x).mag ≠ 0 := by
    intro h0
    have := mag_sq (scattered axisA axisB A E v m x)
    rw [h0] at this
    apply he
    unfold Vec.dot
    linarith
  rw [sdiv_ok hm]
  have hs := mag_sq (scattered axisA axisB A E v m x)
  simp only [Except.map, pure, Except.pure, Except.ok.injEq]
  unfold cosEnergy Vec.dot
  simp only [Prod.mk.injEq]
  refine ⟨by ring, ?_⟩
  rw [hs]; ring

end PNDL
