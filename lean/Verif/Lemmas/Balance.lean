import Verif.Lemmas.Rotate
import Verif.Lemmas.GammaLaw

/-! The symmetry between the velocities before and after a collision of two particles. -/
namespace PNDL
open MeasureTheory Spec Set
open scoped ENNReal Real

/-- Average over the directions in the centre of mass of the event that the energy is in `T`: `q` is the square of the relative velocity, `w` the
one of the velocity of the centre of mass, `a` the mass fraction of the target. -/
noncomputable def dirAvg (a : ℝ) (T : Set ℝ) (q w : ℝ) : ℝ≥0∞ :=
  ENNReal.ofReal (1 / 2) * ∫⁻ c in Ioo (-1 : ℝ) 1, T.indicator 1 (w + a ^ 2 * q + 2 * (a * Real.sqrt q) * (Real.sqrt w * c))

theorem measurable_dirAvg (a : ℝ) {T : Set ℝ} (hT : MeasurableSet T) : Measurable fun p : ℝ × ℝ => dirAvg a T p.1 p.2 := by
  unfold dirAvg
  refine Measurable.const_mul ?_ _
  have h : Measurable fun p : (ℝ × ℝ) × ℝ => T.indicator (1 : ℝ → ℝ≥0∞) (p.1.2 + a ^ 2 * p.1.1 + 2 * (a * Real.sqrt p.1.1) * (Real.sqrt p.1.2 * p.2)) :=
    (measurable_one.indicator hT).comp (by fun_prop)
  exact h.lintegral_prod_right'

/-- A function of the speed alone. -/
theorem lintegral_radial {f : ℝ → ℝ≥0∞} (hf : Measurable f) :
    ∫⁻ v : Vec, f (v.dot v) ∂vecVolume = ENNReal.ofReal (2 * π) * ∫⁻ s in Ioi (0 : ℝ), ENNReal.ofReal (Real.sqrt s) * f s := by
  have hpi := Real.pi_pos
  rw [lintegral_velocity one_pos _ (show Measurable fun v : Vec => f (v.dot v) from hf.comp measurable_sqr), ← lintegral_const_mul' _ _ ENNReal.ofReal_ne_top]
  refine setLIntegral_congr_fun measurableSet_Ioi fun s hs => ?_
  have hs : 0 < s := hs
  have : ∀ m ∈ Ioo (-1 : ℝ) 1, ∫⁻ x, ENNReal.ofReal (π * 1 ^ 3 * Real.sqrt s) * f ((velOf 1 s m x).dot (velOf 1 s m x)) ∂Spec.unif =
      ENNReal.ofReal (π * Real.sqrt s) * f s := by
    intro m hm
    simp only [velOf_unit hs hm.1 hm.2, one_pow, mul_one]
    rw [lintegral_const, Spec.unif]
    simp
  rw [setLIntegral_congr_fun measurableSet_Ioo this, setLIntegral_const, Real.volume_Ioo, ← mul_assoc, mul_comm, ← mul_assoc,
    ← ENNReal.ofReal_mul (by norm_num), ← ENNReal.ofReal_mul (by positivity)]
  congr 2
  ring

/-- The average over the direction of the relative velocity. -/
theorem lintegral_relative (a : ℝ) (V : Vec) {S : Set ℝ} (hS : MeasurableSet S) {g : ℝ → ℝ≥0∞} (hg : Measurable g) :
    ∫⁻ r : Vec, S.indicator 1 (V.dot V + a ^ 2 * r.dot r + 2 * a * V.dot r) * g (r.dot r) ∂vecVolume =
      ENNReal.ofReal (2 * π) * ∫⁻ s in Ioi (0 : ℝ), ENNReal.ofReal (Real.sqrt s) * (dirAvg a S s (V.dot V) * g s) := by
  have hpi := Real.pi_pos
  have mS : Measurable (S.indicator (1 : ℝ → ℝ≥0∞)) := measurable_one.indicator hS
  have hmag : V.mag = Real.sqrt (V.dot V) := rfl
  have mh : Measurable fun p : ℝ × ℝ => S.indicator (1 : ℝ → ℝ≥0∞) (V.dot V + a ^ 2 * p.1 + 2 * a * p.2) * g p.1 :=
    (mS.comp (by fun_prop)).mul (hg.comp measurable_fst)
  rw [lintegral_turn V mh]
  have m2 : Measurable fun v : Vec => S.indicator (1 : ℝ → ℝ≥0∞) (V.dot V + a ^ 2 * v.dot v + 2 * a * (V.mag * v.z)) * g (v.dot v) :=
    mh.comp (measurable_sqr.prodMk (measurable_const.mul measurable_z))
  rw [lintegral_velocity one_pos _ m2, ← lintegral_const_mul' _ _ ENNReal.ofReal_ne_top]
  refine setLIntegral_congr_fun measurableSet_Ioi fun s hs => ?_
  have hs : 0 < s := hs
  have : ∀ m ∈ Ioo (-1 : ℝ) 1, ∫⁻ x, ENNReal.ofReal (π * 1 ^ 3 * Real.sqrt s) * (S.indicator (1 : ℝ → ℝ≥0∞)
      (V.dot V + a ^ 2 * (velOf 1 s m x).dot (velOf 1 s m x) + 2 * a * (V.mag * (velOf 1 s m x).z)) * g ((velOf 1 s m x).dot (velOf 1 s m x))) ∂Spec.unif =
      (ENNReal.ofReal (π * Real.sqrt s) * g s) * S.indicator 1 (V.dot V + a ^ 2 * s + 2 * (a * Real.sqrt s) * (Real.sqrt (V.dot V) * m)) := by
    intro m hm
    have hz : ∀ x, (velOf 1 s m x).z = Real.sqrt s * m := fun x => by unfold velOf; simp
    simp only [velOf_unit hs hm.1 hm.2, one_pow, mul_one, hz]
    rw [lintegral_const, Spec.unif, hmag]
    have e : V.dot V + a ^ 2 * s + 2 * a * (Real.sqrt (V.dot V) * (Real.sqrt s * m)) = V.dot V + a ^ 2 * s + 2 * (a * Real.sqrt s) * (Real.sqrt (V.dot V) * m) := by ring
    rw [e]
    simp only [Measure.restrict_apply_univ, Real.volume_Icc, sub_zero, ENNReal.ofReal_one, mul_one]
    ring
  rw [setLIntegral_congr_fun measurableSet_Ioo this, lintegral_const_mul _ (show Measurable fun m : ℝ => S.indicator (1 : ℝ → ℝ≥0∞) (V.dot V + a ^ 2 * s + 2 * (a * Real.sqrt s) * (Real.sqrt (V.dot V) * m)) from
    mS.comp (by fun_prop))]
  unfold dirAvg
  obtain ⟨I, hI⟩ : ∃ I, I = ∫⁻ c in Ioo (-1 : ℝ) 1, S.indicator (1 : ℝ → ℝ≥0∞) (V.dot V + a ^ 2 * s + 2 * (a * Real.sqrt s) * (Real.sqrt (V.dot V) * c)) := ⟨_, rfl⟩
  rw [← hI]
  have : ENNReal.ofReal (π * Real.sqrt s) = ENNReal.ofReal (2 * π) * ENNReal.ofReal (Real.sqrt s) * ENNReal.ofReal (1 / 2) := by
    rw [← ENNReal.ofReal_mul (by positivity), ← ENNReal.ofReal_mul (by positivity)]
    congr 1
    ring
  rw [this]
  ring

/-- The weight of a pair of velocities in a gas at equilibrium, times their relative speed. -/
noncomputable def pairWeight (A kT : ℝ) (vn vt : Vec) : ℝ :=
  Real.exp (-(vn.dot vn / kT)) * (Real.exp (-(A * vt.dot vt / kT)) * Real.sqrt ((vn.sub vt).dot (vn.sub vt)))

/-- The velocity of the centre of mass. -/
noncomputable def cmVec (A : ℝ) (vn vt : Vec) : Vec := ⟨(vn.x + A * vt.x) / (A + 1), (vn.y + A * vt.y) / (A + 1), (vn.z + A * vt.z) / (A + 1)⟩

theorem measurable_pair {f g : Vec × Vec → Vec} (hf : Measurable f) (hg : Measurable g) : Measurable fun p => (f p).dot (g p) := by
  have hx := measurable_x
  have hy := measurable_y
  have hz := measurable_z
  unfold Vec.dot
  fun_prop

theorem measurable_subs : Measurable fun p : Vec × Vec => p.1.sub p.2 := by
  have hx := measurable_x
  have hy := measurable_y
  have hz := measurable_z
  exact measurable_vec (by fun_prop) (by fun_prop) (by fun_prop)

theorem measurable_cm (A : ℝ) : Measurable fun p : Vec × Vec => cmVec A p.1 p.2 := by
  have hx := measurable_x
  have hy := measurable_y
  have hz := measurable_z
  exact measurable_vec (by fun_prop) (by fun_prop) (by fun_prop)

theorem measurable_pairWeight (A kT : ℝ) : Measurable fun p : Vec × Vec => pairWeight A kT p.1 p.2 := by
  unfold pairWeight
  have h1 := measurable_pair measurable_fst measurable_fst
  have h2 := measurable_pair measurable_snd measurable_snd
  have h3 := measurable_pair measurable_subs measurable_subs
  fun_prop

/-- The rate of collisions from energies in `S` to energies in `T`. -/
noncomputable def pairRate (A kT : ℝ) (S T : Set ℝ) : ℝ≥0∞ :=
  ∫⁻ vn, ∫⁻ vt, S.indicator 1 (vn.dot vn) * (ENNReal.ofReal (pairWeight A kT vn vt) *
    dirAvg (A / (A + 1)) T ((vn.sub vt).dot (vn.sub vt)) ((cmVec A vn vt).dot (cmVec A vn vt))) ∂vecVolume ∂vecVolume

/-- In terms of the centre of mass. -/
theorem pairRate_cm {A kT : ℝ} (hA : 0 < A) {S T : Set ℝ} (hS : MeasurableSet S) (hT : MeasurableSet T) :
    pairRate A kT S T = ∫⁻ V : Vec, ENNReal.ofReal (2 * π) * (∫⁻ s in Ioi (0 : ℝ), ENNReal.ofReal (Real.sqrt s) * (dirAvg (A / (A + 1)) S s (V.dot V) *
      (ENNReal.ofReal (Real.exp (-(((A + 1) * V.dot V + A / (A + 1) * s) / kT)) * Real.sqrt s) * dirAvg (A / (A + 1)) T s (V.dot V)))) ∂vecVolume := by
  obtain ⟨a, ha⟩ : ∃ a, a = A / (A + 1) := ⟨_, rfl⟩
  have hA1 : A + 1 ≠ 0 := by linarith
  unfold pairRate
  rw [← ha]
  obtain ⟨F, hF⟩ : ∃ F : Vec × Vec → ℝ≥0∞, F = fun p => S.indicator 1 (p.1.dot p.1) * (ENNReal.ofReal (pairWeight A kT p.1 p.2) *
    dirAvg a T ((p.1.sub p.2).dot (p.1.sub p.2)) ((cmVec A p.1 p.2).dot (cmVec A p.1 p.2))) := ⟨_, rfl⟩
  have mF : Measurable F := by
    rw [hF]
    refine ((measurable_one.indicator hS).comp (measurable_pair measurable_fst measurable_fst)).mul ((measurable_pairWeight A kT).ennreal_ofReal.mul ?_)
    exact (measurable_dirAvg a hT).comp ((measurable_pair measurable_subs measurable_subs).prodMk (measurable_pair (measurable_cm A) (measurable_cm A)))
  have e0 : ∫⁻ vn, ∫⁻ vt, F (vn, vt) ∂vecVolume ∂vecVolume = ∫⁻ vn, ∫⁻ r, F (vn, vn.sub r) ∂vecVolume ∂vecVolume := by
    refine lintegral_congr fun vn => ?_
    exact (lintegral_mirror vn (f := fun vt => F (vn, vt)) (mF.comp measurable_prodMk_left)).symm
  have mF1 : Measurable fun p : Vec × Vec => F (p.1, p.1.sub p.2) := mF.comp (measurable_fst.prodMk measurable_subs)
  have e1 : ∫⁻ vn, ∫⁻ r, F (vn, vn.sub r) ∂vecVolume ∂vecVolume = ∫⁻ r, ∫⁻ vn, F (vn, vn.sub r) ∂vecVolume ∂vecVolume :=
    lintegral_lintegral_swap (f := fun vn r => F (vn, vn.sub r)) mF1.aemeasurable
  have e2 : ∫⁻ r, ∫⁻ vn, F (vn, vn.sub r) ∂vecVolume ∂vecVolume = ∫⁻ r, ∫⁻ V, F (V.add (r.smul a), (V.add (r.smul a)).sub r) ∂vecVolume ∂vecVolume := by
    refine lintegral_congr fun r => ?_
    exact (lintegral_translate (r.smul a) (f := fun vn => F (vn, vn.sub r)) (mF1.comp measurable_prodMk_right)).symm
  have hx := measurable_x
  have hy := measurable_y
  have hz := measurable_z
  have mF2 : Measurable fun p : Vec × Vec => F (p.2.add (p.1.smul a), (p.2.add (p.1.smul a)).sub p.1) :=
    mF1.comp ((measurable_vec (a := fun p : Vec × Vec => p.2.x + p.1.x * a) (b := fun p => p.2.y + p.1.y * a) (c := fun p => p.2.z + p.1.z * a)
      (by fun_prop) (by fun_prop) (by fun_prop)).prodMk measurable_fst)
  have e3 : ∫⁻ r, ∫⁻ V, F (V.add (r.smul a), (V.add (r.smul a)).sub r) ∂vecVolume ∂vecVolume =
      ∫⁻ V, ∫⁻ r, F (V.add (r.smul a), (V.add (r.smul a)).sub r) ∂vecVolume ∂vecVolume :=
    lintegral_lintegral_swap (f := fun (r V : Vec) => F (V.add (r.smul a), (V.add (r.smul a)).sub r)) mF2.aemeasurable
  have e : ∫⁻ vn, ∫⁻ vt, F (vn, vt) ∂vecVolume ∂vecVolume = ∫⁻ V, ∫⁻ r, F (V.add (r.smul a), (V.add (r.smul a)).sub r) ∂vecVolume ∂vecVolume :=
    e0.trans (e1.trans (e2.trans e3))
  rw [hF] at e
  refine e.trans (lintegral_congr fun V => ?_)
  dsimp only
  have mg : Measurable fun q : ℝ => ENNReal.ofReal (Real.exp (-(((A + 1) * V.dot V + a * q) / kT)) * Real.sqrt q) * dirAvg a T q (V.dot V) := by
    refine Measurable.mul (by fun_prop) ?_
    exact (measurable_dirAvg a hT).comp (measurable_id.prodMk measurable_const)
  rw [← lintegral_relative a V hS mg]
  refine lintegral_congr fun r => ?_
  have q1 : (V.add (r.smul a)).dot (V.add (r.smul a)) = V.dot V + a ^ 2 * r.dot r + 2 * a * V.dot r := by
    unfold Vec.add Vec.smul Vec.dot; simp only; ring
  have q2 : (V.add (r.smul a)).sub ((V.add (r.smul a)).sub r) = r := by
    unfold Vec.sub
    simp only [sub_sub_cancel]
  have q3 : cmVec A (V.add (r.smul a)) ((V.add (r.smul a)).sub r) = V := by
    unfold cmVec Vec.add Vec.smul Vec.sub
    rw [ha]
    rcases V with ⟨x, y, z⟩
    simp only [Vec.mk.injEq]
    refine ⟨?_, ?_, ?_⟩ <;> field_simp <;> ring
  rw [q1, q2, q3]
  unfold pairWeight
  rw [q1, q2]
  congr 3
  rw [← mul_assoc, ← Real.exp_add]
  congr 2
  have q4 : ((V.add (r.smul a)).sub r).dot ((V.add (r.smul a)).sub r) = V.dot V + (a - 1) ^ 2 * r.dot r + 2 * (a - 1) * V.dot r := by
    unfold Vec.add Vec.smul Vec.sub Vec.dot; simp only; ring
  rw [q4, ha]
  field_simp
  ring

/-- **Detailed balance.** -/
theorem pairRate_symm {A kT : ℝ} (hA : 0 < A) {S T : Set ℝ} (hS : MeasurableSet S) (hT : MeasurableSet T) : pairRate A kT S T = pairRate A kT T S := by
  rw [pairRate_cm hA hS hT, pairRate_cm hA hT hS]
  refine lintegral_congr fun V => ?_
  congr 1
  refine lintegral_congr fun s => ?_
  ring

end PNDL
