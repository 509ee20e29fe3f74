import Verif.Lemmas.JointDraw
import Verif.Props.Kalbach
import Verif.Props.UnitBase

/-! C113: the law of the cosines and energies of Kalbach tables. -/
namespace PNDL
open MeasureTheory Spec Set
open scoped ENNReal

/-! ### The cosine -/

/-- The cosine of the even branch. -/
noncomputable def kmEven (A z : ℝ) : ℝ :=
  1 / A * Real.log ((2 * z - 1) * Real.sinh A + Real.sqrt ((2 * z - 1) * Real.sinh A * ((2 * z - 1) * Real.sinh A) + 1))

/-- The cosine of the forward branch. -/
noncomputable def kmForward (A z : ℝ) : ℝ := 1 / A * Real.log (z * Real.exp A + (1 - z) * Real.exp (-A))

open Classical in
/-- The cosine. -/
noncomputable def kmCosine (R A y z : ℝ) : ℝ := if y > R then kmEven A z else kmForward A z

theorem km_eval {R A y z : ℝ} (hA : A ≠ 0) (h0 : 0 ≤ z) (h1 : z ≤ 1) :
    kalbachCosine R A y z = .ok (kmCosine R A y z) ∧ -1 ≤ kmCosine R A y z ∧ kmCosine R A y z ≤ 1 := by
  have he : kalbachCosine R A y z = .ok (kmCosine R A y z) := by
    unfold kalbachCosine kmCosine
    by_cases h : y > R
    · rw [if_pos h, if_pos h]
      have hpos : 0 < (2 * z - 1) * Real.sinh A + Real.sqrt ((2 * z - 1) * Real.sinh A * ((2 * z - 1) * Real.sinh A) + 1) := by
        obtain ⟨T, hT⟩ : ∃ T, T = (2 * z - 1) * Real.sinh A := ⟨_, rfl⟩
        rw [← hT]
        have h2 : |T| < Real.sqrt (T * T + 1) := by
          rw [← Real.sqrt_sq_eq_abs]
          exact Real.sqrt_lt_sqrt (sq_nonneg T) (by nlinarith)
        have := neg_abs_le T
        linarith
      simp only [bind, Except.bind, rdiv_ok hA, clog_ok hpos]
      rfl
    · rw [if_neg h, if_neg h]
      have hpos : 0 < z * Real.exp A + (1 - z) * Real.exp (-A) := by
        have p1 := Real.exp_pos A
        have p2 := Real.exp_pos (-A)
        rcases h0.eq_or_lt with rfl | h0
        · simpa using p2
        · nlinarith [mul_pos h0 p1, mul_nonneg (sub_nonneg.mpr h1) p2.le]
      simp only [bind, Except.bind, rdiv_ok hA, clog_ok hpos]
      rfl
  obtain ⟨mu, hmu, a, b⟩ := C64_cosine_range R A y z hA h0 h1
  rw [he] at hmu
  cases hmu
  exact ⟨he, a, b⟩

theorem measurable_kmEven : Measurable fun q : ℝ × ℝ => kmEven q.1 q.2 := by
  unfold kmEven
  have : Measurable Real.sinh := Real.continuous_sinh.measurable
  fun_prop

theorem measurable_kmForward : Measurable fun q : ℝ × ℝ => kmForward q.1 q.2 := by
  unfold kmForward
  fun_prop

theorem measurable_kmCosine : Measurable fun q : (ℝ × ℝ) × ℝ × ℝ => kmCosine q.1.1 q.1.2 q.2.1 q.2.2 := by
  unfold kmCosine
  refine Measurable.ite ?_ ?_ ?_
  · exact measurableSet_lt (measurable_fst.comp measurable_fst) (measurable_fst.comp measurable_snd)
  · exact measurable_kmEven.comp ((measurable_snd.comp measurable_fst).prodMk (measurable_snd.comp measurable_snd))
  · exact measurable_kmForward.comp ((measurable_snd.comp measurable_fst).prodMk (measurable_snd.comp measurable_snd))

theorem even_law {A : ℝ} (hA : A ≠ 0) : Spec.unif.map (kmEven A) = densityOn (-1) 1 (kalbachEven A) := by
  have he : ∀ s, kalbachEven A s = kalbachMann A 0 s := fun s => by rw [C64_mixture]; ring
  refine unif_inverse (by norm_num) (measurable_kmEven.comp (measurable_const.prodMk measurable_id)) (fun x => ?_) ?_ ?_ fun x h0 h1 => ?_
  · rw [he]; exact kalbachMann_nonneg hA (by simp)
  · rw [show kalbachEven A = kalbachMann A 0 from funext he]; exact (kalbachMann_continuous A 0).intervalIntegrable _ _
  · rw [show kalbachEven A = kalbachMann A 0 from funext he]
    exact (C64_normalised A 0 hA _ (fun mu => C64_formula mu A 0 hA)).2
  · obtain ⟨mu, hmu, a, b, c⟩ := C64_cosine_even 0 A 1 x hA one_pos h0 h1
    rw [(km_eval hA h0 h1).1, kmCosine, if_pos one_pos] at hmu
    cases hmu
    exact ⟨a, b, c⟩

theorem forward_law {A : ℝ} (hA : A ≠ 0) : Spec.unif.map (kmForward A) = densityOn (-1) 1 (kalbachForward A) := by
  have he : ∀ s, kalbachForward A s = kalbachMann A 1 s := fun s => kalbachForward_eq
  refine unif_inverse (by norm_num) (measurable_kmForward.comp (measurable_const.prodMk measurable_id)) (fun x => ?_) ?_ ?_ fun x h0 h1 => ?_
  · rw [he]; exact kalbachMann_nonneg hA (by simp)
  · rw [show kalbachForward A = kalbachMann A 1 from funext he]; exact (kalbachMann_continuous A 1).intervalIntegrable _ _
  · rw [show kalbachForward A = kalbachMann A 1 from funext he]
    exact (C64_normalised A 1 hA _ (fun mu => C64_formula mu A 1 hA)).2
  · obtain ⟨mu, hmu, a, b, c⟩ := C64_cosine_forward 1 A 1 x hA le_rfl h0 h1
    rw [(km_eval hA h0 h1).1, kmCosine, if_neg (lt_irrefl _)] at hmu
    cases hmu
    exact ⟨a, b, c⟩

theorem closed_unique {α : Type} [MeasurableSpace α] {run : Nat → Tape → Nat → Res (α × Nat)} {μ μ' : Measure α} (h : Closed run μ) (h' : Closed run μ') : μ = μ' :=
  Measure.ext fun S hS => ((h.samples 0) S hS).symm.trans ((h'.samples 0) S hS)

/-- The law of the cosine for given parameters. -/
theorem kmCosine_law {R A : ℝ} (hA : A ≠ 0) (h0 : 0 ≤ R) (h1 : R ≤ 1) :
    Spec.iid.map (fun ω => kmCosine R A (ω 0) (ω 1)) = densityOn (-1) 1 (kalbachMann A R) := by
  have hX : Measurable fun ω : Tape => kmCosine R A (ω 0) (ω 1) :=
    measurable_kmCosine.comp ((measurable_const (a := (R, A))).prodMk ((measurable_pi_apply (X := fun _ : Nat => ℝ) 0).prodMk (measurable_pi_apply (X := fun _ : Nat => ℝ) 1)))
  have c1 : Closed (fun (_ : Nat) (ω : Tape) (k : Nat) => ((Except.ok (kmEven A (ω k)) : Res ℝ)).map fun x => (x, k + 1)) (densityOn (-1) 1 (kalbachEven A)) := by
    rw [← even_law hA]
    exact closed_one (g := fun x => .ok (kmEven A x)) (measurable_kmEven.comp (measurable_const.prodMk measurable_id)) fun _ _ _ => rfl
  have c2 : Closed (fun (_ : Nat) (ω : Tape) (k : Nat) => ((Except.ok (kmForward A (ω k)) : Res ℝ)).map fun x => (x, k + 1)) (densityOn (-1) 1 (kalbachForward A)) := by
    rw [← forward_law hA]
    exact closed_one (g := fun x => .ok (kmForward A x)) (measurable_kmForward.comp (measurable_const.prodMk measurable_id)) fun _ _ _ => rfl
  have hm := closed_mix h0 h1 c1 c2
  rw [← densityOn_mix h0 h1 ?_ (fun x _ _ => ?_) fun x _ _ => ?_] at hm
  rotate_left
  · have : Continuous (kalbachEven A) := by
      have : kalbachEven A = kalbachMann A 0 := funext fun s => by rw [C64_mixture]; ring
      rw [this]; exact kalbachMann_continuous A 0
    exact this.measurable.aemeasurable
  · have : kalbachEven A x = kalbachMann A 0 x := by rw [C64_mixture]; ring
    rw [this]; exact kalbachMann_nonneg hA (by simp)
  · rw [kalbachForward_eq]; exact kalbachMann_nonneg hA (by simp)
  have he : (fun x => (1 - R) * kalbachEven A x + R * kalbachForward A x) = kalbachMann A R := funext fun x => (C64_mixture A R x).symm
  rw [he] at hm
  refine closed_unique (closed_fixed (n := 2) (X := fun ω => kmCosine R A (ω 0) (ω 1)) hm.shift hX (fun ω ω' h => by rw [h 0 (by norm_num), h 1 (by norm_num)]) ?_) hm
  refine Filter.Eventually.of_forall fun ω fuel => ?_
  simp only [kmCosine]
  by_cases hc : ω 0 > R
  · rw [if_pos hc, if_pos hc]; rfl
  · rw [if_neg hc, if_neg hc]; rfl

/-! ### The parameters -/

theorem measurable_lowerBound {l : List ℝ} (hs : l.Pairwise (· ≤ ·)) : Measurable fun E : ℝ => lowerBound l E := by
  refine Monotone.measurable fun x y hxy => ?_
  by_contra hc
  have hlt : lowerBound l y < l.length := lt_of_lt_of_le (not_le.mp hc) (lowerBound_le hs x)
  obtain ⟨a, ha⟩ := getElem?_of_lt (l := l) (i := lowerBound l y) hlt
  have h1 := (lowerBound_iff hs x ha).mpr (not_le.mp hc)
  have h2 := mt (lowerBound_iff hs y ha).mp (lt_irrefl _)
  linarith

open Classical in
/-- `R(E)`, `A(E)` as measurable functions. -/
theorem param_measurable {t : KalbachTable} (hv : ValidKT t) {ys : List ℝ} (hl : ys.length = t.energy.length) :
    ∃ r : ℝ → ℝ, Measurable r ∧ ∀ E, t.param ys E = .ok (r E) ∧ ∃ y0 ∈ ys, ∃ y1 ∈ ys, min y0 y1 ≤ r E ∧ r E ≤ max y0 y1 := by
  choose r hr using fun E => t.param_ok hv hl E
  refine ⟨r, ?_, hr⟩
  have hne : 0 < t.energy.length := List.length_pos_iff.mpr hv.pc.ne
  have hs : t.energy.Pairwise (· ≤ ·) := hv.pc.values_sorted
  obtain ⟨mn, hmn⟩ := getElem?_of_lt (l := t.energy) (i := 0) hne
  obtain ⟨mx, hmx⟩ := last_exists (l := t.energy) hne
  obtain ⟨y0, hy0⟩ := getElem?_of_lt (l := ys) (i := 0) (by omega)
  obtain ⟨yn, hyn⟩ := last_exists (l := ys) (by omega)
  have he : r = fun E => if E ≤ mn then y0 else if mx ≤ E then yn else
      (fun p : Nat × ℝ => if t.interp = .histogram then ys.getD (p.1 - 1) 0 else
        (p.2 - t.energy.getD (p.1 - 1) 0) / (t.energy.getD p.1 0 - t.energy.getD (p.1 - 1) 0) * (ys.getD p.1 0 - ys.getD (p.1 - 1) 0) + ys.getD (p.1 - 1) 0)
      (lowerBound t.energy E, E) := by
    funext E
    have h := (hr E).1
    unfold KalbachTable.param at h
    simp only [front_eq_ok.mpr hmn, back_eq_ok.mpr hmx, bind, Except.bind] at h
    dsimp only
    by_cases h1 : E ≤ mn
    · rw [if_pos h1] at h ⊢
      rw [front_eq_ok.mpr hy0] at h
      exact (Except.ok.inj h).symm
    rw [if_neg h1] at h ⊢
    by_cases h2 : E ≥ mx
    · rw [if_pos h2] at h ⊢
      rw [back_eq_ok.mpr hyn] at h
      exact (Except.ok.inj h).symm
    rw [if_neg h2] at h ⊢
    obtain ⟨i, x1, x2, e3, e1, e2, e4, e5⟩ := bracket_index hs hmn hmx (not_le.mp h1) (not_le.mp h2).le
    have hlt := lt_length_of_some e2
    obtain ⟨a, ha⟩ := getElem?_of_lt (l := ys) (i := i) (by omega)
    obtain ⟨b, hb⟩ := getElem?_of_lt (l := ys) (i := i + 1) (by omega)
    rw [e3, subIdx_of_le (by omega)] at h
    rw [e3]
    simp only [Nat.add_sub_cancel, getAt_eq_ok.mpr e1, getAt_eq_ok.mpr e2, getAt_eq_ok.mpr ha, getAt_eq_ok.mpr hb] at h
    simp only [Nat.add_sub_cancel, List.getD_eq_getElem?_getD, ha, hb, e1, e2, Option.getD_some]
    have hd : x2 - x1 ≠ 0 := by intro h; linarith
    by_cases hh : t.interp = .histogram
    · rw [if_pos hh] at h ⊢
      exact (Except.ok.inj h).symm
    · rw [if_neg hh] at h ⊢
      simp only [Interpolation.interpolate, rdiv_ok hd, bind, Except.bind, pure, Except.pure] at h
      exact (Except.ok.inj h).symm
  rw [he]
  refine Measurable.ite measurableSet_Iic measurable_const (Measurable.ite measurableSet_Ici measurable_const ?_)
  refine Measurable.comp (g := (fun p : Nat × ℝ => if t.interp = .histogram then ys.getD (p.1 - 1) 0 else
        (p.2 - t.energy.getD (p.1 - 1) 0) / (t.energy.getD p.1 0 - t.energy.getD (p.1 - 1) 0) * (ys.getD p.1 0 - ys.getD (p.1 - 1) 0) + ys.getD (p.1 - 1) 0)) ?_
    ((measurable_lowerBound hs).prodMk measurable_id)
  refine measurable_from_prod_countable_right fun n => ?_
  dsimp only
  split_ifs
  · exact measurable_const
  · fun_prop

theorem measurable_kalbachMann {r s : ℝ → ℝ} (hr : Measurable r) (hs : Measurable s) : Measurable fun q : ℝ × ℝ => kalbachMann (s q.2) (r q.2) q.1 := by
  unfold kalbachMann
  have : Measurable Real.sinh := Real.continuous_sinh.measurable
  have : Measurable Real.cosh := Real.continuous_cosh.measurable
  fun_prop

/-- What `Kalbach::sample_angle_energy` does with the table it has chosen. -/
noncomputable def kalbachOne (t : KalbachTable) (mn mx lo hi x y z : ℝ) : Res (ℝ × ℝ) := do
  let e ← t.sampleEnergy x
  let r ← t.evalR e
  let s ← t.evalA e
  let q ← rdiv (e - mn) (mx - mn)
  let mu ← kalbachCosine r s y z
  return (clampMu mu, lo + q * (hi - lo))

/-- A Kalbach table that describes a distribution: the cumulative is the integral of the density, the slopes are positive and the
fractions between 0 and 1. -/
structure Spec.SoundKT (t : KalbachTable) : Prop where
  valid : ValidKT t
  consistent : ConsistentPC t.toPC
  slopes : ∀ a ∈ t.A, 0 < a
  fractions : ∀ r ∈ t.R, 0 ≤ r ∧ r ≤ 1


theorem kalbachOne_law {t : KalbachTable} (ht : SoundKT t) : ∃ (mn mx : ℝ) (G r s : ℝ → ℝ), t.minEnergy = .ok mn ∧ t.maxEnergy = .ok mx ∧ mn < mx ∧
    (∀ x, t.toPC.pdfAt x = .ok (G x) ∧ 0 ≤ G x) ∧ (∀ e, t.evalR e = .ok (r e) ∧ 0 ≤ r e ∧ r e ≤ 1) ∧ (∀ e, t.evalA e = .ok (s e) ∧ 0 < s e) ∧
    ∀ lo hi, lo < hi →
      AEMeasurable (fun q : ℝ × ℝ => (mx - mn) / (hi - lo) * G ((q.2 - lo) / (hi - lo) * (mx - mn) + mn) *
        kalbachMann (s ((q.2 - lo) / (hi - lo) * (mx - mn) + mn)) (r ((q.2 - lo) / (hi - lo) * (mx - mn) + mn)) q.1) (volume.restrict (Icc (-1) 1 ×ˢ Icc lo hi)) ∧
      Closed (fun _ ω k => (kalbachOne t mn mx lo hi (ω k) (ω (k + 1)) (ω (k + 2))).map fun x => (x, k + 3))
        (jointLaw lo hi fun mu e => (mx - mn) / (hi - lo) * G ((e - lo) / (hi - lo) * (mx - mn) + mn) *
          kalbachMann (s ((e - lo) / (hi - lo) * (mx - mn) + mn)) (r ((e - lo) / (hi - lo) * (mx - mn) + mn)) mu) := by
  obtain ⟨mn, mx, G, h, i1, i2, i3, i4, i5, i6, i7, i8, i9, i10⟩ := pctable_law t.toPC ht.valid.pc ht.consistent
  have hw : mn < mx := ht.consistent.toCovered.min_lt_max ht.valid.pc (front_eq_ok.mp i1) (back_eq_ok.mp i2)
  obtain ⟨r, mr, hr⟩ := param_measurable ht.valid ht.valid.lenR
  obtain ⟨s, ms, hs⟩ := param_measurable ht.valid ht.valid.lenA
  have hr' : ∀ e, t.evalR e = .ok (r e) ∧ 0 ≤ r e ∧ r e ≤ 1 := fun e => by
    obtain ⟨h1, y0, m0, y1, m1, h2, h3⟩ := hr e
    exact ⟨h1, (le_min (ht.fractions _ m0).1 (ht.fractions _ m1).1).trans h2, h3.trans (max_le (ht.fractions _ m0).2 (ht.fractions _ m1).2)⟩
  have hs' : ∀ e, t.evalA e = .ok (s e) ∧ 0 < s e := fun e => by
    obtain ⟨h1, y0, m0, y1, m1, h2, h3⟩ := hs e
    exact ⟨h1, lt_of_lt_of_le (lt_min (ht.slopes _ m0) (ht.slopes _ m1)) h2⟩
  refine ⟨mn, mx, G, r, s, i1, i2, hw, i4, hr', hs', fun lo hi hlh => ?_⟩
  have hc : Measurable fun q : ℝ × Tape => kmCosine (r (h q.1)) (s (h q.1)) (q.2 0) (q.2 1) :=
    measurable_kmCosine.comp ((((mr.comp i8).comp measurable_fst).prodMk ((ms.comp i8).comp measurable_fst)).prodMk
      (((measurable_pi_apply (X := fun _ : Nat => ℝ) 0).comp measurable_snd).prodMk ((measurable_pi_apply (X := fun _ : Nat => ℝ) 1).comp measurable_snd)))
  obtain ⟨j1, j2⟩ := joint_stretch (c := fun q : ℝ × Tape => kmCosine (r (h q.1)) (s (h q.1)) (q.2 0) (q.2 1)) (K := fun e => kalbachMann (s e) (r e)) hw hlh i8 i6 (fun x => (i4 x).2) i10 hc (measurable_kalbachMann mr ms)
    (Filter.Eventually.of_forall fun xi => kmCosine_law (hs' (h xi)).2.ne' (hr' (h xi)).2.1 (hr' (h xi)).2.2)
  refine ⟨j2, ?_⟩
  simp only [dropT_apply, Nat.add_zero, Nat.reduceAdd] at j1
  rw [← j1]
  have hX : Measurable fun ω : Tape => (kmCosine (r (h (ω 0))) (s (h (ω 0))) (ω 1) (ω 2), lo + (h (ω 0) - mn) / (mx - mn) * (hi - lo)) := by
    refine (measurable_kmCosine.comp (((mr.comp (i8.comp (measurable_pi_apply (X := fun _ : Nat => ℝ) 0))).prodMk (ms.comp (i8.comp (measurable_pi_apply (X := fun _ : Nat => ℝ) 0)))).prodMk
      ((measurable_pi_apply (X := fun _ : Nat => ℝ) 1).prodMk (measurable_pi_apply (X := fun _ : Nat => ℝ) 2)))).prodMk ?_
    exact (show Measurable fun x : ℝ => lo + (x - mn) / (mx - mn) * (hi - lo) by fun_prop).comp (i8.comp (measurable_pi_apply (X := fun _ : Nat => ℝ) 0))
  refine closed_three (body := kalbachOne t mn mx lo hi) (g := fun x y z => (kmCosine (r (h x)) (s (h x)) y z, lo + (h x - mn) / (mx - mn) * (hi - lo))) hX fun x y z x0 x1 y0 y1 z0 z1 => ?_
  obtain ⟨k1, k2, k3⟩ := km_eval (R := r (h x)) (y := y) (hs' (h x)).2.ne' z0 z1
  unfold kalbachOne KalbachTable.sampleEnergy
  rw [(i9 x x0 x1).1]
  simp only [bind, Except.bind]
  rw [(hr' (h x)).1]
  dsimp only
  rw [(hs' (h x)).1]
  simp only [rdiv_ok (show mx - mn ≠ 0 by linarith), k1, clampMu_of_mem k2 k3]
  rfl

theorem kalbach_closed (energy : List ℝ) (tables : List KalbachTable) (d : Kalbach) (hd : Kalbach.make energy tables = .ok d) (hn : 2 ≤ energy.length)
    (ht : ∀ t ∈ tables, SoundKT t) (E : ℝ) :
    ∃ (l : Nat) (f : ℝ) (t0 t1 : KalbachTable) (mn0 mx0 mn1 mx1 : ℝ) (G0 r0 s0 G1 r1 s1 : ℝ → ℝ), bracketIn energy E = .ok (l, f) ∧ 0 ≤ f ∧ f ≤ 1 ∧
      tables[l]? = some t0 ∧ tables[l + 1]? = some t1 ∧ t0.minEnergy = .ok mn0 ∧ t0.maxEnergy = .ok mx0 ∧ t1.minEnergy = .ok mn1 ∧ t1.maxEnergy = .ok mx1 ∧
      mn0 < mx0 ∧ mn1 < mx1 ∧
      (∀ e, t0.toPC.pdfAt e = .ok (G0 e) ∧ t0.evalR e = .ok (r0 e) ∧ t0.evalA e = .ok (s0 e)) ∧
      (∀ e, t1.toPC.pdfAt e = .ok (G1 e) ∧ t1.evalR e = .ok (r1 e) ∧ t1.evalA e = .ok (s1 e)) ∧
      (∀ mu e, -1 ≤ mu → mu ≤ 1 → 0 ≤ stretched f mn0 mx0 mn1 mx1 (fun e => G0 e * kalbachMann (s0 e) (r0 e) mu) (fun e => G1 e * kalbachMann (s1 e) (r1 e) mu) e) ∧
      AEMeasurable (fun q : ℝ × ℝ => stretched f mn0 mx0 mn1 mx1 (fun e => G0 e * kalbachMann (s0 e) (r0 e) q.1) (fun e => G1 e * kalbachMann (s1 e) (r1 e) q.1) q.2)
        (volume.restrict (Icc (-1) 1 ×ˢ Icc ((1 - f) * mn0 + f * mn1) ((1 - f) * mx0 + f * mx1))) ∧
      (∀ lo hi, lo < hi → (AEMeasurable (fun q : ℝ × ℝ => (mx0 - mn0) / (hi - lo) * (G0 ((q.2 - lo) / (hi - lo) * (mx0 - mn0) + mn0) *
          kalbachMann (s0 ((q.2 - lo) / (hi - lo) * (mx0 - mn0) + mn0)) (r0 ((q.2 - lo) / (hi - lo) * (mx0 - mn0) + mn0)) q.1)) (volume.restrict (Icc (-1) 1 ×ˢ Icc lo hi)) ∧
        IsProbabilityMeasure (jointLaw lo hi fun mu e => (mx0 - mn0) / (hi - lo) * (G0 ((e - lo) / (hi - lo) * (mx0 - mn0) + mn0) *
          kalbachMann (s0 ((e - lo) / (hi - lo) * (mx0 - mn0) + mn0)) (r0 ((e - lo) / (hi - lo) * (mx0 - mn0) + mn0)) mu)) ∧
        ∀ mu e, 0 ≤ G0 e * kalbachMann (s0 e) (r0 e) mu) ∧
        (AEMeasurable (fun q : ℝ × ℝ => (mx1 - mn1) / (hi - lo) * (G1 ((q.2 - lo) / (hi - lo) * (mx1 - mn1) + mn1) *
          kalbachMann (s1 ((q.2 - lo) / (hi - lo) * (mx1 - mn1) + mn1)) (r1 ((q.2 - lo) / (hi - lo) * (mx1 - mn1) + mn1)) q.1)) (volume.restrict (Icc (-1) 1 ×ˢ Icc lo hi)) ∧
        IsProbabilityMeasure (jointLaw lo hi fun mu e => (mx1 - mn1) / (hi - lo) * (G1 ((e - lo) / (hi - lo) * (mx1 - mn1) + mn1) *
          kalbachMann (s1 ((e - lo) / (hi - lo) * (mx1 - mn1) + mn1)) (r1 ((e - lo) / (hi - lo) * (mx1 - mn1) + mn1)) mu)) ∧
        ∀ mu e, 0 ≤ G1 e * kalbachMann (s1 e) (r1 e) mu)) ∧
      Closed (fun _ ω k => asPair (d.sample E ω k)) (jointLaw ((1 - f) * mn0 + f * mn1) ((1 - f) * mx0 + f * mx1)
        fun mu => stretched f mn0 mx0 mn1 mx1 (fun e => G0 e * kalbachMann (s0 e) (r0 e) mu) fun e => G1 e * kalbachMann (s1 e) (r1 e) mu) := by
  have hd' : isSorted energy = true ∧ energy.length = tables.length ∧ d = ⟨energy, tables⟩ := by
    unfold Kalbach.make at hd
    split at hd
    · cases hd
    split at hd
    · cases hd
    rename_i h1 h2
    exact ⟨by simpa using h1, by simpa using h2, (Except.ok.inj hd).symm⟩
  obtain ⟨q1, q2, rfl⟩ := hd'
  have hs : energy.Pairwise (· ≤ ·) := isSorted_iff.mp q1
  obtain ⟨first, h0⟩ := getElem?_of_lt (l := energy) (i := 0) (by omega)
  obtain ⟨last, hlast⟩ := last_exists (l := energy) (by omega)
  obtain ⟨l, f, _, _, hb, hlt, _, _, f0, f1, _⟩ := C67_bracket energy E first last hs hn h0 hlast
  obtain ⟨t0, g0⟩ := getElem?_of_lt (l := tables) (i := l) (by omega)
  obtain ⟨t1, g1⟩ := getElem?_of_lt (l := tables) (i := l + 1) (by omega)
  obtain ⟨mn0, mx0, G0, r0, s0, a1, a2, a3, a4, a5, a6, a7⟩ := kalbachOne_law (ht t0 (List.mem_of_getElem? g0))
  obtain ⟨mn1, mx1, G1, r1, s1, b1, b2, b3, b4, b5, b6, b7⟩ := kalbachOne_law (ht t1 (List.mem_of_getElem? g1))
  obtain ⟨lo, hlo⟩ : ∃ lo, lo = (1 - f) * mn0 + f * mn1 := ⟨_, rfl⟩
  obtain ⟨hi, hhi⟩ : ∃ hi, hi = (1 - f) * mx0 + f * mx1 := ⟨_, rfl⟩
  have hlh : lo < hi := by
    rcases f1.eq_or_lt with rfl | hf
    · rw [hlo, hhi]; linarith
    · rw [hlo, hhi]; nlinarith [mul_pos (sub_pos.mpr hf) (sub_pos.mpr a3), mul_nonneg f0 (sub_pos.mpr b3).le]
  obtain ⟨c1, c2⟩ := a7 lo hi hlh
  obtain ⟨d1, d2⟩ := b7 lo hi hlh
  have hkm : ∀ (r s : ℝ → ℝ) (e mu : ℝ), 0 ≤ r e → r e ≤ 1 → 0 < s e → -1 ≤ mu → mu ≤ 1 → 0 ≤ kalbachMann (s e) (r e) mu := fun r s e mu x y z _ _ =>
    kalbachMann_nonneg z.ne' (abs_le.mpr ⟨by linarith, y⟩)
  have hst : ∀ mu e, stretched f mn0 mx0 mn1 mx1 (fun e => G0 e * kalbachMann (s0 e) (r0 e) mu) (fun e => G1 e * kalbachMann (s1 e) (r1 e) mu) e =
      (1 - f) * ((mx0 - mn0) / (hi - lo) * G0 ((e - lo) / (hi - lo) * (mx0 - mn0) + mn0) *
          kalbachMann (s0 ((e - lo) / (hi - lo) * (mx0 - mn0) + mn0)) (r0 ((e - lo) / (hi - lo) * (mx0 - mn0) + mn0)) mu) +
        f * ((mx1 - mn1) / (hi - lo) * G1 ((e - lo) / (hi - lo) * (mx1 - mn1) + mn1) *
          kalbachMann (s1 ((e - lo) / (hi - lo) * (mx1 - mn1) + mn1)) (r1 ((e - lo) / (hi - lo) * (mx1 - mn1) + mn1)) mu) := by
    intro mu e
    unfold stretched
    dsimp only
    rw [← hlo, ← hhi, mul_assoc, mul_assoc]
  have n0 : ∀ mu e, -1 ≤ mu → mu ≤ 1 → 0 ≤ (mx0 - mn0) / (hi - lo) * G0 ((e - lo) / (hi - lo) * (mx0 - mn0) + mn0) *
          kalbachMann (s0 ((e - lo) / (hi - lo) * (mx0 - mn0) + mn0)) (r0 ((e - lo) / (hi - lo) * (mx0 - mn0) + mn0)) mu := fun mu e h0 h1 =>
    mul_nonneg (mul_nonneg (div_nonneg (by linarith) (by linarith)) (a4 _).2) (hkm _ _ _ _ (a5 _).2.1 (a5 _).2.2 (a6 _).2 h0 h1)
  have n1 : ∀ mu e, -1 ≤ mu → mu ≤ 1 → 0 ≤ (mx1 - mn1) / (hi - lo) * G1 ((e - lo) / (hi - lo) * (mx1 - mn1) + mn1) *
          kalbachMann (s1 ((e - lo) / (hi - lo) * (mx1 - mn1) + mn1)) (r1 ((e - lo) / (hi - lo) * (mx1 - mn1) + mn1)) mu := fun mu e h0 h1 =>
    mul_nonneg (mul_nonneg (div_nonneg (by linarith) (by linarith)) (b4 _).2) (hkm _ _ _ _ (b5 _).2.1 (b5 _).2.2 (b6 _).2 h0 h1)
  refine ⟨l, f, t0, t1, mn0, mx0, mn1, mx1, G0, r0, s0, G1, r1, s1, hb, f0, f1, g0, g1, a1, a2, b1, b2, a3, b3,
    fun e => ⟨(a4 e).1, (a5 e).1, (a6 e).1⟩, fun e => ⟨(b4 e).1, (b5 e).1, (b6 e).1⟩, ?_, ?_, fun lo hi h => ?_, ?_⟩
  · intro mu e h0 h1
    rw [hst]
    exact add_nonneg (mul_nonneg (by linarith) (n0 mu e h0 h1)) (mul_nonneg f0 (n1 mu e h0 h1))
  · simp only [hst]
    rw [← hlo, ← hhi]
    exact (c1.const_mul (1 - f)).add (d1.const_mul f)
  · simp only [← mul_assoc]
    have hkm' : ∀ a r mu : ℝ, 0 < a → 0 ≤ r → r ≤ 1 → 0 ≤ kalbachMann a r mu := fun a r mu h0 h1 h2 => kalbachMann_nonneg h0.ne' (abs_le.mpr ⟨by linarith, h2⟩)
    exact ⟨⟨(a7 lo hi h).1, (a7 lo hi h).2.prob, fun mu e => mul_nonneg (a4 _).2 (hkm' _ _ _ (a6 _).2 (a5 _).2.1 (a5 _).2.2)⟩,
      (b7 lo hi h).1, (b7 lo hi h).2.prob, fun mu e => mul_nonneg (b4 _).2 (hkm' _ _ _ (b6 _).2 (b5 _).2.1 (b5 _).2.2)⟩
  · have hst' : (fun mu => stretched f mn0 mx0 mn1 mx1 (fun e => G0 e * kalbachMann (s0 e) (r0 e) mu) fun e => G1 e * kalbachMann (s1 e) (r1 e) mu) = _ :=
      funext fun mu => funext fun e => hst mu e
    rw [hst', ← hlo, ← hhi, jointLaw_mix f0 f1 c1 d1 (fun mu e h0 h1 _ _ => n0 mu e h0 h1) fun mu e h0 h1 _ _ => n1 mu e h0 h1]
    refine (closed_mix f0 f1 c2 d2).of_eq fun fuel ω k => ?_
    have hw1 : mn0 + f * (mn1 - mn0) = lo := by rw [hlo]; ring
    have hw2 : mx0 + f * (mx1 - mx0) = hi := by rw [hhi]; ring
    unfold Kalbach.sample asPair kalbachOne
    simp only [bind, Except.bind, hb, getAt_eq_ok.mpr g0, getAt_eq_ok.mpr g1, unitBase, a1, a2, b1, b2, pure, Except.pure, hw1, hw2]
    by_cases hf : ω k > f
    · rw [if_pos hf, if_pos hf]
      cases t0.sampleEnergy (ω (k + 1)) with
      | error e => rfl
      | ok e =>
        dsimp only
        cases t0.evalR e with
        | error e => rfl
        | ok r =>
          dsimp only
          cases t0.evalA e with
          | error e => rfl
          | ok s =>
            dsimp only
            cases rdiv (e - mn0) (mx0 - mn0) with
            | error e => rfl
            | ok q =>
              dsimp only
              cases kalbachCosine r s (ω (k + 2)) (ω (k + 3)) <;> rfl
    · rw [if_neg hf, if_neg hf]
      cases t1.sampleEnergy (ω (k + 1)) with
      | error e => rfl
      | ok e =>
        dsimp only
        cases t1.evalR e with
        | error e => rfl
        | ok r =>
          dsimp only
          cases t1.evalA e with
          | error e => rfl
          | ok s =>
            dsimp only
            cases rdiv (e - mn1) (mx1 - mn1) with
            | error e => rfl
            | ok q =>
              dsimp only
              cases kalbachCosine r s (ω (k + 2)) (ω (k + 3)) <;> rfl

/-- **C113**, the law of what `Kalbach::sample_angle_energy` returns: at every incident energy, with the two tables next to it and
their weight, the energy has the density of the tables carried to the interpolated window, and the cosine, given the energy, the
Kalbach-Mann density of the parameters `R(E')` and `A(E')` at the energy of the table. -/
theorem C113_law (energy : List ℝ) (tables : List KalbachTable) (d : Kalbach) (hd : Kalbach.make energy tables = .ok d) (hn : 2 ≤ energy.length)
    (ht : ∀ t ∈ tables, SoundKT t) (E : ℝ) :
    ∃ (l : Nat) (f : ℝ) (t0 t1 : KalbachTable) (mn0 mx0 mn1 mx1 : ℝ) (G0 r0 s0 G1 r1 s1 : ℝ → ℝ), bracketIn energy E = .ok (l, f) ∧ 0 ≤ f ∧ f ≤ 1 ∧
      tables[l]? = some t0 ∧ tables[l + 1]? = some t1 ∧ t0.minEnergy = .ok mn0 ∧ t0.maxEnergy = .ok mx0 ∧ t1.minEnergy = .ok mn1 ∧ t1.maxEnergy = .ok mx1 ∧
      (∀ e, t0.toPC.pdfAt e = .ok (G0 e) ∧ t0.evalR e = .ok (r0 e) ∧ t0.evalA e = .ok (s0 e)) ∧
      (∀ e, t1.toPC.pdfAt e = .ok (G1 e) ∧ t1.evalR e = .ok (r1 e) ∧ t1.evalA e = .ok (s1 e)) ∧
      ∀ k, Samples (fun (_ : Nat) ω => asPair (d.sample E ω k)) (jointLaw ((1 - f) * mn0 + f * mn1) ((1 - f) * mx0 + f * mx1)
        fun mu => stretched f mn0 mx0 mn1 mx1 (fun e => G0 e * kalbachMann (s0 e) (r0 e) mu) fun e => G1 e * kalbachMann (s1 e) (r1 e) mu) := by
  obtain ⟨l, f, t0, t1, mn0, mx0, mn1, mx1, G0, r0, s0, G1, r1, s1, h1, h2, h3, h4, h5, h6, h7, h8, h9, _, _, h10, h11, _, _, _, h12⟩ := kalbach_closed energy tables d hd hn ht E
  exact ⟨l, f, t0, t1, mn0, mx0, mn1, mx1, G0, r0, s0, G1, r1, s1, h1, h2, h3, h4, h5, h6, h7, h8, h9, h10, h11, h12.samples⟩

/-! ### Histogram tables -/

/-- Between the energies of a histogram table the reported joint density is the product. -/
theorem kalbach_hist {t : KalbachTable} (ht : SoundKT t) (hh : t.interp = .histogram) {mn mx e mu G r s : ℝ} (hmn : t.minEnergy = .ok mn) (hmx : t.maxEnergy = .ok mx)
    (h0 : mn ≤ e) (h1 : e ≤ mx) (he : e ∉ t.energy) (hG : t.toPC.pdfAt e = .ok G) (hr : t.evalR e = .ok r) (hs : t.evalA e = .ok s) :
    t.pdfAt mu e = .ok (G * kalbachMann s r mu) := by
  have hv := ht.valid
  have hsort : t.energy.Pairwise (· ≤ ·) := hv.pc.values_sorted
  have m0 := front_eq_ok.mp hmn
  have m1 := back_eq_ok.mp hmx
  have l0 : mn < e := lt_of_le_of_ne h0 fun h => he (h ▸ List.mem_of_getElem? m0)
  have l1 : e < mx := lt_of_le_of_ne h1 fun h => he (h ▸ List.mem_of_getLast? m1)
  obtain ⟨i, x1, x2, e3, e1, e2, e4, e5⟩ := bracket_index hsort m0 m1 l0 l1.le
  have e5 : e < x2 := lt_of_le_of_ne e5 fun h => he (h ▸ List.mem_of_getElem? e2)
  have hlt := lt_length_of_some e2
  have hlP : t.pdf.length = t.energy.length := hv.pc.lenP
  have hlR := hv.lenR
  have hlA := hv.lenA
  obtain ⟨p0, hp0⟩ := getElem?_of_lt (l := t.pdf) (i := i) (by omega)
  obtain ⟨p1, hp1⟩ := getElem?_of_lt (l := t.pdf) (i := i + 1) (by omega)
  have hA : ∀ a ∈ t.A, a ≠ 0 := fun a ha => (ht.slopes a ha).ne'
  have hc := jointPdf_cell (r := t.interp) hsort e1 e2 hp0 hp1 (t.node_eq hv hA mu i (by omega)) (t.node_eq hv hA mu (i + 1) hlt) e4 e5
  have hg := PCTable.pdfAt_cell hv.pc (t := t.toPC) e1 e2 hp0 hp1 e4 e5
  rw [if_pos hh] at hc
  have hh' : t.toPC.interp = .histogram := hh
  rw [hG, if_pos hh'] at hg
  cases hg
  have key : ∀ ys : List ℝ, ys.length = t.energy.length → t.param ys e = .ok (ys.getD i 0) := by
    intro ys hl
    obtain ⟨a, ha⟩ := getElem?_of_lt (l := ys) (i := i) (by omega)
    obtain ⟨b, hb⟩ := getElem?_of_lt (l := ys) (i := i + 1) (by omega)
    unfold KalbachTable.param
    simp only [front_eq_ok.mpr m0, back_eq_ok.mpr m1, bind, Except.bind]
    rw [if_neg (not_le.mpr l0), if_neg (not_le.mpr l1), e3, subIdx_of_le (by omega)]
    simp only [Nat.add_sub_cancel, getAt_eq_ok.mpr e1, getAt_eq_ok.mpr e2, getAt_eq_ok.mpr ha, getAt_eq_ok.mpr hb]
    rw [if_pos hh, List.getD_eq_getElem?_getD, ha]
    rfl
  rw [KalbachTable.evalR, key _ hlR] at hr
  rw [KalbachTable.evalA, key _ hlA] at hs
  cases hr
  cases hs
  rw [KalbachTable.pdfAt, hc, mul_comm]

theorem kalbach_pdf_defined {t : KalbachTable} (ht : SoundKT t) (hs : t.energy.Pairwise (· < ·)) (hh : t.interp = .histogram) (mu e : ℝ) :
    ∃ p, t.pdfAt mu e = .ok p ∧ 0 ≤ p := by
  have hv := ht.valid
  have hne : 0 < t.energy.length := List.length_pos_iff.mpr hv.pc.ne
  obtain ⟨mn, hmn⟩ := getElem?_of_lt (l := t.energy) (i := 0) hne
  obtain ⟨mx, hmx⟩ := last_exists (l := t.energy) hne
  have hA : ∀ a ∈ t.A, a ≠ 0 := fun a ha => (ht.slopes a ha).ne'
  obtain ⟨p, h1, _, h3⟩ := jointPdf_defined (pdf := t.pdf) (r := t.interp) (node := t.node mu) hs hv.pc.lenP hmn hmx
    (fun l hl => ⟨_, t.node_eq hv hA mu l hl⟩) e (Or.inr hh)
  refine ⟨p, h1, h3 ?_ hv.pc.pdf_nonneg⟩
  intro l m hm
  rw [KalbachTable.node] at hm
  obtain ⟨a, ha, hm⟩ := bind_ok hm
  obtain ⟨q, hq, hm⟩ := bind_ok hm
  rw [C64_formula mu a q (hA a (List.mem_of_getElem? (getAt_eq_ok.mp ha)))] at hm
  cases hm
  have hf := ht.fractions q (List.mem_of_getElem? (getAt_eq_ok.mp hq))
  exact kalbachMann_nonneg (hA a (List.mem_of_getElem? (getAt_eq_ok.mp ha))) (abs_le.mpr ⟨by linarith, hf.2⟩)

theorem jointLaw_smul {a b c : ℝ} (hc : 0 ≤ c) (p : ℝ → ℝ → ℝ) : jointLaw a b (fun mu e => c * p mu e) = ENNReal.ofReal c • jointLaw a b p := by
  unfold jointLaw
  rw [← withDensity_smul' _ _ ENNReal.ofReal_ne_top]
  refine congrArg _ (funext fun q => ?_)
  rw [Pi.smul_apply, smul_eq_mul, ENNReal.ofReal_mul hc]

/-- The two weighted masses of the reported density make 1 exactly when only one table counts or they have the same width. -/
theorem mix_widths {f w0 w1 : ℝ} (h0 : 0 < w0) (h1 : 0 < w1) :
    (1 - f) * (((1 - f) * w0 + f * w1) / w0) + f * (((1 - f) * w0 + f * w1) / w1) = 1 ↔ f = 0 ∨ f = 1 ∨ w0 = w1 := by
  have e : (1 - f) * (((1 - f) * w0 + f * w1) / w0) + f * (((1 - f) * w0 + f * w1) / w1) - 1 = (1 - f) * f * (w0 - w1) ^ 2 / (w0 * w1) := by
    field_simp
    ring
  rw [← sub_eq_zero, e, div_eq_zero_iff, or_iff_left (mul_pos h0 h1).ne', mul_eq_zero, mul_eq_zero, sub_eq_zero, pow_eq_zero_iff two_ne_zero, sub_eq_zero]
  constructor
  · rintro ((h | h) | h)
    · exact Or.inr (Or.inl h.symm)
    · exact Or.inl h
    · exact Or.inr (Or.inr h)
  · rintro (h | h | h)
    · exact Or.inl (Or.inr h)
    · exact Or.inl (Or.inl h.symm)
    · exact Or.inr h

/-- Between two tables carried to a common window, in general: `q0`, `q1` are the joint densities of the tables at the carried
energies, and `p` is their interpolation up to countably many energies. -/
theorem unitbase_iff {run : Nat → Tape → Nat → Res ((ℝ × ℝ) × Nat)} {f w0 w1 lo hi : ℝ} {q0 q1 p : ℝ → ℝ → ℝ} {F : Set ℝ} (f0 : 0 ≤ f) (f1 : f ≤ 1) (h0 : 0 < w0) (h1 : 0 < w1)
    (hW : hi - lo = (1 - f) * w0 + f * w1) (hF : F.Countable)
    (hp : ∀ mu e, -1 ≤ mu → mu ≤ 1 → lo ≤ e → e ≤ hi → e ∉ F → p mu e = (1 - f) * q0 mu e + f * q1 mu e)
    (m0 : AEMeasurable (fun q : ℝ × ℝ => w0 / (hi - lo) * q0 q.1 q.2) (volume.restrict (Icc (-1) 1 ×ˢ Icc lo hi)))
    (m1 : AEMeasurable (fun q : ℝ × ℝ => w1 / (hi - lo) * q1 q.1 q.2) (volume.restrict (Icc (-1) 1 ×ˢ Icc lo hi)))
    (i0 : IsProbabilityMeasure (jointLaw lo hi fun mu e => w0 / (hi - lo) * q0 mu e))
    (i1 : IsProbabilityMeasure (jointLaw lo hi fun mu e => w1 / (hi - lo) * q1 mu e))
    (n0 : ∀ mu e, 0 ≤ q0 mu e) (n1 : ∀ mu e, 0 ≤ q1 mu e)
    (hc : Closed run (jointLaw lo hi fun mu e => (1 - f) * (w0 / (hi - lo) * q0 mu e) + f * (w1 / (hi - lo) * q1 mu e))) :
    (Closed run (jointLaw lo hi p) ↔ f = 0 ∨ f = 1 ∨ w0 = w1) ∧ AEMeasurable (fun q : ℝ × ℝ => p q.1 q.2) (volume.restrict (Icc (-1) 1 ×ˢ Icc lo hi)) := by
  have hpos : 0 < hi - lo := by
    rw [hW]
    rcases f1.eq_or_lt with rfl | hf
    · linarith
    · nlinarith [mul_pos (sub_pos.mpr hf) h0, mul_nonneg f0 h1.le]
  have hcong : jointLaw lo hi p = jointLaw lo hi fun mu e => (1 - f) * q0 mu e + f * q1 mu e := jointLaw_congr hF hp
  have mm : ∀ w : ℝ, 0 < w → ∀ q : ℝ → ℝ → ℝ, AEMeasurable (fun x : ℝ × ℝ => w / (hi - lo) * q x.1 x.2) (volume.restrict (Icc (-1) 1 ×ˢ Icc lo hi)) →
      AEMeasurable (fun x : ℝ × ℝ => q x.1 x.2) (volume.restrict (Icc (-1) 1 ×ˢ Icc lo hi)) := by
    intro w hw q h
    refine (h.const_mul ((hi - lo) / w)).congr (Filter.Eventually.of_forall fun x => ?_)
    dsimp only
    field_simp
  have mass : ∀ w : ℝ, 0 < w → ∀ q : ℝ → ℝ → ℝ, IsProbabilityMeasure (jointLaw lo hi fun mu e => w / (hi - lo) * q mu e) → jointLaw lo hi q univ = ENNReal.ofReal ((hi - lo) / w) := by
    intro w hw q h
    have hq : jointLaw lo hi q = ENNReal.ofReal ((hi - lo) / w) • jointLaw lo hi fun mu e => w / (hi - lo) * q mu e := by
      rw [← jointLaw_smul (div_pos hpos hw).le]
      congr 1
      funext mu e
      field_simp
    rw [hq, Measure.smul_apply, measure_univ, smul_eq_mul, mul_one]
  refine ⟨⟨fun h => ?_, fun h => ?_⟩, ?_⟩
  · have hone := h.prob.measure_univ
    rw [hcong, jointLaw_mix f0 f1 (mm _ h0 _ m0) (mm _ h1 _ m1) (fun _ _ _ _ _ _ => n0 _ _) (fun _ _ _ _ _ _ => n1 _ _), Measure.add_apply, Measure.smul_apply, Measure.smul_apply,
      mass _ h0 _ i0, mass _ h1 _ i1, smul_eq_mul, smul_eq_mul, ← ENNReal.ofReal_mul (by linarith), ← ENNReal.ofReal_mul f0,
      ← ENNReal.ofReal_add (mul_nonneg (by linarith) (div_pos hpos h0).le) (mul_nonneg f0 (div_pos hpos h1).le), hW] at hone
    rw [ENNReal.ofReal_eq_one] at hone
    exact (mix_widths h0 h1).mp hone
  · rw [hcong]
    have e : (fun mu e => (1 - f) * q0 mu e + f * q1 mu e) = fun mu e => (1 - f) * (w0 / (hi - lo) * q0 mu e) + f * (w1 / (hi - lo) * q1 mu e) := by
      funext mu x
      rw [hW]
      rcases h with rfl | rfl | rfl
      · simp [div_self h0.ne']
      · simp [div_self h1.ne']
      · have : (1 - f) * w0 + f * w0 = w0 := by ring
        rw [this, div_self h0.ne', one_mul, one_mul]
    rw [e]
    exact hc
  · refine (((mm _ h0 _ m0).const_mul (1 - f)).add ((mm _ h1 _ m1).const_mul f)).congr ?_
    have hne : ∀ᵐ x : ℝ × ℝ ∂volume, x.2 ∉ F := by
      rw [Measure.volume_eq_prod]
      exact Measure.quasiMeasurePreserving_snd.ae (hF.ae_notMem volume)
    filter_upwards [ae_restrict_mem (measurableSet_Icc.prod measurableSet_Icc), ae_restrict_of_ae hne] with x hx hn
    exact (hp _ _ hx.1.1 hx.1.2 hx.2.1 hx.2.2 hn).symm

/-- A Kalbach distribution of histogram tables. -/
structure Spec.HistKalbach (d : Kalbach) : Prop where
  two : 2 ≤ d.energy.length
  made : Kalbach.make d.energy d.tables = .ok d
  tables : ∀ t ∈ d.tables, SoundKT t ∧ t.energy.Pairwise (· < ·) ∧ t.interp = .histogram

theorem kalbach_faithful {d : Kalbach} (hd : HistKalbach d) (E : ℝ) :
    ∃ (l : Nat) (f : ℝ) (t0 t1 : KalbachTable) (mn0 mx0 mn1 mx1 : ℝ), bracketIn d.energy E = .ok (l, f) ∧ 
      d.tables[l]? = some t0 ∧ d.tables[l + 1]? = some t1 ∧ t0.minEnergy = .ok mn0 ∧ t0.maxEnergy = .ok mx0 ∧ t1.minEnergy = .ok mn1 ∧ t1.maxEnergy = .ok mx1 ∧
      mn0 < mx0 ∧ mn1 < mx1 ∧
      ((∃ k, SamplesJoint (fun fuel ω => ((Law.kalbach d).toAE fuel).sample E ω k) ((1 - f) * mn0 + f * mn1) ((1 - f) * mx0 + f * mx1) (((Law.kalbach d).toAE 0).pdf E)) →
        f = 0 ∨ f = 1 ∨ mx0 - mn0 = mx1 - mn1) ∧
      ((f = 0 ∨ f = 1 ∨ mx0 - mn0 = mx1 - mn1) → FaithfulAE (fun fuel => (Law.kalbach d).toAE fuel) E ((1 - f) * mn0 + f * mn1) ((1 - f) * mx0 + f * mx1)) := by
  obtain ⟨l, f, t0, t1, mn0, mx0, mn1, mx1, G0, r0, s0, G1, r1, s1, h1, f0, f1, g0, g1, a1, a2, b1, b2, w0, w1, v0, v1, _, _, hcomp, hcl⟩ :=
    kalbach_closed d.energy d.tables d hd.made hd.two (fun t ht => (hd.tables t ht).1) E
  refine ⟨l, f, t0, t1, mn0, mx0, mn1, mx1, h1, g0, g1, a1, a2, b1, b2, w0, w1, ?_⟩
  obtain ⟨lo, hlo⟩ : ∃ lo, lo = (1 - f) * mn0 + f * mn1 := ⟨_, rfl⟩
  obtain ⟨hi, hhi⟩ : ∃ hi, hi = (1 - f) * mx0 + f * mx1 := ⟨_, rfl⟩
  have hW : hi - lo = (1 - f) * (mx0 - mn0) + f * (mx1 - mn1) := by rw [hlo, hhi]; ring
  have hlh : lo < hi := by
    rcases f1.eq_or_lt with rfl | hf
    · rw [hlo, hhi]; linarith
    · rw [hlo, hhi]; nlinarith [mul_pos (sub_pos.mpr hf) (sub_pos.mpr w0), mul_nonneg f0 (sub_pos.mpr w1).le]
  have hpos : 0 < hi - lo := by linarith
  obtain ⟨⟨x1, x2, x3⟩, y1, y2, y3⟩ := hcomp lo hi hlh
  obtain ⟨T0, S0, H0⟩ := hd.tables t0 (List.mem_of_getElem? g0)
  obtain ⟨T1, S1, H1⟩ := hd.tables t1 (List.mem_of_getElem? g1)
  choose P0 hP0 using fun mu e => kalbach_pdf_defined T0 S0 H0 mu e
  choose P1 hP1 using fun mu e => kalbach_pdf_defined T1 S1 H1 mu e
  have hw1 : mn0 + f * (mn1 - mn0) = lo := by rw [hlo]; ring
  have hw2 : mx0 + f * (mx1 - mx0) = hi := by rw [hhi]; ring
  have hpdf : ∀ mu e, d.pdfAt E mu e = .ok ((1 - f) * P0 mu ((e - lo) / (hi - lo) * (mx0 - mn0) + mn0) + f * P1 mu ((e - lo) / (hi - lo) * (mx1 - mn1) + mn1)) := by
    intro mu e
    unfold Kalbach.pdfAt
    simp only [bind, Except.bind, h1, getAt_eq_ok.mpr g0, getAt_eq_ok.mpr g1, unitBase, a1, a2, b1, b2, pure, Except.pure, hw1, hw2, rdiv_ok hpos.ne', (hP0 _ _).1, (hP1 _ _).1]
  have hin : ∀ mn mx : ℝ, mn < mx → ∀ e, lo ≤ e → e ≤ hi → mn ≤ (e - lo) / (hi - lo) * (mx - mn) + mn ∧ (e - lo) / (hi - lo) * (mx - mn) + mn ≤ mx := by
    intro mn mx h e z0 z1
    have q0 : 0 ≤ (e - lo) / (hi - lo) := div_nonneg (by linarith) hpos.le
    have q1 : (e - lo) / (hi - lo) ≤ 1 := (div_le_one hpos).mpr (by linarith)
    constructor <;> nlinarith
  have hinj : ∀ mn mx : ℝ, mn < mx → Function.Injective fun e : ℝ => (e - lo) / (hi - lo) * (mx - mn) + mn := by
    intro mn mx h x y hxy
    have h' : (x - lo) / (hi - lo) * (mx - mn) + mn = (y - lo) / (hi - lo) * (mx - mn) + mn := hxy
    have h2 : (mx - mn) * (x - y) = 0 := by field_simp at h'; linear_combination h'
    rcases mul_eq_zero.mp h2 with h2 | h2
    · linarith
    · linarith
  obtain ⟨F, hFd⟩ : ∃ F : Set ℝ, F = (fun e : ℝ => (e - lo) / (hi - lo) * (mx0 - mn0) + mn0) ⁻¹' {x | x ∈ t0.energy} ∪
      (fun e : ℝ => (e - lo) / (hi - lo) * (mx1 - mn1) + mn1) ⁻¹' {x | x ∈ t1.energy} := ⟨_, rfl⟩
  have hF : F.Countable := by
    rw [hFd]
    exact ((List.finite_toSet t0.energy).countable.preimage (hinj _ _ w0)).union ((List.finite_toSet t1.energy).countable.preimage (hinj _ _ w1))
  have hcl' : Closed (fun _ ω k => asPair (d.sample E ω k)) (jointLaw lo hi fun mu e =>
      (1 - f) * ((mx0 - mn0) / (hi - lo) * (G0 ((e - lo) / (hi - lo) * (mx0 - mn0) + mn0) *
          kalbachMann (s0 ((e - lo) / (hi - lo) * (mx0 - mn0) + mn0)) (r0 ((e - lo) / (hi - lo) * (mx0 - mn0) + mn0)) mu)) +
        f * ((mx1 - mn1) / (hi - lo) * (G1 ((e - lo) / (hi - lo) * (mx1 - mn1) + mn1) *
          kalbachMann (s1 ((e - lo) / (hi - lo) * (mx1 - mn1) + mn1)) (r1 ((e - lo) / (hi - lo) * (mx1 - mn1) + mn1)) mu))) := by
    rw [hlo, hhi]
    exact hcl
  obtain ⟨k1, k2⟩ := unitbase_iff (p := fun mu e => (1 - f) * P0 mu ((e - lo) / (hi - lo) * (mx0 - mn0) + mn0) + f * P1 mu ((e - lo) / (hi - lo) * (mx1 - mn1) + mn1))
    (q0 := fun mu e => G0 ((e - lo) / (hi - lo) * (mx0 - mn0) + mn0) *
          kalbachMann (s0 ((e - lo) / (hi - lo) * (mx0 - mn0) + mn0)) (r0 ((e - lo) / (hi - lo) * (mx0 - mn0) + mn0)) mu)
    (q1 := fun mu e => G1 ((e - lo) / (hi - lo) * (mx1 - mn1) + mn1) *
          kalbachMann (s1 ((e - lo) / (hi - lo) * (mx1 - mn1) + mn1)) (r1 ((e - lo) / (hi - lo) * (mx1 - mn1) + mn1)) mu)
    f0 f1 (sub_pos.mpr w0) (sub_pos.mpr w1) hW hF (by
      intro mu e _ _ z0 z1 hn
      rw [hFd] at hn
      simp only [mem_union, mem_preimage, Set.mem_ofPred_eq, not_or] at hn
      have c0 := kalbach_hist (mu := mu) T0 H0 a1 a2 (hin _ _ w0 e z0 z1).1 (hin _ _ w0 e z0 z1).2 hn.1 (v0 _).1 (v0 _).2.1 (v0 _).2.2
      have c1 := kalbach_hist (mu := mu) T1 H1 b1 b2 (hin _ _ w1 e z0 z1).1 (hin _ _ w1 e z0 z1).2 hn.2 (v1 _).1 (v1 _).2.1 (v1 _).2.2
      rw [(hP0 _ _).1] at c0
      rw [(hP1 _ _).1] at c1
      rw [Except.ok.inj c0, Except.ok.inj c1]) x1 y1 x2 y2 (fun mu e => x3 _ _) (fun mu e => y3 _ _) hcl'
  rw [← hlo, ← hhi]
  refine ⟨?_, fun h => ⟨_, fun fuel mu e _ _ _ _ => ⟨?_, ?_⟩, k2, k1.mpr h⟩⟩
  · rintro ⟨k, p, hp, hs⟩
    refine k1.mp ?_
    rw [← jointLaw_congr (p := p) (F := ∅) countable_empty fun mu e z0 z1 z2 z3 _ => by
      have h := hp mu e z0 z1 z2 z3
      change (d.pdfAt E mu e).map some = _ at h
      rw [hpdf] at h
      exact (Option.some.inj (Except.ok.inj h)).symm]
    exact hcl'.congr (k := k) hs
  · show (d.pdfAt E mu e).map some = _
    rw [hpdf]; rfl
  · exact add_nonneg (mul_nonneg (by linarith) (hP0 _ _).2) (mul_nonneg f0 (hP1 _ _).2)

/-- **C113**, histogram tables: at every incident energy the sampled cosines and energies have the joint density `Kalbach::pdf`
reports exactly when only one table counts or the two tables next to it have the same width. -/
theorem C113_iff (d : Kalbach) (hd : HistKalbach d) (E : ℝ) :
    ∃ (l : Nat) (f : ℝ) (t0 t1 : KalbachTable) (mn0 mx0 mn1 mx1 : ℝ), bracketIn d.energy E = .ok (l, f) ∧ 
      d.tables[l]? = some t0 ∧ d.tables[l + 1]? = some t1 ∧ t0.minEnergy = .ok mn0 ∧ t0.maxEnergy = .ok mx0 ∧ t1.minEnergy = .ok mn1 ∧ t1.maxEnergy = .ok mx1 ∧
      mn0 < mx0 ∧ mn1 < mx1 ∧
      ∀ k, SamplesJoint (fun (_ : Nat) ω => d.sample E ω k) ((1 - f) * mn0 + f * mn1) ((1 - f) * mx0 + f * mx1) (fun mu e => (d.pdfAt E mu e).map some) ↔
        f = 0 ∨ f = 1 ∨ mx0 - mn0 = mx1 - mn1 := by
  obtain ⟨l, f, t0, t1, mn0, mx0, mn1, mx1, h1, g0, g1, a1, a2, b1, b2, w0, w1, k1, k2⟩ := kalbach_faithful hd E
  exact ⟨l, f, t0, t1, mn0, mx0, mn1, mx1, h1, g0, g1, a1, a2, b1, b2, w0, w1, fun k => ⟨fun h => k1 ⟨k, h⟩, fun h => (k2 h).samples k⟩⟩

/-- C113 for histogram tables that all have the same width: at every incident energy the samples have the density reported.
Missing: tables of different widths (`C113_iff`) and linearly interpolated tables (`C113_violation`). -/
theorem C113_samples_partial (d : Kalbach) (hd : HistKalbach d) (w : ℝ) (hw : ∀ t ∈ d.tables, ∀ mn mx, t.minEnergy = .ok mn → t.maxEnergy = .ok mx → mx - mn = w) (E : ℝ) :
    ∃ lo hi, lo < hi ∧ ∀ k, SamplesJoint (fun (_ : Nat) ω => d.sample E ω k) lo hi fun mu e => (d.pdfAt E mu e).map some := by
  obtain ⟨l, f, t0, t1, mn0, mx0, mn1, mx1, _, g0, g1, a0, b0, a1, b1, w0, _, hk⟩ := C113_iff d hd E
  have e1 := hw t0 (List.mem_of_getElem? g0) mn0 mx0 a0 b0
  have e2 := hw t1 (List.mem_of_getElem? g1) mn1 mx1 a1 b1
  refine ⟨_, _, ?_, fun k => (hk k).mpr (Or.inr (Or.inr (e1.trans e2.symm)))⟩
  have : (1 - f) * mx0 + f * mx1 = (1 - f) * mn0 + f * mn1 + w := by linear_combination (1 - f) * e1 + f * e2
  linarith

/-- A uniform histogram table on `[0, w]` whose fraction varies. -/
noncomputable def Spec.histKT (w : ℝ) : KalbachTable := ⟨[0, w], [1 / w, 1 / w], [0, 1], [1 / 4, 1], [2, 3], .histogram⟩

theorem histKT_sound {w : ℝ} (hw : 0 < w) : SoundKT (histKT w) ∧ (histKT w).energy.Pairwise (· < ·) ∧ (histKT w).interp = .histogram := by
  have h : ¬ (w⁻¹ < 0) := by simpa using hw.le
  have hm : KalbachTable.make [0, w] [1 / w, 1 / w] [0, 1] [1 / 4, 1] [2, 3] .histogram = .ok (histKT w) := by
    norm_num [KalbachTable.make, checkJoint, isSorted, back, getAt, bind, Except.bind, pure, Except.pure, histKT, hw.le, h, not_lt.mpr hw.le]
  refine ⟨⟨(KalbachTable.make_valid hm).1, ⟨rfl, ?_⟩, ?_, ?_⟩, ?_, rfl⟩
  · intro i v0 v1 p0 p1 c0 c1 h1 h2 h3 h4 h5 h6
    have hi : i = 0 := by
      have := lt_length_of_some h2
      simp [histKT, KalbachTable.toPC] at this
      omega
    subst hi
    simp [histKT, KalbachTable.toPC] at h1 h2 h3 h4 h5 h6
    subst h1 h2 h3 h4 h5 h6
    rw [cellArea, if_pos (by rfl)]
    field_simp
    ring
  · intro a ha
    simp only [histKT, List.mem_cons, List.not_mem_nil, or_false] at ha
    rcases ha with rfl | rfl <;> norm_num
  · intro a ha
    simp only [histKT, List.mem_cons, List.not_mem_nil, or_false] at ha
    rcases ha with rfl | rfl <;> norm_num
  · simp [histKT, hw]

/-- The hypotheses of `C113_law`, `C113_iff` and `C113_samples_partial` are met. -/
theorem histKalbach_ok {w0 w1 : ℝ} (h0 : 0 < w0) (h1 : 0 < w1) : HistKalbach ⟨[1, 3], [histKT w0, histKT w1]⟩ := by
  refine ⟨by simp, by norm_num [Kalbach.make, isSorted], fun t ht => ?_⟩
  simp only [List.mem_cons, List.not_mem_nil, or_false] at ht
  rcases ht with rfl | rfl
  · exact histKT_sound h0
  · exact histKT_sound h1

/-- The full claim is false of the code: half-way between a table on `[0, 1]` and one on `[0, 2]`. -/
theorem C113_violation_widths : ∃ d, Kalbach.make [1, 3] [histKT 1, histKT 2] = .ok d ∧ ∀ k,
    ¬ SamplesJoint (fun (_ : Nat) ω => d.sample 2 ω k) 0 (3 / 2) fun mu e => (d.pdfAt 2 mu e).map some := by
  refine ⟨⟨[1, 3], [histKT 1, histKT 2]⟩, by norm_num [Kalbach.make, isSorted], fun k h => ?_⟩
  obtain ⟨l, f, t0, t1, mn0, mx0, mn1, mx1, hb, g0, g1, a0, b0, a1, b1, _, _, hk⟩ := C113_iff _ (histKalbach_ok one_pos two_pos) 2
  have hb' : bracketIn [(1 : ℝ), 3] 2 = .ok (0, 1 / 2) := by
    norm_num [bracketIn, lowerBound, lowerBoundRange, bisect, front, getAt, bind, Except.bind, pure, Except.pure, subIdx,
      rdiv]
  rw [show (⟨[1, 3], [histKT 1, histKT 2]⟩ : Kalbach).energy = [1, 3] from rfl, hb'] at hb
  cases hb
  cases g0
  cases g1
  cases a0
  cases b0
  cases a1
  cases b1
  have := hk k
  norm_num at this
  exact this h

/-- A linearly interpolated table with density `2 E'` on `[0, 1]`, slope 1 and fraction `E'`. -/
noncomputable def Spec.tiltKT : KalbachTable := ⟨[0, 1], [0, 2], [0, 1], [0, 1], [1, 1], .linLin⟩

theorem tiltKT_sound : SoundKT tiltKT := by
  have hm : KalbachTable.make [0, 1] [0, 2] [0, 1] [0, 1] [1, 1] .linLin = .ok tiltKT := by
    norm_num [KalbachTable.make, checkJoint, isSorted, back, getAt, bind, Except.bind, pure, Except.pure, tiltKT]
  refine ⟨(KalbachTable.make_valid hm).1, triangle_ok.2, ?_, ?_⟩
  · intro a ha
    simp only [tiltKT, List.mem_cons, List.not_mem_nil, or_false, or_self] at ha
    rw [ha]; exact one_pos
  · intro a ha
    simp only [tiltKT, List.mem_cons, List.not_mem_nil, or_false] at ha
    rcases ha with rfl | rfl <;> norm_num

theorem tiltKT_param {e : ℝ} (h0 : 0 < e) (h1 : e < 1) :
    tiltKT.toPC.pdfAt e = .ok (2 * e) ∧ tiltKT.evalR e = .ok e ∧ tiltKT.evalA e = .ok 1 ∧ ∀ mu, tiltKT.pdfAt mu e = .ok (2 * e * kalbachMann 1 1 mu) := by
  have hv := tiltKT_sound.valid
  have hsort : tiltKT.energy.Pairwise (· ≤ ·) := hv.pc.values_sorted
  have hg := PCTable.pdfAt_cell hv.pc (t := tiltKT.toPC) (l := 0) (v0 := 0) (v1 := 1) (p0 := 0) (p1 := 2) rfl rfl rfl rfl h0 h1
  obtain ⟨i, x1, x2, e3, e1, e2, _, _⟩ := bracket_index hsort (v := e) (mn := 0) (mx := 1) rfl rfl h0 h1.le
  have hi : i = 0 := by
    have := lt_length_of_some e2
    simp [tiltKT] at this
    omega
  subst hi
  have hA : ∀ a ∈ tiltKT.A, a ≠ 0 := fun a ha => (tiltKT_sound.slopes a ha).ne'
  have key : ∀ y0 y1 : ℝ, tiltKT.param [y0, y1] e = .ok ((e - 0) / (1 - 0) * (y1 - y0) + y0) := by
    intro y0 y1
    unfold KalbachTable.param
    simp only [front_eq_ok.mpr (show tiltKT.energy[0]? = some 0 from rfl), back_eq_ok.mpr (show tiltKT.energy.getLast? = some 1 from rfl), bind, Except.bind]
    rw [if_neg (not_le.mpr h0), if_neg (not_le.mpr h1), e3, subIdx_of_le (by omega)]
    simp only [Nat.add_sub_cancel, getAt_eq_ok.mpr (show tiltKT.energy[0]? = some 0 from rfl), getAt_eq_ok.mpr (show tiltKT.energy[0 + 1]? = some 1 from rfl),
      getAt_eq_ok.mpr (show [y0, y1][0]? = some y0 from rfl), getAt_eq_ok.mpr (show [y0, y1][0 + 1]? = some y1 from rfl)]
    rw [if_neg (show ¬ tiltKT.interp = .histogram by simp [tiltKT])]
    simp only [Interpolation.interpolate, rdiv_ok (show (1 : ℝ) - 0 ≠ 0 by norm_num), bind, Except.bind, pure, Except.pure]
  refine ⟨?_, ?_, ?_, fun mu => ?_⟩
  · rw [hg, if_neg (show ¬ tiltKT.toPC.interp = .histogram by simp [tiltKT, KalbachTable.toPC])]
    congr 1
    ring
  · have := key 0 1
    rw [KalbachTable.evalR]
    refine this.trans ?_
    congr 1
    ring
  · have := key 1 1
    rw [KalbachTable.evalA]
    refine this.trans ?_
    congr 1
    ring
  · have hc := jointPdf_cell (r := tiltKT.interp) (pdf := tiltKT.pdf) hsort (l := 0) (e0 := 0) (e1 := 1) (p0 := 0) (p1 := 2) rfl rfl rfl rfl
      (tiltKT.node_eq hv hA mu 0 (by simp [tiltKT])) (tiltKT.node_eq hv hA mu 1 (by simp [tiltKT])) h0 h1
    rw [KalbachTable.pdfAt, hc, if_neg (show ¬ tiltKT.interp = .histogram by simp [tiltKT])]
    congr 1
    simp [tiltKT]
    ring

/-- The full claim is false of the code for linearly interpolated tables, even if the undefined value at the last energy is left
out (`C63_violation_kalbach`): the joint density reported interpolates products, the samples the factors. -/
theorem C113_violation : ∃ d, Kalbach.make [1, 3] [tiltKT, tiltKT] = .ok d ∧ ∀ (k : Nat) (p : ℝ → ℝ → ℝ),
    (∀ mu e, -1 ≤ mu → mu ≤ 1 → 0 < e → e < 1 → d.pdfAt 2 mu e = .ok (p mu e)) →
    ¬ Samples (fun (_ : Nat) ω => asPair (d.sample 2 ω k)) (jointLaw 0 1 p) := by
  have hm : Kalbach.make [1, 3] [tiltKT, tiltKT] = .ok ⟨[1, 3], [tiltKT, tiltKT]⟩ := by norm_num [Kalbach.make, isSorted]
  refine ⟨_, hm, fun k p hp hs => ?_⟩
  obtain ⟨l, f, t0, t1, mn0, mx0, mn1, mx1, G0, r0, s0, G1, r1, s1, hb, f0, f1, g0, g1, a1, a2, b1, b2, w0, w1, v0, v1, _, _, _, hcl⟩ :=
    kalbach_closed _ _ _ hm (by simp) (fun t ht => by
      simp only [List.mem_cons, List.not_mem_nil, or_false, or_self] at ht
      rw [ht]; exact tiltKT_sound) 2
  have hb' : bracketIn [(1 : ℝ), 3] 2 = .ok (0, 1 / 2) := by
    norm_num [bracketIn, lowerBound, lowerBoundRange, bisect, front, getAt, bind, Except.bind, pure, Except.pure, subIdx,
      rdiv]
  rw [hb'] at hb
  cases hb
  cases g0
  cases g1
  cases a1
  cases a2
  cases b1
  cases b2
  norm_num at hcl
  have hG : ∀ mu e : ℝ, 0 < e → e < 1 → (⟨[1, 3], [tiltKT, tiltKT]⟩ : Kalbach).pdfAt 2 mu e = .ok (2 * e * kalbachMann 1 1 mu) := by
    intro mu e h0 h1
    unfold Kalbach.pdfAt
    dsimp only
    rw [hb']
    have i1 : getAt [tiltKT, tiltKT] 0 = .ok tiltKT := rfl
    have i2 : getAt [tiltKT, tiltKT] (0 + 1) = .ok tiltKT := rfl
    have i3 : tiltKT.minEnergy = .ok 0 := rfl
    have i4 : tiltKT.maxEnergy = .ok 1 := rfl
    simp only [bind, Except.bind, i1, i2, i3, i4, unitBase, pure, Except.pure]
    norm_num [rdiv]
    rw [(tiltKT_param h0 h1).2.2.2 mu]
    norm_num
    ring
  have e1 : jointLaw 0 1 p = jointLaw 0 1 fun mu e => 2 * e * kalbachMann 1 1 mu := jointLaw_congr (F := {0, 1}) (by simp) fun mu e z0 z1 z2 z3 hn => by
    simp only [mem_insert_iff, mem_singleton_iff, not_or] at hn
    have h0 := lt_of_le_of_ne z2 (Ne.symm hn.1)
    have h1 := lt_of_le_of_ne z3 hn.2
    have := hp mu e z0 z1 h0 h1
    rw [hG mu e h0 h1] at this
    exact (Except.ok.inj this).symm
  have e2 : ∀ q : ℝ → ℝ → ℝ, (∀ mu e, 0 < e → e < 1 → q mu e = 2 * e * kalbachMann 1 e mu) → jointLaw 0 1 q = jointLaw 0 1 fun mu e => 2 * e * kalbachMann 1 e mu :=
    fun q hq => jointLaw_congr (F := {0, 1}) (by simp) fun mu e z0 z1 z2 z3 hn => by
      simp only [mem_insert_iff, mem_singleton_iff, not_or] at hn
      exact hq mu e (lt_of_le_of_ne z2 (Ne.symm hn.1)) (lt_of_le_of_ne z3 hn.2)
  have heq := closed_unique (hcl.congr (k := k) hs) hcl
  rw [e1, e2 (fun mu => stretched (1 / 2) 0 1 0 1 (fun e => G0 e * kalbachMann (s0 e) (r0 e) mu) fun e => G1 e * kalbachMann (s1 e) (r1 e) mu) (fun mu e h0 h1 => by
    obtain ⟨c1, c2, c3, _⟩ := tiltKT_param h0 h1
    have q1 := Except.ok.inj ((v0 e).1.symm.trans c1)
    have q2 := Except.ok.inj ((v0 e).2.1.symm.trans c2)
    have q3 := Except.ok.inj ((v0 e).2.2.symm.trans c3)
    have q4 := Except.ok.inj ((v1 e).1.symm.trans c1)
    have q5 := Except.ok.inj ((v1 e).2.1.symm.trans c2)
    have q6 := Except.ok.inj ((v1 e).2.2.symm.trans c3)
    unfold stretched
    norm_num
    rw [q1, q2, q3, q4, q5, q6]
    ring)] at heq
  unfold jointLaw at heq
  have hsh : Measurable Real.sinh := Real.continuous_sinh.measurable
  have hch : Measurable Real.cosh := Real.continuous_cosh.measurable
  rw [withDensity_eq_iff_of_sigmaFinite (by unfold kalbachMann; fun_prop) (by unfold kalbachMann; fun_prop)] at heq
  have hpos : 0 < (volume.restrict (Icc (-1 : ℝ) 1 ×ˢ Icc (0 : ℝ) 1)) (Ioo (0 : ℝ) 1 ×ˢ Ioo (0 : ℝ) 1) := by
    rw [Measure.restrict_apply (measurableSet_Ioo.prod measurableSet_Ioo), inter_eq_left.mpr
      (prod_mono (Ioo_subset_Icc_self.trans (Icc_subset_Icc (by norm_num) le_rfl)) Ioo_subset_Icc_self), Measure.volume_eq_prod, Measure.prod_prod]
    simp
  have hz : (volume.restrict (Icc (-1 : ℝ) 1 ×ˢ Icc (0 : ℝ) 1)) (Ioo (0 : ℝ) 1 ×ˢ Ioo (0 : ℝ) 1) = 0 := by
    refine measure_mono_null ?_ (ae_iff.mp heq)
    rintro ⟨mu, e⟩ ⟨⟨m0, m1⟩, h0, h1⟩
    show ¬ (ENNReal.ofReal (2 * e * kalbachMann 1 1 mu) = ENNReal.ofReal (2 * e * kalbachMann 1 e mu))
    have hsm : 0 < Real.sinh mu := Real.sinh_pos_iff.mpr m0
    have hs1 : 0 < Real.sinh 1 := Real.sinh_pos_iff.mpr one_pos
    have hlt : kalbachMann 1 e mu < kalbachMann 1 1 mu := by
      unfold kalbachMann
      refine mul_lt_mul_of_pos_left ?_ (by positivity)
      rw [one_mul, one_mul]
      nlinarith
    have hnn : 0 ≤ kalbachMann 1 e mu := kalbachMann_nonneg one_ne_zero (abs_le.mpr ⟨by linarith, h1.le⟩)
    have h3 : 2 * e * kalbachMann 1 e mu < 2 * e * kalbachMann 1 1 mu := mul_lt_mul_of_pos_left hlt (by linarith)
    exact ((ENNReal.ofReal_lt_ofReal_iff (lt_of_le_of_lt (mul_nonneg (by linarith) hnn) h3)).mpr h3).ne'
  exact hpos.ne' hz

end PNDL
