import Verif.Props.AngleLaw
import Verif.Props.UnitBase
import Mathlib.MeasureTheory.Function.Jacobian

/-! C110: the law of the energies TabularEnergy samples, and when it is the one it reports. -/
namespace PNDL
open MeasureTheory Spec Set
open scoped ENNReal

/-- The image of a density under the affine map of `[a, b]` onto `[lo, hi]`. -/
theorem densityOn_affine {a b lo hi : ℝ} (hab : a < b) (hlh : lo < hi) (p : ℝ → ℝ) :
    (densityOn a b p).map (fun x => lo + (x - a) / (b - a) * (hi - lo)) =
      densityOn lo hi fun y => (b - a) / (hi - lo) * p ((y - lo) / (hi - lo) * (b - a) + a) := by
  have hw : 0 < b - a := by linarith
  have hW : 0 < hi - lo := by linarith
  have hm : Measurable fun x : ℝ => lo + (x - a) / (b - a) * (hi - lo) := by fun_prop
  refine Measure.ext fun S hS => ?_
  rw [Measure.map_apply hm hS]
  unfold densityOn
  rw [withDensity_apply _ (hm hS), withDensity_apply _ hS, Measure.restrict_restrict (hm hS), Measure.restrict_restrict hS]
  have hd : ∀ y ∈ S ∩ Icc lo hi, HasDerivWithinAt (fun y : ℝ => (y - lo) / (hi - lo) * (b - a) + a) ((b - a) / (hi - lo)) (S ∩ Icc lo hi) y := by
    intro y _
    have h1 : HasDerivAt (fun y : ℝ => (y - lo) / (hi - lo) * (b - a) + a) (1 / (hi - lo) * (b - a)) y :=
      ((((hasDerivAt_id y).sub_const lo).div_const (hi - lo)).mul_const (b - a)).add_const a
    have e : 1 / (hi - lo) * (b - a) = (b - a) / (hi - lo) := by ring
    rw [e] at h1
    exact h1.hasDerivWithinAt
  have hinj : InjOn (fun y : ℝ => (y - lo) / (hi - lo) * (b - a) + a) (S ∩ Icc lo hi) := by
    intro x _ y _ h
    have h' : (x - lo) / (hi - lo) * (b - a) + a = (y - lo) / (hi - lo) * (b - a) + a := h
    have h2 : (b - a) * (x - y) = 0 := by field_simp at h'; linear_combination h'
    rcases mul_eq_zero.mp h2 with h2 | h2
    · linarith
    · linarith
  have himg : (fun y : ℝ => (y - lo) / (hi - lo) * (b - a) + a) '' (S ∩ Icc lo hi) = (fun x => lo + (x - a) / (b - a) * (hi - lo)) ⁻¹' S ∩ Icc a b := by
    ext x
    constructor
    · rintro ⟨y, ⟨hy, h0, h1⟩, rfl⟩
      have e : lo + ((y - lo) / (hi - lo) * (b - a) + a - a) / (b - a) * (hi - lo) = y := by field_simp; ring
      have q0 : 0 ≤ (y - lo) / (hi - lo) := div_nonneg (by linarith) hW.le
      have q1 : (y - lo) / (hi - lo) ≤ 1 := (div_le_one hW).mpr (by linarith)
      refine ⟨?_, ?_, ?_⟩
      · show lo + ((y - lo) / (hi - lo) * (b - a) + a - a) / (b - a) * (hi - lo) ∈ S
        rw [e]; exact hy
      · show a ≤ (y - lo) / (hi - lo) * (b - a) + a
        nlinarith
      · show (y - lo) / (hi - lo) * (b - a) + a ≤ b
        nlinarith
    · rintro ⟨hx, h0, h1⟩
      have q0 : 0 ≤ (x - a) / (b - a) := div_nonneg (by linarith) hw.le
      have q1 : (x - a) / (b - a) ≤ 1 := (div_le_one hw).mpr (by linarith)
      refine ⟨lo + (x - a) / (b - a) * (hi - lo), ⟨hx, ?_, ?_⟩, ?_⟩
      · nlinarith
      · nlinarith
      · show (lo + (x - a) / (b - a) * (hi - lo) - lo) / (hi - lo) * (b - a) + a = x
        field_simp
        ring
  rw [← himg, lintegral_image_eq_lintegral_abs_deriv_mul (hS.inter measurableSet_Icc) hd hinj]
  refine lintegral_congr fun y => ?_
  have hpos : 0 ≤ (b - a) / (hi - lo) := (div_pos hw hW).le
  rw [abs_of_nonneg hpos, ENNReal.ofReal_mul hpos]

/-- The density of the energies between two tables: each table's density carried to the interpolated window. -/
noncomputable def Spec.stretched (f mn0 mx0 mn1 mx1 : ℝ) (p0 p1 : ℝ → ℝ) (x : ℝ) : ℝ :=
  let lo := (1 - f) * mn0 + f * mn1
  let hi := (1 - f) * mx0 + f * mx1
  (1 - f) * ((mx0 - mn0) / (hi - lo) * p0 ((x - lo) / (hi - lo) * (mx0 - mn0) + mn0)) +
    f * ((mx1 - mn1) / (hi - lo) * p1 ((x - lo) / (hi - lo) * (mx1 - mn1) + mn1))

theorem tabEnergy_closed (energy : List ℝ) (tables : List PCTable) (d : TabEnergy) (hd : TabEnergy.make energy tables = .ok d)
    (E : ℝ) (l : Nat) (f mn0 mx0 mn1 mx1 : ℝ) (t0 t1 : PCTable) (hb : bracketIn energy E = .ok (l, f)) (f0 : 0 ≤ f) (f1 : f ≤ 1)
    (g0 : tables[l]? = some t0) (g1 : tables[l + 1]? = some t1) (v0 : ValidPC t0) (c0 : ConsistentPC t0) (v1 : ValidPC t1)
    (c1 : ConsistentPC t1) (e0 : t0.minValue = .ok mn0) (e1 : t0.maxValue = .ok mx0) (e2 : t1.minValue = .ok mn1)
    (e3 : t1.maxValue = .ok mx1) (p0 p1 : ℝ → ℝ) (hp0 : ∀ x, t0.pdfAt x = .ok (p0 x)) (hp1 : ∀ x, t1.pdfAt x = .ok (p1 x)) :
    mn0 < mx0 ∧ mn1 < mx1 ∧ Closed (fun _ ω k => d.sample E ω k) (densityOn ((1 - f) * mn0 + f * mn1) ((1 - f) * mx0 + f * mx1) (stretched f mn0 mx0 mn1 mx1 p0 p1)) := by
  obtain ⟨q1, q2, hs, hlen⟩ := TabEnergy.make_valid hd
  have w0 : mn0 < mx0 := c0.toCovered.min_lt_max v0 (front_eq_ok.mp e0) (back_eq_ok.mp e1)
  have w1 : mn1 < mx1 := c1.toCovered.min_lt_max v1 (front_eq_ok.mp e2) (back_eq_ok.mp e3)
  refine ⟨w0, w1, ?_⟩
  obtain ⟨lo, hlo⟩ : ∃ lo, lo = (1 - f) * mn0 + f * mn1 := ⟨_, rfl⟩
  obtain ⟨hi, hhi⟩ : ∃ hi, hi = (1 - f) * mx0 + f * mx1 := ⟨_, rfl⟩
  have hlh : lo < hi := by
    rcases f1.eq_or_lt with rfl | hf
    · rw [hlo, hhi]; linarith
    · rw [hlo, hhi]; nlinarith [mul_pos (sub_pos.mpr hf) (sub_pos.mpr w0), mul_nonneg f0 (sub_pos.mpr w1).le]
  -- one table
  have one : ∀ t, ValidPC t → ConsistentPC t → ∀ p : ℝ → ℝ, (∀ x, t.pdfAt x = .ok (p x)) → ∀ mn mx, t.minValue = .ok mn → t.maxValue = .ok mx → mn < mx →
      (∀ x, 0 ≤ p x) ∧ AEMeasurable (fun y => (mx - mn) / (hi - lo) * p ((y - lo) / (hi - lo) * (mx - mn) + mn)) (volume.restrict (Icc lo hi)) ∧
      Closed (fun (_ : Nat) ω k => ((do let e ← t.sample (ω k); let q ← rdiv (e - mn) (mx - mn); return lo + q * (hi - lo) : Res ℝ)).map fun x => (x, k + 1))
        (densityOn lo hi fun y => (mx - mn) / (hi - lo) * p ((y - lo) / (hi - lo) * (mx - mn) + mn)) := by
    intro t v c p hp mn mx h1 h2 hw
    obtain ⟨mn', mx', G, h, i1, i2, i3, i4, i5, i6, i7, i8, i9, i10⟩ := pctable_law t v c
    rw [h1] at i1; cases i1
    rw [h2] at i2; cases i2
    have hGp : G = p := funext fun x => by
      have := (i4 x).1
      rw [hp x] at this
      exact (Except.ok.inj this).symm
    subst hGp
    refine ⟨fun x => (i4 x).2, ?_, ?_⟩
    · have := (stretch_integrable hw hlh i6).const_mul ((mx - mn) / (hi - lo))
      exact ((intervalIntegrable_iff_integrableOn_Icc_of_le hlh.le).mp this).aemeasurable
    · rw [← densityOn_affine hw hlh, densityOn, ← densityOn, ← i10, Measure.map_map (by fun_prop) i8]
      refine closed_one (h := (fun x => lo + (x - mn) / (mx - mn) * (hi - lo)) ∘ h) (g := fun xi => (do let e ← t.sample xi; let q ← rdiv (e - mn) (mx - mn); return lo + q * (hi - lo) : Res ℝ))
        ((show Measurable fun x : ℝ => lo + (x - mn) / (mx - mn) * (hi - lo) by fun_prop).comp i8) fun x a b => ?_
      rw [(i9 x a b).1]
      simp only [bind, Except.bind, rdiv_ok (show mx - mn ≠ 0 by linarith)]
      rfl
  obtain ⟨n0, m0, k0⟩ := one t0 v0 c0 p0 hp0 mn0 mx0 e0 e1 w0
  obtain ⟨n1, m1, k1⟩ := one t1 v1 c1 p1 hp1 mn1 mx1 e2 e3 w1
  have hmix := closed_mix f0 f1 k0 k1
  have hp : ∀ (a b : ℝ) (p : ℝ → ℝ) (z : ℝ), a < b → (∀ x, 0 ≤ p x) → 0 ≤ (b - a) / (hi - lo) * p z := fun a b p z hab h =>
    mul_nonneg (div_nonneg (by linarith) (by linarith)) (h z)
  rw [← densityOn_mix f0 f1 m0 (fun x _ _ => hp _ _ _ _ w0 n0) fun x _ _ => hp _ _ _ _ w1 n1] at hmix
  have hst : stretched f mn0 mx0 mn1 mx1 p0 p1 = fun x => (1 - f) * ((mx0 - mn0) / (hi - lo) * p0 ((x - lo) / (hi - lo) * (mx0 - mn0) + mn0)) +
    f * ((mx1 - mn1) / (hi - lo) * p1 ((x - lo) / (hi - lo) * (mx1 - mn1) + mn1)) := by rw [hlo, hhi]; rfl
  rw [hst, ← hlo, ← hhi]
  refine hmix.of_eq fun fuel ω k => ?_
  have hw1 : mn0 + f * (mn1 - mn0) = lo := by rw [hlo]; ring
  have hw2 : mx0 + f * (mx1 - mx0) = hi := by rw [hhi]; ring
  unfold TabEnergy.sample
  rw [q1, q2]
  simp only [bind, Except.bind, hb, getAt_eq_ok.mpr g0, getAt_eq_ok.mpr g1, e0, e1, e2, e3, hw1, hw2]
  by_cases hf : ω k > f
  · rw [if_pos hf, if_pos hf]
    cases h : t0.sample (ω (k + 1)) with
    | error e => rfl
    | ok e =>
      simp only [pure, Except.pure]
      cases rdiv (e - mn0) (mx0 - mn0) <;> rfl
  · rw [if_neg hf, if_neg hf]
    cases h : t1.sample (ω (k + 1)) with
    | error e => rfl
    | ok e =>
      simp only [pure, Except.pure]
      cases rdiv (e - mn1) (mx1 - mn1) <;> rfl

/-- **C110**, the law of the energies `TabularEnergy::sample_energy` returns: at every incident energy, with the two tables next to
it and their weight (`bracketIn`, characterised by `C67_bracket`), it has the density of the tables carried to the interpolated
window, on that window. -/
theorem C110_law (energy : List ℝ) (tables : List PCTable) (d : TabEnergy) (hd : TabEnergy.make energy tables = .ok d) (hn : 2 ≤ energy.length)
    (ht : ∀ t ∈ tables, ValidPC t ∧ ConsistentPC t) (E : ℝ) :
    ∃ (l : Nat) (f : ℝ) (t0 t1 : PCTable) (mn0 mx0 mn1 mx1 : ℝ) (p0 p1 : ℝ → ℝ), bracketIn energy E = .ok (l, f) ∧ 0 ≤ f ∧ f ≤ 1 ∧
      tables[l]? = some t0 ∧ tables[l + 1]? = some t1 ∧ t0.minValue = .ok mn0 ∧ t0.maxValue = .ok mx0 ∧ t1.minValue = .ok mn1 ∧ t1.maxValue = .ok mx1 ∧
      (∀ x, t0.pdfAt x = .ok (p0 x)) ∧ (∀ x, t1.pdfAt x = .ok (p1 x)) ∧
      ∀ k, SamplesDensity (fun (_ : Nat) ω => d.sample E ω k) ((1 - f) * mn0 + f * mn1) ((1 - f) * mx0 + f * mx1) (stretched f mn0 mx0 mn1 mx1 p0 p1) := by
  obtain ⟨_, _, hs, hlen⟩ := TabEnergy.make_valid hd
  obtain ⟨first, h0⟩ := getElem?_of_lt (l := energy) (i := 0) (by omega)
  obtain ⟨last, h1⟩ := last_exists (l := energy) (by omega)
  obtain ⟨l, f, _, _, hb, hlt, _, _, f0, f1, _⟩ := C67_bracket energy E first last hs hn h0 h1
  obtain ⟨t0, g0⟩ := getElem?_of_lt (l := tables) (i := l) (by omega)
  obtain ⟨t1, g1⟩ := getElem?_of_lt (l := tables) (i := l + 1) (by omega)
  obtain ⟨v0, c0⟩ := ht t0 (List.mem_of_getElem? g0)
  obtain ⟨v1, c1⟩ := ht t1 (List.mem_of_getElem? g1)
  obtain ⟨mn0, mx0, p0, _, a0, b0, _, i0, _⟩ := pctable_law t0 v0 c0
  obtain ⟨mn1, mx1, p1, _, a1, b1, _, i1, _⟩ := pctable_law t1 v1 c1
  refine ⟨l, f, t0, t1, mn0, mx0, mn1, mx1, p0, p1, hb, f0, f1, g0, g1, a0, b0, a1, b1, fun x => (i0 x).1, fun x => (i1 x).1, fun k => ?_⟩
  exact (tabEnergy_closed energy tables d hd E l f mn0 mx0 mn1 mx1 t0 t1 hb f0 f1 g0 g1 v0 c0 v1 c1 a0 b0 a1 b1 p0 p1 (fun x => (i0 x).1)
    fun x => (i1 x).1).2.2.samples k

/-- **C110**, exactly when these are the energies `TabularEnergy::pdf` reports: when only one table counts or the two tables next to
the incident energy have the same width. -/
theorem C110_iff (energy : List ℝ) (tables : List PCTable) (d : TabEnergy) (hd : TabEnergy.make energy tables = .ok d)
    (E : ℝ) (l : Nat) (f mn0 mx0 mn1 mx1 : ℝ) (t0 t1 : PCTable) (hb : bracketIn energy E = .ok (l, f)) (f0 : 0 ≤ f) (f1 : f ≤ 1)
    (g0 : tables[l]? = some t0) (g1 : tables[l + 1]? = some t1) (v0 : ValidPC t0) (c0 : ConsistentPC t0) (v1 : ValidPC t1)
    (c1 : ConsistentPC t1) (e0 : t0.minValue = .ok mn0) (e1 : t0.maxValue = .ok mx0) (e2 : t1.minValue = .ok mn1)
    (e3 : t1.maxValue = .ok mx1) (k : Nat) :
    SamplesReported (fun (_ : Nat) ω => d.sample E ω k) ((1 - f) * mn0 + f * mn1) ((1 - f) * mx0 + f * mx1) (d.pdfAt E) ↔
      f = 0 ∨ f = 1 ∨ mx0 - mn0 = mx1 - mn1 := by
  obtain ⟨q1, q2, hs, hlen⟩ := TabEnergy.make_valid hd
  obtain ⟨p0, hp0⟩ := C33_density_exists t0 v0
  obtain ⟨p1, hp1⟩ := C33_density_exists t1 v1
  obtain ⟨w0, w1, hcl⟩ := tabEnergy_closed energy tables d hd E l f mn0 mx0 mn1 mx1 t0 t1 hb f0 f1 g0 g1 v0 c0 v1 c1 e0 e1 e2 e3 p0 p1 hp0 hp1
  obtain ⟨lo, hlo⟩ : ∃ lo, lo = (1 - f) * mn0 + f * mn1 := ⟨_, rfl⟩
  obtain ⟨hi, hhi⟩ : ∃ hi, hi = (1 - f) * mx0 + f * mx1 := ⟨_, rfl⟩
  have hlh : lo < hi := by
    rcases f1.eq_or_lt with rfl | hf
    · rw [hlo, hhi]; linarith
    · rw [hlo, hhi]; nlinarith [mul_pos (sub_pos.mpr hf) (sub_pos.mpr w0), mul_nonneg f0 (sub_pos.mpr w1).le]
  have hw1 : mn0 + f * (mn1 - mn0) = lo := by rw [hlo]; ring
  have hw2 : mx0 + f * (mx1 - mx0) = hi := by rw [hhi]; ring
  -- what is reported
  have hG : ∀ x, d.pdfAt E x = .ok ((1 - f) * p0 ((x - lo) / (hi - lo) * (mx0 - mn0) + mn0) + f * p1 ((x - lo) / (hi - lo) * (mx1 - mn1) + mn1)) := by
    intro x
    unfold TabEnergy.pdfAt
    rw [q1, q2]
    simp only [bind, Except.bind, hb, getAt_eq_ok.mpr g0, getAt_eq_ok.mpr g1, e0, e1, e2, e3, hw1, hw2,
        rdiv_ok (show hi - lo ≠ 0 by intro h; linarith), hp0, hp1, pure, Except.pure]
  have hnn : ∀ t, ValidPC t → ∀ p : ℝ → ℝ, (∀ x, t.pdfAt x = .ok (p x)) → ∀ x, 0 ≤ p x := by
    intro t v p hp x
    obtain ⟨q, hq, hq0, _⟩ := C34_pdf t v x
    rw [hp x] at hq
    cases hq
    exact hq0
  have n0 := hnn t0 v0 p0 hp0
  have n1 := hnn t1 v1 p1 hp1
  rw [← hlo, ← hhi] at hcl ⊢
  constructor
  · rintro ⟨p, hp, hsam⟩
    by_contra hc
    push Not at hc
    have hmass := C83_violation energy tables d hd E l f mn0 mx0 mn1 mx1 t0 t1 hb (lt_of_le_of_ne f0 (Ne.symm hc.1)) (lt_of_le_of_ne f1 hc.2.1) g0 g1 v0 c0 v1 c1
      e0 e1 e2 e3 w0 w1 lo hi hlo hhi _ hG hc.2.2
    have hpG : ∀ x, lo ≤ x → x ≤ hi → p x = (1 - f) * p0 ((x - lo) / (hi - lo) * (mx0 - mn0) + mn0) + f * p1 ((x - lo) / (hi - lo) * (mx1 - mn1) + mn1) := by
      intro x a b
      have := hp x a b
      rw [hG x] at this
      exact (Except.ok.inj this).symm
    have hI : ∀ t, ValidPC t → ConsistentPC t → ∀ p : ℝ → ℝ, (∀ x, t.pdfAt x = .ok (p x)) → ∀ mn mx, t.minValue = .ok mn →
        t.maxValue = .ok mx → mn < mx → IntervalIntegrable (fun x => p ((x - lo) / (hi - lo) * (mx - mn) + mn)) volume lo hi := by
      intro t v c p hp mn mx h1 h2 hw
      refine stretch_integrable hw hlh (t.integral_grid v c p hp (front_eq_ok.mp h1) (t.values.length - 1) mx 1 ?_ ?_).1
      · rw [← List.getLast?_eq_getElem?]; exact back_eq_ok.mp h2
      · rw [← v.lenC, ← List.getLast?_eq_getElem?]; exact v.cdf_last
    have hii := ((hI t0 v0 c0 p0 hp0 mn0 mx0 e0 e1 w0).const_mul (1 - f)).add ((hI t1 v1 c1 p1 hp1 mn1 mx1 e2 e3 w1).const_mul f)
    have hcl' : Closed (fun _ ω k => d.sample E ω k) (densityOn lo hi p) := hcl.congr (k := k) hsam
    have hone := hcl'.prob.measure_univ
    rw [densityOn_congr hpG] at hone
    unfold densityOn at hone
    rw [withDensity_apply _ .univ, Measure.restrict_univ] at hone
    have hl := lintegral_of_integral hlh.le hii fun x _ => add_nonneg (mul_nonneg (by linarith) (n0 _)) (mul_nonneg f0 (n1 _))
    rw [hl] at hone
    have : ENNReal.ofReal 1 < ENNReal.ofReal (∫ x in lo..hi, ((1 - f) * p0 ((x - lo) / (hi - lo) * (mx0 - mn0) + mn0) + f * p1 ((x - lo) / (hi - lo) * (mx1 - mn1) + mn1))) :=
      (ENNReal.ofReal_lt_ofReal_iff (by linarith)).mpr hmass
    rw [hone, ENNReal.ofReal_one] at this
    exact lt_irrefl _ this
  · intro hw
    refine ⟨_, fun x _ _ => hG x, ?_⟩
    have hW : hi - lo = (1 - f) * (mx0 - mn0) + f * (mx1 - mn1) := by rw [hlo, hhi]; ring
    have he : stretched f mn0 mx0 mn1 mx1 p0 p1 = fun x => (1 - f) * p0 ((x - lo) / (hi - lo) * (mx0 - mn0) + mn0) + f * p1 ((x - lo) / (hi - lo) * (mx1 - mn1) + mn1) := by
      funext x
      unfold stretched
      dsimp only
      rw [← hlo, ← hhi]
      rcases hw with h | h | h
      · rw [hW, h]
        have : mx0 - mn0 ≠ 0 := by intro h; linarith
        simp [div_self this]
      · rw [hW, h]
        have : mx1 - mn1 ≠ 0 := by intro h; linarith
        simp [div_self this]
      · have e : hi - lo = mx0 - mn0 := by rw [hW, ← h]; ring
        have : mx0 - mn0 ≠ 0 := by intro h; linarith
        rw [e, ← h, div_self this]
        ring
    rw [he] at hcl
    exact hcl.samples k

/-- C110 for tables that all have the same width: the energies are the reported ones at every incident energy. Missing: tables of
different widths, see `C110_violation`. -/
theorem C110_samples_partial (energy : List ℝ) (tables : List PCTable) (d : TabEnergy) (hd : TabEnergy.make energy tables = .ok d) (hn : 2 ≤ energy.length)
    (ht : ∀ t ∈ tables, ValidPC t ∧ ConsistentPC t) (w : ℝ) (hw : ∀ t ∈ tables, ∀ mn mx, t.minValue = .ok mn → t.maxValue = .ok mx → mx - mn = w) (E : ℝ) :
    ∃ lo hi, lo < hi ∧ ∀ k, SamplesReported (fun (_ : Nat) ω => d.sample E ω k) lo hi (d.pdfAt E) := by
  obtain ⟨l, f, t0, t1, mn0, mx0, mn1, mx1, p0, p1, hb, f0, f1, g0, g1, a0, b0, a1, b1, _, _, _⟩ := C110_law energy tables d hd hn ht E
  obtain ⟨v0, c0⟩ := ht t0 (List.mem_of_getElem? g0)
  obtain ⟨v1, c1⟩ := ht t1 (List.mem_of_getElem? g1)
  have w0 : mn0 < mx0 := c0.toCovered.min_lt_max v0 (front_eq_ok.mp a0) (back_eq_ok.mp b0)
  have w1 := hw t0 (List.mem_of_getElem? g0) mn0 mx0 a0 b0
  have w2 := hw t1 (List.mem_of_getElem? g1) mn1 mx1 a1 b1
  refine ⟨(1 - f) * mn0 + f * mn1, (1 - f) * mx0 + f * mx1, ?_, fun k => ?_⟩
  · have : (1 - f) * mx0 + f * mx1 = (1 - f) * mn0 + f * mn1 + w := by linear_combination (1 - f) * w1 + f * w2
    linarith
  · exact (C110_iff energy tables d hd E l f mn0 mx0 mn1 mx1 t0 t1 hb f0 f1 g0 g1 v0 c0 v1 c1 a0 b0 a1 b1 k).mpr (Or.inr (Or.inr (w1.trans w2.symm)))

/-- The full claim is false of the code: half-way between a uniform table on `[0, 1]` and one on `[0, 2]` the energies are not those
reported. -/
theorem C110_violation : ∃ d, TabEnergy.make [1, 3] [flatPC 1, flatPC 2] = .ok d ∧ ∀ k,
    ¬ SamplesReported (fun (_ : Nat) ω => d.sample 2 ω k) 0 (3 / 2) (d.pdfAt 2) := by
  refine ⟨⟨[1, 3], [flatPC 1, flatPC 2]⟩, by norm_num [TabEnergy.make, isSorted], fun k h => ?_⟩
  have hb : bracketIn [(1 : ℝ), 3] 2 = .ok (0, 1 / 2) := by
    norm_num [bracketIn, lowerBound, lowerBoundRange, bisect, front, getAt, bind, Except.bind, pure, Except.pure, subIdx,
      rdiv]
  have := C110_iff [1, 3] [flatPC 1, flatPC 2] _ (by norm_num [TabEnergy.make, isSorted]; rfl) 2 0 (1 / 2) 0 1 0 2 (flatPC 1) (flatPC 2) hb (by norm_num) (by norm_num) rfl rfl
    (PCTable.make_valid (flatPC_make one_pos)).1 (flatPC_consistent one_pos)
    (PCTable.make_valid (flatPC_make two_pos)).1 (flatPC_consistent two_pos) rfl rfl rfl rfl k
  norm_num at this
  exact this h

/-- The hypotheses of `C110_law` and `C110_samples_partial` are met, by different tables. -/
example : ∃ d, TabEnergy.make [1, 3] [flatPC 1, ⟨[0, 1], [0, 2], [0, 1], .linLin⟩] = .ok d ∧
    (∀ t ∈ [flatPC 1, ⟨[0, 1], [0, 2], [0, 1], .linLin⟩], (ValidPC t ∧ ConsistentPC t) ∧ ∀ mn mx, t.minValue = .ok mn → t.maxValue = .ok mx → mx - mn = 1) := by
  refine ⟨_, by norm_num [TabEnergy.make, isSorted]; rfl, ?_⟩
  intro t h
  simp only [List.mem_cons, List.not_mem_nil, or_false] at h
  rcases h with rfl | rfl
  · refine ⟨⟨(PCTable.make_valid (flatPC_make one_pos)).1, flatPC_consistent one_pos⟩, fun mn mx h1 h2 => ?_⟩
    cases h1
    cases h2
    norm_num
  · refine ⟨triangle_ok, fun mn mx h1 h2 => ?_⟩
    cases h1
    cases h2
    norm_num

end PNDL
