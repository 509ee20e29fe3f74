import Verif.Props.EnergyAngle

/-! C82, C83: the laws that interpolate between two tables (`TabularEnergy`, `Kalbach`, `TabularEnergyAngle`). -/
namespace PNDL
open Spec MeasureTheory

/-! ## C82: sampling -/

/-- `R(E)` and `A(E)` are defined on a valid table and stay between the tabulated values. -/
theorem KalbachTable.param_ok {t : KalbachTable} (hv : ValidKT t) {ys : List ℝ} (hl : ys.length = t.energy.length) (E : ℝ) :
    ∃ v, t.param ys E = .ok v ∧ ∃ y0 ∈ ys, ∃ y1 ∈ ys, min y0 y1 ≤ v ∧ v ≤ max y0 y1 := by
  have hne : 0 < t.energy.length := List.length_pos_iff.mpr hv.pc.ne
  have hs : t.energy.Pairwise (· ≤ ·) := hv.pc.values_sorted
  obtain ⟨mn, hmn⟩ := getElem?_of_lt (l := t.energy) (i := 0) hne
  obtain ⟨mx, hmx⟩ := last_exists (l := t.energy) hne
  obtain ⟨y0, hy0⟩ := getElem?_of_lt (l := ys) (i := 0) (by omega)
  obtain ⟨yn, hyn⟩ := last_exists (l := ys) (by omega)
  unfold KalbachTable.param
  simp only [front_eq_ok.mpr hmn, back_eq_ok.mpr hmx, bind, Except.bind]
  by_cases h1 : E ≤ mn
  · rw [if_pos h1]
    have := List.mem_of_getElem? hy0
    exact ⟨y0, front_eq_ok.mpr hy0, y0, this, y0, this, by simp, by simp⟩
  rw [if_neg h1]
  by_cases h2 : E ≥ mx
  · rw [if_pos h2]
    have := List.mem_of_getLast? hyn
    exact ⟨yn, back_eq_ok.mpr hyn, yn, this, yn, this, by simp, by simp⟩
  rw [if_neg h2]
  obtain ⟨i, x1, x2, e3, e1, e2, e4, e5⟩ := bracket_index hs hmn hmx (not_le.mp h1) (not_le.mp h2).le
  have hlt := lt_length_of_some e2
  obtain ⟨a, ha⟩ := getElem?_of_lt (l := ys) (i := i) (by omega)
  obtain ⟨b, hb⟩ := getElem?_of_lt (l := ys) (i := i + 1) (by omega)
  rw [e3, subIdx_of_le (by omega)]
  simp only [Nat.add_sub_cancel, getAt_eq_ok.mpr e1, getAt_eq_ok.mpr e2, getAt_eq_ok.mpr ha, getAt_eq_ok.mpr hb]
  have ma := List.mem_of_getElem? ha
  have mb := List.mem_of_getElem? hb
  by_cases hr : t.interp = .histogram
  · rw [if_pos hr]
    exact ⟨a, rfl, a, ma, b, mb, by simp, by simp⟩
  · rw [if_neg hr]
    have hd : x2 - x1 ≠ 0 := by intro h; linarith
    simp only [Interpolation.interpolate, rdiv_ok hd, bind, Except.bind, pure, Except.pure]
    obtain ⟨f0, f1⟩ := lin_frac_mem (show x1 < x2 by linarith) e4.le e5
    have := affine_between (y1 := a) (y2 := b) f0 f1
    exact ⟨_, rfl, a, ma, b, mb, by linarith [this.1], by linarith [this.2]⟩

/-- C82: `R(E)` and `A(E)` of a Kalbach table are defined for every energy and lie within the range of the tabulated values. -/
theorem C82_parameters (energy pdf cdf R A : List ℝ) (r : Interpolation) (t : KalbachTable)
    (ht : KalbachTable.make energy pdf cdf R A r = .ok t) (E : ℝ) :
    (∃ v, t.evalR E = .ok v ∧ ∃ y0 ∈ R, ∃ y1 ∈ R, min y0 y1 ≤ v ∧ v ≤ max y0 y1) ∧
    (∃ v, t.evalA E = .ok v ∧ ∃ y0 ∈ A, ∃ y1 ∈ A, min y0 y1 ≤ v ∧ v ≤ max y0 y1) := by
  obtain ⟨hv, e1, e2, e3, e4, e5⟩ := KalbachTable.make_valid ht
  rw [← e3, ← e4]
  exact ⟨t.param_ok hv hv.lenR E, t.param_ok hv hv.lenA E⟩

theorem unit_window {f mn0 mx0 mn1 mx1 x a b : ℝ} (f0 : 0 ≤ f) (f1 : f ≤ 1) (w0 : mn0 ≤ mx0) (w1 : mn1 ≤ mx1)
    (hx1 : a ≤ x) (hx2 : x ≤ b) (hab : a < b) :
    (1 - f) * mn0 + f * mn1 ≤ mn0 + f * (mn1 - mn0) + (x - a) / (b - a) * (mx0 + f * (mx1 - mx0) - (mn0 + f * (mn1 - mn0))) ∧
    mn0 + f * (mn1 - mn0) + (x - a) / (b - a) * (mx0 + f * (mx1 - mx0) - (mn0 + f * (mn1 - mn0))) ≤ (1 - f) * mx0 + f * mx1 := by
  obtain ⟨q, hq⟩ : ∃ q, q = (x - a) / (b - a) := ⟨_, rfl⟩
  have hq0 : 0 ≤ q := by rw [hq]; apply div_nonneg <;> linarith
  have hq1 : q ≤ 1 := by rw [hq, div_le_one (by linarith)]; linarith
  have hw : 0 ≤ mx0 + f * (mx1 - mx0) - (mn0 + f * (mn1 - mn0)) := by nlinarith
  rw [← hq]
  constructor
  · nlinarith [mul_nonneg hq0 hw]
  · nlinarith [mul_nonneg (sub_nonneg.mpr hq1) hw]

/-- A usable Kalbach table: positive slopes, and a density that covers the cumulative. -/
structure Spec.GoodKT (t : KalbachTable) : Prop where
  valid : ValidKT t
  covered : CoveredPC t.toPC
  slopes : ∀ a ∈ t.A, 0 < a

/-- C82 for Kalbach: with at least two incoming energies and usable tables every draw gives a cosine in `[-1, 1]` (without
the clamp) and an energy in the interpolated window.  Missing: zero slopes and inconsistent tables (`C64_violation_zero_slope_sample`,
`C32_violation_range`). -/
theorem C82_kalbach_partial (energy : List ℝ) (tables : List KalbachTable) (d : Kalbach) (hd : Kalbach.make energy tables = .ok d)
    (hn : 2 ≤ energy.length) (ht : ∀ t ∈ tables, GoodKT t) (E : ℝ) (ω : Tape) (hω : UnitTape ω) (k : Nat) :
    ∃ (l : Nat) (f : ℝ) (t0 t1 : KalbachTable) (mn0 mx0 mn1 mx1 mu v : ℝ), bracketIn energy E = .ok (l, f) ∧
      tables[l]? = some t0 ∧ tables[l + 1]? = some t1 ∧
      t0.minEnergy = .ok mn0 ∧ t0.maxEnergy = .ok mx0 ∧ t1.minEnergy = .ok mn1 ∧ t1.maxEnergy = .ok mx1 ∧
      d.sample E ω k = .ok (mu, v, k + 4) ∧ -1 ≤ mu ∧ mu ≤ 1 ∧
      (1 - f) * mn0 + f * mn1 ≤ v ∧ v ≤ (1 - f) * mx0 + f * mx1 := by
  unfold Kalbach.make at hd
  split at hd
  · cases hd
  rename_i h1
  split at hd
  · cases hd
  rename_i h2
  cases hd
  have hs : energy.Pairwise (· ≤ ·) := isSorted_iff.mp (by simpa using h1)
  obtain ⟨first, h0⟩ := getElem?_of_lt (l := energy) (i := 0) (by omega)
  obtain ⟨last, hlast⟩ := last_exists (l := energy) (by omega)
  obtain ⟨l, f, _, _, hb, hlt, _, _, f0, f1, _⟩ := C67_bracket energy E first last hs hn h0 hlast
  obtain ⟨t0, g0⟩ := getElem?_of_lt (l := tables) (i := l) (by omega)
  obtain ⟨t1, g1⟩ := getElem?_of_lt (l := tables) (i := l + 1) (by omega)
  have G0 := ht t0 (List.mem_of_getElem? g0)
  have G1 := ht t1 (List.mem_of_getElem? g1)
  obtain ⟨x0, mn0, mx0, s0, a0, b0, p0, q0⟩ := C32_in_range_partial t0.toPC G0.valid.pc G0.covered (ω (k + 1)) (hω _).1 (hω _).2.le
  obtain ⟨x1, mn1, mx1, s1, a1, b1, p1, q1⟩ := C32_in_range_partial t1.toPC G1.valid.pc G1.covered (ω (k + 1)) (hω _).1 (hω _).2.le
  have w0 : mn0 < mx0 := G0.covered.min_lt_max G0.valid.pc (front_eq_ok.mp a0) (back_eq_ok.mp b0)
  have w1 : mn1 < mx1 := G1.covered.min_lt_max G1.valid.pc (front_eq_ok.mp a1) (back_eq_ok.mp b1)
  have pos : ∀ t, GoodKT t → ∀ e, ∃ a, t.evalA e = .ok a ∧ 0 < a := by
    intro t ht e
    obtain ⟨v, hv, y0, m0, y1, m1, hlo, _⟩ := t.param_ok ht.valid ht.valid.lenA e
    exact ⟨v, hv, lt_of_lt_of_le (lt_min (ht.slopes _ m0) (ht.slopes _ m1)) hlo⟩
  have e0 : t0.minEnergy = .ok mn0 := a0
  have e1 : t0.maxEnergy = .ok mx0 := b0
  have e2 : t1.minEnergy = .ok mn1 := a1
  have e3 : t1.maxEnergy = .ok mx1 := b1
  have s0' : t0.sampleEnergy (ω (k + 1)) = .ok x0 := s0
  have s1' : t1.sampleEnergy (ω (k + 1)) = .ok x1 := s1
  unfold Kalbach.sample
  simp only [bind, Except.bind, hb, getAt_eq_ok.mpr g0, getAt_eq_ok.mpr g1, unitBase, e0, e1, e2, e3, pure, Except.pure]
  by_cases hf : ω k > f
  · obtain ⟨A, hA, hA0⟩ := pos t0 G0 x0
    obtain ⟨R, hR, _⟩ := t0.param_ok G0.valid G0.valid.lenR x0
    have hR' : t0.evalR x0 = .ok R := hR
    obtain ⟨mu, hmu, m1, m2⟩ := C64_cosine_range R A (ω (k + 2)) (ω (k + 3)) hA0.ne' (hω _).1 (hω _).2.le
    refine ⟨l, f, t0, t1, mn0, mx0, mn1, mx1, mu, _, rfl, g0, g1, e0, e1, e2, e3, ?_, m1, m2,
      unit_window f0 f1 w0.le w1.le p0 q0 w0⟩
    rw [if_pos hf]
    simp only [s0', hR', hA, rdiv_ok (show mx0 - mn0 ≠ 0 by linarith), hmu, clampMu_of_mem m1 m2]
  · obtain ⟨A, hA, hA0⟩ := pos t1 G1 x1
    obtain ⟨R, hR, _⟩ := t1.param_ok G1.valid G1.valid.lenR x1
    have hR' : t1.evalR x1 = .ok R := hR
    obtain ⟨mu, hmu, m1, m2⟩ := C64_cosine_range R A (ω (k + 2)) (ω (k + 3)) hA0.ne' (hω _).1 (hω _).2.le
    refine ⟨l, f, t0, t1, mn0, mx0, mn1, mx1, mu, _, rfl, g0, g1, e0, e1, e2, e3, ?_, m1, m2,
      unit_window f0 f1 w0.le w1.le p1 q1 w1⟩
    rw [if_neg hf]
    simp only [s1', hR', hA, rdiv_ok (show mx1 - mn1 ≠ 0 by linarith), hmu, clampMu_of_mem m1 m2]

/-- A usable energy-angle table. -/
structure Spec.GoodEA (t : EATable) : Prop where
  valid : ValidEA t
  covered : CoveredPC (eaPC t)
  angles : ∀ a ∈ t.angles, CoveredPC a

/-- C82 for TabularEnergyAngle: with at least two incoming energies, usable tables and a non-zero second random number, the
cosine is in `[-1, 1]` and the energy in the interpolated window.  Missing: the random number 0 (`C63_violation_ea_zero`). -/
theorem C82_tabular_partial (energy : List ℝ) (tables : List EATable) (d : TabEnergyAngle) (hd : TabEnergyAngle.make energy tables = .ok d)
    (hn : 2 ≤ energy.length) (ht : ∀ t ∈ tables, GoodEA t) (E : ℝ) (ω : Tape) (hω : UnitTape ω) (k : Nat) (hk : 0 < ω (k + 1)) :
    ∃ (l : Nat) (f : ℝ) (t0 t1 : EATable) (mn0 mx0 mn1 mx1 mu v : ℝ), bracketIn energy E = .ok (l, f) ∧
      tables[l]? = some t0 ∧ tables[l + 1]? = some t1 ∧
      t0.minEnergy = .ok mn0 ∧ t0.maxEnergy = .ok mx0 ∧ t1.minEnergy = .ok mn1 ∧ t1.maxEnergy = .ok mx1 ∧
      d.sample E ω k = .ok (mu, v, k + 3) ∧ -1 ≤ mu ∧ mu ≤ 1 ∧
      (1 - f) * mn0 + f * mn1 ≤ v ∧ v ≤ (1 - f) * mx0 + f * mx1 := by
  unfold TabEnergyAngle.make at hd
  split at hd
  · cases hd
  rename_i h1
  split at hd
  · cases hd
  rename_i h2
  cases hd
  have hs : energy.Pairwise (· ≤ ·) := isSorted_iff.mp (by simpa using h1)
  obtain ⟨first, h0⟩ := getElem?_of_lt (l := energy) (i := 0) (by omega)
  obtain ⟨last, hlast⟩ := last_exists (l := energy) (by omega)
  obtain ⟨l, f, _, _, hb, hlt, _, _, f0, f1, _⟩ := C67_bracket energy E first last hs hn h0 hlast
  obtain ⟨t0, g0⟩ := getElem?_of_lt (l := tables) (i := l) (by omega)
  obtain ⟨t1, g1⟩ := getElem?_of_lt (l := tables) (i := l + 1) (by omega)
  have G0 := ht t0 (List.mem_of_getElem? g0)
  have G1 := ht t1 (List.mem_of_getElem? g1)
  have ends : ∀ t, GoodEA t → ∃ mn mx, t.minEnergy = .ok mn ∧ t.maxEnergy = .ok mx ∧ mn < mx := by
    intro t ht
    have hne : 0 < t.energy.length := List.length_pos_iff.mpr ht.valid.pc.ne
    obtain ⟨mn, hmn⟩ := getElem?_of_lt (l := t.energy) (i := 0) hne
    obtain ⟨mx, hmx⟩ := last_exists (l := t.energy) hne
    exact ⟨mn, mx, front_eq_ok.mpr hmn, back_eq_ok.mpr hmx, ht.covered.min_lt_max ht.valid.pc hmn hmx⟩
  obtain ⟨mn0, mx0, e0, e1, w0⟩ := ends t0 G0
  obtain ⟨mn1, mx1, e2, e3, w1⟩ := ends t1 G1
  obtain ⟨mu0, x0, s0, m0, m0', p0, q0⟩ := C63_ea_sample_partial t0 G0.valid G0.covered G0.angles mn0 mx0 e0 e1 ω hω (k + 1) hk
  obtain ⟨mu1, x1, s1, m1, m1', p1, q1⟩ := C63_ea_sample_partial t1 G1.valid G1.covered G1.angles mn1 mx1 e2 e3 ω hω (k + 1) hk
  unfold TabEnergyAngle.sample
  simp only [bind, Except.bind, hb, getAt_eq_ok.mpr g0, getAt_eq_ok.mpr g1, unitBase, e0, e1, e2, e3, pure, Except.pure]
  by_cases hf : ω k > f
  · refine ⟨l, f, t0, t1, mn0, mx0, mn1, mx1, mu0, _, rfl, g0, g1, e0, e1, e2, e3, ?_, m0, m0',
      unit_window f0 f1 w0.le w1.le p0 q0 w0⟩
    rw [if_pos hf]
    simp only [s0, rdiv_ok (show mx0 - mn0 ≠ 0 by linarith)]
  · refine ⟨l, f, t0, t1, mn0, mx0, mn1, mx1, mu1, _, rfl, g0, g1, e0, e1, e2, e3, ?_, m1, m1',
      unit_window f0 f1 w0.le w1.le p1 q1 w1⟩
    rw [if_neg hf]
    simp only [s1, rdiv_ok (show mx1 - mn1 ≠ 0 by linarith)]

/-! ## C83: densities -/

/-- Integrating a density stretched from `[a, b]` to `[lo, hi]`. -/
theorem stretch_integral {p : ℝ → ℝ} {a b lo hi : ℝ} (hab : a < b) (hlh : lo < hi) :
    ∫ x in lo..hi, p ((x - lo) / (hi - lo) * (b - a) + a) = (hi - lo) / (b - a) * ∫ y in a..b, p y := by
  have hd : hi - lo ≠ 0 := by intro h; linarith
  have hd2 : b - a ≠ 0 := by intro h; linarith
  have hc : (b - a) / (hi - lo) ≠ 0 := div_ne_zero hd2 hd
  have e : (fun x => p ((x - lo) / (hi - lo) * (b - a) + a)) =
      fun x => p ((b - a) / (hi - lo) * x + (a - lo * ((b - a) / (hi - lo)))) := by
    funext x; congr 1; field_simp; ring
  rw [e, intervalIntegral.integral_comp_mul_add _ hc]
  have e1 : (b - a) / (hi - lo) * lo + (a - lo * ((b - a) / (hi - lo))) = a := by ring
  have e2 : (b - a) / (hi - lo) * hi + (a - lo * ((b - a) / (hi - lo))) = b := by field_simp; ring
  rw [e1, e2, inv_div, smul_eq_mul]

theorem stretch_integrable {p : ℝ → ℝ} {a b lo hi : ℝ} (hab : a < b) (hlh : lo < hi) (hp : IntervalIntegrable p volume a b) :
    IntervalIntegrable (fun x => p ((x - lo) / (hi - lo) * (b - a) + a)) volume lo hi := by
  have hd : hi - lo ≠ 0 := by intro h; linarith
  have hd2 : b - a ≠ 0 := by intro h; linarith
  have hc : (b - a) / (hi - lo) ≠ 0 := div_ne_zero hd2 hd
  have e : (fun x => p ((x - lo) / (hi - lo) * (b - a) + a)) =
      fun x => (fun y => p (y + (a - lo * ((b - a) / (hi - lo))))) ((b - a) / (hi - lo) * x) := by
    funext x; simp only; congr 1; field_simp; ring
  rw [e]
  have h1 := hp.comp_add_right (a - lo * ((b - a) / (hi - lo)))
  have h2 := h1.comp_mul_left (c := (b - a) / (hi - lo))
  have e1 : (a - (a - lo * ((b - a) / (hi - lo)))) / ((b - a) / (hi - lo)) = lo := by field_simp; ring
  have e2 : (b - (a - lo * ((b - a) / (hi - lo)))) / ((b - a) / (hi - lo)) = hi := by field_simp; ring
  rw [e1, e2] at h2
  exact h2

/-- What the code integrates to: the weight of each table is multiplied by the ratio of the widths of the interpolated window and
of the table.  (The density of the scaled energy would need the inverse of that factor.) -/
theorem unit_mass {p0 p1 G : ℝ → ℝ} {f a0 b0 a1 b1 lo hi I0 I1 : ℝ} (h0 : a0 < b0) (h1 : a1 < b1) (hlh : lo < hi)
    (i0 : IntervalIntegrable p0 volume a0 b0) (i1 : IntervalIntegrable p1 volume a1 b1)
    (hI0 : ∫ y in a0..b0, p0 y = I0) (hI1 : ∫ y in a1..b1, p1 y = I1)
    (hG : ∀ x, lo < x → x < hi → G x = (1 - f) * p0 ((x - lo) / (hi - lo) * (b0 - a0) + a0) +
      f * p1 ((x - lo) / (hi - lo) * (b1 - a1) + a1)) :
    ∫ x in lo..hi, G x = (1 - f) * ((hi - lo) / (b0 - a0)) * I0 + f * ((hi - lo) / (b1 - a1)) * I1 := by
  have heq : Set.EqOn G (fun x => (1 - f) * p0 ((x - lo) / (hi - lo) * (b0 - a0) + a0) +
      f * p1 ((x - lo) / (hi - lo) * (b1 - a1) + a1)) (Set.uIoo lo hi) := by
    intro x hx
    rw [Set.uIoo_of_le hlh.le] at hx
    exact hG x hx.1 hx.2
  rw [intervalIntegral.integral_congr_uIoo heq]
  have j0 := (stretch_integrable h0 hlh i0).const_mul (1 - f)
  have j1 := (stretch_integrable h1 hlh i1).const_mul f
  rw [intervalIntegral.integral_add j0 j1, intervalIntegral.integral_const_mul, intervalIntegral.integral_const_mul,
    stretch_integral h0 hlh, stretch_integral h1 hlh, hI0, hI1]
  ring

/-- C83, the integral over the outgoing energy of the density of TabularEnergy between two tables `[mn0, mx0]`, `[mn1, mx1]` with
weight `f`: instead of 1 it is the weighted mean of (width of the interpolated window) / (width of the table). -/
theorem C83_mass (energy : List ℝ) (tables : List PCTable) (d : TabEnergy) (hd : TabEnergy.make energy tables = .ok d)
    (E : ℝ) (l : Nat) (f mn0 mx0 mn1 mx1 : ℝ) (t0 t1 : PCTable) (hb : bracketIn energy E = .ok (l, f)) (f0 : 0 ≤ f) (f1 : f ≤ 1)
    (g0 : tables[l]? = some t0) (g1 : tables[l + 1]? = some t1) (v0 : ValidPC t0) (c0 : ConsistentPC t0) (v1 : ValidPC t1)
    (c1 : ConsistentPC t1) (e0 : t0.minValue = .ok mn0) (e1 : t0.maxValue = .ok mx0) (e2 : t1.minValue = .ok mn1)
    (e3 : t1.maxValue = .ok mx1) (w0 : mn0 < mx0) (w1 : mn1 < mx1) (lo hi : ℝ) (hlo : lo = (1 - f) * mn0 + f * mn1)
    (hhi : hi = (1 - f) * mx0 + f * mx1) (G : ℝ → ℝ) (hG : ∀ x, d.pdfAt E x = .ok (G x)) :
    ∫ x in lo..hi, G x = (1 - f) * ((hi - lo) / (mx0 - mn0)) + f * ((hi - lo) / (mx1 - mn1)) := by
  obtain ⟨q1, q2, hs, hlen⟩ := TabEnergy.make_valid hd
  obtain ⟨p0, hp0⟩ := C33_density_exists t0 v0
  obtain ⟨p1, hp1⟩ := C33_density_exists t1 v1
  have hlh : lo < hi := by
    rcases f1.eq_or_lt with rfl | hf
    · rw [hlo, hhi]; linarith
    · rw [hlo, hhi]; nlinarith [mul_pos (sub_pos.mpr hf) (sub_pos.mpr w0), mul_nonneg f0 (sub_pos.mpr w1).le]
  have hI : ∀ t, ValidPC t → ConsistentPC t → ∀ p : ℝ → ℝ, (∀ x, t.pdfAt x = .ok (p x)) → ∀ mn mx, t.minValue = .ok mn →
      t.maxValue = .ok mx → IntervalIntegrable p volume mn mx := by
    intro t v c p hp mn mx h1 h2
    refine (t.integral_grid v c p hp (front_eq_ok.mp h1) (t.values.length - 1) mx 1 ?_ ?_).1
    · rw [← List.getLast?_eq_getElem?]; exact back_eq_ok.mp h2
    · rw [← v.lenC, ← List.getLast?_eq_getElem?]; exact v.cdf_last
  have := unit_mass (p0 := p0) (p1 := p1) (G := G) (f := f) w0 w1 hlh (hI t0 v0 c0 p0 hp0 mn0 mx0 e0 e1)
    (hI t1 v1 c1 p1 hp1 mn1 mx1 e2 e3) (C33_normalised t0 v0 c0 p0 hp0 mn0 mx0 e0 e1)
    (C33_normalised t1 v1 c1 p1 hp1 mn1 mx1 e2 e3) (by
      intro x _ _
      have hx := hG x
      unfold TabEnergy.pdfAt at hx
      rw [q1, q2] at hx
      have hw1 : mn0 + f * (mn1 - mn0) = lo := by rw [hlo]; ring
      have hw2 : mx0 + f * (mx1 - mx0) = hi := by rw [hhi]; ring
      simp only [bind, Except.bind, hb, getAt_eq_ok.mpr g0, getAt_eq_ok.mpr g1, e0, e1, e2, e3, hw1, hw2,
        rdiv_ok (show hi - lo ≠ 0 by intro h; linarith), hp0, hp1, pure, Except.pure] at hx
      exact (Except.ok.inj hx).symm)
  rw [this]; ring

/-- C83 for tables of equal width (in particular outside the incoming grid, where only one table counts): the density integrates
to 1.  Missing: tables of different widths, see `C83_violation`. -/
theorem C83_normalised_partial (energy : List ℝ) (tables : List PCTable) (d : TabEnergy) (hd : TabEnergy.make energy tables = .ok d)
    (E : ℝ) (l : Nat) (f mn0 mx0 mn1 mx1 : ℝ) (t0 t1 : PCTable) (hb : bracketIn energy E = .ok (l, f)) (f0 : 0 ≤ f) (f1 : f ≤ 1)
    (g0 : tables[l]? = some t0) (g1 : tables[l + 1]? = some t1) (v0 : ValidPC t0) (c0 : ConsistentPC t0) (v1 : ValidPC t1)
    (c1 : ConsistentPC t1) (e0 : t0.minValue = .ok mn0) (e1 : t0.maxValue = .ok mx0) (e2 : t1.minValue = .ok mn1)
    (e3 : t1.maxValue = .ok mx1) (w0 : mn0 < mx0) (w1 : mn1 < mx1) (lo hi : ℝ) (hlo : lo = (1 - f) * mn0 + f * mn1)
    (hhi : hi = (1 - f) * mx0 + f * mx1) (G : ℝ → ℝ) (hG : ∀ x, d.pdfAt E x = .ok (G x))
    (hw : mx0 - mn0 = mx1 - mn1 ∨ f = 0 ∨ f = 1) : ∫ x in lo..hi, G x = 1 := by
  rw [C83_mass energy tables d hd E l f mn0 mx0 mn1 mx1 t0 t1 hb f0 f1 g0 g1 v0 c0 v1 c1 e0 e1 e2 e3 w0 w1 lo hi hlo hhi G hG]
  have h0 : mx0 - mn0 ≠ 0 := by intro h; linarith
  have h1 : mx1 - mn1 ≠ 0 := by intro h; linarith
  rcases hw with h | h | h
  · have : hi - lo = mx0 - mn0 := by rw [hlo, hhi]; linear_combination (-f) * h
    rw [this, ← h, div_self h0]; ring
  · rw [hlo, hhi, h]; simp [div_self h0]
  · rw [hlo, hhi, h]; simp [div_self h1]

/-- C83: conversely, strictly between two tables of different widths the density never integrates to 1: its integral is too
large. -/
theorem C83_violation (energy : List ℝ) (tables : List PCTable) (d : TabEnergy) (hd : TabEnergy.make energy tables = .ok d)
    (E : ℝ) (l : Nat) (f mn0 mx0 mn1 mx1 : ℝ) (t0 t1 : PCTable) (hb : bracketIn energy E = .ok (l, f)) (f0 : 0 < f) (f1 : f < 1)
    (g0 : tables[l]? = some t0) (g1 : tables[l + 1]? = some t1) (v0 : ValidPC t0) (c0 : ConsistentPC t0) (v1 : ValidPC t1)
    (c1 : ConsistentPC t1) (e0 : t0.minValue = .ok mn0) (e1 : t0.maxValue = .ok mx0) (e2 : t1.minValue = .ok mn1)
    (e3 : t1.maxValue = .ok mx1) (w0 : mn0 < mx0) (w1 : mn1 < mx1) (lo hi : ℝ) (hlo : lo = (1 - f) * mn0 + f * mn1)
    (hhi : hi = (1 - f) * mx0 + f * mx1) (G : ℝ → ℝ) (hG : ∀ x, d.pdfAt E x = .ok (G x))
    (hw : mx0 - mn0 ≠ mx1 - mn1) : 1 < ∫ x in lo..hi, G x := by
  rw [C83_mass energy tables d hd E l f mn0 mx0 mn1 mx1 t0 t1 hb f0.le f1.le g0 g1 v0 c0 v1 c1 e0 e1 e2 e3 w0 w1 lo hi hlo hhi G hG]
  obtain ⟨A, hA⟩ : ∃ A, A = mx0 - mn0 := ⟨_, rfl⟩
  obtain ⟨B, hB⟩ : ∃ B, B = mx1 - mn1 := ⟨_, rfl⟩
  have hA0 : 0 < A := by rw [hA]; linarith
  have hB0 : 0 < B := by rw [hB]; linarith
  have hW : hi - lo = (1 - f) * A + f * B := by rw [hlo, hhi, hA, hB]; ring
  rw [hW, ← hA, ← hB]
  have hAB : A ≠ B := by rw [hA, hB]; exact hw
  have key : (1 - f) * (((1 - f) * A + f * B) / A) + f * (((1 - f) * A + f * B) / B) - 1 = f * (1 - f) * (A - B) ^ 2 / (A * B) := by
    field_simp; ring
  have : 0 < f * (1 - f) * (A - B) ^ 2 / (A * B) := by
    have h1 : 0 < 1 - f := by linarith
    have h2 : 0 < (A - B) ^ 2 := by positivity
    positivity
  linarith

/-- C83 for Kalbach: with the same interpolation the integral of the joint density over the outgoing energy
is not the angular density `(1-f) s0 + f s1` but carries the same spurious factors.  `G` is the joint density at the cosine `mu`
wherever it is defined. -/
theorem C83_kalbach_mass (energy : List ℝ) (tables : List KalbachTable) (d : Kalbach) (hd : Kalbach.make energy tables = .ok d)
    (E mu : ℝ) (l : Nat) (f mn0 mx0 mn1 mx1 s0 s1 : ℝ) (t0 t1 : KalbachTable) (hb : bracketIn energy E = .ok (l, f)) (f0 : 0 ≤ f)
    (f1 : f ≤ 1) (g0 : tables[l]? = some t0) (g1 : tables[l + 1]? = some t1) (v0 : ValidKT t0) (v1 : ValidKT t1)
    (n0 : t0.energy.Pairwise (· < ·)) (n1 : t1.energy.Pairwise (· < ·))
    (a0 : ∀ a ∈ t0.A, a ≠ 0) (a1 : ∀ a ∈ t1.A, a ≠ 0) (e0 : t0.minEnergy = .ok mn0) (e1 : t0.maxEnergy = .ok mx0)
    (e2 : t1.minEnergy = .ok mn1) (e3 : t1.maxEnergy = .ok mx1) (w0 : mn0 < mx0) (w1 : mn1 < mx1) (lo hi : ℝ)
    (hlo : lo = (1 - f) * mn0 + f * mn1) (hhi : hi = (1 - f) * mx0 + f * mx1)
    (hs0 : t0.anglePdf mu = .ok s0) (hs1 : t1.anglePdf mu = .ok s1)
    (G : ℝ → ℝ) (hG : ∀ x p, d.pdfAt E mu x = .ok p → G x = p) :
    d.anglePdf E mu = .ok ((1 - f) * s0 + f * s1) ∧
    ∫ x in lo..hi, G x = (1 - f) * ((hi - lo) / (mx0 - mn0)) * s0 + f * ((hi - lo) / (mx1 - mn1)) * s1 := by
  have hmk : d.energy = energy ∧ d.tables = tables := by
    unfold Kalbach.make at hd
    split at hd
    · cases hd
    split at hd
    · cases hd
    cases hd; exact ⟨rfl, rfl⟩
  obtain ⟨q1, q2⟩ := hmk
  have dens : ∀ (t : KalbachTable) (mn mx s : ℝ), ValidKT t → t.energy.Pairwise (· < ·) → (∀ a ∈ t.A, a ≠ 0) →
      t.minEnergy = .ok mn → t.maxEnergy = .ok mx → t.anglePdf mu = .ok s →
      ∃ p : ℝ → ℝ, (∀ x, x ≠ mx → t.pdfAt mu x = .ok (p x)) ∧ IntervalIntegrable p volume mn mx ∧ ∫ y in mn..mx, p y = s := by
    intro t mn mx s v n a hmn hmx hs
    obtain ⟨p, hp⟩ : ∃ p : ℝ → ℝ, ∀ x q, t.pdfAt mu x = .ok q → p x = q := by
      classical
      refine ⟨fun x => if h : ∃ q, t.pdfAt mu x = .ok q then h.choose else 0, fun x q hq => ?_⟩
      have h : ∃ q, t.pdfAt mu x = .ok q := ⟨q, hq⟩
      simp only [dif_pos h]
      have := h.choose_spec
      exact Except.ok.inj (this.symm.trans hq)
    refine ⟨p, fun x hx => ?_, joint_integral v.pc.values_sorted v.pc.lenP (front_eq_ok.mp hmn) (back_eq_ok.mp hmx)
      (fun l hl => ⟨_, t.node_eq v a mu l hl⟩) hs p hp⟩
    obtain ⟨q, hq, _⟩ := jointPdf_defined (pdf := t.pdf) (r := t.interp) (node := t.node mu) n v.pc.lenP (front_eq_ok.mp hmn)
      (back_eq_ok.mp hmx) (fun l hl => ⟨_, t.node_eq v a mu l hl⟩) x (Or.inl hx)
    rw [hp x q hq]; exact hq
  obtain ⟨p0, hp0, i0, I0⟩ := dens t0 mn0 mx0 s0 v0 n0 a0 e0 e1 hs0
  obtain ⟨p1, hp1, i1, I1⟩ := dens t1 mn1 mx1 s1 v1 n1 a1 e2 e3 hs1
  have hlh : lo < hi := by
    rcases f1.eq_or_lt with rfl | hf
    · rw [hlo, hhi]; linarith
    · rw [hlo, hhi]; nlinarith [mul_pos (sub_pos.mpr hf) (sub_pos.mpr w0), mul_nonneg f0 (sub_pos.mpr w1).le]
  refine ⟨?_, unit_mass w0 w1 hlh i0 i1 I0 I1 ?_⟩
  · unfold Kalbach.anglePdf
    rw [q1, q2]
    simp only [bind, Except.bind, hb, getAt_eq_ok.mpr g0, getAt_eq_ok.mpr g1, hs0, hs1, pure, Except.pure]
  · intro x hx1 hx2
    apply hG
    unfold Kalbach.pdfAt
    rw [q1, q2]
    have hw1 : mn0 + f * (mn1 - mn0) = lo := by rw [hlo]; ring
    have hw2 : mx0 + f * (mx1 - mx0) = hi := by rw [hhi]; ring
    have hd : 0 < hi - lo := by linarith
    have ne : ∀ a b : ℝ, a < b → (x - lo) / (hi - lo) * (b - a) + a ≠ b := by
      intro a b hab h
      have h1 : (x - lo) / (hi - lo) < 1 := by rw [div_lt_one hd]; linarith
      nlinarith
    simp only [bind, Except.bind, hb, getAt_eq_ok.mpr g0, getAt_eq_ok.mpr g1, unitBase, e0, e1, e2, e3, hw1, hw2,
      rdiv_ok hd.ne', pure, Except.pure, hp0 _ (ne mn0 mx0 w0), hp1 _ (ne mn1 mx1 w1)]

/-- C83 for TabularEnergyAngle: the same. -/
theorem C83_angle_mass (energy : List ℝ) (tables : List EATable) (d : TabEnergyAngle) (hd : TabEnergyAngle.make energy tables = .ok d)
    (E mu : ℝ) (l : Nat) (f mn0 mx0 mn1 mx1 s0 s1 : ℝ) (t0 t1 : EATable) (hb : bracketIn energy E = .ok (l, f)) (f0 : 0 ≤ f)
    (f1 : f ≤ 1) (g0 : tables[l]? = some t0) (g1 : tables[l + 1]? = some t1) (v0 : ValidEA t0) (v1 : ValidEA t1)
    (n0 : t0.energy.Pairwise (· < ·)) (n1 : t1.energy.Pairwise (· < ·))
    (e0 : t0.minEnergy = .ok mn0) (e1 : t0.maxEnergy = .ok mx0)
    (e2 : t1.minEnergy = .ok mn1) (e3 : t1.maxEnergy = .ok mx1) (w0 : mn0 < mx0) (w1 : mn1 < mx1) (lo hi : ℝ)
    (hlo : lo = (1 - f) * mn0 + f * mn1) (hhi : hi = (1 - f) * mx0 + f * mx1)
    (hs0 : t0.anglePdf mu = .ok s0) (hs1 : t1.anglePdf mu = .ok s1)
    (G : ℝ → ℝ) (hG : ∀ x p, d.pdfAt E mu x = .ok p → G x = p) :
    d.anglePdf E mu = .ok ((1 - f) * s0 + f * s1) ∧
    ∫ x in lo..hi, G x = (1 - f) * ((hi - lo) / (mx0 - mn0)) * s0 + f * ((hi - lo) / (mx1 - mn1)) * s1 := by
  have hmk : d.energy = energy ∧ d.tables = tables := by
    unfold TabEnergyAngle.make at hd
    split at hd
    · cases hd
    split at hd
    · cases hd
    cases hd; exact ⟨rfl, rfl⟩
  obtain ⟨q1, q2⟩ := hmk
  have dens : ∀ (t : EATable) (mn mx s : ℝ), ValidEA t → t.energy.Pairwise (· < ·) →
      t.minEnergy = .ok mn → t.maxEnergy = .ok mx → t.anglePdf mu = .ok s →
      ∃ p : ℝ → ℝ, (∀ x, x ≠ mx → t.pdfAt mu x = .ok (p x)) ∧ IntervalIntegrable p volume mn mx ∧ ∫ y in mn..mx, p y = s := by
    intro t mn mx s v n hmn hmx hs
    obtain ⟨p, hp⟩ : ∃ p : ℝ → ℝ, ∀ x q, t.pdfAt mu x = .ok q → p x = q := by
      classical
      refine ⟨fun x => if h : ∃ q, t.pdfAt mu x = .ok q then h.choose else 0, fun x q hq => ?_⟩
      have h : ∃ q, t.pdfAt mu x = .ok q := ⟨q, hq⟩
      simp only [dif_pos h]
      have := h.choose_spec
      exact Except.ok.inj (this.symm.trans hq)
    refine ⟨p, fun x hx => ?_, joint_integral v.pc.values_sorted v.pc.lenP (front_eq_ok.mp hmn) (back_eq_ok.mp hmx)
      (fun l hl => (t.node_ok v mu l hl).imp fun _ h => h.1) hs p hp⟩
    obtain ⟨q, hq, _⟩ := jointPdf_defined (pdf := t.pdf) (r := t.interp) (node := t.node mu) n v.pc.lenP (front_eq_ok.mp hmn)
      (back_eq_ok.mp hmx) (fun l hl => (t.node_ok v mu l hl).imp fun _ h => h.1) x (Or.inl hx)
    rw [hp x q hq]; exact hq
  obtain ⟨p0, hp0, i0, I0⟩ := dens t0 mn0 mx0 s0 v0 n0 e0 e1 hs0
  obtain ⟨p1, hp1, i1, I1⟩ := dens t1 mn1 mx1 s1 v1 n1 e2 e3 hs1
  have hlh : lo < hi := by
    rcases f1.eq_or_lt with rfl | hf
    · rw [hlo, hhi]; linarith
    · rw [hlo, hhi]; nlinarith [mul_pos (sub_pos.mpr hf) (sub_pos.mpr w0), mul_nonneg f0 (sub_pos.mpr w1).le]
  refine ⟨?_, unit_mass w0 w1 hlh i0 i1 I0 I1 ?_⟩
  · unfold TabEnergyAngle.anglePdf
    rw [q1, q2]
    simp only [bind, Except.bind, hb, getAt_eq_ok.mpr g0, getAt_eq_ok.mpr g1, hs0, hs1, pure, Except.pure]
  · intro x hx1 hx2
    apply hG
    unfold TabEnergyAngle.pdfAt
    rw [q1, q2]
    have hw1 : mn0 + f * (mn1 - mn0) = lo := by rw [hlo]; ring
    have hw2 : mx0 + f * (mx1 - mx0) = hi := by rw [hhi]; ring
    have hd : 0 < hi - lo := by linarith
    have ne : ∀ a b : ℝ, a < b → (x - lo) / (hi - lo) * (b - a) + a ≠ b := by
      intro a b hab h
      have h1 : (x - lo) / (hi - lo) < 1 := by rw [div_lt_one hd]; linarith
      nlinarith
    simp only [bind, Except.bind, hb, getAt_eq_ok.mpr g0, getAt_eq_ok.mpr g1, unitBase, e0, e1, e2, e3, hw1, hw2,
      rdiv_ok hd.ne', pure, Except.pure, hp0 _ (ne mn0 mx0 w0), hp1 _ (ne mn1 mx1 w1)]

theorem spurious_iff {f w0 w1 s0 s1 : ℝ} (f0 : 0 < f) (f1 : f < 1) (h0 : 0 < w0) (h1 : 0 < w1) (hw : w0 ≠ w1) {w : ℝ} (h : w = (1 - f) * w0 + f * w1) :
    (1 - f) * (w / w0) * s0 + f * (w / w1) * s1 = (1 - f) * s0 + f * s1 ↔ s0 / w0 = s1 / w1 := by
  have key : (1 - f) * (w / w0) * s0 + f * (w / w1) * s1 - ((1 - f) * s0 + f * s1) = f * (1 - f) * (w1 - w0) * (s0 / w0 - s1 / w1) := by
    rw [h]; field_simp; ring
  have hne : f * (1 - f) * (w1 - w0) ≠ 0 := mul_ne_zero (mul_ne_zero f0.ne' (sub_pos.mpr f1).ne') (sub_ne_zero.mpr (Ne.symm hw))
  rw [← sub_eq_zero, key, mul_eq_zero, or_iff_right hne, sub_eq_zero]

/-- C83 for Kalbach, exactly: strictly between two tables of different widths the integral of the joint density is the angular density only if the
angular densities of the tables happen to be in proportion to the widths. -/
theorem C83_kalbach_iff (energy : List ℝ) (tables : List KalbachTable) (d : Kalbach) (hd : Kalbach.make energy tables = .ok d)
    (E mu : ℝ) (l : Nat) (f mn0 mx0 mn1 mx1 s0 s1 : ℝ) (t0 t1 : KalbachTable) (hb : bracketIn energy E = .ok (l, f)) (f0 : 0 < f)
    (f1 : f < 1) (g0 : tables[l]? = some t0) (g1 : tables[l + 1]? = some t1) (v0 : ValidKT t0) (v1 : ValidKT t1)
    (n0 : t0.energy.Pairwise (· < ·)) (n1 : t1.energy.Pairwise (· < ·))
    (a0 : ∀ a ∈ t0.A, a ≠ 0) (a1 : ∀ a ∈ t1.A, a ≠ 0) (e0 : t0.minEnergy = .ok mn0) (e1 : t0.maxEnergy = .ok mx0)
    (e2 : t1.minEnergy = .ok mn1) (e3 : t1.maxEnergy = .ok mx1) (w0 : mn0 < mx0) (w1 : mn1 < mx1) (lo hi : ℝ)
    (hlo : lo = (1 - f) * mn0 + f * mn1) (hhi : hi = (1 - f) * mx0 + f * mx1)
    (hs0 : t0.anglePdf mu = .ok s0) (hs1 : t1.anglePdf mu = .ok s1)
    (G : ℝ → ℝ) (hG : ∀ x p, d.pdfAt E mu x = .ok p → G x = p)
    (hw : mx0 - mn0 ≠ mx1 - mn1) :
    d.anglePdf E mu = .ok (∫ x in lo..hi, G x) ↔ s0 / (mx0 - mn0) = s1 / (mx1 - mn1) := by
  obtain ⟨e, I⟩ := C83_kalbach_mass energy tables d hd E mu l f mn0 mx0 mn1 mx1 s0 s1 t0 t1 hb f0.le f1.le g0 g1 v0 v1 n0 n1 a0 a1 e0 e1 e2 e3 w0 w1 lo hi hlo hhi hs0 hs1 G hG
  rw [e, I]
  have := spurious_iff (s0 := s0) (s1 := s1) f0 f1 (sub_pos.mpr w0) (sub_pos.mpr w1) hw (w := hi - lo) (by rw [hlo, hhi]; ring)
  rw [← this]
  exact ⟨fun h => (Except.ok.inj h).symm, fun h => by rw [h]⟩

/-- C83 for TabularEnergyAngle: the same. -/
theorem C83_angle_iff (energy : List ℝ) (tables : List EATable) (d : TabEnergyAngle) (hd : TabEnergyAngle.make energy tables = .ok d)
    (E mu : ℝ) (l : Nat) (f mn0 mx0 mn1 mx1 s0 s1 : ℝ) (t0 t1 : EATable) (hb : bracketIn energy E = .ok (l, f)) (f0 : 0 < f)
    (f1 : f < 1) (g0 : tables[l]? = some t0) (g1 : tables[l + 1]? = some t1) (v0 : ValidEA t0) (v1 : ValidEA t1)
    (n0 : t0.energy.Pairwise (· < ·)) (n1 : t1.energy.Pairwise (· < ·))
    (e0 : t0.minEnergy = .ok mn0) (e1 : t0.maxEnergy = .ok mx0)
    (e2 : t1.minEnergy = .ok mn1) (e3 : t1.maxEnergy = .ok mx1) (w0 : mn0 < mx0) (w1 : mn1 < mx1) (lo hi : ℝ)
    (hlo : lo = (1 - f) * mn0 + f * mn1) (hhi : hi = (1 - f) * mx0 + f * mx1)
    (hs0 : t0.anglePdf mu = .ok s0) (hs1 : t1.anglePdf mu = .ok s1)
    (G : ℝ → ℝ) (hG : ∀ x p, d.pdfAt E mu x = .ok p → G x = p)
    (hw : mx0 - mn0 ≠ mx1 - mn1) :
    d.anglePdf E mu = .ok (∫ x in lo..hi, G x) ↔ s0 / (mx0 - mn0) = s1 / (mx1 - mn1) := by
  obtain ⟨e, I⟩ := C83_angle_mass energy tables d hd E mu l f mn0 mx0 mn1 mx1 s0 s1 t0 t1 hb f0.le f1.le g0 g1 v0 v1 n0 n1 e0 e1 e2 e3 w0 w1 lo hi hlo hhi hs0 hs1 G hG
  rw [e, I]
  have := spurious_iff (s0 := s0) (s1 := s1) f0 f1 (sub_pos.mpr w0) (sub_pos.mpr w1) hw (w := hi - lo) (by rw [hlo, hhi]; ring)
  rw [← this]
  exact ⟨fun h => (Except.ok.inj h).symm, fun h => by rw [h]⟩

/-! ## The hypotheses are met -/

/-- A uniform table on `[0, w]`, of width 1 or 2 below. -/
noncomputable def Spec.flatPC (w : ℝ) : PCTable := ⟨[0, w], [1 / w, 1 / w], [0, 1], .linLin⟩

theorem flatPC_make {w : ℝ} (hw : 0 < w) : PCTable.make [0, w] [1 / w, 1 / w] [0, 1] .linLin = .ok (flatPC w) := by
  have h : ¬ (w⁻¹ < 0) := by simpa using hw.le
  norm_num [PCTable.make, PCTable.check, isSorted, back, bind, Except.bind, flatPC, hw.le, h]

theorem two_consistent {t : PCTable} {v0 v1 p0 p1 : ℝ} (hv : t.values = [v0, v1]) (hp : t.pdf = [p0, p1]) (hc : t.cdf = [0, 1])
    (h : (1 : ℝ) = cellArea t.interp v0 v1 p0 p1) : ConsistentPC t := by
  refine ⟨by rw [hc]; rfl, ?_⟩
  intro i a0 a1 b0 b1 c0 c1 h1 h2 h3 h4 h5 h6
  rw [hv] at h1 h2
  rw [hp] at h3 h4
  rw [hc] at h5 h6
  match i, h1, h2, h3, h4, h5, h6 with
  | 0, h1, h2, h3, h4, h5, h6 =>
    simp at h1 h2 h3 h4 h5 h6
    rw [← h1, ← h2, ← h3, ← h4, ← h5, ← h6, ← h]; ring
  | 1, h1, h2, _, _, _, _ => simp at h2
  | (n + 2), h1, _, _, _, _, _ => simp at h1

theorem Spec.ConsistentPC.toCovered {t : PCTable} (h : ConsistentPC t) : CoveredPC t :=
  ⟨h.start, fun i v0 v1 p0 p1 c0 c1 h1 h2 h3 h4 h5 h6 => (h.step i v0 v1 p0 p1 c0 c1 h1 h2 h3 h4 h5 h6).le⟩

theorem flatPC_consistent {w : ℝ} (hw : 0 < w) : ConsistentPC (flatPC w) := by
  refine two_consistent (t := flatPC w) rfl rfl rfl ?_
  have : w ≠ 0 := hw.ne'
  rw [cellArea, if_neg (by simp [flatPC])]
  field_simp
  norm_num

/-- C83 (`C83_mass`, `C83_violation`) applies: tables of widths 1 and 2 at incoming energies 1 and 3; half-way between them the
density integrates to 9/8. -/
example (G : ℝ → ℝ) (d : TabEnergy) (hd : TabEnergy.make [1, 3] [flatPC 1, flatPC 2] = .ok d) (hG : ∀ x, d.pdfAt 2 x = .ok (G x)) :
    ∫ x in (0 : ℝ)..3 / 2, G x = 9 / 8 := by
  have hb : bracketIn [(1 : ℝ), 3] 2 = .ok (0, 1 / 2) := by
    norm_num [bracketIn, lowerBound, lowerBoundRange, bisect, front, getAt, bind, Except.bind, pure, Except.pure, subIdx,
      rdiv]
  have := C83_mass [1, 3] [flatPC 1, flatPC 2] d hd 2 0 (1 / 2) 0 1 0 2 (flatPC 1) (flatPC 2) hb (by norm_num) (by norm_num) rfl rfl
    (PCTable.make_valid (flatPC_make one_pos)).1 (flatPC_consistent one_pos)
    (PCTable.make_valid (flatPC_make two_pos)).1 (flatPC_consistent two_pos) rfl rfl rfl rfl one_pos two_pos
    0 (3 / 2) (by norm_num) (by norm_num) G hG
  rw [this]; norm_num

/-- ... and such a law is accepted. -/
example : ∃ d, TabEnergy.make [1, 3] [flatPC 1, flatPC 2] = .ok d := by
  norm_num [TabEnergy.make, isSorted]

/-- A uniform Kalbach table with `R = 1/2`, `A = 1`, as the constructor builds it. -/
noncomputable def Spec.flatKT (w : ℝ) : KalbachTable := ⟨[0, w], [1 / w, 1 / w], [0, 1], [1 / 2, 1 / 2], [1, 1], .linLin⟩

theorem flatKT_make {w : ℝ} (hw : 0 < w) :
    KalbachTable.make [0, w] [1 / w, 1 / w] [0, 1] [1 / 2, 1 / 2] [1, 1] .linLin = .ok (flatKT w) := by
  have h : ¬ (w⁻¹ < 0) := by simpa using hw.le
  norm_num [KalbachTable.make, checkJoint, isSorted, back, getAt, bind, Except.bind, pure, Except.pure, flatKT, hw.le, h, not_lt.mpr hw.le]

/-- C63, C81, C82, C83 apply to it. -/
theorem flatKT_good {w : ℝ} (hw : 0 < w) : GoodKT (flatKT w) ∧ ConsistentPC (flatKT w).toPC ∧ (flatKT w).energy.Pairwise (· < ·) := by
  refine ⟨⟨(KalbachTable.make_valid (flatKT_make hw)).1, (flatPC_consistent hw).toCovered, ?_⟩, flatPC_consistent hw, ?_⟩
  · intro a ha
    simp only [flatKT, List.mem_cons, List.not_mem_nil, or_false, or_self] at ha
    rw [ha]; exact one_pos
  · simp [flatKT, hw]

example : ∃ d, Kalbach.make [1, 3] [flatKT 1, flatKT 2] = .ok d ∧ ∀ t ∈ [flatKT 1, flatKT 2], GoodKT t := by
  refine ⟨⟨[1, 3], [flatKT 1, flatKT 2]⟩, by norm_num [Kalbach.make, isSorted], ?_⟩
  intro t ht
  simp only [List.mem_cons, List.not_mem_nil, or_false] at ht
  rcases ht with rfl | rfl
  · exact (flatKT_good one_pos).1
  · exact (flatKT_good two_pos).1

/-- A uniform table on `[-1, 1]`. -/
noncomputable def Spec.isoPC : PCTable := ⟨[-1, 1], [1 / 2, 1 / 2], [0, 1], .linLin⟩

/-- A uniform energy-angle table. -/
noncomputable def Spec.flatEA (w : ℝ) : EATable := ⟨[0, w], [1 / w, 1 / w], [0, 1], [isoPC, isoPC], .linLin⟩

/-- C63, C81, C82 apply to it. -/
theorem flatEA_good {w : ℝ} (hw : 0 < w) : EATable.make [0, w] [1 / w, 1 / w] [0, 1] [isoPC, isoPC] .linLin = .ok (flatEA w) ∧
    GoodEA (flatEA w) ∧ ConsistentPC (eaPC (flatEA w)) ∧
    (∀ a ∈ (flatEA w).angles, ConsistentPC a ∧ a.minValue = .ok (-1) ∧ a.maxValue = .ok 1) := by
  have h : ¬ (w⁻¹ < 0) := by simpa using hw.le
  have hm : EATable.make [0, w] [1 / w, 1 / w] [0, 1] [isoPC, isoPC] .linLin = .ok (flatEA w) := by
    norm_num [EATable.make, checkJoint, isSorted, back, getAt, bind, Except.bind, pure, Except.pure, flatEA, hw.le, h, not_lt.mpr hw.le]
  have hi : PCTable.make [-1, 1] [1 / 2, 1 / 2] [0, 1] .linLin = .ok isoPC := by
    norm_num [PCTable.make, PCTable.check, isSorted, back, bind, Except.bind, isoPC]
  have hiv := (PCTable.make_valid hi).1
  have hic : ConsistentPC isoPC := two_consistent (t := isoPC) rfl rfl rfl (by norm_num [cellArea, isoPC])
  have hall : ∀ a ∈ (flatEA w).angles, a = isoPC := by
    intro a ha
    simpa [flatEA] using ha
  refine ⟨hm, ⟨(EATable.make_valid hm rfl rfl rfl ?_).1, (flatPC_consistent hw).toCovered, ?_⟩, flatPC_consistent hw, ?_⟩
  · intro a ha; rw [hall a (by simpa [flatEA] using ha)]; exact hiv
  · intro a ha; rw [hall a ha]; exact hic.toCovered
  · intro a ha; rw [hall a ha]; exact ⟨hic, rfl, rfl⟩

end PNDL
