import Verif.Lemmas.IeeeSafe
import Verif.Props.ReadSample

/-! C140 (no density of a tabulated law is read outside its tables), C141 (sampling Kalbach-Mann data): with the infinities and NaNs of IEEE arithmetic. -/
namespace PNDL
open Spec

/-! ## C140 -/

/-- The common part of the three densities. -/
theorem windowN_ext {q0 q1 : ℝ → Res ℝ} {r0 r1 : Num → Res Num} (h0 : ∀ x, Ext Num.fin (q0 x) (r0 (.fin x))) (h1 : ∀ x, Ext Num.fin (q1 x) (r1 (.fin x)))
    (a0 b0 a1 b1 f Eout Emin Emax : ℝ) :
    Ext Num.fin (do
      let u ← rdiv (Eout - Emin) (Emax - Emin)
      let p0 ← q0 (u * (b0 - a0) + a0)
      let p1 ← q1 (u * (b1 - a1) + a1)
      return (1 - f) * p0 + f * p1 : Res ℝ)
    (do
      let p0 ← r0 (scaleInN Eout (.fin Emin) (.fin Emax) a0 b0)
      let p1 ← r1 (scaleInN Eout (.fin Emin) (.fin Emax) a1 b1)
      return mixN (.fin f) p0 p1 : Res Num) := by
  refine Ext.div fun h => ?_
  rw [scaleInN_fin a0 b0 h, scaleInN_fin a1 b1 h]
  exact (h0 _).bind fun p0 _ => (h1 _).bind fun p1 _ => Ext.pure (mixN_fin f p0 p1)

/-- C140: the model with special values has the value of the plain model wherever that has one, and leaves the tables wherever that does. -/
theorem C140_extends (d : TabEnergy) (k : Kalbach) (a : TabEnergyAngle) (E mu Eout : ℝ) :
    ((∀ v, d.pdfAt E Eout = .ok v → d.pdfN E Eout = .ok (.fin v)) ∧ (d.pdfAt E Eout = .error .ub → d.pdfN E Eout = .error .ub)) ∧
    ((∀ v, k.pdfAt E mu Eout = .ok v → k.pdfN E mu Eout = .ok (.fin v)) ∧ (k.pdfAt E mu Eout = .error .ub → k.pdfN E mu Eout = .error .ub)) ∧
    ((∀ v, a.pdfAt E mu Eout = .ok v → a.pdfN E mu Eout = .ok (.fin v)) ∧ (a.pdfAt E mu Eout = .error .ub → a.pdfN E mu Eout = .error .ub)) := by
  have fin : ∀ {r : Res ℝ} {s : Res Num}, Ext Num.fin r s → (∀ v, r = .ok v → s = .ok (.fin v)) ∧ (r = .error .ub → s = .error .ub) :=
    fun h => ⟨h.1, fun e => h.2 _ e (by decide)⟩
  refine ⟨fin ?_, fin ?_, fin ?_⟩
  · unfold TabEnergy.pdfAt TabEnergy.pdfN
    refine (bracketInN_ext _ _).bind fun lf _ => Ext.same fun t0 _ => Ext.same fun t1 _ => ?_
    unfold unitBaseN
    simp only [bind_assoc]
    refine Ext.same fun a0 _ => Ext.same fun b0 _ => Ext.same fun a1 _ => Ext.same fun b1 _ => ?_
    exact windowN_ext (fun x => t0.pdfN_ext x) (fun x => t1.pdfN_ext x) a0 b0 a1 b1 lf.2 Eout _ _
  · unfold Kalbach.pdfAt Kalbach.pdfN
    refine (bracketInN_ext _ _).bind fun lf _ => Ext.same fun t0 _ => Ext.same fun t1 _ => ?_
    refine (unitBaseN_ext _ _ _ _ _).bind fun u _ => ?_
    exact windowN_ext (fun x => t0.pdfN_ext mu x) (fun x => t1.pdfN_ext mu x) u.1 u.2.1 u.2.2.1 u.2.2.2.1 lf.2 Eout _ _
  · unfold TabEnergyAngle.pdfAt TabEnergyAngle.pdfN
    refine (bracketInN_ext _ _).bind fun lf _ => Ext.same fun t0 _ => Ext.same fun t1 _ => ?_
    refine (unitBaseN_ext _ _ _ _ _).bind fun u _ => ?_
    exact windowN_ext (fun x => t0.pdfN_ext mu x) (fun x => t1.pdfN_ext mu x) u.1 u.2.1 u.2.2.1 u.2.2.2.1 lf.2 Eout _ _

theorem ends_le {l : List ℝ} (hs : l.Pairwise (· ≤ ·)) {a b : ℝ} (ha : l[0]? = some a) (hb : l.getLast? = some b) : a ≤ b := by
  have : l[l.length - 1]? = some b := by rw [← List.getLast?_eq_getElem?]; exact hb
  exact pairwise_le_getElem? hs (Nat.zero_le _) ha this

/-- C140: `TabularEnergy::pdf` leaves its tables exactly if the interpolated window `[Emin, Emax]` is a single point, and has a value (perhaps a special
one) otherwise. -/
theorem C140_tabular (d : TabEnergy) (E Eout : ℝ) (l : Nat) (f : ℝ) (t0 t1 : PCTable) (a0 b0 a1 b1 : ℝ) (hs : d.energy.Pairwise (· ≤ ·))
    (hu : Uses d.energy E l f) (h0 : d.tables[l]? = some t0) (h1 : d.tables[l + 1]? = some t1) (v0 : ValidPC t0) (v1 : ValidPC t1)
    (ha0 : t0.values[0]? = some a0) (hb0 : t0.values.getLast? = some b0) (ha1 : t1.values[0]? = some a1) (hb1 : t1.values.getLast? = some b1) :
    (d.pdfN E Eout = .error .ub ↔ a0 + f * (a1 - a0) = b0 + f * (b1 - b0)) ∧ (d.pdfN E Eout = .error .ub ∨ ∃ v, d.pdfN E Eout = .ok v) := by
  obtain ⟨hb, f0, f1⟩ := bracketInN_uses hs hu
  have key := windowN (q0 := t0.pdfN) (q1 := t1.pdfN) (Eout := Eout) f0 f1 (ends_le v0.values_sorted ha0 hb0) (ends_le v1.values_sorted ha1 hb1)
    (PCTable.pdfN_nan v0) (PCTable.pdfN_nan v1) (fun s => ⟨_, PCTable.pdfN_inf v0 s⟩) (B0 := False) (B1 := False)
    (fun x => ⟨fun h => h.1.elim, fun _ => PCTable.pdfN_fin v0 x⟩) (fun x => ⟨fun h => h.1.elim, fun _ => PCTable.pdfN_fin v1 x⟩) rfl rfl
  have e : d.pdfN E Eout = (do
      let p0 ← t0.pdfN (scaleInN Eout (.fin (a0 + f * (a1 - a0))) (.fin (b0 + f * (b1 - b0))) a0 b0)
      let p1 ← t1.pdfN (scaleInN Eout (.fin (a0 + f * (a1 - a0))) (.fin (b0 + f * (b1 - b0))) a1 b1)
      return mixN (.fin f) p0 p1 : Res Num) := by
    unfold TabEnergy.pdfN unitBaseN PCTable.minValue PCTable.maxValue
    rw [hb]
    simp only [bind, Except.bind, getAt_eq_ok.mpr h0, getAt_eq_ok.mpr h1, front_eq_ok.mpr ha0, front_eq_ok.mpr ha1, back_eq_ok.mpr hb0, back_eq_ok.mpr hb1]
    rfl
  rw [e]
  refine ⟨key.iff.trans ?_, key.total⟩
  tauto

/-- A table whose cumulative runs from 0 to 1 and whose highest energy is single has two different energies. -/
theorem singleTop_wide {t : PCTable} (hv : ValidPC t) (hst : t.cdf[0]? = some 0) (ht : SingleTop t.values) {a b : ℝ} (ha : t.values[0]? = some a)
    (hb : t.values.getLast? = some b) : a ≠ b := by
  obtain ⟨b', hb', hd⟩ := ht
  rw [hb] at hb'; cases hb'
  have hlast : t.cdf[t.cdf.length - 1]? = some 1 := by rw [← List.getLast?_eq_getElem?]; exact hv.cdf_last
  have hlen : 2 ≤ t.values.length := by
    by_contra hc
    have h1 : t.cdf.length - 1 = 0 := by have := hv.lenC; omega
    rw [h1, hst] at hlast
    norm_num at hlast
  have : t.values.dropLast[0]? = some a := by rw [List.getElem?_dropLast, if_pos (by omega)]; exact ha
  exact (hd a (List.mem_of_getElem? this)).ne

/-- C140: `Kalbach::pdf` leaves its tables exactly if the interpolated window is a single point, or it is asked at the upper end of the window and one
of the two tables is interpolated and has a single highest energy. -/
theorem C140_kalbach (d : Kalbach) (E mu Eout : ℝ) (l : Nat) (f : ℝ) (t0 t1 : KalbachTable) (a0 b0 a1 b1 : ℝ) (hs : d.energy.Pairwise (· ≤ ·))
    (hu : Uses d.energy E l f) (h0 : d.tables[l]? = some t0) (h1 : d.tables[l + 1]? = some t1) (v0 : ValidKT t0) (v1 : ValidKT t1)
    (ha0 : t0.energy[0]? = some a0) (hb0 : t0.energy.getLast? = some b0) (ha1 : t1.energy[0]? = some a1) (hb1 : t1.energy.getLast? = some b1) :
    (d.pdfN E mu Eout = .error .ub ↔ a0 + f * (a1 - a0) = b0 + f * (b1 - b0) ∨
      (Eout = b0 + f * (b1 - b0) ∧ ((t0.interp ≠ .histogram ∧ SingleTop t0.energy) ∨ (t1.interp ≠ .histogram ∧ SingleTop t1.energy)))) ∧
    (d.pdfN E mu Eout = .error .ub ∨ ∃ v, d.pdfN E mu Eout = .ok v) := by
  obtain ⟨hb, f0, f1⟩ := bracketInN_uses hs hu
  have node : ∀ {t : KalbachTable}, ValidKT t → ∀ i < t.energy.length, ∃ m, t.nodeN mu i = .ok m := by
    intro t hv i hi
    obtain ⟨a, ha⟩ := getElem?_of_lt (l := t.A) (i := i) (by rw [hv.lenA]; exact hi)
    obtain ⟨r, hr⟩ := getElem?_of_lt (l := t.R) (i := i) (by rw [hv.lenR]; exact hi)
    unfold KalbachTable.nodeN
    simp only [getAt_eq_ok.mpr ha, getAt_eq_ok.mpr hr, bind, Except.bind]
    exact ⟨_, rfl⟩
  have key := windowN (q0 := t0.pdfN mu) (q1 := t1.pdfN mu) (Eout := Eout) f0 f1 (ends_le v0.pc.values_sorted ha0 hb0) (ends_le v1.pc.values_sorted ha1 hb1)
    (jointPdfN_nan v0.pc.ne) (jointPdfN_nan v1.pc.ne) (fun s => ⟨_, jointPdfN_inf v0.pc.ne s⟩)
    (fun x => jointPdfN_fin v0.pc.ne v0.pc.values_sorted v0.pc.lenP (node v0) hb0 x)
    (fun x => jointPdfN_fin v1.pc.ne v1.pc.values_sorted v1.pc.lenP (node v1) hb1 x) rfl rfl
  have e : d.pdfN E mu Eout = (do
      let p0 ← t0.pdfN mu (scaleInN Eout (.fin (a0 + f * (a1 - a0))) (.fin (b0 + f * (b1 - b0))) a0 b0)
      let p1 ← t1.pdfN mu (scaleInN Eout (.fin (a0 + f * (a1 - a0))) (.fin (b0 + f * (b1 - b0))) a1 b1)
      return mixN (.fin f) p0 p1 : Res Num) := by
    unfold Kalbach.pdfN unitBaseN KalbachTable.minEnergy KalbachTable.maxEnergy
    rw [hb]
    simp only [bind, Except.bind, getAt_eq_ok.mpr h0, getAt_eq_ok.mpr h1, front_eq_ok.mpr ha0, front_eq_ok.mpr ha1, back_eq_ok.mpr hb0, back_eq_ok.mpr hb1]
    rfl
  rw [e]
  have w0 := fun h => singleTop_wide v0.pc v0.start h ha0 hb0
  have w1 := fun h => singleTop_wide v1.pc v1.start h ha1 hb1
  refine ⟨key.iff.trans ?_, key.total⟩
  change SingleTop t0.energy → _ at w0
  change SingleTop t1.energy → _ at w1
  tauto

/-- C140: the same for `TabularEnergyAngle::pdf`. -/
theorem C140_angle (d : TabEnergyAngle) (E mu Eout : ℝ) (l : Nat) (f : ℝ) (t0 t1 : EATable) (a0 b0 a1 b1 : ℝ) (hs : d.energy.Pairwise (· ≤ ·))
    (hu : Uses d.energy E l f) (h0 : d.tables[l]? = some t0) (h1 : d.tables[l + 1]? = some t1) (v0 : ValidEA t0) (v1 : ValidEA t1)
    (ha0 : t0.energy[0]? = some a0) (hb0 : t0.energy.getLast? = some b0) (ha1 : t1.energy[0]? = some a1) (hb1 : t1.energy.getLast? = some b1) :
    (d.pdfN E mu Eout = .error .ub ↔ a0 + f * (a1 - a0) = b0 + f * (b1 - b0) ∨
      (Eout = b0 + f * (b1 - b0) ∧ ((t0.interp ≠ .histogram ∧ SingleTop t0.energy) ∨ (t1.interp ≠ .histogram ∧ SingleTop t1.energy)))) ∧
    (d.pdfN E mu Eout = .error .ub ∨ ∃ v, d.pdfN E mu Eout = .ok v) := by
  obtain ⟨hb, f0, f1⟩ := bracketInN_uses hs hu
  have node : ∀ {t : EATable}, ValidEA t → ∀ i < t.energy.length, ∃ m, t.nodeN mu i = .ok m := by
    intro t hv i hi
    obtain ⟨a, ha⟩ := getElem?_of_lt (l := t.angles) (i := i) (by rw [hv.lenA]; exact hi)
    unfold EATable.nodeN
    simp only [getAt_eq_ok.mpr ha, bind, Except.bind]
    exact PCTable.pdfN_fin (hv.angles a (List.mem_of_getElem? ha)) mu
  have key := windowN (q0 := t0.pdfN mu) (q1 := t1.pdfN mu) (Eout := Eout) f0 f1 (ends_le v0.pc.values_sorted ha0 hb0) (ends_le v1.pc.values_sorted ha1 hb1)
    (jointPdfN_nan v0.pc.ne) (jointPdfN_nan v1.pc.ne) (fun s => ⟨_, jointPdfN_inf v0.pc.ne s⟩)
    (fun x => jointPdfN_fin v0.pc.ne v0.pc.values_sorted v0.pc.lenP (node v0) hb0 x)
    (fun x => jointPdfN_fin v1.pc.ne v1.pc.values_sorted v1.pc.lenP (node v1) hb1 x) rfl rfl
  have e : d.pdfN E mu Eout = (do
      let p0 ← t0.pdfN mu (scaleInN Eout (.fin (a0 + f * (a1 - a0))) (.fin (b0 + f * (b1 - b0))) a0 b0)
      let p1 ← t1.pdfN mu (scaleInN Eout (.fin (a0 + f * (a1 - a0))) (.fin (b0 + f * (b1 - b0))) a1 b1)
      return mixN (.fin f) p0 p1 : Res Num) := by
    unfold TabEnergyAngle.pdfN unitBaseN EATable.minEnergy EATable.maxEnergy
    rw [hb]
    simp only [bind, Except.bind, getAt_eq_ok.mpr h0, getAt_eq_ok.mpr h1, front_eq_ok.mpr ha0, front_eq_ok.mpr ha1, back_eq_ok.mpr hb0, back_eq_ok.mpr hb1]
    rfl
  rw [e]
  have w0 := fun h => singleTop_wide v0.pc v0.start h ha0 hb0
  have w1 := fun h => singleTop_wide v1.pc v1.start h ha1 hb1
  refine ⟨key.iff.trans ?_, key.total⟩
  change SingleTop t0.energy → _ at w0
  change SingleTop t1.energy → _ at w1
  tauto

/-- C140: every incoming energy uses some pair of tables, so the three theorems above cover all arguments. -/
theorem C140_covers (grid : List ℝ) (hs : grid.Pairwise (· ≤ ·)) (hn : 2 ≤ grid.length) (E : ℝ) : ∃ l f, Uses grid E l f := uses_exists hs hn E

/-- A tabulated distribution with a single value. -/
noncomputable def Spec.onePoint : PCTable := ⟨[1], [1], [1], .histogram⟩

theorem onePoint_made : PCTable.make [1] [1] [1] .histogram = .ok onePoint := by
  simp [PCTable.make, PCTable.check, isSorted, onePoint, back, bind, Except.bind, pure, Except.pure]

/-- C140 fails in general: the constructors accept one-value tables; at `E = 1` only the first table has a weight, the window is the point 1, and
`pdf` reads before the beginning of the table, for every outgoing energy. -/
theorem C140_violation : ∃ (d : TabEnergy) (t : PCTable), PCTable.make [1] [1] [1] .histogram = .ok t ∧ TabEnergy.make [1, 2] [t, t] = .ok d ∧
    ∀ Eout, d.pdfN 1 Eout = .error .ub := by
  refine ⟨⟨[1, 2], [onePoint, onePoint]⟩, onePoint, onePoint_made, ?_, fun Eout => ?_⟩
  · simp [TabEnergy.make, isSorted]
  · have hv : ValidPC onePoint := (PCTable.make_valid onePoint_made).1
    refine (C140_tabular ⟨[1, 2], [onePoint, onePoint]⟩ 1 Eout 0 0 onePoint onePoint 1 1 1 1 (by simp) ?_ rfl rfl hv hv rfl rfl rfl rfl).1.mpr (by norm_num)
    exact ⟨1, 2, rfl, rfl, .inr (.inl ⟨rfl, le_rfl, rfl⟩)⟩

/-- C140 fails for the correlated laws too: two Kalbach-Mann tables with the single outgoing energy 1. -/
theorem C140_violation_kalbach : ∃ (d : Kalbach) (t : KalbachTable), KalbachTable.make [1, 1] [1, 1] [0, 1] [0, 0] [1, 1] .histogram = .ok t ∧
    Kalbach.make [1, 2] [t, t] = .ok d ∧ ∀ E mu Eout, d.pdfN E mu Eout = .error .ub := by
  have hm : KalbachTable.make [1, 1] [1, 1] [0, 1] [0, 0] [1, 1] .histogram = .ok ⟨[1, 1], [1, 1], [0, 1], [0, 0], [1, 1], .histogram⟩ := by
    norm_num [KalbachTable.make, checkJoint, isSorted, getAt, back, bind, Except.bind, pure, Except.pure]
  obtain ⟨t, ht⟩ : ∃ t : KalbachTable, t = ⟨[1, 1], [1, 1], [0, 1], [0, 0], [1, 1], .histogram⟩ := ⟨_, rfl⟩
  rw [← ht] at hm
  have hv := (KalbachTable.make_valid hm).1
  refine ⟨⟨[1, 2], [t, t]⟩, t, hm, ?_, fun E mu Eout => ?_⟩
  · simp [Kalbach.make, isSorted]
  · obtain ⟨l, f, hu⟩ := C140_covers [1, 2] (by simp) (by simp) E
    have hl : l = 0 := by
      obtain ⟨_, _, _, h1, _⟩ := hu
      have := lt_length_of_some h1
      simp at this
      omega
    subst hl
    exact (C140_kalbach ⟨[1, 2], [t, t]⟩ E mu Eout 0 f t t 1 1 1 1 (by simp) hu rfl rfl hv hv (by rw [ht]; rfl) (by rw [ht]; rfl) (by rw [ht]; rfl)
      (by rw [ht]; rfl)).1.mpr (.inl (by ring))

/-- The hypotheses of `C140_kalbach` and a table where it says that there is always a value below the upper end of the window. -/
example (mu Eout : ℝ) (h : Eout ≠ 3 / 2) : ∃ v, (⟨[1, 2], [flatKT 1, flatKT 2]⟩ : Kalbach).pdfN (3 / 2) mu Eout = .ok v := by
  have hv1 := (KalbachTable.make_valid (flatKT_make (w := 1) (by norm_num))).1
  have hv2 := (KalbachTable.make_valid (flatKT_make (w := 2) (by norm_num))).1
  have := C140_kalbach ⟨[1, 2], [flatKT 1, flatKT 2]⟩ (3 / 2) mu Eout 0 (1 / 2) (flatKT 1) (flatKT 2) 0 1 0 2 (by simp)
    ⟨1, 2, rfl, rfl, .inl ⟨by norm_num, by norm_num, by norm_num⟩⟩ rfl rfl hv1 hv2 rfl rfl rfl rfl
  refine this.2.resolve_left fun e => ?_
  rcases this.1.mp e with h' | h'
  · norm_num at h'
  · exact h (by have := h'.1; norm_num at this; exact this)

/-! ## C141 -/

open Classical in
theorem kalbachCosineN_ext (R A x y : ℝ) : Ext Num.fin (kalbachCosine R A x y) (.ok (kalbachCosineN (.fin R) (.fin A) x y)) := by
  unfold kalbachCosine kalbachCosineN
  by_cases h : x > R
  · rw [if_pos h, if_pos (show Num.lt (.fin R) (.fin x) from h)]
    refine Ext.div fun hA => Ext.log fun hp => Ext.pure ?_
    have hsq : ¬ (2 * y - 1) * Real.sinh A * ((2 * y - 1) * Real.sinh A) + 1 < 0 := by nlinarith [mul_self_nonneg ((2 * y - 1) * Real.sinh A)]
    simp only [Num.sinh, Num.mul, Num.add, Num.sqrt, if_neg hsq, Num.log, if_pos hp, Num.div_fin hA]
  · rw [if_neg h, if_neg (show ¬ Num.lt (.fin R) (.fin x) from h)]
    refine Ext.div fun hA => Ext.log fun hp => Ext.pure ?_
    simp only [Num.exp, Num.neg, Num.mul, Num.add, Num.log, if_pos hp, Num.div_fin hA]

/-- C141: the model with special values has the value of the plain model wherever that has one, and leaves the tables wherever that does. -/
theorem C141_extends (d : Kalbach) (E : ℝ) (ω : Tape) (k : Nat) :
    (∀ mu Eout n, d.sample E ω k = .ok (mu, Eout, n) → d.sampleN E ω k = .ok (.fin mu, .fin Eout, n)) ∧
    (d.sample E ω k = .error .ub → d.sampleN E ω k = .error .ub) := by
  have hx : Ext (fun p : ℝ × ℝ × Nat => (Num.fin p.1, Num.fin p.2.1, p.2.2)) (d.sample E ω k) (d.sampleN E ω k) := by
    unfold Kalbach.sample Kalbach.sampleN
    refine (bracketInN_ext _ _).bind fun lf _ => Ext.same fun t0 _ => Ext.same fun t1 _ => ?_
    refine (unitBaseN_ext _ _ _ _ _).bind fun u _ => ?_
    have ht : ∀ (t : KalbachTable) (a b : ℝ), Ext (fun p : ℝ × ℝ × ℝ × ℝ × ℝ => (Num.fin p.1, p.2.1, p.2.2.1, Num.fin p.2.2.2.1, Num.fin p.2.2.2.2)) (do
        let e ← t.sampleEnergy (ω (k + 1))
        let r ← t.evalR e
        let s ← t.evalA e
        return (e, a, b, r, s) : Res (ℝ × ℝ × ℝ × ℝ × ℝ)) (do
        let e ← t.toPC.sampleN (ω (k + 1))
        let r ← t.paramN t.R e
        let s ← t.paramN t.A e
        return (e, a, b, r, s) : Res (Num × ℝ × ℝ × Num × Num)) := by
      intro t a b
      exact (t.toPC.sampleN_ext _).bind fun e _ => (t.paramN_ext t.R e).bind fun r _ => (t.paramN_ext t.A e).bind fun s _ => Ext.pure rfl
    refine Ext.bind (Ext.ite Iff.rfl (fun _ => ht t0 _ _) fun _ => ht t1 _ _) fun p _ => ?_
    refine Ext.div fun hd => ?_
    have hc := kalbachCosineN_ext p.2.2.2.1 p.2.2.2.2 (ω (k + 2)) (ω (k + 3))
    cases hk : kalbachCosine p.2.2.2.1 p.2.2.2.2 (ω (k + 2)) (ω (k + 3)) with
    | error e =>
      by_cases he : e = .nonfinite
      · rw [he]; exact Ext.nonfinite
      · have := hc.2 e hk he
        cases this
    | ok mu =>
      have hmu : kalbachCosineN (.fin p.2.2.2.1) (.fin p.2.2.2.2) (ω (k + 2)) (ω (k + 3)) = .fin mu := by
        exact Except.ok.inj (hc.1 mu hk)
      refine Ext.pure ?_
      simp only [hmu, Num.clamp, Num.sub, Num.neg, Num.add, ← sub_eq_add_neg, Num.div_fin hd, Num.mul]
  exact ⟨fun mu Eout n h => hx.1 _ h, fun h => hx.2 _ h (by decide)⟩

open Classical in
/-- C141: sampling Kalbach-Mann data reads outside the chosen table exactly if the table is interpolated linearly and the second random number falls inside
a step of its cumulative where two energies coincide and the density rises; otherwise it returns (perhaps special) values and consumes four numbers. -/
theorem C141_exact (d : Kalbach) (E : ℝ) (ω : Tape) (hω : UnitTape ω) (k l : Nat) (f : ℝ) (t0 t1 : KalbachTable) (hs : d.energy.Pairwise (· ≤ ·))
    (hu : Uses d.energy E l f) (h0 : d.tables[l]? = some t0) (h1 : d.tables[l + 1]? = some t1) (v0 : ValidKT t0) (v1 : ValidKT t1) :
    (d.sampleN E ω k = .error .ub ↔
      if f < ω k then t0.interp ≠ .histogram ∧ OnRise t0.energy t0.pdf t0.cdf (ω (k + 1)) else t1.interp ≠ .histogram ∧ OnRise t1.energy t1.pdf t1.cdf (ω (k + 1))) ∧
    (d.sampleN E ω k = .error .ub ∨ ∃ mu Eout, d.sampleN E ω k = .ok (mu, Eout, k + 4)) := by
  obtain ⟨hb, _, _⟩ := bracketInN_uses hs hu
  have ends : ∀ {t : KalbachTable}, ValidKT t → ∃ a b, front t.energy = .ok a ∧ back t.energy = .ok b := by
    intro t v
    have hpos : 0 < t.energy.length := List.length_pos_iff.mpr v.pc.ne
    obtain ⟨mn, hmn⟩ := getElem?_of_lt (l := t.energy) (i := 0) (by omega)
    obtain ⟨mx, hmx⟩ := last_exists hpos
    exact ⟨mn, mx, front_eq_ok.mpr hmn, back_eq_ok.mpr hmx⟩
  obtain ⟨a0, b0, ha0, hb0⟩ := ends v0
  obtain ⟨a1, b1, ha1, hb1⟩ := ends v1
  have pick : ∀ (t : KalbachTable), ValidKT t → ∀ (a b : ℝ), UBIff (do
        let e ← t.toPC.sampleN (ω (k + 1))
        let r ← t.paramN t.R e
        let s ← t.paramN t.A e
        return (e, a, b, r, s) : Res (Num × ℝ × ℝ × Num × Num)) (t.interp ≠ .histogram ∧ OnRise t.energy t.pdf t.cdf (ω (k + 1))) := by
    intro t v a b
    obtain ⟨e, he, hiff⟩ := PCTable.sampleN_nan_iff (t := t.toPC) v.pc v.start (hω (k + 1)).1 (hω (k + 1)).2.le
    rw [he]
    simp only [bind, Except.bind]
    constructor
    · intro h
      rw [hiff.mpr h, t.paramN_nan v.pc.ne]
    · intro h
      have hn : e ≠ .nan := fun h' => h (hiff.mp h')
      obtain ⟨r, hr⟩ := KalbachTable.paramN_some v v.lenR hn
      obtain ⟨s, hs'⟩ := KalbachTable.paramN_some v v.lenA hn
      rw [hr]
      simp only
      rw [hs']
      exact ⟨_, rfl⟩
  have main : ∀ (t : KalbachTable) (a b : ℝ) (g : Num × ℝ × ℝ × Num × Num → Num × Num × Nat), ValidKT t → (∀ p, (g p).2.2 = k + 4) → ∀ r : Res (Num × Num × Nat),
      r = ((do
        let e ← t.toPC.sampleN (ω (k + 1))
        let r ← t.paramN t.R e
        let s ← t.paramN t.A e
        return (e, a, b, r, s) : Res (Num × ℝ × ℝ × Num × Num)) >>= fun p => .ok (g p)) →
      (r = .error .ub ↔ t.interp ≠ .histogram ∧ OnRise t.energy t.pdf t.cdf (ω (k + 1))) ∧ (r = .error .ub ∨ ∃ mu Eout, r = .ok (mu, Eout, k + 4)) := by
    intro t a b g v hg r hr
    have := pick t v a b
    have hub : UBIff r (t.interp ≠ .histogram ∧ OnRise t.energy t.pdf t.cdf (ω (k + 1))) := by
      rw [hr]
      constructor
      · intro h; rw [this.1 h]; rfl
      · intro h
        obtain ⟨p, hp⟩ := this.2 h
        rw [hp]
        exact ⟨_, rfl⟩
    refine ⟨hub.iff, ?_⟩
    rcases this.total with h | ⟨p, h⟩
    · left; rw [hr, h]; rfl
    · right
      refine ⟨(g p).1, (g p).2.1, ?_⟩
      rw [hr, h, ← hg p]
      rfl
  unfold Kalbach.sampleN
  rw [hb]
  simp only [bind, Except.bind, getAt_eq_ok.mpr h0, getAt_eq_ok.mpr h1, unitBaseN, KalbachTable.minEnergy, KalbachTable.maxEnergy, ha0, ha1, hb0, hb1, pure, Except.pure]
  by_cases hf : f < ω k
  · rw [if_pos hf, if_pos (show Num.lt (.fin f) (.fin (ω k)) from hf)]
    refine main t0 a0 b0 (fun p => (Num.clamp (kalbachCosineN p.2.2.2.1 p.2.2.2.2 (ω (k + 2)) (ω (k + 3))), Num.add (Num.add (.fin a0) (Num.mul (.fin f) (.fin (a1 - a0))))
      (Num.mul (Num.div (Num.sub p.1 (.fin p.2.1)) (.fin (p.2.2.1 - p.2.1))) (Num.sub (Num.add (.fin b0) (Num.mul (.fin f) (.fin (b1 - b0)))) (Num.add (.fin a0) (Num.mul (.fin f) (.fin (a1 - a0)))))), k + 4))
      v0 (fun _ => rfl) _ ?_
    rfl
  · rw [if_neg hf, if_neg (show ¬ Num.lt (.fin f) (.fin (ω k)) from hf)]
    refine main t1 a1 b1 (fun p => (Num.clamp (kalbachCosineN p.2.2.2.1 p.2.2.2.2 (ω (k + 2)) (ω (k + 3))), Num.add (Num.add (.fin a0) (Num.mul (.fin f) (.fin (a1 - a0))))
      (Num.mul (Num.div (Num.sub p.1 (.fin p.2.1)) (.fin (p.2.2.1 - p.2.1))) (Num.sub (Num.add (.fin b0) (Num.mul (.fin f) (.fin (b1 - b0)))) (Num.add (.fin a0) (Num.mul (.fin f) (.fin (a1 - a0)))))), k + 4))
      v1 (fun _ => rfl) _ ?_
    rfl

/-- C141: with tables in which no density rises at a repeated energy, every stream of random numbers in [0, 1) gives a value. -/
theorem C141_safe_partial (d : Kalbach) (hs : d.energy.Pairwise (· ≤ ·)) (h2 : 2 ≤ d.energy.length) (hl : d.tables.length = d.energy.length)
    (hv : ∀ t ∈ d.tables, ValidKT t)
    (hno : ∀ t ∈ d.tables, ∀ (i : Nat) (e p0 p1 : ℝ), t.energy[i]? = some e → t.energy[i + 1]? = some e → t.pdf[i]? = some p0 → t.pdf[i + 1]? = some p1 → p1 ≤ p0)
    (E : ℝ) (ω : Tape) (hω : UnitTape ω) (k : Nat) : ∃ mu Eout, d.sampleN E ω k = .ok (mu, Eout, k + 4) := by
  obtain ⟨l, f, hu⟩ := uses_exists hs h2 E
  have hlt : l + 1 < d.energy.length := by
    obtain ⟨_, _, _, h1, _⟩ := hu
    exact lt_length_of_some h1
  obtain ⟨t0, ht0⟩ := getElem?_of_lt (l := d.tables) (i := l) (by omega)
  obtain ⟨t1, ht1⟩ := getElem?_of_lt (l := d.tables) (i := l + 1) (by omega)
  have m0 := List.mem_of_getElem? ht0
  have m1 := List.mem_of_getElem? ht1
  obtain ⟨hiff, hor⟩ := C141_exact d E ω hω k l f t0 t1 hs hu ht0 ht1 (hv t0 m0) (hv t1 m1)
  have no : ∀ t ∈ d.tables, ¬ OnRise t.energy t.pdf t.cdf (ω (k + 1)) := by
    rintro t ht ⟨i, e, p0, p1, c0, c1, g1, g2, g3, g4, _, _, hp, _⟩
    exact absurd (hno t ht i e p0 p1 g1 g2 g3 g4) (not_le.mpr hp)
  refine hor.resolve_left fun h => ?_
  have := hiff.mp h
  split at this
  · exact no t0 m0 this.2
  · exact no t1 m1 this.2

/-- A table with a step in its density, given as two equal energies. -/
noncomputable def Spec.stepKT : KalbachTable := ⟨[0, 1, 1, 2], [1 / 4, 1 / 4, 1 / 2, 1 / 2], [0, 1 / 4, 1 / 2, 1], [0, 0, 0, 0], [1, 1, 1, 1], .linLin⟩

theorem stepKT_make : KalbachTable.make [0, 1, 1, 2] [1 / 4, 1 / 4, 1 / 2, 1 / 2] [0, 1 / 4, 1 / 2, 1] [0, 0, 0, 0] [1, 1, 1, 1] .linLin = .ok stepKT := by
  norm_num [KalbachTable.make, checkJoint, isSorted, getAt, back, bind, Except.bind, pure, Except.pure, stepKT]

/-- C141 fails in general: with this table, which the constructor accepts, a quarter of all streams (those whose second number is between 1/4 and 1/2)
make sampling read before the beginning of the table. -/
theorem C141_violation (E : ℝ) (ω : Tape) (hω : UnitTape ω) (k : Nat) (h1 : 1 / 4 < ω (k + 1)) (h2 : ω (k + 1) < 1 / 2) :
    Kalbach.make [1, 2] [stepKT, stepKT] = .ok ⟨[1, 2], [stepKT, stepKT]⟩ ∧ (⟨[1, 2], [stepKT, stepKT]⟩ : Kalbach).sampleN E ω k = .error .ub := by
  have hv := (KalbachTable.make_valid stepKT_make).1
  refine ⟨by simp [Kalbach.make, isSorted], ?_⟩
  obtain ⟨l, f, hu⟩ := C140_covers [1, 2] (by simp) (by simp) E
  have hl : l = 0 := by
    obtain ⟨_, _, _, h1, _⟩ := hu
    have := lt_length_of_some h1
    simp at this
    omega
  subst hl
  have hr : stepKT.interp ≠ .histogram ∧ OnRise stepKT.energy stepKT.pdf stepKT.cdf (ω (k + 1)) :=
    ⟨by decide, 1, 1, 1 / 4, 1 / 2, 1 / 4, 1 / 2, rfl, rfl, rfl, rfl, rfl, rfl, by norm_num, h1, h2⟩
  refine (C141_exact ⟨[1, 2], [stepKT, stepKT]⟩ E ω hω k 0 f stepKT stepKT (by simp) hu rfl rfl hv hv).1.mpr ?_
  split
  · exact hr
  · exact hr

/-- The hypotheses of `C141_safe_partial`. -/
example (E : ℝ) (ω : Tape) (hω : UnitTape ω) (k : Nat) : ∃ mu Eout, (⟨[1, 2], [flatKT 1, flatKT 2]⟩ : Kalbach).sampleN E ω k = .ok (mu, Eout, k + 4) := by
  refine C141_safe_partial _ (by simp) (by simp) rfl ?_ ?_ E ω hω k
  · intro t ht
    simp only [List.mem_cons, List.not_mem_nil, or_false] at ht
    rcases ht with rfl | rfl
    · exact (KalbachTable.make_valid (flatKT_make (by norm_num))).1
    · exact (KalbachTable.make_valid (flatKT_make (by norm_num))).1
  · intro t ht i e p0 p1 _ _ h3 h4
    simp only [List.mem_cons, List.not_mem_nil, or_false] at ht
    have : i = 0 := by
      have := lt_length_of_some h4
      rcases ht with rfl | rfl <;> simp [flatKT] at this <;> omega
    subst this
    rcases ht with rfl | rfl <;> simp [flatKT] at h3 h4 <;> linarith

end PNDL
