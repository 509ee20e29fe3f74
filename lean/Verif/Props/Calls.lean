import Verif.Lemmas.MRes
import Verif.Props.LegendreLaw
import Verif.Props.AngleLaw
import Mathlib.MeasureTheory.Function.Floor

/-! C152: successive calls of a sampling method are independent, whatever the data. -/
namespace PNDL
open MeasureTheory Spec

variable {Ω : Type} [MeasurableSpace Ω]

attribute [local fun_prop] measurable_clampMu

/-! ### Tables -/

theorem MRes.hist {x v p c : Ω → ℝ} (hx : Measurable x) (hv : Measurable v) (hp : Measurable p) (hc : Measurable c) :
    MRes fun ω => histInterp (x ω) (v ω) (p ω) (c ω) := by
  unfold histInterp
  exact MRes.bind (MRes.rdiv (hx.sub hc) hp) (MRes.ok (by fun_prop))

theorem MRes.lin {x : Ω → ℝ} (hx : Measurable x) (v0 v1 p0 p1 c : ℝ) : MRes fun ω => linInterp (x ω) v0 v1 p0 p1 c := by
  unfold linInterp
  exact MRes.pre _ fun m => MRes.pre _ fun im => MRes.ok (by fun_prop)

open Classical in
theorem MRes.table (t : PCTable) {x : Ω → ℝ} (hx : Measurable x) : MRes fun ω => t.sample (x ω) := by
  unfold PCTable.sample
  refine MRes.pick (i := fun ω => lowerBound t.cdf (x ω)) ((measurable_search _).comp hx)
    (s := fun l ω => (PNDL.getAt t.cdf l).bind fun c => if x ω = c then PNDL.getAt t.values l else (subIdx l 1).bind fun l => (PNDL.getAt t.values l).bind fun v0 =>
      (PNDL.getAt t.pdf l).bind fun p0 => (PNDL.getAt t.cdf l).bind fun c0 => if t.interp = .histogram then histInterp (x ω) v0 p0 c0 else (PNDL.getAt t.pdf (l + 1)).bind fun p1 =>
        if p0 = p1 then histInterp (x ω) v0 p0 c0 else (PNDL.getAt t.values (l + 1)).bind fun v1 => linInterp (x ω) v0 v1 p0 p1 c0) fun l => ?_
  refine MRes.pre _ fun c => MRes.ite (measurableSet_eq_fun hx measurable_const) (MRes.const _) ?_
  refine MRes.pre _ fun l => MRes.pre _ fun v0 => MRes.pre _ fun p0 => MRes.pre _ fun c0 => MRes.ite (MeasurableSet.const _) ?_ (MRes.pre _ fun p1 => MRes.ite (MeasurableSet.const _) ?_ ?_)
  · exact MRes.hist hx measurable_const measurable_const measurable_const
  · exact MRes.hist hx measurable_const measurable_const measurable_const
  · exact MRes.pre _ fun v1 => MRes.lin hx _ _ _ _ _

theorem MRes.bins {x y : Ω → ℝ} (hx : Measurable x) (hy : Measurable y) (b : List ℝ) : MRes fun ω => sampleBins (x ω) (y ω) b := by
  unfold sampleBins
  refine MRes.pick (i := fun ω => ⌊(b.length : ℝ) * x ω⌋₊) (Nat.measurable_floor.comp (hx.const_mul _))
    (s := fun i ω => (PNDL.getAt b (i + 1)).bind fun hi => (PNDL.getAt b i).bind fun lo => .ok ((hi - lo) * y ω + lo)) fun i => ?_
  exact MRes.pre _ fun hi => MRes.pre _ fun lo => MRes.ok (by fun_prop)

/-! ### Angular distributions -/

/-- A read of the stream. -/
theorem measurable_at (k : Nat) : Measurable fun ω : Tape => ω k := measurable_pi_apply k

/-- One computation after another, the second reading the stream where the first has stopped. -/
theorem MRes.seq {α β : Type} [MeasurableSpace α] [MeasurableSpace β] {r : Tape → Res (α × Nat)} {s : α → Tape → Nat → Res β} (hr : MRes r)
    (hs : ∀ k, MRes fun p : Tape × α => s p.2 p.1 k) : MRes fun ω => (r ω).bind fun p => s p.1 ω p.2 := by
  refine MRes.bind (s := fun ω p => s p.1 ω p.2) hr ?_
  exact MRes.pick (i := fun q : Tape × (α × Nat) => q.2.2) (measurable_snd.comp measurable_snd) (s := fun k q => s q.2.1 q.1 k) fun k =>
    (hs k).comp (measurable_fst.prodMk (measurable_fst.comp measurable_snd))

open Classical in
theorem legendre_meas (s : Legendre) : ∀ f k, MRes fun ω => s.sample ω f k := by
  have hc := (continuous_legPdf s.a).measurable
  intro f
  induction f with
  | zero => intro k; exact MRes.err _
  | succ f ih =>
    intro k
    have h0 := measurable_at k
    have h1 := measurable_at (k + 1)
    have hp : Measurable fun ω : Tape => legPdf s.a (2 * ω k - 1) := hc.comp (by fun_prop)
    refine MRes.bind (s := fun ω p => if ω (k + 1) < p then .ok (2 * ω k - 1, k + 2) else s.sample ω f (k + 2)) (MRes.rdiv hp measurable_const) ?_
    refine MRes.ite (measurableSet_lt (h1.comp measurable_fst) measurable_snd) (MRes.ok ?_) ((ih (k + 2)).comp measurable_fst)
    exact (((h0.comp measurable_fst).const_mul 2).sub_const 1).prodMk measurable_const

theorem angleLaw_meas (law : AngleLaw) (f k : Nat) : MRes fun ω => law.sample f ω k := by
  have h0 := measurable_at k
  cases law with
  | isotropic => exact MRes.ok ((measurable_clampMu.comp ((h0.const_mul 2).sub_const 1)).prodMk measurable_const)
  | bins b =>
    refine MRes.pick (i := fun ω : Tape => if ⌊33 * ω k⌋₊ = 33 then ⌊33 * ω k⌋₊ - 1 else ⌊33 * ω k⌋₊) ?_
      (s := fun i ω => (PNDL.getAt b i).bind fun lo => .ok (clampMu ((ω k - (i : ℝ) * (1 / 32)) / (1 / 32) + lo), k + 1)) fun i => MRes.pre _ fun lo => MRes.ok ?_
    · have hf : Measurable fun ω : Tape => ⌊33 * ω k⌋₊ := Nat.measurable_floor.comp (h0.const_mul 33)
      exact (measurable_from_nat (f := fun n => if n = 33 then n - 1 else n)).comp hf
    · exact (measurable_clampMu.comp (((h0.sub_const _).div_const _).add_const _)).prodMk measurable_const
  | table t =>
    exact MRes.bind (s := fun _ mu => .ok (clampMu mu, k + 1)) (MRes.table t h0) (MRes.ok ((measurable_clampMu.comp measurable_snd).prodMk measurable_const))
  | legendre s => exact legendre_meas s f k

open Classical in
theorem angle_meas (d : AngleDist) (E : ℝ) (f k : Nat) : MRes fun ω => d.sample f E ω k := by
  unfold AngleDist.sample
  refine MRes.pre (d.find E) fun r => ?_
  rcases r with law | ⟨a, b, w⟩
  · exact angleLaw_meas law f k
  · refine MRes.bind (s := fun _ p => .ok (clampMu p.1, p.2)) (f := fun ω : Tape => if ω k > w then a.sample f ω (k + 1) else b.sample f ω (k + 1)) ?_ (MRes.ok ?_)
    · exact MRes.ite (measurableSet_lt measurable_const (measurable_at k)) (angleLaw_meas a f _) (angleLaw_meas b f _)
    · exact (measurable_clampMu.comp (measurable_fst.comp measurable_snd)).prodMk (measurable_snd.comp measurable_snd)

/-! ### Energy laws -/

open Classical in
theorem energyBins_meas (d : EnergyBins) (swap : Bool) (E : ℝ) (k : Nat) : MRes fun ω => d.sample swap E ω k := by
  have go : ∀ (k : Nat) (b : List ℝ), MRes fun ω : Tape => (if swap then sampleBins (ω (k + 1)) (ω k) b else sampleBins (ω k) (ω (k + 1)) b : Res ℝ).bind fun v => .ok (v, k + 2) := by
    intro k b
    refine MRes.bind (s := fun _ v => .ok (v, k + 2)) (f := fun ω : Tape => if swap then sampleBins (ω (k + 1)) (ω k) b else sampleBins (ω k) (ω (k + 1)) b) ?_
      (MRes.ok (measurable_snd.prodMk measurable_const))
    cases swap
    · exact MRes.bins (measurable_at _) (measurable_at _) b
    · exact MRes.bins (measurable_at _) (measurable_at _) b
  unfold EnergyBins.sample
  by_cases h0 : lowerBound d.energy E = 0
  · simp only [if_pos h0]
    exact MRes.pre _ fun b => go k b
  · simp only [if_neg h0]
    by_cases h1 : lowerBound d.energy E = d.energy.length
    · simp only [if_pos h1]
      exact MRes.pre _ fun b => go k b
    · simp only [if_neg h1]
      refine MRes.pre _ fun l => MRes.pre _ fun e0 => MRes.pre _ fun e1 => MRes.pre _ fun w => MRes.ite (measurableSet_lt measurable_const (measurable_at k)) ?_ ?_
      · exact MRes.pre _ fun b => go (k + 1) b
      · exact MRes.pre _ fun b => go (k + 1) b

open Classical in
theorem tabEnergy_meas (d : TabEnergy) (E : ℝ) (k : Nat) : MRes fun ω => d.sample E ω k := by
  unfold TabEnergy.sample
  refine MRes.pre _ fun lf => MRes.pre _ fun t0 => MRes.pre _ fun t1 => MRes.pre _ fun mn0 => MRes.pre _ fun mx0 => MRes.pre _ fun mn1 => MRes.pre _ fun mx1 => ?_
  have h1 := measurable_at (k + 1)
  refine MRes.bind (f := fun ω : Tape => if ω k > lf.2 then (t0.sample (ω (k + 1))).bind fun e => .ok (e, mn0, mx0) else (t1.sample (ω (k + 1))).bind fun e => .ok (e, mn1, mx1))
    (s := fun _ p => (PNDL.rdiv (p.1 - p.2.1) (p.2.2 - p.2.1)).bind fun q => .ok
      ((mn0 + lf.2 * (mn1 - mn0)) + q * ((mx0 + lf.2 * (mx1 - mx0)) - (mn0 + lf.2 * (mn1 - mn0))), k + 2)) ?_ ?_
  · refine MRes.ite (measurableSet_lt measurable_const (measurable_at k)) ?_ ?_
    · exact MRes.bind (s := fun _ e => .ok (e, mn0, mx0)) (MRes.table t0 h1) (MRes.ok (measurable_snd.prodMk measurable_const))
    · exact MRes.bind (s := fun _ e => .ok (e, mn1, mx1)) (MRes.table t1 h1) (MRes.ok (measurable_snd.prodMk measurable_const))
  · exact MRes.bind (MRes.rdiv (by fun_prop) (by fun_prop)) (MRes.ok (by fun_prop))

open Classical in
theorem rejLoop_meas (c : Tape → Nat → Res ℝ) (n : Nat) (du : ℝ) (hc : ∀ k, MRes fun ω => c ω k) : ∀ f k, MRes fun ω => rejLoop (c ω) n du f k := by
  intro f
  induction f with
  | zero => intro k; exact MRes.err _
  | succ f ih =>
    intro k
    refine MRes.congr (MRes.both (hc k) (s := fun ω e => if e ≥ 0 ∧ e ≤ du then .ok (e, k + n) else rejLoop (c ω) n du f (k + n)) ?_ (ih (k + n))) fun ω => ?_
    · refine MRes.ite ?_ (MRes.ok (measurable_snd.prodMk measurable_const)) ((ih (k + n)).comp measurable_fst)
      exact (measurableSet_le measurable_const measurable_snd).inter (measurableSet_le measurable_snd measurable_const)
    · simp only [rejLoop]
      cases c ω k <;> rfl

theorem energyLaw_meas (l : ELaw) (E : ℝ) (f k : Nat) : MRes fun ω => l.sample f E ω k := by
  cases l with
  | bins d => exact energyBins_meas d false E k
  | photon p => exact MRes.const _
  | level l => exact MRes.const _
  | tabular d => exact tabEnergy_meas d E k
  | genEvap t b =>
    exact MRes.pre _ fun T => MRes.bind (s := fun _ chi => .ok (chi * T, k + 2)) (MRes.bins (measurable_at _) (measurable_at _) b) (MRes.ok (by fun_prop))
  | maxwell t u =>
    refine MRes.pre _ fun T => rejLoop_meas (maxwellCand T) 3 _ (fun k => ?_) f k
    have h0 := measurable_at k
    have h1 := measurable_at (k + 1)
    have h2 := measurable_at (k + 2)
    exact MRes.bind (s := fun (ω : Tape) l1 => (PNDL.clog (ω (k + 1))).bind fun l2 => .ok (-T * (l1 + l2 * Real.cos (Real.pi * ω (k + 2) / 2) * Real.cos (Real.pi * ω (k + 2) / 2))))
      (MRes.clog h0) (MRes.bind (MRes.clog (h1.comp measurable_fst)) (MRes.ok (by fun_prop)))
  | evap t u =>
    refine MRes.pre _ fun T => rejLoop_meas (evapCand T (E - u)) 2 _ (fun k => ?_) f k
    have h0 := measurable_at k
    have h1 := measurable_at (k + 1)
    exact MRes.pre _ fun w => MRes.bind (s := fun _ l => .ok (-T * l)) (MRes.clog (by fun_prop)) (MRes.ok (by fun_prop))
  | watt a b u =>
    refine MRes.pre _ fun A => MRes.pre _ fun B => rejLoop_meas (wattCand A B) 4 _ (fun k => ?_) f k
    refine MRes.bind (s := fun (ω : Tape) l1 => (PNDL.clog (ω (k + 1))).bind fun l2 =>
      (PNDL.csqrt (A * A * B * (-A * (l1 + l2 * Real.cos (Real.pi * ω (k + 2) / 2) * Real.cos (Real.pi * ω (k + 2) / 2))))).bind fun s =>
        .ok (-A * (l1 + l2 * Real.cos (Real.pi * ω (k + 2) / 2) * Real.cos (Real.pi * ω (k + 2) / 2)) + 0.25 * A * A * B + (2 * ω (k + 3) - 1) * s))
      (MRes.clog (measurable_at k)) (MRes.bind (MRes.clog (by fun_prop)) (MRes.bind (MRes.csqrt (by fun_prop)) (MRes.ok (by fun_prop))))

/-! ### Laws of cosine and energy -/

theorem uncorr_meas (u : Uncorr) (E : ℝ) (f k : Nat) : MRes fun ω => u.sample f E ω k := by
  refine MRes.seq (s := fun mu ω k' => (u.energy.sample f E ω k').bind fun p => .ok (mu, p.1, p.2)) (angle_meas u.angle E f k) fun k' => ?_
  exact MRes.bind (s := fun (q : Tape × ℝ) p => .ok (q.2, p.1, p.2)) ((energyLaw_meas u.energy E f k').comp measurable_fst) (MRes.ok (by fun_prop))

theorem MRes.interp (i : Interpolation) (hi : i = .histogram ∨ i = .linLin) {x : Ω → ℝ} (hx : Measurable x) (x0 y0 x1 y1 : ℝ) : MRes fun ω => i.interpolate (x ω) x0 y0 x1 y1 := by
  rcases hi with rfl | rfl
  · exact MRes.const _
  · simp only [Interpolation.interpolate]
    exact MRes.bind (MRes.rdiv (by fun_prop) (by fun_prop)) (MRes.ok (by fun_prop))

open Classical in
theorem MRes.param (t : KalbachTable) (ys : List ℝ) {x : Ω → ℝ} (hx : Measurable x) : MRes fun ω => t.param ys (x ω) := by
  unfold KalbachTable.param
  refine MRes.pre _ fun mn => MRes.pre _ fun mx => MRes.ite (measurableSet_le hx measurable_const) (MRes.const _) (MRes.ite (measurableSet_le measurable_const hx) (MRes.const _) ?_)
  refine MRes.pick (i := fun ω => lowerBound t.energy (x ω)) ((measurable_search _).comp hx)
    (s := fun l ω => (subIdx l 1).bind fun l => (PNDL.getAt t.energy l).bind fun e0 => (PNDL.getAt ys l).bind fun y0 => (PNDL.getAt t.energy (l + 1)).bind fun e1 =>
      (PNDL.getAt ys (l + 1)).bind fun y1 => (if t.interp = .histogram then Interpolation.histogram else Interpolation.linLin).interpolate (x ω) e0 y0 e1 y1) fun l => ?_
  refine MRes.pre _ fun l => MRes.pre _ fun e0 => MRes.pre _ fun y0 => MRes.pre _ fun e1 => MRes.pre _ fun y1 => MRes.interp _ ?_ hx _ _ _ _
  by_cases h : t.interp = .histogram
  · left; rw [if_pos h]
  · right; rw [if_neg h]

open Classical in
theorem MRes.cosine {R A x y : Ω → ℝ} (hR : Measurable R) (hA : Measurable A) (hx : Measurable x) (hy : Measurable y) :
    MRes fun ω => kalbachCosine (R ω) (A ω) (x ω) (y ω) := by
  unfold kalbachCosine
  refine MRes.ite (measurableSet_lt hR hx) ?_ ?_
  · exact MRes.bind (s := fun ω i => (PNDL.clog ((2 * y ω - 1) * Real.sinh (A ω) + Real.sqrt ((2 * y ω - 1) * Real.sinh (A ω) * ((2 * y ω - 1) * Real.sinh (A ω)) + 1))).bind fun g => .ok (i * g))
      (MRes.rdiv measurable_const hA) (MRes.bind (MRes.clog (by fun_prop)) (MRes.ok (by fun_prop)))
  · exact MRes.bind (s := fun ω i => (PNDL.clog (y ω * Real.exp (A ω) + (1 - y ω) * Real.exp (-A ω))).bind fun g => .ok (i * g))
      (MRes.rdiv measurable_const hA) (MRes.bind (MRes.clog (by fun_prop)) (MRes.ok (by fun_prop)))

open Classical in
theorem kalbach_meas (d : Kalbach) (E : ℝ) (k : Nat) : MRes fun ω => d.sample E ω k := by
  unfold Kalbach.sample
  refine MRes.pre _ fun lf => MRes.pre _ fun t0 => MRes.pre _ fun t1 => MRes.pre _ fun u => ?_
  obtain ⟨l, w⟩ := lf
  obtain ⟨a0, b0, a1, b1, Emin, Emax⟩ := u
  have h1 := measurable_at (k + 1)
  have side : ∀ (t : KalbachTable) (a b : ℝ), MRes fun ω : Tape => (t.sampleEnergy (ω (k + 1))).bind fun e => (t.evalR e).bind fun r => (t.evalA e).bind fun s =>
      (.ok (e, a, b, r, s) : Res (ℝ × ℝ × ℝ × ℝ × ℝ)) := fun t a b =>
    MRes.bind (s := fun _ e => (t.evalR e).bind fun r => (t.evalA e).bind fun s => .ok (e, a, b, r, s)) (MRes.table t.toPC h1)
      (MRes.bind (s := fun (p : Tape × ℝ) r => (t.evalA p.2).bind fun s => .ok (p.2, a, b, r, s)) (MRes.param t t.R measurable_snd)
        (MRes.bind (s := fun (p : (Tape × ℝ) × ℝ) s => .ok (p.1.2, a, b, p.2, s)) (MRes.param t t.A (measurable_snd.comp measurable_fst)) (MRes.ok (by fun_prop))))
  refine MRes.bind (f := fun ω : Tape => if ω k > w then (t0.sampleEnergy (ω (k + 1))).bind fun e => (t0.evalR e).bind fun r => (t0.evalA e).bind fun s =>
      (.ok (e, a0, b0, r, s) : Res (ℝ × ℝ × ℝ × ℝ × ℝ)) else (t1.sampleEnergy (ω (k + 1))).bind fun e => (t1.evalR e).bind fun r => (t1.evalA e).bind fun s => .ok (e, a1, b1, r, s))
    (s := fun ω p => (PNDL.rdiv (p.1 - p.2.1) (p.2.2.1 - p.2.1)).bind fun q => (kalbachCosine p.2.2.2.1 p.2.2.2.2 (ω (k + 2)) (ω (k + 3))).bind fun mu =>
      .ok (clampMu mu, Emin + q * (Emax - Emin), k + 4)) ?_ ?_
  · exact MRes.ite (measurableSet_lt measurable_const (measurable_at k)) (side t0 a0 b0) (side t1 a1 b1)
  · exact MRes.bind (s := fun (p : Tape × (ℝ × ℝ × ℝ × ℝ × ℝ)) q => (kalbachCosine p.2.2.2.2.1 p.2.2.2.2.2 (p.1 (k + 2)) (p.1 (k + 3))).bind fun mu => .ok (clampMu mu, Emin + q * (Emax - Emin), k + 4))
      (MRes.rdiv (by fun_prop) (by fun_prop)) (MRes.bind (s := fun (p : (Tape × (ℝ × ℝ × ℝ × ℝ × ℝ)) × ℝ) mu => .ok (clampMu mu, Emin + p.2 * (Emax - Emin), k + 4))
        (MRes.cosine (by fun_prop) (by fun_prop) (by fun_prop) (by fun_prop)) (MRes.ok (by fun_prop)))

open Classical in
theorem eaTable_meas (t : EATable) (k : Nat) : MRes fun ω => t.sample ω k := by
  unfold EATable.sample
  have h0 := measurable_at k
  have h1 := measurable_at (k + 1)
  have tail : ∀ (a : PCTable) (g : Tape → ℝ), Measurable g → MRes fun ω : Tape => (a.sample (ω (k + 1))).bind fun mu => (.ok (clampMu mu, g ω, k + 2) : Res (ℝ × ℝ × Nat)) := fun a g hg =>
    MRes.bind (s := fun ω mu => .ok (clampMu mu, g ω, k + 2)) (MRes.table a h1) (MRes.ok (by fun_prop))
  have tail' : ∀ (a : PCTable), MRes fun p : Tape × ℝ => (a.sample (p.1 (k + 1))).bind fun mu => (.ok (clampMu mu, p.2, k + 2) : Res (ℝ × ℝ × Nat)) := fun a =>
    MRes.bind (s := fun (p : Tape × ℝ) mu => .ok (clampMu mu, p.2, k + 2)) (MRes.table a (by fun_prop)) (MRes.ok (by fun_prop))
  refine MRes.pick (i := fun ω : Tape => lowerBound t.cdf (ω k)) ((measurable_search _).comp h0)
    (s := fun l ω => (subIdx l 1).bind fun l => (PNDL.getAt t.pdf l).bind fun p0 =>
      (if t.interp = .histogram then .ok true else (PNDL.getAt t.pdf (l + 1)).bind fun p1 => .ok (decide (p0 = p1)) : Res Bool).bind fun flat =>
      (PNDL.getAt t.energy l).bind fun v0 => (PNDL.getAt t.cdf l).bind fun c0 =>
      if flat = true then (histInterp (ω k) v0 p0 c0).bind fun E => (PNDL.getAt t.angles l).bind fun a => (a.sample (ω (k + 1))).bind fun mu => .ok (clampMu mu, E, k + 2)
      else (PNDL.getAt t.pdf (l + 1)).bind fun p1 => (PNDL.getAt t.energy (l + 1)).bind fun v1 => (linInterp (ω k) v0 v1 p0 p1 c0).bind fun E =>
        (PNDL.getAt t.cdf (l + 1)).bind fun c1 => (PNDL.rdiv (ω k - c0) (c1 - c0)).bind fun f =>
          (if f < 1 / 2 then PNDL.getAt t.angles l else PNDL.getAt t.angles (l + 1) : Res PCTable).bind fun a => (a.sample (ω (k + 1))).bind fun mu => .ok (clampMu mu, E, k + 2)) fun l => ?_
  refine MRes.pre _ fun l => ?_
  refine MRes.pre _ fun p0 => ?_
  refine MRes.pre _ fun flat => ?_
  refine MRes.pre _ fun v0 => ?_
  refine MRes.pre _ fun c0 => ?_
  cases flat with
  | true =>
    simp only [if_true]
    refine MRes.bind (s := fun ω E => (PNDL.getAt t.angles l).bind fun a => (a.sample (ω (k + 1))).bind fun mu => .ok (clampMu mu, E, k + 2))
      (MRes.hist h0 measurable_const measurable_const measurable_const) ?_
    exact MRes.pre _ fun a => tail' a
  | false =>
    simp only [Bool.false_eq_true, if_false]
    refine MRes.pre (PNDL.getAt t.pdf (l + 1)) fun p1 => ?_
    refine MRes.pre (PNDL.getAt t.energy (l + 1)) fun v1 => ?_
    have hf : MRes fun q : (Tape × ℝ) × ℝ => ((if q.2 < 1 / 2 then PNDL.getAt t.angles l else PNDL.getAt t.angles (l + 1) : Res PCTable).bind fun a =>
        (a.sample (q.1.1 (k + 1))).bind fun mu => .ok (clampMu mu, q.1.2, k + 2) : Res (ℝ × ℝ × Nat)) := by
      refine MRes.congr (MRes.ite (c := fun p : (Tape × ℝ) × ℝ => p.2 < 1 / 2) (measurableSet_lt measurable_snd measurable_const)
        (MRes.pre (PNDL.getAt t.angles l) fun a => (tail' a).comp measurable_fst) (MRes.pre (PNDL.getAt t.angles (l + 1)) fun a => (tail' a).comp measurable_fst)) fun p => ?_
      by_cases h : p.2 < 1 / 2
      · rw [if_pos h, if_pos h]
      · rw [if_neg h, if_neg h]
    have hc : MRes fun p : Tape × ℝ => (PNDL.getAt t.cdf (l + 1)).bind fun c1 => (PNDL.rdiv (p.1 k - c0) (c1 - c0)).bind fun f =>
        ((if f < 1 / 2 then PNDL.getAt t.angles l else PNDL.getAt t.angles (l + 1) : Res PCTable).bind fun a =>
          (a.sample (p.1 (k + 1))).bind fun mu => .ok (clampMu mu, p.2, k + 2) : Res (ℝ × ℝ × Nat)) := by
      refine MRes.pre _ fun c1 => ?_
      exact MRes.bind (s := fun (p : Tape × ℝ) f =>
          (if f < 1 / 2 then PNDL.getAt t.angles l else PNDL.getAt t.angles (l + 1) : Res PCTable).bind fun a => (a.sample (p.1 (k + 1))).bind fun mu => .ok (clampMu mu, p.2, k + 2))
        (MRes.rdiv (by fun_prop) (by fun_prop)) hf
    have hl := MRes.bind (s := fun (ω : Tape) (E : ℝ) => (PNDL.getAt t.cdf (l + 1)).bind fun c1 => (PNDL.rdiv (ω k - c0) (c1 - c0)).bind fun f =>
        ((if f < 1 / 2 then PNDL.getAt t.angles l else PNDL.getAt t.angles (l + 1) : Res PCTable).bind fun a =>
          (a.sample (ω (k + 1))).bind fun mu => .ok (clampMu mu, E, k + 2) : Res (ℝ × ℝ × Nat))) (MRes.lin h0 v0 v1 p0 p1 c0) hc
    exact hl

open Classical in
theorem tabEA_meas (d : TabEnergyAngle) (E : ℝ) (k : Nat) : MRes fun ω => d.sample E ω k := by
  unfold TabEnergyAngle.sample
  refine MRes.pre _ fun lf => MRes.pre _ fun t0 => MRes.pre _ fun t1 => MRes.pre _ fun u => ?_
  obtain ⟨l, w⟩ := lf
  obtain ⟨a0, b0, a1, b1, Emin, Emax⟩ := u
  have side : ∀ (t : EATable) (a b : ℝ), MRes fun ω : Tape => (t.sample ω (k + 1)).bind fun p => (.ok (p, a, b) : Res ((ℝ × ℝ × Nat) × ℝ × ℝ)) := fun t a b =>
    MRes.bind (s := fun _ p => .ok (p, a, b)) (eaTable_meas t (k + 1)) (MRes.ok (by fun_prop))
  refine MRes.bind (f := fun ω : Tape => if ω k > w then (t0.sample ω (k + 1)).bind fun p => (.ok (p, a0, b0) : Res ((ℝ × ℝ × Nat) × ℝ × ℝ))
      else (t1.sample ω (k + 1)).bind fun p => .ok (p, a1, b1))
    (s := fun _ p => (PNDL.rdiv (p.1.2.1 - p.2.1) (p.2.2 - p.2.1)).bind fun q => .ok (p.1.1, Emin + q * (Emax - Emin), p.1.2.2)) ?_ ?_
  · exact MRes.ite (measurableSet_lt measurable_const (measurable_at k)) (side t0 a0 b0) (side t1 a1 b1)
  · exact MRes.bind (s := fun (p : Tape × ((ℝ × ℝ × Nat) × ℝ × ℝ)) q => .ok (p.2.1.1, Emin + q * (Emax - Emin), p.2.1.2.2)) (MRes.rdiv (by fun_prop) (by fun_prop)) (MRes.ok (by fun_prop))

theorem spectrum_meas (k : Nat) : MRes fun ω => maxwellianSpectrum ω k := by
  unfold maxwellianSpectrum
  exact MRes.bind (s := fun (ω : Tape) l1 => (PNDL.clog (ω (k + 2))).bind fun l2 => .ok (-(l1 + l2 * Real.cos (Real.pi * ω k / 2) * Real.cos (Real.pi * ω k / 2))))
    (MRes.clog (by fun_prop)) (MRes.bind (MRes.clog (by fun_prop)) (MRes.ok (by fun_prop)))

theorem nbody_meas (d : NBody) (E : ℝ) (k : Nat) : MRes fun ω => d.sample E ω k := by
  unfold NBody.sample
  have hy : MRes fun ω : Tape => (if d.n = 3 then (maxwellianSpectrum ω (k + 3)).bind fun y => .ok (y, k + 3 + 3)
      else if d.n = 4 then (PNDL.clog (ω (k + 3) * ω (k + 3 + 1) * ω (k + 3 + 2))).bind fun l => .ok (-l, k + 3 + 3)
      else if d.n = 5 then (PNDL.clog (ω (k + 3) * ω (k + 3 + 1) * ω (k + 3 + 2) * ω (k + 3 + 3))).bind fun l1 => (PNDL.clog (ω (k + 3 + 4))).bind fun l2 =>
        .ok (-l1 - l2 * Real.cos (0.5 * Real.pi * ω (k + 3 + 5)) ^ 2, k + 3 + 6)
      else .ok (0, k + 3) : Res (ℝ × Nat)) := by
    refine MRes.ite (MeasurableSet.const _) ?_ (MRes.ite (MeasurableSet.const _) ?_ (MRes.ite (MeasurableSet.const _) ?_ (MRes.const _)))
    · exact MRes.bind (s := fun _ y => .ok (y, k + 3 + 3)) (spectrum_meas (k + 3)) (MRes.ok (by fun_prop))
    · exact MRes.bind (s := fun _ l => .ok (-l, k + 3 + 3)) (MRes.clog (by fun_prop)) (MRes.ok (by fun_prop))
    · exact MRes.bind (s := fun (ω : Tape) l1 => (PNDL.clog (ω (k + 3 + 4))).bind fun l2 => .ok (-l1 - l2 * Real.cos (0.5 * Real.pi * ω (k + 3 + 5)) ^ 2, k + 3 + 6))
        (MRes.clog (by fun_prop)) (MRes.bind (MRes.clog (by fun_prop)) (MRes.ok (by fun_prop)))
  refine MRes.bind (s := fun ω x => (if d.n = 3 then (maxwellianSpectrum ω (k + 3)).bind fun y => .ok (y, k + 3 + 3)
      else if d.n = 4 then (PNDL.clog (ω (k + 3) * ω (k + 3 + 1) * ω (k + 3 + 2))).bind fun l => .ok (-l, k + 3 + 3)
      else if d.n = 5 then (PNDL.clog (ω (k + 3) * ω (k + 3 + 1) * ω (k + 3 + 2) * ω (k + 3 + 3))).bind fun l1 => (PNDL.clog (ω (k + 3 + 4))).bind fun l2 =>
        .ok (-l1 - l2 * Real.cos (0.5 * Real.pi * ω (k + 3 + 5)) ^ 2, k + 3 + 6)
      else .ok (0, k + 3) : Res (ℝ × Nat)).bind fun p => (PNDL.rdiv x (x + p.1)).bind fun q => .ok (2 * ω p.2 - 1, q * d.emax E, p.2 + 1)) (spectrum_meas k) ?_
  refine MRes.bind (s := fun (w : Tape × ℝ) p => (PNDL.rdiv w.2 (w.2 + p.1)).bind fun q => .ok (2 * w.1 p.2 - 1, q * d.emax E, p.2 + 1)) (hy.comp measurable_fst) ?_
  refine MRes.pick (i := fun p : (Tape × ℝ) × (ℝ × Nat) => p.2.2) (by fun_prop)
    (s := fun j p => (PNDL.rdiv p.1.2 (p.1.2 + p.2.1)).bind fun q => .ok (2 * p.1.1 j - 1, q * d.emax E, j + 1)) fun j => ?_
  exact MRes.bind (MRes.rdiv (by fun_prop) (by fun_prop)) (MRes.ok (by fun_prop))

theorem law_meas (l : Law) (E : ℝ) (f k : Nat) : MRes fun ω => (l.toAE f).sample E ω k := by
  cases l with
  | uncorrelated u => exact uncorr_meas u E f k
  | kalbach d => exact kalbach_meas d E k
  | tabEnergyAngle d => exact tabEA_meas d E k
  | nbody d => exact nbody_meas d E k

/-! ### Reactions -/

open Classical in
theorem select_meas (E : ℝ) (f k : Nat) : ∀ (ls : List (Law × Tab1D)) (sum : ℝ) (dflt : Tape → Res (ℝ × ℝ × Nat)) (x : Tape → ℝ), MRes dflt → Measurable x →
    MRes fun ω => (Multi.select E (x ω) (ls.map fun p => p.1.toAE f) (ls.map Prod.snd) sum).bind fun s =>
      match s with
      | some d => d.sample E ω k
      | none => dflt ω := by
  intro ls
  induction ls with
  | nil => intro sum dflt x h _; exact h
  | cons p ls ih =>
    intro sum dflt x h hx
    simp only [List.map_cons, Multi.select]
    cases hw : p.2.eval E with
    | error e => exact MRes.err e
    | ok w =>
      refine MRes.congr (MRes.ite (c := fun ω => x ω < sum + w) (measurableSet_lt hx measurable_const) (law_meas p.1 E f k) (ih (sum + w) dflt x h hx)) fun ω => ?_
      simp only [bind, Except.bind]
      by_cases hx : x ω < sum + w
      · simp only [if_pos hx]; rfl
      · simp only [if_neg hx]

theorem several_meas (ls : List (Law × Tab1D)) (E : ℝ) (f k : Nat) : MRes fun ω => ((NDist.several ls).toAE f).sample E ω k := by
  have hb : MRes fun ω => (back (ls.map fun p => p.1.toAE f)).bind fun d => d.sample E ω (k + 1) := by
    cases hl : ls.getLast? with
    | none =>
      rw [List.getLast?_eq_none_iff] at hl
      subst hl
      exact MRes.err .ub
    | some p =>
      refine MRes.congr (law_meas p.1 E f (k + 1)) fun ω => ?_
      have : back (ls.map fun p => p.1.toAE f) = .ok (p.1.toAE f) := by
        rw [back_eq_ok, List.getLast?_map, hl]
        rfl
      simp only [this]
      rfl
  exact select_meas E f (k + 1) ls 0 _ _ hb (measurable_at k)

theorem MRes.toLab (E A : ℝ) {mu e : Ω → ℝ} (hm : Measurable mu) (he : Measurable e) : MRes fun ω => cmToLab E A (mu ω) (e ω) := by
  unfold cmToLab
  refine MRes.bind (s := fun ω s => (PNDL.rdiv (E + 2 * mu ω * (A + 1) * s) ((A + 1) ^ 2)).bind fun q => (PNDL.rdiv (e ω) (e ω + q)).bind fun r1 => (PNDL.csqrt r1).bind fun s1 =>
    (PNDL.rdiv 1 (A + 1)).bind fun i => (PNDL.rdiv E (e ω + q)).bind fun r2 => (PNDL.csqrt r2).bind fun s2 => .ok (mu ω * s1 + i * s2, e ω + q)) (MRes.csqrt (by fun_prop)) ?_
  refine MRes.bind (MRes.rdiv (by fun_prop) (by fun_prop)) ?_
  refine MRes.bind (MRes.rdiv (by fun_prop) (by fun_prop)) ?_
  refine MRes.bind (MRes.csqrt (by fun_prop)) ?_
  refine MRes.pre _ fun i => ?_
  refine MRes.bind (MRes.rdiv (by fun_prop) (by fun_prop)) ?_
  refine MRes.bind (MRes.csqrt (by fun_prop)) ?_
  exact MRes.ok (by fun_prop)

theorem dist_meas (d : NDist) (E : ℝ) (f : Nat) : ∀ k, MRes fun ω => (d.toAE f).sample E ω k := by
  induction d with
  | absorption mt => intro k; exact MRes.err _
  | one l => intro k; exact law_meas l E f k
  | several ls => intro k; exact several_meas ls E f k
  | cm A q d ih =>
    intro k
    refine MRes.bind (s := fun _ p => (cmToLab E A p.1 p.2.1).bind fun z => .ok (z.1, z.2, p.2.2)) (ih k) ?_
    exact MRes.bind (s := fun (p : Tape × (ℝ × ℝ × Nat)) z => .ok (z.1, z.2, p.2.2.2))
      (MRes.toLab E A (mu := fun p : Tape × (ℝ × ℝ × Nat) => p.2.1) (e := fun p => p.2.2.1) (by fun_prop) (by fun_prop)) (MRes.ok (by fun_prop))

open Classical in
theorem reaction_meas (r : RxnBase) (threshold E : ℝ) (f k : Nat) : MRes fun ω => r.sample threshold f E ω k := by
  unfold RxnBase.sample
  exact MRes.ite (MeasurableSet.const _) (MRes.const _) (dist_meas r.dist E f k)

open Classical in
theorem fission_meas (g : EGrid) (t0 t1 t2 t3 : ℝ) (x0 x1 x2 x3 : XS ℝ) (d0 d1 d2 d3 : NDist) (E : ℝ) (f k : Nat) :
    MRes fun ω => (SFS.mk g ⟨t0, x0, d0.toAE f⟩ ⟨t1, x1, d1.toAE f⟩ ⟨t2, x2, d2.toAE f⟩ ⟨t3, x3, d3.toAE f⟩).sample E ω k := by
  unfold SFS.sample
  refine MRes.pre _ fun p => ?_
  have h0 := measurable_at k
  exact MRes.ite (measurableSet_lt h0 measurable_const) (dist_meas d0 E f _) (MRes.ite (measurableSet_lt h0 measurable_const) (dist_meas d1 E f _)
    (MRes.ite (measurableSet_lt h0 measurable_const) (dist_meas d2 E f _) (dist_meas d3 E f _)))

/-! ### Elastic scattering -/

section Vec
attribute [local fun_prop] measurable_x measurable_y measurable_z measurable_vec

theorem MRes.sdiv {u : Ω → Vec} {c : Ω → ℝ} (hu : Measurable u) (hc : Measurable c) : MRes fun ω => (u ω).sdiv (c ω) := by
  have hx := measurable_x.comp hu
  have hy := measurable_y.comp hu
  have hz := measurable_z.comp hu
  unfold Vec.sdiv
  refine MRes.bind (s := fun ω x => (PNDL.rdiv (u ω).y (c ω)).bind fun y => (PNDL.rdiv (u ω).z (c ω)).bind fun z => .ok (Vec.mk x y z)) (MRes.rdiv hx hc) ?_
  refine MRes.bind (MRes.rdiv (hy.comp measurable_fst) (hc.comp measurable_fst)) ?_
  refine MRes.bind (MRes.rdiv ((hz.comp measurable_fst).comp measurable_fst) ((hc.comp measurable_fst).comp measurable_fst)) ?_
  exact MRes.ok (measurable_vec (by fun_prop) (by fun_prop) (by fun_prop))

open Classical in
theorem MRes.rotate {u : Ω → Vec} {mu phi : Ω → ℝ} (hu : Measurable u) (hm : Measurable mu) (hp : Measurable phi) : MRes fun ω => (u ω).rotate (mu ω) (phi ω) := by
  have hx : Measurable fun ω => (u ω).x := measurable_x.comp hu
  have hy : Measurable fun ω => (u ω).y := measurable_y.comp hu
  have hz : Measurable fun ω => (u ω).z := measurable_z.comp hu
  have hm' : Measurable fun ω => if mu ω < -1 then -1 else if mu ω > 1 then 1 else mu ω :=
    Measurable.ite (measurableSet_lt hm measurable_const) measurable_const (Measurable.ite (measurableSet_lt measurable_const hm) measurable_const hm)
  have hp' : Measurable fun ω => if phi ω < 0 then 0 else if phi ω > 2 * Real.pi then 2 * Real.pi else phi ω :=
    Measurable.ite (measurableSet_lt hp measurable_const) measurable_const (Measurable.ite (measurableSet_lt measurable_const hp) measurable_const hp)
  obtain ⟨m, em⟩ : ∃ m : Ω → ℝ, m = fun ω => if mu ω < -1 then -1 else if mu ω > 1 then 1 else mu ω := ⟨_, rfl⟩
  obtain ⟨p, ep⟩ : ∃ p : Ω → ℝ, p = fun ω => if phi ω < 0 then 0 else if phi ω > 2 * Real.pi then 2 * Real.pi else phi ω := ⟨_, rfl⟩
  rw [← em] at hm'
  rw [← ep] at hp'
  refine MRes.congr (g := fun ω => (PNDL.csqrt (1 - m ω * m ω)).bind fun C => if |1 - (u ω).z * (u ω).z| > 1 / 10 ^ 10 then
      (PNDL.csqrt (1 - (u ω).z * (u ω).z)).bind fun den => (PNDL.rdiv (C * (Real.cos (p ω) * (u ω).x * (u ω).z - Real.sin (p ω) * (u ω).y)) den).bind fun q1 =>
        (PNDL.rdiv (C * (Real.cos (p ω) * (u ω).y * (u ω).z + Real.sin (p ω) * (u ω).x)) den).bind fun q2 =>
          .ok (Vec.mk ((u ω).x * m ω + q1) ((u ω).y * m ω + q2) ((u ω).z * m ω - Real.cos (p ω) * C * den))
    else (PNDL.csqrt (1 - (u ω).y * (u ω).y)).bind fun den => (PNDL.rdiv (C * (Real.cos (p ω) * (u ω).x * (u ω).y + Real.sin (p ω) * (u ω).z)) den).bind fun q1 =>
        (PNDL.rdiv (C * (Real.cos (p ω) * (u ω).y * (u ω).z - Real.sin (p ω) * (u ω).x)) den).bind fun q2 =>
          .ok (Vec.mk ((u ω).x * m ω + q1) ((u ω).y * m ω - Real.cos (p ω) * C * den) ((u ω).z * m ω + q2))) ?_ fun ω => by subst em ep; rfl
  refine MRes.bind (MRes.csqrt (by fun_prop)) (MRes.ite ?_ ?_ ?_)
  · exact measurableSet_lt measurable_const (continuous_abs.measurable.comp (by fun_prop))
  · refine MRes.bind (MRes.csqrt (by fun_prop)) ?_
    refine MRes.bind (MRes.rdiv (by fun_prop) (by fun_prop)) ?_
    refine MRes.bind (MRes.rdiv (by fun_prop) (by fun_prop)) ?_
    exact MRes.ok (measurable_vec (by fun_prop) (by fun_prop) (by fun_prop))
  · refine MRes.bind (MRes.csqrt (by fun_prop)) ?_
    refine MRes.bind (MRes.rdiv (by fun_prop) (by fun_prop)) ?_
    refine MRes.bind (MRes.rdiv (by fun_prop) (by fun_prop)) ?_
    exact MRes.ok (measurable_vec (by fun_prop) (by fun_prop) (by fun_prop))

theorem vec_add {u v : Ω → Vec} (hu : Measurable u) (hv : Measurable v) : Measurable fun ω => (u ω).add (v ω) :=
  measurable_vec ((measurable_x.comp hu).add (measurable_x.comp hv)) ((measurable_y.comp hu).add (measurable_y.comp hv)) ((measurable_z.comp hu).add (measurable_z.comp hv))

theorem vec_sub {u v : Ω → Vec} (hu : Measurable u) (hv : Measurable v) : Measurable fun ω => (u ω).sub (v ω) :=
  measurable_vec ((measurable_x.comp hu).sub (measurable_x.comp hv)) ((measurable_y.comp hu).sub (measurable_y.comp hv)) ((measurable_z.comp hu).sub (measurable_z.comp hv))

theorem vec_smul {u : Ω → Vec} {c : Ω → ℝ} (hu : Measurable u) (hc : Measurable c) : Measurable fun ω => (u ω).smul (c ω) :=
  measurable_vec ((measurable_x.comp hu).mul hc) ((measurable_y.comp hu).mul hc) ((measurable_z.comp hu).mul hc)

theorem vec_dot {u v : Ω → Vec} (hu : Measurable u) (hv : Measurable v) : Measurable fun ω => (u ω).dot (v ω) :=
  (((measurable_x.comp hu).mul (measurable_x.comp hv)).add ((measurable_y.comp hu).mul (measurable_y.comp hv))).add ((measurable_z.comp hu).mul (measurable_z.comp hv))

theorem vec_mag {u : Ω → Vec} (hu : Measurable u) : Measurable fun ω => (u ω).mag := (vec_dot hu hu).sqrt

end Vec

open Classical in
theorem svtX_snd (P : ℝ) (k : Nat) : Measurable fun ω : Tape => (svtX P ω k).2 := by
  have : (fun ω : Tape => (svtX P ω k).2) = fun ω => if ω k < P then k + 3 else k + 4 := by
    funext ω
    unfold svtX
    by_cases h : ω k < P
    · rw [if_pos h, if_pos h]
    · rw [if_neg h, if_neg h]
  rw [this]
  exact Measurable.ite (measurableSet_lt (measurable_at k) measurable_const) measurable_const measurable_const

open Classical in
theorem svtX_fst (P : ℝ) (k : Nat) : MRes fun ω : Tape => (svtX P ω k).1 := by
  refine MRes.congr (g := fun ω : Tape => if ω k < P then (PNDL.clog (ω (k + 1) * ω (k + 2))).bind fun l => .ok (-l)
    else (PNDL.clog (ω (k + 2))).bind fun l1 => (PNDL.clog (ω (k + 3))).bind fun l2 =>
      .ok (-l1 - l2 * Real.cos (Real.pi / 2 * ω (k + 1)) * Real.cos (Real.pi / 2 * ω (k + 1)))) ?_ fun ω => ?_
  · refine MRes.ite (measurableSet_lt (measurable_at k) measurable_const) ?_ ?_
    · exact MRes.bind (MRes.clog (by fun_prop)) (MRes.ok (by fun_prop))
    · exact MRes.bind (s := fun (ω : Tape) l1 => (PNDL.clog (ω (k + 3))).bind fun l2 =>
        .ok (-l1 - l2 * Real.cos (Real.pi / 2 * ω (k + 1)) * Real.cos (Real.pi / 2 * ω (k + 1)))) (MRes.clog (by fun_prop))
        (MRes.bind (MRes.clog (by fun_prop)) (MRes.ok (by fun_prop)))
  · unfold svtX
    by_cases h : ω k < P
    · rw [if_pos h, if_pos h]; rfl
    · rw [if_neg h, if_neg h]; rfl

theorem MRes.accept {x y m : Ω → ℝ} (hx : Measurable x) (hy : Measurable y) (hm : Measurable m) : MRes fun ω => svtAccept (x ω) (y ω) (m ω) := by
  unfold svtAccept
  refine MRes.bind (s := fun ω r => (PNDL.csqrt (y ω * y ω + x ω - 2 * y ω * r * m ω)).bind fun q => PNDL.rdiv q (r + y ω)) (MRes.csqrt hx) ?_
  exact MRes.bind (MRes.csqrt (by fun_prop)) (MRes.rdiv (by fun_prop) (by fun_prop))

open Classical in
theorem svtLoop_meas (y P : ℝ) : ∀ f k, MRes fun ω => svtLoop y P ω f k := by
  intro f
  induction f with
  | zero => intro k; exact MRes.err _
  | succ f ih =>
    intro k
    refine MRes.congr (MRes.pick (i := fun ω : Tape => (svtX P ω k).2) (svtX_snd P k)
      (s := fun j ω => match ((svtX P ω k).1.bind fun x2 => (svtAccept x2 y (2 * ω j - 1)).bind fun p => if ω (j + 1) < p then .ok x2 else .error .nonfinite : Res ℝ) with
        | .ok x2 => (.ok (x2, 2 * ω j - 1, j + 2) : Res (ℝ × ℝ × Nat))
        | .error _ => svtLoop y P ω f (j + 2)) fun j => ?_) fun ω => ?_
    · refine MRes.congr (MRes.both (s := fun (ω : Tape) x2 => .ok (x2, 2 * ω j - 1, j + 2)) (f := fun ω : Tape => ((svtX P ω k).1.bind fun x2 =>
        (svtAccept x2 y (2 * ω j - 1)).bind fun p => if ω (j + 1) < p then .ok x2 else .error .nonfinite : Res ℝ)) ?_ (MRes.ok (by fun_prop)) (ih (j + 2))) fun ω => by
          rcases ((svtX P ω k).1.bind fun x2 => (svtAccept x2 y (2 * ω j - 1)).bind fun p => if ω (j + 1) < p then .ok x2 else .error .nonfinite : Res ℝ) with _ | _ <;> rfl
      refine MRes.bind (s := fun (ω : Tape) x2 => (svtAccept x2 y (2 * ω j - 1)).bind fun p => if ω (j + 1) < p then .ok x2 else .error .nonfinite) (svtX_fst P k) ?_
      refine MRes.bind (s := fun (q : Tape × ℝ) p => if q.1 (j + 1) < p then .ok q.2 else .error .nonfinite) (MRes.accept (by fun_prop) (by fun_prop) (by fun_prop)) ?_
      exact MRes.ite (measurableSet_lt (by fun_prop) (by fun_prop)) (MRes.ok (by fun_prop)) (MRes.err _)
    · simp only [svtLoop]
      rcases ((svtX P ω k).1.bind fun x2 => (svtAccept x2 y (2 * ω (svtX P ω k).2 - 1)).bind fun p =>
        if ω ((svtX P ω k).2 + 1) < p then .ok x2 else .error .nonfinite : Res ℝ) with _ | _ <;> rfl

theorem svt_meas (E kT awr : ℝ) (f k : Nat) : MRes fun ω => svtSample f E kT awr ω k := by
  unfold svtSample
  cases (PNDL.rdiv (awr * E) kT).bind PNDL.csqrt with
  | error e => exact MRes.err .diverge
  | ok y =>
    simp only []
    refine MRes.pre _ fun P => ?_
    refine MRes.bind (s := fun (ω : Tape) p => (PNDL.rdiv (p.1 * kT) awr).bind fun r => (PNDL.csqrt r).bind fun st =>
      ((Vec.mk 0 0 1).rotate p.2.1 (2 * Real.pi * ω p.2.2)).bind fun ut => .ok (ut.smul st, p.2.2 + 1)) (svtLoop_meas y P f k) ?_
    refine MRes.pick (i := fun q : Tape × (ℝ × ℝ × Nat) => q.2.2.2) (by fun_prop) (s := fun j q => (PNDL.rdiv (q.2.1 * kT) awr).bind fun r => (PNDL.csqrt r).bind fun st =>
      ((Vec.mk 0 0 1).rotate q.2.2.1 (2 * Real.pi * q.1 j)).bind fun ut => .ok (ut.smul st, j + 1)) fun j => ?_
    refine MRes.bind (MRes.rdiv (by fun_prop) (by fun_prop)) ?_
    refine MRes.bind (MRes.csqrt (by fun_prop)) ?_
    refine MRes.bind (MRes.rotate measurable_const (by fun_prop) (by fun_prop)) ?_
    exact MRes.ok ((vec_smul measurable_snd (by fun_prop)).prodMk measurable_const)

open Classical in
theorem MRes.lowerIndex (g : EGrid) {x : Ω → ℝ} (hx : Measurable x) : MRes fun ω => g.lowerIndex (x ω) := by
  unfold EGrid.lowerIndex
  refine MRes.pre _ fun e0 => MRes.ite (measurableSet_le hx measurable_const) (MRes.const _) ?_
  refine MRes.pre _ fun e1 => MRes.ite (measurableSet_le measurable_const hx) (MRes.const _) ?_
  refine MRes.bind (s := fun ω l => (PNDL.rdiv (l - g.uMin) g.du).bind fun q => if 0 ≤ q ∧ ⌊q⌋₊ < 2 ^ 32 then g.search ⌊q⌋₊ (x ω) else .error .ub) (MRes.clog hx) ?_
  refine MRes.bind (s := fun (p : Ω × ℝ) q => if 0 ≤ q ∧ ⌊q⌋₊ < 2 ^ 32 then g.search ⌊q⌋₊ (x p.1) else .error .ub) (MRes.rdiv (by fun_prop) (by fun_prop)) ?_
  have hf : Measurable fun p : (Ω × ℝ) × ℝ => ⌊p.2⌋₊ := Nat.measurable_floor.comp measurable_snd
  refine MRes.ite ?_ ?_ (MRes.err _)
  · exact (measurableSet_le measurable_const measurable_snd).inter (hf (measurableSet_Iio (a := 2 ^ 32)))
  · refine MRes.pick (i := fun p : (Ω × ℝ) × ℝ => ⌊p.2⌋₊) hf (s := fun n p => g.search n (x p.1.1)) fun n => ?_
    unfold EGrid.search
    refine MRes.pre _ fun low => MRes.pre _ fun p => MRes.ite (MeasurableSet.const _) ?_ (MRes.err _)
    exact MRes.pick (i := fun q : (Ω × ℝ) × ℝ => lowerBoundRange g.energy low (u32 (p + 1)) (x q.1.1)) ((measurable_searchRange _ _ _).comp (by fun_prop))
      (s := fun n _ => subIdx n 1) fun n => MRes.const _

theorem MRes.xsLin {x : Ω → ℝ} (hx : Measurable x) (a b c d : ℝ) : MRes fun ω => PNDL.xsLin (x ω) a b c d := by
  unfold PNDL.xsLin cdiv
  exact MRes.bind (MRes.ite (MeasurableSet.const _) (MRes.err _) (MRes.ok (by fun_prop))) (MRes.ok (by fun_prop))

theorem MRes.evalIdx (s : XS ℝ) {x : Ω → ℝ} (hx : Measurable x) (i : Nat) : MRes fun ω => s.evalIdx (x ω) i := by
  unfold XS.evalIdx XS.evalSingle
  refine MRes.ite (MeasurableSet.const _) ?_ (MRes.ite (MeasurableSet.const _) (MRes.const _) (MRes.ite (MeasurableSet.const _) (MRes.const _) ?_))
  · exact MRes.pre _ fun e0 => MRes.ite (measurableSet_lt hx measurable_const) (MRes.const _) (MRes.const _)
  · exact MRes.pre _ fun a => MRes.pre _ fun b => MRes.pre _ fun c => MRes.pre _ fun d => MRes.xsLin hx _ _ _ _

open Classical in
theorem dbrcLoop_meas (g : EGrid) (s : XS ℝ) (E kT awr sE lo hi xmax : ℝ) (sf : Nat) : ∀ f k, MRes fun ω => dbrcLoop g s E kT awr sE lo hi xmax sf ω f k := by
  intro f
  induction f with
  | zero => intro k; exact MRes.err _
  | succ f ih =>
    intro k
    have hE : Measurable fun q : Tape × Vec => ((Vec.mk 0 0 sE).sub q.2).dot ((Vec.mk 0 0 sE).sub q.2) :=
      vec_dot (vec_sub measurable_const measurable_snd) (vec_sub measurable_const measurable_snd)
    refine MRes.congr (MRes.seq (s := fun vt ω k' => if ((Vec.mk 0 0 sE).sub vt).dot ((Vec.mk 0 0 sE).sub vt) < lo ∨ ((Vec.mk 0 0 sE).sub vt).dot ((Vec.mk 0 0 sE).sub vt) > hi
      then dbrcLoop g s E kT awr sE lo hi xmax sf ω f k'
      else (g.lowerIndex (((Vec.mk 0 0 sE).sub vt).dot ((Vec.mk 0 0 sE).sub vt))).bind fun i =>
        (s.evalIdx (((Vec.mk 0 0 sE).sub vt).dot ((Vec.mk 0 0 sE).sub vt)) i).bind fun x =>
          if ω k' * xmax < x then .ok (vt, k' + 1) else dbrcLoop g s E kT awr sE lo hi xmax sf ω f (k' + 1)) (svt_meas E kT awr sf k) fun k' => ?_) fun ω => rfl
    refine MRes.ite ((measurableSet_lt hE measurable_const).union (measurableSet_lt measurable_const hE)) ((ih k').comp measurable_fst) ?_
    refine MRes.bind (s := fun (q : Tape × Vec) i => (s.evalIdx (((Vec.mk 0 0 sE).sub q.2).dot ((Vec.mk 0 0 sE).sub q.2)) i).bind fun x =>
          if q.1 k' * xmax < x then .ok (q.2, k' + 1) else dbrcLoop g s E kT awr sE lo hi xmax sf q.1 f (k' + 1)) (MRes.lowerIndex g hE) ?_
    refine MRes.pick (i := fun p : (Tape × Vec) × Nat => p.2) measurable_snd (s := fun i p => (s.evalIdx (((Vec.mk 0 0 sE).sub p.1.2).dot ((Vec.mk 0 0 sE).sub p.1.2)) i).bind fun x =>
          if p.1.1 k' * xmax < x then .ok (p.1.2, k' + 1) else dbrcLoop g s E kT awr sE lo hi xmax sf p.1.1 f (k' + 1)) fun i => ?_
    refine MRes.bind (s := fun (p : (Tape × Vec) × Nat) x => if p.1.1 k' * xmax < x then .ok (p.1.2, k' + 1) else dbrcLoop g s E kT awr sE lo hi xmax sf p.1.1 f (k' + 1))
      (MRes.evalIdx s (hE.comp measurable_fst) i) ?_
    exact MRes.ite (measurableSet_lt (by fun_prop) (by fun_prop)) (MRes.ok (by fun_prop))
      ((ih (k' + 1)).comp (g := fun q : ((Tape × Vec) × Nat) × ℝ => q.1.1.1) (by fun_prop))

theorem dbrc_meas (g : EGrid) (s : XS ℝ) (E kT awr : ℝ) (sf f k : Nat) : MRes fun ω => dbrcSample g s sf f E kT awr ω k := by
  unfold dbrcSample
  refine MRes.pre _ fun sE => ?_
  refine MRes.pre _ fun q => ?_
  refine MRes.pre _ fun y => ?_
  refine MRes.pre _ fun lo => ?_
  refine MRes.pre _ fun hi => ?_
  refine MRes.pre _ fun xmax => ?_
  exact dbrcLoop_meas g s E kT awr sE lo hi xmax sf f k

theorem collide_meas (e : Elastic) (E : ℝ) (he : ∀ k, MRes fun ω => e.angle E ω k) (vn : Vec) (k : Nat) : MRes fun p : Tape × Vec => e.collide E vn p.2 p.1 k := by
  unfold Elastic.collide
  refine MRes.bind (s := fun (p : Tape × Vec) (vcm : Vec) => ((vn.sub vcm).sdiv (vn.sub vcm).mag).bind fun Un => (e.angle E p.1 k).bind fun q =>
    (Un.rotate q.1 (2 * Real.pi * p.1 q.2)).bind fun d => (((d.smul (vn.sub vcm).mag).add vcm).sdiv ((d.smul (vn.sub vcm).mag).add vcm).mag).bind fun uo =>
      .ok ((Vec.mk 0 0 1).dot uo, ((d.smul (vn.sub vcm).mag).add vcm).mag * ((d.smul (vn.sub vcm).mag).add vcm).mag, q.2 + 1))
    (MRes.sdiv (vec_add measurable_const (vec_smul measurable_snd measurable_const)) measurable_const) ?_
  have h1 : Measurable fun q : (Tape × Vec) × Vec => vn.sub q.2 := vec_sub measurable_const measurable_snd
  refine MRes.bind (s := fun (q : (Tape × Vec) × Vec) (Un : Vec) => (e.angle E q.1.1 k).bind fun a =>
    (Un.rotate a.1 (2 * Real.pi * q.1.1 a.2)).bind fun d => (((d.smul (vn.sub q.2).mag).add q.2).sdiv ((d.smul (vn.sub q.2).mag).add q.2).mag).bind fun uo =>
      .ok ((Vec.mk 0 0 1).dot uo, ((d.smul (vn.sub q.2).mag).add q.2).mag * ((d.smul (vn.sub q.2).mag).add q.2).mag, a.2 + 1))
    (MRes.sdiv h1 (vec_mag h1)) ?_
  refine MRes.bind (s := fun (q : ((Tape × Vec) × Vec) × Vec) (a : ℝ × Nat) =>
    (q.2.rotate a.1 (2 * Real.pi * q.1.1.1 a.2)).bind fun d => (((d.smul (vn.sub q.1.2).mag).add q.1.2).sdiv ((d.smul (vn.sub q.1.2).mag).add q.1.2).mag).bind fun uo =>
      .ok ((Vec.mk 0 0 1).dot uo, ((d.smul (vn.sub q.1.2).mag).add q.1.2).mag * ((d.smul (vn.sub q.1.2).mag).add q.1.2).mag, a.2 + 1))
    ((he k).comp (g := fun q : ((Tape × Vec) × Vec) × Vec => q.1.1.1) (by fun_prop)) ?_
  refine MRes.pick (i := fun q : (((Tape × Vec) × Vec) × Vec) × (ℝ × Nat) => q.2.2) (by fun_prop) (s := fun j q =>
    (q.1.2.rotate q.2.1 (2 * Real.pi * q.1.1.1.1 j)).bind fun d => (((d.smul (vn.sub q.1.1.2).mag).add q.1.1.2).sdiv ((d.smul (vn.sub q.1.1.2).mag).add q.1.1.2).mag).bind fun uo =>
      .ok ((Vec.mk 0 0 1).dot uo, ((d.smul (vn.sub q.1.1.2).mag).add q.1.1.2).mag * ((d.smul (vn.sub q.1.1.2).mag).add q.1.1.2).mag, j + 1)) fun j => ?_
  refine MRes.bind (MRes.rotate (by fun_prop) (by fun_prop) (by fun_prop)) ?_
  have hv : Measurable fun q : ((((Tape × Vec) × Vec) × Vec) × (ℝ × Nat)) × Vec => q.1.1.1.2 := by fun_prop
  have ho : Measurable fun q : ((((Tape × Vec) × Vec) × Vec) × (ℝ × Nat)) × Vec => (q.2.smul (vn.sub q.1.1.1.2).mag).add q.1.1.1.2 :=
    vec_add (vec_smul measurable_snd (vec_mag (vec_sub measurable_const hv))) hv
  refine MRes.bind (MRes.sdiv ho (vec_mag ho)) ?_
  have hm := (vec_mag ho).comp (measurable_fst : Measurable fun q : (((((Tape × Vec) × Vec) × Vec) × (ℝ × Nat)) × Vec) × Vec => q.1)
  exact MRes.ok ((vec_dot measurable_const measurable_snd).prodMk ((hm.mul hm).prodMk measurable_const))

open Classical in
theorem elastic_meas (e : Elastic) (E : ℝ) (he : ∀ k, MRes fun ω => e.angle E ω k) (hb : ∀ b, e.broadener = some b → ∀ k, MRes fun ω => b E e.kT e.awr ω k) (k : Nat) :
    MRes fun ω => e.sample E ω k := by
  unfold Elastic.sample
  refine MRes.pre _ fun s => MRes.ite (MeasurableSet.const _) ?_ ?_
  · exact (collide_meas e E he _ k).comp (g := fun ω : Tape => (ω, (⟨0, 0, 0⟩ : Vec))) (by fun_prop)
  · cases h : e.broadener with
    | none => exact MRes.err .ub
    | some b => exact MRes.seq (s := fun vt ω k' => e.collide E ((Vec.mk 0 0 1).smul s) vt ω k') (hb b h k) fun k' => collide_meas e E he _ k'

/-! ### Thermal scattering -/

open Classical in
theorem coherent_meas (c : CohElastic) (E : ℝ) (k : Nat) : MRes fun ω => c.sample E ω k := by
  unfold CohElastic.sample
  refine MRes.ite (MeasurableSet.const _) (MRes.err _) (MRes.pre _ fun e0 => MRes.ite (MeasurableSet.const _) ?_ (MRes.const _))
  refine MRes.pre _ fun l => MRes.pre _ fun s => ?_
  refine MRes.pick (i := fun ω : Tape => lowerBoundRange c.sf 0 l (ω k * s)) ((measurable_searchRange _ _ _).comp (by fun_prop))
    (s := fun i _ => (PNDL.getAt c.edges i).bind fun eb => (PNDL.rdiv (2 * eb) E).bind fun q => .ok (1 - q, E, k + 1)) fun i => MRes.const _

theorem MRes.mixAt (u v : List ℝ) {f : Ω → ℝ} (hf : Measurable f) (j : Nat) : MRes fun ω => PNDL.mixAt u v (f ω) j := by
  unfold PNDL.mixAt
  exact MRes.pre _ fun a => MRes.pre _ fun b => MRes.ok (by fun_prop)

theorem MRes.smear (u v : List ℝ) {f xi : Ω → ℝ} (hf : Measurable f) (hx : Measurable xi) (n : Nat) (j : Nat) : MRes fun ω => PNDL.smear u v (f ω) n j (xi ω) := by
  unfold PNDL.smear
  refine MRes.bind (s := fun ω m => (if j ≠ 0 then PNDL.mixAt u v (f ω) (j - 1) else .ok (-1 - (m + 1)) : Res ℝ).bind fun lo =>
    (if j ≠ n - 1 then PNDL.mixAt u v (f ω) (j + 1) else .ok (1 - (m - 1)) : Res ℝ).bind fun hi => .ok (m + min (m - lo) (hi - m) * (xi ω - 1 / 2))) (MRes.mixAt u v hf j) ?_
  refine MRes.bind (MRes.ite (MeasurableSet.const _) (MRes.mixAt u v (hf.comp measurable_fst) _) (MRes.ok (by fun_prop))) ?_
  refine MRes.bind (MRes.ite (MeasurableSet.const _) (MRes.mixAt u v ((hf.comp measurable_fst).comp measurable_fst) _) (MRes.ok (by fun_prop))) ?_
  exact MRes.ok (by fun_prop)

theorem incoherent_meas (d : IncElastic) (E : ℝ) (k : Nat) : MRes fun ω => d.sample E ω k := by
  unfold IncElastic.sample
  refine MRes.ite (MeasurableSet.const _) (MRes.err _) (MRes.pre _ fun p => ?_)
  refine MRes.pick (i := fun ω : Tape => ⌊(d.nmu : ℝ) * ω k⌋₊) (Nat.measurable_floor.comp (by fun_prop))
    (s := fun j ω => (PNDL.getAt d.cosines p.1).bind fun u => (PNDL.getAt d.cosines (p.1 + 1)).bind fun v => (PNDL.smear u v p.2 d.nmu j (ω (k + 1))).bind fun mu => .ok (mu, E, k + 2)) fun j => ?_
  refine MRes.pre _ fun u => MRes.pre _ fun v => MRes.bind (MRes.smear u v measurable_const (measurable_at _) _ _) (MRes.ok (by fun_prop))

open Classical in
theorem pick_meas (d : DiscreteCE) (k : Nat) : MRes fun ω => d.pick ω k := by
  unfold DiscreteCE.pick
  have h0 := measurable_at k
  have h1 := measurable_at (k + 1)
  have hf : Measurable fun ω : Tape => ⌊(d.noe : ℝ) * ω k⌋₊ := Nat.measurable_floor.comp (by fun_prop)
  refine MRes.ite (MeasurableSet.const _) (MRes.ok (hf.prodMk measurable_const)) (MRes.pre _ fun c => ?_)
  have lt : ∀ a : ℝ, MeasurableSet {ω : Tape | ω k < a} := fun a => measurableSet_lt h0 measurable_const
  have le : ∀ a : ℝ, MeasurableSet {ω : Tape | a ≤ ω k} := fun a => measurableSet_le measurable_const h0
  refine MRes.ite ((le _).inter (lt _)) (MRes.pre _ fun n => MRes.ok ?_) (MRes.ite (lt _) (MRes.const _) (MRes.ite ((le _).inter (lt _)) (MRes.const _)
    (MRes.ite ((le _).inter (lt _)) (MRes.const _) (MRes.const _))))
  have hg : Measurable fun ω : Tape => ⌊(n : ℝ) * ω (k + 1) + 2⌋₊ := Nat.measurable_floor.comp (by fun_prop)
  exact hg.prodMk measurable_const

theorem discrete_meas (d : DiscreteCE) (E : ℝ) (k : Nat) : MRes fun ω => d.sample E ω k := by
  unfold DiscreteCE.sample
  refine MRes.pick (i := fun ω : Tape => ⌊(d.nmu : ℝ) * ω k⌋₊) (Nat.measurable_floor.comp (by fun_prop)) (s := fun m ω => (d.pick ω (k + 1)).bind fun p => (
    if lowerBound d.energy E = 0 then (front d.out).bind fun t => (discreteAt t p.1 m).bind fun q => .ok (q.1, q.2, p.2)
    else if lowerBound d.energy E = d.energy.length then (back d.out).bind fun t => (discreteAt t p.1 m).bind fun q => .ok (q.1, q.2, p.2)
    else (subIdx (lowerBound d.energy E) 1).bind fun i => (PNDL.getAt d.energy i).bind fun e0 => (PNDL.getAt d.energy (i + 1)).bind fun e1 =>
      (PNDL.rdiv (E - e0) (e1 - e0)).bind fun f => (PNDL.getAt d.out i).bind fun t0 => (PNDL.getAt d.out (i + 1)).bind fun t1 =>
        (discreteAt t0 p.1 m).bind fun q0 => (discreteAt t1 p.1 m).bind fun q1 => .ok (clampMu (q0.1 + f * (q1.1 - q0.1)), q0.2 + f * (q1.2 - q0.2), p.2) : Res (ℝ × ℝ × Nat))) fun m => ?_
  refine MRes.bind (pick_meas d (k + 1)) ?_
  exact MRes.pick (i := fun q : Tape × (Nat × Nat) => q.2) measurable_snd (s := fun p _ => (
    if lowerBound d.energy E = 0 then (front d.out).bind fun t => (discreteAt t p.1 m).bind fun q => .ok (q.1, q.2, p.2)
    else if lowerBound d.energy E = d.energy.length then (back d.out).bind fun t => (discreteAt t p.1 m).bind fun q => .ok (q.1, q.2, p.2)
    else (subIdx (lowerBound d.energy E) 1).bind fun i => (PNDL.getAt d.energy i).bind fun e0 => (PNDL.getAt d.energy (i + 1)).bind fun e1 =>
      (PNDL.rdiv (E - e0) (e1 - e0)).bind fun f => (PNDL.getAt d.out i).bind fun t0 => (PNDL.getAt d.out (i + 1)).bind fun t1 =>
        (discreteAt t0 p.1 m).bind fun q0 => (discreteAt t1 p.1 m).bind fun q1 => .ok (clampMu (q0.1 + f * (q1.1 - q0.1)), q0.2 + f * (q1.2 - q0.2), p.2) : Res (ℝ × ℝ × Nat)))
    fun p => MRes.const _

open Classical in
theorem MRes.cedcEnergy (t : CEDCTable) {x : Ω → ℝ} (hx : Measurable x) : MRes fun ω => t.sampleEnergy (x ω) := by
  unfold CEDCTable.sampleEnergy
  refine MRes.pick (i := fun ω => lowerBound t.cdf (x ω)) ((measurable_search _).comp hx) (s := fun it ω =>
    (if it = 0 then .ok 0 else if it = t.cdf.length then subIdx t.energy.length 2 else subIdx it 1 : Res Nat).bind fun l => (PNDL.getAt t.pdf l).bind fun p0 =>
      (PNDL.getAt t.pdf (l + 1)).bind fun p1 => (PNDL.getAt t.energy l).bind fun v0 => (PNDL.getAt t.cdf l).bind fun c0 => (PNDL.getAt t.energy (l + 1)).bind fun v1 =>
        (if p0 = p1 then histInterp (x ω) v0 p0 c0 else linInterp (x ω) v0 v1 p0 p1 c0 : Res ℝ).bind fun e => .ok (e, l)) fun it => ?_
  refine MRes.pre _ fun l => ?_
  refine MRes.pre _ fun p0 => ?_
  refine MRes.pre _ fun p1 => ?_
  refine MRes.pre _ fun v0 => ?_
  refine MRes.pre _ fun c0 => ?_
  refine MRes.pre _ fun v1 => ?_
  refine MRes.bind (MRes.ite (MeasurableSet.const _) ?_ ?_) (MRes.ok (by fun_prop))
  · exact MRes.hist hx measurable_const measurable_const measurable_const
  · exact MRes.lin hx _ _ _ _ _

theorem MRes.cedcMu (t : CEDCTable) (nmu j : Nat) {x r1 r2 : Ω → ℝ} (hx : Measurable x) (h1 : Measurable r1) (h2 : Measurable r2) :
    MRes fun ω => t.sampleMu nmu j (x ω) (r1 ω) (r2 ω) := by
  unfold CEDCTable.sampleMu
  refine MRes.pick (i := fun ω => ⌊(nmu : ℝ) * r1 ω⌋₊) (Nat.measurable_floor.comp (by fun_prop)) (s := fun k ω => (PNDL.getAt t.cdf j).bind fun c0 => (PNDL.getAt t.cdf (j + 1)).bind fun c1 =>
    (PNDL.rdiv (x ω - c0) (c1 - c0)).bind fun f => (PNDL.getAt t.cosines j).bind fun u => (PNDL.getAt t.cosines (j + 1)).bind fun v => (PNDL.smear u v f nmu k (r2 ω)).bind fun mu => .ok (clampMu mu)) fun k => ?_
  refine MRes.pre _ fun c0 => MRes.pre _ fun c1 => MRes.bind (MRes.rdiv (by fun_prop) (by fun_prop)) ?_
  refine MRes.pre _ fun u => MRes.pre _ fun v => MRes.bind (MRes.smear u v measurable_snd (h2.comp measurable_fst) _ _) (MRes.ok (by fun_prop))

open Classical in
theorem sampleUnit_meas (d : ContinuousCE) (E : ℝ) (k : Nat) : MRes fun ω => d.sampleUnit E ω k := by
  unfold ContinuousCE.sampleUnit
  refine MRes.pre _ fun lf => ?_
  refine MRes.pre _ fun t0 => ?_
  refine MRes.pre _ fun t1 => ?_
  refine MRes.pre _ fun a0 => ?_
  refine MRes.pre _ fun b0 => ?_
  refine MRes.pre _ fun a1 => ?_
  refine MRes.pre _ fun b1 => ?_
  have h0 := measurable_at k
  have side : ∀ (t : CEDCTable) (a b c e : ℝ), MRes fun ω : Tape => (t.sampleEnergy (ω k)).bind fun p => (PNDL.rdiv (p.1 - a) (b - a)).bind fun q =>
      (t.sampleMu d.nmu p.2 (ω k) (ω (k + 2)) (ω (k + 3))).bind fun mu => (.ok (mu, c + q * (e - c), k + 4) : Res (ℝ × ℝ × Nat)) := by
    intro t a b c e
    refine MRes.bind (s := fun (ω : Tape) p => (PNDL.rdiv (p.1 - a) (b - a)).bind fun q =>
      (t.sampleMu d.nmu p.2 (ω k) (ω (k + 2)) (ω (k + 3))).bind fun mu => .ok (mu, c + q * (e - c), k + 4)) (MRes.cedcEnergy t h0) ?_
    refine MRes.bind (s := fun (w : Tape × (ℝ × Nat)) q => (t.sampleMu d.nmu w.2.2 (w.1 k) (w.1 (k + 2)) (w.1 (k + 3))).bind fun mu => .ok (mu, c + q * (e - c), k + 4))
      (MRes.rdiv (by fun_prop) (by fun_prop)) ?_
    refine MRes.bind (MRes.pick (i := fun w : (Tape × (ℝ × Nat)) × ℝ => w.1.2.2) (by fun_prop) (s := fun j w => t.sampleMu d.nmu j (w.1.1 k) (w.1.1 (k + 2)) (w.1.1 (k + 3)))
      fun j => MRes.cedcMu t _ j (by fun_prop) (by fun_prop) (by fun_prop)) (MRes.ok (by fun_prop))
  refine MRes.congr (MRes.ite (c := fun ω : Tape => ω (k + 1) > lf.2) (measurableSet_lt measurable_const (measurable_at (k + 1))) (side t0 a0 b0 (a0 + lf.2 * (a1 - a0)) (b0 + lf.2 * (b1 - b0)))
    (side t1 a1 b1 (a0 + lf.2 * (a1 - a0)) (b0 + lf.2 * (b1 - b0)))) fun ω => ?_
  by_cases h : ω (k + 1) > lf.2
  · simp only [if_pos h]; rfl
  · simp only [if_neg h]; rfl

open Classical in
theorem samplePlain_meas (d : ContinuousCE) (E : ℝ) (k : Nat) : MRes fun ω => d.samplePlain E ω k := by
  unfold ContinuousCE.samplePlain
  refine MRes.pre _ fun lf => ?_
  refine MRes.pre _ fun t => ?_
  obtain ⟨i, hi⟩ : ∃ i, i = (if lf.2 > 1 / 2 then lf.1 + 1 else lf.1) := ⟨_, rfl⟩
  rw [← hi]
  refine MRes.bind (s := fun (ω : Tape) p => (PNDL.getAt d.energy i).bind fun Ei => (if p.1 < 1 / 2 * Ei then (PNDL.rdiv (2 * E) Ei).bind fun q => .ok (p.1 * (q - 1))
    else .ok (p.1 + (E - Ei)) : Res ℝ).bind fun Eo => (t.sampleMu d.nmu p.2 (ω k) (ω (k + 1)) (ω (k + 2))).bind fun mu => .ok (mu, Eo, k + 3)) (MRes.cedcEnergy t (measurable_at k)) ?_
  refine MRes.pre _ fun Ei => ?_
  refine MRes.bind (s := fun (w : Tape × (ℝ × Nat)) Eo => (t.sampleMu d.nmu w.2.2 (w.1 k) (w.1 (k + 1)) (w.1 (k + 2))).bind fun mu => .ok (mu, Eo, k + 3))
    (MRes.ite (measurableSet_lt (by fun_prop) measurable_const) (MRes.pre _ fun q => MRes.ok (by fun_prop)) (MRes.ok (by fun_prop))) ?_
  exact MRes.bind (MRes.pick (i := fun w : (Tape × (ℝ × Nat)) × ℝ => w.1.2.2) (by fun_prop) (s := fun j w => t.sampleMu d.nmu j (w.1.1 k) (w.1.1 (k + 1)) (w.1.1 (k + 2)))
    fun j => MRes.cedcMu t _ j (by fun_prop) (by fun_prop) (by fun_prop)) (MRes.ok (by fun_prop))

theorem inelastic_meas (d : InelDist) (E : ℝ) (k : Nat) : MRes fun ω => d.sample E ω k := by
  cases d with
  | discrete d => exact discrete_meas d E k
  | continuous d =>
    show MRes fun ω => d.sample E ω k
    unfold ContinuousCE.sample
    exact MRes.ite (MeasurableSet.const _) (samplePlain_meas d E k) (sampleUnit_meas d E k)

/-! ### Independence of successive calls -/

theorem MRes.pair {run : Tape → Res (ℝ × ℝ × Nat)} (h : MRes run) : MRes fun ω => asPair (run ω) := MRes.map h (by fun_prop)

/-- **C152** (angular distributions) -/
theorem C152_angle (d : AngleDist) (E : ℝ) : IndependentCalls fun f ω k => d.sample f E ω k := Replay.independent (C151_angle d E) fun f => angle_meas d E f 0

/-- **C152** (the laws of reactions) -/
theorem C152_law (l : Law) (E : ℝ) : IndependentCalls fun f ω k => asPair ((l.toAE f).sample E ω k) := Replay.independent (C151_law l E) fun f => (law_meas l E f 0).pair

/-- **C152** (reactions) Whatever the data, the laws, the frame and the incident energy. -/
theorem C152_reaction (r : RxnBase) (threshold E : ℝ) : IndependentCalls fun f ω k => asPair (r.sample threshold f E ω k) :=
  Replay.independent (C151_reaction r threshold E) fun f => (reaction_meas r threshold E f 0).pair

/-- **C152** (the fission spectrum of several reactions) -/
theorem C152_fission (g : EGrid) (t0 t1 t2 t3 : ℝ) (x0 x1 x2 x3 : XS ℝ) (d0 d1 d2 d3 : NDist) (E : ℝ) :
    IndependentCalls fun f ω k => asPair ((SFS.mk g ⟨t0, x0, d0.toAE f⟩ ⟨t1, x1, d1.toAE f⟩ ⟨t2, x2, d2.toAE f⟩ ⟨t3, x3, d3.toAE f⟩).sample E ω k) :=
  Replay.independent (C151_fission g t0 t1 t2 t3 x0 x1 x2 x3 d0 d1 d2 d3 E) fun f => (fission_meas g t0 t1 t2 t3 x0 x1 x2 x3 d0 d1 d2 d3 E f 0).pair

/-- **C152** (target velocities, sampled velocity of the target) -/
theorem C152_svt (E kT awr : ℝ) : IndependentCalls fun f ω k => svtSample f E kT awr ω k := Replay.independent (C151_svt E kT awr) fun f => svt_meas E kT awr f 0

/-- **C152** (target velocities, Doppler broadening rejection correction) -/
theorem C152_dbrc (g : EGrid) (s : XS ℝ) (E kT awr : ℝ) : IndependentCalls fun f ω k => dbrcSample g s f f E kT awr ω k :=
  Replay.independent (C151_dbrc g s E kT awr) fun f => dbrc_meas g s E kT awr f f 0

/-- **C152** (elastic scattering, sampled velocity of the target) -/
theorem C152_elastic_svt (d : AngleDist) (awr kT tar E : ℝ) (u : Bool) :
    IndependentCalls fun f ω k => asPair ((Elastic.mk (d.sample f) awr kT u tar (some (svtSample f))).sample E ω k) :=
  Replay.independent (C151_elastic_svt d awr kT tar E u) fun f => (elastic_meas _ E (fun k => angle_meas d E f k) (fun b h k => by cases h; exact svt_meas E kT awr f k) 0).pair

/-- **C152** (elastic scattering, Doppler broadening rejection correction) -/
theorem C152_elastic_dbrc (g : EGrid) (s : XS ℝ) (d : AngleDist) (awr kT tar E : ℝ) (u : Bool) :
    IndependentCalls fun f ω k => asPair ((Elastic.mk (d.sample f) awr kT u tar (some (dbrcSample g s f f))).sample E ω k) :=
  Replay.independent (C151_elastic_dbrc g s d awr kT tar E u) fun f => (elastic_meas _ E (fun k => angle_meas d E f k) (fun b h k => by cases h; exact dbrc_meas g s E kT awr f f k) 0).pair

/-- **C152** (coherent elastic) -/
theorem C152_coherent (c : CohElastic) (E : ℝ) : IndependentCalls fun (_ : Nat) ω k => asPair (c.sample E ω k) :=
  Replay.independent (C151_coherent c E) fun _ => (coherent_meas c E 0).pair

/-- **C152** (incoherent elastic) -/
theorem C152_incoherent (d : IncElastic) (E : ℝ) : IndependentCalls fun (_ : Nat) ω k => asPair (d.sample E ω k) :=
  Replay.independent (C151_incoherent d E) fun _ => (incoherent_meas d E 0).pair

/-- **C152** (inelastic) -/
theorem C152_inelastic (d : InelDist) (E : ℝ) : IndependentCalls fun (_ : Nat) ω k => asPair (d.sample E ω k) :=
  Replay.independent (C151_inelastic d E) fun _ => (inelastic_meas d E 0).pair

/-- **C152** (with a law) When one call samples from `μ`, the probability that `n` successive calls return in their sets is the product of the measures of the sets. -/
theorem C152_product {α : Type} [MeasurableSpace α] {run : Nat → Tape → Nat → Res (α × Nat)} (h : IndependentCalls run) {μ : Measure α} {j : Nat}
    (hs : Samples (fun fuel ω => run fuel ω j) μ) (n k : Nat) (S : Nat → Set α) (hS : ∀ i, MeasurableSet (S i)) :
    chanceAll run n k S = ∏ i ∈ Finset.range n, μ (S i) := by
  rw [h n k (fun _ => j) S hS]
  exact Finset.prod_congr rfl fun i _ => hs (S i) (hS i)

/-- **C152** (returning) The probability that `n` successive calls all return is the `n`-th power of the probability that one does. -/
theorem C152_returns {α : Type} [MeasurableSpace α] {run : Nat → Tape → Nat → Res (α × Nat)} (h : IndependentCalls run) (n k j : Nat) :
    chanceAll run n k (fun _ => Set.univ) = chance run j Set.univ ^ n := by
  rw [h n k (fun _ => j) _ fun _ => MeasurableSet.univ, Finset.prod_const, Finset.card_range]

/-- Three calls of an isotropic distribution all return a cosine in `[0, 1]` with probability 1/8. -/
example (E : ℝ) (k : Nat) : chanceAll (fun f ω k => (AngleDist.mk [1] [.isotropic]).sample f E ω k) 3 k (fun _ => Set.Icc 0 1) = 1 / 8 := by
  have hv : ValidDist (AngleDist.mk [1] [.isotropic]) := ⟨rfl, by simp, by norm_num⟩
  obtain ⟨p, hp, hs⟩ := C109_samples_partial (AngleDist.mk [1] [.isotropic]) hv (by intro law h; rw [List.mem_singleton.mp h]; trivial) E 0
  rw [C152_product (C152_angle _ E) hs 3 k _ fun _ => measurableSet_Icc]
  have hpv : ∀ x ∈ Set.Icc (0 : ℝ) 1, ENNReal.ofReal (p x) = ENNReal.ofReal (1 / 2) := by
    intro x hx
    have h1 := hp x (by linarith [hx.1]) hx.2
    have h2 : (AngleDist.mk [1] [.isotropic]).pdf E x = .ok (1 / 2) := by
      have e : (AngleDist.mk [1] [.isotropic]).find E = .ok (.inl .isotropic) := by
        by_cases h : 1 < E <;> simp [AngleDist.find, lowerBound, lowerBoundRange, bisect, h, front, back] <;> rfl
      simp only [AngleDist.pdf, e, bind, Except.bind, AngleLaw.pdf, isoPdf]
      rw [if_neg (by push Not; exact ⟨by linarith [hx.1], hx.2⟩)]
      norm_num
    rw [h2] at h1
    rw [← Except.ok.inj h1]
  have hm : ((volume.restrict (Set.Icc (-1 : ℝ) 1)).withDensity fun x => ENNReal.ofReal (p x)) (Set.Icc 0 1) = 1 / 2 := by
    rw [withDensity_apply _ measurableSet_Icc, Measure.restrict_restrict measurableSet_Icc, Set.inter_eq_left.mpr (Set.Icc_subset_Icc (by norm_num) le_rfl),
      setLIntegral_congr_fun measurableSet_Icc hpv, setLIntegral_const, Real.volume_Icc]
    norm_num
    rw [ENNReal.ofReal_div_of_pos (by norm_num)]
    norm_num
  rw [Finset.prod_const, Finset.card_range, hm]
  norm_num
  rw [← ENNReal.inv_pow]
  norm_num

end PNDL
