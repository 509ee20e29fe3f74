import Verif.Lemmas.Replay
import Verif.Model.PromptSpectrum
import Verif.Model.Spndl

/-! C151: a sample is made of the random numbers the call consumes. -/
namespace PNDL
open Spec

theorem ReplayPair.fixed {run : Nat → Tape → Nat → Res (ℝ × ℝ × Nat)} (n : Nat)
    (h : ∀ f f' ω ω' k j, (∀ i, i < n → ω' (j + i) = ω (k + i)) → run f' ω' j = (run f ω k).map fun r => (r.1, r.2.1, j + n)) : ReplayPair run := by
  refine Replay.fixed n fun f f' ω ω' k j ha => ?_
  rw [h f f' ω ω' k j ha]
  cases run f ω k <;> rfl

theorem agree0 {n : Nat} {ω ω' : Tape} {k j : Nat} (h : ∀ i, i < n → ω' (j + i) = ω (k + i)) (hn : 0 < n) : ω' j = ω k := h 0 hn

/-! ### Cosines -/

theorem iso_replay : Replay fun (_ : Nat) ω k => isoSample ω k := by
  refine Replay.fixed 1 fun f f' ω ω' k j ha => ?_
  simp only [isoSample, agree0 ha (by omega), Except.map]

theorem bins_replay (b : List ℝ) : Replay fun (_ : Nat) ω k => binsSample b ω k := by
  refine Replay.fixed 1 fun f f' ω ω' k j ha => ?_
  simp only [binsSample, agree0 ha (by omega)]
  side_by_side

theorem angleTable_replay (t : PCTable) : Replay fun (_ : Nat) ω k => angleTableSample t ω k := by
  refine Replay.fixed 1 fun f f' ω ω' k j ha => ?_
  simp only [angleTableSample, agree0 ha (by omega)]
  side_by_side

open Classical in
theorem legendre_replay (s : Legendre) : Replay fun f ω k => s.sample ω f k := by
  refine Replay.loop_diag (c := fun _ ω k => (rdiv (legPdf s.a (2 * ω k - 1)) s.pdfMax).map fun p =>
    (if ω (k + 1) < p then some (2 * ω k - 1) else none, k + 2)) ?_ (l := fun _ f ω k => s.sample ω f k) (by intro _ ω k x h; cases h) ?_
  · refine Replay.fixed 2 fun f f' ω ω' k j ha => ?_
    have h1 := ha 1 (by omega)
    simp only [agree0 ha (by omega), h1]
    cases rdiv (legPdf s.a (2 * ω k - 1)) s.pdfMax <;> rfl
  · intro _ f ω k
    simp only [Legendre.sample]
    cases rdiv (legPdf s.a (2 * ω k - 1)) s.pdfMax with
    | error e => rfl
    | ok p =>
      simp only [bind, Except.bind, Except.map]
      by_cases h : ω (k + 1) < p
      · rw [if_pos h, if_pos h]
      · rw [if_neg h, if_neg h]

theorem angleLaw_replay (law : AngleLaw) : Replay fun f ω k => law.sample f ω k := by
  cases law with
  | isotropic => exact iso_replay
  | bins b => exact bins_replay b
  | table t => exact angleTable_replay t
  | legendre s => exact legendre_replay s

open Classical in
/-- **C151** (angular distributions) -/
theorem C151_angle (d : AngleDist) (E : ℝ) : Replay fun f ω k => d.sample f E ω k := by
  unfold AngleDist.sample
  refine Replay.pre (d.find E) fun r => ?_
  rcases r with law | ⟨a, b, w⟩
  · exact angleLaw_replay law
  · have h : ∀ x : ℝ, Replay fun f ω k => ((if x > w then a.sample f ω k else b.sample f ω k : Res (ℝ × Nat))).bind fun p => (Except.ok (clampMu p.1) : Res ℝ).map fun y => (y, p.2) :=
      fun x => Replay.post (Replay.ite (angleLaw_replay a) (angleLaw_replay b)) fun mu => .ok (clampMu mu)
    exact Replay.read h

/-! ### Energies -/

theorem energyBins_replay (d : EnergyBins) (swap : Bool) (E : ℝ) : Replay fun (_ : Nat) ω k => d.sample swap E ω k := by
  have go : ∀ b : List ℝ, Replay fun (_ : Nat) ω k => ((if swap then sampleBins (ω (k + 1)) (ω k) b else sampleBins (ω k) (ω (k + 1)) b : Res ℝ)).bind fun v => .ok (v, k + 2) := by
    intro b
    refine Replay.fixed 2 fun f f' ω ω' k j ha => ?_
    have h1 := ha 1 (by omega)
    simp only [agree0 ha (by omega), h1]
    exact replay_map_congr _ fun _ => rfl
  unfold EnergyBins.sample
  refine Replay.ite ?_ (Replay.ite ?_ ?_)
  · exact Replay.pre _ go
  · exact Replay.pre _ go
  · refine Replay.pre _ fun l => Replay.pre _ fun e0 => Replay.pre _ fun e1 => Replay.pre _ fun w => ?_
    exact Replay.read (r := fun x f ω k => if x > w then (getAt d.bins l).bind fun b => _ else (getAt d.bins (l + 1)).bind fun b => _)
      fun x => Replay.ite (Replay.pre _ go) (Replay.pre _ go)

theorem genEvap_replay (t : Tab1D) (b : List ℝ) (E : ℝ) : Replay fun (_ : Nat) ω k => genEvapSample t b E ω k := by
  refine Replay.fixed 2 fun f f' ω ω' k j ha => ?_
  have h1 := ha 1 (by omega)
  simp only [genEvapSample, agree0 ha (by omega), h1]
  side_by_side

theorem tabEnergy_replay (d : TabEnergy) (E : ℝ) : Replay fun (_ : Nat) ω k => d.sample E ω k := by
  refine Replay.fixed 2 fun f f' ω ω' k j ha => ?_
  have h1 := ha 1 (by omega)
  simp only [TabEnergy.sample, agree0 ha (by omega), h1]
  side_by_side

open Classical in
theorem rejLoop_replay (c : Tape → Nat → Res ℝ) (n : Nat) (du : ℝ) (hc : ∀ ω ω' k j, (∀ i, i < n → ω' (j + i) = ω (k + i)) → c ω' j = c ω k) :
    Replay fun f ω k => rejLoop (c ω) n du f k := by
  refine Replay.loop_diag (c := fun _ ω k => .ok (match c ω k with | .ok e => if e ≥ 0 ∧ e ≤ du then some e else none | .error _ => none, k + n)) ?_
    (l := fun _ f ω k => rejLoop (c ω) n du f k) (by intro _ ω k x h; cases h) ?_
  · refine Replay.fixed n fun f f' ω ω' k j ha => ?_
    simp only [hc ω ω' k j ha, Except.map]
  · intro _ f ω k
    simp only [rejLoop, Except.bind]
    cases c ω k with
    | error e => rfl
    | ok e =>
      simp only []
      by_cases h : e ≥ 0 ∧ e ≤ du
      · rw [if_pos h, if_pos h]
      · rw [if_neg h, if_neg h]

theorem energyLaw_replay (l : ELaw) (E : ℝ) : Replay fun f ω k => l.sample f E ω k := by
  cases l with
  | bins d => exact energyBins_replay d false E
  | photon p =>
    refine Replay.fixed 0 fun f f' ω ω' k j _ => ?_
    simp only [ELaw.sample, Photon.sample]
    side_by_side
  | level l => exact Replay.fixed 0 fun f f' ω ω' k j _ => rfl
  | tabular d => exact tabEnergy_replay d E
  | genEvap t b => exact genEvap_replay t b E
  | maxwell t u =>
    refine Replay.pre (t.eval E) fun T => rejLoop_replay (fun ω k => maxwellCand T ω k) 3 (E - u) fun ω ω' k j ha => ?_
    have h1 := ha 1 (by omega)
    have h2 := ha 2 (by omega)
    simp only [maxwellCand, agree0 ha (by omega), h1, h2]
  | evap t u =>
    refine Replay.pre (t.eval E) fun T => rejLoop_replay (fun ω k => evapCand T (E - u) ω k) 2 (E - u) fun ω ω' k j ha => ?_
    have h1 := ha 1 (by omega)
    simp only [evapCand, agree0 ha (by omega), h1]
  | watt a b u =>
    refine Replay.pre (a.eval E) fun A => Replay.pre (b.eval E) fun B =>
      rejLoop_replay (fun ω k => wattCand A B ω k) 4 (E - u) fun ω ω' k j ha => ?_
    have h1 := ha 1 (by omega)
    have h2 := ha 2 (by omega)
    have h3 := ha 3 (by omega)
    simp only [wattCand, agree0 ha (by omega), h1, h2, h3]

/-! ### Cosines and energies -/

theorem uncorr_replay (u : Uncorr) (E : ℝ) : ReplayPair fun f ω k => u.sample f E ω k := by
  refine Replay.congr (Replay.bind (C151_angle u.angle E) fun mu => Replay.post (energyLaw_replay u.energy E) fun e => .ok (mu, e)) fun f ω k => ?_
  show asPair (u.sample f E ω k) = _
  unfold Uncorr.sample asPair
  rcases u.angle.sample f E ω k with _ | ⟨mu, k1⟩
  · rfl
  simp only [bind, Except.bind]
  rcases u.energy.sample f E ω k1 with _ | ⟨e, k2⟩ <;> rfl

theorem kalbach_replay (d : Kalbach) (E : ℝ) : ReplayPair fun _ ω k => d.sample E ω k := by
  refine ReplayPair.fixed 4 fun f f' ω ω' k j ha => ?_
  have h1 := ha 1 (by omega)
  have h2 := ha 2 (by omega)
  have h3 := ha 3 (by omega)
  simp only [Kalbach.sample, agree0 ha (by omega), h1, h2, h3]
  side_by_side

theorem eaTable_replay (t : EATable) : ReplayPair fun _ ω k => t.sample ω k := by
  refine ReplayPair.fixed 2 fun f f' ω ω' k j ha => ?_
  have h1 := ha 1 (by omega)
  simp only [EATable.sample, agree0 ha (by omega), h1]
  side_by_side

open Classical in
theorem tabEA_replay (d : TabEnergyAngle) (E : ℝ) : ReplayPair fun _ ω k => d.sample E ω k := by
  unfold ReplayPair
  refine Replay.congr (run' := fun f ω k => (bracketIn d.energy E).bind fun p => (getAt d.tables p.1).bind fun t0 => (getAt d.tables (p.1 + 1)).bind fun t1 =>
    (unitBase t0.minEnergy t0.maxEnergy t1.minEnergy t1.maxEnergy p.2).bind fun u =>
      (if ω k > p.2 then (asPair (t0.sample ω (k + 1))).bind fun r => ((rdiv (r.1.2 - u.1) (u.2.1 - u.1)).map fun q => (r.1.1, u.2.2.2.2.1 + q * (u.2.2.2.2.2 - u.2.2.2.2.1))).map fun y => (y, r.2)
      else (asPair (t1.sample ω (k + 1))).bind fun r => ((rdiv (r.1.2 - u.2.2.1) (u.2.2.2.1 - u.2.2.1)).map fun q => (r.1.1, u.2.2.2.2.1 + q * (u.2.2.2.2.2 - u.2.2.2.2.1))).map fun y => (y, r.2))) ?_ ?_
  · refine Replay.pre _ fun p => Replay.pre _ fun t0 => Replay.pre _ fun t1 => Replay.pre _ fun u => ?_
    exact Replay.read (r := fun x f ω k => if x > p.2 then (asPair (t0.sample ω k)).bind fun r =>
      ((rdiv (r.1.2 - u.1) (u.2.1 - u.1)).map fun q => (r.1.1, u.2.2.2.2.1 + q * (u.2.2.2.2.2 - u.2.2.2.2.1))).map fun y => (y, r.2)
      else (asPair (t1.sample ω k)).bind fun r => ((rdiv (r.1.2 - u.2.2.1) (u.2.2.2.1 - u.2.2.1)).map fun q => (r.1.1, u.2.2.2.2.1 + q * (u.2.2.2.2.2 - u.2.2.2.2.1))).map fun y => (y, r.2))
      fun x => Replay.ite (Replay.post (eaTable_replay t0) fun z => (rdiv (z.2 - u.1) (u.2.1 - u.1)).map fun q => (z.1, u.2.2.2.2.1 + q * (u.2.2.2.2.2 - u.2.2.2.2.1)))
        (Replay.post (eaTable_replay t1) fun z => (rdiv (z.2 - u.2.2.1) (u.2.2.2.1 - u.2.2.1)).map fun q => (z.1, u.2.2.2.2.1 + q * (u.2.2.2.2.2 - u.2.2.2.2.1)))
  · intro f ω k
    unfold TabEnergyAngle.sample
    rcases bracketIn d.energy E with _ | ⟨l, w⟩
    · rfl
    simp only [bind, Except.bind]
    rcases getAt d.tables l with _ | t0
    · rfl
    rcases getAt d.tables (l + 1) with _ | t1
    · rfl
    simp only []
    rcases unitBase t0.minEnergy t0.maxEnergy t1.minEnergy t1.maxEnergy w with _ | ⟨a0, b0, a1, b1, mn, mx⟩
    · rfl
    simp only []
    by_cases h : ω k > w
    · rw [if_pos h, if_pos h]
      rcases t0.sample ω (k + 1) with _ | ⟨mu, e, k'⟩
      · rfl
      · simp only [asPair, Except.map, pure, Except.pure]
        rcases rdiv (e - a0) (b0 - a0) with _ | q <;> rfl
    · rw [if_neg h, if_neg h]
      rcases t1.sample ω (k + 1) with _ | ⟨mu, e, k'⟩
      · rfl
      · simp only [asPair, Except.map, pure, Except.pure]
        rcases rdiv (e - a1) (b1 - a1) with _ | q <;> rfl

theorem spectrum_replay : Replay fun (_ : Nat) ω k => (maxwellianSpectrum ω k).map fun x => (x, k + 3) := by
  refine Replay.fixed 3 fun f f' ω ω' k j ha => ?_
  have h1 := ha 1 (by omega)
  have h2 := ha 2 (by omega)
  simp only [maxwellianSpectrum, agree0 ha (by omega), h1, h2]
  cases clog (ω (k + 1)) with
  | error e => rfl
  | ok l => cases clog (ω (k + 2)) <;> rfl

theorem nbody_replay (d : NBody) (E : ℝ) : ReplayPair fun _ ω k => d.sample E ω k := by
  have hy : Replay fun (_ : Nat) ω k => (
    if d.n = 3 then do let y ← maxwellianSpectrum ω k; return (y, k + 3)
    else if d.n = 4 then do let l ← clog (ω k * ω (k + 1) * ω (k + 2)); return (-l, k + 3)
    else if d.n = 5 then do
      let l1 ← clog (ω k * ω (k + 1) * ω (k + 2) * ω (k + 3))
      let l2 ← clog (ω (k + 4))
      return (-l1 - l2 * Real.cos (0.5 * Real.pi * ω (k + 5)) ^ 2, k + 6)
    else .ok (0, k) : Res (ℝ × Nat)) := by
    refine Replay.ite ?_ (Replay.ite ?_ (Replay.ite ?_ ?_))
    · exact Replay.congr spectrum_replay fun f ω k => by cases maxwellianSpectrum ω k <;> rfl
    · refine Replay.fixed 3 fun f f' ω ω' k j ha => ?_
      have h1 := ha 1 (by omega)
      have h2 := ha 2 (by omega)
      simp only [agree0 ha (by omega), h1, h2]
      side_by_side
    · refine Replay.fixed 6 fun f f' ω ω' k j ha => ?_
      have h1 := ha 1 (by omega)
      have h2 := ha 2 (by omega)
      have h3 := ha 3 (by omega)
      have h4 := ha 4 (by omega)
      have h5 := ha 5 (by omega)
      simp only [agree0 ha (by omega), h1, h2, h3, h4, h5]
      side_by_side
    · exact Replay.fixed 0 fun f f' ω ω' k j _ => rfl
  refine Replay.congr (Replay.bind spectrum_replay fun x => Replay.bind hy fun y => Replay.pre (rdiv x (x + y)) fun q =>
    Replay.read (r := fun z _ _ k => .ok ((2 * z - 1, q * d.emax E), k)) fun z => Replay.ret (.ok (2 * z - 1, q * d.emax E))) fun f ω k => ?_
  show asPair (d.sample E ω k) = _
  unfold NBody.sample
  rcases maxwellianSpectrum ω k with _ | x
  · rfl
  simp only [bind, Except.bind, Except.map]
  generalize hg : (if d.n = 3 then _ else _ : Res (ℝ × Nat)) = g
  rcases g with _ | ⟨y, k'⟩
  · rfl
  simp only []
  rcases rdiv x (x + y) with _ | q <;> rfl

/-- **C151** (the laws of reactions) -/
theorem C151_law (l : Law) (E : ℝ) : ReplayPair fun f ω k => (l.toAE f).sample E ω k := by
  cases l with
  | uncorrelated u => exact uncorr_replay u E
  | kalbach d => exact kalbach_replay d E
  | tabEnergyAngle d => exact tabEA_replay d E
  | nbody d => exact nbody_replay d E

open Classical in
/-- Selecting a law. -/
theorem select_replay (xi E : ℝ) : ∀ (ls : List (Law × Tab1D)) (sum : ℝ) (dflt : Nat → Tape → Nat → Res (ℝ × ℝ × Nat)), ReplayPair dflt →
    ReplayPair fun f ω k => (Multi.select E xi (ls.map fun p => p.1.toAE f) (ls.map Prod.snd) sum).bind fun s =>
      match s with
      | some d => d.sample E ω k
      | none => dflt f ω k := by
  intro ls
  induction ls with
  | nil => intro sum dflt h; exact h
  | cons p ls ih =>
    intro sum dflt h
    simp only [List.map_cons, Multi.select]
    cases hw : p.2.eval E with
    | error e => exact Replay.err e
    | ok w =>
      simp only [bind, Except.bind]
      by_cases hx : xi < sum + w
      · simp only [if_pos hx]
        exact C151_law p.1 E
      · simp only [if_neg hx]
        exact ih (sum + w) dflt h

theorem several_replay (ls : List (Law × Tab1D)) (E : ℝ) : ReplayPair fun f ω k => ((NDist.several ls).toAE f).sample E ω k := by
  have hb : ReplayPair fun f ω k => (back (ls.map fun p => p.1.toAE f)).bind fun d => d.sample E ω k := by
    cases hl : ls.getLast? with
    | none =>
      rw [List.getLast?_eq_none_iff] at hl
      subst hl
      exact Replay.err .ub
    | some p =>
      refine Replay.congr (C151_law p.1 E) fun f ω k => ?_
      have : back (ls.map fun p => p.1.toAE f) = .ok (p.1.toAE f) := by
        rw [back_eq_ok, List.getLast?_map, hl]
        rfl
      simp only [this]
      rfl
  refine Replay.congr (Replay.read (r := fun xi f ω k => asPair ((Multi.select E xi (ls.map fun p => p.1.toAE f) (ls.map Prod.snd) 0).bind fun s =>
      match s with
      | some d => d.sample E ω k
      | none => (back (ls.map fun p => p.1.toAE f)).bind fun d => d.sample E ω k)) fun xi => select_replay xi E ls 0 _ hb) fun f ω k => ?_
  show asPair (Multi.sample _ E ω k) = _
  unfold Multi.sample
  rfl

theorem dist_replay (d : NDist) (E : ℝ) : ReplayPair fun f ω k => (d.toAE f).sample E ω k := by
  induction d with
  | absorption mt => exact Replay.err .exc
  | one l => exact C151_law l E
  | several ls => exact several_replay ls E
  | cm A q d ih =>
    refine Replay.congr (Replay.post ih fun z => cmToLab E A z.1 z.2) fun f ω k => ?_
    show asPair (CMDist.sample ⟨A, q, d.toAE f⟩ E ω k) = (asPair ((d.toAE f).sample E ω k)).bind _
    unfold CMDist.sample
    dsimp only
    rcases (d.toAE f).sample E ω k with _ | ⟨mu, e, k'⟩
    · rfl
    simp only [bind, Except.bind, asPair, Except.map]
    rcases cmToLab E A mu e with _ | ⟨a, b⟩ <;> rfl

open Classical in
/-- **C151** (reactions) Sampling any reaction, whatever its data, laws and frame. -/
theorem C151_reaction (r : RxnBase) (threshold E : ℝ) : ReplayPair fun f ω k => r.sample threshold f E ω k := by
  unfold RxnBase.sample
  by_cases h : E < threshold
  · simp only [if_pos h]
    exact Replay.ret (.ok (0, 0))
  · simp only [if_neg h]
    exact dist_replay r.dist E

open Classical in
/-- **C151** (the fission spectrum of several reactions) -/
theorem C151_fission (g : EGrid) (t0 t1 t2 t3 : ℝ) (x0 x1 x2 x3 : XS ℝ) (d0 d1 d2 d3 : NDist) (E : ℝ) :
    ReplayPair fun f ω k => (SFS.mk g ⟨t0, x0, d0.toAE f⟩ ⟨t1, x1, d1.toAE f⟩ ⟨t2, x2, d2.toAE f⟩ ⟨t3, x3, d3.toAE f⟩).sample E ω k := by
  refine Replay.congr (Replay.pre ((SFS.mk g ⟨t0, x0, d0.toAE 0⟩ ⟨t1, x1, d1.toAE 0⟩ ⟨t2, x2, d2.toAE 0⟩ ⟨t3, x3, d3.toAE 0⟩).probs E) fun p =>
    Replay.read (r := fun xi f ω k => if xi < p.1 then asPair ((d0.toAE f).sample E ω k) else if xi < p.1 + p.2.1 then asPair ((d1.toAE f).sample E ω k)
      else if xi < p.1 + p.2.1 + p.2.2.1 then asPair ((d2.toAE f).sample E ω k) else asPair ((d3.toAE f).sample E ω k)) fun xi =>
    Replay.ite (dist_replay d0 E) (Replay.ite (dist_replay d1 E) (Replay.ite (dist_replay d2 E) (dist_replay d3 E)))) fun f ω k => ?_
  show asPair (SFS.sample _ E ω k) = _
  unfold SFS.sample
  have hp : (SFS.mk g ⟨t0, x0, d0.toAE f⟩ ⟨t1, x1, d1.toAE f⟩ ⟨t2, x2, d2.toAE f⟩ ⟨t3, x3, d3.toAE f⟩).probs E =
      (SFS.mk g ⟨t0, x0, d0.toAE 0⟩ ⟨t1, x1, d1.toAE 0⟩ ⟨t2, x2, d2.toAE 0⟩ ⟨t3, x3, d3.toAE 0⟩).probs E := rfl
  rw [hp]
  rcases (SFS.mk g ⟨t0, x0, d0.toAE 0⟩ ⟨t1, x1, d1.toAE 0⟩ ⟨t2, x2, d2.toAE 0⟩ ⟨t3, x3, d3.toAE 0⟩).probs E with _ | ⟨p0, p1, p2, p3⟩
  · rfl
  simp only [bind, Except.bind]
  by_cases h0 : ω k < p0
  · simp only [if_pos h0]
  · simp only [if_neg h0]
    by_cases h1 : ω k < p0 + p1
    · simp only [if_pos h1]
    · simp only [if_neg h1]
      by_cases h2 : ω k < p0 + p1 + p2
      · simp only [if_pos h2]
      · simp only [if_neg h2]

/-! ### Elastic scattering -/

open Classical in
theorem svtX_agree {P : ℝ} {ω ω' : Tape} {k j n : Nat} (hn : (svtX P ω k).2 = k + n) (ha : ∀ i, i < n → ω' (j + i) = ω (k + i)) :
    svtX P ω' j = ((svtX P ω k).1, j + n) := by
  unfold svtX at hn ⊢
  by_cases h : ω k < P
  · rw [if_pos h] at hn ⊢
    obtain rfl : n = 3 := by simp only [] at hn; omega
    have h1 := ha 1 (by omega)
    have h2 := ha 2 (by omega)
    rw [agree0 ha (by omega), if_pos h, h1, h2]
  · rw [if_neg h] at hn ⊢
    obtain rfl : n = 4 := by simp only [] at hn; omega
    have h1 := ha 1 (by omega)
    have h2 := ha 2 (by omega)
    have h3 := ha 3 (by omega)
    rw [agree0 ha (by omega), if_neg h, h1, h2, h3]

open Classical in
theorem svtX_pos (P : ℝ) (ω : Tape) (k : Nat) : ∃ n, (svtX P ω k).2 = k + n := by
  unfold svtX
  by_cases h : ω k < P
  · rw [if_pos h]; exact ⟨3, rfl⟩
  · rw [if_neg h]; exact ⟨4, rfl⟩

open Classical in
/-- One round of the loop. -/
noncomputable def svtRound (y P : ℝ) (ω : Tape) (k : Nat) : Option (ℝ × ℝ) :=
  match (svtX P ω k).1.bind (fun x2 => (svtAccept x2 y (2 * ω (svtX P ω k).2 - 1)).bind fun p =>
    if ω ((svtX P ω k).2 + 1) < p then .ok x2 else .error .nonfinite) with
  | .ok x2 => some (x2, 2 * ω (svtX P ω k).2 - 1)
  | .error _ => none

open Classical in
theorem svtLoop_replay (y P : ℝ) : Replay fun f ω k => asPair (svtLoop y P ω f k) := by
  refine Replay.loop_diag (c := fun _ ω k => .ok (svtRound y P ω k, (svtX P ω k).2 + 2)) ?_ (l := fun _ f ω k => asPair (svtLoop y P ω f k))
    (by intro _ ω k x h; cases h) ?_
  · intro f ω k x k' h
    obtain ⟨n, hn⟩ := svtX_pos P ω k
    cases h
    refine ⟨n + 2, by rw [hn]; omega, fun f' ω' j _ ha => ?_⟩
    have e := svtX_agree hn fun i hi => ha i (by omega)
    have h0 := ha n (by omega)
    have h1 := ha (n + 1) (by omega)
    rw [← Nat.add_assoc, ← Nat.add_assoc] at h1
    simp only [svtRound, e, hn, h0, h1]
    rfl
  · intro _ f ω k
    simp only [svtLoop, Except.bind, svtRound]
    cases hx : ((svtX P ω k).1.bind fun x2 => (svtAccept x2 y (2 * ω (svtX P ω k).2 - 1)).bind fun p =>
      if ω ((svtX P ω k).2 + 1) < p then .ok x2 else .error .nonfinite) with
    | error e =>
      simp only [Except.bind] at hx
      simp only [hx]
    | ok x2 =>
      simp only [Except.bind] at hx
      simp only [hx]
      rfl

/-- **C151** (target velocities, sampled velocity of the target) -/
theorem C151_svt (E kT awr : ℝ) : Replay fun f ω k => svtSample f E kT awr ω k := by
  unfold svtSample
  cases (rdiv (awr * E) kT).bind csqrt with
  | error e => exact Replay.err .diverge
  | ok y =>
    simp only []
    refine Replay.pre (rdiv 2 (Real.sqrt Real.pi * y + 2)) fun P => ?_
    refine Replay.congr (Replay.bind (svtLoop_replay y P) fun z => Replay.pre (rdiv (z.1 * kT) awr) fun r => Replay.pre (csqrt r) fun st =>
      Replay.read (r := fun x _ _ k => ((Vec.mk 0 0 1).rotate z.2 (2 * Real.pi * x)).bind fun ut => .ok (ut.smul st, k)) fun x =>
        Replay.congr (Replay.ret (((Vec.mk 0 0 1).rotate z.2 (2 * Real.pi * x)).map fun ut => ut.smul st)) fun f ω k => by
          cases (Vec.mk 0 0 1).rotate z.2 (2 * Real.pi * x) <;> rfl) fun f ω k => ?_
    rcases svtLoop y P ω f k with _ | ⟨x2, mu, k'⟩ <;> rfl

open Classical in
theorem dbrcLoop_replay (g : EGrid) (s : XS ℝ) (E kT awr sE lo hi xmax : ℝ) : Replay fun f ω k => dbrcLoop g s E kT awr sE lo hi xmax f ω f k := by
  refine Replay.loop_diag (c := fun f ω k => (svtSample f E kT awr ω k).bind fun p =>
      if ((Vec.mk 0 0 sE).sub p.1).dot ((Vec.mk 0 0 sE).sub p.1) < lo ∨ ((Vec.mk 0 0 sE).sub p.1).dot ((Vec.mk 0 0 sE).sub p.1) > hi then .ok (none, p.2)
      else (g.lowerIndex (((Vec.mk 0 0 sE).sub p.1).dot ((Vec.mk 0 0 sE).sub p.1))).bind fun i =>
        (s.evalIdx (((Vec.mk 0 0 sE).sub p.1).dot ((Vec.mk 0 0 sE).sub p.1)) i).bind fun x =>
          .ok (if ω p.2 * xmax < x then some p.1 else none, p.2 + 1)) ?_
    (l := fun s' f ω k => dbrcLoop g s E kT awr sE lo hi xmax s' ω f k) (by intro _ ω k x h; cases h) ?_
  · refine Replay.bind (s := fun vt _ ω k' => if ((Vec.mk 0 0 sE).sub vt).dot ((Vec.mk 0 0 sE).sub vt) < lo ∨ ((Vec.mk 0 0 sE).sub vt).dot ((Vec.mk 0 0 sE).sub vt) > hi
      then .ok (none, k')
      else (g.lowerIndex (((Vec.mk 0 0 sE).sub vt).dot ((Vec.mk 0 0 sE).sub vt))).bind fun i =>
        (s.evalIdx (((Vec.mk 0 0 sE).sub vt).dot ((Vec.mk 0 0 sE).sub vt)) i).bind fun x =>
          .ok (if ω k' * xmax < x then some vt else none, k' + 1)) (C151_svt E kT awr) fun vt => ?_
    by_cases h : ((Vec.mk 0 0 sE).sub vt).dot ((Vec.mk 0 0 sE).sub vt) < lo ∨ ((Vec.mk 0 0 sE).sub vt).dot ((Vec.mk 0 0 sE).sub vt) > hi
    · simp only [if_pos h]
      exact Replay.ret (.ok none)
    · simp only [if_neg h]
      refine Replay.pre _ fun i => Replay.pre _ fun x => ?_
      exact Replay.read (r := fun y _ _ k => .ok (if y * xmax < x then some vt else none, k)) fun y => Replay.ret (.ok (if y * xmax < x then some vt else none))
  · intro sf f ω k
    simp only [dbrcLoop, bind]
    rcases svtSample sf E kT awr ω k with _ | ⟨vt, k1⟩
    · rfl
    simp only [Except.bind]
    generalize ((Vec.mk 0 0 sE).sub vt).dot ((Vec.mk 0 0 sE).sub vt) = Er
    by_cases h : Er < lo ∨ Er > hi
    · rw [if_pos h, if_pos h]
    · rw [if_neg h, if_neg h]
      rcases g.lowerIndex Er with _ | i
      · rfl
      simp only []
      rcases s.evalIdx Er i with _ | x
      · rfl
      simp only []
      by_cases hx : ω k1 * xmax < x
      · rw [if_pos hx, if_pos hx]; rfl
      · rw [if_neg hx, if_neg hx]

/-- **C151** (target velocities, Doppler broadening rejection correction) -/
theorem C151_dbrc (g : EGrid) (s : XS ℝ) (E kT awr : ℝ) : Replay fun f ω k => dbrcSample g s f f E kT awr ω k := by
  unfold dbrcSample
  exact Replay.pre _ fun sE => Replay.pre _ fun q => Replay.pre _ fun y => Replay.pre _ fun lo => Replay.pre _ fun hi => Replay.pre _ fun xmax =>
    dbrcLoop_replay g s E kT awr sE lo hi xmax

theorem collide_replay (ang : Nat → AngleSampler) (E : ℝ) (ha : Replay fun f ω k => ang f E ω k) (br : Nat → Option Broadener) (awr kT tar : ℝ) (u : Bool)
    (vn vt : Vec) : ReplayPair fun f ω k => (Elastic.mk (ang f) awr kT u tar (br f)).collide E vn vt ω k := by
  unfold ReplayPair Elastic.collide
  cases hv : (vn.add (vt.smul awr)).sdiv (awr + 1) with
  | error e =>
    refine Replay.congr (Replay.err e) fun f ω k => ?_
    simp only [hv, bind, Except.bind]
    rfl
  | ok vcm =>
    cases hu : (vn.sub vcm).sdiv (vn.sub vcm).mag with
    | error e =>
      refine Replay.congr (Replay.err e) fun f ω k => ?_
      simp only [hv, hu, bind, Except.bind]
      rfl
    | ok Un =>
      refine Replay.congr (Replay.bind ha fun mu => Replay.read (r := fun x _ _ k => (Un.rotate mu (2 * Real.pi * x)).bind fun d =>
        (((d.smul (vn.sub vcm).mag).add vcm).sdiv ((d.smul (vn.sub vcm).mag).add vcm).mag).bind fun uo =>
          (.ok ((Vec.mk 0 0 1).dot uo, ((d.smul (vn.sub vcm).mag).add vcm).mag * ((d.smul (vn.sub vcm).mag).add vcm).mag) : Res (ℝ × ℝ)).map fun z => (z, k))
        fun x => Replay.pre _ fun d => Replay.pre _ fun uo => Replay.ret _) fun f ω k => ?_
      simp only [hv, hu, bind, Except.bind]
      rcases ang f E ω k with _ | ⟨mu, k1⟩
      · rfl
      simp only []
      rcases Un.rotate mu (2 * Real.pi * ω k1) with _ | d
      · rfl
      simp only []
      rcases ((d.smul (vn.sub vcm).mag).add vcm).sdiv ((d.smul (vn.sub vcm).mag).add vcm).mag with _ | uo <;> rfl

open Classical in
/-- **C151** (elastic scattering) With an angular distribution and either way of sampling the velocity of the target, or any other that has the property. -/
theorem C151_elastic (d : AngleDist) (br : Nat → Broadener) (hb : ∀ E kT awr, Replay fun f ω k => br f E kT awr ω k) (awr kT tar E : ℝ) (u : Bool) :
    ReplayPair fun f ω k => (Elastic.mk (d.sample f) awr kT u tar (some (br f))).sample E ω k := by
  unfold ReplayPair Elastic.sample
  cases hs : csqrt E with
  | error e => exact Replay.err e
  | ok sE =>
    simp only [bind, Except.bind]
    by_cases h : u = true ∧ E ≥ tar * kT
    · simp only [if_pos h]
      exact collide_replay d.sample E (C151_angle d E) (fun f => some (br f)) awr kT tar u _ _
    · simp only [if_neg h]
      refine Replay.congr (Replay.bind (hb E kT awr) fun vt =>
        collide_replay d.sample E (C151_angle d E) (fun f => some (br f)) awr kT tar u ((Vec.mk 0 0 1).smul sE) vt) fun f ω k => ?_
      rcases br f E kT awr ω k with _ | ⟨vt, k1⟩ <;> rfl

/-- **C151** (elastic scattering, sampled velocity of the target) -/
theorem C151_elastic_svt (d : AngleDist) (awr kT tar E : ℝ) (u : Bool) :
    ReplayPair fun f ω k => (Elastic.mk (d.sample f) awr kT u tar (some (svtSample f))).sample E ω k :=
  C151_elastic d svtSample C151_svt awr kT tar E u

/-- **C151** (elastic scattering, Doppler broadening rejection correction) -/
theorem C151_elastic_dbrc (g : EGrid) (s : XS ℝ) (d : AngleDist) (awr kT tar E : ℝ) (u : Bool) :
    ReplayPair fun f ω k => (Elastic.mk (d.sample f) awr kT u tar (some (dbrcSample g s f f))).sample E ω k :=
  C151_elastic d (fun f => dbrcSample g s f f) (C151_dbrc g s) awr kT tar E u

/-! ### Thermal scattering -/

open Classical in
/-- **C151** (coherent elastic) -/
theorem C151_coherent (c : CohElastic) (E : ℝ) : ReplayPair fun _ ω k => c.sample E ω k := by
  unfold ReplayPair CohElastic.sample
  by_cases h0 : c.edges.length = 0
  · simp only [if_pos h0]; exact Replay.err .exc
  · simp only [if_neg h0]
    cases front c.edges with
    | error e => exact Replay.err e
    | ok e0 =>
      simp only [bind, Except.bind]
      by_cases h1 : e0 < E
      · simp only [if_pos h1]
        refine ReplayPair.fixed 1 fun f f' ω ω' k j ha => ?_
        simp only [agree0 ha (by omega)]
        rcases subIdx (lowerBound c.edges E) 1 with _ | l
        · rfl
        simp only []
        rcases getAt c.sf l with _ | s
        · rfl
        simp only []
        rcases getAt c.edges (lowerBoundRange c.sf 0 l (ω k * s)) with _ | eb
        · rfl
        simp only []
        rcases rdiv (2 * eb) E with _ | q <;> rfl
      · simp only [if_neg h1]
        exact Replay.ret (.ok (1, E))

/-- **C151** (incoherent elastic) -/
theorem C151_incoherent (d : IncElastic) (E : ℝ) : ReplayPair fun _ ω k => d.sample E ω k := by
  refine ReplayPair.fixed 2 fun f f' ω ω' k j ha => ?_
  have h1 := ha 1 (by omega)
  simp only [IncElastic.sample, agree0 ha (by omega), h1]
  side_by_side

open Classical in
theorem pick_replay (d : DiscreteCE) : Replay fun (_ : Nat) ω k => d.pick ω k := by
  unfold DiscreteCE.pick
  refine Replay.ite ?_ (Replay.pre _ fun c => ?_)
  · exact Replay.read (r := fun x _ _ k => .ok (⌊(d.noe : ℝ) * x⌋₊, k)) fun x => Replay.ret (.ok _)
  · refine Replay.read (r := fun x _ ω k => if 5 * c ≤ x ∧ x < 1 - 5 * c then (subIdx d.noe 4).bind fun n => .ok (⌊(n : ℝ) * ω k + 2⌋₊, k + 1)
      else if x < c then .ok (0, k) else if c ≤ x ∧ x < 5 * c then .ok (1, k) else if 1 - 5 * c ≤ x ∧ x < 1 - c then (subIdx d.noe 2).bind fun n => .ok (n, k)
      else (subIdx d.noe 1).bind fun n => .ok (n, k)) fun x => ?_
    refine Replay.ite (Replay.pre _ fun n => ?_) (Replay.ite (Replay.ret (.ok 0)) (Replay.ite (Replay.ret (.ok 1)) (Replay.ite (Replay.pre _ fun n => Replay.ret (.ok n))
      (Replay.pre _ fun n => Replay.ret (.ok n)))))
    exact Replay.read (r := fun y _ _ k => .ok (⌊(n : ℝ) * y + 2⌋₊, k)) fun y => Replay.ret (.ok _)

theorem discrete_replay (d : DiscreteCE) (E : ℝ) : ReplayPair fun _ ω k => d.sample E ω k := by
  have key : ∀ x : ℝ, Replay fun (_ : Nat) ω k => (d.pick ω k).bind fun p => (
      (if lowerBound d.energy E = 0 then do
        let t ← front d.out
        discreteAt t p.1 ⌊(d.nmu : ℝ) * x⌋₊
      else if lowerBound d.energy E = d.energy.length then do
        let t ← back d.out
        discreteAt t p.1 ⌊(d.nmu : ℝ) * x⌋₊
      else do
        let i ← subIdx (lowerBound d.energy E) 1
        let e0 ← getAt d.energy i
        let e1 ← getAt d.energy (i + 1)
        let f ← rdiv (E - e0) (e1 - e0)
        let t0 ← getAt d.out i
        let t1 ← getAt d.out (i + 1)
        let (mu0, x0) ← discreteAt t0 p.1 ⌊(d.nmu : ℝ) * x⌋₊
        let (mu1, x1) ← discreteAt t1 p.1 ⌊(d.nmu : ℝ) * x⌋₊
        return (clampMu (mu0 + f * (mu1 - mu0)), x0 + f * (x1 - x0)) : Res (ℝ × ℝ))).map fun z => (z, p.2) := fun x => Replay.post (pick_replay d) fun j =>
      (if lowerBound d.energy E = 0 then do
        let t ← front d.out
        discreteAt t j ⌊(d.nmu : ℝ) * x⌋₊
      else if lowerBound d.energy E = d.energy.length then do
        let t ← back d.out
        discreteAt t j ⌊(d.nmu : ℝ) * x⌋₊
      else do
        let i ← subIdx (lowerBound d.energy E) 1
        let e0 ← getAt d.energy i
        let e1 ← getAt d.energy (i + 1)
        let f ← rdiv (E - e0) (e1 - e0)
        let t0 ← getAt d.out i
        let t1 ← getAt d.out (i + 1)
        let (mu0, x0) ← discreteAt t0 j ⌊(d.nmu : ℝ) * x⌋₊
        let (mu1, x1) ← discreteAt t1 j ⌊(d.nmu : ℝ) * x⌋₊
        return (clampMu (mu0 + f * (mu1 - mu0)), x0 + f * (x1 - x0)) : Res (ℝ × ℝ))
  refine Replay.congr (Replay.read key) fun f ω k => ?_
  show asPair (d.sample E ω k) = _
  unfold DiscreteCE.sample
  rcases d.pick ω (k + 1) with _ | ⟨j, k'⟩
  · rfl
  simp only [bind, Except.bind]
  by_cases h0 : lowerBound d.energy E = 0
  · simp only [if_pos h0]
    rcases front d.out with _ | t
    · rfl
    simp only []
    rcases discreteAt t j ⌊(d.nmu : ℝ) * ω k⌋₊ with _ | ⟨mu, e⟩ <;> rfl
  · simp only [if_neg h0]
    by_cases h1 : lowerBound d.energy E = d.energy.length
    · simp only [if_pos h1]
      rcases back d.out with _ | t
      · rfl
      simp only []
      rcases discreteAt t j ⌊(d.nmu : ℝ) * ω k⌋₊ with _ | ⟨mu, e⟩ <;> rfl
    · simp only [if_neg h1]
      rcases subIdx (lowerBound d.energy E) 1 with _ | i
      · rfl
      simp only []
      rcases getAt d.energy i with _ | e0
      · rfl
      rcases getAt d.energy (i + 1) with _ | e1
      · rfl
      simp only []
      rcases rdiv (E - e0) (e1 - e0) with _ | w
      · rfl
      rcases getAt d.out i with _ | t0
      · rfl
      rcases getAt d.out (i + 1) with _ | t1
      · rfl
      simp only []
      rcases discreteAt t0 j ⌊(d.nmu : ℝ) * ω k⌋₊ with _ | ⟨m0, y0⟩
      · rfl
      rcases discreteAt t1 j ⌊(d.nmu : ℝ) * ω k⌋₊ with _ | ⟨m1, y1⟩ <;> rfl

theorem continuous_replay (d : ContinuousCE) (E : ℝ) : ReplayPair fun _ ω k => d.sample E ω k := by
  unfold ReplayPair ContinuousCE.sample
  by_cases hu : d.unitBased = false
  · simp only [if_pos hu]
    refine ReplayPair.fixed 3 fun f f' ω ω' k j ha => ?_
    have h1 := ha 1 (by omega)
    have h2 := ha 2 (by omega)
    simp only [ContinuousCE.samplePlain, agree0 ha (by omega), h1, h2]
    side_by_side
  · simp only [if_neg hu]
    refine ReplayPair.fixed 4 fun f f' ω ω' k j ha => ?_
    have h1 := ha 1 (by omega)
    have h2 := ha 2 (by omega)
    have h3 := ha 3 (by omega)
    simp only [ContinuousCE.sampleUnit, agree0 ha (by omega), h1, h2, h3]
    side_by_side

/-- **C151** (inelastic) -/
theorem C151_inelastic (d : InelDist) (E : ℝ) : ReplayPair fun _ ω k => d.sample E ω k := by
  cases d with
  | discrete d => exact discrete_replay d E
  | continuous d => exact continuous_replay d E

/-! ### Consequences -/

/-- **C151** (loops) A loop of `n` calls that share one generator has the property, too: the values returned by all of them are those of the numbers consumed. -/
theorem C151_collect {α : Type} {run : Nat → Tape → Nat → Res (α × Nat)} (h : Replay run) (n : Nat) : Replay fun f ω k => collect (run f) ω n k := by
  induction n with
  | zero => exact Replay.ret (.ok [])
  | succ n ih =>
    refine Replay.congr (Replay.bind h fun x => Replay.bind ih fun xs => Replay.ret (.ok (x :: xs))) fun f ω k => ?_
    simp only [collect, bind]
    rcases run f ω k with _ | ⟨x, k1⟩
    · rfl
    simp only [Except.bind]
    rcases collect (run f) ω n k1 with _ | ⟨xs, k2⟩ <;> rfl

/-- **C151** (no two readings) The numbers consumed by one returning call never begin the numbers consumed by another returning call unless both calls return the same
value and consume equally many. -/
theorem C151_prefix {α : Type} {run : Nat → Tape → Nat → Res (α × Nat)} (h : Replay run) {f f' k j n m : Nat} {ω ω' : Tape} {x y : α}
    (h1 : run f ω k = .ok (x, k + n)) (h2 : run f' ω' j = .ok (y, j + m)) (ha : ∀ i, i < n → ω' (j + i) = ω (k + i)) : x = y ∧ n = m := by
  obtain ⟨n', e, hn⟩ := h f ω k x _ h1
  obtain rfl : n = n' := by omega
  obtain ⟨m', e', hm⟩ := h f' ω' j y _ h2
  obtain rfl : m = m' := by omega
  have e1 := hn (max f f') ω' j (le_max_left _ _) ha
  have e2 := hm (max f f') ω' j (le_max_right _ _) fun i _ => rfl
  rw [e1] at e2
  have e3 := Except.ok.inj e2
  have e4 := (Prod.ext_iff.1 e3).2
  exact ⟨(Prod.ext_iff.1 e3).1, by simp only at e4; omega⟩

/-- **C151** (what can be observed) Two successive calls of one method see disjoint stretches of the generator: changing the numbers the first call consumed, in any way
that leaves it consuming equally many, does not change what the second call returns. -/
theorem C151_next {α : Type} {run : Nat → Tape → Nat → Res (α × Nat)} (h : Replay run) {f k n : Nat} {ω ω' : Tape} {x x' : α}
    (h1 : run f ω k = .ok (x, k + n)) (h1' : run f ω' k = .ok (x', k + n)) (ha : ∀ i, k + n ≤ i → ω' i = ω i) {y : α} {k' : Nat}
    (h2 : collect (run f) ω 2 k = .ok ([x, y], k')) : collect (run f) ω' 2 k = .ok ([x', y], k') := by
  simp only [collect, bind, Except.bind, h1] at h2
  simp only [collect, bind, Except.bind, h1']
  cases hr : run f ω (k + n) with
  | error e => rw [hr] at h2; cases h2
  | ok p =>
    obtain ⟨z, k2⟩ := p
    obtain ⟨m, rfl, hm⟩ := h f ω (k + n) z k2 hr
    rw [hm f ω' (k + n) le_rfl fun i _ => ha _ (by omega)]
    rw [hr] at h2
    have e := Except.ok.inj h2
    simp only [Prod.mk.injEq, List.cons.injEq, true_and, and_true] at e
    obtain ⟨rfl, rfl⟩ := e
    rfl

/-- An isotropic distribution consumes one number: on the constant stream 1/4 it returns -1/2; by `C151_angle` it does so at position 7 of a stream that is 1/4 there
and 0 elsewhere, and then is at position 8. -/
example : (AngleDist.mk [1] [.isotropic]).sample 0 1 (fun _ => 1 / 4) 3 = .ok (-1 / 2, 3 + 1) ∧
    (AngleDist.mk [1] [.isotropic]).sample 5 1 (fun i => if i = 7 then 1 / 4 else 0) 7 = .ok (-1 / 2, 8) := by
  have h : (AngleDist.mk [1] [.isotropic]).sample 0 1 (fun _ => 1 / 4) 3 = .ok (-1 / 2, 3 + 1) := by
    have e : (AngleDist.mk [1] [.isotropic]).find 1 = .ok (.inl .isotropic) := by
      have h0 : lowerBound [(1 : ℝ)] 1 = 0 := by
        simp [lowerBound, lowerBoundRange, bisect]
      simp only [AngleDist.find, h0, if_true]
      rfl
    simp only [AngleDist.sample, e, bind, Except.bind, AngleLaw.sample, isoSample, clampMu]
    norm_num [abs_of_neg]
  refine ⟨h, ?_⟩
  obtain ⟨n, e, hn⟩ := C151_angle _ 1 0 _ 3 _ _ h
  obtain rfl : n = 1 := by omega
  exact hn 5 _ 7 (by omega) fun i hi => by
    obtain rfl : i = 0 := by omega
    rfl

end PNDL
