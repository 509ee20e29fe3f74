import Verif.Props.ReadEnergy
import Verif.Props.UnitBase

/-! C143 — sampling a reaction read from a file returns. -/
namespace PNDL
open Spec

/-- An angular distribution with at least one energy, the cumulatives of whose tables begin at 0 and are covered by their densities. -/
def Spec.TotalAngle (d : AngleDist) : Prop := d.energy ≠ [] ∧ ∀ t, AngleLaw.table t ∈ d.laws → CoveredPC t

/-- The same for an energy law at incoming energy `E`: the tables can be evaluated, there are two incoming energies to interpolate between, and the
stream stays below `(n - 1) / n` for the laws with bins. -/
def Spec.TotalELaw (ω : Tape) (E : ℝ) : ELaw → Prop
  | .bins d => d.energy ≠ [] ∧ ∀ b ∈ d.bins, SafeBins ω b
  | .photon _ => True
  | .level _ => True
  | .tabular d => 2 ≤ d.energy.length ∧ d.energy.Pairwise (· ≤ ·) ∧ ∀ t ∈ d.tables, CoveredPC t
  | .genEvap t b => (∃ T, t.eval E = .ok T) ∧ SafeBins ω b
  | .maxwell t _ => ∃ T, t.eval E = .ok T
  | .evap t _ => ∃ T, t.eval E = .ok T
  | .watt a b _ => (∃ T, a.eval E = .ok T) ∧ ∃ T, b.eval E = .ok T

/-- The same for a law of a reaction: Kalbach slopes are positive, and laws that take logarithms of, or search for, random numbers do not draw 0. -/
def Spec.TotalLaw (ω : Tape) (E : ℝ) : Law → Prop
  | .uncorrelated u => TotalAngle u.angle ∧ TotalELaw ω E u.energy
  | .kalbach d => 2 ≤ d.energy.length ∧ ∀ t ∈ d.tables, CoveredPC t.toPC ∧ ∀ a ∈ t.A, 0 < a
  | .tabEnergyAngle d => 2 ≤ d.energy.length ∧ (∀ j, 0 < ω j) ∧ ∀ t ∈ d.tables, CoveredPC (eaPC t) ∧ ∀ a ∈ t.angles, CoveredPC a
  | .nbody _ => ∀ j, 0 < ω j

/-- The same for the distribution of a reaction; an absorption emits nothing.  Centre-of-mass data must hold no negative energy. -/
def Spec.TotalDist (ω : Tape) (E : ℝ) : NDist → Prop
  | .absorption _ => False
  | .one l => TotalLaw ω E l
  | .several ls => ∀ p ∈ ls, TotalLaw ω E p.1 ∧ ∃ w, p.2.eval E = .ok w
  | .cm _ _ d => TotalDist ω E d ∧ NonnegDist E d

/-- The emission drawn in the centre-of-mass frame stops the particle in the lab: straight back, at the energy of the centre of mass. -/
def Spec.Stopped (fuel : Nat) (E : ℝ) (ω : Tape) (k : Nat) : NDist → Prop
  | .cm awr _ d => (∃ k', (d.toAE fuel).sample E ω k = .ok (-1, E / (awr + 1) ^ 2, k')) ∨ Stopped fuel E ω k d
  | _ => False

/-- A draw of a direction and an energy that returns or is still rejecting. -/
def Answers {α : Type} (x : Res (α × Nat)) : Prop := (∃ v k', x = .ok (v, k')) ∨ x = .error .diverge

theorem Answers.bind {α β : Type} {x : Res (α × Nat)} {f : α × Nat → Res (β × Nat)} (hx : Answers x) (hf : ∀ v k, Answers (f (v, k))) :
    Answers (x >>= f) := by
  rcases hx with ⟨v, k', h⟩ | h
  · rw [h]; exact hf v k'
  · rw [h]; exact Or.inr rfl

theorem Answers.ok {α : Type} (v : α) (k : Nat) : Answers (.ok (v, k) : Res (α × Nat)) := Or.inl ⟨v, k, rfl⟩

theorem angleLaw_total {d : AngleDist} (hw : WFAngle d) (ht : TotalAngle d) {law : AngleLaw} (hl : law ∈ d.laws) {ω : Tape} (hω : UnitTape ω)
    (fuel k : Nat) : Answers (law.sample fuel ω k) := by
  cases law with
  | isotropic => exact Answers.ok _ _
  | bins b =>
    have hlen := hw.bins b hl
    have hb := bin_lt (hω k).1 (hω k).2
    obtain ⟨x, hx⟩ := getElem?_of_lt (l := b) (i := ⌊33 * ω k⌋₊) (by omega)
    left
    refine ⟨clampMu ((ω k - (⌊33 * ω k⌋₊ : ℝ) * (1 / 32)) / (1 / 32) + x), k + 1, ?_⟩
    simp only [AngleLaw.sample, binsSample]
    rw [if_neg hb.ne, getAt_eq_ok.mpr hx]; rfl
  | table t =>
    obtain ⟨x, _, _, hx, _⟩ := C32_in_range_partial t (hw.table t hl) (ht.2 t hl) (ω k) (hω k).1 (hω k).2.le
    left
    refine ⟨clampMu x, k + 1, ?_⟩
    simp only [AngleLaw.sample, angleTableSample, hx]; rfl
  | legendre s => exact absurd hl (hw.legendre s)

theorem angle_total {d : AngleDist} (hw : WFAngle d) (ht : TotalAngle d) (fuel : Nat) (E : ℝ) {ω : Tape} (hω : UnitTape ω) (k : Nat) :
    Answers (d.sample fuel E ω k) := by
  have hpos : 0 < d.energy.length := List.length_pos_iff.mpr ht.1
  have hlen := hw.len
  unfold AngleDist.sample AngleDist.find
  dsimp only
  by_cases h0 : lowerBound d.energy E = 0
  · rw [if_pos h0]
    obtain ⟨a, ha⟩ := getElem?_of_lt (l := d.laws) (i := 0) (by omega)
    rw [front_eq_ok.mpr ha]
    exact angleLaw_total hw ht (List.mem_of_getElem? ha) hω fuel k
  rw [if_neg h0]
  by_cases h1 : lowerBound d.energy E = d.energy.length
  · rw [if_pos h1]
    obtain ⟨a, ha⟩ := last_exists (l := d.laws) (by omega)
    rw [back_eq_ok.mpr ha]
    exact angleLaw_total hw ht (List.mem_of_getLast? ha) hω fuel k
  rw [if_neg h1]
  have hle := lowerBound_le_length d.energy E
  obtain ⟨l, hl⟩ : ∃ l, lowerBound d.energy E = l + 1 := ⟨lowerBound d.energy E - 1, by omega⟩
  obtain ⟨e0, g0⟩ := getElem?_of_lt (l := d.energy) (i := l) (by omega)
  obtain ⟨e1, g1⟩ := getElem?_of_lt (l := d.energy) (i := l + 1) (by omega)
  obtain ⟨a, ga⟩ := getElem?_of_lt (l := d.laws) (i := l) (by omega)
  obtain ⟨b, gb⟩ := getElem?_of_lt (l := d.laws) (i := l + 1) (by omega)
  have q0 : e0 < E := (lowerBound_iff hw.sorted E g0).mpr (by omega)
  have q1 : ¬ e1 < E := fun h => by have := (lowerBound_iff hw.sorted E g1).mp h; omega
  have hne : e1 - e0 ≠ 0 := by intro h; linarith
  rw [hl, subIdx_of_le (by omega)]
  simp only [Nat.add_sub_cancel, getAt_eq_ok.mpr g0, getAt_eq_ok.mpr g1, getAt_eq_ok.mpr ga, getAt_eq_ok.mpr gb, rdiv_ok hne, bind, Except.bind, pure, Except.pure]
  have ra := angleLaw_total hw ht (List.mem_of_getElem? ga) hω fuel (k + 1)
  have rb := angleLaw_total hw ht (List.mem_of_getElem? gb) hω fuel (k + 1)
  by_cases hx : ω k > (E - e0) / (e1 - e0)
  · rw [if_pos hx]
    rcases ra with ⟨v, k', h⟩ | h <;> rw [h]
    · exact Answers.ok _ _
    · exact Or.inr rfl
  · rw [if_neg hx]
    rcases rb with ⟨v, k', h⟩ | h <;> rw [h]
    · exact Answers.ok _ _
    · exact Or.inr rfl

theorem rejLoop_total (cand : Nat → Res ℝ) (n : Nat) (du : ℝ) : ∀ fuel k, Answers (rejLoop cand n du fuel k) := by
  intro fuel
  induction fuel with
  | zero => intro k; exact Or.inr rfl
  | succ m ih =>
    intro k
    rw [rejLoop]
    split
    · split
      · exact Answers.ok _ _
      · exact ih _
    · exact ih _

theorem elaw_total {l : ELaw} {E : ℝ} {ω : Tape} (hω : UnitTape ω) (hw : WFELaw l) (ht : TotalELaw ω E l) (fuel k : Nat) :
    Answers (l.sample fuel E ω k) := by
  cases l with
  | bins d =>
    obtain ⟨h1, h2, h3⟩ := hw
    have hm : EnergyBins.make d.energy d.bins = .ok d := by
      unfold EnergyBins.make
      simp only [isSorted_iff.mpr h2, h1]
      have : (d.bins.any fun b => !isSorted b) = false := by
        rw [Bool.eq_false_iff]
        intro h
        obtain ⟨b, hb, hs⟩ := List.any_eq_true.mp h
        rw [isSorted_iff.mpr (h3 b hb)] at hs
        cases hs
      simp [this]
    obtain ⟨_, _, _, _, _, v, k', _, _, _, _, h, _⟩ := C40_sample_partial d.energy d.bins d hm ht.1 (fun b hb => (ht.2 b hb).1) false E ω hω
      (fun j b hb => (ht.2 b hb).2 j) k
    exact Or.inl ⟨v, k', h⟩
  | photon p =>
    show Answers (p.sample E k)
    unfold Photon.sample
    split
    · exact Answers.ok _ _
    · rw [rdiv_ok (by have := hw.2; linarith)]
      exact Answers.ok _ _
  | level l => exact Answers.ok _ _
  | tabular d =>
    have hm : TabEnergy.make d.energy d.tables = .ok d := by
      unfold TabEnergy.make
      rw [if_neg (by simp [isSorted_iff.mpr ht.2.1]), if_neg (by simp [hw.1])]
    obtain ⟨_, _, _, _, _, _, _, _, v, _, _, _, _, _, _, _, h, _⟩ := C41_window_partial d.energy d.tables d hm ht.1
      (fun t hx => ⟨hw.2 t hx, ht.2.2 t hx⟩) E ω hω k
    exact Or.inl ⟨v, _, h⟩
  | genEvap t b =>
    obtain ⟨⟨T, hT⟩, hb⟩ := ht
    obtain ⟨_, _, _, v, _, _, h, _⟩ := C40_evaporation_partial t b hw.2 hb.1 E T hT ω hω k (hb.2 k)
    exact Or.inl ⟨_, _, h⟩
  | maxwell t u =>
    obtain ⟨T, hT⟩ := ht
    show Answers (maxwellSample t u fuel E ω k)
    unfold maxwellSample
    rw [hT]
    exact rejLoop_total _ _ _ _ _
  | evap t u =>
    obtain ⟨T, hT⟩ := ht
    show Answers (evapSample t u fuel E ω k)
    unfold evapSample
    rw [hT]
    exact rejLoop_total _ _ _ _ _
  | watt a b u =>
    obtain ⟨⟨T, hT⟩, T', hT'⟩ := ht
    show Answers (wattSample a b u fuel E ω k)
    unfold wattSample
    rw [hT, hT']
    exact rejLoop_total _ _ _ _ _

/-- A draw of a cosine and an energy that returns a cosine in `[-1, 1]`, or is still rejecting. -/
def Spec.Emits (x : Res (ℝ × ℝ × Nat)) : Prop := (∃ mu e k', x = .ok (mu, e, k') ∧ -1 ≤ mu ∧ mu ≤ 1) ∨ x = .error .diverge

theorem law_total {l : Law} {E : ℝ} {ω : Tape} (hω : UnitTape ω) (hw : WFLaw l) (ht : TotalLaw ω E l) (fuel k : Nat) :
    Emits ((l.toAE fuel).sample E ω k) := by
  cases l with
  | uncorrelated u =>
    show Emits (u.sample fuel E ω k)
    have ha := angle_total hw.1 ht.1 fuel E hω k
    unfold Uncorr.sample
    rcases ha with ⟨mu, k1, h⟩ | h
    · rw [h]
      have hmu := C35_distribution_range _ _ _ hω _ _ _ _ h
      rcases elaw_total hω hw.2 ht.2 fuel k1 with ⟨e, k2, h'⟩ | h'
      · left
        refine ⟨mu, e, k2, ?_, hmu⟩
        show (u.energy.sample fuel E ω k1 >>= _) = _
        rw [h']; rfl
      · right
        show (u.energy.sample fuel E ω k1 >>= _) = _
        rw [h']; rfl
    · rw [h]; exact Or.inr rfl
  | kalbach d =>
    have hm : Kalbach.make d.energy d.tables = .ok d := by
      unfold Kalbach.make
      simp [isSorted_iff.mpr hw.2.2, hw.1]
    obtain ⟨_, _, _, _, _, _, _, _, mu, v, _, _, _, _, _, _, _, h, a, b, _⟩ := C82_kalbach_partial d.energy d.tables d hm ht.1
      (fun t hx => ⟨hw.2.1 t hx, (ht.2 t hx).1, (ht.2 t hx).2⟩) E ω hω k
    exact Or.inl ⟨mu, v, _, h, a, b⟩
  | tabEnergyAngle d =>
    have hm : TabEnergyAngle.make d.energy d.tables = .ok d := by
      unfold TabEnergyAngle.make
      simp [isSorted_iff.mpr hw.2.2, hw.1]
    obtain ⟨_, _, _, _, _, _, _, _, mu, v, _, _, _, _, _, _, _, h, a, b, _⟩ := C82_tabular_partial d.energy d.tables d hm ht.1
      (fun t hx => ⟨hw.2.1 t hx, (ht.2.2 t hx).1, (ht.2.2 t hx).2⟩) E ω hω k (ht.2.1 _)
    exact Or.inl ⟨mu, v, _, h, a, b⟩
  | nbody d =>
    obtain ⟨mu, t, k', h, a, b, _⟩ := C43_fraction d.n d.Ap d.A d.Q d hw E ω (fun j => ⟨ht j, (hω j).2⟩) k
    exact Or.inl ⟨mu, _, k', h, a, b.le⟩

theorem select_total {E xi : ℝ} : ∀ (ls : List (Law × Tab1D)) (fuel : Nat) (sum : ℝ), (∀ p ∈ ls, ∃ w, p.2.eval E = .ok w) →
    ∃ s, Multi.select E xi (ls.map (fun p => p.1.toAE fuel)) (ls.map Prod.snd) sum = .ok s := by
  intro ls fuel
  induction ls with
  | nil => intro sum _; exact ⟨none, rfl⟩
  | cons p ls ih =>
    intro sum h
    obtain ⟨w, hw⟩ := h p (by simp)
    simp only [List.map_cons, Multi.select, hw, bind, Except.bind]
    split
    · exact ⟨_, rfl⟩
    · exact ih _ (fun q hq => h q (by simp [hq]))

/-- Stopping the particle: the transformation divides by the lab energy 0. -/
theorem lab_stop {E A : ℝ} (hE : 0 < E) (hA : 0 < A) : cmToLab E A (-1) (E / (A + 1) ^ 2) = .error .nonfinite := by
  have hA1 : (0 : ℝ) < A + 1 := by linarith
  unfold cmToLab
  rw [csqrt_ok (by positivity)]
  have e1 : E * (E / (A + 1) ^ 2) = (E / (A + 1)) ^ 2 := by field_simp
  simp only [bind, Except.bind, e1, Real.sqrt_sq (by positivity : (0 : ℝ) ≤ E / (A + 1)), rdiv_ok (pow_pos hA1 2).ne']
  have e2 : E / (A + 1) ^ 2 + (E + 2 * -1 * (A + 1) * (E / (A + 1))) / (A + 1) ^ 2 = 0 := by field_simp; ring
  rw [e2, rdiv_zero]

theorem lab_total {E A mu Eo : ℝ} (hE : 0 < E) (hA : 0 < A) (h1 : -1 ≤ mu) (h2 : mu ≤ 1) (h0 : 0 ≤ Eo) :
    (∃ muL EL, cmToLab E A mu Eo = .ok (muL, EL)) ∨ mu = -1 ∧ Eo = E / (A + 1) ^ 2 := by
  by_cases hs : mu = -1 ∧ Eo = E / (A + 1) ^ 2
  · exact Or.inr hs
  left
  rcases lt_or_eq_of_le h0 with hp | hz
  · exact C44_defined E A mu Eo hE.le (by linarith) hp h1 h2 hs
  · subst hz
    have hA1 : (0 : ℝ) < A + 1 := by linarith
    have hpos : 0 < E / (A + 1) ^ 2 := by positivity
    refine ⟨1 / (A + 1) * Real.sqrt (E / (E / (A + 1) ^ 2)), E / (A + 1) ^ 2, ?_⟩
    unfold cmToLab
    rw [csqrt_ok (by simp)]
    simp only [bind, Except.bind, mul_zero, Real.sqrt_zero, add_zero, zero_add, rdiv_ok hA1.ne', rdiv_ok (pow_pos hA1 2).ne',
      rdiv_ok hpos.ne', zero_div, csqrt_ok (le_refl (0 : ℝ))]
    rw [csqrt_ok (by positivity)]
    simp [pure, Except.pure]

theorem dist_total {fuel : Nat} {E : ℝ} (hE : 0 < E) {ω : Tape} (hω : UnitTape ω) : ∀ (d : NDist), WFDist d → ratioPos d → TotalDist ω E d → ∀ k,
    Emits ((d.toAE fuel).sample E ω k) ∨ Stopped fuel E ω k d ∧ (d.toAE fuel).sample E ω k = .error .nonfinite
  | .absorption _, _, _, ht, _ => by cases ht
  | .one l, hw, _, ht, k => Or.inl (law_total hω hw ht fuel k)
  | .several ls, hw, _, ht, k => by
    left
    show Emits (Multi.sample ⟨ls.map (fun p => p.1.toAE fuel), ls.map Prod.snd⟩ E ω k)
    have hd : ∀ d ∈ ls.map (fun p => p.1.toAE fuel), ∀ k, Emits (d.sample E ω k) := by
      intro d hd k
      obtain ⟨p, hp, rfl⟩ := List.mem_map.mp hd
      exact law_total hω (hw.2 p hp).1 (ht p hp).1 fuel k
    obtain ⟨s, hs⟩ := select_total (xi := ω k) ls fuel 0 (fun p hp => (ht p hp).2)
    unfold Multi.sample
    dsimp only
    rw [hs]
    cases s with
    | some d => exact hd d (select_mem _ _ _ _ _ _ hs) _
    | none =>
      obtain ⟨d, hb⟩ := last_exists (l := ls.map (fun p => p.1.toAE fuel)) (by simpa using List.length_pos_iff.mpr hw.1)
      show Emits (back (ls.map (fun p => p.1.toAE fuel)) >>= _)
      rw [back_eq_ok.mpr hb]
      exact hd d (List.mem_of_getLast? hb) _
  | .cm awr q d, hw, hr, ht, k => by
    have ih := dist_total (fuel := fuel) hE hω d hw hr.2 ht.1 k
    show Emits (CMDist.sample ⟨awr, q, d.toAE fuel⟩ E ω k) ∨ _ ∧ CMDist.sample ⟨awr, q, d.toAE fuel⟩ E ω k = _
    unfold CMDist.sample
    dsimp only
    rcases ih with (⟨mu, e, k', h, a, b⟩ | h) | ⟨hs, h⟩
    · have h0 := dist_nonneg hE hω d hw hr.2 ht.2 h
      rw [h]
      rcases lab_total hE hr.1 a b h0 with ⟨muL, EL, hc⟩ | ⟨rfl, rfl⟩
      · left; left
        refine ⟨muL, EL, k', ?_, lab_cosine hE hr.1 a b hc⟩
        show (cmToLab E awr mu e >>= _) = _
        rw [hc]; rfl
      · right
        refine ⟨Or.inl ⟨k', h⟩, ?_⟩
        show (cmToLab E awr (-1) (E / (awr + 1) ^ 2) >>= _) = _
        rw [lab_stop hE hr.1]; rfl
    · left; right; rw [h]; rfl
    · right; rw [h]; exact ⟨Or.inr hs, rfl⟩

/-- **C143** For every file with a positive weight ratio, every reaction in it, every positive energy, every threshold and every stream of numbers in
`[0, 1)`: if the tables are usable at that energy (`Spec.TotalDist`), sampling returns a cosine in `[-1, 1]` and an energy, or is still rejecting when
the allowed number of trials is over; it never throws and reads nothing outside the tables.  The only exception is a centre-of-mass emission that
leaves the particle at rest in the lab, for which the cosine is 0/0.  Missing for the full claim: that exception and `Spec.TotalDist`, which the
constructors do not check; see the violation. -/
theorem C143_reaction_partial (a : AceBlocks) (ha : 0 < a.awr) (indx fuel : Nat) (r : RxnBase) (h : RxnBase.makeAce a indx fuel = .ok r)
    (threshold E : ℝ) (hE : 0 < E) (ω : Tape) (hω : UnitTape ω) (ht : threshold ≤ E → TotalDist ω E r.dist) (fuel' k : Nat) :
    Emits (r.sample threshold fuel' E ω k) ∨
      Stopped fuel' E ω k r.dist ∧ r.sample threshold fuel' E ω k = .error .nonfinite := by
  unfold RxnBase.sample
  by_cases hh : E < threshold
  · rw [if_pos hh]
    exact Or.inl (Or.inl ⟨0, 0, k, rfl, by norm_num, by norm_num⟩)
  · rw [if_neg hh]
    exact dist_total hE hω r.dist (RxnBase.makeAce_wf h) (makeAce_ratio h ha) (ht (not_lt.mp hh)) k

/-- **C143** The same for every reaction of every nuclide a program can construct. -/
theorem C143_nuclide_partial (fuel : Nat) (f : AceFile) (a : AceIn ℝ) (n : Nuc) (hn : Read fuel f a n) (mt : Nat) (r : STRxn) (hr : n.reaction mt = .ok r)
    (E : ℝ) (hE : 0 < E) (ω : Tape) (hω : UnitTape ω) (ht : r.threshold ≤ E → TotalDist ω E r.base.dist) (fuel' k : Nat) :
    Emits (r.base.sample r.threshold fuel' E ω k) ∨
      Stopped fuel' E ω k r.base.dist ∧ r.base.sample r.threshold fuel' E ω k = .error .nonfinite := by
  obtain ⟨f', i, hp, hb⟩ := hn.base_pos hr
  exact C143_reaction_partial _ hp _ _ _ hb _ E hE ω hω ht fuel' k

/-- **C143** The same for the energies of the delayed neutrons. -/
theorem C143_delayed_partial (f : AceFile) (fuel : Nat) (n : Nuc) (hn : Nuc.makeAce f fuel = .ok n) (F : Family ELaw) (hF : F ∈ n.fission.families)
    (ω : Tape) (hω : UnitTape ω) (E : ℝ) (hd : TotalELaw ω E F.law) (fuel' k : Nat) :
    (∃ e k', F.law.sample fuel' E ω k = .ok (e, k')) ∨ F.law.sample fuel' E ω k = .error .diverge := by
  by_cases hf : f.fissile = true
  · obtain ⟨i, hi⟩ := List.getElem?_of_mem hF
    obtain ⟨_, _, _, _, _, _, h⟩ := (C99_delayed f fuel n hn hf).2 i F hi
    exact elaw_total hω (familyLaw_wf h) hd fuel' k
  · have := ((C99_fission f fuel n hn).2.2.1 (by simpa using hf)).1
    rw [this] at hF; cases hF

/-- The full claim is false of the code: the accepted level reaction of `C136_hypotheses`, sampled below the offset of the level (with a threshold that
allows it), takes the square root of a negative number, for every stream. -/
theorem C143_violation : ∃ (a : AceBlocks) (r : RxnBase), 0 < a.awr ∧ (∀ fuel, RxnBase.makeAce a 0 (fuel + 1) = .ok r) ∧
    ∀ threshold E fuel ω k, 0 < E → threshold ≤ E → E < 3 → UnitTape ω → r.sample threshold fuel E ω k = .error .nonfinite := by
  obtain ⟨r, h1, _, h3⟩ := C136_hypotheses
  refine ⟨exBlocks, r, by norm_num [exBlocks], h1, ?_⟩
  intro th E fuel ω k hE hth h3' hω
  have hle : lowerBound [(1 / 10 ^ 5 : ℝ)] E ≤ 1 := lowerBound_le_length _ _
  have hang : AngleDist.sample ⟨[1 / 10 ^ 5], [.isotropic]⟩ fuel E ω k = .ok (clampMu (2 * ω k - 1), k + 1) := by
    unfold AngleDist.sample AngleDist.find
    dsimp only
    by_cases h0 : lowerBound [(1 / 10 ^ 5 : ℝ)] E = 0
    · rw [if_pos h0]; rfl
    · rw [if_neg h0, if_pos (by simp only [List.length_singleton]; omega)]; rfl
  have hu : Uncorr.sample fuel ⟨⟨[1 / 10 ^ 5], [.isotropic]⟩, .level ⟨3, 1/2⟩⟩ E ω k = .ok (clampMu (2 * ω k - 1), 1 / 2 * (E - 3), k + 1) := by
    unfold Uncorr.sample
    dsimp only
    rw [hang]; rfl
  unfold RxnBase.sample
  rw [if_neg (not_lt.mpr hth), h3]
  show (Uncorr.sample fuel ⟨⟨[1 / 10 ^ 5], [.isotropic]⟩, .level ⟨3, 1/2⟩⟩ E ω k >>= _) = _
  rw [hu]
  show (cmToLab E 10 (clampMu (2 * ω k - 1)) (1 / 2 * (E - 3)) >>= _) = _
  unfold cmToLab
  rw [csqrt_bad (by nlinarith)]
  rfl

/-- A file and an energy that meet the hypotheses: the same reaction from its offset on. -/
example : ∃ r, RxnBase.makeAce exBlocks 0 1 = .ok r ∧ 0 < exBlocks.awr ∧ ∀ E ω, 3 ≤ E → TotalDist ω E r.dist := by
  obtain ⟨r, h1, _, h3⟩ := C136_hypotheses
  refine ⟨r, h1 0, by norm_num [exBlocks], fun E ω hE => ?_⟩
  rw [h3]
  refine ⟨⟨⟨by simp, ?_⟩, trivial⟩, ⟨by norm_num, hE⟩⟩
  intro t ht
  simp at ht

end PNDL
