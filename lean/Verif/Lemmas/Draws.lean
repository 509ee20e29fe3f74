import Verif.Lemmas.Law
import Mathlib.MeasureTheory.Measure.Prod
import Mathlib.Dynamics.Ergodic.MeasurePreserving

/-! Sampling methods built from one another: what one method leaves of the stream is independent of what it returned. -/
namespace PNDL
open MeasureTheory Spec
open scoped ENNReal

/-- With enough fuel the call returns `(x, n)`, and with no fuel does it return anything else. -/
def Returns {α : Type} (r : Nat → Res (α × Nat)) (x : α) (n : Nat) : Prop :=
  (∃ f0, ∀ fuel, f0 ≤ fuel → r fuel = .ok (x, n)) ∧ ∀ fuel y, r fuel = .ok y → y = (x, n)

theorem Returns.const {α : Type} {r : Res (α × Nat)} {x : α} {n : Nat} (h : r = .ok (x, n)) : Returns (fun _ => r) x n :=
  ⟨⟨0, fun _ _ => h⟩, fun _ y hy => by rw [h] at hy; cases hy; rfl⟩

/-- A call at position `k` reads the stream from there on. -/
def Shifts {α : Type} (run : Nat → Tape → Nat → Res (α × Nat)) : Prop :=
  ∀ fuel ω k, run fuel ω k = (run fuel (dropT k ω) 0).map fun r => (r.1, k + r.2)

/-- `run c` draws a value from the stream, for parameters `c` distributed as `p`; parameter and value are jointly distributed as
`ν`, and independent of the rest of the stream. -/
structure Draws {γ α : Type} [MeasurableSpace γ] [MeasurableSpace α] (p : Measure γ) (run : γ → Nat → Tape → Nat → Res (α × Nat))
    (ν : Measure (γ × α)) : Prop where
  shift : ∀ c, Shifts (run c)
  law : ∃ (X : γ × Tape → α) (N : γ × Tape → Nat), Measurable X ∧ Measurable N ∧
    (∀ᵐ q ∂p.prod Spec.iid, Returns (fun fuel => run q.1 fuel q.2 0) (X q) (N q)) ∧
    MeasurePreserving (fun q : γ × Tape => ((q.1, X q), dropT (N q) q.2)) (p.prod Spec.iid) (ν.prod Spec.iid)

/-- Without parameters. -/
structure Closed {α : Type} [MeasurableSpace α] (run : Nat → Tape → Nat → Res (α × Nat)) (μ : Measure α) : Prop where
  shift : Shifts run
  law : ∃ (X : Tape → α) (N : Tape → Nat), Measurable X ∧ Measurable N ∧
    (∀ᵐ ω ∂Spec.iid, Returns (fun fuel => run fuel ω 0) (X ω) (N ω)) ∧
    MeasurePreserving (fun ω : Tape => (X ω, dropT (N ω) ω)) Spec.iid (μ.prod Spec.iid)

theorem measurable_drop2 : Measurable fun p : Nat × Tape => dropT p.1 p.2 := measurable_from_prod_countable_right fun n => measurable_dropT n

theorem measurable_dropN {γ : Type} [MeasurableSpace γ] {N : γ × Tape → Nat} (hN : Measurable N) : Measurable fun q : γ × Tape => dropT (N q) q.2 :=
  measurable_drop2.comp (hN.prodMk measurable_snd)

theorem measurable_dropN' {N : Tape → Nat} (hN : Measurable N) : Measurable fun ω : Tape => dropT (N ω) ω :=
  measurable_drop2.comp (hN.prodMk measurable_id)

theorem mp_drop (k : Nat) : MeasurePreserving (dropT k) Spec.iid Spec.iid := ⟨measurable_dropT k, iid_drop k⟩

/-! ### From draws to samples -/

theorem Closed.samples {α : Type} [MeasurableSpace α] {run : Nat → Tape → Nat → Res (α × Nat)} {μ : Measure α} (h : Closed run μ) (k : Nat) :
    Samples (fun fuel ω => run fuel ω k) μ := by
  obtain ⟨hs, X, N, hX, hN, hr, hl⟩ := h
  intro S hS
  have hae : ∀ᵐ ω ∂Spec.iid, Returns (fun fuel => run fuel (dropT k ω) 0) (X (dropT k ω)) (N (dropT k ω)) :=
    (mp_drop k).quasiMeasurePreserving.ae hr
  have hev : Spec.iid {ω | ∃ fuel x k', run fuel ω k = .ok (x, k') ∧ x ∈ S} = Spec.iid (dropT k ⁻¹' (X ⁻¹' S)) := by
    refine measure_congr ?_
    filter_upwards [hae] with ω ⟨⟨f0, hf⟩, hu⟩
    refine propext ⟨?_, ?_⟩
    · rintro ⟨fuel, x, k', h1, h2⟩
      rw [hs] at h1
      cases hc : run fuel (dropT k ω) 0 with
      | error e => rw [hc] at h1; cases h1
      | ok y =>
        rw [hc] at h1
        have := hu fuel y hc
        subst this
        cases h1
        exact h2
    · intro hx
      refine ⟨f0, X (dropT k ω), k + N (dropT k ω), ?_, hx⟩
      have := hf f0 le_rfl
      dsimp only at this
      rw [hs, this]
      rfl
  refine hev.trans ?_
  rw [(mp_drop k).measure_preimage (hX hS).nullMeasurableSet]
  have : Spec.iid (X ⁻¹' S) = Spec.iid ((fun ω : Tape => (X ω, dropT (N ω) ω)) ⁻¹' (S ×ˢ Set.univ)) := by
    congr 1
    ext ω
    simp
  rw [this, hl.measure_preimage (hS.prod .univ).nullMeasurableSet, Measure.prod_prod, measure_univ, mul_one]

/-- The law of a closed sampler is determined by what it samples. -/
theorem Closed.congr {α : Type} [MeasurableSpace α] {run : Nat → Tape → Nat → Res (α × Nat)} {μ μ' : Measure α} (h : Closed run μ)
    {k : Nat} (hs : Samples (fun fuel ω => run fuel ω k) μ') : Closed run μ' := by
  have : μ = μ' := Measure.ext fun S hS => ((h.samples k) S hS).symm.trans (hs S hS)
  rwa [← this]

theorem Closed.prob {α : Type} [MeasurableSpace α] {run : Nat → Tape → Nat → Res (α × Nat)} {μ : Measure α} (h : Closed run μ) :
    IsProbabilityMeasure μ := by
  obtain ⟨hs, X, N, hX, hN, hr, hl⟩ := h
  constructor
  have h1 := hl.measure_preimage (s := Set.univ ×ˢ Set.univ) (MeasurableSet.univ.prod .univ).nullMeasurableSet
  rw [Measure.prod_prod, measure_univ (μ := Spec.iid), mul_one] at h1
  rw [← h1]
  simp

/-! ### Combinators -/

variable {γ α β : Type} [MeasurableSpace γ] [MeasurableSpace α] [MeasurableSpace β]

theorem Draws.finite {p : Measure γ} [IsFiniteMeasure p] {run : γ → Nat → Tape → Nat → Res (α × Nat)} {ν : Measure (γ × α)} (h : Draws p run ν) :
    IsFiniteMeasure ν := by
  obtain ⟨hs, X, N, hX, hN, hr, hl⟩ := h
  constructor
  have h1 := hl.measure_preimage (s := Set.univ ×ˢ Set.univ) (MeasurableSet.univ.prod .univ).nullMeasurableSet
  rw [Measure.prod_prod, measure_univ (μ := Spec.iid), mul_one] at h1
  rw [← h1]
  exact measure_lt_top _ _

/-- A sampler without parameters, used whatever the parameters. -/
theorem Closed.lift {run : Nat → Tape → Nat → Res (α × Nat)} {μ : Measure α} (h : Closed run μ) (p : Measure γ) [IsFiniteMeasure p] :
    Draws p (fun _ => run) (p.prod μ) := by
  have := h.prob
  obtain ⟨hs, X, N, hX, hN, hr, hl⟩ := h
  refine ⟨fun _ => hs, fun q => X q.2, fun q => N q.2, hX.comp measurable_snd, hN.comp measurable_snd, ?_, ?_⟩
  · exact Measure.quasiMeasurePreserving_snd.ae hr
  · have h1 : MeasurePreserving (fun q : γ × Tape => (q.1, (X q.2, dropT (N q.2) q.2))) (p.prod Spec.iid) (p.prod (μ.prod Spec.iid)) :=
      (MeasurePreserving.id p).prod hl
    exact (measurePreserving_prodAssoc p μ Spec.iid).symm.comp h1

/-- A sampler with parameters in the one point space. -/
theorem Draws.closed {run : Nat → Tape → Nat → Res (α × Nat)} {ν : Measure (Unit × α)} (h : Draws (Measure.dirac ()) (fun _ => run) ν) :
    Closed run (ν.map Prod.snd) := by
  have := h.finite
  obtain ⟨hs, X, N, hX, hN, hr, hl⟩ := h
  have hi : MeasurePreserving (fun ω : Tape => ((), ω)) Spec.iid ((Measure.dirac ()).prod Spec.iid) :=
    ⟨measurable_const.prodMk measurable_id, by rw [Measure.dirac_prod]⟩
  refine ⟨hs (), fun ω => X ((), ω), fun ω => N ((), ω), hX.comp (measurable_const.prodMk measurable_id), hN.comp (measurable_const.prodMk measurable_id),
    hi.quasiMeasurePreserving.ae hr, ?_⟩
  have hp : MeasurePreserving (Prod.snd : Unit × α → α) ν (ν.map Prod.snd) := ⟨measurable_snd, rfl⟩
  exact (hp.prod (MeasurePreserving.id Spec.iid)).comp (hl.comp hi)

/-- One draw. -/
theorem Draws.one {p : Measure γ} [IsFiniteMeasure p] {g : γ → ℝ → Res α} {h : γ × ℝ → α} (hm : Measurable h)
    (hg : ∀ᵐ q ∂p.prod Spec.unif, g q.1 q.2 = .ok (h q)) :
    Draws p (fun c _ ω k => (g c (ω k)).map fun x => (x, k + 1)) ((p.prod Spec.unif).map fun q => (q.1, h q)) := by
  have hc : MeasurePreserving (fun q : ℝ × Tape => consT q.1 q.2) (Spec.unif.prod Spec.iid) Spec.iid := ⟨measurable_consT, iid_cons⟩
  have hmh : MeasurePreserving (fun q : γ × ℝ => (q.1, h q)) (p.prod Spec.unif) ((p.prod Spec.unif).map fun q => (q.1, h q)) :=
    ⟨measurable_fst.prodMk hm, rfl⟩
  have huncons : MeasurePreserving (fun ω : Tape => (ω 0, dropT 1 ω)) Spec.iid (Spec.unif.prod Spec.iid) := by
    have hmu : Measurable fun ω : Tape => (ω 0, dropT 1 ω) := (measurable_pi_apply 0).prodMk (measurable_dropT 1)
    refine ⟨hmu, ?_⟩
    have : Spec.iid.map (fun ω : Tape => (ω 0, dropT 1 ω)) = ((Spec.unif.prod Spec.iid).map fun q : ℝ × Tape => consT q.1 q.2).map fun ω : Tape => (ω 0, dropT 1 ω) := by
      rw [iid_cons]
    rw [this, Measure.map_map hmu measurable_consT]
    have he : (fun ω : Tape => (ω 0, dropT 1 ω)) ∘ (fun q : ℝ × Tape => consT q.1 q.2) = id := by
      funext q
      refine Prod.ext rfl ?_
      show dropT (0 + 1) (consT q.1 q.2) = q.2
      rw [dropT_consT, dropT_zero]
    rw [he, Measure.map_id]
  have hsplit : MeasurePreserving (fun q : γ × Tape => ((q.1, q.2 0), dropT 1 q.2)) (p.prod Spec.iid) ((p.prod Spec.unif).prod Spec.iid) :=
    (measurePreserving_prodAssoc p Spec.unif Spec.iid).symm.comp ((MeasurePreserving.id p).prod huncons)
  refine ⟨fun c fuel ω k => ?_, fun q => h (q.1, q.2 0), fun _ => 1, hm.comp (measurable_fst.prodMk ((measurable_pi_apply 0).comp measurable_snd)), measurable_const, ?_, ?_⟩
  · show (g c (ω k)).map (fun x => (x, k + 1)) = ((g c (dropT k ω 0)).map fun x => (x, 0 + 1)).map fun r => (r.1, k + r.2)
    rw [dropT_apply, Nat.add_zero]
    cases g c (ω k) <;> rfl
  · have hfst : Measure.QuasiMeasurePreserving (fun q : γ × Tape => (q.1, q.2 0)) (p.prod Spec.iid) (p.prod Spec.unif) :=
      Measure.quasiMeasurePreserving_fst.comp hsplit.quasiMeasurePreserving
    filter_upwards [hfst.ae hg] with q hq
    refine Returns.const ?_
    rw [hq]
    rfl
  · exact (hmh.prod (MeasurePreserving.id Spec.iid)).comp hsplit

/-- Computing with the value. -/
theorem Draws.map {p : Measure γ} [IsFiniteMeasure p] {run : γ → Nat → Tape → Nat → Res (α × Nat)} {ν : Measure (γ × α)} (h : Draws p run ν)
    {F : γ → α → Res β} {f : γ × α → β} (hf : Measurable f) (hF : ∀ᵐ q ∂ν, F q.1 q.2 = .ok (f q)) :
    Draws p (fun c fuel ω k => do let r ← run c fuel ω k; let y ← F c r.1; return (y, r.2)) (ν.map fun q => (q.1, f q)) := by
  have := h.finite
  obtain ⟨hs, X, N, hX, hN, hr, hl⟩ := h
  refine ⟨fun c fuel ω k => ?_, fun q => f (q.1, X q), N, hf.comp (measurable_fst.prodMk hX), hN, ?_, ?_⟩
  · show _ = Except.map _ (do let r ← run c fuel (dropT k ω) 0; let y ← F c r.1; return (y, r.2))
    rw [hs c fuel ω k]
    cases run c fuel (dropT k ω) 0 with
    | error e => rfl
    | ok r =>
      simp only [Except.map, bind, Except.bind]
      cases F c r.1 <;> rfl
  · have h1 : ∀ᵐ q ∂p.prod Spec.iid, F q.1 (X q) = .ok (f (q.1, X q)) := by
      have : Measure.QuasiMeasurePreserving (fun q : γ × Tape => (q.1, X q)) (p.prod Spec.iid) ν :=
        Measure.quasiMeasurePreserving_fst.comp hl.quasiMeasurePreserving
      exact this.ae hF
    filter_upwards [hr, h1] with q ⟨⟨f0, hf0⟩, hu⟩ hq
    constructor
    · refine ⟨f0, fun fuel hle => ?_⟩
      have := hf0 fuel hle
      dsimp only at this
      simp only [this, bind, Except.bind, hq]
      rfl
    · intro fuel y hy
      cases hc : run q.1 fuel q.2 0 with
      | error e => simp only [hc, bind, Except.bind] at hy; cases hy
      | ok r =>
        have := hu fuel r hc
        subst this
        simp only [hc, bind, Except.bind, hq] at hy
        cases hy
        rfl
  · have hp : MeasurePreserving (fun q : γ × α => (q.1, f q)) ν (ν.map fun q => (q.1, f q)) := ⟨measurable_fst.prodMk hf, rfl⟩
    exact (hp.prod (MeasurePreserving.id Spec.iid)).comp hl

/-- One sampler after the other. -/
theorem Draws.bind {p : Measure γ} [IsFiniteMeasure p] {run1 : γ → Nat → Tape → Nat → Res (α × Nat)} {ν1 : Measure (γ × α)} (h1 : Draws p run1 ν1)
    {run2 : γ × α → Nat → Tape → Nat → Res (β × Nat)} {ν2 : Measure ((γ × α) × β)} (h2 : Draws ν1 run2 ν2) :
    Draws p (fun c fuel ω k => do let r ← run1 c fuel ω k; let s ← run2 (c, r.1) fuel ω r.2; return ((r.1, s.1), s.2))
      (ν2.map fun q => (q.1.1, (q.1.2, q.2))) := by
  have := h1.finite
  have := h2.finite
  obtain ⟨hs1, X1, N1, hX1, hN1, hr1, hl1⟩ := h1
  obtain ⟨hs2, X2, N2, hX2, hN2, hr2, hl2⟩ := h2
  let T : γ × Tape → (γ × α) × Tape := fun q => ((q.1, X1 q), dropT (N1 q) q.2)
  have hT : Measurable T := hl1.measurable
  refine ⟨fun c fuel ω k => ?_, fun q => (X1 q, X2 (T q)), fun q => N1 q + N2 (T q), hX1.prodMk (hX2.comp hT), hN1.add (hN2.comp hT), ?_, ?_⟩
  · show _ = Except.map _ (do let r ← run1 c fuel (dropT k ω) 0; let s ← run2 (c, r.1) fuel (dropT k ω) r.2; return ((r.1, s.1), s.2))
    rw [hs1 c fuel ω k]
    cases run1 c fuel (dropT k ω) 0 with
    | error e => rfl
    | ok r =>
      simp only [Except.map, Bind.bind, Except.bind]
      rw [hs2 (c, r.1) fuel ω (k + r.2), hs2 (c, r.1) fuel (dropT k ω) r.2, dropT_dropT]
      cases run2 (c, r.1) fuel (dropT (k + r.2) ω) 0 with
      | error e => rfl
      | ok s => simp only [Except.map, pure, Except.pure, Nat.add_assoc]
  · filter_upwards [hr1, hl1.quasiMeasurePreserving.ae hr2] with q ⟨⟨f0, hf0⟩, hu⟩ ⟨⟨g0, hg0⟩, hv⟩
    have hv' : ∀ fuel y, run2 (q.1, X1 q) fuel q.2 (N1 q) = .ok y → y = (X2 (T q), N1 q + N2 (T q)) := by
      intro fuel y hy
      rw [hs2] at hy
      cases hc : run2 (q.1, X1 q) fuel (dropT (N1 q) q.2) 0 with
      | error e => rw [hc] at hy; cases hy
      | ok s =>
        have := hv fuel s hc
        subst this
        rw [hc] at hy
        cases hy
        rfl
    constructor
    · refine ⟨max f0 g0, fun fuel hle => ?_⟩
      have e1 := hf0 fuel ((le_max_left _ _).trans hle)
      have e2 := hg0 fuel ((le_max_right _ _).trans hle)
      dsimp only at e1 e2
      simp only [e1, Bind.bind, Except.bind]
      rw [hs2, e2]
      rfl
    · intro fuel y hy
      cases hc : run1 q.1 fuel q.2 0 with
      | error e => simp only [hc, Bind.bind, Except.bind] at hy; cases hy
      | ok r =>
        have := hu fuel r hc
        subst this
        simp only [hc, Bind.bind, Except.bind] at hy
        cases hd : run2 (q.1, X1 q) fuel q.2 (N1 q) with
        | error e => simp only [hd] at hy; cases hy
        | ok s =>
          have := hv' fuel s hd
          subst this
          simp only [hd] at hy
          cases hy
          rfl
  · have hp : MeasurePreserving (fun q : (γ × α) × β => (q.1.1, (q.1.2, q.2))) ν2 (ν2.map fun q => (q.1.1, (q.1.2, q.2))) := ⟨by fun_prop, rfl⟩
    have hfun : (fun q : γ × Tape => ((q.1, (X1 q, X2 (T q))), dropT (N1 q + N2 (T q)) q.2)) =
        (fun q : ((γ × α) × β) × Tape => ((q.1.1.1, (q.1.1.2, q.1.2)), q.2)) ∘ (fun q : (γ × α) × Tape => ((q.1, X2 q), dropT (N2 q) q.2)) ∘ T := by
      funext q
      simp only [Function.comp_apply, T, dropT_dropT]
    rw [hfun]
    exact (hp.prod (MeasurePreserving.id Spec.iid)).comp (hl2.comp hl1)

/-- A choice that depends on the parameters. -/
theorem Draws.ite {p : Measure γ} [IsFiniteMeasure p] {A : Set γ} (hA : MeasurableSet A) [∀ c, Decidable (c ∈ A)]
    {run1 run2 : γ → Nat → Tape → Nat → Res (α × Nat)} {ν1 ν2 : Measure (γ × α)} (h1 : Draws (p.restrict A) run1 ν1) (h2 : Draws (p.restrict Aᶜ) run2 ν2) :
    Draws p (fun c => if c ∈ A then run1 c else run2 c) (ν1 + ν2) := by
  classical
  have := h1.finite
  have := h2.finite
  obtain ⟨hs1, X1, N1, hX1, hN1, hr1, hl1⟩ := h1
  obtain ⟨hs2, X2, N2, hX2, hN2, hr2, hl2⟩ := h2
  have hAT : MeasurableSet (Prod.fst ⁻¹' A : Set (γ × Tape)) := measurable_fst hA
  have hres : ∀ B : Set γ, (p.restrict B).prod Spec.iid = (p.prod Spec.iid).restrict (B ×ˢ Set.univ) := fun B => by
    conv_lhs => rw [← Measure.restrict_univ (μ := Spec.iid), Measure.prod_restrict]
  rw [hres] at hr1 hr2 hl1 hl2
  have hAc : (Aᶜ ×ˢ Set.univ : Set (γ × Tape)) = (A ×ˢ Set.univ)ᶜ := by ext q; simp
  have hAm : MeasurableSet (A ×ˢ Set.univ : Set (γ × Tape)) := hA.prod .univ
  rw [hAc] at hr2 hl2
  refine ⟨fun c => ?_, fun q => if q.1 ∈ A then X1 q else X2 q, fun q => if q.1 ∈ A then N1 q else N2 q, Measurable.ite hAT hX1 hX2, Measurable.ite hAT hN1 hN2, ?_, ?_⟩
  · by_cases h : c ∈ A
    · simp only [if_pos h]; exact hs1 c
    · simp only [if_neg h]; exact hs2 c
  · rw [ae_restrict_iff' hAm] at hr1
    rw [ae_restrict_iff' hAm.compl] at hr2
    filter_upwards [hr1, hr2] with q a b
    by_cases h : q.1 ∈ A
    · simp only [if_pos h]; exact a ⟨h, trivial⟩
    · simp only [if_neg h]; exact b fun hh => h hh.1
  · have hXm : Measurable (fun q : γ × Tape => if q.1 ∈ A then X1 q else X2 q) := Measurable.ite hAT hX1 hX2
    have hNm : Measurable (fun q : γ × Tape => if q.1 ∈ A then N1 q else N2 q) := Measurable.ite hAT hN1 hN2
    have hm : Measurable fun q : γ × Tape => ((q.1, if q.1 ∈ A then X1 q else X2 q), dropT (if q.1 ∈ A then N1 q else N2 q) q.2) :=
      (measurable_fst.prodMk hXm).prodMk (measurable_dropN hNm)
    refine ⟨hm, ?_⟩
    rw [← Measure.restrict_add_restrict_compl (μ := p.prod Spec.iid) hAm, Measure.map_add _ _ hm, Measure.add_prod] <;> try infer_instance
    congr 1
    · rw [← hl1.map_eq]
      refine Measure.map_congr ?_
      filter_upwards [ae_restrict_mem hAm] with q hq
      simp only [if_pos hq.1]
    · rw [← hl2.map_eq]
      refine Measure.map_congr ?_
      filter_upwards [ae_restrict_mem hAm.compl] with q hq
      have : q.1 ∉ A := fun h => hq ⟨h, trivial⟩
      simp only [if_neg this]

end PNDL
