import Verif.Lemmas.Reject

/-! Building samplers without parameters from one another. -/
namespace PNDL
open MeasureTheory Spec
open scoped ENNReal

variable {α β : Type} [MeasurableSpace α] [MeasurableSpace β]

theorem Closed.of_eq {run run' : Nat → Tape → Nat → Res (α × Nat)} {μ : Measure α} (h : Closed run μ) (he : ∀ fuel ω k, run' fuel ω k = run fuel ω k) :
    Closed run' μ := by
  have : run' = run := funext fun f => funext fun ω => funext fun k => he f ω k
  rwa [this]

/-- One draw. -/
theorem closed_one {g : ℝ → Res α} {h : ℝ → α} (hm : Measurable h) (hg : ∀ x, 0 ≤ x → x ≤ 1 → g x = .ok (h x)) :
    Closed (fun _ ω k => (g (ω k)).map fun x => (x, k + 1)) (Spec.unif.map h) := by
  have hae : ∀ᵐ q ∂(Measure.dirac ()).prod Spec.unif, g q.2 = .ok (h q.2) := by
    have : ∀ᵐ x ∂Spec.unif, g x = .ok (h x) := by
      rw [Spec.unif, ae_restrict_iff' measurableSet_Icc]
      exact Filter.Eventually.of_forall fun x hx => hg x hx.1 hx.2
    exact Measure.quasiMeasurePreserving_snd.ae this
  have := (Draws.one (p := Measure.dirac ()) (g := fun _ => g) (h := fun q => h q.2) (hm.comp measurable_snd) hae).closed
  have he : ((((Measure.dirac ()).prod Spec.unif).map fun q : Unit × ℝ => (q.1, h q.2)).map Prod.snd) = Spec.unif.map h := by
    have hmm : Measurable fun q : Unit × ℝ => (q.1, h q.2) := measurable_fst.prodMk (hm.comp measurable_snd)
    rw [Measure.map_map measurable_snd hmm, Measure.dirac_prod, Measure.map_map (measurable_snd.comp hmm) measurable_prodMk_left]
    rfl
  rwa [he] at this

/-- A sampler followed by another one that depends on its value. -/
theorem closed_bind {run1 : Nat → Tape → Nat → Res (α × Nat)} {μ : Measure α} (h1 : Closed run1 μ)
    {run2 : α → Nat → Tape → Nat → Res (β × Nat)} {ν : Measure (α × β)} (h2 : Draws μ run2 ν) :
    Closed (fun fuel ω k => do let r ← run1 fuel ω k; let s ← run2 r.1 fuel ω r.2; return ((r.1, s.1), s.2)) ν := by
  have := h1.prob
  have := h2.finite
  obtain ⟨hs1, X1, N1, hX1, hN1, hr1, hl1⟩ := h1
  obtain ⟨hs2, X2, N2, hX2, hN2, hr2, hl2⟩ := h2
  let T : Tape → α × Tape := fun ω => (X1 ω, dropT (N1 ω) ω)
  have hT : Measurable T := hl1.measurable
  refine ⟨fun fuel ω k => ?_, fun q => (X1 q, X2 (T q)), fun q => N1 q + N2 (T q), hX1.prodMk (hX2.comp hT), hN1.add (hN2.comp hT), ?_, ?_⟩
  · show _ = Except.map _ (do let r ← run1 fuel (dropT k ω) 0; let s ← run2 r.1 fuel (dropT k ω) r.2; return ((r.1, s.1), s.2))
    rw [hs1 fuel ω k]
    cases run1 fuel (dropT k ω) 0 with
    | error e => rfl
    | ok r =>
      simp only [Except.map, Bind.bind, Except.bind]
      rw [hs2 r.1 fuel ω (k + r.2), hs2 r.1 fuel (dropT k ω) r.2, dropT_dropT]
      cases run2 r.1 fuel (dropT (k + r.2) ω) 0 with
      | error e => rfl
      | ok s => simp only [Except.map, pure, Except.pure, Nat.add_assoc]
  · filter_upwards [hr1, hl1.quasiMeasurePreserving.ae hr2] with q ⟨⟨f0, hf0⟩, hu⟩ ⟨⟨g0, hg0⟩, hv⟩
    have hv' : ∀ fuel y, run2 (X1 q) fuel q (N1 q) = .ok y → y = (X2 (T q), N1 q + N2 (T q)) := by
      intro fuel y hy
      rw [hs2] at hy
      cases hc : run2 (X1 q) fuel (dropT (N1 q) q) 0 with
      | error e => rw [hc] at hy; cases hy
      | ok s =>
        have := hv fuel s hc
        subst this
        rw [hc] at hy
        cases hy
        rfl
    constructor
    · refine ⟨max f0 g0, fun fuel hle => ?_⟩
      have e1 := hf0 fuel ((le_max_left _ _).trans hle)
      have e2 := hg0 fuel ((le_max_right _ _).trans hle)
      dsimp only at e1 e2
      simp only [e1, Bind.bind, Except.bind]
      rw [hs2, e2]
      rfl
    · intro fuel y hy
      cases hc : run1 fuel q 0 with
      | error e => simp only [hc, Bind.bind, Except.bind] at hy; cases hy
      | ok r =>
        have := hu fuel r hc
        subst this
        simp only [hc, Bind.bind, Except.bind] at hy
        cases hd : run2 (X1 q) fuel q (N1 q) with
        | error e => simp only [hd] at hy; cases hy
        | ok s =>
          have := hv' fuel s hd
          subst this
          simp only [hd] at hy
          cases hy
          rfl
  · have hfun : (fun q : Tape => ((X1 q, X2 (T q)), dropT (N1 q + N2 (T q)) q)) =
        (fun q : α × Tape => ((q.1, X2 q), dropT (N2 q) q.2)) ∘ T := by
      funext q
      simp only [Function.comp_apply, T, dropT_dropT]
    rw [hfun]
    exact hl2.comp hl1

/-- Computing with the value. -/
theorem closed_map {run : Nat → Tape → Nat → Res (α × Nat)} {μ : Measure α} (h : Closed run μ) {F : α → Res β} {f : α → β} (hf : Measurable f)
    (hF : ∀ᵐ x ∂μ, F x = .ok (f x)) : Closed (fun fuel ω k => do let r ← run fuel ω k; let y ← F r.1; return (y, r.2)) (μ.map f) := by
  obtain ⟨hs, X, N, hX, hN, hr, hl⟩ := h
  have := Closed.prob ⟨hs, X, N, hX, hN, hr, hl⟩
  refine ⟨fun fuel ω k => ?_, fun q => f (X q), N, hf.comp hX, hN, ?_, ?_⟩
  · show _ = Except.map _ (do let r ← run fuel (dropT k ω) 0; let y ← F r.1; return (y, r.2))
    rw [hs fuel ω k]
    cases run fuel (dropT k ω) 0 with
    | error e => rfl
    | ok r =>
      simp only [Except.map, bind, Except.bind]
      cases F r.1 <;> rfl
  · have h1 : ∀ᵐ q ∂Spec.iid, F (X q) = .ok (f (X q)) := by
      have : Measure.QuasiMeasurePreserving X Spec.iid μ := Measure.quasiMeasurePreserving_fst.comp hl.quasiMeasurePreserving
      exact this.ae hF
    filter_upwards [hr, h1] with q ⟨⟨f0, hf0⟩, hu⟩ hq
    constructor
    · refine ⟨f0, fun fuel hle => ?_⟩
      have := hf0 fuel hle
      dsimp only at this
      simp only [this, bind, Except.bind, hq]
      rfl
    · intro fuel y hy
      cases hc : run fuel q 0 with
      | error e => simp only [hc, bind, Except.bind] at hy; cases hy
      | ok r =>
        have := hu fuel r hc
        subst this
        simp only [hc, bind, Except.bind, hq] at hy
        cases hy
        rfl
  · have hp : MeasurePreserving f μ (μ.map f) := ⟨hf, rfl⟩
    exact (hp.prod (MeasurePreserving.id Spec.iid)).comp hl

/-- Drawing a number and choosing one of two samplers with it. -/
theorem closed_choice {A : Set ℝ} (hA : MeasurableSet A) [∀ c, Decidable (c ∈ A)] {run1 run2 : Nat → Tape → Nat → Res (α × Nat)} {μ1 μ2 : Measure α}
    (h1 : Closed run1 μ1) (h2 : Closed run2 μ2) :
    Closed (fun fuel ω k => if ω k ∈ A then run1 fuel ω (k + 1) else run2 fuel ω (k + 1)) (Spec.unif A • μ1 + Spec.unif Aᶜ • μ2) := by
  have := h1.prob
  have := h2.prob
  have hc : Closed (fun (_ : Nat) (ω : Tape) (k : Nat) => ((Except.ok (ω k) : Res ℝ)).map fun x => (x, k + 1)) (Spec.unif.map id) :=
    closed_one (g := fun x => .ok x) measurable_id fun _ _ _ => rfl
  rw [Measure.map_id] at hc
  have hd := closed_bind hc (Draws.ite hA (h1.lift (Spec.unif.restrict A)) (h2.lift (Spec.unif.restrict Aᶜ)))
  have he := closed_map hd (F := fun p => .ok p.2) measurable_snd (Filter.Eventually.of_forall fun _ => rfl)
  have hmeas : ((Spec.unif.restrict A).prod μ1 + (Spec.unif.restrict Aᶜ).prod μ2).map Prod.snd = Spec.unif A • μ1 + Spec.unif Aᶜ • μ2 := by
    rw [Measure.map_add _ _ measurable_snd, Measure.map_snd_prod, Measure.map_snd_prod]
    simp
  rw [hmeas] at he
  refine he.of_eq fun fuel ω k => ?_
  simp only [Except.map, bind, Except.bind]
  by_cases h : ω k ∈ A
  · simp only [if_pos h]
    cases run1 fuel ω (k + 1) <;> rfl
  · simp only [if_neg h]
    cases run2 fuel ω (k + 1) <;> rfl

theorem unif_Ioi {f : ℝ} (h0 : 0 ≤ f) (h1 : f ≤ 1) : Spec.unif {x | x > f} = ENNReal.ofReal (1 - f) := by
  rw [Spec.unif, Measure.restrict_apply (show MeasurableSet {x : ℝ | x > f} from measurableSet_Ioi)]
  have : {x : ℝ | x > f} ∩ Set.Icc 0 1 = Set.Ioc f 1 := by
    ext x
    simp only [Set.mem_inter_iff, Set.mem_ofPred_eq, Set.mem_Icc, Set.mem_Ioc]
    constructor
    · rintro ⟨a, _, b⟩; exact ⟨a, b⟩
    · rintro ⟨a, b⟩; exact ⟨a, by linarith, b⟩
  rw [this, Real.volume_Ioc]

theorem unif_Iic {f : ℝ} (h0 : 0 ≤ f) (h1 : f ≤ 1) : Spec.unif {x | x > f}ᶜ = ENNReal.ofReal f := by
  rw [prob_compl_eq_one_sub (show MeasurableSet {x : ℝ | x > f} from measurableSet_Ioi), unif_Ioi h0 h1, ← ENNReal.ofReal_one,
    ← ENNReal.ofReal_sub _ (by linarith)]
  congr 1
  ring

open Classical in
/-- `if (rng() > f) first else second`. -/
theorem closed_mix {f : ℝ} (h0 : 0 ≤ f) (h1 : f ≤ 1) {run1 run2 : Nat → Tape → Nat → Res (α × Nat)} {μ1 μ2 : Measure α}
    (c1 : Closed run1 μ1) (c2 : Closed run2 μ2) :
    Closed (fun fuel ω k => if ω k > f then run1 fuel ω (k + 1) else run2 fuel ω (k + 1)) (ENNReal.ofReal (1 - f) • μ1 + ENNReal.ofReal f • μ2) := by
  have := closed_choice (A := {x | x > f}) (show MeasurableSet {x : ℝ | x > f} from measurableSet_Ioi) c1 c2
  rw [unif_Ioi h0 h1, unif_Iic h0 h1] at this
  exact this

/-! ### Densities -/

/-- The distribution with density `p` on `[a, b]`. -/
noncomputable def densityOn (a b : ℝ) (p : ℝ → ℝ) : Measure ℝ := (volume.restrict (Set.Icc a b)).withDensity fun x => ENNReal.ofReal (p x)

theorem densityOn_congr {a b : ℝ} {p q : ℝ → ℝ} (h : ∀ x, a ≤ x → x ≤ b → p x = q x) : densityOn a b p = densityOn a b q := by
  unfold densityOn
  refine withDensity_congr_ae ?_
  filter_upwards [ae_restrict_mem measurableSet_Icc] with x hx
  rw [h x hx.1 hx.2]

theorem densityOn_mix {a b f : ℝ} {p q : ℝ → ℝ} (h0 : 0 ≤ f) (h1 : f ≤ 1) (hp : AEMeasurable p (volume.restrict (Set.Icc a b)))
    (hp0 : ∀ x, a ≤ x → x ≤ b → 0 ≤ p x) (hq0 : ∀ x, a ≤ x → x ≤ b → 0 ≤ q x) :
    densityOn a b (fun x => (1 - f) * p x + f * q x) = ENNReal.ofReal (1 - f) • densityOn a b p + ENNReal.ofReal f • densityOn a b q := by
  refine Measure.ext fun S hS => ?_
  rw [Measure.add_apply, Measure.smul_apply, Measure.smul_apply, smul_eq_mul, smul_eq_mul]
  unfold densityOn
  rw [withDensity_apply _ hS, withDensity_apply _ hS, withDensity_apply _ hS, ← lintegral_const_mul' _ _ ENNReal.ofReal_ne_top,
    ← lintegral_const_mul' _ _ ENNReal.ofReal_ne_top, ← lintegral_add_left']
  · refine lintegral_congr_ae ?_
    filter_upwards [ae_restrict_of_ae (ae_restrict_mem measurableSet_Icc)] with x hx
    rw [← ENNReal.ofReal_mul (by linarith), ← ENNReal.ofReal_mul h0, ← ENNReal.ofReal_add]
    · exact mul_nonneg (by linarith) (hp0 x hx.1 hx.2)
    · exact mul_nonneg h0 (hq0 x hx.1 hx.2)
  · exact (hp.ennreal_ofReal.const_mul _).restrict

/-- Density zero outside a smaller interval. -/
theorem densityOn_extend {a b c d : ℝ} {p : ℝ → ℝ} (hac : c ≤ a) (hbd : b ≤ d) (h : ∀ x, x < a ∨ b < x → p x = 0) : densityOn a b p = densityOn c d p := by
  refine Measure.ext fun S hS => ?_
  unfold densityOn
  rw [withDensity_apply _ hS, withDensity_apply _ hS, Measure.restrict_restrict hS, Measure.restrict_restrict hS]
  rw [← lintegral_indicator (hS.inter measurableSet_Icc), ← lintegral_indicator (hS.inter measurableSet_Icc)]
  refine lintegral_congr fun x => ?_
  by_cases h1 : x ∈ S ∩ Set.Icc a b
  · rw [Set.indicator_of_mem h1, Set.indicator_of_mem (show x ∈ S ∩ Set.Icc c d from ⟨h1.1, hac.trans h1.2.1, h1.2.2.trans hbd⟩)]
  · rw [Set.indicator_of_notMem h1]
    by_cases h2 : x ∈ S ∩ Set.Icc c d
    · rw [Set.indicator_of_mem h2, h x, ENNReal.ofReal_zero]
      by_contra hc
      push Not at hc
      exact h1 ⟨h2.1, hc.1, hc.2⟩
    · rw [Set.indicator_of_notMem h2]

end PNDL
