import Verif.Spec.Law

/-! Independent uniform streams, draw by draw, and rejection sampling. -/
namespace PNDL
open MeasureTheory Spec
open scoped ENNReal

instance : IsProbabilityMeasure Spec.unif := ⟨by rw [unif]; simp⟩

instance : IsProbabilityMeasure Spec.iid := by unfold iid; infer_instance

/-- The tape with `x` put in front. -/
def consT (x : ℝ) (ω : Tape) : Tape := fun n => Nat.casesOn n x ω

@[simp] theorem consT_zero (x : ℝ) (ω : Tape) : consT x ω 0 = x := rfl
@[simp] theorem consT_succ (x : ℝ) (ω : Tape) (n : Nat) : consT x ω (n + 1) = ω n := rfl

/-- The tape without its first `k` entries. -/
def dropT (k : Nat) (ω : Tape) : Tape := fun n => ω (k + n)

@[simp] theorem dropT_apply (k : Nat) (ω : Tape) (n : Nat) : dropT k ω n = ω (k + n) := rfl
@[simp] theorem dropT_zero (ω : Tape) : dropT 0 ω = ω := by funext n; simp
theorem dropT_dropT (j k : Nat) (ω : Tape) : dropT j (dropT k ω) = dropT (k + j) ω := by
  funext n; simp [Nat.add_assoc]
@[simp] theorem dropT_consT (k : Nat) (x : ℝ) (ω : Tape) : dropT (k + 1) (consT x ω) = dropT k ω := by
  funext n; rw [dropT_apply, dropT_apply, show k + 1 + n = (k + n) + 1 by omega, consT_succ]

theorem measurable_consT : Measurable fun p : ℝ × Tape => consT p.1 p.2 := by
  refine measurable_pi_iff.mpr fun n => ?_
  cases n with
  | zero => exact measurable_fst
  | succ n => exact (measurable_pi_apply n).comp measurable_snd

theorem measurable_dropT (k : Nat) : Measurable (dropT k) :=
  measurable_pi_iff.mpr fun n => measurable_pi_apply (k + n)

/-- A stream is one draw followed by a stream. -/
theorem iid_cons : (Spec.unif.prod Spec.iid).map (fun p : ℝ × Tape => consT p.1 p.2) = Spec.iid := by
  classical
  refine Measure.eq_infinitePi _ fun s t ht => ?_
  obtain ⟨N, hN⟩ : ∃ N, ∀ i ∈ s, i < N + 1 := ⟨s.sup id, fun i hi => Nat.lt_succ_of_le (Finset.le_sup (f := id) hi)⟩
  let t' : Nat → Set ℝ := fun i => if i ∈ s then t i else Set.univ
  have ht' : ∀ i, MeasurableSet (t' i) := fun i => by
    by_cases h : i ∈ s
    · simp only [t', if_pos h]; exact ht i
    · simp only [t', if_neg h]; exact .univ
  have hpi : Set.pi (s : Set Nat) t = Set.pi (Finset.range (N + 1) : Set Nat) t' := by
    ext x
    simp only [Set.mem_pi, Finset.mem_coe, Finset.mem_range]
    constructor
    · intro h i _
      by_cases hi : i ∈ s
      · simp only [t', if_pos hi]; exact h i hi
      · simp only [t', if_neg hi]; trivial
    · intro h i hi
      have := h i (hN i hi)
      simpa only [t', if_pos hi] using this
  have hprod : ∏ i ∈ s, Spec.unif (t i) = ∏ i ∈ Finset.range (N + 1), Spec.unif (t' i) := by
    rw [← Finset.prod_subset (s₁ := s) (fun i hi => Finset.mem_range.mpr (hN i hi))]
    · exact Finset.prod_congr rfl fun i hi => by simp only [t', if_pos hi]
    · intro i _ hi
      simp only [t', if_neg hi, measure_univ]
  rw [hpi, hprod, Measure.map_apply measurable_consT (MeasurableSet.pi (Set.to_countable _) fun i _ => ht' i)]
  have hpre : (fun p : ℝ × Tape => consT p.1 p.2) ⁻¹' Set.pi (Finset.range (N + 1) : Set Nat) t' =
      t' 0 ×ˢ Set.pi (Finset.range N : Set Nat) fun i => t' (i + 1) := by
    ext ⟨x, ω⟩
    simp only [Set.mem_preimage, Set.mem_pi, Finset.mem_coe, Finset.mem_range, Set.mem_prod]
    constructor
    · exact fun h => ⟨h 0 (by omega), fun i hi => h (i + 1) (by omega)⟩
    · rintro ⟨h0, h1⟩ i hi
      cases i with
      | zero => exact h0
      | succ i => exact h1 i (by omega)
  rw [hpre, Measure.prod_prod, iid, Measure.infinitePi_pi _ (fun i _ => ht' (i + 1)), Finset.prod_range_succ', mul_comm]

/-- Integrating over a stream: first over the first draw, then over the rest. -/
theorem lintegral_cons {f : Tape → ℝ≥0∞} (hf : Measurable f) : ∫⁻ ω, f ω ∂Spec.iid = ∫⁻ x, ∫⁻ ω, f (consT x ω) ∂Spec.iid ∂Spec.unif := by
  conv_lhs => rw [← iid_cons]
  rw [lintegral_map hf measurable_consT]
  exact lintegral_prod _ (hf.comp measurable_consT).aemeasurable

/-- Dropping draws leaves a stream of independent uniform numbers. -/
theorem iid_drop (k : Nat) : Spec.iid.map (dropT k) = Spec.iid := by
  induction k with
  | zero => have : dropT 0 = id := by funext ω; simp
            rw [this, Measure.map_id]
  | succ k ih =>
    refine Measure.ext fun S hS => ?_
    rw [Measure.map_apply (measurable_dropT _) hS, ← lintegral_indicator_one (measurable_dropT _ hS),
      lintegral_cons (measurable_one.indicator (measurable_dropT _ hS))]
    have : ∀ x ω, Set.indicator (dropT (k + 1) ⁻¹' S) (1 : Tape → ℝ≥0∞) (consT x ω) = Set.indicator (dropT k ⁻¹' S) 1 ω := by
      intro x ω
      have : (consT x ω ∈ dropT (k + 1) ⁻¹' S) = (ω ∈ dropT k ⁻¹' S) := by
        show (dropT (k + 1) (consT x ω) ∈ S) = (dropT k ω ∈ S)
        rw [dropT_consT]
      by_cases h : ω ∈ dropT k ⁻¹' S
      · rw [Set.indicator_of_mem h, Set.indicator_of_mem (this ▸ h)]; rfl
      · rw [Set.indicator_of_notMem h, Set.indicator_of_notMem (this ▸ h)]
    simp only [this, lintegral_indicator_one (measurable_dropT _ hS), lintegral_const, measure_univ, mul_one]
    rw [← Measure.map_apply (measurable_dropT _) hS, ih]

/-- The probability of an event, draw by draw. -/
theorem iid_cons_apply {S : Set Tape} (hS : MeasurableSet S) : Spec.iid S = ∫⁻ x, Spec.iid {ω | consT x ω ∈ S} ∂Spec.unif := by
  rw [← lintegral_indicator_one hS, lintegral_cons (measurable_one.indicator hS)]
  refine lintegral_congr fun x => ?_
  have hm : MeasurableSet {ω | consT x ω ∈ S} := measurable_consT.comp (measurable_const.prodMk measurable_id) hS
  rw [← lintegral_indicator_one hm]
  rfl

/-- The event depends on the first `n` draws only. -/
def Within (n : Nat) (A : Set Tape) : Prop := ∀ ω ω' : Tape, (∀ i < n, ω i = ω' i) → ω ∈ A → ω' ∈ A

/-- Events on the first `n` draws are independent of what follows. -/
theorem iid_indep (C : Set Tape) (hC : MeasurableSet C) : ∀ (n : Nat) (A : Set Tape), MeasurableSet A → Within n A →
    Spec.iid {ω | ω ∈ A ∧ dropT n ω ∈ C} = Spec.iid A * Spec.iid C := by
  intro n
  induction n with
  | zero =>
    intro A hA h
    by_cases hne : A.Nonempty
    · obtain ⟨a, ha⟩ := hne
      have : A = Set.univ := Set.eq_univ_of_forall fun ω => h a ω (fun i hi => absurd hi (by omega)) ha
      subst this
      simp
    · rw [Set.not_nonempty_iff_eq_empty.mp hne]; simp
  | succ n ih =>
    intro A hA h
    have hx : ∀ x, MeasurableSet {ω | consT x ω ∈ A} := fun x => measurable_consT.comp (measurable_const.prodMk measurable_id) hA
    have hAC : MeasurableSet {ω | ω ∈ A ∧ dropT (n + 1) ω ∈ C} := hA.inter (measurable_dropT _ hC)
    rw [iid_cons_apply hAC, iid_cons_apply hA, ← lintegral_mul_const']
    · refine lintegral_congr fun x => ?_
      rw [← ih _ (hx x)]
      · congr 1
        ext ω
        simp
      · intro ω ω' hω ha
        refine h _ _ (fun i hi => ?_) ha
        cases i with
        | zero => rfl
        | succ i => exact hω i (by omega)
    · exact measure_ne_top _ _

/-- Rejection: attempts of `n` draws each, starting at position `k`, until one is in `A`.  The probability that the first
such attempt is in `B` is the conditional probability of `B` given `A`. -/
theorem iid_reject (n k : Nat) (A B : Set Tape) (hA : MeasurableSet A) (hB : MeasurableSet B) (hBA : B ⊆ A) (wA : Within n A)
    (hpos : Spec.iid A ≠ 0) :
    Spec.iid {ω | ∃ m, dropT (k + m * n) ω ∈ B ∧ ∀ j < m, dropT (k + j * n) ω ∉ A} = Spec.iid B / Spec.iid A := by
  let R : Set Tape := {ω | ∃ m, dropT (m * n) ω ∈ B ∧ ∀ j < m, dropT (j * n) ω ∉ A}
  have hR : MeasurableSet R := by
    have : R = ⋃ m, (dropT (m * n) ⁻¹' B ∩ ⋂ j, ⋂ (_ : j < m), (dropT (j * n) ⁻¹' A)ᶜ) := by
      ext ω
      simp only [R, Set.mem_ofPred_eq, Set.mem_iUnion, Set.mem_inter_iff, Set.mem_preimage, Set.mem_iInter, Set.mem_compl_iff]
    rw [this]
    exact .iUnion fun m => (measurable_dropT _ hB).inter (.iInter fun j => .iInter fun _ => (measurable_dropT _ hA).compl)
  have h0 : Spec.iid {ω | ∃ m, dropT (k + m * n) ω ∈ B ∧ ∀ j < m, dropT (k + j * n) ω ∉ A} = Spec.iid R := by
    conv_rhs => rw [← iid_drop k, Measure.map_apply (measurable_dropT _) hR]
    congr 1
    ext ω
    simp only [R, Set.mem_ofPred_eq, Set.mem_preimage, dropT_dropT]
  have hsplit : R = B ∪ {ω | ω ∈ Aᶜ ∧ dropT n ω ∈ R} := by
    ext ω
    simp only [R, Set.mem_ofPred_eq, Set.mem_union, Set.mem_compl_iff, dropT_dropT]
    constructor
    · rintro ⟨m, hm, hj⟩
      cases m with
      | zero => left; simpa using hm
      | succ m =>
        right
        refine ⟨by simpa using hj 0 (by omega), m, ?_, fun j hjm => ?_⟩
        · rwa [show n + m * n = (m + 1) * n by ring]
        · rw [show n + j * n = (j + 1) * n by ring]; exact hj (j + 1) (by omega)
    · rintro (hb | ⟨ha, m, hm, hj⟩)
      · exact ⟨0, by simpa using hb, fun j hj => absurd hj (by omega)⟩
      · refine ⟨m + 1, by rwa [show (m + 1) * n = n + m * n by ring], fun j hjm => ?_⟩
        cases j with
        | zero => simpa using ha
        | succ j => rw [show (j + 1) * n = n + j * n by ring]; exact hj j (by omega)
  have hdisj : Disjoint B {ω | ω ∈ Aᶜ ∧ dropT n ω ∈ R} := Set.disjoint_left.mpr fun ω hb h => h.1 (hBA hb)
  have hmeas : Spec.iid R = Spec.iid B + (1 - Spec.iid A) * Spec.iid R := by
    conv_lhs => rw [hsplit]
    rw [measure_union hdisj (hA.compl.inter (measurable_dropT _ hR)), iid_indep R hR n Aᶜ hA.compl, prob_compl_eq_one_sub hA]
    intro ω ω' h ha ha'
    exact ha (wA _ _ (fun i hi => (h i hi).symm) ha')
  rw [h0, ENNReal.eq_div_iff hpos (measure_ne_top _ _)]
  have hR1 : Spec.iid R ≠ ∞ := measure_ne_top _ _
  have h1 : Spec.iid A * Spec.iid R + (1 - Spec.iid A) * Spec.iid R = Spec.iid R := by
    rw [← add_mul, add_tsub_cancel_of_le prob_le_one, one_mul]
  have h2 : Spec.iid A * Spec.iid R + (1 - Spec.iid A) * Spec.iid R = Spec.iid B + (1 - Spec.iid A) * Spec.iid R := h1.trans hmeas
  exact (ENNReal.add_left_inj (ENNReal.mul_ne_top (by simp) hR1)).mp h2

/-! ### A few draws at a time -/

theorem draw1 {F : ℝ → ℝ≥0∞} (hF : Measurable F) : ∫⁻ ω, F (ω 0) ∂Spec.iid = ∫⁻ x, F x ∂Spec.unif := by
  refine (lintegral_cons (f := fun ω => F (ω 0)) (hF.comp (measurable_pi_apply 0))).trans ?_
  simp

theorem draw2 {F : ℝ × ℝ → ℝ≥0∞} (hF : Measurable F) : ∫⁻ ω, F (ω 0, ω 1) ∂Spec.iid = ∫⁻ x, ∫⁻ y, F (x, y) ∂Spec.unif ∂Spec.unif := by
  refine (lintegral_cons (f := fun ω => F (ω 0, ω 1)) (hF.comp ((measurable_pi_apply 0).prodMk (measurable_pi_apply 1)))).trans ?_
  exact lintegral_congr fun x => draw1 (F := fun y => F (x, y)) (hF.comp (measurable_const.prodMk measurable_id))

theorem draw3 {F : ℝ × ℝ × ℝ → ℝ≥0∞} (hF : Measurable F) :
    ∫⁻ ω, F (ω 0, ω 1, ω 2) ∂Spec.iid = ∫⁻ x, ∫⁻ y, ∫⁻ z, F (x, y, z) ∂Spec.unif ∂Spec.unif ∂Spec.unif := by
  refine (lintegral_cons (f := fun ω => F (ω 0, ω 1, ω 2)) (hF.comp ((measurable_pi_apply 0).prodMk ((measurable_pi_apply 1).prodMk (measurable_pi_apply 2))))).trans ?_
  exact lintegral_congr fun x => draw2 (F := fun y => F (x, y)) (hF.comp (measurable_const.prodMk measurable_id))

theorem draw4 {F : ℝ × ℝ × ℝ × ℝ → ℝ≥0∞} (hF : Measurable F) :
    ∫⁻ ω, F (ω 0, ω 1, ω 2, ω 3) ∂Spec.iid = ∫⁻ x, ∫⁻ y, ∫⁻ z, ∫⁻ v, F (x, y, z, v) ∂Spec.unif ∂Spec.unif ∂Spec.unif ∂Spec.unif := by
  refine (lintegral_cons (f := fun ω => F (ω 0, ω 1, ω 2, ω 3)) (hF.comp ((measurable_pi_apply 0).prodMk ((measurable_pi_apply 1).prodMk
    ((measurable_pi_apply 2).prodMk (measurable_pi_apply 3)))))).trans ?_
  exact lintegral_congr fun x => draw3 (F := fun y => F (x, y)) (hF.comp (measurable_const.prodMk measurable_id))

end PNDL
