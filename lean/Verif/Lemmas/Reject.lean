import Verif.Lemmas.Draws

/-! Rejection loops and inverse cumulative distributions, as samplers. -/
namespace PNDL
open MeasureTheory Spec
open scoped ENNReal

variable {α : Type} [MeasurableSpace α]

open Classical in
/-- The first attempt that succeeds. -/
noncomputable def firstTry (n : Nat) (A : Set Tape) (ω : Tape) : Nat := if h : ∃ m, dropT (m * n) ω ∈ A then Nat.find h else 0

theorem firstTry_spec {n : Nat} {A : Set Tape} {ω : Tape} (h : ∃ m, dropT (m * n) ω ∈ A) :
    dropT (firstTry n A ω * n) ω ∈ A ∧ ∀ j < firstTry n A ω, dropT (j * n) ω ∉ A := by
  classical
  unfold firstTry
  rw [dif_pos h]
  exact ⟨Nat.find_spec h, fun j hj => Nat.find_min h hj⟩

theorem firstTry_eq {n : Nat} {A : Set Tape} {ω : Tape} {m : Nat} (hm : dropT (m * n) ω ∈ A) (hj : ∀ j < m, dropT (j * n) ω ∉ A) : firstTry n A ω = m := by
  obtain ⟨h1, h2⟩ := firstTry_spec ⟨m, hm⟩
  rcases lt_trichotomy (firstTry n A ω) m with h | h | h
  · exact absurd h1 (hj _ h)
  · exact h
  · exact absurd hm (h2 m h)

theorem measurable_firstTry {n : Nat} {A : Set Tape} (hA : MeasurableSet A) : Measurable (firstTry n A) := by
  refine measurable_to_countable' fun m => ?_
  have hs : ∀ m : Nat, MeasurableSet {ω : Tape | dropT (m * n) ω ∈ A ∧ ∀ j < m, dropT (j * n) ω ∉ A} := by
    intro m
    have : {ω : Tape | dropT (m * n) ω ∈ A ∧ ∀ j < m, dropT (j * n) ω ∉ A} = dropT (m * n) ⁻¹' A ∩ ⋂ j, ⋂ (_ : j < m), (dropT (j * n) ⁻¹' A)ᶜ := by
      ext ω
      simp only [Set.mem_ofPred_eq, Set.mem_inter_iff, Set.mem_preimage, Set.mem_iInter, Set.mem_compl_iff]
    rw [this]
    exact (measurable_dropT _ hA).inter (.iInter fun j => .iInter fun _ => (measurable_dropT _ hA).compl)
  have h0 : MeasurableSet {ω : Tape | ∀ m, dropT (m * n) ω ∉ A} := by
    have : {ω : Tape | ∀ m, dropT (m * n) ω ∉ A} = ⋂ m, (dropT (m * n) ⁻¹' A)ᶜ := by
      ext ω
      simp only [Set.mem_ofPred_eq, Set.mem_preimage, Set.mem_iInter, Set.mem_compl_iff]
    rw [this]
    exact .iInter fun m => (measurable_dropT _ hA).compl
  by_cases hm : m = 0
  · have : firstTry n A ⁻¹' {m} = {ω : Tape | dropT (m * n) ω ∈ A ∧ ∀ j < m, dropT (j * n) ω ∉ A} ∪ {ω : Tape | ∀ m, dropT (m * n) ω ∉ A} := by
      subst hm
      ext ω
      simp only [Set.mem_preimage, Set.mem_singleton_iff, Set.mem_union, Set.mem_ofPred_eq]
      constructor
      · intro h
        by_cases he : ∃ m, dropT (m * n) ω ∈ A
        · left
          have := firstTry_spec he
          rwa [h] at this
        · right
          push Not at he
          exact he
      · rintro (⟨h1, h2⟩ | h)
        · exact firstTry_eq h1 h2
        · unfold firstTry
          rw [dif_neg]
          push Not
          exact h
    rw [this]
    exact (hs m).union h0
  · have : firstTry n A ⁻¹' {m} = {ω : Tape | dropT (m * n) ω ∈ A ∧ ∀ j < m, dropT (j * n) ω ∉ A} := by
      ext ω
      simp only [Set.mem_preimage, Set.mem_singleton_iff, Set.mem_ofPred_eq]
      constructor
      · intro h
        by_cases he : ∃ m, dropT (m * n) ω ∈ A
        · have := firstTry_spec he
          rwa [h] at this
        · unfold firstTry at h
          rw [dif_neg he] at h
          exact absurd h.symm hm
      · rintro ⟨h1, h2⟩
        exact firstTry_eq h1 h2
    rw [this]
    exact hs m

/-- A rejection loop with attempts of `n` draws: the value, distributed as that of an attempt given that it succeeds, is independent
of the rest of the stream. -/
theorem closed_reject {run : Nat → Tape → Nat → Res (α × Nat)} {n : Nat} {A : Set Tape} {v : Tape → α} (hA : MeasurableSet A)
    (wA : Within n A) (hv : Measurable v) (wv : ∀ ω ω' : Tape, (∀ i < n, ω i = ω' i) → v ω = v ω') (hpos : Spec.iid A ≠ 0)
    (h0 : ∃ e, ∀ ω k, run 0 ω k = .error e) (hacc : ∀ fuel ω k, dropT k ω ∈ A → run (fuel + 1) ω k = .ok (v (dropT k ω), k + n))
    (hrej : ∀ fuel ω k, dropT k ω ∉ A → run (fuel + 1) ω k = run fuel ω (k + n)) :
    Closed run ((Spec.iid A)⁻¹ • (Spec.iid.restrict A).map v) := by
  obtain ⟨e0, h0⟩ := h0
  have wS : ∀ S : Set α, Within n (A ∩ v ⁻¹' S) := fun S ω ω' h hm => ⟨wA ω ω' h hm.1, by
    have : v ω' = v ω := wv ω' ω fun i hi => (h i hi).symm
    show v ω' ∈ S
    rw [this]
    exact hm.2⟩
  -- what the loop does
  have hshift : Shifts run := by
    intro fuel
    induction fuel with
    | zero => intro ω k; rw [h0, h0]; rfl
    | succ fuel ih =>
      intro ω k
      by_cases h : dropT k ω ∈ A
      · rw [hacc fuel ω k h, hacc fuel (dropT k ω) 0 (by rwa [dropT_zero]), dropT_zero]
        simp [Except.map]
      · rw [hrej fuel ω k h, hrej fuel (dropT k ω) 0 (by rwa [dropT_zero]), ih ω (k + n), ih (dropT k ω) (0 + n), dropT_dropT, Nat.zero_add]
        cases run fuel (dropT (k + n) ω) 0 with
        | error e => rfl
        | ok r => simp only [Except.map, Nat.add_assoc]
  have hloop : ∀ m (ω : Tape) (k : Nat), dropT (k + m * n) ω ∈ A → (∀ j < m, dropT (k + j * n) ω ∉ A) →
      (∀ fuel, m + 1 ≤ fuel → run fuel ω k = .ok (v (dropT (k + m * n) ω), k + (m + 1) * n)) ∧ ∀ fuel, fuel ≤ m → run fuel ω k = .error e0 := by
    intro m
    induction m with
    | zero =>
      intro ω k hm _
      rw [Nat.zero_mul, Nat.add_zero] at hm
      refine ⟨fun fuel hf => ?_, fun fuel hf => ?_⟩
      · obtain ⟨f, rfl⟩ : ∃ f, fuel = f + 1 := ⟨fuel - 1, by omega⟩
        rw [hacc f ω k hm]
        simp
      · obtain rfl : fuel = 0 := by omega
        exact h0 ω k
    | succ m ih =>
      intro ω k hm hj
      have hk : dropT k ω ∉ A := by have := hj 0 (by omega); simpa using this
      obtain ⟨i1, i2⟩ := ih ω (k + n) (by rwa [show k + n + m * n = k + (m + 1) * n by ring]) (fun j hjm => by
        rw [show k + n + j * n = k + (j + 1) * n by ring]
        exact hj (j + 1) (by omega))
      refine ⟨fun fuel hf => ?_, fun fuel hf => ?_⟩
      · obtain ⟨f, rfl⟩ : ∃ f, fuel = f + 1 := ⟨fuel - 1, by omega⟩
        rw [hrej f ω k hk, i1 f (by omega), show k + n + m * n = k + (m + 1) * n by ring, show k + n + (m + 1) * n = k + (m + 1 + 1) * n by ring]
      · cases fuel with
        | zero => exact h0 ω k
        | succ f => rw [hrej f ω k hk]; exact i2 f (by omega)
  -- some attempt succeeds
  have hsucc : ∀ᵐ ω ∂Spec.iid, ∃ m, dropT (m * n) ω ∈ A := by
    have := iid_reject n 0 A A hA hA subset_rfl wA hpos
    rw [ENNReal.div_self hpos (measure_ne_top _ _)] at this
    have hmA : MeasurableSet {ω : Tape | ∃ m, dropT (0 + m * n) ω ∈ A ∧ ∀ j < m, dropT (0 + j * n) ω ∉ A} := by
      have : {ω : Tape | ∃ m, dropT (0 + m * n) ω ∈ A ∧ ∀ j < m, dropT (0 + j * n) ω ∉ A} =
          ⋃ m, (dropT (0 + m * n) ⁻¹' A ∩ ⋂ j, ⋂ (_ : j < m), (dropT (0 + j * n) ⁻¹' A)ᶜ) := by
        ext ω
        simp only [Set.mem_ofPred_eq, Set.mem_iUnion, Set.mem_inter_iff, Set.mem_preimage, Set.mem_iInter, Set.mem_compl_iff]
      rw [this]
      exact .iUnion fun m => (measurable_dropT _ hA).inter (.iInter fun j => .iInter fun _ => (measurable_dropT _ hA).compl)
    rw [← measure_univ (μ := Spec.iid)] at this
    have h1 := (ae_eq_of_subset_of_measure_ge (Set.subset_univ _) this.ge hmA.nullMeasurableSet (measure_ne_top _ _))
    filter_upwards [h1] with ω hω
    have : ω ∈ {ω : Tape | ∃ m, dropT (0 + m * n) ω ∈ A ∧ ∀ j < m, dropT (0 + j * n) ω ∉ A} := hω.mpr trivial
    obtain ⟨m, hm, _⟩ := this
    exact ⟨m, by simpa using hm⟩
  have hM := measurable_firstTry (n := n) hA
  have hMn : Measurable fun ω => firstTry n A ω * n := hM.mul measurable_const
  have hMn1 : Measurable fun ω => (firstTry n A ω + 1) * n := (hM.add measurable_const).mul measurable_const
  have hX : Measurable fun ω => v (dropT (firstTry n A ω * n) ω) := hv.comp (measurable_dropN' hMn)
  refine ⟨hshift, fun ω => v (dropT (firstTry n A ω * n) ω), fun ω => (firstTry n A ω + 1) * n, hX, hMn1, ?_, ?_⟩
  · filter_upwards [hsucc] with ω hω
    obtain ⟨s1, s2⟩ := firstTry_spec hω
    obtain ⟨l1, l2⟩ := hloop (firstTry n A ω) ω 0 (by simpa using s1) (fun j hj => by simpa using s2 j hj)
    simp only [Nat.zero_add] at l1 l2
    refine ⟨⟨firstTry n A ω + 1, l1⟩, fun fuel y hy => ?_⟩
    dsimp only at hy
    by_cases hf : firstTry n A ω + 1 ≤ fuel
    · have := l1 fuel hf
      rw [this] at hy
      cases hy
      rfl
    · have := l2 fuel (by omega)
      rw [this] at hy
      cases hy
  · have hm : Measurable fun ω : Tape => (v (dropT (firstTry n A ω * n) ω), dropT ((firstTry n A ω + 1) * n) ω) := hX.prodMk (measurable_dropN' hMn1)
    have hfin : IsFiniteMeasure ((Spec.iid A)⁻¹ • (Spec.iid.restrict A).map v) := by
      refine ⟨?_⟩
      rw [Measure.smul_apply, smul_eq_mul]
      exact ENNReal.mul_lt_top (ENNReal.inv_lt_top.mpr (pos_iff_ne_zero.mpr hpos)) (measure_lt_top _ _)
    refine ⟨hm, (Measure.prod_eq fun S C hS hC => ?_).symm⟩
    have hB : MeasurableSet (A ∩ v ⁻¹' S) := hA.inter (hv hS)
    have hBC : MeasurableSet {ω | ω ∈ A ∩ v ⁻¹' S ∧ dropT n ω ∈ C} := hB.inter (measurable_dropT n hC)
    have hrj := iid_reject n 0 A {ω | ω ∈ A ∩ v ⁻¹' S ∧ dropT n ω ∈ C} hA hBC (fun ω h => h.1.1) wA hpos
    rw [iid_indep C hC n _ hB (wS S)] at hrj
    rw [Measure.map_apply hm (hS.prod hC), Measure.smul_apply, smul_eq_mul, Measure.map_apply hv hS, Measure.restrict_apply (hv hS), Set.inter_comm,
      mul_assoc, ← ENNReal.div_eq_inv_mul, ← hrj]
    refine measure_congr ?_
    filter_upwards [hsucc] with ω hω
    refine propext ?_
    show ((v (dropT (firstTry n A ω * n) ω) ∈ S ∧ dropT ((firstTry n A ω + 1) * n) ω ∈ C) ↔
      ∃ m, (dropT (0 + m * n) ω ∈ A ∩ v ⁻¹' S ∧ dropT n (dropT (0 + m * n) ω) ∈ C) ∧ ∀ j < m, dropT (0 + j * n) ω ∉ A)
    obtain ⟨s1, s2⟩ := firstTry_spec hω
    constructor
    · rintro ⟨a, b⟩
      refine ⟨firstTry n A ω, ⟨⟨by simpa using s1, by simpa using a⟩, ?_⟩, fun j hj => by simpa using s2 j hj⟩
      rw [dropT_dropT, show 0 + firstTry n A ω * n + n = (firstTry n A ω + 1) * n by ring]
      exact b
    · rintro ⟨m, ⟨⟨a1, a2⟩, b⟩, c⟩
      simp only [Nat.zero_add] at a1 a2 b c
      obtain rfl := firstTry_eq a1 c
      refine ⟨a2, ?_⟩
      rw [dropT_dropT, show firstTry n A ω * n + n = (firstTry n A ω + 1) * n by ring] at b
      exact b

/-- The inverse of a cumulative distribution at a uniform number has its density. -/
theorem unif_inverse {f G : ℝ → ℝ} {a b : ℝ} (hab : a ≤ b) (hf : Measurable f) (hG0 : ∀ x, 0 ≤ G x) (hGi : IntervalIntegrable G volume a b)
    (hG1 : ∫ s in a..b, G s = 1)
    (hinv : ∀ x, 0 ≤ x → x ≤ 1 → a ≤ f x ∧ f x ≤ b ∧ ∫ s in a..f x, G s = x) :
    Spec.unif.map f = (volume.restrict (Set.Icc a b)).withDensity fun x => ENNReal.ofReal (G x) := by
  have hint : ∀ x, a ≤ x → x ≤ b → ∫⁻ s in Set.Icc a x, ENNReal.ofReal (G s) = ENNReal.ofReal (∫ s in a..x, G s) := by
    intro x hax hxb
    have hi : IntervalIntegrable G volume a x := hGi.mono_set (by rw [Set.uIcc_of_le hax, Set.uIcc_of_le hab]; exact Set.Icc_subset_Icc le_rfl hxb)
    rw [intervalIntegral.integral_of_le hax, ← ofReal_integral_eq_lintegral_ofReal, integral_Icc_eq_integral_Ioc]
    · exact (intervalIntegrable_iff_integrableOn_Icc_of_le hax).mp hi
    · exact Filter.Eventually.of_forall fun s => hG0 s
  have hmono : ∀ x y, a ≤ x → x ≤ y → y ≤ b → ∫ s in a..x, G s ≤ ∫ s in a..y, G s := by
    intro x y hx hxy hy
    have h1 : IntervalIntegrable G volume a x := hGi.mono_set (by rw [Set.uIcc_of_le hx, Set.uIcc_of_le hab]; exact Set.Icc_subset_Icc le_rfl (hxy.trans hy))
    have h2 : IntervalIntegrable G volume x y := hGi.mono_set (by rw [Set.uIcc_of_le hxy, Set.uIcc_of_le hab]; exact Set.Icc_subset_Icc hx hy)
    rw [← intervalIntegral.integral_add_adjacent_intervals h1 h2]
    have := intervalIntegral.integral_nonneg (f := G) (μ := volume) hxy fun u _ => hG0 u
    linarith
  have hfin : IsFiniteMeasure ((volume.restrict (Set.Icc a b)).withDensity fun x => ENNReal.ofReal (G x)) := by
    refine ⟨?_⟩
    rw [withDensity_apply _ .univ, Measure.restrict_univ, hint b hab le_rfl]
    exact ENNReal.ofReal_lt_top
  have : IsProbabilityMeasure (Spec.unif.map f) := Measure.isProbabilityMeasure_map hf.aemeasurable
  refine Measure.ext_of_Iic _ _ fun x => ?_
  rw [Measure.map_apply hf measurableSet_Iic, withDensity_apply _ measurableSet_Iic, Measure.restrict_restrict measurableSet_Iic, Spec.unif,
    Measure.restrict_apply (hf measurableSet_Iic)]
  by_cases hx : a ≤ x
  · have key : ∀ y, a ≤ y → y ≤ b → (∀ t, 0 ≤ t → t ≤ 1 → (f t ≤ x ↔ f t ≤ y)) → volume (f ⁻¹' Set.Iic x ∩ Set.Icc 0 1) = ENNReal.ofReal (∫ s in a..y, G s) := by
      intro y hay hyb hxy
      have hF1 : ∫ s in a..y, G s ≤ 1 := hG1 ▸ hmono y b hay hyb le_rfl
      have hF0 : 0 ≤ ∫ s in a..y, G s := intervalIntegral.integral_nonneg hay fun u _ => hG0 u
      refine le_antisymm ?_ ?_
      · refine (measure_mono (t := Set.Icc 0 (∫ s in a..y, G s)) ?_).trans ?_
        · rintro t ⟨h1, h2, h3⟩
          obtain ⟨p, q, r⟩ := hinv t h2 h3
          have h1' : f t ≤ y := (hxy t h2 h3).mp h1
          refine ⟨h2, ?_⟩
          have := hmono (f t) y p h1' hyb
          linarith
        · rw [Real.volume_Icc, sub_zero]
      · refine le_trans ?_ (measure_mono (s := Set.Ico 0 (∫ s in a..y, G s)) ?_)
        · rw [Real.volume_Ico, sub_zero]
        · rintro t ⟨h1, h2⟩
          have h3 : t ≤ 1 := h2.le.trans hF1
          obtain ⟨p, q, r⟩ := hinv t h1 h3
          refine ⟨(hxy t h1 h3).mpr ?_, h1, h3⟩
          by_contra hc
          rw [not_le] at hc
          have := hmono y (f t) hay hc.le q
          linarith
    have hIic : Set.Iic x ∩ Set.Icc a b = Set.Icc a (min x b) := by
      ext t
      simp only [Set.mem_inter_iff, Set.mem_Iic, Set.mem_Icc, le_min_iff]
      tauto
    rw [hIic, hint _ (le_min hx hab) (min_le_right _ _), key (min x b) (le_min hx hab) (min_le_right _ _)]
    intro t h0 h1
    rw [le_min_iff]
    exact ⟨fun h => ⟨h, (hinv t h0 h1).2.1⟩, fun h => h.1⟩
  · rw [not_le] at hx
    have e1 : f ⁻¹' Set.Iic x ∩ Set.Icc 0 1 = ∅ := by
      rw [Set.eq_empty_iff_forall_notMem]
      rintro t ⟨h1, h2, h3⟩
      have := (hinv t h2 h3).1
      have h1' : f t ≤ x := h1
      linarith
    have e2 : Set.Iic x ∩ Set.Icc a b = ∅ := by
      rw [Set.eq_empty_iff_forall_notMem]
      rintro t ⟨h1, h2, h3⟩
      have h1' : t ≤ x := h1
      linarith
    rw [e1, e2]
    simp

end PNDL
