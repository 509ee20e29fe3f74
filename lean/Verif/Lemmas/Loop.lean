import Verif.Lemmas.Compose

/-! Rejection loops whose attempts read a variable number of draws. -/
namespace PNDL
open MeasureTheory Spec
open scoped ENNReal

variable {α β : Type} [MeasurableSpace α] [MeasurableSpace β]

open Classical in
/-- The first index whose set contains the stream. -/
noncomputable def firstIn (B : Nat → Set Tape) (ω : Tape) : Nat := if h : ∃ m, ω ∈ B m then Nat.find h else 0

theorem firstIn_spec {B : Nat → Set Tape} {ω : Tape} (h : ∃ m, ω ∈ B m) : ω ∈ B (firstIn B ω) ∧ ∀ j < firstIn B ω, ω ∉ B j := by
  classical
  unfold firstIn
  rw [dif_pos h]
  exact ⟨Nat.find_spec h, fun j hj => Nat.find_min h hj⟩

theorem firstIn_eq {B : Nat → Set Tape} {ω : Tape} {m : Nat} (hm : ω ∈ B m) (hj : ∀ j < m, ω ∉ B j) : firstIn B ω = m := by
  obtain ⟨h1, h2⟩ := firstIn_spec ⟨m, hm⟩
  rcases lt_trichotomy (firstIn B ω) m with h | h | h
  · exact absurd h1 (hj _ h)
  · exact h
  · exact absurd hm (h2 m h)

theorem measurable_firstIn {B : Nat → Set Tape} (hB : ∀ m, MeasurableSet (B m)) : Measurable (firstIn B) := by
  refine measurable_to_countable' fun m => ?_
  have hs : MeasurableSet (B m ∩ ⋂ j, ⋂ (_ : j < m), (B j)ᶜ) := (hB m).inter (.iInter fun j => .iInter fun _ => (hB j).compl)
  have h0 : MeasurableSet (⋂ j, (B j)ᶜ) := .iInter fun j => (hB j).compl
  have hnone : ∀ ω, (∀ j, ω ∉ B j) → firstIn B ω = 0 := fun ω h => by
    unfold firstIn
    rw [dif_neg]
    push Not
    exact h
  by_cases hm : m = 0
  · have : firstIn B ⁻¹' {m} = (B m ∩ ⋂ j, ⋂ (_ : j < m), (B j)ᶜ) ∪ ⋂ j, (B j)ᶜ := by
      ext ω
      simp only [Set.mem_preimage, Set.mem_singleton_iff, Set.mem_union, Set.mem_inter_iff, Set.mem_iInter, Set.mem_compl_iff]
      constructor
      · intro h
        by_cases he : ∃ m, ω ∈ B m
        · left
          have := firstIn_spec he
          rwa [h] at this
        · right
          push Not at he
          exact he
      · rintro (⟨h1, h2⟩ | h)
        · exact firstIn_eq h1 h2
        · rw [hnone ω h, hm]
    rw [this]
    exact hs.union h0
  · have : firstIn B ⁻¹' {m} = B m ∩ ⋂ j, ⋂ (_ : j < m), (B j)ᶜ := by
      ext ω
      simp only [Set.mem_preimage, Set.mem_singleton_iff, Set.mem_inter_iff, Set.mem_iInter, Set.mem_compl_iff]
      constructor
      · intro h
        by_cases he : ∃ m, ω ∈ B m
        · have := firstIn_spec he
          rwa [h] at this
        · push Not at he
          exact absurd ((hnone ω he).symm.trans h).symm hm
      · rintro ⟨h1, h2⟩
        exact firstIn_eq h1 h2
    rw [this]
    exact hs

/-- The streams whose first `m` attempts fail and whose next one is in `W`. -/
def failThen (T : Tape → α × Tape) (A : Set α) (W : Set (α × Tape)) : Nat → Set Tape
  | 0 => T ⁻¹' W
  | m + 1 => T ⁻¹' (Aᶜ ×ˢ failThen T A W m)

theorem mem_failThen {X : Tape → α} {S : Tape → Tape} {A : Set α} {W : Set (α × Tape)} : ∀ (m : Nat) (ω : Tape),
    ω ∈ failThen (fun ω => (X ω, S ω)) A W m ↔ (∀ j < m, X (S^[j] ω) ∉ A) ∧ (X (S^[m] ω), S (S^[m] ω)) ∈ W := by
  intro m
  induction m with
  | zero => intro ω; simp [failThen]
  | succ m ih =>
    intro ω
    show (X ω ∉ A ∧ S ω ∈ failThen (fun ω => (X ω, S ω)) A W m) ↔ _
    rw [ih, Function.iterate_succ_apply]
    constructor
    · rintro ⟨a, b, c⟩
      refine ⟨fun j hj => ?_, c⟩
      cases j with
      | zero => exact a
      | succ j => rw [Function.iterate_succ_apply]; exact b j (by omega)
    · rintro ⟨a, c⟩
      exact ⟨a 0 (by omega), fun j hj => by have := a (j + 1) (by omega); rwa [Function.iterate_succ_apply] at this, c⟩

theorem measurable_failThen {T : Tape → α × Tape} (hT : Measurable T) {A : Set α} (hA : MeasurableSet A) {W : Set (α × Tape)} (hW : MeasurableSet W) :
    ∀ m, MeasurableSet (failThen T A W m)
  | 0 => hT hW
  | m + 1 => hT (hA.compl.prod (measurable_failThen hT hA hW m))

theorem iid_failThen {T : Tape → α × Tape} {μ : Measure α} [IsProbabilityMeasure μ] (hT : MeasurePreserving T Spec.iid (μ.prod Spec.iid)) {A : Set α}
    (hA : MeasurableSet A) {W : Set (α × Tape)} (hW : MeasurableSet W) : ∀ m, Spec.iid (failThen T A W m) = μ Aᶜ ^ m * μ.prod Spec.iid W := by
  intro m
  induction m with
  | zero => rw [failThen, hT.measure_preimage hW.nullMeasurableSet, pow_zero, one_mul]
  | succ m ih =>
    rw [failThen, hT.measure_preimage (hA.compl.prod (measurable_failThen hT.measurable hA hW m)).nullMeasurableSet, Measure.prod_prod, ih, pow_succ, ← mul_assoc,
      mul_comm (μ Aᶜ)]

/-- The number of draws the first `m + 1` attempts read. -/
def readBy (N : Tape → Nat) (S : Tape → Tape) : Nat → Tape → Nat
  | 0, ω => N ω
  | m + 1, ω => N ω + readBy N S m (S ω)

theorem drop_readBy (N : Tape → Nat) : ∀ (m : Nat) (ω : Tape), dropT (readBy N (fun ω => dropT (N ω) ω) m ω) ω =
    (fun ω => dropT (N ω) ω) ((fun ω => dropT (N ω) ω)^[m] ω) := by
  intro m
  induction m with
  | zero => intro ω; rfl
  | succ m ih =>
    intro ω
    rw [readBy, ← dropT_dropT, Function.iterate_succ_apply]
    exact ih _

/-- A rejection loop: attempts, distributed as `μ`, are made until one is in `A`; the result, a function of the accepted attempt, is distributed as
`μ` given `A` and independent of the rest of the stream. -/
theorem closed_loop {att : Nat → Tape → Nat → Res (α × Nat)} {μ : Measure α} (h : Closed att μ) {A : Set α} (hA : MeasurableSet A) (hpos : μ A ≠ 0)
    {v : α → β} (hv : Measurable v) {loop : Nat → Nat → Tape → Nat → Res (β × Nat)} (hs : ∀ s, Shifts (loop s)) (h0 : ∀ s ω y, loop s 0 ω 0 ≠ .ok y)
    (hacc : ∀ᵐ ω ∂Spec.iid, ∀ s x n, att s ω 0 = .ok (x, n) → x ∈ A → ∀ fuel, loop s (fuel + 1) ω 0 = .ok (v x, n))
    (hrej : ∀ᵐ ω ∂Spec.iid, ∀ s x n, att s ω 0 = .ok (x, n) → x ∉ A → ∀ fuel, loop s (fuel + 1) ω 0 = loop s fuel ω n)
    (herr : ∀ᵐ ω ∂Spec.iid, ∀ s e, att s ω 0 = .error e → ∀ fuel y, loop s fuel ω 0 ≠ .ok y) :
    Closed (fun fuel => loop fuel fuel) ((μ A)⁻¹ • (μ.restrict A).map v) := by
  have hprob := h.prob
  obtain ⟨_, X, N, hX, hN, hr, hl⟩ := h
  obtain ⟨S, hS⟩ : ∃ S : Tape → Tape, S = fun ω => dropT (N ω) ω := ⟨_, rfl⟩
  have hSm : MeasurePreserving S Spec.iid Spec.iid := by
    rw [hS]
    exact measurePreserving_snd.comp hl
  have hl' : MeasurePreserving (fun ω => (X ω, S ω)) Spec.iid (μ.prod Spec.iid) := by rw [hS]; exact hl
  have hSi : ∀ m, MeasurePreserving (S^[m]) Spec.iid Spec.iid := fun m => hSm.iterate m
  -- the streams on which everything goes well
  obtain ⟨Good, hGood⟩ : ∃ Good : Tape → Prop, Good = fun ω => Returns (fun fuel => att fuel ω 0) (X ω) (N ω) ∧
    (∀ s x n, att s ω 0 = .ok (x, n) → x ∈ A → ∀ fuel, loop s (fuel + 1) ω 0 = .ok (v x, n)) ∧
    (∀ s x n, att s ω 0 = .ok (x, n) → x ∉ A → ∀ fuel, loop s (fuel + 1) ω 0 = loop s fuel ω n) ∧
    (∀ s e, att s ω 0 = .error e → ∀ fuel y, loop s fuel ω 0 ≠ .ok y) := ⟨_, rfl⟩
  have hg : ∀ᵐ ω ∂Spec.iid, ∀ m, Good (S^[m] ω) := by
    rw [ae_all_iff]
    intro m
    refine (hSi m).quasiMeasurePreserving.ae ?_
    rw [hGood]
    filter_upwards [hr, hacc, hrej, herr] with ω a b c d
    exact ⟨a, b, c, d⟩
  -- what the loop does on them
  have hloop : ∀ m ω, (∀ j, Good (S^[j] ω)) → X (S^[m] ω) ∈ A → (∀ j < m, X (S^[j] ω) ∉ A) →
      (∃ s0, ∀ s, s0 ≤ s → ∀ fuel, m + 1 ≤ fuel → loop s fuel ω 0 = .ok (v (X (S^[m] ω)), readBy N S m ω)) ∧
      ∀ s fuel y, loop s fuel ω 0 = .ok y → y = (v (X (S^[m] ω)), readBy N S m ω) := by
    intro m
    induction m with
    | zero =>
      intro ω hgood hin _
      have h1 := hgood 0
      rw [hGood] at h1
      obtain ⟨⟨⟨f0, hf0⟩, hu⟩, a, b, c⟩ := h1
      simp only [Function.iterate_zero, id_eq] at hf0 hu a b c hin ⊢
      refine ⟨⟨f0, fun s hle fuel hf => ?_⟩, fun s fuel y hy => ?_⟩
      · obtain ⟨f, rfl⟩ : ∃ f, fuel = f + 1 := ⟨fuel - 1, by omega⟩
        exact a s _ _ (hf0 s hle) hin f
      · cases hc : att s ω 0 with
        | error e => exact absurd hy (c s e hc fuel y)
        | ok r =>
          have := hu s r hc
          subst this
          cases fuel with
          | zero => exact absurd hy (h0 s ω y)
          | succ f =>
            rw [a s _ _ hc hin f] at hy
            cases hy
            rfl
    | succ m ih =>
      intro ω hgood hin hout
      obtain ⟨⟨s1, i1⟩, i2⟩ := ih (S ω) (fun j => by have := hgood (j + 1); rwa [Function.iterate_succ_apply] at this)
        (by rwa [Function.iterate_succ_apply] at hin) (fun j hj => by have := hout (j + 1) (by omega); rwa [Function.iterate_succ_apply] at this)
      have h1 := hgood 0
      rw [hGood] at h1
      obtain ⟨⟨⟨f0, hf0⟩, hu⟩, a, b, c⟩ := h1
      have hn := hout 0 (by omega)
      simp only [Function.iterate_zero, id_eq] at hf0 hu a b c hn
      have hsh : ∀ s fuel, loop s fuel ω (N ω) = (loop s fuel (S ω) 0).map fun r => (r.1, N ω + r.2) := fun s fuel => by rw [hs s fuel ω (N ω), hS]
      rw [Function.iterate_succ_apply]
      refine ⟨⟨max f0 s1, fun s hle fuel hf => ?_⟩, fun s fuel y hy => ?_⟩
      · obtain ⟨f, rfl⟩ : ∃ f, fuel = f + 1 := ⟨fuel - 1, by omega⟩
        rw [b s _ _ (hf0 s ((le_max_left _ _).trans hle)) hn f, hsh, i1 s ((le_max_right _ _).trans hle) f (by omega)]
        rfl
      · cases hc : att s ω 0 with
        | error e => exact absurd hy (c s e hc fuel y)
        | ok r =>
          have := hu s r hc
          subst this
          cases fuel with
          | zero => exact absurd hy (h0 s ω y)
          | succ f =>
            rw [b s _ _ hc hn f, hsh] at hy
            cases hd : loop s f (S ω) 0 with
            | error e => rw [hd] at hy; cases hy
            | ok r =>
              have := i2 s f r hd
              subst this
              rw [hd] at hy
              cases hy
              rfl
  -- the number of the accepted attempt
  obtain ⟨M, hM⟩ : ∃ M : Tape → Nat, M = firstIn fun m => {ω | X (S^[m] ω) ∈ A} := ⟨_, rfl⟩
  have hXi : ∀ m, Measurable fun ω => X (S^[m] ω) := fun m => hX.comp (hSi m).measurable
  have hMm : Measurable M := by rw [hM]; exact measurable_firstIn fun m => hXi m hA
  have hRm : ∀ m, Measurable (readBy N S m) := by
    intro m
    induction m with
    | zero => exact hN
    | succ m ih => exact hN.add (ih.comp hSm.measurable)
  have hgeo : ∑' m : Nat, μ Aᶜ ^ m = (μ A)⁻¹ := by
    rw [ENNReal.tsum_geometric, prob_compl_eq_one_sub hA]
    congr 1
    exact ENNReal.sub_sub_cancel ENNReal.one_ne_top prob_le_one
  have hsum : ∀ W : Set (α × Tape), MeasurableSet W → W ⊆ A ×ˢ Set.univ →
      Spec.iid (⋃ m, failThen (fun ω => (X ω, S ω)) A W m) = (μ A)⁻¹ * μ.prod Spec.iid W := by
    intro W hW hWA
    rw [measure_iUnion]
    · simp only [iid_failThen hl' hA hW]
      rw [ENNReal.tsum_mul_right, hgeo]
    · intro i j hij
      rw [Function.onFun, Set.disjoint_left]
      intro ω hi hj
      rw [mem_failThen] at hi hj
      rcases lt_or_gt_of_ne hij with h | h
      · exact hj.1 i h (hWA hi.2).1
      · exact hi.1 j h (hWA hj.2).1
    · exact fun m => measurable_failThen hl'.measurable hA hW m
  have hsucc : ∀ᵐ ω ∂Spec.iid, ∃ m, X (S^[m] ω) ∈ A := by
    have h1 := hsum (A ×ˢ Set.univ) (hA.prod .univ) subset_rfl
    rw [Measure.prod_prod, measure_univ, mul_one, ENNReal.inv_mul_cancel hpos (measure_ne_top _ _), ← measure_univ (μ := Spec.iid)] at h1
    have hmU : MeasurableSet (⋃ m, failThen (fun ω => (X ω, S ω)) A (A ×ˢ Set.univ) m) :=
      .iUnion fun m => measurable_failThen hl'.measurable hA (hA.prod .univ) m
    have h2 := ae_eq_of_subset_of_measure_ge (Set.subset_univ _) h1.ge hmU.nullMeasurableSet (measure_ne_top _ _)
    filter_upwards [h2] with ω hω
    have : ω ∈ ⋃ m, failThen (fun ω => (X ω, S ω)) A (A ×ˢ Set.univ) m := hω.mpr trivial
    obtain ⟨m, hm⟩ := Set.mem_iUnion.mp this
    exact ⟨m, ((mem_failThen m ω).mp hm).2.1⟩
  have hspec : ∀ ω, (∃ m, X (S^[m] ω) ∈ A) → X (S^[M ω] ω) ∈ A ∧ ∀ j < M ω, X (S^[j] ω) ∉ A := fun ω hω => by
    rw [hM]
    exact firstIn_spec (B := fun m => {ω | X (S^[m] ω) ∈ A}) hω
  have hsel : Measurable fun p : Nat × Tape => X (S^[p.1] p.2) := measurable_from_prod_countable_right hXi
  have hselR : Measurable fun p : Nat × Tape => readBy N S p.1 p.2 := measurable_from_prod_countable_right hRm
  have hXM : Measurable fun ω => X (S^[M ω] ω) := hsel.comp (hMm.prodMk measurable_id)
  have hRM : Measurable fun ω => readBy N S (M ω) ω := hselR.comp (hMm.prodMk measurable_id)
  have hshift : Shifts fun fuel => loop fuel fuel := fun fuel ω k => hs fuel fuel ω k
  refine ⟨hshift, fun ω => v (X (S^[M ω] ω)), fun ω => readBy N S (M ω) ω, hv.comp hXM, hRM, ?_, ?_⟩
  · filter_upwards [hg, hsucc] with ω a b
    obtain ⟨b1, b2⟩ := hspec ω b
    obtain ⟨⟨s0, l1⟩, l2⟩ := hloop (M ω) ω a b1 b2
    exact ⟨⟨max s0 (M ω + 1), fun fuel hf => l1 fuel ((le_max_left _ _).trans hf) fuel ((le_max_right _ _).trans hf)⟩, fun fuel y hy => l2 fuel fuel y hy⟩
  · have hm : Measurable fun ω : Tape => (v (X (S^[M ω] ω)), dropT (readBy N S (M ω) ω) ω) := (hv.comp hXM).prodMk (measurable_dropN' hRM)
    have hfin : IsFiniteMeasure ((μ A)⁻¹ • (μ.restrict A).map v) := by
      refine ⟨?_⟩
      rw [Measure.smul_apply, smul_eq_mul]
      exact ENNReal.mul_lt_top (ENNReal.inv_lt_top.mpr (pos_iff_ne_zero.mpr hpos)) (measure_lt_top _ _)
    refine ⟨hm, (Measure.prod_eq fun U V hU hV => ?_).symm⟩
    have hW : MeasurableSet ((A ∩ v ⁻¹' U) ×ˢ V) := (hA.inter (hv hU)).prod hV
    have h1 := hsum ((A ∩ v ⁻¹' U) ×ˢ V) hW (Set.prod_mono Set.inter_subset_left (Set.subset_univ _))
    rw [Measure.prod_prod] at h1
    rw [Measure.map_apply hm (hU.prod hV), Measure.smul_apply, smul_eq_mul, Measure.map_apply hv hU, Measure.restrict_apply (hv hU), Set.inter_comm, mul_assoc, ← h1]
    refine measure_congr ?_
    filter_upwards [hsucc] with ω hω
    obtain ⟨b1, b2⟩ := hspec ω hω
    refine propext ?_
    show (v (X (S^[M ω] ω)) ∈ U ∧ dropT (readBy N S (M ω) ω) ω ∈ V) ↔ ω ∈ ⋃ m, failThen (fun ω => (X ω, S ω)) A ((A ∩ v ⁻¹' U) ×ˢ V) m
    have hd : dropT (readBy N S (M ω) ω) ω = S (S^[M ω] ω) := by
      rw [hS]
      exact drop_readBy N (M ω) ω
    rw [hd, Set.mem_iUnion]
    constructor
    · rintro ⟨a, b⟩
      exact ⟨M ω, (mem_failThen _ ω).mpr ⟨b2, ⟨b1, a⟩, b⟩⟩
    · rintro ⟨m, hmem⟩
      obtain ⟨c1, ⟨c2, c3⟩, c4⟩ := (mem_failThen _ ω).mp hmem
      have : M ω = m := by
        rw [hM]
        exact firstIn_eq (B := fun m => {ω | X (S^[m] ω) ∈ A}) c2 c1
      rw [this]
      exact ⟨c3, c4⟩

end PNDL
