import Verif.Lemmas.Compose
import Verif.Props.EATableLaw
import Verif.Props.Coherent
import Mathlib.MeasureTheory.Function.Floor

/-! Discrete laws: choosing an index with one random number. -/
namespace PNDL
open MeasureTheory Spec Set
open scoped ENNReal

variable {α : Type} [MeasurableSpace α]

/-- The law of a choice among finitely many values. -/
theorem finite_law {J : ℝ → Nat} (hJ : Measurable J) {n : Nat} (hlt : ∀ᵐ x ∂Spec.unif, J x < n) {v : Nat → α} :
    Spec.unif.map (fun x => v (J x)) = ∑ j ∈ Finset.range n, Spec.unif (J ⁻¹' {j}) • Measure.dirac (v j) := by
  have hv : Measurable fun x => v (J x) := measurable_from_nat.comp hJ
  refine Measure.ext fun S hS => ?_
  rw [Measure.map_apply hv hS, Measure.finsetSum_apply]
  simp only [Measure.smul_apply, smul_eq_mul, Measure.dirac_apply' _ hS]
  have h1 : Spec.unif ((fun x => v (J x)) ⁻¹' S) = Spec.unif (⋃ j ∈ Finset.range n, (J ⁻¹' {j} ∩ (fun x => v (J x)) ⁻¹' S)) := by
    refine measure_congr ?_
    filter_upwards [hlt] with x hx
    apply propext
    constructor
    · intro h
      exact mem_iUnion₂.mpr ⟨J x, Finset.mem_range.mpr hx, rfl, h⟩
    · intro h
      obtain ⟨j, _, _, h'⟩ := mem_iUnion₂.mp h
      exact h'
  rw [h1, measure_biUnion_finset]
  · refine Finset.sum_congr rfl fun j _ => ?_
    by_cases hj : v j ∈ S
    · rw [indicator_of_mem hj, Pi.one_apply, mul_one]
      congr 1
      ext x
      constructor
      · exact fun h => h.1
      · intro h
        refine ⟨h, ?_⟩
        show v (J x) ∈ S
        rw [show J x = j from h]; exact hj
    · rw [indicator_of_notMem hj, mul_zero]
      have : J ⁻¹' {j} ∩ (fun x => v (J x)) ⁻¹' S = ∅ := by
        ext x
        simp only [mem_inter_iff, mem_preimage, mem_singleton_iff, mem_empty_iff_false, iff_false, not_and]
        intro h
        rw [h]; exact hj
      rw [this, measure_empty]
  · intro i _ j _ hij
    refine disjoint_left.mpr fun x hx hx' => hij ?_
    exact (show J x = i from hx.1).symm.trans hx'.1
  · intro j _
    exact (hJ (measurableSet_singleton j)).inter (hv hS)

theorem measurable_floor_mul (n : Nat) : Measurable fun x : ℝ => ⌊(n : ℝ) * x⌋₊ := Nat.measurable_floor.comp (measurable_const_mul _)

theorem unif_lt_one : ∀ᵐ x ∂Spec.unif, 0 < x ∧ x < 1 := by
  rw [unif_eq_Ioo, ae_restrict_iff' measurableSet_Ioo]
  exact Filter.Eventually.of_forall fun x hx => hx

theorem unif_interval {a b : ℝ} (h0 : 0 ≤ a) (h1 : b ≤ 1) {A : Set ℝ} (h : ∀ x, 0 < x → x < 1 → x ≠ a → x ≠ b → (x ∈ A ↔ a < x ∧ x < b)) :
    Spec.unif A = ENNReal.ofReal (b - a) := by
  have : Spec.unif A = Spec.unif (Ioo a b) := by
    refine measure_congr ?_
    have hne : ∀ c : ℝ, ∀ᵐ x ∂Spec.unif, x ≠ c := by
      intro c
      exact ae_restrict_of_ae (by simp [ae_iff])
    filter_upwards [unif_lt_one, hne a, hne b] with x hx ha hb
    exact propext (h x hx.1 hx.2 ha hb)
  rw [this, Spec.unif, Measure.restrict_apply measurableSet_Ioo, inter_eq_left.mpr, Real.volume_Ioo]
  exact fun x hx => ⟨h0.trans hx.1.le, hx.2.le.trans h1⟩

/-- `floor(n * xi)`: all indices below `n` with probability `1 / n`. -/
theorem unif_floor {n : Nat} (hn : 0 < n) {j : Nat} (hj : j < n) : Spec.unif ((fun x : ℝ => ⌊(n : ℝ) * x⌋₊) ⁻¹' {j}) = ENNReal.ofReal (1 / n) := by
  have hp : (0 : ℝ) < n := by exact_mod_cast hn
  have e : (1 / n : ℝ) = ((j : ℝ) + 1) / n - j / n := by ring
  rw [e]
  refine unif_interval (by positivity) ((div_le_one hp).mpr (by exact_mod_cast hj)) ?_
  intro x h0 h1 ha hb
  rw [mem_preimage, mem_singleton_iff, Nat.floor_eq_iff (by positivity)]
  constructor
  · rintro ⟨a, b⟩
    refine ⟨lt_of_le_of_ne ?_ (Ne.symm ha), ?_⟩
    · rw [div_le_iff₀ hp]; linarith
    · rw [lt_div_iff₀ hp]; linarith
  · rintro ⟨a, b⟩
    rw [div_lt_iff₀ hp] at a
    rw [lt_div_iff₀ hp] at b
    constructor <;> linarith

theorem floor_law {n : Nat} (hn : 0 < n) {v : Nat → α} :
    Spec.unif.map (fun x : ℝ => v ⌊(n : ℝ) * x⌋₊) = ∑ j ∈ Finset.range n, ENNReal.ofReal (1 / n) • Measure.dirac (v j) := by
  rw [finite_law (measurable_floor_mul n) (n := n) ?_]
  · exact Finset.sum_congr rfl fun j hj => by rw [unif_floor hn (Finset.mem_range.mp hj)]
  · filter_upwards [unif_lt_one] with x hx
    exact floor_lt_of_unit hn hx.1.le hx.2

/-- One draw, apart from finitely many values. -/
theorem closed_one_ae {g : ℝ → Res α} {h : ℝ → α} (hm : Measurable h) (hg : ∀ᵐ x ∂Spec.unif, g x = .ok (h x)) :
    Closed (fun _ ω k => (g (ω k)).map fun x => (x, k + 1)) (Spec.unif.map h) := by
  have hae : ∀ᵐ q ∂(Measure.dirac ()).prod Spec.unif, g q.2 = .ok (h q.2) := Measure.quasiMeasurePreserving_snd.ae hg
  have := (Draws.one (p := Measure.dirac ()) (g := fun _ => g) (h := fun q => h q.2) (hm.comp measurable_snd) hae).closed
  have he : ((((Measure.dirac ()).prod Spec.unif).map fun q : Unit × ℝ => (q.1, h q.2)).map Prod.snd) = Spec.unif.map h := by
    have hmm : Measurable fun q : Unit × ℝ => (q.1, h q.2) := measurable_fst.prodMk (hm.comp measurable_snd)
    rw [Measure.map_map measurable_snd hmm, Measure.dirac_prod, Measure.map_map (measurable_snd.comp hmm) measurable_prodMk_left]
    rfl
  rwa [he] at this

theorem sum_prod {γ : Type} [MeasurableSpace γ] (n : Nat) (w : Nat → ℝ≥0∞) (ρ : Nat → Measure γ) (ν : Measure α) [SFinite ν] :
    (∑ j ∈ Finset.range n, w j • ρ j).prod ν = ∑ j ∈ Finset.range n, w j • (ρ j).prod ν := by
  refine Measure.ext fun S hS => ?_
  rw [Measure.prod_apply hS, lintegral_finsetSum_measure, Measure.finsetSum_apply]
  refine Finset.sum_congr rfl fun j _ => ?_
  rw [lintegral_smul_measure, Measure.smul_apply, Measure.prod_apply hS]

theorem sum_map {γ β : Type} [MeasurableSpace γ] [MeasurableSpace β] (n : Nat) (w : Nat → ℝ≥0∞) (ρ : Nat → Measure γ) {f : γ → β} (hf : Measurable f) :
    (∑ j ∈ Finset.range n, w j • ρ j).map f = ∑ j ∈ Finset.range n, w j • (ρ j).map f := by
  refine Measure.ext fun S hS => ?_
  rw [Measure.map_apply hf hS, Measure.finsetSum_apply, Measure.finsetSum_apply]
  refine Finset.sum_congr rfl fun j _ => ?_
  rw [Measure.smul_apply, Measure.smul_apply, Measure.map_apply hf hS]

theorem ae_sum {γ : Type} [MeasurableSpace γ] (n : Nat) (w : Nat → ℝ≥0∞) (ρ : Nat → Measure γ) {P : γ → Prop} (h : ∀ j, j < n → ∀ᵐ x ∂ρ j, P x) :
    ∀ᵐ x ∂(∑ j ∈ Finset.range n, w j • ρ j), P x := by
  rw [ae_iff, Measure.finsetSum_apply]
  refine Finset.sum_eq_zero fun j hj => ?_
  rw [Measure.smul_apply, ae_iff.mp (h j (Finset.mem_range.mp hj)), smul_zero]

/-- A discrete choice followed by something that depends on it. -/
theorem closed_finite {pick : Nat → Tape → Nat → Res (Nat × Nat)} {n : Nat} {w : Nat → ℝ≥0∞}
    (h1 : Closed pick (∑ j ∈ Finset.range n, w j • Measure.dirac j)) {run : Nat → Nat → Tape → Nat → Res (α × Nat)} {μ : Nat → Measure α}
    (hs : ∀ j, Shifts (run j)) (hrun : ∀ j, j < n → Closed (run j) (μ j)) :
    Closed (fun fuel ω k => do let r ← pick fuel ω k; run r.1 fuel ω r.2) (∑ j ∈ Finset.range n, w j • μ j) := by
  have hp := h1.prob
  have hn : 0 < n := by
    rcases Nat.eq_zero_or_pos n with h | h
    · subst h
      have := hp.measure_univ
      simp at this
    · exact h
  have hk : ∀ j, min j (n - 1) < n := fun j => by omega
  choose X N hX hN hr hl using fun j => (hrun (min j (n - 1)) (hk j)).law
  have hmin : ∀ j, j < n → min j (n - 1) = j := fun j hj => by omega
  have hXm : Measurable fun q : Nat × Tape => X q.1 q.2 := measurable_from_prod_countable_right fun j => hX j
  have hNm : Measurable fun q : Nat × Tape => N q.1 q.2 := measurable_from_prod_countable_right fun j => hN j
  have hd : Draws (∑ j ∈ Finset.range n, w j • Measure.dirac j) run (∑ j ∈ Finset.range n, w j • (μ j).map (Prod.mk j)) := by
    refine ⟨hs, fun q => X q.1 q.2, fun q => N q.1 q.2, hXm, hNm, ?_, ?_⟩
    · rw [sum_prod]
      refine ae_sum _ _ _ fun j hj => ?_
      rw [Measure.dirac_prod]
      have h2 := hr j
      rw [hmin j hj] at h2
      exact (measurableEmbedding_prodMk_left j).ae_map_iff.mpr h2
    · have hm : Measurable fun q : Nat × Tape => ((q.1, X q.1 q.2), dropT (N q.1 q.2) q.2) :=
        (measurable_fst.prodMk hXm).prodMk (measurable_dropN hNm)
      refine ⟨hm, ?_⟩
      rw [sum_prod, sum_map _ _ _ hm, sum_prod]
      refine Finset.sum_congr rfl fun j hj => ?_
      have hj' := Finset.mem_range.mp hj
      have h3 := hl j
      rw [hmin j hj'] at h3
      have := (hrun j hj').prob
      rw [Measure.dirac_prod, Measure.map_map hm measurable_prodMk_left]
      congr 1
      have h4 : (fun q : Nat × Tape => ((q.1, X q.1 q.2), dropT (N q.1 q.2) q.2)) ∘ Prod.mk j = (fun q : α × Tape => ((j, q.1), q.2)) ∘ fun ω => (X j ω, dropT (N j ω) ω) := rfl
      have hq : Measurable fun q : α × Tape => ((j, q.1), q.2) := (measurable_const.prodMk measurable_fst).prodMk measurable_snd
      rw [h4, ← Measure.map_map hq h3.measurable, h3.map_eq]
      have h5 := Measure.map_prod_map (μ j) Spec.iid (f := Prod.mk j) (g := id) measurable_prodMk_left measurable_id
      rw [Measure.map_id] at h5
      rw [h5]
      rfl
  have h6 := closed_map (closed_bind h1 hd) (F := fun x => .ok x.2) (f := Prod.snd) measurable_snd (Filter.Eventually.of_forall fun _ => rfl)
  rw [sum_map _ _ _ measurable_snd] at h6
  have h7 : ∀ j, ((μ j).map (Prod.mk j)).map Prod.snd = μ j := by
    intro j
    rw [Measure.map_map measurable_snd measurable_prodMk_left]
    exact Measure.map_id
  simp only [h7] at h6
  refine Closed.of_eq (run' := fun fuel ω k => do let r ← pick fuel ω k; run r.1 fuel ω r.2) h6 ?_
  intro fuel ω k
  show _ = (do let r ← (do let r ← pick fuel ω k; let s ← run r.1 fuel ω r.2; return ((r.1, s.1), s.2)); let y ← (.ok r.1.2 : Res α); return (y, r.2))
  cases pick fuel ω k with
  | error e => rfl
  | ok r =>
    show run r.1 fuel ω r.2 = _
    simp only [bind, Except.bind]
    cases run r.1 fuel ω r.2 <;> rfl

end PNDL
