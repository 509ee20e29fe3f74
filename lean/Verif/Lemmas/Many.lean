import Verif.Spec.Many
import Verif.Lemmas.Draws

/-! Successive calls of one sampler. -/
namespace PNDL
open MeasureTheory Spec
open scoped ENNReal

variable {α : Type} [MeasurableSpace α]

/-- The streams on which `n` successive draws `X`, each leaving `D`, fall in `S 0`, `S 1`, … -/
def manySet (X : Tape → α) (D : Tape → Tape) : Nat → (Nat → Set α) → Set Tape
  | 0, _ => Set.univ
  | n + 1, S => {ω | X ω ∈ S 0 ∧ D ω ∈ manySet X D n fun i => S (i + 1)}

theorem measurable_manySet {X : Tape → α} {D : Tape → Tape} (hX : Measurable X) (hD : Measurable D) : ∀ (n : Nat) (S : Nat → Set α),
    (∀ i, MeasurableSet (S i)) → MeasurableSet (manySet X D n S)
  | 0, _, _ => MeasurableSet.univ
  | n + 1, _, hS => (hX (hS 0)).inter (hD (measurable_manySet hX hD n _ fun i => hS (i + 1)))

theorem iid_manySet {X : Tape → α} {D : Tape → Tape} {μ : Measure α} (hX : Measurable X) (hD : Measurable D)
    (hl : MeasurePreserving (fun ω => (X ω, D ω)) Spec.iid (μ.prod Spec.iid)) : ∀ (n : Nat) (S : Nat → Set α),
    (∀ i, MeasurableSet (S i)) → Spec.iid (manySet X D n S) = ∏ i ∈ Finset.range n, μ (S i) := by
  intro n
  induction n with
  | zero => intro S _; simp [manySet]
  | succ n ih =>
    intro S hS
    have hm := measurable_manySet hX hD n (fun i => S (i + 1)) fun i => hS (i + 1)
    have : manySet X D (n + 1) S = (fun ω => (X ω, D ω)) ⁻¹' (S 0 ×ˢ manySet X D n fun i => S (i + 1)) := rfl
    rw [this, hl.measure_preimage ((hS 0).prod hm).nullMeasurableSet, Measure.prod_prod, ih _ fun i => hS (i + 1), Finset.prod_range_succ']
    rw [mul_comm]

/-- A loop of calls reads the stream from its position on. -/
theorem collect_shift {run : Nat → Tape → Nat → Res (α × Nat)} (hs : Shifts run) (fuel : Nat) (ω : Tape) : ∀ (n k j : Nat),
    collect (run fuel) ω n (k + j) = (collect (run fuel) (dropT k ω) n j).map fun r => (r.1, k + r.2) := by
  intro n
  induction n with
  | zero => intro k j; rfl
  | succ n ih =>
    intro k j
    simp only [collect]
    rw [hs fuel ω (k + j), hs fuel (dropT k ω) j, dropT_dropT]
    cases run fuel (dropT (k + j) ω) 0 with
    | error e => rfl
    | ok r =>
      simp only [Except.map, bind, Except.bind]
      rw [Nat.add_assoc, ih k (j + r.2)]
      cases collect (run fuel) (dropT k ω) n (j + r.2) with
      | error e => rfl
      | ok s => rfl

/-- Almost surely the loop of calls returns, if there is fuel enough, the successive draws. -/
theorem ae_collect {run : Nat → Tape → Nat → Res (α × Nat)} (hs : Shifts run) {X : Tape → α} {N : Tape → Nat}
    (hr : ∀ᵐ ω ∂Spec.iid, Returns (fun fuel => run fuel ω 0) (X ω) (N ω))
    (hq : Measure.QuasiMeasurePreserving (fun ω => dropT (N ω) ω) Spec.iid Spec.iid) : ∀ n, ∀ᵐ ω ∂Spec.iid,
      ∃ xs m, Returns (fun fuel => collect (run fuel) ω n 0) xs m ∧ xs.length = n ∧
        ∀ S : Nat → Set α, (∀ i x, xs[i]? = some x → x ∈ S i) ↔ ω ∈ manySet X (fun ω => dropT (N ω) ω) n S := by
  intro n
  induction n with
  | zero =>
    filter_upwards with ω
    exact ⟨[], 0, Returns.const rfl, rfl, fun S => by simp [manySet]⟩
  | succ n ih =>
    filter_upwards [hr, hq.ae ih] with ω ⟨⟨f0, hf⟩, hu⟩ ⟨xs, m, ⟨⟨g0, hg⟩, hv⟩, hlen, hS⟩
    refine ⟨X ω :: xs, N ω + m, ⟨⟨max f0 g0, fun fuel hle => ?_⟩, fun fuel y hy => ?_⟩, by simp [hlen], fun S => ?_⟩
    · have e1 := hf fuel ((le_max_left _ _).trans hle)
      have e2 := hg fuel ((le_max_right _ _).trans hle)
      dsimp only at e1 e2
      simp only [collect, e1, bind, Except.bind]
      have := collect_shift hs fuel ω n (N ω) 0
      rw [Nat.add_zero] at this
      rw [this, e2]
      rfl
    · simp only [collect] at hy
      cases hc : run fuel ω 0 with
      | error e => simp only [hc, bind, Except.bind] at hy; cases hy
      | ok r =>
        have := hu fuel r hc
        subst this
        simp only [hc, bind, Except.bind] at hy
        have hsh := collect_shift hs fuel ω n (N ω) 0
        rw [Nat.add_zero] at hsh
        rw [hsh] at hy
        cases hd : collect (run fuel) (dropT (N ω) ω) n 0 with
        | error e => simp only [hd, Except.map] at hy; cases hy
        | ok s =>
          have := hv fuel s hd
          subst this
          simp only [hd, Except.map] at hy
          cases hy
          rfl
    · constructor
      · intro h
        exact ⟨h 0 _ rfl, (hS _).mp fun i x hx => h (i + 1) x hx⟩
      · rintro ⟨h0, h1⟩ i x hx
        cases i with
        | zero => cases hx; exact h0
        | succ i => exact (hS _).mpr h1 i x hx

/-- Successive calls of a sampler whose value is independent of what it leaves of the stream. -/
theorem Closed.many {run : Nat → Tape → Nat → Res (α × Nat)} {μ : Measure α} (h : Closed run μ) (n k : Nat) : SamplesMany run n k μ := by
  have hp := h.prob
  obtain ⟨hs, X, N, hX, hN, hr, hl⟩ := h
  intro S hS
  have hD : Measurable fun ω : Tape => dropT (N ω) ω := measurable_dropN' hN
  have hq : Measure.QuasiMeasurePreserving (fun ω => dropT (N ω) ω) Spec.iid Spec.iid :=
    Measure.quasiMeasurePreserving_snd.comp hl.quasiMeasurePreserving
  have hae := (mp_drop k).quasiMeasurePreserving.ae (ae_collect hs hr hq n)
  rw [← iid_manySet hX hD hl n S hS, ← (mp_drop k).measure_preimage (measurable_manySet hX hD n S hS).nullMeasurableSet]
  refine measure_congr ?_
  filter_upwards [hae] with ω ⟨xs, m, ⟨⟨f0, hf⟩, hu⟩, hlen, hx⟩
  have hsh : ∀ fuel, collect (run fuel) ω n k = (collect (run fuel) (dropT k ω) n 0).map fun r => (r.1, k + r.2) :=
    fun fuel => collect_shift hs fuel ω n k 0
  refine propext ⟨?_, ?_⟩
  · rintro ⟨fuel, ys, k', h1, h2, h3⟩
    rw [hsh] at h1
    cases hc : collect (run fuel) (dropT k ω) n 0 with
    | error e => rw [hc] at h1; cases h1
    | ok y =>
      rw [hc] at h1
      have := hu fuel y hc
      subst this
      cases h1
      exact (hx S).mp h3
  · intro hy
    refine ⟨f0, xs, k + m, ?_, hlen, (hx S).mpr hy⟩
    have := hf f0 le_rfl
    dsimp only at this
    rw [hsh, this]
    rfl

end PNDL
