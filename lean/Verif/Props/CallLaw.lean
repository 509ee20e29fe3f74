import Verif.Props.Calls
import Verif.Props.Many

/-! C144 for any data: when a call returns with probability one, successive calls are independent samples of one law, the law of a call. -/
namespace PNDL
open MeasureTheory Spec

variable {α : Type} [MeasurableSpace α] {run : Nat → Tape → Nat → Res (α × Nat)}

theorem anySet_measurable (hm : ∀ f, MRes fun ω => run f ω 0) {S : Set α} (hS : MeasurableSet S) : MeasurableSet (⋃ m, oneSet run m S) :=
  .iUnion fun m => measurable_oneSet hm m hS

/-- The law of a call. -/
noncomputable def callLaw (hr : Replay run) (hm : ∀ f, MRes fun ω => run f ω 0) : Measure α :=
  Measure.ofMeasurable (fun S _ => Spec.iid (⋃ m, oneSet run m S)) (by simp [oneSet]) (by
    intro S hS hd
    rw [← measure_iUnion ?_ fun i => anySet_measurable hm (hS i)]
    · congr 1
      ext ω
      simp only [oneSet, Set.mem_iUnion, Set.mem_ofPred_eq]
      constructor
      · rintro ⟨m, f, x, h, i, hi⟩; exact ⟨i, m, f, x, h, hi⟩
      · rintro ⟨i, m, f, x, h, hi⟩; exact ⟨m, f, x, h, i, hi⟩
    · intro i j hij
      refine Set.disjoint_left.mpr ?_
      intro ω h1 h2
      obtain ⟨m, f, x, h, hx⟩ := Set.mem_iUnion.mp h1
      obtain ⟨m', f', x', h', hx'⟩ := Set.mem_iUnion.mp h2
      have e1 : run f ω 0 = .ok (x, 0 + m) := by rw [Nat.zero_add]; exact h
      have e2 : run f' ω 0 = .ok (x', 0 + m') := by rw [Nat.zero_add]; exact h'
      obtain ⟨rfl, _⟩ := C151_prefix hr e1 e2 fun _ _ => rfl
      exact Set.disjoint_left.mp (hd hij) hx hx')

theorem callLaw_apply (hr : Replay run) (hm : ∀ f, MRes fun ω => run f ω 0) (k : Nat) {S : Set α} (hS : MeasurableSet S) : callLaw hr hm S = chance run k S := by
  rw [callLaw, Measure.ofMeasurable_apply S hS, chance, chance_eq hr, ← Measure.map_apply (measurable_dropT k) (anySet_measurable hm hS), iid_drop]

theorem oneLaw_of (hr : Replay run) (hm : ∀ f, MRes fun ω => run f ω 0) : OneLaw run := by
  refine ⟨callLaw hr hm, fun k S hS => (callLaw_apply hr hm k hS).symm, fun n k S hS => ?_⟩
  refine (Replay.independent hr hm n k (fun _ => 0) S hS).trans (Finset.prod_congr rfl fun i _ => ?_)
  exact (callLaw_apply hr hm 0 (hS i)).symm

/-- **C144** (any data) When a call returns with probability one, successive calls are independent samples of one probability law. -/
theorem C144_returning (h : OneLaw run) (k : Nat) (h1 : chance run k Set.univ = 1) : Independent run := by
  obtain ⟨μ, hc, hs⟩ := h
  exact ⟨μ, ⟨by rw [← hc k _ MeasurableSet.univ, h1]⟩, hs⟩

/-- **C144** (any data) Angular distributions: no condition on the laws or the energies. -/
theorem C144_any_angle (d : AngleDist) (E : ℝ) : OneLaw fun f ω k => d.sample f E ω k := oneLaw_of (C151_angle d E) fun f => angle_meas d E f 0

/-- **C144** (any data) Outgoing energies of a law. -/
theorem C144_any_energy (l : ELaw) (E : ℝ) : OneLaw fun f ω k => l.sample f E ω k := oneLaw_of (energyLaw_replay l E) fun f => energyLaw_meas l E f 0

/-- **C144** (any data) Reactions, in either frame. -/
theorem C144_any_reaction (r : RxnBase) (threshold E : ℝ) : OneLaw fun f ω k => asPair (r.sample threshold f E ω k) :=
  oneLaw_of (C151_reaction r threshold E) fun f => (reaction_meas r threshold E f 0).pair

/-- **C144** (any data) Elastic scattering off a free gas or a target at rest. -/
theorem C144_any_elastic (d : AngleDist) (awr kT tar E : ℝ) (u : Bool) :
    OneLaw fun f ω k => asPair ((Elastic.mk (d.sample f) awr kT u tar (some (svtSample f))).sample E ω k) :=
  oneLaw_of (C151_elastic_svt d awr kT tar E u) fun f => (elastic_meas _ E (fun k => angle_meas d E f k) (fun b h k => by cases h; exact svt_meas E kT awr f k) 0).pair

/-- **C144** (any data) Elastic scattering with the Doppler broadening rejection correction. -/
theorem C144_any_dbrc (g : EGrid) (s : XS ℝ) (d : AngleDist) (awr kT tar E : ℝ) (u : Bool) :
    OneLaw fun f ω k => asPair ((Elastic.mk (d.sample f) awr kT u tar (some (dbrcSample g s f f))).sample E ω k) :=
  oneLaw_of (C151_elastic_dbrc g s d awr kT tar E u) fun f =>
    (elastic_meas _ E (fun k => angle_meas d E f k) (fun b h k => by cases h; exact dbrc_meas g s E kT awr f f k) 0).pair

/-- **C144** (any data) The thermal laws: coherent elastic, incoherent elastic, inelastic. -/
theorem C144_any_thermal (c : CohElastic) (d : IncElastic) (i : InelDist) (E : ℝ) :
    (OneLaw fun (_ : Nat) ω k => asPair (c.sample E ω k)) ∧ (OneLaw fun (_ : Nat) ω k => asPair (d.sample E ω k)) ∧
      OneLaw fun (_ : Nat) ω k => asPair (i.sample E ω k) :=
  ⟨oneLaw_of (C151_coherent c E) fun _ => (coherent_meas c E 0).pair, oneLaw_of (C151_incoherent d E) fun _ => (incoherent_meas d E 0).pair,
    oneLaw_of (C151_inelastic i E) fun _ => (inelastic_meas i E 0).pair⟩

/-- Equiprobable bins are not sampled from the density they report (C109_violation_bins), but successive cosines are independent samples of one law: bins of equal
width, at any energy. -/
example (E : ℝ) : Independent fun f ω k => (AngleDist.mk [1] [.bins ((List.range 33).map fun i : Nat => -1 + (i : ℝ) / 16)]).sample f E ω k := by
  refine C144_returning (C144_any_angle _ E) 0 ?_
  obtain ⟨l, hl⟩ : ∃ l, l = (List.range 33).map fun i : Nat => -1 + (i : ℝ) / 16 := ⟨_, rfl⟩
  rw [← hl]
  have hlen : l.length = 33 := by rw [hl]; simp
  have e : (AngleDist.mk [1] [.bins l]).find E = .ok (.inl (.bins l)) := by
    by_cases h : 1 < E <;> simp [AngleDist.find, lowerBound, lowerBoundRange, bisect, h, front, back] <;> rfl
  rw [chance]
  have hall : ∀ᵐ ω ∂Spec.iid, ω ∈ {ω : Tape | ∃ fuel x k', (AngleDist.mk [1] [.bins l]).sample fuel E ω 0 = .ok (x, k') ∧ x ∈ Set.univ} := by
    filter_upwards [iid_open] with ω hω'
    have hω := hω' 0
    have : ∃ y, l[if ⌊33 * ω 0⌋₊ = 33 then ⌊33 * ω 0⌋₊ - 1 else ⌊33 * ω 0⌋₊]? = some y := by
      refine getElem?_of_lt ?_
      have : ⌊33 * ω 0⌋₊ ≤ 33 := by
        refine Nat.floor_le_of_le ?_
        push_cast
        have := hω.2.le
        linarith
      rw [hlen]
      split <;> omega
    obtain ⟨y, hy⟩ := this
    obtain ⟨q, hq⟩ : ∃ q, (AngleDist.mk [1] [.bins l]).sample 0 E ω 0 = .ok q := by
      unfold AngleDist.sample
      rw [e]
      simp only [bind, Except.bind]
      unfold AngleLaw.sample binsSample
      simp only [bind, Except.bind]
      rw [getAt_eq_ok.mpr hy]
      exact ⟨_, rfl⟩
    exact ⟨0, q.1, q.2, hq, trivial⟩
  exact (measure_congr (Filter.eventuallyEq_univ.mpr hall)).trans measure_univ

end PNDL
