import Verif.Spec.Calls
import Verif.Lemmas.Law
import Verif.Lemmas.Sphere
import Verif.Props.Replay

/-! Measurability of computations that may fail, and independence of successive calls of measurable samplers that only use what they consume. -/
namespace PNDL
open MeasureTheory Spec
open scoped ENNReal

variable {Ω α β γ : Type} [MeasurableSpace Ω] [MeasurableSpace α] [MeasurableSpace β]

/-- The outcomes with a value in a measurable set form a measurable set. -/
def MRes (f : Ω → Res α) : Prop := ∀ S, MeasurableSet S → MeasurableSet {ω | ∃ x ∈ S, f ω = .ok x}

theorem MRes.congr {f g : Ω → Res α} (hg : MRes g) (h : ∀ ω, f ω = g ω) : MRes f := by
  rwa [funext h]

theorem MRes.err (e : Err) : MRes fun _ : Ω => (.error e : Res α) := by
  intro S _
  have : {ω : Ω | ∃ x ∈ S, (Except.error e : Res α) = .ok x} = ∅ := by
    ext ω
    simp
  rw [this]
  exact MeasurableSet.empty

theorem MRes.ok {g : Ω → α} (hg : Measurable g) : MRes fun ω => (.ok (g ω) : Res α) := by
  intro S hS
  have : {ω : Ω | ∃ x ∈ S, (Except.ok (g ω) : Res α) = .ok x} = g ⁻¹' S := by
    ext ω
    constructor
    · rintro ⟨x, hx, h⟩; cases h; exact hx
    · intro h; exact ⟨_, h, rfl⟩
  rw [this]
  exact hg hS

theorem MRes.const (a : Res α) : MRes fun _ : Ω => a := by
  cases a with
  | error e => exact MRes.err e
  | ok a => exact MRes.ok measurable_const

theorem MRes.comp {f : Ω → Res α} {Ω' : Type} [MeasurableSpace Ω'] {g : Ω' → Ω} (hf : MRes f) (hg : Measurable g) : MRes fun ω => f (g ω) :=
  fun S hS => hg (hf S hS)

theorem MRes.ite {c : Ω → Prop} [∀ ω, Decidable (c ω)] {f g : Ω → Res α} (hc : MeasurableSet {ω | c ω}) (hf : MRes f) (hg : MRes g) :
    MRes fun ω => if c ω then f ω else g ω := by
  intro S hS
  have : {ω | ∃ x ∈ S, (if c ω then f ω else g ω) = .ok x} = ({ω | c ω} ∩ {ω | ∃ x ∈ S, f ω = .ok x}) ∪ ({ω | c ω}ᶜ ∩ {ω | ∃ x ∈ S, g ω = .ok x}) := by
    ext ω
    by_cases h : c ω <;> simp [h]
  rw [this]
  exact (hc.inter (hf S hS)).union (hc.compl.inter (hg S hS))

/-- A countable choice. -/
theorem MRes.pick {ι : Type} [Countable ι] [MeasurableSpace ι] [MeasurableSingletonClass ι] {i : Ω → ι} (hi : Measurable i) {s : ι → Ω → Res α} (hs : ∀ j, MRes (s j)) :
    MRes fun ω => s (i ω) ω := by
  intro S hS
  have : {ω | ∃ x ∈ S, s (i ω) ω = .ok x} = ⋃ j, i ⁻¹' {j} ∩ {ω | ∃ x ∈ S, s j ω = .ok x} := by
    ext ω
    simp only [Set.mem_iUnion, Set.mem_inter_iff, Set.mem_preimage, Set.mem_singleton_iff]
    constructor
    · intro h; exact ⟨i ω, rfl, h⟩
    · rintro ⟨j, rfl, h⟩; exact h
  rw [this]
  exact .iUnion fun j => (hi (measurableSet_singleton j)).inter (hs j S hS)

theorem MRes.pre (a : Res γ) {s : γ → Ω → Res α} (hs : ∀ b, MRes (s b)) : MRes fun ω => a.bind fun b => s b ω := by
  cases a with
  | error e => exact MRes.err e
  | ok b => exact hs b

/-- The outcome of a computation, whatever it does on failure, depends measurably on where it is made. -/
theorem MRes.both {f : Ω → Res α} {s : Ω → α → Res β} {r : Ω → Res β} (hf : MRes f) (hs : MRes fun p : Ω × α => s p.1 p.2) (hr : MRes r) :
    MRes fun ω => match f ω with
      | .ok x => s ω x
      | .error _ => r ω := by
  intro S hS
  have hD : MeasurableSet {ω | ∃ x ∈ Set.univ, f ω = .ok x} := hf _ MeasurableSet.univ
  by_cases hne : Nonempty α
  · obtain ⟨a⟩ := hne
    classical
    have hg : Measurable fun ω => (match f ω with | .ok x => x | .error _ => a : α) := by
      intro T hT
      have : (fun ω => (match f ω with | .ok x => x | .error _ => a : α)) ⁻¹' T =
          {ω | ∃ x ∈ T, f ω = .ok x} ∪ ({ω | ∃ x ∈ Set.univ, f ω = .ok x}ᶜ ∩ {_ω | a ∈ T}) := by
        ext ω
        cases h : f ω <;> simp [h]
      rw [this]
      exact (hf T hT).union (hD.compl.inter (MeasurableSet.const _))
    have : {ω | ∃ y ∈ S, (match f ω with | .ok x => s ω x | .error _ => r ω : Res β) = .ok y} =
        ({ω | ∃ x ∈ Set.univ, f ω = .ok x} ∩ (fun ω => (ω, (match f ω with | .ok x => x | .error _ => a : α))) ⁻¹' {p | ∃ y ∈ S, s p.1 p.2 = .ok y}) ∪
        ({ω | ∃ x ∈ Set.univ, f ω = .ok x}ᶜ ∩ {ω | ∃ y ∈ S, r ω = .ok y}) := by
      ext ω
      cases h : f ω <;> simp [h]
    rw [this]
    exact (hD.inter ((measurable_id.prodMk hg) (hs S hS))).union (hD.compl.inter (hr S hS))
  · have : (fun ω => match f ω with | .ok x => s ω x | .error _ => r ω) = r := by
      funext ω
      cases f ω with
      | ok x => exact absurd ⟨x⟩ hne
      | error e => rfl
    rw [this]
    exact hr S hS

theorem MRes.congr_ok {f g : Ω → Res α} (hg : MRes g) (h : ∀ ω x, f ω = .ok x ↔ g ω = .ok x) : MRes f := by
  intro S hS
  have : {ω | ∃ x ∈ S, f ω = .ok x} = {ω | ∃ x ∈ S, g ω = .ok x} := by
    ext ω
    simp only [Set.mem_ofPred_eq, h]
  rw [this]
  exact hg S hS

theorem MRes.bind {f : Ω → Res α} {s : Ω → α → Res β} (hf : MRes f) (hs : MRes fun p : Ω × α => s p.1 p.2) : MRes fun ω => (f ω).bind (s ω) := by
  refine MRes.congr_ok (MRes.both hf hs (MRes.const (.error .ub))) fun ω x => ?_
  cases f ω with
  | ok x => rfl
  | error e => constructor <;> intro h <;> cases h

theorem MRes.map {f : Ω → Res α} {g : α → β} (hf : MRes f) (hg : Measurable g) : MRes fun ω => (f ω).map g := by
  refine MRes.congr (MRes.bind (s := fun _ x => .ok (g x)) hf (MRes.ok (hg.comp measurable_snd))) fun ω => ?_
  cases f ω <;> rfl

/-- Using the value of a measurable function. -/
theorem MRes.sub {s : Ω → α → Res β} (hs : MRes fun p : Ω × α => s p.1 p.2) {g : Ω → α} (hg : Measurable g) : MRes fun ω => s ω (g ω) :=
  hs.comp (measurable_id.prodMk hg)

/-! ### Arithmetic -/

theorem MRes.rdiv {a b : Ω → ℝ} (ha : Measurable a) (hb : Measurable b) : MRes fun ω => PNDL.rdiv (a ω) (b ω) := by
  unfold PNDL.rdiv
  exact MRes.ite (measurableSet_eq_fun hb measurable_const) (MRes.err _) (MRes.ok (ha.div hb))

theorem MRes.clog {a : Ω → ℝ} (ha : Measurable a) : MRes fun ω => PNDL.clog (a ω) := by
  unfold PNDL.clog
  exact MRes.ite (measurableSet_lt measurable_const ha) (MRes.ok (Real.measurable_log.comp ha)) (MRes.err _)

theorem MRes.csqrt {a : Ω → ℝ} (ha : Measurable a) : MRes fun ω => PNDL.csqrt (a ω) := by
  unfold PNDL.csqrt
  exact MRes.ite (measurableSet_le measurable_const ha) (MRes.ok ha.sqrt) (MRes.err _)

theorem measurable_clampMu : Measurable clampMu := by
  unfold clampMu
  refine Measurable.ite ?_ (Measurable.ite ?_ measurable_const measurable_const) measurable_id
  · exact measurableSet_lt measurable_const continuous_abs.measurable
  · exact measurableSet_lt measurable_id measurable_const

theorem MRes.getAt {l : List α} {i : Ω → Nat} (hi : Measurable i) : MRes fun ω => PNDL.getAt l (i ω) :=
  MRes.pick (s := fun j _ => PNDL.getAt l j) hi fun _ => MRes.const _

theorem measurable_bisection (l : List ℝ) : ∀ (fuel lo len : Nat), Measurable fun x : ℝ => bisect (fun a => decide (a < x)) l fuel lo len := by
  intro fuel
  induction fuel with
  | zero => intro lo len; exact measurable_const
  | succ fuel ih =>
    intro lo len
    by_cases h : len = 0
    · simp only [bisect, if_pos h]; exact measurable_const
    · simp only [bisect, if_neg h]
      cases l[lo + len / 2]? with
      | none => exact measurable_const
      | some a =>
        simp only [decide_eq_true_eq]
        exact Measurable.ite (measurableSet_lt measurable_const measurable_id) (ih _ _) (ih _ _)

theorem measurable_search (l : List ℝ) : Measurable fun x : ℝ => lowerBound l x := measurable_bisection l _ _ _

theorem measurable_searchRange (l : List ℝ) (a b : Nat) : Measurable fun x : ℝ => lowerBoundRange l a b x := measurable_bisection l _ _ _

/-! ### Independence -/

variable {run : Nat → Tape → Nat → Res (α × Nat)}

/-- One call consumes `n` numbers and returns a value in `S`. -/
def oneSet (run : Nat → Tape → Nat → Res (α × Nat)) (n : Nat) (S : Set α) : Set Tape := {ω | ∃ f x, run f ω 0 = .ok (x, n) ∧ x ∈ S}

/-- `n` calls return values in their sets. -/
def allSet (run : Nat → Tape → Nat → Res (α × Nat)) (n : Nat) (S : Nat → Set α) : Set Tape :=
  {ω | ∃ fuel xs k', collect (run fuel) ω n 0 = .ok (xs, k') ∧ xs.length = n ∧ ∀ i x, xs[i]? = some x → x ∈ S i}

theorem measurable_oneSet (hm : ∀ f, MRes fun ω => run f ω 0) (n : Nat) {S : Set α} (hS : MeasurableSet S) : MeasurableSet (oneSet run n S) := by
  have : oneSet run n S = ⋃ f, {ω | ∃ p ∈ S ×ˢ {n}, run f ω 0 = .ok p} := by
    ext ω
    simp only [oneSet, Set.mem_ofPred_eq, Set.mem_iUnion]
    refine exists_congr fun f => ?_
    constructor
    · rintro ⟨x, h, hx⟩; exact ⟨(x, n), ⟨hx, rfl⟩, h⟩
    · rintro ⟨⟨x, m⟩, ⟨hx, hm⟩, h⟩
      obtain rfl : m = n := hm
      exact ⟨x, h, hx⟩
  rw [this]
  exact .iUnion fun f => hm f _ (hS.prod (measurableSet_singleton n))

omit [MeasurableSpace α] in
theorem within_oneSet (hr : Replay run) (n : Nat) (S : Set α) : Within n (oneSet run n S) := by
  rintro ω ω' ha ⟨f, x, h, hx⟩
  obtain ⟨m, e, hm⟩ := hr f ω 0 x n h
  obtain rfl : n = m := by omega
  refine ⟨f, x, ?_, hx⟩
  have := hm f ω' 0 le_rfl fun i hi => by
    rw [Nat.zero_add]
    exact (ha i hi).symm
  rwa [Nat.zero_add] at this

omit [MeasurableSpace α] in
theorem disjoint_oneSet (hr : Replay run) (S : Set α) : Pairwise (Function.onFun Disjoint fun n => oneSet run n S) := by
  intro n m hnm
  refine Set.disjoint_left.mpr ?_
  rintro ω ⟨f, x, h, _⟩ ⟨f', x', h', _⟩
  have h1 : run f ω 0 = .ok (x, 0 + n) := by rw [Nat.zero_add]; exact h
  have h2 : run f' ω 0 = .ok (x', 0 + m) := by rw [Nat.zero_add]; exact h'
  exact hnm (C151_prefix hr h1 h2 fun _ _ => rfl).2

omit [MeasurableSpace α] in
theorem allSet_succ (hr : Replay run) (n : Nat) (S : Nat → Set α) :
    allSet run (n + 1) S = ⋃ m, {ω | ω ∈ oneSet run m (S 0) ∧ dropT m ω ∈ allSet run n fun i => S (i + 1)} := by
  ext ω
  simp only [Set.mem_iUnion]
  constructor
  · rintro ⟨f, xs, k', h, hl, hx⟩
    simp only [collect, bind] at h
    cases h1 : run f ω 0 with
    | error e => simp only [h1, Except.bind] at h; cases h
    | ok p =>
      obtain ⟨x, m⟩ := p
      simp only [h1, Except.bind] at h
      cases h2 : collect (run f) ω n m with
      | error e => simp only [h2] at h; cases h
      | ok q =>
        obtain ⟨ys, k2⟩ := q
        simp only [h2] at h
        cases h
        obtain ⟨j, rfl, hj⟩ := C151_collect hr n f ω m ys _ h2
        refine ⟨m, ⟨f, x, h1, hx 0 x rfl⟩, f, ys, _, hj f (dropT m ω) 0 le_rfl fun i _ => ?_, by simpa using hl, fun i y hy => hx (i + 1) y hy⟩
        rw [Nat.zero_add]
        rfl
  · rintro ⟨m, ⟨f, x, h1, hx⟩, g, ys, k2, h2, hl, hy⟩
    obtain ⟨a, e, ha⟩ := hr f ω 0 x m h1
    obtain rfl : m = a := by omega
    obtain ⟨b, rfl, hb⟩ := C151_collect hr n g (dropT m ω) 0 ys k2 h2
    have e1 := ha (max f g) ω 0 (le_max_left _ _) fun _ _ => rfl
    have e2 := hb (max f g) ω m (le_max_right _ _) fun i _ => by rw [Nat.zero_add]; rfl
    rw [Nat.zero_add] at e1
    refine ⟨max f g, x :: ys, m + b, ?_, by simp [hl], fun i y h => ?_⟩
    · simp only [collect, bind, e1, Except.bind]
      dsimp only at e2
      rw [e2]
      rfl
    · cases i with
      | zero => cases h; exact hx
      | succ i => exact hy i y h

theorem measurable_allSet (hr : Replay run) (hm : ∀ f, MRes fun ω => run f ω 0) : ∀ (n : Nat) (S : Nat → Set α), (∀ i, MeasurableSet (S i)) →
    MeasurableSet (allSet run n S)
  | 0, S, _ => by
    have : allSet run 0 S = Set.univ := Set.eq_univ_of_forall fun ω => ⟨0, [], 0, rfl, rfl, fun i x h => by simp at h⟩
    rw [this]
    exact MeasurableSet.univ
  | n + 1, S, hS => by
    rw [allSet_succ hr]
    exact .iUnion fun m => (measurable_oneSet hm m (hS 0)).inter (measurable_dropT m (measurable_allSet hr hm n _ fun i => hS (i + 1)))

omit [MeasurableSpace α] in
theorem chance_eq (hr : Replay run) (k : Nat) (S : Set α) : {ω | ∃ fuel x k', run fuel ω k = .ok (x, k') ∧ x ∈ S} = dropT k ⁻¹' ⋃ m, oneSet run m S := by
  ext ω
  simp only [Set.mem_preimage, Set.mem_iUnion]
  constructor
  · rintro ⟨f, x, k', h, hx⟩
    obtain ⟨n, rfl, hn⟩ := hr f ω k x k' h
    refine ⟨n, f, x, ?_, hx⟩
    have := hn f (dropT k ω) 0 le_rfl fun i _ => by rw [Nat.zero_add]; rfl
    rwa [Nat.zero_add] at this
  · rintro ⟨n, f, x, h, hx⟩
    obtain ⟨m, e, hm⟩ := hr f _ 0 x n h
    exact ⟨f, x, _, hm f ω k le_rfl fun i _ => by rw [Nat.zero_add]; rfl, hx⟩

omit [MeasurableSpace α] in
theorem chanceAll_eq (hr : Replay run) (n k : Nat) (S : Nat → Set α) :
    {ω | ∃ fuel xs k', collect (run fuel) ω n k = .ok (xs, k') ∧ xs.length = n ∧ ∀ i x, xs[i]? = some x → x ∈ S i} = dropT k ⁻¹' allSet run n S := by
  ext ω
  simp only [Set.mem_preimage]
  constructor
  · rintro ⟨f, xs, k', h, hx⟩
    obtain ⟨j, rfl, hj⟩ := C151_collect hr n f ω k xs k' h
    exact ⟨f, xs, _, hj f (dropT k ω) 0 le_rfl fun i _ => by rw [Nat.zero_add]; rfl, hx⟩
  · rintro ⟨f, xs, k', h, hx⟩
    obtain ⟨j, e, hj⟩ := C151_collect hr n f _ 0 xs k' h
    exact ⟨f, xs, _, hj f ω k le_rfl fun i _ => by rw [Nat.zero_add]; rfl, hx⟩

/-- A measurable sampler that only uses the numbers it consumes: successive calls are independent. -/
theorem Replay.independent (hr : Replay run) (hm : ∀ f, MRes fun ω => run f ω 0) : IndependentCalls run := by
  intro n k j S hS
  have hU : ∀ (T : Set α), MeasurableSet T → MeasurableSet (⋃ m, oneSet run m T) := fun T hT => .iUnion fun m => measurable_oneSet hm m hT
  have hone : ∀ (i : Nat) (T : Set α), MeasurableSet T → chance run i T = Spec.iid (⋃ m, oneSet run m T) := by
    intro i T hT
    rw [chance, chance_eq hr, ← Measure.map_apply (measurable_dropT i) (hU T hT), iid_drop]
  have hall : ∀ (n : Nat) (S : Nat → Set α), (∀ i, MeasurableSet (S i)) → Spec.iid (allSet run n S) = ∏ i ∈ Finset.range n, Spec.iid (⋃ m, oneSet run m (S i)) := by
    intro n
    induction n with
    | zero =>
      intro S _
      have : allSet run 0 S = Set.univ := Set.eq_univ_of_forall fun ω => ⟨0, [], 0, rfl, rfl, fun i x h => by simp at h⟩
      rw [this]
      simp
    | succ n ih =>
      intro S hS
      have hC := measurable_allSet hr hm n (fun i => S (i + 1)) fun i => hS (i + 1)
      rw [allSet_succ hr, measure_iUnion]
      · have : ∀ m, Spec.iid {ω | ω ∈ oneSet run m (S 0) ∧ dropT m ω ∈ allSet run n fun i => S (i + 1)} =
            Spec.iid (oneSet run m (S 0)) * Spec.iid (allSet run n fun i => S (i + 1)) := fun m =>
          iid_indep _ hC m _ (measurable_oneSet hm m (hS 0)) (within_oneSet hr m _)
        simp only [this]
        rw [ENNReal.tsum_mul_right, ← measure_iUnion (disjoint_oneSet hr _) fun m => measurable_oneSet hm m (hS 0), ih _ fun i => hS (i + 1),
          Finset.prod_range_succ', mul_comm]
      · intro a b hab
        exact (disjoint_oneSet hr (S 0) hab).mono (fun _ h => h.1) fun _ h => h.1
      · exact fun m => (measurable_oneSet hm m (hS 0)).inter (measurable_dropT m hC)
  rw [chanceAll, chanceAll_eq hr, ← Measure.map_apply (measurable_dropT k) (measurable_allSet hr hm n S hS), iid_drop, hall n S hS]
  exact Finset.prod_congr rfl fun i _ => (hone (j i) (S i) (hS i)).symm

end PNDL
