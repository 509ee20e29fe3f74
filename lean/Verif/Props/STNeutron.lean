import Verif.Lemmas.STNeutron
import Verif.Lemmas.XSEval

/-! C55 (look-up of reactions), C56 (the list of MTs), C75 (sharing of distributions), C60 (summed fission), C57 (balance) of `STNeutron`. -/
namespace PNDL
open Spec

set_option linter.unusedSectionVars false

variable {K : Type} [Field K] [LinearOrder K] [IsStrictOrderedRing K]

/-! ## C55 -/

/-- C55, for every object a program can construct and every `mt`: `has_reaction` answers (it never leaves the arrays) and answers true exactly
for the MTs the file provides; `reaction` returns a reaction whose `mt()` is the MT asked for and whose cross section is the one the file gives
for that MT; it throws for any other MT. -/
theorem C55_lookup (a : AceIn K) (s : STN K) (hb : Built a s) (mt : Nat) :
    (s.has mt = .ok true ∧ Provides a mt ∧ ∃ r, s.reaction mt = .ok r ∧ r.mt = mt ∧
        ∃ e ∈ a.rxns, e.mt = mt ∧ r.xs.grid = a.grid ∧ r.xs.index = e.idx ∧ r.xs.values = e.values ∧ a.grid[e.idx]? = some r.threshold) ∨
      (s.has mt = .ok false ∧ ¬ Provides a mt ∧ s.reaction mt = .error .exc) := by
  have ho := built_ok hb
  by_cases hf : FissionMT mt
  · have hf' := (isFisMT_iff mt).mpr hf
    have h1 : s.has mt = .ok (s.fis.slot mt).isSome := by unfold STN.has; rw [if_pos hf', fis_has _ _ hf]
    rcases ho.flook mt hf with ⟨g1, g2⟩ | ⟨g0, e, g1, g2, r, g3, d, g4⟩
    · right
      rw [g2] at h1
      refine ⟨h1, fun hp => ?_, ?_⟩
      · obtain ⟨⟨e, he, hem⟩, hp2⟩ := hp
        exact g1 (hp2 hf) e he hem
      · unfold STN.reaction; rw [h1]; rfl
    · left
      rw [g3] at h1
      obtain ⟨k1, k2, k3, k4, k5, k6, k7⟩ := rxnMake_ok g4
      refine ⟨h1, ⟨⟨e, g1, g2⟩, fun _ => g0⟩, r, ?_, k1, e, g1, g2, k3, k5, k4, k7⟩
      unfold STN.reaction
      rw [h1]
      simp only [bind, Except.bind, Option.isSome_some]
      rw [if_neg (by simp), if_pos hf', fis_reaction _ _ hf, g3]
  · have hf' : isFisMT mt = false := by rw [← Bool.not_eq_true, isFisMT_iff]; exact hf
    have hnf : ¬ (isFisMT mt = true) := by rw [hf']; simp
    by_cases hm : mt > 891
    · right
      have h1 : s.has mt = .ok false := by unfold STN.has; rw [if_neg hnf, if_pos hm]
      refine ⟨h1, fun hp => ?_, by unfold STN.reaction; rw [h1]; rfl⟩
      obtain ⟨⟨e, he, hem⟩, _⟩ := hp
      rcases ho.bound e he with h2 | h2
      · rw [hem] at h2; exact hnf h2
      · omega
    · rcases ho.look mt (by omega) with ⟨g1, g2⟩ | ⟨i, e, r, g1, g2, g3, g4, g5, d, g6⟩
      · right
        have h1 : s.has mt = .ok false := by
          unfold STN.has
          rw [if_neg hnf, if_neg hm, getAt_eq_ok.mpr g2]
          rfl
        refine ⟨h1, fun hp => ?_, by unfold STN.reaction; rw [h1]; rfl⟩
        obtain ⟨⟨e, he, hem⟩, _⟩ := hp
        exact hnf (g1 e he hem)
      · left
        have h1 : s.has mt = .ok true := by
          unfold STN.has
          rw [if_neg hnf, if_neg hm, getAt_eq_ok.mpr g4]
          simp only [bind, Except.bind, pure, Except.pure]
          congr 1
        obtain ⟨k1, k2, k3, k4, k5, k6, k7⟩ := rxnMake_ok g6
        refine ⟨h1, ⟨⟨e, g1, g2⟩, fun h => absurd h hf⟩, r, ?_, k1, e, g1, g2, k3, k5, k4, k7⟩
        unfold STN.reaction
        rw [h1]
        simp only [bind, Except.bind]
        rw [if_neg (by simp), if_neg hnf, getAt_eq_ok.mpr g4]
        simp only [getInt_natCast]
        exact getAt_eq_ok.mpr g5

theorem mem_mts {a : AceIn K} {s : STN K} (ho : StnOk a s) (mt : Nat) :
    mt ∈ (a.rxns.filter (fun e => !isFisMT e.mt)).map RxnIn.mt ++ s.fis.mts ↔ Provides a mt := by
  rw [List.mem_append, ho.fmts]
  constructor
  · rintro (h | h)
    · obtain ⟨e, he, hem⟩ := List.mem_map.mp h
      rw [List.mem_filter] at he
      refine ⟨⟨e, he.1, hem⟩, fun hf => ?_⟩
      rw [← isFisMT_iff, ← hem] at hf
      rw [hf] at he; simp at he
    · by_cases hfi : a.fissile = true
      · rw [if_pos hfi] at h
        obtain ⟨e, he, hem⟩ := List.mem_map.mp h
        rw [List.mem_filter] at he
        exact ⟨⟨e, he.1, hem⟩, fun _ => hfi⟩
      · rw [if_neg hfi] at h; simp at h
  · rintro ⟨⟨e, he, hem⟩, hf⟩
    by_cases h : FissionMT mt
    · right
      rw [if_pos (hf h)]
      exact List.mem_map.mpr ⟨e, List.mem_filter.mpr ⟨he, by rw [hem]; exact (isFisMT_iff mt).mpr h⟩, hem⟩
    · left
      refine List.mem_map.mpr ⟨e, List.mem_filter.mpr ⟨he, ?_⟩, hem⟩
      have : isFisMT e.mt = false := by rw [← Bool.not_eq_true, isFisMT_iff, hem]; exact h
      rw [this]; rfl

/-- C55 against `mt_list()`, for directly constructed data: `has_reaction(mt)` iff `mt` is listed. -/
theorem C55_listed_partial (a : AceIn K) (s : STN K) (h : STN.make a = .ok s) (mt : Nat) : s.has mt = .ok true ↔ mt ∈ s.mts := by
  obtain ⟨ho, _, hm⟩ := stnMake_ok h
  rw [hm, List.mem_insertionSort, mem_mts ho]
  rcases C55_lookup a s (.direct h) mt with ⟨h1, h2, _⟩ | ⟨h1, h2, _⟩
  · simp [h1, h2]
  · simp [h1, h2]

/-- For data that share another object's distributions the same holds of every `mt` but 0.
Missing for the full claim: `mt = 0`, see `C55_violation_shared`. -/
theorem C55_listed_shared_partial (a a' : AceIn K) (b s : STN K) (hb : Built a' b) (h : STN.makeShared a b = .ok s) (mt : Nat) (h0 : mt ≠ 0) :
    s.has mt = .ok true ↔ mt ∈ s.mts := by
  obtain ⟨ho, _, hm, _⟩ := makeShared_ok (built_ok hb) h
  rw [hm, List.mem_insertionSort, List.append_assoc, List.mem_append, mem_mts ho]
  have : mt ∉ List.replicate a.rxns.length 0 := fun hx => h0 (List.eq_of_mem_replicate hx)
  rcases C55_lookup a s (.shared hb h) mt with ⟨h1, h2, _⟩ | ⟨h1, h2, _⟩
  · simp [h1, h2]
  · simp [h1, h2, this]

/-- The full claim is false of the code: data sharing another object's distributions list MT 0 (once for every reaction of the file), which
they do not have. -/
theorem C55_violation_shared (a a' : AceIn K) (b s : STN K) (hb : Built a' b) (h : STN.makeShared a b = .ok s) (hne : a.rxns ≠ [])
    (h0 : ∀ e ∈ a.rxns, e.mt ≠ 0) : 0 ∈ s.mts ∧ s.has 0 = .ok false ∧ s.reaction 0 = .error .exc := by
  obtain ⟨ho, _, hm, _⟩ := makeShared_ok (built_ok hb) h
  refine ⟨?_, ?_⟩
  · rw [hm, List.mem_insertionSort, List.append_assoc]
    apply List.mem_append_left
    rw [List.mem_replicate]
    exact ⟨by simpa using hne, rfl⟩
  · rcases C55_lookup a s (.shared hb h) 0 with ⟨_, ⟨⟨e, he, hem⟩, _⟩, _⟩ | ⟨h1, _, h2⟩
    · exact absurd hem (h0 e he)
    · exact ⟨h1, h2⟩

/-- Nor is construction safe: an MT above 891 in the file is written outside the array of indices. -/
theorem C55_violation_range (a : AceIn K) (e : RxnIn K) (he : e ∈ a.rxns) (hm : 892 ≤ e.mt) (s : STN K) : STN.make a ≠ .ok s := by
  intro h
  rcases (stnMake_ok h).1.bound e he with h1 | h1
  · rw [isFisMT_iff] at h1
    rcases h1 with h1 | h1 | h1 | h1 | h1 <;> omega
  · omega

/-! ## C56 -/

theorem filter_perm {α : Type _} (p : α → Bool) (l : List α) : (l.filter (fun e => !p e) ++ l.filter p).Perm l := by
  have := List.filter_append_perm (fun e => !p e) l
  simpa using this

theorem sortedLE (l : List Nat) : (l.insertionSort (· ≤ ·)).Pairwise (· ≤ ·) := List.pairwise_insertionSort (· ≤ ·) l

/-- C56 for directly constructed data whose file has fission data, or no fission MTs: `mt_list()` is sorted and is a permutation of the file's MTs.
Missing for the full claim: see `C56_violation_shared` and `C56_violation_nonfissile`. -/
theorem C56_list_partial (a : AceIn K) (s : STN K) (h : STN.make a = .ok s) (hf : a.fissile = true ∨ ∀ mt ∈ fileMTs a, ¬ FissionMT mt) :
    s.mts.Pairwise (· ≤ ·) ∧ s.mts.Perm (fileMTs a) := by
  obtain ⟨ho, _, hm⟩ := stnMake_ok h
  rw [hm]
  refine ⟨sortedLE _, (List.perm_insertionSort _ _).trans ?_⟩
  have key : s.fis.mts = (a.rxns.filter (fun e => isFisMT e.mt)).map RxnIn.mt := by
    rw [ho.fmts]
    split
    · rfl
    · rename_i hnf
      rcases hf with hf | hf
      · exact absurd hf hnf
      · rw [List.filter_eq_nil_iff.mpr]
        · rfl
        · intro e he hc
          exact hf e.mt (List.mem_map.mpr ⟨e, he, rfl⟩) ((isFisMT_iff _).mp hc)
  rw [key, ← List.map_append]
  exact (filter_perm (fun e : RxnIn K => isFisMT e.mt) a.rxns).map RxnIn.mt

/-- In every case the directly constructed list is sorted and lists the file's MTs without the fission MTs of a file without fission data. -/
theorem C56_list_general (a : AceIn K) (s : STN K) (h : STN.make a = .ok s) :
    s.mts.Pairwise (· ≤ ·) ∧ s.mts.Perm ((fileMTs a).filter (fun mt => decide (a.fissile = true) || !isFisMT mt)) := by
  obtain ⟨ho, _, hm⟩ := stnMake_ok h
  rw [hm]
  refine ⟨sortedLE _, (List.perm_insertionSort _ _).trans ?_⟩
  rw [ho.fmts]
  unfold fileMTs
  cases hfi : a.fissile with
  | true =>
    simp only [decide_true, Bool.true_or, if_true]
    rw [← List.map_append, List.filter_true]
    exact (filter_perm (fun e : RxnIn K => isFisMT e.mt) a.rxns).map RxnIn.mt
  | false =>
    have : (false = true) = False := by simp
    simp only [this, decide_false, Bool.false_or, if_false, List.append_nil]
    rw [List.filter_map]
    exact List.Perm.refl _

/-- The full claim is false of the code: the constructor that shares another object's distributions puts as many zeros as the file has
reactions into the list. -/
theorem C56_violation_shared (a a' : AceIn K) (b s : STN K) (hb : Built a' b) (h : STN.makeShared a b = .ok s)
    (hf : a.fissile = true ∨ ∀ mt ∈ fileMTs a, ¬ FissionMT mt) :
    s.mts.Pairwise (· ≤ ·) ∧ s.mts.Perm (List.replicate (fileMTs a).length 0 ++ fileMTs a) ∧
      (fileMTs a ≠ [] → ¬ s.mts.Perm (fileMTs a)) := by
  obtain ⟨ho, _, hm, _⟩ := makeShared_ok (built_ok hb) h
  have key : s.fis.mts = (a.rxns.filter (fun e => isFisMT e.mt)).map RxnIn.mt := by
    rw [ho.fmts]
    split
    · rfl
    · rename_i hnf
      rcases hf with hf | hf
      · exact absurd hf hnf
      · rw [List.filter_eq_nil_iff.mpr]
        · rfl
        · intro e he hc
          exact hf e.mt (List.mem_map.mpr ⟨e, he, rfl⟩) ((isFisMT_iff _).mp hc)
  have hp : s.mts.Perm (List.replicate (fileMTs a).length 0 ++ fileMTs a) := by
    rw [hm]
    refine (List.perm_insertionSort _ _).trans ?_
    rw [key, List.append_assoc, ← List.map_append]
    have h1 := (filter_perm (fun e : RxnIn K => isFisMT e.mt) a.rxns).map RxnIn.mt
    have h2 : (fileMTs a).length = a.rxns.length := by simp [fileMTs]
    rw [h2]
    exact List.Perm.append_left _ h1
  refine ⟨by rw [hm]; exact sortedLE _, hp, fun hne hc => ?_⟩
  have := (hp.symm.trans hc).length_eq
  have hpos := List.length_pos_iff.mpr hne
  simp at this
  exact hne this

/-- ... and a file that lists a fission MT but has no fission data loses it. -/
theorem C56_violation_nonfissile (a : AceIn K) (s : STN K) (h : STN.make a = .ok s) (hf : a.fissile = false) (mt : Nat)
    (hmt : FissionMT mt) (hmem : mt ∈ fileMTs a) : mt ∉ s.mts ∧ ¬ s.mts.Perm (fileMTs a) := by
  have h1 : mt ∉ s.mts := by
    rw [← C55_listed_partial a s h mt]
    rcases C55_lookup a s (.direct h) mt with ⟨_, ⟨_, h2⟩, _⟩ | ⟨h1, _⟩
    · rw [hf] at h2; exact absurd (h2 hmt) (by simp)
    · rw [h1]; simp
  exact ⟨h1, fun hp => h1 (hp.mem_iff.mpr hmem)⟩

/-! ## C75 -/

/-- C75: an object built by sharing takes from the other object the distributions of every reaction it has, MT by MT — which the other object
therefore also has —, while its cross sections are those of its own file (`C55_lookup`). -/
theorem C75_shared (a a' : AceIn K) (b s : STN K) (hb : Built a' b) (h : STN.makeShared a b = .ok s) (mt : Nat) (r : Rxn K)
    (hr : s.reaction mt = .ok r) : ∃ o, b.reaction mt = .ok o ∧ r.dist = o.dist ∧ o.mt = mt := by
  have hbo := built_ok hb
  obtain ⟨ho, _, _, hs1, hs2⟩ := makeShared_ok hbo h
  by_cases hf : FissionMT mt
  · have hf' := (isFisMT_iff mt).mpr hf
    have hslot : s.fis.slot mt = some r := by
      unfold STN.reaction STN.has at hr
      rw [if_pos hf', fis_has _ _ hf] at hr
      simp only [bind, Except.bind] at hr
      cases hx : s.fis.slot mt with
      | none => rw [hx] at hr; simp at hr
      | some r' =>
        rw [hx, Option.isSome_some, if_neg (by simp), if_pos hf', fis_reaction _ _ hf, hx] at hr
        cases hr; rfl
    obtain ⟨o, ho1, ho2⟩ := hs2 mt r hf hslot
    rcases C55_lookup a' b hb mt with ⟨_, _, o', h1, h2, _⟩ | ⟨h1, _, _⟩
    · refine ⟨o', h1, ?_, h2⟩
      rw [ho2]
      have h3 : b.reaction mt = .ok o := by
        unfold STN.reaction STN.has
        rw [if_pos hf', fis_has _ _ hf, ho1]
        simp only [bind, Except.bind, Option.isSome_some]
        rw [if_neg (by simp), if_pos hf', fis_reaction _ _ hf, ho1]
      rw [h1] at h3
      cases h3; rfl
    · unfold STN.has at h1
      rw [if_pos hf', fis_has _ _ hf, ho1] at h1
      cases h1
  · have hf' : isFisMT mt = false := by rw [← Bool.not_eq_true, isFisMT_iff]; exact hf
    have hnf : ¬ (isFisMT mt = true) := by rw [hf']; simp
    have hm : ¬ mt > 891 := by
      intro hm
      unfold STN.reaction STN.has at hr
      rw [if_neg hnf, if_pos hm] at hr
      cases hr
    rcases ho.look mt (by omega) with ⟨_, g2⟩ | ⟨i, e, r', g1, g2, g3, g4, g5, d, g6⟩
    · unfold STN.reaction STN.has at hr
      rw [if_neg hnf, if_neg hm, getAt_eq_ok.mpr g2] at hr
      cases hr
    · have hr' : r' = r := by
        unfold STN.reaction STN.has at hr
        rw [if_neg hnf, if_neg hm, getAt_eq_ok.mpr g4] at hr
        simp only [bind, Except.bind, pure, Except.pure] at hr
        rw [if_neg (by simp), if_neg hnf, getInt_natCast, getAt_eq_ok.mpr g5] at hr
        cases hr; rfl
      subst hr'
      obtain ⟨j, o, k1, k2, k3⟩ := hs1 mt (by omega) r' i hf' g4 g5
      have h3 : b.reaction mt = .ok o := by
        unfold STN.reaction STN.has
        rw [if_neg hnf, if_neg hm, getAt_eq_ok.mpr k1]
        simp only [bind, Except.bind, pure, Except.pure]
        rw [if_neg (by simp), if_neg hnf, getInt_natCast, getAt_eq_ok.mpr k2]
      rcases C55_lookup a' b hb mt with ⟨_, _, o', h1, h2, _⟩ | ⟨_, _, h1⟩
      · rw [h3] at h1
        cases h1
        exact ⟨o, h3, k3, h2⟩
      · rw [h3] at h1; cases h1

/-! ## C60 -/

theorem at_good {x : XS K} (hg : GoodXS x) (i : Nat) (hi : i < x.grid.length) : ∃ v, x.at i = .ok v ∧ 0 ≤ v ∧ (i < x.index → v = 0) := by
  have hb := hg.below
  have ha := hg.aligned
  unfold XS.at
  rw [if_neg (by simp [hg.notSingle])]
  by_cases h1 : i < x.index
  · rw [if_pos h1]; exact ⟨0, rfl, le_rfl, fun _ => rfl⟩
  · rw [if_neg h1, if_neg (by omega)]
    obtain ⟨v, hv⟩ := getElem?_of_lt (l := x.values) (i := i - x.index) (by omega)
    exact ⟨v, getAt_eq_ok.mpr hv, hg.nonneg v (List.mem_of_getElem? hv), fun h => absurd h h1⟩

theorem mapM_get {α β : Type} (f : α → Res β) : ∀ (l : List α) (vs : List β), l.mapM f = .ok vs →
    vs.length = l.length ∧ ∀ (i : Nat) (a : α), l[i]? = some a → ∃ v, vs[i]? = some v ∧ f a = .ok v := by
  intro l
  induction l with
  | nil =>
    intro vs h
    simp only [List.mapM_nil, pure, Except.pure] at h
    cases h
    exact ⟨rfl, by simp⟩
  | cons x l ih =>
    intro vs h
    rw [List.mapM_cons] at h
    obtain ⟨y, h1, h2⟩ := bind_ok h
    obtain ⟨ys, h3, h4⟩ := bind_ok h2
    cases h4
    obtain ⟨k1, k2⟩ := ih ys h3
    refine ⟨by simp [k1], fun i a hi => ?_⟩
    cases i with
    | zero =>
      simp only [List.getElem?_cons_zero] at hi
      cases hi
      exact ⟨y, rfl, h1⟩
    | succ i =>
      simp only [List.getElem?_cons_succ] at hi ⊢
      exact k2 i a hi

theorem mapM_exists {α β : Type} (f : α → Res β) : ∀ (l : List α), (∀ a ∈ l, ∃ v, f a = .ok v) → ∃ vs, l.mapM f = .ok vs := by
  intro l
  induction l with
  | nil => intro _; exact ⟨[], rfl⟩
  | cons x l ih =>
    intro h
    obtain ⟨y, hy⟩ := h x (by simp)
    obtain ⟨ys, hys⟩ := ih (fun a ha => h a (by simp [ha]))
    refine ⟨y :: ys, ?_⟩
    rw [List.mapM_cons, hy]
    simp only [bind, Except.bind, hys, pure, Except.pure]

/-- Specification: `x` is what reaction `mt` contributes at grid index `i` (0 if the nuclide does not have it). -/
def Spec.Contribution (s : STN K) (mt i : Nat) (x : K) : Prop :=
  (s.has mt = .ok true ∧ ∃ r, s.reaction mt = .ok r ∧ r.xs.at i = .ok x) ∨ (s.has mt = .ok false ∧ x = 0)

theorem contribution_of_slot {a : AceIn K} {s : STN K} (ho : StnOk a s) (mt i : Nat) (hm : FissionMT mt) (hi : i < a.grid.length) :
    ∃ x, Contribution s mt i x ∧ 0 ≤ x ∧ (∀ l, i < l → lowerIdx (s.fis.slot mt) l > i → x = 0) ∧ ∀ v, addAt (s.fis.slot mt) i v = .ok (v + x) := by
  have hm' := (isFisMT_iff mt).mpr hm
  have h1 : s.has mt = .ok (s.fis.slot mt).isSome := by unfold STN.has; rw [if_pos hm', fis_has _ _ hm]
  rcases ho.flook mt hm with ⟨_, g2⟩ | ⟨_, e, _, _, r, g3, d, g4⟩
  · rw [g2] at h1 ⊢
    exact ⟨0, Or.inr ⟨h1, rfl⟩, le_rfl, fun _ _ _ => rfl, fun v => by simp [addAt]⟩
  · obtain ⟨_, _, k3, _, _, k6, _⟩ := rxnMake_ok g4
    obtain ⟨x, hx, hx0, hxz⟩ := at_good k6 i (by rw [k3]; exact hi)
    rw [g3] at h1 ⊢
    refine ⟨x, Or.inl ⟨h1, r, ?_, hx⟩, hx0, fun l hl hlow => hxz ?_, fun v => ?_⟩
    · unfold STN.reaction
      rw [h1]
      simp only [bind, Except.bind, Option.isSome_some]
      rw [if_neg (by simp), if_pos hm', fis_reaction _ _ hm, g3]
    · simp only [lowerIdx] at hlow
      split at hlow <;> omega
    · simp only [addAt, hx, bind, Except.bind, pure, Except.pure]

theorem lowerIdx_le (r : Option (Rxn K)) (l : Nat) : lowerIdx r l ≤ l := by
  unfold lowerIdx
  split
  · split <;> omega
  · exact le_rfl

theorem lowerIdx_mono (r : Option (Rxn K)) {l l' : Nat} (h : l ≤ l') : lowerIdx r l ≤ lowerIdx r l' := by
  unfold lowerIdx
  split
  · split <;> split <;> omega
  · exact h

/-- C60: for every object a program can construct of a fissile nuclide without MT 18, and every index of the energy grid, the fission cross
section is the sum of what the partial reactions 19, 20, 21 and 38 contribute there. -/
theorem C60_sum (a : AceIn K) (s : STN K) (hb : Built a s) (hf : s.fissile = true) (h18 : s.has 18 = .ok false) (h32 : a.grid.length < 2 ^ 32)
    (i : Nat) (hi : i < a.grid.length) :
    ∃ x19 x20 x21 x38, Contribution s 19 i x19 ∧ Contribution s 20 i x20 ∧ Contribution s 21 i x21 ∧ Contribution s 38 i x38 ∧
      s.fissionXS.at i = .ok (x19 + x20 + x21 + x38) := by
  have ho := built_ok hb
  have hn18 : s.fis.m18 = Option.none := by
    have : s.has 18 = .ok (s.fis.slot 18).isSome := by
      unfold STN.has; rw [if_pos (by rfl), fis_has _ _ (Or.inl rfl)]
    rw [this] at h18
    have h2 : (s.fis.slot 18).isSome = false := by simpa using h18
    simpa [Fis.slot] using h2
  obtain ⟨x19, c19, n19, z19, a19⟩ := contribution_of_slot ho 19 i (by simp [FissionMT]) hi
  obtain ⟨x20, c20, n20, z20, a20⟩ := contribution_of_slot ho 20 i (by simp [FissionMT]) hi
  obtain ⟨x21, c21, n21, z21, a21⟩ := contribution_of_slot ho 21 i (by simp [FissionMT]) hi
  obtain ⟨x38, c38, n38, z38, a38⟩ := contribution_of_slot ho 38 i (by simp [FissionMT]) hi
  refine ⟨x19, x20, x21, x38, c19, c20, c21, c38, ?_⟩
  have hx := ho.fxs
  unfold computeFission at hx
  rw [if_neg (by simp [hf]), hn18] at hx
  dsimp only at hx
  have e19 : s.fis.slot 19 = s.fis.m19 := rfl
  have e20 : s.fis.slot 20 = s.fis.m20 := rfl
  have e21 : s.fis.slot 21 = s.fis.m21 := rfl
  have e38 : s.fis.slot 38 = s.fis.m38 := rfl
  rw [e19] at z19 a19; rw [e20] at z20 a20; rw [e21] at z21 a21; rw [e38] at z38 a38
  have hsum : sumAt s.fis i = .ok (x19 + x20 + x21 + x38) := by
    unfold sumAt
    simp only [a19, a20, a21, a38, bind, Except.bind, zero_add]
  -- the lowest index
  have l19 := lowerIdx_le s.fis.m19 a.grid.length
  have l20 := lowerIdx_le s.fis.m20 (lowerIdx s.fis.m19 a.grid.length)
  have l21 := lowerIdx_le s.fis.m21 (lowerIdx s.fis.m20 (lowerIdx s.fis.m19 a.grid.length))
  have l38 := lowerIdx_le s.fis.m38 (lowerIdx s.fis.m21 (lowerIdx s.fis.m20 (lowerIdx s.fis.m19 a.grid.length)))
  have z19' := z19 _ hi
  have z20' := fun h => z20 (lowerIdx s.fis.m19 a.grid.length) h
  have z21' := fun h => z21 (lowerIdx s.fis.m20 (lowerIdx s.fis.m19 a.grid.length)) h
  have z38' := fun h => z38 (lowerIdx s.fis.m21 (lowerIdx s.fis.m20 (lowerIdx s.fis.m19 a.grid.length))) h
  obtain ⟨low, hlow⟩ : ∃ low, low = lowerIdx s.fis.m38 (lowerIdx s.fis.m21 (lowerIdx s.fis.m20 (lowerIdx s.fis.m19 a.grid.length))) := ⟨_, rfl⟩
  rw [← hlow] at hx l38 z38'
  obtain ⟨vs, h1, h2⟩ := bind_ok hx
  obtain ⟨k1, k2⟩ := mapM_get _ _ _ h1
  rcases C29_construction_partial vs a.grid low (by omega) with ⟨⟨t, t1, t2, t3, t4, t5⟩, _⟩ | ⟨t, _⟩
  · rw [t1] at h2
    cases h2
    have hbel := t5.below
    have hal := t5.aligned
    rw [t2, t4] at hbel
    unfold XS.at
    rw [if_neg (by simp [t5.notSingle]), t4]
    by_cases hil : i < low
    · rw [if_pos hil]
      have q38 : x38 = 0 := z38' (by omega) (by omega)
      have q21 : x21 = 0 := z21' (by omega) (by omega)
      have q20 : x20 = 0 := z20' (by omega) (by omega)
      have q19 : x19 = 0 := z19' (by omega)
      rw [q38, q21, q20, q19]; simp
    · have hvl : vs.length = a.grid.length - low := by rw [k1]; simp
      rw [if_neg hil, t3, if_neg (by omega)]
      obtain ⟨v, w1, w2⟩ := k2 (i - low) i (by
        rw [List.getElem?_range' (by omega)]
        congr 1
        omega)
      rw [hsum] at w2
      cases w2
      exact getAt_eq_ok.mpr w1
  · rw [t] at h2; cases h2

/-- ... and with MT 18 present the fission cross section is that reaction's; a nuclide that is not fissile has a zero fission cross section. -/
theorem C60_with_18 (a : AceIn K) (s : STN K) (hb : Built a s) (hf : s.fissile = true) (h18 : s.has 18 = .ok true) :
    ∃ r, s.reaction 18 = .ok r ∧ s.fissionXS = r.xs := by
  have ho := built_ok hb
  have h1 : s.has 18 = .ok (s.fis.slot 18).isSome := by
    unfold STN.has; rw [if_pos (by rfl), fis_has _ _ (Or.inl rfl)]
  rw [h18] at h1
  cases h2 : s.fis.m18 with
  | none => simp [Fis.slot, h2] at h1
  | some r =>
    have hx := ho.fxs
    unfold computeFission at hx
    rw [if_neg (by simp [hf]), h2] at hx
    refine ⟨r, ?_, (Except.ok.inj hx).symm⟩
    unfold STN.reaction
    rw [h18]
    simp only [bind, Except.bind]
    rw [if_neg (by simp), if_pos (by rfl), fis_reaction _ _ (Or.inl rfl)]
    simp [Fis.slot, h2]

theorem C60_not_fissile (a : AceIn K) (s : STN K) (hb : Built a s) (hf : s.fissile = false) (i : Nat) : s.fissionXS.at i = .ok 0 := by
  have ho := built_ok hb
  have hx := ho.fxs
  unfold computeFission XS.makeConst at hx
  rw [if_pos hf, if_neg (lt_irrefl _)] at hx
  rw [← Except.ok.inj hx]
  rfl

/-! ## C57 -/

/-- C57: for every nuclide, energy and index, if `evaluate_xs` returns a packet its entries are the nuclide's cross sections evaluated at the same
point, absorption is disappearance plus fission, the inelastic entry is what is left of the total, or 0 if that is negative, so the packet is
balanced exactly when the total is at least elastic plus absorption. -/
theorem C57_balance (s : STN K) (E : K) (i : Nat) (p : XSPacket K) (h : s.evaluate E i = .ok p) :
    s.total.evalIdx E i = .ok p.total ∧ s.elastic.evalIdx E i = .ok p.elastic ∧ s.fissionXS.evalIdx E i = .ok p.fission ∧
      s.heating.evalIdx E i = .ok p.heating ∧
      (∃ d, s.disap.evalIdx E i = .ok d ∧ p.absorption = d + p.fission) ∧
      (s.has 102 = .ok true → ∃ r, s.reaction 102 = .ok r ∧ r.xs.evalIdx E i = .ok p.capture) ∧ (s.has 102 = .ok false → p.capture = 0) ∧
      0 ≤ p.inelastic ∧ (p.elastic + p.absorption ≤ p.total → p.total = p.elastic + p.inelastic + p.absorption) ∧
      (p.total < p.elastic + p.absorption → p.inelastic = 0) := by
  unfold STN.evaluate at h
  obtain ⟨t, h1, h⟩ := bind_ok h
  obtain ⟨e, h2, h⟩ := bind_ok h
  obtain ⟨f, h3, h⟩ := bind_ok h
  obtain ⟨d, h4, h⟩ := bind_ok h
  obtain ⟨q, h5, h⟩ := bind_ok h
  obtain ⟨b, h6, h⟩ := bind_ok h
  obtain ⟨c, h7, h⟩ := bind_ok h
  cases h
  dsimp only
  refine ⟨h1, h2, h3, h5, ⟨d, h4, rfl⟩, fun hb => ?_, fun hb => ?_, ?_, fun hle => ?_, fun hlt => ?_⟩
  · rw [hb] at h6
    cases h6
    rw [if_pos rfl] at h7
    obtain ⟨r, k1, k2⟩ := bind_ok h7
    exact ⟨r, k1, k2⟩
  · rw [hb] at h6
    cases h6
    rw [if_neg (by simp)] at h7
    cases h7; rfl
  · split
    · exact le_rfl
    · rename_i hn; exact not_lt.mp hn
  · rw [if_neg (by rw [not_lt]; linarith)]; ring
  · rw [if_pos (by linarith)]

theorem fissionXS_ok {a : AceIn K} {s : STN K} (hb : Built a s) (hpos : 0 < a.grid.length) (h32 : a.grid.length < 2 ^ 32) :
    (GoodXS s.fissionXS ∨ ConstXS s.fissionXS) ∧ s.fissionXS.grid = a.grid := by
  have ho := built_ok hb
  have hx := ho.fxs
  unfold computeFission at hx
  split at hx
  · unfold XS.makeConst at hx
    rw [if_neg (lt_irrefl _)] at hx
    rw [← Except.ok.inj hx]
    exact ⟨Or.inr ⟨rfl, ⟨0, rfl, le_rfl⟩, hpos⟩, rfl⟩
  · split at hx
    · rename_i r hr
      rw [← Except.ok.inj hx]
      rcases ho.flook 18 (Or.inl rfl) with ⟨_, g⟩ | ⟨_, e, _, _, r', g, d, g4⟩
      · simp [Fis.slot, hr] at g
      · simp only [Fis.slot, hr, if_true] at g
        cases g
        obtain ⟨_, _, k3, _, _, k6, _⟩ := rxnMake_ok g4
        exact ⟨Or.inl k6, k3⟩
    · obtain ⟨vs, h1, h2⟩ := bind_ok hx
      obtain ⟨low, hlow⟩ : ∃ low, low = lowerIdx s.fis.m38 (lowerIdx s.fis.m21 (lowerIdx s.fis.m20 (lowerIdx s.fis.m19 a.grid.length))) := ⟨_, rfl⟩
      have l19 := lowerIdx_le s.fis.m19 a.grid.length
      have l20 := lowerIdx_le s.fis.m20 (lowerIdx s.fis.m19 a.grid.length)
      have l21 := lowerIdx_le s.fis.m21 (lowerIdx s.fis.m20 (lowerIdx s.fis.m19 a.grid.length))
      have l38 := lowerIdx_le s.fis.m38 (lowerIdx s.fis.m21 (lowerIdx s.fis.m20 (lowerIdx s.fis.m19 a.grid.length)))
      rw [← hlow] at h2 l38
      rcases C29_construction_partial vs a.grid low (by omega) with ⟨⟨t, t1, t2, t3, t4, t5⟩, _⟩ | ⟨t, _⟩
      · rw [t1] at h2
        cases h2
        exact ⟨Or.inl t5, t2⟩
      · rw [t] at h2; cases h2

theorem makeAce_full {values grid : List K} {heating : Bool} {x : XS K} (h : XS.makeAce values grid 0 heating = .ok x)
    (hpos : 0 < grid.length) : FullXS x ∧ x.grid = grid ∧ (heating = false → GoodXS x) := by
  obtain ⟨g1, g2, g3, g4, g5⟩ := C29_ace _ _ _ _ _ h
  have hs : x.single = false := by
    unfold XS.makeAce at h
    split at h
    · cases h
    · split at h
      · cases h
      · cases h; rfl
  exact ⟨⟨hs, by rw [g3, g1]; exact hpos, by rw [g3, g1, g2]; exact g4⟩, g1,
    fun hh => ⟨hs, by rw [g3, g1]; exact hpos, by rw [g3, g1, g2]; exact g4, by rw [g2]; exact g5 hh⟩⟩

/-- ... and `evaluate_xs` always returns on a grid of distinct energies, with non-negative entries (heating aside) when the index brackets the energy. -/
theorem C57_total (a : AceIn K) (s : STN K) (hb : Built a s) (hs : a.grid.Pairwise (· < ·)) (hpos : 0 < a.grid.length)
    (h32 : a.grid.length < 2 ^ 32) (E : K) (i : Nat) :
    ∃ p, s.evaluate E i = .ok p ∧
      (Brackets a.grid E i → 0 ≤ p.total ∧ 0 ≤ p.elastic ∧ 0 ≤ p.fission ∧ 0 ≤ p.absorption ∧ 0 ≤ p.capture ∧ 0 ≤ p.inelastic ∧
        p.fission ≤ p.absorption) := by
  have ho := built_ok hb
  have hm := ho.main
  unfold MainXS.make at hm
  obtain ⟨t, h1, hm⟩ := bind_ok hm
  obtain ⟨d, h2, hm⟩ := bind_ok hm
  obtain ⟨e, h3, hm⟩ := bind_ok hm
  obtain ⟨q, h4, hm⟩ := bind_ok hm
  have hm' : (⟨t, d, e, q⟩ : MainXS K) = ⟨s.total, s.disap, s.elastic, s.heating⟩ := by cases hm; rfl
  injection hm' with e1 e2 e3 e4
  subst e1; subst e2; subst e3; subst e4
  obtain ⟨ft, gt, ot⟩ := makeAce_full h1 hpos
  obtain ⟨fd, gd, od⟩ := makeAce_full h2 hpos
  obtain ⟨fe, ge, oe⟩ := makeAce_full h3 hpos
  obtain ⟨fq, gq, _⟩ := makeAce_full h4 hpos
  obtain ⟨ff, gf⟩ := fissionXS_ok hb hpos h32
  obtain ⟨vt, wt⟩ := evalIdx_total (Or.inl ft) (gt ▸ hs) E i
  obtain ⟨vd, wd⟩ := evalIdx_total (Or.inl fd) (gd ▸ hs) E i
  obtain ⟨ve, we⟩ := evalIdx_total (Or.inl fe) (ge ▸ hs) E i
  obtain ⟨vq, wq⟩ := evalIdx_total (Or.inl fq) (gq ▸ hs) E i
  obtain ⟨vf, wf⟩ := evalIdx_total (ff.imp_left GoodXS.full) (gf ▸ hs) E i
  have hc : ∃ h c, s.has 102 = .ok h ∧ (if h then do let r ← s.reaction 102; r.xs.evalIdx E i else .ok 0 : Res K) = .ok c ∧
      (Brackets a.grid E i → 0 ≤ c) := by
    rcases C55_lookup a s hb 102 with ⟨k1, _, r, k2, _, e, _, _, k3, k4, k5, k6⟩ | ⟨k1, _, k2⟩
    · have hgood : GoodXS r.xs := by
        rcases ho.look 102 (by omega) with ⟨_, g2⟩ | ⟨j, e', r', g1, g2, g3, g4, g5, d, g6⟩
        · exfalso
          unfold STN.has at k1
          rw [if_neg (by decide), if_neg (by decide), getAt_eq_ok.mpr g2] at k1
          simp [bind, Except.bind, pure, Except.pure] at k1
        · have : r' = r := by
            unfold STN.reaction at k2
            rw [k1] at k2
            simp only [bind, Except.bind] at k2
            rw [if_neg (by simp), if_neg (by decide), getAt_eq_ok.mpr g4] at k2
            simp only [getInt_natCast] at k2
            rw [getAt_eq_ok.mpr g5] at k2
            cases k2; rfl
          subst this
          exact (rxnMake_ok g6).2.2.2.2.2.1
      obtain ⟨c, hc⟩ := evalIdx_total (Or.inl hgood.full) (k3 ▸ hs) E i
      refine ⟨true, c, k1, ?_, fun hbr => evalIdx_nonneg (Or.inl hgood) (k3 ▸ hs) E i (k3 ▸ hbr) c hc⟩
      rw [if_pos rfl, k2]
      exact hc
    · exact ⟨false, 0, k1, rfl, fun _ => le_rfl⟩
  obtain ⟨hh, c, w1, w2, w3⟩ := hc
  refine ⟨⟨vt, ve, if vt - ve - (vd + vf) < 0 then 0 else vt - ve - (vd + vf), vd + vf, vf, c, vq⟩, ?_, fun hbr => ?_⟩
  · unfold STN.evaluate
    simp only [wt, we, wf, wd, wq, w1, bind, Except.bind, pure, Except.pure]
    simp only [bind, Except.bind] at w2
    rw [w2]
  · have n1 := evalIdx_nonneg (Or.inl (ot rfl)) (gt ▸ hs) E i (gt ▸ hbr) vt wt
    have n2 := evalIdx_nonneg (Or.inl (oe rfl)) (ge ▸ hs) E i (ge ▸ hbr) ve we
    have n3 := evalIdx_nonneg ff (gf ▸ hs) E i (gf ▸ hbr) vf wf
    have n4 := evalIdx_nonneg (Or.inl (od rfl)) (gd ▸ hs) E i (gd ▸ hbr) vd wd
    refine ⟨n1, n2, n3, add_nonneg n4 n3, w3 hbr, ?_, by simp only; linarith⟩
    dsimp only
    split
    · exact le_rfl
    · rename_i hn; exact not_lt.mp hn

/-- Through the hashed look-up: from the first grid energy on `evaluate_xs(E)` returns a packet with non-negative entries. -/
theorem C57_evaluate (a : AceIn ℝ) (s : STN ℝ) (hb : Built a s) (hs : a.grid.Pairwise (· < ·)) (mn : ℝ) (h0 : a.grid[0]? = some mn) (hmn : 0 < mn)
    (h32 : a.grid.length < 2 ^ 32) (nbins : Nat) (hn : 1 ≤ nbins) (hn2 : nbins < 2 ^ 32 - 1) :
    ∃ g, EGrid.make a.grid nbins = .ok g ∧ ∀ E, mn ≤ E → ∃ p, STN.evaluateE g s E = .ok p ∧ 0 ≤ p.total ∧ 0 ≤ p.elastic ∧ 0 ≤ p.fission ∧
      0 ≤ p.absorption ∧ 0 ≤ p.capture ∧ 0 ≤ p.inelastic ∧ p.fission ≤ p.absorption ∧
      (p.elastic + p.absorption ≤ p.total → p.total = p.elastic + p.inelastic + p.absorption) := by
  obtain ⟨g, h1, _, h3⟩ := C28_lower_index a.grid nbins mn (hs.imp le_of_lt) h0 hmn h32 hn hn2
  refine ⟨g, h1, fun E hE => ?_⟩
  obtain ⟨i, h4, h5⟩ := h3 E
  obtain ⟨p, k1, k2⟩ := C57_total a s hb hs (by have := lt_length_of_some h0; omega) h32 E i
  obtain ⟨q1, q2, q3, q4, q5, q6, q7⟩ := k2 (lowerIndex_brackets hs h0 hE h5)
  refine ⟨p, ?_, q1, q2, q3, q4, q5, q6, q7, (C57_balance s E i p k1).2.2.2.2.2.2.2.2.1⟩
  unfold STN.evaluateE
  rw [h4]
  exact k1

/-! ## A concrete nuclide -/

namespace Example

/-- A fissile file without MT 18. -/
def ace : AceIn ℚ where
  fissile := true
  grid := [1, 2, 4]
  total := [10, 9, 8]
  disap := [1, 1, 1]
  elastic := [4, 4, 3]
  heating := [0, -1, 1]
  rxns := [⟨102, 0, [1, 1, 1], 7⟩, ⟨19, 0, [2, 3, 3], 8⟩, ⟨20, 2, [1], 9⟩, ⟨51, 1, [1, 2], 10⟩, ⟨21, 2, [0], 11⟩, ⟨38, 2, [0], 12⟩]

example : (STN.make ace).map STN.mts = .ok [19, 20, 21, 38, 51, 102] := by decide +kernel
example : ((STN.make ace).bind fun s => s.fissionXS.at 2) = .ok 4 := by decide +kernel
example : ((STN.make ace).bind fun s => s.has 51) = .ok true := by decide +kernel
example : ((STN.make ace).bind fun s => (s.reaction 51).map Rxn.mt) = .ok 51 := by decide +kernel
example : ((STN.make ace).bind fun s => (s.reaction 4).map Rxn.mt) = .error .exc := by decide +kernel
example : ((STN.make ace).bind fun s => (s.reaction 70000).map Rxn.mt) = .error .exc := by decide +kernel
example : ((STN.make ace).bind fun s => s.evaluate 3 1) =
    .ok { total := 17 / 2, elastic := 7 / 2, inelastic := 1 / 2, absorption := 9 / 2, fission := 7 / 2, capture := 1, heating := 0 } := by
  decide +kernel
example : ((STN.make ace).bind fun s => (STN.makeShared ace s).map STN.mts) = .ok [0, 0, 0, 0, 0, 0, 19, 20, 21, 38, 51, 102] := by
  decide +kernel

end Example

end PNDL
