import Verif.Props.NucAce
import Verif.Props.URR

/-! C102: which neutron files are accepted. -/
namespace PNDL
open Spec

set_option linter.unusedSectionVars false

variable {K : Type} [Field K] [LinearOrder K] [IsStrictOrderedRing K]

/-! ### The contents -/

namespace Spec

/-- A cross section tabulated from grid point `idx` on: a value for every further grid point, none of them negative. -/
def Tabulated (grid values : List K) (idx : Nat) : Prop := idx + values.length = grid.length ∧ ∀ v ∈ values, 0 ≤ v

/-- The contents of a neutron file that can be used: a value per grid point in the main columns, none negative except for heating; every reaction
that is looked at has an MT below 892 and a cross section starting on the grid and reaching to its end; a fissile nuclide has MT 18, or all of
MT 19, 20, 21 and 38. -/
structure Acceptable (a : AceIn K) : Prop where
  total : Tabulated a.grid a.total 0
  disap : Tabulated a.grid a.disap 0
  elastic : Tabulated a.grid a.elastic 0
  heating : a.heating.length = a.grid.length
  entry : ∀ e ∈ a.rxns, (FissionMT e.mt → a.fissile = true) → e.mt < 892 ∧ e.idx < a.grid.length ∧ Tabulated a.grid e.values e.idx
  fission : a.fissile = true → (∃ e ∈ a.rxns, e.mt = 18) ∨ ((∃ e ∈ a.rxns, e.mt = 19) ∧ (∃ e ∈ a.rxns, e.mt = 20) ∧ (∃ e ∈ a.rxns, e.mt = 21) ∧ ∃ e ∈ a.rxns, e.mt = 38)

end Spec

theorem makeAce_iff {values grid : List K} {idx : Nat} {h : Bool} :
    (∃ s, XS.makeAce values grid idx h = .ok s) ↔ idx + values.length = grid.length ∧ (h = false → ∀ v ∈ values, 0 ≤ v) := by
  constructor
  · rintro ⟨s, hs⟩
    obtain ⟨_, _, _, h1, h2⟩ := C29_ace _ _ _ _ _ hs
    exact ⟨h1, h2⟩
  · rintro ⟨h1, h2⟩
    unfold XS.makeAce
    rw [if_neg (by omega), if_neg]
    · exact ⟨_, rfl⟩
    · rintro ⟨h3, h4⟩
      rw [List.any_eq_true] at h4
      obtain ⟨v, hv, hl⟩ := h4
      exact absurd (h2 h3 v hv) (not_le.mpr (of_decide_eq_true hl))

theorem rxnMake_iff {grid : List K} {e : RxnIn K} {mt d : Nat} :
    (∃ r, Rxn.make grid e mt d = .ok r) ↔ e.idx < grid.length ∧ Tabulated grid e.values e.idx := by
  constructor
  · rintro ⟨r, hr⟩
    obtain ⟨_, _, h3, h4, h5, h6, h7⟩ := rxnMake_ok hr
    have ha := h6.aligned
    have hn := h6.nonneg
    rw [h3, h4, h5] at ha
    rw [h4] at hn
    exact ⟨lt_length_of_some h7, ha, hn⟩
  · rintro ⟨h1, h2, h3⟩
    obtain ⟨s, hs⟩ := makeAce_iff (h := false).mpr ⟨h2, fun _ => h3⟩
    obtain ⟨_, _, hi, _⟩ := C29_ace _ _ _ _ _ hs
    obtain ⟨t, ht⟩ := getElem?_of_lt (l := grid) (i := e.idx) h1
    refine ⟨⟨mt, t, s, d⟩, ?_⟩
    unfold Rxn.make
    rw [hs]
    simp only [bind, Except.bind]
    rw [hi, getAt_eq_ok.mpr ht]
    rfl

theorem foldlM_total {α σ : Type} (f : σ → α → Res σ) : ∀ (l : List α), (∀ a ∈ l, ∀ s, ∃ s', f s a = .ok s') → ∀ s, ∃ s', l.foldlM f s = .ok s' := by
  intro l
  induction l with
  | nil => intro _ s; exact ⟨s, rfl⟩
  | cons a l ih =>
    intro h s
    obtain ⟨s1, h1⟩ := h a (by simp) s
    obtain ⟨s2, h2⟩ := ih (fun b hb => h b (by simp [hb])) s1
    refine ⟨s2, ?_⟩
    rw [List.foldlM_cons, h1]
    exact h2

theorem foldlM_each {α σ : Type} (f : σ → α → Res σ) : ∀ (l : List α) (s s' : σ), l.foldlM f s = .ok s' → ∀ a ∈ l, ∃ t t', f t a = .ok t' := by
  intro l
  induction l with
  | nil => intro s s' _ a ha; cases ha
  | cons b l ih =>
    intro s s' h a ha
    rw [List.foldlM_cons] at h
    obtain ⟨s1, h1, h2⟩ := bind_ok h
    rcases List.mem_cons.mp ha with e | e
    · subst e; exact ⟨s, s1, h1⟩
    · exact ih s1 s' h2 a e

theorem mainMake_iff {a : AceIn K} : (∃ m, MainXS.make a = .ok m) ↔ Tabulated a.grid a.total 0 ∧ Tabulated a.grid a.disap 0 ∧
    Tabulated a.grid a.elastic 0 ∧ a.heating.length = a.grid.length := by
  constructor
  · rintro ⟨m, h⟩
    unfold MainXS.make at h
    obtain ⟨t, h1, h⟩ := bind_ok h
    obtain ⟨d, h2, h⟩ := bind_ok h
    obtain ⟨e, h3, h⟩ := bind_ok h
    obtain ⟨q, h4, h⟩ := bind_ok h
    have k1 := makeAce_iff.mp ⟨_, h1⟩
    have k2 := makeAce_iff.mp ⟨_, h2⟩
    have k3 := makeAce_iff.mp ⟨_, h3⟩
    have k4 := makeAce_iff.mp ⟨_, h4⟩
    exact ⟨⟨k1.1, k1.2 rfl⟩, ⟨k2.1, k2.2 rfl⟩, ⟨k3.1, k3.2 rfl⟩, by have := k4.1; omega⟩
  · rintro ⟨k1, k2, k3, k4⟩
    obtain ⟨t, h1⟩ := makeAce_iff (h := false).mpr ⟨k1.1, fun _ => k1.2⟩
    obtain ⟨d, h2⟩ := makeAce_iff (h := false).mpr ⟨k2.1, fun _ => k2.2⟩
    obtain ⟨e, h3⟩ := makeAce_iff (h := false).mpr ⟨k3.1, fun _ => k3.2⟩
    obtain ⟨q, h4⟩ := makeAce_iff (values := a.heating) (grid := a.grid) (idx := 0) (h := true).mpr ⟨by omega, fun h => by cases h⟩
    refine ⟨⟨t, d, e, q⟩, ?_⟩
    unfold MainXS.make
    rw [h1, h2, h3, h4]
    rfl

/-- The sum of the partial reactions is defined. -/
theorem sumAt_ok {f : Fis K} {grid : List K} (hf : ∀ mt, FissionMT mt → ∀ r, f.slot mt = some r → GoodXS r.xs ∧ r.xs.grid = grid) (i : Nat)
    (hi : i < grid.length) : ∃ v, sumAt f i = .ok v ∧ 0 ≤ v := by
  have one : ∀ mt, FissionMT mt → ∀ v, 0 ≤ v → ∃ w, addAt (f.slot mt) i v = .ok w ∧ 0 ≤ w := by
    intro mt hm v hv
    cases hs : f.slot mt with
    | none => exact ⟨v, rfl, hv⟩
    | some r =>
      obtain ⟨g1, g2⟩ := hf mt hm r hs
      obtain ⟨x, hx, hx0, _⟩ := at_good g1 i (by rw [g2]; exact hi)
      refine ⟨v + x, ?_, add_nonneg hv hx0⟩
      simp only [addAt, hx, bind, Except.bind, pure, Except.pure]
  obtain ⟨v1, h1, p1⟩ := one 19 (by simp [FissionMT]) 0 le_rfl
  obtain ⟨v2, h2, p2⟩ := one 20 (by simp [FissionMT]) v1 p1
  obtain ⟨v3, h3, p3⟩ := one 21 (by simp [FissionMT]) v2 p2
  obtain ⟨v4, h4, p4⟩ := one 38 (by simp [FissionMT]) v3 p3
  refine ⟨v4, ?_, p4⟩
  change addAt f.m19 i 0 = _ at h1
  change addAt f.m20 i v1 = _ at h2
  change addAt f.m21 i v2 = _ at h3
  change addAt f.m38 i v3 = _ at h4
  unfold sumAt
  simp only [h1, h2, h3, h4, bind, Except.bind]

theorem lowerIdx_some (r : Rxn K) (l : Nat) : lowerIdx (some r) l ≤ r.xs.index := by
  unfold lowerIdx
  simp only []
  split <;> omega

/-- Without MT 18, the fission cross section exists if and only if a partial reaction does. -/
theorem computeFission_iff {f : Fis K} {grid : List K} (h32 : grid.length < 2 ^ 32) (h18 : f.m18 = Option.none)
    (hf : ∀ mt, FissionMT mt → ∀ r, f.slot mt = some r → GoodXS r.xs ∧ r.xs.grid = grid) :
    (∃ x, computeFission true grid f = .ok x) ↔ f.m19.isSome ∨ f.m20.isSome ∨ f.m21.isSome ∨ f.m38.isSome := by
  unfold computeFission
  rw [if_neg (by simp), h18]
  dsimp only
  obtain ⟨low, hlow⟩ : ∃ low, low = lowerIdx f.m38 (lowerIdx f.m21 (lowerIdx f.m20 (lowerIdx f.m19 grid.length))) := ⟨_, rfl⟩
  rw [← hlow]
  have l19 := lowerIdx_le f.m19 grid.length
  have l20 := lowerIdx_le f.m20 (lowerIdx f.m19 grid.length)
  have l21 := lowerIdx_le f.m21 (lowerIdx f.m20 (lowerIdx f.m19 grid.length))
  have l38 := lowerIdx_le f.m38 (lowerIdx f.m21 (lowerIdx f.m20 (lowerIdx f.m19 grid.length)))
  rw [← hlow] at l38
  obtain ⟨vs, hvs⟩ := mapM_exists (sumAt f) (List.range' low (grid.length - low)) (fun i hi => by
    rw [List.mem_range'_1] at hi
    obtain ⟨v, hv, _⟩ := sumAt_ok hf i (by omega)
    exact ⟨v, hv⟩)
  rw [hvs]
  simp only [bind, Except.bind]
  obtain ⟨k1, k2⟩ := mapM_get _ _ _ hvs
  have hvl : vs.length = grid.length - low := by rw [k1]; simp
  constructor
  · rintro ⟨x, hx⟩
    by_contra hc
    simp only [not_or, Option.not_isSome_iff_eq_none] at hc
    obtain ⟨c1, c2, c3, c4⟩ := hc
    rw [c1, c2, c3, c4] at hlow
    simp only [lowerIdx] at hlow
    rcases C29_construction_partial vs grid low (by omega) with ⟨_, t, _⟩ | ⟨t, _⟩
    · omega
    · rw [t] at hx; cases hx
  · intro hc
    have hbel : low < grid.length := by
      have one : ∀ mt, FissionMT mt → (f.slot mt).isSome → ∀ l, lowerIdx (f.slot mt) l < grid.length := by
        intro mt hm hs l
        cases hsl : f.slot mt with
        | none => rw [hsl] at hs; cases hs
        | some r =>
          obtain ⟨g1, g2⟩ := hf mt hm r hsl
          have := g1.below
          rw [g2] at this
          exact lt_of_le_of_lt (lowerIdx_some r l) this
      rcases hc with c | c | c | c
      · have := one 19 (by simp [FissionMT]) c grid.length
        change lowerIdx f.m19 grid.length < _ at this
        omega
      · have := one 20 (by simp [FissionMT]) c (lowerIdx f.m19 grid.length)
        change lowerIdx f.m20 _ < _ at this
        omega
      · have := one 21 (by simp [FissionMT]) c (lowerIdx f.m20 (lowerIdx f.m19 grid.length))
        change lowerIdx f.m21 _ < _ at this
        omega
      · have := one 38 (by simp [FissionMT]) c (lowerIdx f.m21 (lowerIdx f.m20 (lowerIdx f.m19 grid.length)))
        change lowerIdx f.m38 _ < _ at this
        omega
    rcases C29_construction_partial vs grid low (by omega) with ⟨⟨t, t1, _⟩, _⟩ | ⟨_, t⟩
    · exact ⟨t, t1⟩
    · exfalso
      refine t ⟨hbel, fun v hv => ?_, by omega⟩
      obtain ⟨i, hi⟩ := List.getElem?_of_mem hv
      have hlt := lt_length_of_some hi
      obtain ⟨v', hv', hs⟩ := k2 i (low + i) (by rw [List.getElem?_range' (by omega)]; simp)
      rw [hi] at hv'
      cases hv'
      obtain ⟨w, hw, hw0⟩ := sumAt_ok hf (low + i) (by omega)
      rw [hs] at hw
      cases hw
      exact hw0

theorem FInv.some_iff {mk : RxnIn K → Res (Rxn K)} {l : List (RxnIn K)} {f : Fis K} (h : FInv mk l f) {mt : Nat} (hm : FissionMT mt) :
    (f.slot mt).isSome ↔ ∃ e ∈ l, e.mt = mt := by
  rcases h.look mt hm with ⟨h1, h2⟩ | ⟨e, h1, h2, r, h3, _⟩
  · rw [h2]
    constructor
    · intro h; cases h
    · rintro ⟨e, he, hm⟩; exact absurd hm (h1 e he)
  · rw [h3]
    exact ⟨fun _ => ⟨e, h1, h2⟩, fun _ => rfl⟩

/-- **C102** The contents of a neutron file are accepted if and only if they are `Acceptable`. -/
theorem C102_contents (a : AceIn K) (h32 : a.grid.length < 2 ^ 32) : (∃ s, STN.make a = .ok s) ↔ Acceptable a := by
  constructor
  · rintro ⟨s, h⟩
    unfold STN.make at h
    rw [step_eq] at h
    obtain ⟨m, h1, h⟩ := bind_ok h
    obtain ⟨st, h2, h⟩ := bind_ok h
    obtain ⟨f, h3, h⟩ := bind_ok h
    obtain ⟨x, h4, h⟩ := bind_ok h
    obtain ⟨m1, m2, m3, m4⟩ := mainMake_iff.mp ⟨m, h1⟩
    refine ⟨m1, m2, m3, m4, ?_, ?_⟩
    · intro e he hu
      by_cases hf : FissionMT e.mt
      · have hfi := hu hf
        unfold Fis.make at h3
        rw [if_neg (by simp [hfi]), fisStep_eq] at h3
        obtain ⟨f1, h5, _⟩ := bind_ok h3
        obtain ⟨t, t', ht⟩ := foldlM_each _ _ _ _ h5 e he
        unfold fstep at ht
        rw [if_pos ((isFisMT_iff _).mpr hf)] at ht
        obtain ⟨r, hr, _⟩ := bind_ok ht
        refine ⟨?_, rxnMake_iff.mp ⟨r, hr⟩⟩
        rcases hf with h | h | h | h | h <;> omega
      · obtain ⟨t, t', ht⟩ := foldlM_each _ _ _ _ h2 e he
        unfold gstep at ht
        rw [if_neg (by rw [isFisMT_iff]; exact hf)] at ht
        obtain ⟨r, hr, ht⟩ := bind_ok ht
        refine ⟨?_, rxnMake_iff.mp ⟨r, hr⟩⟩
        by_contra hc
        rw [if_neg hc] at ht
        cases ht
    · intro hfi
      unfold Fis.make at h3
      rw [if_neg (by simp [hfi]), fisStep_eq] at h3
      obtain ⟨f1, h5, h6⟩ := bind_ok h3
      obtain ⟨h7, h8⟩ := checkSpectrum_ok h6
      subst h7
      have hi := ffold_inv h5
      have hgood : ∀ mt, FissionMT mt → ∀ r, f.slot mt = some r → GoodXS r.xs ∧ r.xs.grid = a.grid := by
        intro mt hm r hr
        rcases hi.look mt hm with ⟨_, g⟩ | ⟨e, _, _, r', g, hmk⟩
        · rw [g] at hr; cases hr
        · rw [g] at hr; cases hr
          obtain ⟨_, _, k3, _, _, k6, _⟩ := rxnMake_ok hmk
          exact ⟨k6, k3⟩
      cases h18 : f.m18 with
      | some r =>
        exact Or.inl ((hi.some_iff (mt := 18) (by simp [FissionMT])).mp (by change f.m18.isSome = true; rw [h18]; rfl))
      | none =>
        right
        rw [hfi] at h4
        have hany := (computeFission_iff h32 h18 hgood).mp ⟨x, h4⟩
        rcases h8 h18 with ⟨c1, c2, c3, c4⟩ | ⟨c1, c2, c3, c4⟩
        · rw [c1, c2, c3, c4] at hany; simp at hany
        · exact ⟨(hi.some_iff (mt := 19) (by simp [FissionMT])).mp c1, (hi.some_iff (mt := 20) (by simp [FissionMT])).mp c2,
            (hi.some_iff (mt := 21) (by simp [FissionMT])).mp c3, (hi.some_iff (mt := 38) (by simp [FissionMT])).mp c4⟩
  · rintro ⟨m1, m2, m3, m4, he, hfis⟩
    obtain ⟨m, hm⟩ := mainMake_iff.mpr ⟨m1, m2, m3, m4⟩
    obtain ⟨st, hst⟩ := foldlM_total (gstep (Rxn.fromAce a.grid)) a.rxns (fun e hem s => by
      unfold gstep
      by_cases hf : isFisMT e.mt = true
      · rw [if_pos hf]; exact ⟨s, rfl⟩
      · rw [if_neg hf]
        obtain ⟨k1, k2⟩ := he e hem (fun h => absurd ((isFisMT_iff _).mpr h) hf)
        obtain ⟨r, hr⟩ := rxnMake_iff (mt := e.mt) (d := e.dist).mpr k2
        rw [show Rxn.fromAce a.grid e = .ok r from hr]
        simp only [bind, Except.bind]
        rw [if_pos k1]
        exact ⟨_, rfl⟩) ⟨[], List.replicate 892 (-1), []⟩
    have hfm : ∃ f x, Fis.make a.fissile a.grid a.rxns = .ok f ∧ computeFission a.fissile a.grid f = .ok x := by
      cases hfi : a.fissile with
      | false =>
        refine ⟨Fis.none, ⟨a.grid, [0], 0, true⟩, ?_, ?_⟩
        · unfold Fis.make; rw [if_pos rfl]
        · unfold computeFission XS.makeConst; rw [if_pos rfl, if_neg (lt_irrefl _)]
      | true =>
        obtain ⟨f, hf⟩ := foldlM_total (fstep (Rxn.fromAce a.grid)) a.rxns (fun e hem s => by
          unfold fstep
          by_cases hf : isFisMT e.mt = true
          · rw [if_pos hf]
            obtain ⟨k1, k2⟩ := he e hem (fun _ => hfi)
            obtain ⟨r, hr⟩ := rxnMake_iff (mt := e.mt) (d := e.dist).mpr k2
            rw [show Rxn.fromAce a.grid e = .ok r from hr]
            exact ⟨_, rfl⟩
          · rw [if_neg hf]; exact ⟨s, rfl⟩) Fis.none
        have hi := ffold_inv hf
        have hgood : ∀ mt, FissionMT mt → ∀ r, f.slot mt = some r → GoodXS r.xs ∧ r.xs.grid = a.grid := by
          intro mt hm r hr
          rcases hi.look mt hm with ⟨_, g⟩ | ⟨e, _, _, r', g, hmk⟩
          · rw [g] at hr; cases hr
          · rw [g] at hr; cases hr
            obtain ⟨_, _, k3, _, _, k6, _⟩ := rxnMake_ok hmk
            exact ⟨k6, k3⟩
        have hmk : ∀ x, f.checkSpectrum = .ok f → computeFission true a.grid f = .ok x →
            ∃ f x, Fis.make true a.grid a.rxns = .ok f ∧ computeFission true a.grid f = .ok x := by
          intro x h1 h2
          refine ⟨f, x, ?_, h2⟩
          unfold Fis.make
          rw [if_neg (by simp), fisStep_eq, hf]
          exact h1
        cases h18 : f.m18 with
        | some r =>
          refine hmk r.xs ?_ ?_
          · unfold Fis.checkSpectrum; rw [h18]; rfl
          · unfold computeFission; rw [if_neg (by simp), h18]
        | none =>
          have hno : ¬ ∃ e ∈ a.rxns, e.mt = 18 := by
            rw [← hi.some_iff (mt := 18) (by simp [FissionMT])]
            change ¬ f.m18.isSome = true
            rw [h18]; simp
          rcases hfis hfi with h | ⟨c1, c2, c3, c4⟩
          · exact absurd h hno
          · have d1 : f.m19.isSome = true := (hi.some_iff (mt := 19) (by simp [FissionMT])).mpr c1
            have d2 : f.m20.isSome = true := (hi.some_iff (mt := 20) (by simp [FissionMT])).mpr c2
            have d3 : f.m21.isSome = true := (hi.some_iff (mt := 21) (by simp [FissionMT])).mpr c3
            have d4 : f.m38.isSome = true := (hi.some_iff (mt := 38) (by simp [FissionMT])).mpr c4
            obtain ⟨x, hx⟩ := (computeFission_iff h32 h18 hgood).mpr (Or.inl d1)
            refine hmk x ?_ hx
            unfold Fis.checkSpectrum
            rw [d1, d2, d3, d4]
            simp
    obtain ⟨f, x, hf, hx⟩ := hfm
    unfold STN.make
    rw [hm, step_eq, hst, hf]
    simp only [bind, Except.bind]
    rw [hx]
    exact ⟨_, rfl⟩

/-! ### The file -/

instance : DecidablePred FissionMT := fun mt => by unfold FissionMT; infer_instance

theorem find_mt {flag : ℝ} : ∀ (l m : List (Rxn ℝ)), l.map Rxn.mt = m.map Rxn.mt → (∃ x, findCompeting flag l = .ok x) → ∃ x, findCompeting flag m = .ok x := by
  intro l m hm
  unfold findCompeting
  split
  · have key : ∀ (l m : List (Rxn ℝ)), l.map Rxn.mt = m.map Rxn.mt → (l.find? (fun r => decide ((r.mt : Int) = ⌊flag⌋))).isSome →
        (m.find? (fun r => decide ((r.mt : Int) = ⌊flag⌋))).isSome := by
      intro l
      induction l with
      | nil => intro m _ h; cases h
      | cons x l ih =>
        intro m hm h
        cases m with
        | nil => cases hm
        | cons y m =>
          simp only [List.map_cons, List.cons.injEq] at hm
          rw [List.find?_cons] at h ⊢
          rw [← hm.1]
          split at h
          · rfl
          · exact ih m hm.2 h
    rintro ⟨x, hx⟩
    have := key l m hm (by
      cases hl : l.find? (fun r => decide ((r.mt : Int) = ⌊flag⌋)) with
      | none => rw [hl] at hx; cases hx
      | some r => rfl)
    cases hl : m.find? (fun r => decide ((r.mt : Int) = ⌊flag⌋)) with
    | none => rw [hl] at this; cases this
    | some r => exact ⟨_, rfl⟩
  · intro _; exact ⟨_, rfl⟩

/-- Whether a UNR block is accepted does not depend on the smooth cross sections. -/
theorem urr_accept {xss : List ℝ} {lunr : Option Nat} {sm sm' : Smooth} {l m : List (Rxn ℝ)} (hm : l.map Rxn.mt = m.map Rxn.mt)
    (h : ∃ u, URR.make xss lunr sm l = .ok u) : ∃ u, URR.make xss lunr sm' m = .ok u := by
  obtain ⟨u, hu⟩ := h
  cases lunr with
  | none => exact ⟨_, rfl⟩
  | some i =>
    unfold URR.make at hu ⊢
    simp only [] at hu ⊢
    obtain ⟨ne, e1, hu⟩ := bind_ok hu
    obtain ⟨np, e2, hu⟩ := bind_ok hu
    obtain ⟨code, e3, hu⟩ := bind_ok hu
    obtain ⟨inel, e4, hu⟩ := bind_ok hu
    obtain ⟨ab, e5, hu⟩ := bind_ok hu
    obtain ⟨fac, e6, hu⟩ := bind_ok hu
    obtain ⟨en, e7, hu⟩ := bind_ok hu
    obtain ⟨ts, e8, hu⟩ := bind_ok hu
    rw [e1, e2, e3, e4, e5, e6]
    simp only [bind, Except.bind]
    rw [e7]
    simp only []
    rw [e8]
    simp only []
    cases hcode : interpOfCode code with
    | none => rw [hcode] at hu; cases hu
    | some r =>
      rw [hcode] at hu
      simp only [] at hu ⊢
      split at hu
      · cases hu
      · rename_i hr
        rw [if_neg hr]
        obtain ⟨i1, g1, hu⟩ := bind_ok hu
        obtain ⟨i2, g2, hu⟩ := bind_ok hu
        obtain ⟨j1, k1⟩ := find_mt l m hm ⟨i1, g1⟩
        obtain ⟨j2, k2⟩ := find_mt l m hm ⟨i2, g2⟩
        rw [k1, k2]
        exact ⟨_, rfl⟩

theorem prompt_rev {s : FisState} {x : Fis ℝ} (h : s.toF.checkSpectrum = .ok x) : ∃ p, s.prompt = .ok p := by
  unfold Fis.checkSpectrum at h
  unfold FisState.prompt
  obtain ⟨m18, m19, m20, m21, m38, l⟩ := s
  cases m18 <;> cases m19 <;> cases m20 <;> cases m21 <;> cases m38 <;> first | exact ⟨_, rfl⟩ | (cases h)

/-- The loop over the reactions and its shadow. -/
theorem nucFold_sim {f : AceFile} {a : AceIn ℝ} (h : FileHolds f a) {fuel : Nat} {s : NucState}
    (hs : (List.range f.nmt).foldlM (NucState.step f (fun _ i => STRxn.fromAce f fuel a.grid i)) ⟨[], List.replicate 892 (-1), []⟩ = .ok s) :
    a.rxns.foldlM (gstep (Rxn.fromAce a.grid)) ⟨[], List.replicate 892 (-1), []⟩ = .ok s.toR := by
  obtain ⟨t, h1, h2⟩ := foldlM_sim _ (gstep (Rxn.fromAce a.grid)) _ (fun (s : NucState) t => t = s.toR) (fun k e s t s' hq hr hs => by
    subst hr
    exact ⟨_, nucStep_sim h hq _ (Rxn.fromAce a.grid) (fun r hr => (fromAce_sim h hq hr).1) hs, rfl⟩) _ _ h.zip _ s
    (⟨[], List.replicate 892 (-1), []⟩) rfl hs
  rw [h1, h2]

theorem fisFold_sim {f : AceFile} {a : AceIn ℝ} (h : FileHolds f a) {fuel : Nat} {s : FisState}
    (hs : (List.range f.nmt).foldlM (FisState.step f (fun _ i => STRxn.fromAce f fuel a.grid i)) ⟨none, none, none, none, none, []⟩ = .ok s) :
    a.rxns.foldlM (fstep (Rxn.fromAce a.grid)) Fis.none = .ok s.toF := by
  obtain ⟨t, h1, h2⟩ := foldlM_sim _ (fstep (Rxn.fromAce a.grid)) _ (fun (s : FisState) t => t = s.toF) (fun k e s t s' hq hr hs => by
    subst hr
    exact ⟨_, fisStep_sim h hq _ (Rxn.fromAce a.grid) (fun r hr => (fromAce_sim h hq hr).1) hs, rfl⟩) _ _ h.zip _ s
    (Fis.none) rfl hs
  rw [h1, h2]

theorem gfold_mts {l : List (RxnIn ℝ)} {g : List ℝ} {s : RState ℝ}
    (h : l.foldlM (gstep (Rxn.fromAce g)) ⟨[], List.replicate 892 (-1), []⟩ = .ok s) : s.rxns.map Rxn.mt = s.mts := by
  have := foldlM_inv (gstep (Rxn.fromAce g)) (fun _ s => s.rxns.map Rxn.mt = s.mts) (fun done s e s' hI hs => by
    unfold gstep at hs
    split at hs
    · cases hs; exact hI
    · obtain ⟨r, hr, hs⟩ := bind_ok hs
      split at hs
      · cases hs
        have := (rxnMake_ok hr).1
        simp [hI, this]
      · cases hs) l [] _ s (by rfl) h
  exact this

theorem gridAce_ok {grid : List ℝ} {e0 : ℝ} (hso : grid.Pairwise (· ≤ ·)) (h0 : grid[0]? = some e0) (hp0 : 0 < e0) (h32 : grid.length < 2 ^ 32) :
    ∃ g, EGrid.makeAce grid 8192 = .ok g ∧ g.energy = grid := by
  obtain ⟨g, hg, hge, _⟩ := C28_lower_index grid 8192 e0 hso h0 hp0 h32 (by norm_num) (by norm_num)
  refine ⟨g, ?_, hge⟩
  unfold EGrid.makeAce
  unfold EGrid.make at hg
  have hso' : ¬ isSorted grid = false := by rw [isSorted_iff.mpr hso]; simp
  rw [if_neg hso'] at hg ⊢
  rw [front_eq_ok.mpr h0] at hg ⊢
  simp only [bind, Except.bind] at hg ⊢
  rw [if_neg (not_le.mpr hp0)]
  rw [if_neg (not_lt.mpr hp0.le)] at hg
  exact hg

theorem readAce_ok {f : AceFile} {a : AceIn ℝ} (h : FileHolds f a) {g : EGrid} (hgA : EGrid.makeAce a.grid 8192 = .ok g)
    (hl6 : ∀ l, f.lunr = some l → l + 6 < f.xss.length) : ∃ um, EGrid.readAce f = .ok (g, um) := by
  unfold EGrid.readAce
  rw [h.slices.1]
  simp only [bind, Except.bind]
  cases hlu : f.lunr with
  | none => simp only []; rw [hgA]; exact ⟨_, rfl⟩
  | some l =>
    obtain ⟨w, hw⟩ := getElem?_of_lt (l := f.xss) (i := l + 6) (hl6 l hlu)
    simp only []
    rw [getAt_eq_ok.mpr hw, hgA]
    exact ⟨_, rfl⟩

theorem mainAce_ok {f : AceFile} {a : AceIn ℝ} (h : FileHolds f a) {m : MainXS ℝ} (c1 : MainXS.make a = .ok m)
    (hgpd : ∀ i, f.gpd = some i → ∃ vs, Holds f.xss i vs ∧ Tabulated a.grid vs 0) : ∃ ph, mainAce f a.grid = .ok (m, ph) := by
  obtain ⟨sl0, sl1, sl2, sl3, sl4⟩ := h.slices
  unfold MainXS.make at c1
  obtain ⟨t, d1, c1⟩ := bind_ok c1
  obtain ⟨d, d2, c1⟩ := bind_ok c1
  obtain ⟨e, d3, c1⟩ := bind_ok c1
  obtain ⟨q, d4, c1⟩ := bind_ok c1
  cases c1
  unfold mainAce XS.readPlain
  rw [sl1, sl2, sl3, sl4]
  simp only [bind, Except.bind]
  rw [d1, d2, d3, d4]
  simp only []
  cases hgp : f.gpd with
  | none =>
    refine ⟨⟨a.grid, [0], 0, true⟩, ?_⟩
    simp only [XS.makeConst, lt_irrefl, if_false]
    rfl
  | some i =>
    obtain ⟨vs, hH, hT1, hT2⟩ := hgpd i hgp
    obtain ⟨y, hy⟩ := makeAce_iff (h := false).mpr ⟨hT1, fun _ => hT2⟩
    have := hH.slice
    rw [show vs.length = f.ne by rw [← h.grid]; omega] at this
    refine ⟨y, ?_⟩
    simp only []
    rw [this]
    simp only []
    rw [hy]
    rfl

theorem captureXS_ok {f : AceFile} {mk : Nat → Nat → Res STRxn} {l : List Nat} {s : NucState} (hlen : s.idx.length = 892) (hI : NInv f mk l s)
    (grid : List ℝ) : ∃ cx, captureXS grid s.idx s.rxns = .ok cx := by
  obtain ⟨j, hj⟩ := getElem?_of_lt (l := s.idx) (i := 102) (by omega)
  unfold captureXS hasIdx
  rw [if_neg (by norm_num), getAt_eq_ok.mpr hj]
  simp only [bind, Except.bind, pure, Except.pure]
  by_cases hn : j < 0
  · rw [if_pos (by simp [hn])]
    refine ⟨⟨grid, [0], 0, true⟩, ?_⟩
    unfold XS.makeConst
    rw [if_neg (lt_irrefl _)]
  · rw [if_neg (by simp; omega)]
    obtain ⟨r, k, hr, _⟩ := hI.look 102 j hj hn
    unfold rxnAt
    rw [getAt_eq_ok.mpr hj]
    simp only [bind, Except.bind]
    rw [hr]
    exact ⟨_, rfl⟩

/-- **C102** Given contents, a neutron file is accepted if and only if: its contents are acceptable, its energies are in order and positive; the
photon production column, if there is one, is usable; every reaction looked at has a readable Q value, yield and distribution (C97); the angular
distribution of elastic scattering is readable (C92), the weight ratio positive and the temperature not negative; neutrons per fission
and, for a fissile nuclide, delayed families are readable (C59, C77); the UNR block, if there is one, is readable with competing reactions
among those of the file. -/
theorem C102_accept (f : AceFile) (fuel : Nat) (a : AceIn ℝ) (h : FileHolds f a) (h32 : a.grid.length < 2 ^ 32) :
    (∃ n, Nuc.makeAce f fuel = .ok n) ↔
      Acceptable a ∧ a.grid.Pairwise (· ≤ ·) ∧ (∃ e0, a.grid.head? = some e0 ∧ 0 < e0) ∧
      (∀ i, f.gpd = some i → ∃ vs, Holds f.xss i vs ∧ Tabulated a.grid vs 0) ∧
      (∀ k e, a.rxns[k]? = some e → (FissionMT e.mt → f.fissile = true) → ∃ b, RxnBase.makeAce f.toAceBlocks k fuel = .ok b) ∧
      (∃ l0 ad, intAt f.xss f.land = .ok l0 ∧ AngleDist.makeAce f.xss f.andB l0 = .ok ad) ∧ 0 < f.awr ∧ 0 ≤ f.temperature ∧
      (∃ nu, Nu.make f.fissile f.xss f.nu f.dnu = .ok nu) ∧
      (f.fissile = true → ∃ fam, families (familyLawAce f.xss f.dned) f.xss f.bdd f.dnedl f.dned f.ngrps = .ok fam) ∧
      (∀ l, f.lunr = some l → l + 6 < f.xss.length) ∧
      (∃ sm rs u, rs.map Rxn.mt = (a.rxns.map RxnIn.mt).filter (fun mt => ¬ FissionMT mt) ∧ URR.make f.xss f.lunr sm rs = .ok u) := by
  have hk : (0 : ℝ) < kToMeV := by unfold kToMeV; norm_num
  have hne : ∀ (l : List (RxnIn ℝ)), (l.filter (fun e => !isFisMT e.mt)).map RxnIn.mt = (l.map RxnIn.mt).filter (fun mt => ¬ FissionMT mt) := by
    intro l
    rw [List.filter_map]
    congr 1
    apply List.filter_congr
    intro e _
    simp only [Function.comp_apply]
    rw [Bool.eq_iff_iff]
    simp [← isFisMT_iff]
  constructor
  · rintro ⟨n, hn⟩
    have hacc := (C102_contents a h32).mp ⟨_, makeAce_sim h hn⟩
    obtain ⟨g0, g1, g2⟩ := C101_grid fuel f a n (.direct h hn)
    obtain ⟨m, s, fi, l0, ad, cx, hg, hm, hs, hl, had, hel, hfi, _, _, hu, _, rfl, _, hrx, _⟩ := makeAce_parts hn
    obtain ⟨he, _⟩ := readGrid_sim h hg
    rw [he] at hm hs hfi
    have hfis := C99_fission f fuel n hn
    refine ⟨hacc, g1, ?_, ?_, ?_, ⟨l0, ad, hl, had⟩, ?_, ?_, ⟨_, hfis.1⟩, fun hff => ⟨_, hfis.2.1 hff⟩, ?_, ?_⟩
    · cases hgr : a.grid with
      | nil => exact absurd hgr g0
      | cons x xs => exact ⟨x, rfl, g2 x (by rw [hgr]; simp)⟩
    · intro i hi
      unfold mainAce at hm
      rw [hi] at hm
      obtain ⟨_, _, hm⟩ := bind_ok hm
      obtain ⟨_, _, hm⟩ := bind_ok hm
      obtain ⟨_, _, hm⟩ := bind_ok hm
      obtain ⟨_, _, hm⟩ := bind_ok hm
      obtain ⟨q, hq, hm⟩ := bind_ok hm
      unfold XS.readPlain at hq
      obtain ⟨vs, hv, hq⟩ := bind_ok hq
      have k := makeAce_iff.mp ⟨_, hq⟩
      refine ⟨vs, ?_, k.1, k.2 rfl⟩
      unfold xssSlice at hv
      split at hv
      · rename_i hle
        rw [← Except.ok.inj hv]
        refine ⟨f.xss.take i, f.xss.drop (i + f.ne), ?_, by simp; omega⟩
        rw [List.append_assoc, ← List.drop_drop, List.take_append_drop, List.take_append_drop]
      · cases hv
    · intro k e hke hf
      have hkr : k ∈ List.range f.nmt := by rw [List.mem_range, ← h.count]; exact lt_length_of_some hke
      by_cases hfe : FissionMT e.mt
      · unfold Fission.makeAce at hfi
        obtain ⟨nu, _, hfi⟩ := bind_ok hfi
        rw [if_neg (by rw [hf hfe]; simp)] at hfi
        obtain ⟨fam, _, hfi⟩ := bind_ok hfi
        obtain ⟨st, hst, hfi⟩ := bind_ok hfi
        obtain ⟨t, t', ht⟩ := foldlM_each _ _ _ _ hst k hkr
        unfold FisState.step at ht
        rw [h.mt hke] at ht
        simp only [bind, Except.bind] at ht
        rw [if_pos ((isFisMT_iff _).mpr hfe)] at ht
        cases hb : RxnBase.makeAce f.toAceBlocks k fuel with
        | ok b => exact ⟨b, rfl⟩
        | error x => simp [STRxn.fromAce, hb, bind, Except.bind] at ht
      · obtain ⟨t, t', ht⟩ := foldlM_each _ _ _ _ hs k hkr
        unfold NucState.step at ht
        rw [h.mt hke] at ht
        simp only [bind, Except.bind] at ht
        rw [if_neg (by rw [isFisMT_iff]; exact hfe)] at ht
        cases hb : RxnBase.makeAce f.toAceBlocks k fuel with
        | ok b => exact ⟨b, rfl⟩
        | error x => simp [STRxn.fromAce, hb, bind, Except.bind] at ht
    · obtain ⟨_, _, _, _, _, _, _, _, _, _, h1, _⟩ := C99_elastic f fuel n hn
      exact h1
    · obtain ⟨_, _, _, _, _, _, _, _, _, _, _, h2, _⟩ := C99_elastic f fuel n hn
      by_contra hc
      exact absurd (mul_neg_of_neg_of_pos (not_le.mp hc) hk) (not_lt.mpr h2)
    · intro l hl'
      unfold EGrid.readAce at hg
      rw [hl'] at hg
      obtain ⟨_, _, hg⟩ := bind_ok hg
      obtain ⟨u, hu', hg⟩ := bind_ok hg
      exact lt_length_of_some (getAt_eq_ok.mp hu')
    · have h1 := nucFold_sim h hs
      have h2 := gfold_mts h1
      have h3 := (gfold_inv h1).mts
      rw [List.nil_append, hne] at h3
      rw [hrx] at hu
      exact ⟨_, s.rxns.map STRxn.forget, n.urr, h2.trans h3, hu⟩
  · rintro ⟨hacc, hso, ⟨e0, h0, hp0⟩, hgpd, hbase, ⟨l0, ad, hl, had⟩, hawr, hT, ⟨nu, hnu⟩, hfam, hl6, sm, rs, u, hrs, hu⟩
    obtain ⟨s0, hs0⟩ := (C102_contents a h32).mpr hacc
    unfold STN.make at hs0
    rw [step_eq] at hs0
    obtain ⟨m, c1, hs0⟩ := bind_ok hs0
    obtain ⟨st, c2, hs0⟩ := bind_ok hs0
    obtain ⟨fi0, c3, hs0⟩ := bind_ok hs0
    obtain ⟨x, c4, hs0⟩ := bind_ok hs0
    have h0' : a.grid[0]? = some e0 := by rw [← List.head?_eq_getElem?]; exact h0
    obtain ⟨g, hgA, hge⟩ := gridAce_ok hso h0' hp0 h32
    obtain ⟨um, hgr⟩ := readAce_ok h hgA hl6
    obtain ⟨ph, hmn⟩ := mainAce_ok h c1 hgpd
    have hrx : ∀ k e, a.rxns[k]? = some e → (FissionMT e.mt → f.fissile = true) → ∃ r, STRxn.fromAce f fuel a.grid k = .ok r := by
      intro k e hke hfe
      obtain ⟨b, hb⟩ := hbase k e hke hfe
      obtain ⟨_, k2⟩ := hacc.entry e (List.mem_of_getElem? hke) (by rw [h.fissile]; exact hfe)
      obtain ⟨r, hr⟩ := rxnMake_iff (mt := b.mt) (d := 0).mpr k2
      have := h.rxn hke b
      rw [hr] at this
      obtain ⟨r', hr', _⟩ := map_ok this
      refine ⟨r', ?_⟩
      unfold STRxn.fromAce
      rw [hb]
      exact hr'
    have hent : ∀ k ∈ List.range f.nmt, ∃ e, a.rxns[k]? = some e := by
      intro k hk
      rw [List.mem_range, ← h.count] at hk
      exact ⟨_, List.getElem?_eq_getElem hk⟩
    obtain ⟨s, hs⟩ := foldlM_total (NucState.step f (fun _ i => STRxn.fromAce f fuel a.grid i)) (List.range f.nmt) (fun k hk s => by
      obtain ⟨e, hke⟩ := hent k hk
      unfold NucState.step
      rw [h.mt hke]
      simp only [bind, Except.bind]
      by_cases hf : isFisMT e.mt = true
      · rw [if_pos hf]; exact ⟨s, rfl⟩
      · rw [if_neg hf]
        have hnf : FissionMT e.mt → f.fissile = true := fun h => absurd ((isFisMT_iff _).mpr h) hf
        obtain ⟨r, hr⟩ := hrx k e hke hnf
        rw [hr]
        simp only []
        rw [if_pos (hacc.entry e (List.mem_of_getElem? hke) (by rw [h.fissile]; exact hnf)).1]
        exact ⟨_, rfl⟩) ⟨[], List.replicate 892 (-1), []⟩
    have hsR := nucFold_sim h hs
    have hinv := gfold_inv hsR
    -- elastic
    obtain ⟨el, hel⟩ : ∃ el, Elastic.make (some (svtSample fuel)) (ad.sample fuel) f.awr f.temperature true 400 = .ok el := by
      unfold Elastic.make
      rw [if_neg (not_le.mpr hawr), if_neg (not_lt.mpr (mul_nonneg hT hk.le)), if_neg (by norm_num), if_neg (by simp)]
      exact ⟨_, rfl⟩
    -- fission
    obtain ⟨fi, hfi⟩ : ∃ fi, Fission.makeAce f fuel a.grid = .ok fi := by
      unfold Fission.makeAce
      rw [hnu]
      simp only [bind, Except.bind]
      by_cases hff : f.fissile = false
      · rw [if_pos hff]; exact ⟨_, rfl⟩
      · rw [if_neg hff]
        have hff' : f.fissile = true := by simpa using hff
        obtain ⟨fam, hfam⟩ := hfam hff'
        rw [hfam]
        simp only []
        obtain ⟨fs, hfs⟩ := foldlM_total (FisState.step f (fun _ i => STRxn.fromAce f fuel a.grid i)) (List.range f.nmt) (fun k hk s => by
          obtain ⟨e, hke⟩ := hent k hk
          unfold FisState.step
          rw [h.mt hke]
          simp only [bind, Except.bind]
          by_cases hf : isFisMT e.mt = true
          · rw [if_pos hf]
            obtain ⟨r, hr⟩ := hrx k e hke (fun _ => hff')
            rw [hr]
            exact ⟨_, rfl⟩
          · rw [if_neg hf]; exact ⟨_, rfl⟩) ⟨none, none, none, none, none, []⟩
        rw [hfs]
        simp only []
        have hF := fisFold_sim h hfs
        unfold Fis.make at c3
        rw [if_neg (by rw [h.fissile]; exact hff), fisStep_eq, hF] at c3
        obtain ⟨p, hp⟩ := prompt_rev c3
        rw [hp]
        exact ⟨_, rfl⟩
    have hfs := fission_sim h hfi
    rw [hfs] at c3
    rw [← Except.ok.inj c3, h.fissile] at c4
    -- capture
    obtain ⟨cx, hcx⟩ := captureXS_ok hinv.len (nuc_inv hs) a.grid
    obtain ⟨ur, hur⟩ := urr_accept (sm' := ⟨m.elastic, cx, x, m.heating⟩) (m := s.rxns.map STRxn.forget) (by
      rw [hrs, show s.rxns.map STRxn.forget = s.toR.rxns from rfl, gfold_mts hsR, hinv.mts, List.nil_append, hne]) ⟨u, hu⟩
    unfold Nuc.makeAce
    rw [hgr]
    simp only [bind, Except.bind]
    rw [hge, hmn]
    simp only []
    rw [hs]
    simp only []
    rw [hl]
    simp only []
    rw [had]
    simp only []
    rw [hel]
    simp only []
    rw [hfi]
    simp only []
    rw [c4]
    simp only []
    rw [hcx]
    simp only []
    rw [hur]
    exact ⟨_, rfl⟩

/-! ### Sharing -/

theorem sharedFold_sim {f : AceFile} {a : AceIn ℝ} (h : FileHolds f a) {o : Nuc} {s : NucState}
    (hs : (List.range f.nmt).foldlM (NucState.step f (fun mt i => do
        let k ← getAt o.idx mt
        let r ← getInt o.rxns k
        STRxn.fromOther f a.grid i r)) ⟨List.replicate f.nmt 0, List.replicate 892 (-1), []⟩ = .ok s) :
    a.rxns.foldlM (gstep (mkShared a.grid o.toSTN)) ⟨List.replicate f.nmt 0, List.replicate 892 (-1), []⟩ = .ok s.toR := by
  obtain ⟨t, h1, h2⟩ := foldlM_sim _ (gstep (mkShared a.grid o.toSTN)) _ (fun (s : NucState) t => t = s.toR) (fun k e s t s' hq hr hs => by
    subst hr
    refine ⟨_, nucStep_sim h hq _ (mkShared a.grid o.toSTN) (fun r hr => ?_) hs, rfl⟩
    obtain ⟨i, hi, hr⟩ := bind_ok hr
    obtain ⟨r0, hr0, hr⟩ := bind_ok hr
    have := fromOther_sim h hq hr
    unfold mkShared
    rw [show o.toSTN.idx = o.idx from rfl, hi]
    simp only [bind, Except.bind]
    have : getInt o.toSTN.rxns i = .ok r0.forget := by
      rw [show o.toSTN.rxns = o.rxns.map STRxn.forget from rfl, getInt_map, hr0]
      rfl
    rw [this]
    simp only []
    assumption) _ _ h.zip _ s
    ⟨List.replicate f.nmt 0, List.replicate 892 (-1), []⟩ rfl hs
  rw [h1, h2]

theorem fisSharedFold_sim {f : AceFile} {a : AceIn ℝ} (h : FileHolds f a) {o : Fission} {s : FisState}
    (hs : (List.range f.nmt).foldlM (FisState.step f (fun mt i => do
        let r ← deref (FisState.get ⟨o.m18, o.m19, o.m20, o.m21, o.m38, []⟩ mt); STRxn.fromOther f a.grid i r)) ⟨none, none, none, none, none, []⟩ = .ok s) :
    a.rxns.foldlM (fstep (mkFisShared a.grid o.forget)) Fis.none = .ok s.toF := by
  obtain ⟨t, h1, h2⟩ := foldlM_sim _ (fstep (mkFisShared a.grid o.forget)) _ (fun (s : FisState) t => t = s.toF) (fun k e s t s' hq hr hs => by
    subst hr
    refine ⟨_, fisStep_sim h hq _ (mkFisShared a.grid o.forget) (fun r hr => ?_) hs, rfl⟩
    obtain ⟨r0, h0, hr⟩ := bind_ok hr
    have := fromOther_sim h hq hr
    unfold mkFisShared
    have hg := get_slot ⟨o.m18, o.m19, o.m20, o.m21, o.m38, []⟩ e.mt
    have hsl : o.forget.slot e.mt = (FisState.toF ⟨o.m18, o.m19, o.m20, o.m21, o.m38, []⟩).slot e.mt := rfl
    rw [hsl, ← hg]
    cases hget : FisState.get ⟨o.m18, o.m19, o.m20, o.m21, o.m38, []⟩ e.mt with
    | none => rw [hget] at h0; cases h0
    | some r1 =>
      rw [hget] at h0
      cases h0
      exact this) _ _ h.zip _ s
    (Fis.none) rfl hs
  rw [h1, h2]

theorem shared_other {fuel : Nat} {f' : AceFile} {a' : AceIn ℝ} {o : Nuc} (ho : Read fuel f' a' o) (mt : Nat) (hh : o.has mt = .ok true) :
    ∃ r0, o.reaction mt = .ok r0 ∧ r0.base.mt = mt := by
  have hl := C55_lookup a' o.toSTN ho.built mt
  rw [has_toSTN, reaction_toSTN] at hl
  rcases hl with ⟨_, _, r', h3, h4, _⟩ | ⟨h1, _⟩
  · obtain ⟨r, hr, rfl⟩ := map_ok h3
    exact ⟨r, hr, h4⟩
  · rw [hh] at h1; cases h1

theorem shared_mts {f : AceFile} {a : AceIn ℝ} (h : FileHolds f a) {o : Nuc}
    (hoth : ∀ e ∈ a.rxns, (FissionMT e.mt → f.fissile = true) → ∃ r0, o.reaction e.mt = .ok r0 ∧ r0.base.mt = e.mt) {s : NucState}
    (hs : (List.range f.nmt).foldlM (NucState.step f (fun mt i => do
        let k ← getAt o.idx mt
        let r ← getInt o.rxns k
        STRxn.fromOther f a.grid i r)) ⟨List.replicate f.nmt 0, List.replicate 892 (-1), []⟩ = .ok s) :
    s.rxns.map (fun r => r.forget.mt) = (a.rxns.map RxnIn.mt).filter (fun mt => ¬ FissionMT mt) := by
  have hne : ∀ (l : List (RxnIn ℝ)), (l.filter (fun e => !isFisMT e.mt)).map RxnIn.mt = (l.map RxnIn.mt).filter (fun mt => ¬ FissionMT mt) := by
    intro l
    rw [List.filter_map]
    congr 1
    apply List.filter_congr
    intro e _
    simp only [Function.comp_apply]
    rw [Bool.eq_iff_iff]
    simp [← isFisMT_iff]
  have hent : ∀ k ∈ List.range f.nmt, ∃ e, a.rxns[k]? = some e := by
    intro k hk
    rw [List.mem_range, ← h.count] at hk
    exact ⟨_, List.getElem?_eq_getElem hk⟩
  have hinv := gfold_inv (sharedFold_sim h hs)
  have h1 := foldlM_inv _ (fun (d : List Nat) (s : NucState) => (∀ k ∈ d, k ∈ List.range f.nmt) →
    s.mts = List.replicate f.nmt 0 ++ s.rxns.map (fun r => r.forget.mt)) (fun done s k s' hI hs hd => by
    unfold NucState.step at hs
    obtain ⟨mt, hmt, hs⟩ := bind_ok hs
    have hI' := hI (fun k hk => hd k (List.mem_append_left _ hk))
    split at hs
    · cases hs; exact hI'
    · rename_i hnf
      obtain ⟨r, hr, hs⟩ := bind_ok hs
      split at hs
      · cases hs
        obtain ⟨j, hj, hq1⟩ := bind_ok hr
        obtain ⟨r0, hr0, hq2⟩ := bind_ok hq1
        obtain ⟨e, hke⟩ := hent k (hd k (by simp))
        rw [h.mt hke] at hmt
        cases hmt
        obtain ⟨r1, hr1, hm1⟩ := hoth e (List.mem_of_getElem? hke) (fun h => absurd ((isFisMT_iff _).mpr h) hnf)
        rcases reaction_split hr1 with ⟨hc, _⟩ | ⟨_, _, hx⟩
        · exact absurd hc hnf
        · unfold rxnAt at hx
          rw [hj] at hx
          simp only [bind, Except.bind] at hx
          rw [hr0] at hx
          cases hx
          have hb := make_parts hq2
          have : r.forget.mt = e.mt := by change r.base.mt = e.mt; rw [hb, hm1]
          simp [hI', this]
      · cases hs) (List.range f.nmt) [] _ s (fun _ => by simp) hs (by simp)
  have h2 := hinv.mts
  change s.mts = _ at h2
  rw [h1, hne] at h2
  exact List.append_cancel_left h2

/-- **C102** A nuclide can share the distributions of another one if: its contents are acceptable, energies in order and positive, photon
production and UNR block usable, and the other nuclide has every reaction that is looked at.  Nothing is asked of the temperature, and the
nuclides need not be the same. -/
theorem C102_shared (fuel : Nat) (f' f : AceFile) (a' a : AceIn ℝ) (o : Nuc) (ho : Read fuel f' a' o) (h : FileHolds f a) (h32 : a.grid.length < 2 ^ 32)
    (hof : f.fissile = o.fissile) (hacc : Acceptable a) (hso : a.grid.Pairwise (· ≤ ·)) (hpos : ∃ e0, a.grid.head? = some e0 ∧ 0 < e0)
    (hgpd : ∀ i, f.gpd = some i → ∃ vs, Holds f.xss i vs ∧ Tabulated a.grid vs 0)
    (hhas : ∀ e ∈ a.rxns, (FissionMT e.mt → f.fissile = true) → o.has e.mt = .ok true)
    (hl6 : ∀ l, f.lunr = some l → l + 6 < f.xss.length)
    (hurr : ∃ sm rs u, rs.map Rxn.mt = (a.rxns.map RxnIn.mt).filter (fun mt => ¬ FissionMT mt) ∧ URR.make f.xss f.lunr sm rs = .ok u) :
    ∃ n, Nuc.makeShared f o = .ok n := by
  obtain ⟨e0, h0, hp0⟩ := hpos
  obtain ⟨sm, rs, u, hrs, hu⟩ := hurr
  have hne : ∀ (l : List (RxnIn ℝ)), (l.filter (fun e => !isFisMT e.mt)).map RxnIn.mt = (l.map RxnIn.mt).filter (fun mt => ¬ FissionMT mt) := by
    intro l
    rw [List.filter_map]
    congr 1
    apply List.filter_congr
    intro e _
    simp only [Function.comp_apply]
    rw [Bool.eq_iff_iff]
    simp [← isFisMT_iff]
  have h0' : a.grid[0]? = some e0 := by rw [← List.head?_eq_getElem?]; exact h0
  obtain ⟨m, c1⟩ := mainMake_iff.mpr ⟨hacc.total, hacc.disap, hacc.elastic, hacc.heating⟩
  obtain ⟨g, hgA, hge⟩ := gridAce_ok hso h0' hp0 h32
  obtain ⟨um, hgr⟩ := readAce_ok h hgA hl6
  obtain ⟨ph, hmn⟩ := mainAce_ok h c1 hgpd
  -- the reactions of the other nuclide
  have hoth : ∀ e ∈ a.rxns, (FissionMT e.mt → f.fissile = true) → ∃ r0, o.reaction e.mt = .ok r0 ∧ r0.base.mt = e.mt :=
    fun e he hfe => shared_other ho e.mt (hhas e he hfe)
  have hmk : ∀ k e r0, a.rxns[k]? = some e → (FissionMT e.mt → f.fissile = true) → ∃ r, STRxn.fromOther f a.grid k r0 = .ok r := by
    intro k e r0 hke hfe
    obtain ⟨_, k2⟩ := hacc.entry e (List.mem_of_getElem? hke) (by rw [h.fissile]; exact hfe)
    obtain ⟨r, hr⟩ := rxnMake_iff (mt := r0.base.mt) (d := 0).mpr k2
    have := h.rxn hke r0.base
    rw [hr] at this
    obtain ⟨r', hr', _⟩ := map_ok this
    exact ⟨r', hr'⟩
  have hent : ∀ k ∈ List.range f.nmt, ∃ e, a.rxns[k]? = some e := by
    intro k hk
    rw [List.mem_range, ← h.count] at hk
    exact ⟨_, List.getElem?_eq_getElem hk⟩
  obtain ⟨s, hs⟩ := foldlM_total (NucState.step f (fun mt i => do
        let k ← getAt o.idx mt
        let r ← getInt o.rxns k
        STRxn.fromOther f a.grid i r)) (List.range f.nmt) (fun k hk s => by
    obtain ⟨e, hke⟩ := hent k hk
    unfold NucState.step
    rw [h.mt hke]
    simp only [bind, Except.bind]
    by_cases hf : isFisMT e.mt = true
    · rw [if_pos hf]; exact ⟨s, rfl⟩
    · rw [if_neg hf]
      have hnf : FissionMT e.mt → f.fissile = true := fun h => absurd ((isFisMT_iff _).mpr h) hf
      obtain ⟨r0, hr0, _⟩ := hoth e (List.mem_of_getElem? hke) hnf
      rcases reaction_split hr0 with ⟨hc, _⟩ | ⟨_, _, hx⟩
      · exact absurd hc hf
      · unfold rxnAt at hx
        obtain ⟨j, hj, hx⟩ := bind_ok hx
        obtain ⟨r, hr⟩ := hmk k e r0 hke hnf
        rw [hj]
        simp only []
        rw [hx]
        simp only []
        rw [hr]
        simp only []
        rw [if_pos (hacc.entry e (List.mem_of_getElem? hke) (by rw [h.fissile]; exact hnf)).1]
        exact ⟨_, rfl⟩) ⟨List.replicate f.nmt 0, List.replicate 892 (-1), []⟩
  have hsR := sharedFold_sim h hs
  have hinv := gfold_inv hsR
  have hmts := shared_mts h hoth hs
  -- fission
  obtain ⟨fi, x, hfi, c4⟩ : ∃ fi x, Fission.makeShared f a.grid o.fission = .ok fi ∧ computeFission o.fissile a.grid fi.forget = .ok x := by
    rw [← hof]
    unfold Fission.makeShared
    by_cases hff : f.fissile = false
    · rw [if_pos hff, hff]
      refine ⟨_, ⟨a.grid, [0], 0, true⟩, rfl, ?_⟩
      unfold computeFission XS.makeConst
      rw [if_pos rfl, if_neg (lt_irrefl _)]
    · rw [if_neg hff]
      have hff' : f.fissile = true := by simpa using hff
      dsimp only
      obtain ⟨fs, hfs⟩ := foldlM_total (FisState.step f (fun mt i => do
          let r ← deref (FisState.get ⟨o.fission.m18, o.fission.m19, o.fission.m20, o.fission.m21, o.fission.m38, []⟩ mt)
          STRxn.fromOther f a.grid i r)) (List.range f.nmt) (fun k hk s => by
        obtain ⟨e, hke⟩ := hent k hk
        unfold FisState.step
        rw [h.mt hke]
        simp only [bind, Except.bind]
        by_cases hf : isFisMT e.mt = true
        · rw [if_pos hf]
          obtain ⟨r0, hr0, _⟩ := hoth e (List.mem_of_getElem? hke) (fun _ => hff')
          rcases reaction_split hr0 with ⟨_, hx⟩ | ⟨hc, _⟩
          · rw [fission_reaction_get.mp hx]
            simp only [deref]
            obtain ⟨r, hr⟩ := hmk k e r0 hke (fun _ => hff')
            rw [hr]
            exact ⟨_, rfl⟩
          · rw [hc] at hf; cases hf
        · rw [if_neg hf]; exact ⟨_, rfl⟩) ⟨none, none, none, none, none, []⟩
      rw [hfs]
      simp only [bind, Except.bind]
      have hF := fisSharedFold_sim h hfs
      have hi := ffold_inv hF
      have hgood : ∀ mt, FissionMT mt → ∀ r, fs.toF.slot mt = some r → GoodXS r.xs ∧ r.xs.grid = a.grid := by
        intro mt hm r hr
        rcases hi.look mt hm with ⟨_, g⟩ | ⟨e, _, _, r', g, hmk⟩
        · rw [g] at hr; cases hr
        · rw [g] at hr; cases hr
          unfold mkFisShared at hmk
          obtain ⟨_, _, hmk⟩ := bind_ok hmk
          obtain ⟨_, _, k3, _, _, k6, _⟩ := rxnMake_ok hmk
          exact ⟨k6, k3⟩
      suffices hsuf : ∃ x, fs.toF.checkSpectrum = .ok fs.toF ∧ computeFission true a.grid fs.toF = .ok x by
        obtain ⟨x, q1, q2⟩ := hsuf
        obtain ⟨p, hp⟩ := prompt_rev q1
        rw [hp, hff']
        exact ⟨_, x, rfl, q2⟩
      cases h18 : fs.toF.m18 with
      | some r =>
        refine ⟨r.xs, ?_, ?_⟩
        · unfold Fis.checkSpectrum; rw [h18]; rfl
        · unfold computeFission; rw [if_neg (by simp), h18]
      | none =>
        have hno : ¬ ∃ e ∈ a.rxns, e.mt = 18 := by
          rw [← hi.some_iff (mt := 18) (by simp [FissionMT])]
          change ¬ fs.toF.m18.isSome = true
          rw [h18]; simp
        rcases hacc.fission (by rw [h.fissile]; exact hff') with h | ⟨c1, c2, c3, c4⟩
        · exact absurd h hno
        · have d1 : fs.toF.m19.isSome = true := (hi.some_iff (mt := 19) (by simp [FissionMT])).mpr c1
          have d2 : fs.toF.m20.isSome = true := (hi.some_iff (mt := 20) (by simp [FissionMT])).mpr c2
          have d3 : fs.toF.m21.isSome = true := (hi.some_iff (mt := 21) (by simp [FissionMT])).mpr c3
          have d4 : fs.toF.m38.isSome = true := (hi.some_iff (mt := 38) (by simp [FissionMT])).mpr c4
          obtain ⟨x, hx⟩ := (computeFission_iff h32 h18 hgood).mpr (Or.inl d1)
          refine ⟨x, ?_, hx⟩
          unfold Fis.checkSpectrum
          rw [d1, d2, d3, d4]
          simp
  obtain ⟨cx, hcx⟩ := captureXS_ok hinv.len (nuc_inv hs) a.grid
  obtain ⟨ur, hur⟩ := urr_accept (sm' := ⟨m.elastic, cx, x, m.heating⟩) (m := s.rxns.map STRxn.forget) (by
    rw [hrs, ← hmts, List.map_map]; rfl) ⟨u, hu⟩
  unfold Nuc.makeShared
  rw [hgr]
  simp only [bind, Except.bind]
  rw [hge, hmn]
  simp only []
  simp only [bind, Except.bind] at hs
  rw [hs]
  simp only []
  rw [hfi]
  simp only []
  rw [c4]
  simp only []
  rw [hcx]
  simp only []
  rw [hur]
  exact ⟨_, rfl⟩

/-- **C102** Everything `C102_shared` asks for is needed: if a nuclide can share the distributions of another one, its contents are
acceptable, its energies in order and positive, photon production and UNR block usable, and the other nuclide has every reaction looked at. -/
theorem C102_shared_needs (fuel : Nat) (f' f : AceFile) (a' a : AceIn ℝ) (o n : Nuc) (ho : Read fuel f' a' o) (h : FileHolds f a)
    (h32 : a.grid.length < 2 ^ 32) (hof : f.fissile = o.fissile) (hn : Nuc.makeShared f o = .ok n) :
    Acceptable a ∧ a.grid.Pairwise (· ≤ ·) ∧ (∃ e0, a.grid.head? = some e0 ∧ 0 < e0) ∧
      (∀ i, f.gpd = some i → ∃ vs, Holds f.xss i vs ∧ Tabulated a.grid vs 0) ∧
      (∀ e ∈ a.rxns, (FissionMT e.mt → f.fissile = true) → o.has e.mt = .ok true) ∧
      (∀ l, f.lunr = some l → l + 6 < f.xss.length) ∧
      (∃ sm rs u, rs.map Rxn.mt = (a.rxns.map RxnIn.mt).filter (fun mt => ¬ FissionMT mt) ∧ URR.make f.xss f.lunr sm rs = .ok u) := by
  obtain ⟨g0, g1, g2⟩ := C101_grid fuel f a n (.shared ho h hn)
  have hS := makeShared_sim h hn
  unfold STN.makeShared at hS
  rw [stepShared_eq] at hS
  obtain ⟨m', h1, hS⟩ := bind_ok hS
  obtain ⟨st, h2, hS⟩ := bind_ok hS
  obtain ⟨fi', h3, hS⟩ := bind_ok hS
  obtain ⟨x, h4, hS⟩ := bind_ok hS
  obtain ⟨m1, m2, m3, m4⟩ := mainMake_iff.mp ⟨m', h1⟩
  have hent : ∀ e ∈ a.rxns, (FissionMT e.mt → f.fissile = true) →
      (e.mt < 892 ∧ e.idx < a.grid.length ∧ Tabulated a.grid e.values e.idx) ∧ o.has e.mt = .ok true := by
    intro e he hu
    by_cases hf : FissionMT e.mt
    · have hfi := hu hf
      unfold Fis.makeShared at h3
      rw [if_neg (by rw [h.fissile, hfi]; simp), fisStepShared_eq] at h3
      obtain ⟨f1, h5, _⟩ := bind_ok h3
      obtain ⟨t, t', ht⟩ := foldlM_each _ _ _ _ h5 e he
      unfold fstep at ht
      rw [if_pos ((isFisMT_iff _).mpr hf)] at ht
      obtain ⟨r, hr, _⟩ := bind_ok ht
      unfold mkFisShared at hr
      obtain ⟨r0, hr0, hr⟩ := bind_ok hr
      refine ⟨⟨?_, rxnMake_iff.mp ⟨r, hr⟩⟩, ?_⟩
      · rcases hf with h | h | h | h | h <;> omega
      · rw [← has_toSTN]
        unfold STN.has
        rw [if_pos ((isFisMT_iff _).mpr hf), fis_has _ _ hf]
        cases hsl : o.toSTN.fis.slot e.mt with
        | none => rw [hsl] at hr0; cases hr0
        | some r1 => rfl
    · obtain ⟨t, t', ht⟩ := foldlM_each _ _ _ _ h2 e he
      have hnf : ¬ isFisMT e.mt = true := by rw [isFisMT_iff]; exact hf
      unfold gstep at ht
      rw [if_neg hnf] at ht
      obtain ⟨r, hr, ht⟩ := bind_ok ht
      have h892 : e.mt < 892 := by
        by_contra hc
        rw [if_neg hc] at ht
        cases ht
      unfold mkShared at hr
      obtain ⟨i, hi, hr⟩ := bind_ok hr
      obtain ⟨r0, hr0, hr⟩ := bind_ok hr
      refine ⟨⟨h892, rxnMake_iff.mp ⟨r, hr⟩⟩, ?_⟩
      rw [← has_toSTN]
      unfold STN.has
      rw [if_neg hnf, if_neg (by omega), hi]
      have : ¬ i < 0 := by
        intro hneg
        unfold getInt at hr0
        rw [if_pos hneg] at hr0
        cases hr0
      simp only [bind, Except.bind, pure, Except.pure]
      rw [decide_eq_true this]
  have hacc : Acceptable a := by
    refine ⟨m1, m2, m3, m4, fun e he hu => (hent e he (by rw [← h.fissile]; exact hu)).1, fun hfi => ?_⟩
    unfold Fis.makeShared at h3
    rw [if_neg (by simp [hfi]), fisStepShared_eq] at h3
    obtain ⟨f1, h5, h6⟩ := bind_ok h3
    obtain ⟨h7, h8⟩ := checkSpectrum_ok h6
    subst h7
    have hi := ffold_inv h5
    have hgood : ∀ mt, FissionMT mt → ∀ r, fi'.slot mt = some r → GoodXS r.xs ∧ r.xs.grid = a.grid := by
      intro mt hm r hr
      rcases hi.look mt hm with ⟨_, g⟩ | ⟨e, _, _, r', g, hmk⟩
      · rw [g] at hr; cases hr
      · rw [g] at hr; cases hr
        unfold mkFisShared at hmk
        obtain ⟨_, _, hmk⟩ := bind_ok hmk
        obtain ⟨_, _, k3, _, _, k6, _⟩ := rxnMake_ok hmk
        exact ⟨k6, k3⟩
    cases h18 : fi'.m18 with
    | some r =>
      exact Or.inl ((hi.some_iff (mt := 18) (by simp [FissionMT])).mp (by change fi'.m18.isSome = true; rw [h18]; rfl))
    | none =>
      right
      rw [show o.toSTN.fissile = o.fissile from rfl, ← hof, ← h.fissile, hfi] at h4
      have hany := (computeFission_iff h32 h18 hgood).mp ⟨x, h4⟩
      rcases h8 h18 with ⟨c1, c2, c3, c4⟩ | ⟨c1, c2, c3, c4⟩
      · rw [c1, c2, c3, c4] at hany; simp at hany
      · exact ⟨(hi.some_iff (mt := 19) (by simp [FissionMT])).mp c1, (hi.some_iff (mt := 20) (by simp [FissionMT])).mp c2,
          (hi.some_iff (mt := 21) (by simp [FissionMT])).mp c3, (hi.some_iff (mt := 38) (by simp [FissionMT])).mp c4⟩
  obtain ⟨m, s, fi, cx, hg, hm, hs, _, _, _, hu, _, _, _, hrx, _⟩ := makeShared_parts hn
  obtain ⟨he, _⟩ := readGrid_sim h hg
  rw [he] at hm hs
  refine ⟨hacc, g1, ?_, ?_, fun e he hu => (hent e he hu).2, ?_, ?_⟩
  · cases hgr : a.grid with
    | nil => exact absurd hgr g0
    | cons x xs => exact ⟨x, rfl, g2 x (by rw [hgr]; simp)⟩
  · intro i hi
    unfold mainAce at hm
    rw [hi] at hm
    obtain ⟨_, _, hm⟩ := bind_ok hm
    obtain ⟨_, _, hm⟩ := bind_ok hm
    obtain ⟨_, _, hm⟩ := bind_ok hm
    obtain ⟨_, _, hm⟩ := bind_ok hm
    obtain ⟨q, hq, hm⟩ := bind_ok hm
    unfold XS.readPlain at hq
    obtain ⟨vs, hv, hq⟩ := bind_ok hq
    have k := makeAce_iff.mp ⟨_, hq⟩
    refine ⟨vs, ?_, k.1, k.2 rfl⟩
    unfold xssSlice at hv
    split at hv
    · rename_i hle
      rw [← Except.ok.inj hv]
      refine ⟨f.xss.take i, f.xss.drop (i + f.ne), ?_, by simp; omega⟩
      rw [List.append_assoc, ← List.drop_drop, List.take_append_drop, List.take_append_drop]
    · cases hv
  · intro l hl'
    unfold EGrid.readAce at hg
    rw [hl'] at hg
    obtain ⟨_, _, hg⟩ := bind_ok hg
    obtain ⟨u, hu', hg⟩ := bind_ok hg
    exact lt_length_of_some (getAt_eq_ok.mp hu')
  · refine ⟨_, n.rxns.map STRxn.forget, n.urr, ?_, hu⟩
    rw [hrx, List.map_map]
    exact shared_mts h (fun e he hfe => shared_other ho e.mt (hent e he hfe).2) hs

/-- **C102** A nuclide can share the distributions of another one exactly when its contents are acceptable, its energies in order and positive,
photon production and UNR block usable, and the other nuclide has every reaction that is looked at. -/
theorem C102_shared_iff (fuel : Nat) (f' f : AceFile) (a' a : AceIn ℝ) (o : Nuc) (ho : Read fuel f' a' o) (h : FileHolds f a)
    (h32 : a.grid.length < 2 ^ 32) (hof : f.fissile = o.fissile) :
    (∃ n, Nuc.makeShared f o = .ok n) ↔
      Acceptable a ∧ a.grid.Pairwise (· ≤ ·) ∧ (∃ e0, a.grid.head? = some e0 ∧ 0 < e0) ∧
      (∀ i, f.gpd = some i → ∃ vs, Holds f.xss i vs ∧ Tabulated a.grid vs 0) ∧
      (∀ e ∈ a.rxns, (FissionMT e.mt → f.fissile = true) → o.has e.mt = .ok true) ∧
      (∀ l, f.lunr = some l → l + 6 < f.xss.length) ∧
      (∃ sm rs u, rs.map Rxn.mt = (a.rxns.map RxnIn.mt).filter (fun mt => ¬ FissionMT mt) ∧ URR.make f.xss f.lunr sm rs = .ok u) := by
  constructor
  · rintro ⟨n, hn⟩
    exact C102_shared_needs fuel f' f a' a o n ho h h32 hof hn
  · rintro ⟨c1, c2, c3, c4, c5, c6, c7⟩
    exact C102_shared fuel f' f a' a o ho h h32 hof c1 c2 c3 c4 c5 c6 c7

/-- **C102** A file whose nuclide is not fissile cannot share the distributions of a fissile nuclide, whatever it holds: the total fission cross
section is asked of reactions that were not read. -/
theorem C102_shared_mismatch (f : AceFile) (a : AceIn ℝ) (o : Nuc) (h : FileHolds f a) (h32 : a.grid.length < 2 ^ 32) (hff : f.fissile = false)
    (hof : o.fissile = true) : ¬ ∃ n, Nuc.makeShared f o = .ok n := by
  rintro ⟨n, hn⟩
  have hS := makeShared_sim h hn
  unfold STN.makeShared at hS
  obtain ⟨m', h1, hS⟩ := bind_ok hS
  obtain ⟨st, h2, hS⟩ := bind_ok hS
  obtain ⟨fi', h3, hS⟩ := bind_ok hS
  obtain ⟨x, h4, hS⟩ := bind_ok hS
  unfold Fis.makeShared at h3
  rw [if_pos (by rw [h.fissile, hff])] at h3
  cases h3
  rw [show o.toSTN.fissile = o.fissile from rfl, hof] at h4
  have hslot : ∀ mt, (Fis.none : Fis ℝ).slot mt = Option.none := by
    intro mt
    unfold Fis.slot Fis.none
    simp only [ite_self]
  have hany := (computeFission_iff h32 rfl (fun mt _ r hr => by rw [hslot] at hr; cases hr)).mp ⟨x, h4⟩
  simp [Fis.none] at hany

/-! ### A concrete file -/

namespace Example

/-- Three energies, capture from the first one on and (n,p) from the second. -/
noncomputable def file : AceFile where
  xss := [1, 2, 4, 5, 5, 6, 1, 2, 3, 2, 2, 2, 0, 0, 0, 102, 103, 7, -3, 0, 0, 1, 6, 1, 3, 1, 1, 1, 2, 2, 1, 2, 0]
  awr := 10
  mtr := 15
  lqr := 17
  tyr := 19
  land := 32
  andB := 33
  ldlw := 33
  dlw := 33
  fissile := false
  temperature := 293
  esz := 0
  ne := 3
  nmt := 2
  lsig := 21
  sig := 23
  gpd := none
  lunr := none
  nu := 0
  dnu := 0
  bdd := 0
  dnedl := 0
  dned := 0
  ngrps := 0

/-- Its contents. -/
noncomputable def contents : AceIn ℝ where
  fissile := false
  grid := [1, 2, 4]
  total := [5, 5, 6]
  disap := [1, 2, 3]
  elastic := [2, 2, 2]
  heating := [0, 0, 0]
  rxns := [⟨102, 0, [1, 1, 1], 0⟩, ⟨103, 1, [1, 2], 0⟩]

theorem file_holds : FileHolds file contents where
  fissile := rfl
  grid := rfl
  total := rfl
  disap := rfl
  elastic := rfl
  heating := rfl
  main := ⟨[], file.xss.drop 15, by simp [file, contents], rfl⟩
  count := rfl
  entry := by
    intro k e he
    match k with
    | 0 =>
      simp only [contents, List.getElem?_cons_zero, Option.some.injEq] at he
      subst he
      refine ⟨rfl, ⟨file.xss.take 15, file.xss.drop 16, by simp [file], by simp [file]⟩, 1, le_rfl,
        ⟨file.xss.take 21, file.xss.drop 22, by simp [file], by simp [file]⟩, ⟨file.xss.take 23, file.xss.drop 28, by simp [file], by simp [file]⟩⟩
    | 1 =>
      simp only [contents, List.getElem?_cons_succ, List.getElem?_cons_zero, Option.some.injEq] at he
      subst he
      refine ⟨rfl, ⟨file.xss.take 16, file.xss.drop 17, by simp [file], by simp [file]⟩, 6, by norm_num,
        ⟨file.xss.take 22, file.xss.drop 23, by simp [file], by simp [file]⟩, ⟨file.xss.take 28, file.xss.drop 32, ?_, by simp [file]⟩⟩
      simp [file]
    | k + 2 => simp [contents] at he

theorem contents_acceptable : Acceptable contents where
  total := ⟨rfl, by simp [contents]⟩
  disap := ⟨rfl, by simp [contents]⟩
  elastic := ⟨rfl, by simp [contents]⟩
  heating := rfl
  entry := by
    intro e he _
    simp only [contents, List.mem_cons, List.not_mem_nil, or_false] at he
    rcases he with e | e <;> subst e
    · exact ⟨by norm_num, by simp [contents], rfl, by simp⟩
    · exact ⟨by norm_num, by simp [contents], rfl, by simp⟩
  fission := by intro h; cases h

theorem file_accepted : ∃ n, Nuc.makeAce file 1 = .ok n := by
  refine (C102_accept file 1 contents file_holds (by simp [contents])).mpr ⟨contents_acceptable, by simp [contents]; norm_num,
    ⟨1, rfl, one_pos⟩, (by intro i hi; cases hi), ?_, ?_, by norm_num [file], by norm_num [file], ⟨_, rfl⟩, (by intro h; cases h), (by intro l hl; cases hl), ?_⟩
  · have one : ∀ k (mt : Nat) (q : ℝ), natAt file.xss (file.mtr + k) = .ok mt → getAt file.xss (file.lqr + k) = .ok q →
        getAt file.xss (file.tyr + k) = .ok 0 → ∃ b, RxnBase.makeAce file.toAceBlocks k 1 = .ok b := by
      intro k mt q h1 h2 h3
      unfold RxnBase.makeAce
      rw [h1]
      simp only [bind, Except.bind]
      rw [h2]
      simp only []
      rw [h3]
      simp only []
      have : ∃ y, readYield file.xss file.dlw 0 = .ok y := by
        unfold readYield
        simp [bind, Except.bind, pure, Except.pure]
      obtain ⟨y, hy⟩ := this
      rw [hy]
      simp only []
      rw [if_neg (by simp)]
      exact ⟨_, rfl⟩
    intro k e he _
    match k with
    | 0 => exact one 0 102 7 (Holds.nat (n := 102) ⟨file.xss.take 15, file.xss.drop 16, by simp [file], by simp [file]⟩) rfl rfl
    | 1 => exact one 1 103 (-3) (Holds.nat (n := 103) ⟨file.xss.take 16, file.xss.drop 17, by simp [file], by simp [file]⟩) rfl rfl
    | k + 2 => simp [contents] at he
  · refine ⟨0, ⟨[1 / 10 ^ 5], [.isotropic]⟩, ?_, rfl⟩
    exact Holds.int (n := 0) ⟨file.xss.take 32, [], by simp [file], by simp [file]⟩
  · exact ⟨⟨⟨[], [], 0, true⟩, ⟨[], [], 0, true⟩, ⟨[], [], 0, true⟩, ⟨[], [], 0, true⟩⟩, [⟨102, 0, ⟨[], [], 0, true⟩, 0⟩, ⟨103, 0, ⟨[], [], 0, true⟩, 0⟩],
      _, by decide, rfl⟩

/-- The hypotheses of C99, C101 are met, and the nuclide evaluates everywhere. -/
example : ∃ n, Made 1 file n ∧ Read 1 file contents n ∧ (∀ E, 1 ≤ E → ∃ p, n.evaluateE E = .ok p ∧ 0 ≤ p.total) ∧
    (∃ r, n.reaction 103 = .ok r ∧ r.threshold = 2) ∧ n.reaction 16 = .error .exc := by
  obtain ⟨n, hn⟩ := file_accepted
  have hr : Read 1 file contents n := .direct file_holds hn
  refine ⟨n, .direct hn, hr, fun E hE => ?_, ?_, ?_⟩
  · obtain ⟨p, i, hp, h⟩ := C101_evaluate 1 file contents n hr (by simp [contents]; norm_num) (by simp [contents]) 1 E rfl hE
    exact ⟨p, hp, h.2.2.2.2.2.2.2.2.2.1⟩
  · rcases C99_reactions file 1 n hn contents file_holds 103 with ⟨_, _, r, k, e, h1, h2, h3, _, _, _, h6⟩ | ⟨_, h, _⟩
    · refine ⟨r, h1, ?_⟩
      match k with
      | 0 => simp only [contents, List.getElem?_cons_zero, Option.some.injEq] at h2; subst h2; cases h3
      | 1 =>
        simp only [contents, List.getElem?_cons_succ, List.getElem?_cons_zero, Option.some.injEq] at h2
        subst h2
        simpa [contents] using h6.symm
      | k + 2 => simp [contents] at h2
    · exact absurd ⟨⟨⟨103, 1, [1, 2], 0⟩, by simp [contents], rfl⟩, by simp [FissionMT]⟩ h
  · rcases C99_reactions file 1 n hn contents file_holds 16 with ⟨_, ⟨⟨e, he, hm⟩, _⟩, _⟩ | ⟨_, _, h⟩
    · simp only [contents, List.mem_cons, List.not_mem_nil, or_false] at he
      rcases he with e | e <;> subst e <;> cases hm
    · exact h

/-- ... and a nuclide sharing its distributions exists (C100). -/
example : ∃ o n, Made 1 file o ∧ Nuc.makeShared file o = .ok n := by
  obtain ⟨o, ho⟩ := file_accepted
  have hr : Read 1 file contents o := .direct file_holds ho
  have hof : file.fissile = o.fissile := by
    obtain ⟨m, s, fi, l0, ad, cx, _, _, _, _, _, _, _, _, _, _, _, _, _, _, _, h, _⟩ := makeAce_parts ho
    exact h.symm
  obtain ⟨n, hn⟩ := C102_shared 1 file file contents contents o hr file_holds (by simp [contents]) hof contents_acceptable
    (by simp [contents]; norm_num) ⟨1, rfl, one_pos⟩ (by intro i hi; cases hi)
    (by
      intro e he _
      rcases C99_reactions file 1 o ho contents file_holds e.mt with ⟨h, _⟩ | ⟨_, h, _⟩
      · exact h
      · refine absurd ⟨⟨e, he, rfl⟩, fun hf => ?_⟩ h
        simp only [contents, List.mem_cons, List.not_mem_nil, or_false] at he
        rcases he with e | e <;> subst e <;> simp [FissionMT] at hf)
    (by intro l hl; cases hl)
    ⟨⟨⟨[], [], 0, true⟩, ⟨[], [], 0, true⟩, ⟨[], [], 0, true⟩, ⟨[], [], 0, true⟩⟩, [⟨102, 0, ⟨[], [], 0, true⟩, 0⟩, ⟨103, 0, ⟨[], [], 0, true⟩, 0⟩],
      _, by decide, rfl⟩
  exact ⟨o, n, .direct ho, hn⟩

end Example

end PNDL
