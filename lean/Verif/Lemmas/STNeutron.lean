import Verif.Spec.STNeutron
import Verif.Props.CrossSection

/-! Invariants of the loops of the `STNeutron` and `Fission` constructors. -/
namespace PNDL
open Spec

set_option linter.unusedSectionVars false

variable {K : Type} [Field K] [LinearOrder K] [IsStrictOrderedRing K]

theorem isFisMT_iff (mt : Nat) : isFisMT mt = true ↔ FissionMT mt := by
  simp [isFisMT, FissionMT, or_assoc]

/-! ### the main loop -/

/-- The step with the way reactions are made abstracted. -/
def gstep (mk : RxnIn K → Res (Rxn K)) (s : RState K) (e : RxnIn K) : Res (RState K) :=
  if isFisMT e.mt then .ok s
  else do
    let r ← mk e
    if e.mt < 892 then .ok ⟨s.mts ++ [e.mt], s.idx.set e.mt (s.rxns.length : Int), s.rxns ++ [r]⟩ else .error .ub

structure RInv (mk : RxnIn K → Res (Rxn K)) (z : List Nat) (done : List (RxnIn K)) (s : RState K) : Prop where
  len : s.idx.length = 892
  mts : s.mts = z ++ (done.filter (fun e => !isFisMT e.mt)).map RxnIn.mt
  look : ∀ mt < 892, ((∀ e ∈ done, e.mt = mt → isFisMT mt = true) ∧ s.idx[mt]? = some (-1)) ∨
    (∃ (i : Nat) (e : RxnIn K) (r : Rxn K), e ∈ done ∧ e.mt = mt ∧ isFisMT mt = false ∧ s.idx[mt]? = some (i : Int) ∧ s.rxns[i]? = some r ∧
      mk e = .ok r)
  bound : ∀ e ∈ done, isFisMT e.mt = true ∨ e.mt < 892
  all : ∀ r ∈ s.rxns, ∃ e ∈ done, mk e = .ok r

theorem gstep_inv {mk : RxnIn K → Res (Rxn K)} {z done} {s s' : RState K} {e : RxnIn K} (h : RInv mk z done s) (hs : gstep mk s e = .ok s') :
    RInv mk z (done ++ [e]) s' := by
  unfold gstep at hs
  by_cases hf : isFisMT e.mt = true
  · rw [if_pos hf] at hs
    cases hs
    refine ⟨h.len, ?_, ?_, ?_, ?_⟩
    · rw [h.mts, List.filter_append]; simp [hf]
    · intro mt hmt
      rcases h.look mt hmt with ⟨h1, h2⟩ | ⟨i, e', r, h1, h2⟩
      · refine Or.inl ⟨fun e' he' hm => ?_, h2⟩
        rcases List.mem_append.mp he' with h3 | h3
        · exact h1 e' h3 hm
        · rw [List.mem_singleton] at h3; rw [← hm, h3]; exact hf
      · exact Or.inr ⟨i, e', r, List.mem_append_left _ h1, h2⟩
    · intro e' he'
      rcases List.mem_append.mp he' with h3 | h3
      · exact h.bound e' h3
      · rw [List.mem_singleton] at h3; rw [h3]; exact Or.inl hf
    · intro r hr
      obtain ⟨e', he', hm⟩ := h.all r hr
      exact ⟨e', List.mem_append_left _ he', hm⟩
  · rw [if_neg hf] at hs
    cases hm : mk e with
    | error x => rw [hm] at hs; cases hs
    | ok r =>
      rw [hm] at hs
      simp only [bind, Except.bind] at hs
      by_cases hb : e.mt < 892
      · rw [if_pos hb] at hs
        cases hs
        have hf' : isFisMT e.mt = false := by simpa using hf
        refine ⟨by simp [h.len], ?_, ?_, ?_, ?_⟩
        · simp only [h.mts, List.filter_append, List.map_append, List.append_assoc]
          simp [hf']
        · intro mt hmt
          by_cases hme : e.mt = mt
          · right
            refine ⟨s.rxns.length, e, r, by simp, hme, hme ▸ hf', ?_, by simp, hm⟩
            rw [List.getElem?_set, if_pos hme, if_pos (by rw [h.len]; omega)]
          · rcases h.look mt hmt with ⟨h1, h2⟩ | ⟨i, e', r', h1, h2, h3, h4, h5, h6⟩
            · refine Or.inl ⟨fun e' he' hm' => ?_, ?_⟩
              · rcases List.mem_append.mp he' with h3 | h3
                · exact h1 e' h3 hm'
                · rw [List.mem_singleton] at h3; rw [h3] at hm'; exact absurd hm' hme
              · rw [List.getElem?_set, if_neg hme]; exact h2
            · refine Or.inr ⟨i, e', r', List.mem_append_left _ h1, h2, h3, ?_, ?_, h6⟩
              · rw [List.getElem?_set, if_neg hme]; exact h4
              · rw [List.getElem?_append_left (lt_length_of_some h5)]; exact h5
        · intro e' he'
          rcases List.mem_append.mp he' with h3 | h3
          · exact h.bound e' h3
          · rw [List.mem_singleton] at h3; rw [h3]; exact Or.inr hb
        · intro r' hr'
          rcases List.mem_append.mp hr' with h3 | h3
          · obtain ⟨e', he', hm'⟩ := h.all r' h3
            exact ⟨e', List.mem_append_left _ he', hm'⟩
          · rw [List.mem_singleton] at h3
            exact ⟨e, by simp, h3 ▸ hm⟩
      · rw [if_neg hb] at hs; cases hs

/-- Induction over a `foldlM` that succeeds. -/
theorem foldlM_inv {α σ : Type _} (f : σ → α → Res σ) (P : List α → σ → Prop)
    (hstep : ∀ done s e s', P done s → f s e = .ok s' → P (done ++ [e]) s') :
    ∀ (l done : List α) (s s' : σ), P done s → l.foldlM f s = .ok s' → P (done ++ l) s' := by
  intro l
  induction l with
  | nil => intro done s s' h hf; simp only [List.foldlM_nil, pure, Except.pure] at hf; cases hf; simpa using h
  | cons e l ih =>
    intro done s s' h hf
    rw [List.foldlM_cons] at hf
    cases hx : f s e with
    | error x => rw [hx] at hf; cases hf
    | ok s1 =>
      rw [hx] at hf
      have := ih (done ++ [e]) s1 s' (hstep _ _ _ _ h hx) hf
      simpa using this

theorem gfold_inv {mk : RxnIn K → Res (Rxn K)} {z : List Nat} {l : List (RxnIn K)} {s : RState K}
    (h : l.foldlM (gstep mk) ⟨z, List.replicate 892 (-1), []⟩ = .ok s) : RInv mk z l s := by
  have h0 : RInv mk z [] ⟨z, List.replicate 892 (-1), []⟩ := by
    refine ⟨List.length_replicate, by simp, fun mt hmt => Or.inl ⟨by simp, ?_⟩, by simp, by simp⟩
    rw [List.getElem?_replicate, if_pos hmt]
  have := foldlM_inv (gstep mk) (RInv mk z) (fun _ _ _ _ h hs => gstep_inv h hs) l [] _ s h0 h
  simpa using this

theorem step_eq (grid : List K) : STN.step grid = gstep (Rxn.fromAce grid) := rfl

/-- How the sharing constructor makes a reaction. -/
def mkShared (grid : List K) (b : STN K) (e : RxnIn K) : Res (Rxn K) := do
  let i ← getAt b.idx e.mt
  let o ← getInt b.rxns i
  Rxn.fromOther grid e o

theorem stepShared_eq (grid : List K) (b : STN K) : STN.stepShared grid b = gstep (mkShared grid b) := by
  funext s e
  unfold STN.stepShared gstep mkShared
  split
  · rfl
  · simp only [bind, Except.bind]
    cases getAt b.idx e.mt with
    | error x => rfl
    | ok i =>
      dsimp only
      cases getInt b.rxns i <;> rfl

/-! ### the fission loop -/

/-- The slot of a fission MT. -/
def Fis.slot (f : Fis K) (mt : Nat) : Option (Rxn K) :=
  if mt = 18 then f.m18 else if mt = 19 then f.m19 else if mt = 20 then f.m20 else if mt = 21 then f.m21
  else if mt = 38 then f.m38 else Option.none

structure FInv (mk : RxnIn K → Res (Rxn K)) (done : List (RxnIn K)) (f : Fis K) : Prop where
  mts : f.mts = (done.filter (fun e => isFisMT e.mt)).map RxnIn.mt
  look : ∀ mt, FissionMT mt → ((∀ e ∈ done, e.mt ≠ mt) ∧ f.slot mt = Option.none) ∨
    ∃ e ∈ done, e.mt = mt ∧ ∃ r, f.slot mt = some r ∧ mk e = .ok r

/-- Setting a slot. -/
def Fis.put (f : Fis K) (mt : Nat) (r : Rxn K) : Fis K :=
  if mt = 18 then { f with m18 := some r, mts := f.mts ++ [18] }
  else if mt = 19 then { f with m19 := some r, mts := f.mts ++ [19] }
  else if mt = 20 then { f with m20 := some r, mts := f.mts ++ [20] }
  else if mt = 21 then { f with m21 := some r, mts := f.mts ++ [21] }
  else { f with m38 := some r, mts := f.mts ++ [38] }

def fstep (mk : RxnIn K → Res (Rxn K)) (f : Fis K) (e : RxnIn K) : Res (Fis K) :=
  if isFisMT e.mt then do let r ← mk e; return f.put e.mt r else .ok f

theorem put_slot (f : Fis K) (mt mt' : Nat) (r : Rxn K) (h : FissionMT mt) (h' : FissionMT mt') :
    (f.put mt r).slot mt' = if mt = mt' then some r else f.slot mt' := by
  rcases h with h | h | h | h | h <;> rcases h' with h' | h' | h' | h' | h' <;> subst h <;> subst h' <;> rfl

theorem put_mts (f : Fis K) (mt : Nat) (r : Rxn K) (h : FissionMT mt) : (f.put mt r).mts = f.mts ++ [mt] := by
  rcases h with h | h | h | h | h <;> subst h <;> rfl

theorem fstep_inv {mk : RxnIn K → Res (Rxn K)} {done} {f f' : Fis K} {e : RxnIn K} (h : FInv mk done f) (hs : fstep mk f e = .ok f') :
    FInv mk (done ++ [e]) f' := by
  unfold fstep at hs
  by_cases hf : isFisMT e.mt = true
  · rw [if_pos hf] at hs
    cases hm : mk e with
    | error x => rw [hm] at hs; cases hs
    | ok r =>
      rw [hm] at hs
      simp only [bind, Except.bind, pure, Except.pure] at hs
      cases hs
      have hfe := (isFisMT_iff _).mp hf
      refine ⟨?_, ?_⟩
      · rw [put_mts _ _ _ hfe, h.mts, List.filter_append]; simp [hf]
      · intro mt hmt
        rw [put_slot _ _ _ _ hfe hmt]
        by_cases he : e.mt = mt
        · rw [if_pos he]; exact Or.inr ⟨e, by simp, he, r, rfl, hm⟩
        · rw [if_neg he]
          rcases h.look mt hmt with ⟨h1, h2⟩ | ⟨e', h1, h2⟩
          · refine Or.inl ⟨fun e' he' => ?_, h2⟩
            rcases List.mem_append.mp he' with h3 | h3
            · exact h1 e' h3
            · rw [List.mem_singleton] at h3; rw [h3]; exact he
          · exact Or.inr ⟨e', List.mem_append_left _ h1, h2⟩
  · rw [if_neg hf] at hs
    cases hs
    refine ⟨?_, ?_⟩
    · rw [h.mts, List.filter_append]; simp [hf]
    · intro mt hmt
      rcases h.look mt hmt with ⟨h1, h2⟩ | ⟨e', h1, h2⟩
      · refine Or.inl ⟨fun e' he' => ?_, h2⟩
        rcases List.mem_append.mp he' with h3 | h3
        · exact h1 e' h3
        · rw [List.mem_singleton] at h3; rw [h3]
          intro hc; exact hf ((isFisMT_iff _).mpr (hc ▸ hmt))
      · exact Or.inr ⟨e', List.mem_append_left _ h1, h2⟩

theorem fisStep_eq (grid : List K) : Fis.step grid = fstep (Rxn.fromAce grid) := by
  funext f e
  unfold Fis.step fstep
  by_cases h : FissionMT e.mt
  · rw [if_pos ((isFisMT_iff _).mpr h)]
    obtain ⟨mt, idx, vals, d⟩ := e
    rcases h with h | h | h | h | h <;> simp only at h <;> subst h <;> rfl
  · have hne : ¬ isFisMT e.mt = true := by rw [isFisMT_iff]; exact h
    rw [if_neg hne]
    simp only [FissionMT, not_or] at h
    obtain ⟨h1, h2, h3, h4, h5⟩ := h
    rw [if_neg h1, if_neg h2, if_neg h3, if_neg h4, if_neg h5]

/-- How the sharing constructor makes a fission reaction. -/
def mkFisShared (grid : List K) (b : Fis K) (e : RxnIn K) : Res (Rxn K) := do
  let o ← deref (b.slot e.mt)
  Rxn.fromOther grid e o

theorem fisStepShared_eq (grid : List K) (b : Fis K) : Fis.stepShared grid b = fstep (mkFisShared grid b) := by
  funext f e
  unfold Fis.stepShared fstep
  by_cases h : FissionMT e.mt
  · rw [if_pos ((isFisMT_iff _).mpr h)]
    obtain ⟨mt, idx, vals, d⟩ := e
    rcases h with h | h | h | h | h <;> simp only at h <;> subst h
    · unfold mkFisShared; simp only [Fis.slot, bind, Except.bind, pure, Except.pure]; cases b.m18 <;> rfl
    · unfold mkFisShared; simp only [Fis.slot, bind, Except.bind, pure, Except.pure]; cases b.m19 <;> rfl
    · unfold mkFisShared; simp only [Fis.slot, bind, Except.bind, pure, Except.pure]; cases b.m20 <;> rfl
    · unfold mkFisShared; simp only [Fis.slot, bind, Except.bind, pure, Except.pure]; cases b.m21 <;> rfl
    · unfold mkFisShared; simp only [Fis.slot, bind, Except.bind, pure, Except.pure]; cases b.m38 <;> rfl
  · have hne : ¬ isFisMT e.mt = true := by rw [isFisMT_iff]; exact h
    rw [if_neg hne]
    simp only [FissionMT, not_or] at h
    obtain ⟨h1, h2, h3, h4, h5⟩ := h
    rw [if_neg h1, if_neg h2, if_neg h3, if_neg h4, if_neg h5]

theorem ffold_inv {mk : RxnIn K → Res (Rxn K)} {l : List (RxnIn K)} {f : Fis K}
    (h : l.foldlM (fstep mk) Fis.none = .ok f) : FInv mk l f := by
  have h0 : FInv mk [] (Fis.none : Fis K) := by
    refine ⟨rfl, fun mt hmt => Or.inl ⟨by simp, ?_⟩⟩
    rcases hmt with h | h | h | h | h <;> subst h <;> rfl
  have := foldlM_inv (fstep mk) (FInv mk) (fun _ _ _ _ h hs => fstep_inv h hs) l [] _ f h0 h
  simpa using this

theorem checkSpectrum_ok {f f' : Fis K} (h : f.checkSpectrum = .ok f') : f' = f ∧
    (f.m18 = Option.none → (f.m19 = Option.none ∧ f.m20 = Option.none ∧ f.m21 = Option.none ∧ f.m38 = Option.none) ∨
      (f.m19.isSome ∧ f.m20.isSome ∧ f.m21.isSome ∧ f.m38.isSome)) := by
  unfold Fis.checkSpectrum at h
  split at h
  · rename_i h18
    cases h
    refine ⟨rfl, fun hn => ?_⟩
    rw [hn] at h18; cases h18
  · split at h
    · split at h
      · rename_i h4
        cases h
        simp only [Bool.and_eq_true] at h4
        exact ⟨rfl, fun _ => Or.inr ⟨h4.1.1.1, h4.1.1.2, h4.1.2, h4.2⟩⟩
      · cases h
    · rename_i h4
      cases h
      simp only [Bool.or_eq_true, not_or, Option.not_isSome_iff_eq_none] at h4
      exact ⟨rfl, fun _ => Or.inl ⟨h4.1.1.1, h4.1.1.2, h4.1.2, h4.2⟩⟩

/-- What the reaction members satisfy after construction. -/
structure FisOk (mk : RxnIn K → Res (Rxn K)) (fissile : Bool) (l : List (RxnIn K)) (f : Fis K) : Prop where
  mts : f.mts = if fissile then (l.filter (fun e => isFisMT e.mt)).map RxnIn.mt else []
  look : ∀ mt, FissionMT mt → ((fissile = true → ∀ e ∈ l, e.mt ≠ mt) ∧ f.slot mt = Option.none) ∨
    (fissile = true ∧ ∃ e ∈ l, e.mt = mt ∧ ∃ r, f.slot mt = some r ∧ mk e = .ok r)
  spec : f.m18 = Option.none → (f.m19 = Option.none ∧ f.m20 = Option.none ∧ f.m21 = Option.none ∧ f.m38 = Option.none) ∨
      (f.m19.isSome ∧ f.m20.isSome ∧ f.m21.isSome ∧ f.m38.isSome)

theorem fisOk_of {mk : RxnIn K → Res (Rxn K)} {fissile : Bool} {l : List (RxnIn K)} {f : Fis K}
    (h : (if fissile = false then .ok Fis.none else (do let f ← l.foldlM (fstep mk) Fis.none; f.checkSpectrum) : Res (Fis K)) = .ok f) :
    FisOk mk fissile l f := by
  cases fissile with
  | false =>
    rw [if_pos rfl] at h
    cases h
    refine ⟨rfl, fun mt hmt => Or.inl ⟨by simp, ?_⟩, fun _ => Or.inl ⟨rfl, rfl, rfl, rfl⟩⟩
    rcases hmt with h | h | h | h | h <;> subst h <;> rfl
  | true =>
    rw [if_neg (by simp)] at h
    cases hf : l.foldlM (fstep mk) Fis.none with
    | error x => rw [hf] at h; cases h
    | ok f1 =>
      rw [hf] at h
      obtain ⟨h1, h2⟩ := checkSpectrum_ok h
      subst h1
      have hi := ffold_inv hf
      refine ⟨by rw [hi.mts]; rfl, fun mt hmt => ?_, h2⟩
      rcases hi.look mt hmt with ⟨a, b⟩ | h3
      · exact Or.inl ⟨fun _ => a, b⟩
      · exact Or.inr ⟨rfl, h3⟩

theorem fisMake_ok {fissile : Bool} {grid : List K} {l : List (RxnIn K)} {f : Fis K} (h : Fis.make fissile grid l = .ok f) :
    FisOk (Rxn.fromAce grid) fissile l f := by
  unfold Fis.make at h
  rw [fisStep_eq] at h
  exact fisOk_of h

theorem fisMakeShared_ok {fissile : Bool} {grid : List K} {l : List (RxnIn K)} {b f : Fis K}
    (h : Fis.makeShared fissile grid l b = .ok f) : FisOk (mkFisShared grid b) fissile l f := by
  unfold Fis.makeShared at h
  rw [fisStepShared_eq] at h
  exact fisOk_of h

/-- The look-up functions through the slots. -/
theorem fis_has (f : Fis K) (mt : Nat) (h : FissionMT mt) : f.has mt = (f.slot mt).isSome := by
  rcases h with h | h | h | h | h <;> subst h <;> simp [Fis.has, Fis.slot]

theorem fis_reaction (f : Fis K) (mt : Nat) (h : FissionMT mt) :
    f.reaction mt = match f.slot mt with
      | some r => .ok r
      | Option.none => .error .exc := by
  unfold Fis.reaction
  rw [fis_has f mt h]
  rcases h with h | h | h | h | h <;> subst h
  · simp only [Fis.slot]; cases f.m18 <;> rfl
  · simp only [Fis.slot]; cases f.m19 <;> rfl
  · simp only [Fis.slot]; cases f.m20 <;> rfl
  · simp only [Fis.slot]; cases f.m21 <;> rfl
  · simp only [Fis.slot]; cases f.m38 <;> rfl

theorem fis_has_false (f : Fis K) (mt : Nat) (h : ¬ FissionMT mt) : f.has mt = false := by
  simp only [FissionMT, not_or] at h
  simp [Fis.has, h]

theorem rxnMake_ok {grid : List K} {e : RxnIn K} {mt d : Nat} {r : Rxn K} (h : Rxn.make grid e mt d = .ok r) :
    r.mt = mt ∧ r.dist = d ∧ r.xs.grid = grid ∧ r.xs.values = e.values ∧ r.xs.index = e.idx ∧ GoodXS r.xs ∧ grid[e.idx]? = some r.threshold := by
  unfold Rxn.make at h
  cases hx : XS.makeAce e.values grid e.idx false with
  | error x => rw [hx] at h; cases h
  | ok s =>
    rw [hx] at h
    simp only [bind, Except.bind] at h
    obtain ⟨g1, g2, g3, g4, g5⟩ := C29_ace _ _ _ _ _ hx
    cases ht : getAt grid s.index with
    | error x => rw [ht] at h; cases h
    | ok t =>
      rw [ht] at h
      cases h
      have hlt := lt_length_of_some (getAt_eq_ok.mp ht)
      refine ⟨rfl, rfl, g1, g2, g3, ⟨?_, by rw [g1]; exact hlt, by rw [g1, g2, g3]; exact g4, by rw [g2]; exact g5 rfl⟩, by
        rw [← g3]; exact getAt_eq_ok.mp ht⟩
      unfold XS.makeAce at hx
      split at hx
      · cases hx
      · split at hx
        · cases hx
        · cases hx; rfl

/-- What every constructed object satisfies. -/
structure StnOk (a : AceIn K) (s : STN K) : Prop where
  grid : s.grid = a.grid
  len : s.idx.length = 892
  bound : ∀ e ∈ a.rxns, isFisMT e.mt = true ∨ e.mt < 892
  look : ∀ mt < 892, ((∀ e ∈ a.rxns, e.mt = mt → isFisMT mt = true) ∧ s.idx[mt]? = some (-1)) ∨
    (∃ (i : Nat) (e : RxnIn K) (r : Rxn K), e ∈ a.rxns ∧ e.mt = mt ∧ isFisMT mt = false ∧ s.idx[mt]? = some (i : Int) ∧ s.rxns[i]? = some r ∧
      ∃ d, Rxn.make a.grid e mt d = .ok r)
  fmts : s.fis.mts = if a.fissile then (a.rxns.filter (fun e => isFisMT e.mt)).map RxnIn.mt else []
  flook : ∀ mt, FissionMT mt → ((a.fissile = true → ∀ e ∈ a.rxns, e.mt ≠ mt) ∧ s.fis.slot mt = Option.none) ∨
    (a.fissile = true ∧ ∃ e ∈ a.rxns, e.mt = mt ∧ ∃ r, s.fis.slot mt = some r ∧ ∃ d, Rxn.make a.grid e mt d = .ok r)
  spec : s.fis.m18 = Option.none → (s.fis.m19 = Option.none ∧ s.fis.m20 = Option.none ∧ s.fis.m21 = Option.none ∧ s.fis.m38 = Option.none) ∨
      (s.fis.m19.isSome ∧ s.fis.m20.isSome ∧ s.fis.m21.isSome ∧ s.fis.m38.isSome)
  fxs : computeFission s.fissile a.grid s.fis = .ok s.fissionXS
  main : MainXS.make a = .ok ⟨s.total, s.disap, s.elastic, s.heating⟩
  all : ∀ r ∈ s.rxns, ∃ e d, Rxn.make a.grid e r.mt d = .ok r

theorem bind_ok {α β : Type _} {x : Res α} {f : α → Res β} {b : β} (h : (x >>= f) = .ok b) : ∃ a, x = .ok a ∧ f a = .ok b := by
  cases x with
  | error e => cases h
  | ok a => exact ⟨a, rfl, h⟩

theorem stnMake_ok {a : AceIn K} {s : STN K} (h : STN.make a = .ok s) :
    StnOk a s ∧ s.fissile = a.fissile ∧ s.mts = ((a.rxns.filter (fun e => !isFisMT e.mt)).map RxnIn.mt ++ s.fis.mts).insertionSort (· ≤ ·) := by
  unfold STN.make at h
  rw [step_eq] at h
  obtain ⟨m, h1, h⟩ := bind_ok h
  obtain ⟨st, h2, h⟩ := bind_ok h
  obtain ⟨f, h3, h⟩ := bind_ok h
  obtain ⟨x, h4, h⟩ := bind_ok h
  cases h
  have hr := gfold_inv h2
  have hf := fisMake_ok h3
  refine ⟨⟨rfl, hr.len, hr.bound, fun mt hmt => ?_, hf.mts, fun mt hmt => ?_, hf.spec, h4, h1, fun r hr' => ?_⟩, rfl, ?_⟩
  · rcases hr.look mt hmt with h5 | ⟨i, e, r, g1, g2, g3, g4, g5, g6⟩
    · exact Or.inl h5
    · exact Or.inr ⟨i, e, r, g1, g2, g3, g4, g5, e.dist, by rw [← g2]; exact g6⟩
  · rcases hf.look mt hmt with h5 | ⟨g0, e, g1, g2, r, g3, g4⟩
    · exact Or.inl h5
    · exact Or.inr ⟨g0, e, g1, g2, r, g3, e.dist, by rw [← g2]; exact g4⟩
  · obtain ⟨e, _, he⟩ := hr.all r hr'
    have := (rxnMake_ok he).1
    exact ⟨e, e.dist, by rw [this]; exact he⟩
  · simp only [hr.mts, List.nil_append]

theorem getInt_natCast {α : Type _} (l : List α) (i : Nat) : getInt l (i : Int) = getAt l i := by
  unfold getInt
  rw [if_neg (by omega)]
  simp

theorem makeShared_ok {a a' : AceIn K} {b s : STN K} (hb : StnOk a' b) (h : STN.makeShared a b = .ok s) :
    StnOk a s ∧ s.fissile = b.fissile ∧
      s.mts = (List.replicate a.rxns.length (0 : Nat) ++ (a.rxns.filter (fun e : RxnIn K => !isFisMT e.mt)).map RxnIn.mt ++ s.fis.mts).insertionSort
        (fun (m n : Nat) => m ≤ n) ∧
      (∀ mt < 892, ∀ r (i : Nat), isFisMT mt = false → s.idx[mt]? = some (i : Int) → s.rxns[i]? = some r → ∃ (j : Nat) (o : Rxn K), b.idx[mt]? = some (j : Int) ∧
        b.rxns[j]? = some o ∧ r.dist = o.dist) ∧
      (∀ mt r, FissionMT mt → s.fis.slot mt = some r → ∃ o, b.fis.slot mt = some o ∧ r.dist = o.dist) := by
  unfold STN.makeShared at h
  rw [stepShared_eq] at h
  obtain ⟨m, h1, h⟩ := bind_ok h
  obtain ⟨st, h2, h⟩ := bind_ok h
  obtain ⟨f, h3, h⟩ := bind_ok h
  obtain ⟨x, h4, h⟩ := bind_ok h
  cases h
  have hr := gfold_inv h2
  have hf := fisMakeShared_ok h3
  have key : ∀ (e : RxnIn K) (mt : Nat) (r : Rxn K), mt < 892 → e.mt = mt → isFisMT mt = false → mkShared a.grid b e = .ok r →
      ∃ (j : Nat) (o : Rxn K), b.idx[mt]? = some (j : Int) ∧ b.rxns[j]? = some o ∧ o.mt = mt ∧ Rxn.make a.grid e mt o.dist = .ok r := by
    intro e mt r hmt he hn hm
    unfold mkShared at hm
    obtain ⟨i, k1, hm1⟩ := bind_ok hm
    obtain ⟨o, k2, hm2⟩ := bind_ok hm1
    clear hm hm1
    rw [he] at k1
    rcases hb.look mt hmt with ⟨_, g⟩ | ⟨j, e', r', g1, g2, g3, g4, g5, d, g6⟩
    · rw [getAt_eq_ok, g] at k1
      cases k1
      cases k2
    · rw [getAt_eq_ok, g4] at k1
      cases k1
      rw [getInt_natCast, getAt_eq_ok, g5] at k2
      cases k2
      have hmt' := (rxnMake_ok g6).1
      refine ⟨j, _, g4, g5, hmt', ?_⟩
      unfold Rxn.fromOther at hm2
      rw [hmt'] at hm2
      exact hm2
  have keyF : ∀ (e : RxnIn K) (mt : Nat) (r : Rxn K), FissionMT mt → e.mt = mt → mkFisShared a.grid b.fis e = .ok r →
      ∃ o, b.fis.slot mt = some o ∧ Rxn.make a.grid e mt o.dist = .ok r := by
    intro e mt r hmt he hm
    unfold mkFisShared at hm
    obtain ⟨o, k1, hm2⟩ := bind_ok hm
    clear hm
    rw [he] at k1
    rcases hb.flook mt hmt with ⟨_, g⟩ | ⟨_, e', _, _, o', g, d, g6⟩
    · rw [g] at k1; cases k1
    · rw [g] at k1
      cases k1
      have hmt' := (rxnMake_ok g6).1
      unfold Rxn.fromOther at hm2
      rw [hmt'] at hm2
      exact ⟨_, g, hm2⟩
  refine ⟨⟨rfl, hr.len, hr.bound, fun mt hmt => ?_, hf.mts, fun mt hmt => ?_, hf.spec, h4, h1, fun r hr' => ?_⟩, rfl, ?_, ?_, ?_⟩
  · rcases hr.look mt hmt with h5 | ⟨i, e, r, g1, g2, g3, g4, g5, g6⟩
    · exact Or.inl h5
    · obtain ⟨j, o, _, _, _, k⟩ := key e mt r hmt g2 g3 g6
      exact Or.inr ⟨i, e, r, g1, g2, g3, g4, g5, _, k⟩
  · rcases hf.look mt hmt with h5 | ⟨g0, e, g1, g2, r, g3, g4⟩
    · exact Or.inl h5
    · obtain ⟨o, _, k⟩ := keyF e mt r hmt g2 g4
      exact Or.inr ⟨g0, e, g1, g2, r, g3, _, k⟩
  · obtain ⟨e, _, he⟩ := hr.all r hr'
    unfold mkShared at he
    obtain ⟨i, _, he1⟩ := bind_ok he
    obtain ⟨o, _, he2⟩ := bind_ok he1
    have := (rxnMake_ok he2).1
    exact ⟨e, o.dist, by rw [this]; exact he2⟩
  · simp only [hr.mts]
  · intro mt hmt r i hn hi hri
    rcases hr.look mt hmt with ⟨_, h5⟩ | ⟨i', e, r', g1, g2, g3, g4, g5, g6⟩
    · simp only at hi
      rw [h5] at hi
      have : (-1 : Int) = (i : Int) := by simpa using hi
      omega
    · simp only at hi hri
      rw [g4] at hi
      have : i' = i := by simpa using hi
      subst this
      rw [g5] at hri
      cases hri
      obtain ⟨j, o, k1, k2, _, k⟩ := key e mt r hmt g2 g3 g6
      exact ⟨j, o, k1, k2, (rxnMake_ok k).2.1⟩
  · intro mt r hmt hs
    rcases hf.look mt hmt with ⟨_, h5⟩ | ⟨g0, e, g1, g2, r', g3, g4⟩
    · simp only at hs
      rw [h5] at hs; cases hs
    · simp only at hs
      rw [g3] at hs
      cases hs
      obtain ⟨o, k0, k⟩ := keyF e mt r hmt g2 g4
      exact ⟨o, k0, (rxnMake_ok k).2.1⟩

theorem built_ok {a : AceIn K} {s : STN K} (h : Built a s) : StnOk a s := by
  induction h with
  | direct h => exact (stnMake_ok h).1
  | shared _ h ih => exact (makeShared_ok ih h).1

end PNDL
