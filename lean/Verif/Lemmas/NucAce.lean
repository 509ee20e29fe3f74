import Verif.Spec.NucAce
import Verif.Props.AceTables
import Verif.Lemmas.STNeutron

/-! The constructors reading a file simulate those of `Model/STNeutron.lean`. -/
namespace PNDL
open Spec

/-- The members of a nuclide that `Model/STNeutron.lean` describes. -/
def Nuc.toSTN (n : Nuc) : STN ℝ :=
  ⟨n.fissile, n.grid.energy, n.total, n.disap, n.elasticXS, n.heating, n.fissionXS, n.fission.forget, n.mts, n.idx, n.rxns.map STRxn.forget⟩

def NucState.toR (s : NucState) : RState ℝ := ⟨s.mts, s.idx, s.rxns.map STRxn.forget⟩

def FisState.toF (s : FisState) : Fis ℝ :=
  ⟨s.m18.map STRxn.forget, s.m19.map STRxn.forget, s.m20.map STRxn.forget, s.m21.map STRxn.forget, s.m38.map STRxn.forget, s.mts⟩

/-- Two folds in step. -/
theorem foldlM_sim {α β σ τ : Type} (f : σ → α → Res σ) (g : τ → β → Res τ) (Q : α → β → Prop) (R : σ → τ → Prop)
    (hstep : ∀ a b s t s', Q a b → R s t → f s a = .ok s' → ∃ t', g t b = .ok t' ∧ R s' t') :
    ∀ (l : List α) (m : List β), List.Forall₂ Q l m → ∀ (s s' : σ) (t : τ), R s t → l.foldlM f s = .ok s' →
      ∃ t', m.foldlM g t = .ok t' ∧ R s' t' := by
  intro l m h
  induction h with
  | nil => intro s s' t hr hf; simp only [List.foldlM_nil, pure, Except.pure] at hf ⊢; cases hf; exact ⟨t, rfl, hr⟩
  | @cons a b l m hq _ ih =>
    intro s s' t hr hf
    rw [List.foldlM_cons] at hf
    obtain ⟨s1, h1, h2⟩ := bind_ok hf
    obtain ⟨t1, g1, g2⟩ := hstep a b s t s1 hq hr h1
    obtain ⟨t', k1, k2⟩ := ih s1 s' t1 g2 h2
    refine ⟨t', ?_, k2⟩
    rw [List.foldlM_cons, g1]
    exact k1

/-- Entries and their contents, in order. -/
theorem Spec.FileHolds.zip {f : AceFile} {a : AceIn ℝ} (h : FileHolds f a) :
    List.Forall₂ (fun k e => a.rxns[k]? = some e) (List.range f.nmt) a.rxns := by
  rw [List.forall₂_iff_get]
  refine ⟨by simp [h.count], fun i h1 h2 => ?_⟩
  simp only [List.get_eq_getElem, List.getElem_range]
  exact List.getElem?_eq_getElem h2

theorem Spec.FileHolds.mt {f : AceFile} {a : AceIn ℝ} (h : FileHolds f a) {k : Nat} {e : RxnIn ℝ} (he : a.rxns[k]? = some e) :
    natAt f.xss (f.mtr + k) = .ok e.mt := (h.entry k e he).2.1.nat

theorem Spec.FileHolds.rxn {f : AceFile} {a : AceIn ℝ} (h : FileHolds f a) {k : Nat} {e : RxnIn ℝ} (he : a.rxns[k]? = some e) (b : RxnBase) :
    (STRxn.make f a.grid k b).map STRxn.forget = Rxn.make a.grid e b.mt 0 := by
  obtain ⟨_, _, loc, hl, h1, h2⟩ := h.entry k e he
  have g1 := h2.left.nat
  have g2 := h2.right.left.nat
  have g3 := h2.right.right.slice
  simp only [List.length_cons, List.length_nil, Nat.zero_add] at g2 g3
  rw [Nat.add_assoc] at g3
  unfold STRxn.make Rxn.make XS.readIndexed
  rw [h1.nat]
  simp only [bind, Except.bind]
  rw [subIdx_of_le (by omega), show f.sig + loc - 1 = f.sig + (loc - 1) by omega]
  simp only []
  rw [g1]
  simp only []
  rw [g2]
  simp only []
  rw [g3]
  simp only []
  rw [if_neg (by omega), Nat.add_sub_cancel]
  cases XS.makeAce e.values a.grid e.idx false with
  | error x => rfl
  | ok s =>
    simp only []
    cases getAt a.grid s.index <;> rfl

theorem rxnBase_mt {b : AceBlocks} {k fuel : Nat} {r : RxnBase} (h : RxnBase.makeAce b k fuel = .ok r) : natAt b.xss (b.mtr + k) = .ok r.mt := by
  unfold RxnBase.makeAce at h
  obtain ⟨mt, h1, h⟩ := bind_ok h
  obtain ⟨q, _, h⟩ := bind_ok h
  obtain ⟨tyr, _, h⟩ := bind_ok h
  obtain ⟨y, _, h⟩ := bind_ok h
  rw [h1]
  split at h
  · obtain ⟨ls, _, h⟩ := bind_ok h
    obtain ⟨d, _, h⟩ := bind_ok h
    cases h; rfl
  · cases h; rfl

theorem fromAce_sim {f : AceFile} {a : AceIn ℝ} (h : FileHolds f a) {fuel k : Nat} {e : RxnIn ℝ} (he : a.rxns[k]? = some e) {r : STRxn}
    (hr : STRxn.fromAce f fuel a.grid k = .ok r) : Rxn.fromAce a.grid e = .ok r.forget ∧ r.base.mt = e.mt := by
  unfold STRxn.fromAce at hr
  obtain ⟨b, hb, hr⟩ := bind_ok hr
  have hm := rxnBase_mt hb
  rw [h.mt he] at hm
  have hm' := Except.ok.inj hm
  have hs := h.rxn he b
  rw [hr] at hs
  unfold Rxn.fromAce
  rw [hm', (h.entry k e he).1, ← hs]
  refine ⟨rfl, ?_⟩
  unfold STRxn.make at hr
  obtain ⟨_, _, hr⟩ := bind_ok hr
  obtain ⟨_, _, hr⟩ := bind_ok hr
  obtain ⟨_, _, hr⟩ := bind_ok hr
  obtain ⟨_, _, hr⟩ := bind_ok hr
  cases hr
  rfl

theorem fromOther_sim {f : AceFile} {a : AceIn ℝ} (h : FileHolds f a) {k : Nat} {e : RxnIn ℝ} (he : a.rxns[k]? = some e) {o r : STRxn}
    (hr : STRxn.fromOther f a.grid k o = .ok r) : Rxn.fromOther a.grid e o.forget = .ok r.forget := by
  have hs := h.rxn he o.base
  unfold STRxn.fromOther at hr
  rw [hr] at hs
  exact hs.symm

theorem nucStep_sim {f : AceFile} {a : AceIn ℝ} (h : FileHolds f a) {k : Nat} {e : RxnIn ℝ} (he : a.rxns[k]? = some e)
    (mk : Nat → Nat → Res STRxn) (mk' : RxnIn ℝ → Res (Rxn ℝ)) (hmk : ∀ r, mk e.mt k = .ok r → mk' e = .ok r.forget) {s s' : NucState}
    (hs : NucState.step f mk s k = .ok s') : gstep mk' s.toR e = .ok s'.toR := by
  unfold NucState.step at hs
  rw [h.mt he] at hs
  simp only [bind, Except.bind] at hs
  unfold gstep
  by_cases hf : isFisMT e.mt = true
  · rw [if_pos hf] at hs ⊢
    cases hs; rfl
  · rw [if_neg hf] at hs ⊢
    cases hm : mk e.mt k with
    | error x => rw [hm] at hs; cases hs
    | ok r =>
      rw [hm] at hs
      simp only [] at hs
      rw [hmk r hm]
      simp only [bind, Except.bind]
      by_cases hb : e.mt < 892
      · rw [if_pos hb] at hs ⊢
        cases hs
        simp [NucState.toR]
      · rw [if_neg hb] at hs; cases hs

theorem put_toF (s : FisState) (mt : Nat) (r : STRxn) : (s.put mt r).toF = s.toF.put mt r.forget := by
  unfold FisState.put Fis.put
  split
  · rfl
  · split
    · rfl
    · split
      · rfl
      · split <;> rfl

theorem fisStep_sim {f : AceFile} {a : AceIn ℝ} (h : FileHolds f a) {k : Nat} {e : RxnIn ℝ} (he : a.rxns[k]? = some e)
    (mk : Nat → Nat → Res STRxn) (mk' : RxnIn ℝ → Res (Rxn ℝ)) (hmk : ∀ r, mk e.mt k = .ok r → mk' e = .ok r.forget) {s s' : FisState}
    (hs : FisState.step f mk s k = .ok s') : fstep mk' s.toF e = .ok s'.toF := by
  unfold FisState.step at hs
  rw [h.mt he] at hs
  simp only [bind, Except.bind] at hs
  unfold fstep
  by_cases hf : isFisMT e.mt = true
  · rw [if_pos hf] at hs ⊢
    cases hm : mk e.mt k with
    | error x => rw [hm] at hs; cases hs
    | ok r =>
      rw [hm] at hs
      cases hs
      rw [hmk r hm, put_toF]
      rfl
  · rw [if_neg hf] at hs ⊢
    cases hs; rfl

theorem prompt_sim {s : FisState} {p : Prompt} (h : s.prompt = .ok p) : s.toF.checkSpectrum = .ok s.toF := by
  unfold FisState.prompt at h
  unfold Fis.checkSpectrum
  obtain ⟨m18, m19, m20, m21, m38, l⟩ := s
  cases m18 <;> cases m19 <;> cases m20 <;> cases m21 <;> cases m38 <;> first | rfl | (cases h)

theorem fission_sim {f : AceFile} {a : AceIn ℝ} (h : FileHolds f a) {fuel : Nat} {fi : Fission}
    (hf : Fission.makeAce f fuel a.grid = .ok fi) : Fis.make a.fissile a.grid a.rxns = .ok fi.forget := by
  unfold Fission.makeAce at hf
  obtain ⟨nu, _, hf⟩ := bind_ok hf
  unfold Fis.make
  rw [h.fissile]
  by_cases hb : f.fissile = false
  · rw [if_pos hb] at hf ⊢
    cases hf; rfl
  · rw [if_neg hb] at hf ⊢
    obtain ⟨fam, _, hf⟩ := bind_ok hf
    obtain ⟨s, hs, hf⟩ := bind_ok hf
    obtain ⟨p, hp, hf⟩ := bind_ok hf
    cases hf
    obtain ⟨t, h1, h2⟩ := foldlM_sim _ (fstep (Rxn.fromAce a.grid)) _ (fun (s : FisState) t => t = s.toF) (fun k e s t s' hq hr hs => by
      subst hr
      exact ⟨_, fisStep_sim h hq _ (Rxn.fromAce a.grid) (fun r hr => (fromAce_sim h hq hr).1) hs, rfl⟩) _ _ h.zip _ s
      (Fis.none) rfl hs
    rw [fisStep_eq, h1, h2]
    simp only [bind, Except.bind]
    exact prompt_sim hp

theorem get_slot (s : FisState) (mt : Nat) : (s.get mt).map STRxn.forget = s.toF.slot mt := by
  unfold FisState.get Fis.slot FisState.toF
  split
  · rfl
  · split
    · rfl
    · split
      · rfl
      · split
        · rfl
        · split <;> rfl

theorem fissionShared_sim {f : AceFile} {a : AceIn ℝ} (h : FileHolds f a) {o fi : Fission}
    (hf : Fission.makeShared f a.grid o = .ok fi) : Fis.makeShared a.fissile a.grid a.rxns o.forget = .ok fi.forget := by
  unfold Fission.makeShared at hf
  unfold Fis.makeShared
  rw [h.fissile]
  by_cases hb : f.fissile = false
  · rw [if_pos hb] at hf ⊢
    cases hf; rfl
  · rw [if_neg hb] at hf ⊢
    dsimp only at hf
    obtain ⟨s, hs, hf⟩ := bind_ok hf
    obtain ⟨p, hp, hf⟩ := bind_ok hf
    cases hf
    obtain ⟨t, h1, h2⟩ := foldlM_sim _ (fstep (mkFisShared a.grid o.forget)) _ (fun (s : FisState) t => t = s.toF) (fun k e s t s' hq hr hs => by
      subst hr
      refine ⟨_, fisStep_sim h hq _ (mkFisShared a.grid o.forget) (fun r hr => ?_) hs, rfl⟩
      obtain ⟨r0, h0, hr⟩ := bind_ok hr
      have := fromOther_sim h hq hr
      unfold mkFisShared
      have hg := get_slot ⟨o.m18, o.m19, o.m20, o.m21, o.m38, []⟩ e.mt
      have hsl : o.forget.slot e.mt = (FisState.toF ⟨o.m18, o.m19, o.m20, o.m21, o.m38, []⟩).slot e.mt := rfl
      rw [hsl, ← hg]
      cases hget : FisState.get ⟨o.m18, o.m19, o.m20, o.m21, o.m38, []⟩ e.mt with
      | none => rw [hget] at h0; cases h0
      | some r1 =>
        rw [hget] at h0
        cases h0
        exact this) _ _ h.zip _ s
      (Fis.none) rfl hs
    rw [fisStepShared_eq, h1, h2]
    simp only [bind, Except.bind]
    exact prompt_sim hp

theorem Spec.FileHolds.slices {f : AceFile} {a : AceIn ℝ} (h : FileHolds f a) :
    xssSlice f.xss f.esz f.ne = .ok a.grid ∧ xssSlice f.xss (f.esz + f.ne) f.ne = .ok a.total ∧
    xssSlice f.xss (f.esz + 2 * f.ne) f.ne = .ok a.disap ∧ xssSlice f.xss (f.esz + 3 * f.ne) f.ne = .ok a.elastic ∧
    xssSlice f.xss (f.esz + 4 * f.ne) f.ne = .ok a.heating := by
  have h0 := h.main.left.slice
  have h1 := h.main.right.left.slice
  have h2 := h.main.right.right.left.slice
  have h3 := h.main.right.right.right.left.slice
  have h4 := h.main.right.right.right.right.slice
  rw [h.grid] at h0 h1 h2 h3 h4
  rw [h.total] at h1 h2 h3 h4
  rw [h.disap] at h2 h3 h4
  rw [h.elastic] at h3 h4
  rw [h.heating] at h4
  refine ⟨h0, h1, ?_, ?_, ?_⟩
  · rw [← h2]; congr 1; omega
  · rw [← h3]; congr 1; omega
  · rw [← h4]; congr 1; omega

theorem egrid_energy {es : List ℝ} {n : Nat} {g : EGrid} (h : EGrid.makeAce es n = .ok g) : g.energy = es := by
  unfold EGrid.makeAce at h
  split at h
  · cases h
  · obtain ⟨e0, _, h⟩ := bind_ok h
    split at h
    · cases h
    · unfold hashGrid at h
      obtain ⟨_, _, h⟩ := bind_ok h
      obtain ⟨_, _, h⟩ := bind_ok h
      obtain ⟨_, _, h⟩ := bind_ok h
      obtain ⟨_, _, h⟩ := bind_ok h
      obtain ⟨_, _, h⟩ := bind_ok h
      cases h
      rfl

theorem readGrid_sim {f : AceFile} {a : AceIn ℝ} (h : FileHolds f a) {g : EGrid} {u : ℝ} (hg : EGrid.readAce f = .ok (g, u)) :
    g.energy = a.grid ∧ EGrid.makeAce a.grid 8192 = .ok g := by
  unfold EGrid.readAce at hg
  rw [h.slices.1] at hg
  simp only [bind, Except.bind] at hg
  obtain ⟨u', _, hg⟩ := bind_ok hg
  obtain ⟨g', hg', hg⟩ := bind_ok hg
  cases hg
  exact ⟨egrid_energy hg', hg'⟩

theorem main_sim {f : AceFile} {a : AceIn ℝ} (h : FileHolds f a) {m : MainXS ℝ} {p : XS ℝ} (hm : mainAce f a.grid = .ok (m, p)) :
    MainXS.make a = .ok m := by
  obtain ⟨_, h1, h2, h3, h4⟩ := h.slices
  unfold mainAce XS.readPlain at hm
  rw [h1, h2, h3, h4] at hm
  obtain ⟨t, ht, hm⟩ := bind_ok hm
  obtain ⟨d, hd, hm⟩ := bind_ok hm
  obtain ⟨e, he, hm⟩ := bind_ok hm
  obtain ⟨hh, hh', hm⟩ := bind_ok hm
  obtain ⟨g, _, hm⟩ := bind_ok hm
  cases hm
  simp only [bind, Except.bind] at ht hd he hh'
  unfold MainXS.make
  rw [ht, hd, he, hh']
  rfl

/-- The direct constructor. -/
theorem makeAce_sim {f : AceFile} {a : AceIn ℝ} (h : FileHolds f a) {fuel : Nat} {n : Nuc} (hn : Nuc.makeAce f fuel = .ok n) :
    STN.make a = .ok n.toSTN := by
  unfold Nuc.makeAce at hn
  obtain ⟨⟨g, u⟩, hg, hn⟩ := bind_ok hn
  obtain ⟨he, _⟩ := readGrid_sim h hg
  obtain ⟨⟨m, ph⟩, hm, hn⟩ := bind_ok hn
  simp only [he] at hm
  obtain ⟨s, hs, hn⟩ := bind_ok hn
  obtain ⟨l0, _, hn⟩ := bind_ok hn
  obtain ⟨ad, _, hn⟩ := bind_ok hn
  obtain ⟨el, _, hn⟩ := bind_ok hn
  obtain ⟨fi, hfi, hn⟩ := bind_ok hn
  obtain ⟨fx, hfx, hn⟩ := bind_ok hn
  obtain ⟨cx, _, hn⟩ := bind_ok hn
  obtain ⟨ur, _, hn⟩ := bind_ok hn
  cases hn
  simp only [he] at hs hfi hfx
  obtain ⟨t, h1, h2⟩ := foldlM_sim _ (gstep (Rxn.fromAce a.grid)) _ (fun (s : NucState) t => t = s.toR) (fun k e s t s' hq hr hs => by
    subst hr
    exact ⟨_, nucStep_sim h hq _ (Rxn.fromAce a.grid) (fun r hr => (fromAce_sim h hq hr).1) hs, rfl⟩) _ _ h.zip _ s
    ⟨[], List.replicate 892 (-1), []⟩ rfl hs
  unfold STN.make
  rw [main_sim h hm, step_eq, h1, h2, fission_sim h hfi, h.fissile]
  simp only [bind, Except.bind]
  rw [hfx]
  simp only [pure, Except.pure, Nuc.toSTN, he]
  rfl

/-- The sharing constructor. -/
theorem makeShared_sim {f : AceFile} {a : AceIn ℝ} (h : FileHolds f a) {o n : Nuc} (hn : Nuc.makeShared f o = .ok n) :
    STN.makeShared a o.toSTN = .ok n.toSTN := by
  unfold Nuc.makeShared at hn
  obtain ⟨⟨g, u⟩, hg, hn⟩ := bind_ok hn
  obtain ⟨he, _⟩ := readGrid_sim h hg
  obtain ⟨⟨m, ph⟩, hm, hn⟩ := bind_ok hn
  simp only [he] at hm
  obtain ⟨s, hs, hn⟩ := bind_ok hn
  obtain ⟨fi, hfi, hn⟩ := bind_ok hn
  obtain ⟨fx, hfx, hn⟩ := bind_ok hn
  obtain ⟨cx, _, hn⟩ := bind_ok hn
  obtain ⟨ur, _, hn⟩ := bind_ok hn
  cases hn
  simp only [he] at hs hfi hfx
  obtain ⟨t, h1, h2⟩ := foldlM_sim _ (gstep (mkShared a.grid o.toSTN)) _ (fun (s : NucState) t => t = s.toR) (fun k e s t s' hq hr hs => by
    subst hr
    refine ⟨_, nucStep_sim h hq _ (mkShared a.grid o.toSTN) (fun r hr => ?_) hs, rfl⟩
    obtain ⟨i, hi, hr⟩ := bind_ok hr
    obtain ⟨r0, hr0, hr⟩ := bind_ok hr
    have := fromOther_sim h hq hr
    unfold mkShared
    rw [show o.toSTN.idx = o.idx from rfl, hi]
    simp only [bind, Except.bind]
    have : getInt o.toSTN.rxns i = .ok r0.forget := by
      unfold getInt at hr0 ⊢
      split at hr0
      · cases hr0
      · rename_i hneg
        rw [if_neg hneg]
        rw [getAt_eq_ok] at hr0 ⊢
        simp [Nuc.toSTN, hr0]
    rw [this]
    simp only []
    assumption) _ _ h.zip _ s
    ⟨List.replicate f.nmt 0, List.replicate 892 (-1), []⟩ rfl hs
  unfold STN.makeShared
  rw [main_sim h hm, stepShared_eq, h.count, h1, h2]
  simp only [bind, Except.bind]
  rw [show o.toSTN.fis = o.fission.forget from rfl, fissionShared_sim h hfi]
  simp only []
  rw [show o.toSTN.fissile = o.fissile from rfl, hfx]
  simp only [pure, Except.pure, Nuc.toSTN, he]
  rfl

end PNDL
