import Verif.Lemmas.NucAce
import Verif.Props.STNeutron
import Verif.Props.Reaction

/-! Look-ups in a nuclide read from a file, and where its reactions come from. -/
namespace PNDL
open Spec

/-! ### Look-ups agree with the model on contents -/

theorem fission_has_forget (f : Fission) (mt : Nat) : f.forget.has mt = f.has mt := by
  unfold Fis.has Fission.has Fission.forget FisState.get
  simp only [Option.isSome_map]
  by_cases h1 : mt = 18
  · subst h1; cases f.m18 <;> simp
  · by_cases h2 : mt = 19
    · subst h2; cases f.m19 <;> simp
    · by_cases h3 : mt = 20
      · subst h3; cases f.m20 <;> simp
      · by_cases h4 : mt = 21
        · subst h4; cases f.m21 <;> simp
        · by_cases h5 : mt = 38
          · subst h5; cases f.m38 <;> simp
          · simp [h1, h2, h3, h4, h5]

theorem has_toSTN (n : Nuc) (mt : Nat) : n.toSTN.has mt = n.has mt := by
  unfold STN.has Nuc.has hasIdx
  rw [show n.toSTN.fis = n.fission.forget from rfl, fission_has_forget]
  rfl

theorem getInt_map {α β : Type} (g : α → β) (l : List α) (i : Int) : getInt (l.map g) i = (getInt l i).map g := by
  unfold getInt
  split
  · rfl
  · unfold getAt
    rw [List.getElem?_map]
    cases l[i.toNat]? <;> rfl

theorem fission_reaction_forget (f : Fission) (mt : Nat) (h : f.has mt = true) :
    f.forget.reaction mt = (f.reaction mt).map STRxn.forget := by
  have h' := h
  rw [← fission_has_forget] at h'
  unfold Fis.reaction
  rw [h', if_neg (by simp)]
  unfold Fission.has at h
  unfold Fission.reaction
  unfold FisState.get at h ⊢
  by_cases h1 : mt = 18
  · subst h1
    simp only [if_true] at h ⊢
    simp only [Fission.forget]
    cases hm : f.m18 with
    | none => rw [hm] at h; simp at h
    | some r => rfl
  · by_cases h2 : mt = 19
    · subst h2
      simp only [if_true, Nat.reduceEqDiff, if_false] at h ⊢
      simp only [Fission.forget]
      cases hm : f.m19 with
      | none => rw [hm] at h; simp at h
      | some r => rfl
    · by_cases h3 : mt = 20
      · subst h3
        simp only [if_true, Nat.reduceEqDiff, if_false] at h ⊢
        simp only [Fission.forget]
        cases hm : f.m20 with
        | none => rw [hm] at h; simp at h
        | some r => rfl
      · by_cases h4 : mt = 21
        · subst h4
          simp only [if_true, Nat.reduceEqDiff, if_false] at h ⊢
          simp only [Fission.forget]
          cases hm : f.m21 with
          | none => rw [hm] at h; simp at h
          | some r => rfl
        · by_cases h5 : mt = 38
          · subst h5
            simp only [if_true, Nat.reduceEqDiff, if_false] at h ⊢
            simp only [Fission.forget]
            cases hm : f.m38 with
            | none => rw [hm] at h; simp at h
            | some r => rfl
          · simp [h1, h2, h3, h4, h5] at h

theorem reaction_toSTN (n : Nuc) (mt : Nat) : n.toSTN.reaction mt = (n.reaction mt).map STRxn.forget := by
  unfold STN.reaction Nuc.reaction
  rw [has_toSTN]
  cases hh : n.has mt with
  | error x => rfl
  | ok b =>
    simp only [bind, Except.bind]
    cases b with
    | false => rfl
    | true =>
      simp only [Bool.true_eq_false, if_false]
      by_cases hf : isFisMT mt = true
      · rw [if_pos hf, if_pos hf]
        unfold Nuc.has at hh
        rw [if_pos hf] at hh
        exact fission_reaction_forget _ _ (Except.ok.inj hh)
      · rw [if_neg hf, if_neg hf]
        unfold rxnAt
        rw [show n.toSTN.idx = n.idx from rfl, show n.toSTN.rxns = n.rxns.map STRxn.forget from rfl]
        cases getAt n.idx mt with
        | error x => rfl
        | ok i => exact getInt_map _ _ _

theorem evaluate_toSTN (n : Nuc) (E : ℝ) (i : Nat) : n.toSTN.evaluate E i = n.evaluate E i := by
  unfold STN.evaluate Nuc.evaluate
  rw [has_toSTN, reaction_toSTN]
  cases n.reaction 102 <;> rfl

/-! ### Where the reactions come from -/

/-- Every table of reactions points at reactions made for the MT asked for. -/
structure NInv (f : AceFile) (mk : Nat → Nat → Res STRxn) (done : List Nat) (s : NucState) : Prop where
  look : ∀ (mt : Nat) (i : Int), s.idx[mt]? = some i → ¬ i < 0 → ∃ r k, getInt s.rxns i = .ok r ∧ k ∈ done ∧
    natAt f.xss (f.mtr + k) = .ok mt ∧ mk mt k = .ok r

theorem getInt_append {α : Type} {l m : List α} {i : Int} {r : α} (h : getInt l i = .ok r) : getInt (l ++ m) i = .ok r := by
  unfold getInt at h ⊢
  split at h
  · cases h
  · rename_i hn
    rw [if_neg hn]
    rw [getAt_eq_ok] at h ⊢
    rw [List.getElem?_append_left (lt_length_of_some h)]
    exact h

theorem nuc_inv {f : AceFile} {mk : Nat → Nat → Res STRxn} {l z : List Nat} {s : NucState}
    (h : l.foldlM (NucState.step f mk) ⟨z, List.replicate 892 (-1), []⟩ = .ok s) : NInv f mk l s := by
  have h0 : NInv f mk [] ⟨z, List.replicate 892 (-1), []⟩ := by
    refine ⟨fun mt i hi hn => ?_⟩
    simp only [List.getElem?_replicate] at hi
    split at hi
    · cases hi; omega
    · cases hi
  have := foldlM_inv (NucState.step f mk) (NInv f mk) (fun done s k s' hI hs => by
    unfold NucState.step at hs
    obtain ⟨mt0, hmt, hs⟩ := bind_ok hs
    by_cases hf : isFisMT mt0 = true
    · rw [if_pos hf] at hs
      cases hs
      refine ⟨fun mt i hi hn => ?_⟩
      obtain ⟨r, k', g1, g2, g3⟩ := hI.look mt i hi hn
      exact ⟨r, k', g1, by simp [g2], g3⟩
    · rw [if_neg hf] at hs
      obtain ⟨r0, hr0, hs⟩ := bind_ok hs
      by_cases hb : mt0 < 892
      · rw [if_pos hb] at hs
        cases hs
        refine ⟨fun mt i hi hn => ?_⟩
        simp only [List.getElem?_set] at hi
        split at hi
        · rename_i he
          subst he
          split at hi
          · cases hi
            refine ⟨r0, k, ?_, by simp, hmt, hr0⟩
            rw [getInt_natCast, getAt_eq_ok]
            simp
          · cases hi
        · obtain ⟨r, k', g1, g2, g3⟩ := hI.look mt i hi hn
          exact ⟨r, k', getInt_append g1, by simp [g2], g3⟩
      · rw [if_neg hb] at hs; cases hs) l [] _ s h0 h
  simpa using this

/-- The same for fission. -/
structure FIInv (f : AceFile) (mk : Nat → Nat → Res STRxn) (done : List Nat) (s : FisState) : Prop where
  look : ∀ mt r, s.get mt = some r → ∃ k ∈ done, natAt f.xss (f.mtr + k) = .ok mt ∧ mk mt k = .ok r

theorem put_get (s : FisState) (mt mt' : Nat) (r : STRxn) (h : FissionMT mt) (h' : FissionMT mt') :
    (s.put mt r).get mt' = if mt = mt' then some r else s.get mt' := by
  rcases h with h | h | h | h | h <;> rcases h' with h' | h' | h' | h' | h' <;> subst h <;> subst h' <;> rfl

theorem get_fission {s : FisState} {mt : Nat} {r : STRxn} (h : s.get mt = some r) : FissionMT mt := by
  unfold FisState.get at h
  unfold FissionMT
  by_contra hc
  simp only [not_or] at hc
  obtain ⟨h1, h2, h3, h4, h5⟩ := hc
  rw [if_neg h1, if_neg h2, if_neg h3, if_neg h4, if_neg h5] at h
  cases h

theorem fis_inv {f : AceFile} {mk : Nat → Nat → Res STRxn} {l : List Nat} {s : FisState}
    (h : l.foldlM (FisState.step f mk) ⟨none, none, none, none, none, []⟩ = .ok s) : FIInv f mk l s := by
  have h0 : FIInv f mk [] ⟨none, none, none, none, none, []⟩ := by
    refine ⟨fun mt r hr => ?_⟩
    rcases get_fission hr with h | h | h | h | h <;> subst h <;> cases hr
  have := foldlM_inv (FisState.step f mk) (FIInv f mk) (fun done s k s' hI hs => by
    unfold FisState.step at hs
    obtain ⟨mt0, hmt, hs⟩ := bind_ok hs
    by_cases hf : isFisMT mt0 = true
    · rw [if_pos hf] at hs
      obtain ⟨r0, hr0, hs⟩ := bind_ok hs
      cases hs
      refine ⟨fun mt r hr => ?_⟩
      rw [put_get s mt0 mt r0 ((isFisMT_iff _).mp hf) (get_fission hr)] at hr
      split at hr
      · rename_i he
        subst he
        cases hr
        exact ⟨k, by simp, hmt, hr0⟩
      · obtain ⟨k', g1, g2⟩ := hI.look mt r hr
        exact ⟨k', by simp [g1], g2⟩
    · rw [if_neg hf] at hs
      cases hs
      refine ⟨fun mt r hr => ?_⟩
      obtain ⟨k', g1, g2⟩ := hI.look mt r hr
      exact ⟨k', by simp [g1], g2⟩) l [] _ s h0 h
  simpa using this

theorem fission_reaction_get {fi : Fission} {mt : Nat} {r : STRxn} :
    fi.reaction mt = .ok r ↔ FisState.get ⟨fi.m18, fi.m19, fi.m20, fi.m21, fi.m38, []⟩ mt = some r := by
  unfold Fission.reaction
  cases FisState.get ⟨fi.m18, fi.m19, fi.m20, fi.m21, fi.m38, []⟩ mt with
  | none => simp
  | some r' => simp

theorem get_mts (a b c d e : Option STRxn) (l m : List Nat) (mt : Nat) : FisState.get ⟨a, b, c, d, e, l⟩ mt = FisState.get ⟨a, b, c, d, e, m⟩ mt := rfl

theorem rxnAt_origin {f : AceFile} {mk : Nat → Nat → Res STRxn} {l : List Nat} {s : NucState} (hI : NInv f mk l s) {mt : Nat} {r : STRxn}
    (hr : rxnAt s.idx s.rxns mt = .ok r) : ∃ k ∈ l, natAt f.xss (f.mtr + k) = .ok mt ∧ mk mt k = .ok r := by
  unfold rxnAt at hr
  obtain ⟨i, hi, hr⟩ := bind_ok hr
  rw [getAt_eq_ok] at hi
  have hn : ¬ i < 0 := by
    intro hn
    unfold getInt at hr
    rw [if_pos hn] at hr
    cases hr
  obtain ⟨r', k, g1, g2, g3⟩ := hI.look mt i hi hn
  rw [hr] at g1
  cases g1
  exact ⟨k, g2, g3⟩

/-- What the direct constructor does, member by member. -/
theorem makeAce_parts {f : AceFile} {fuel : Nat} {n : Nuc} (h : Nuc.makeAce f fuel = .ok n) :
    ∃ m s fi l0 ad cx, EGrid.readAce f = .ok (n.grid, n.urrMin) ∧ mainAce f n.grid.energy = .ok (m, n.photon) ∧
      (List.range f.nmt).foldlM (NucState.step f (fun _ i => STRxn.fromAce f fuel n.grid.energy i)) ⟨[], List.replicate 892 (-1), []⟩ = .ok s ∧
      intAt f.xss f.land = .ok l0 ∧ AngleDist.makeAce f.xss f.andB l0 = .ok ad ∧
      Elastic.make (some (svtSample fuel)) (ad.sample fuel) f.awr f.temperature true 400 = .ok n.elastic ∧
      Fission.makeAce f fuel n.grid.energy = .ok fi ∧ computeFission f.fissile n.grid.energy fi.forget = .ok n.fissionXS ∧
      captureXS n.grid.energy s.idx s.rxns = .ok cx ∧
      URR.make f.xss f.lunr ⟨n.elasticXS, cx, n.fissionXS, n.heating⟩ (n.rxns.map STRxn.forget) = .ok n.urr ∧
      m = ⟨n.total, n.disap, n.elasticXS, n.heating⟩ ∧ n.fission = fi ∧ n.idx = s.idx ∧ n.rxns = s.rxns ∧ n.awr = f.awr ∧ n.fissile = f.fissile ∧
      n.temperature = f.temperature := by
  unfold Nuc.makeAce at h
  obtain ⟨⟨g, u⟩, hg, h⟩ := bind_ok h
  obtain ⟨⟨m, ph⟩, hm, h⟩ := bind_ok h
  obtain ⟨s, hs, h⟩ := bind_ok h
  obtain ⟨l0, hl, h⟩ := bind_ok h
  obtain ⟨ad, hd, h⟩ := bind_ok h
  obtain ⟨el, hel, h⟩ := bind_ok h
  obtain ⟨fi, hfi, h⟩ := bind_ok h
  obtain ⟨fx, hfx, h⟩ := bind_ok h
  obtain ⟨cx, hcx, h⟩ := bind_ok h
  obtain ⟨ur, hur, h⟩ := bind_ok h
  cases h
  exact ⟨m, s, fi, l0, ad, cx, hg, hm, hs, hl, hd, hel, hfi, hfx, hcx, hur, rfl, rfl, rfl, rfl, rfl, rfl, rfl⟩

/-- What the sharing constructor does, member by member. -/
theorem makeShared_parts {f : AceFile} {o n : Nuc} (h : Nuc.makeShared f o = .ok n) :
    ∃ m s fi cx, EGrid.readAce f = .ok (n.grid, n.urrMin) ∧ mainAce f n.grid.energy = .ok (m, n.photon) ∧
      (List.range f.nmt).foldlM (NucState.step f (fun mt i => do
        let k ← getAt o.idx mt
        let r ← getInt o.rxns k
        STRxn.fromOther f n.grid.energy i r)) ⟨List.replicate f.nmt 0, List.replicate 892 (-1), []⟩ = .ok s ∧
      Fission.makeShared f n.grid.energy o.fission = .ok fi ∧ computeFission o.fissile n.grid.energy fi.forget = .ok n.fissionXS ∧
      captureXS n.grid.energy s.idx s.rxns = .ok cx ∧
      URR.make f.xss f.lunr ⟨n.elasticXS, cx, n.fissionXS, n.heating⟩ (n.rxns.map STRxn.forget) = .ok n.urr ∧
      m = ⟨n.total, n.disap, n.elasticXS, n.heating⟩ ∧ n.fission = fi ∧ n.idx = s.idx ∧ n.rxns = s.rxns ∧ n.awr = o.awr ∧ n.fissile = o.fissile ∧
      n.temperature = f.temperature ∧ n.elastic = (o.elastic.step (.setTemperature f.temperature)).1 := by
  unfold Nuc.makeShared at h
  obtain ⟨⟨g, u⟩, hg, h⟩ := bind_ok h
  obtain ⟨⟨m, ph⟩, hm, h⟩ := bind_ok h
  obtain ⟨s, hs, h⟩ := bind_ok h
  obtain ⟨fi, hfi, h⟩ := bind_ok h
  obtain ⟨fx, hfx, h⟩ := bind_ok h
  obtain ⟨cx, hcx, h⟩ := bind_ok h
  obtain ⟨ur, hur, h⟩ := bind_ok h
  cases h
  exact ⟨m, s, fi, cx, hg, hm, hs, hfi, hfx, hcx, hur, rfl, rfl, rfl, rfl, rfl, rfl, rfl, rfl⟩

theorem reaction_split {n : Nuc} {mt : Nat} {r : STRxn} (h : n.reaction mt = .ok r) :
    (isFisMT mt = true ∧ n.fission.reaction mt = .ok r) ∨ (isFisMT mt = false ∧ mt ≤ 891 ∧ rxnAt n.idx n.rxns mt = .ok r) := by
  unfold Nuc.reaction at h
  obtain ⟨b, hb, h⟩ := bind_ok h
  cases b with
  | false => cases h
  | true =>
    rw [if_neg (by simp)] at h
    by_cases hf : isFisMT mt = true
    · rw [if_pos hf] at h
      exact Or.inl ⟨hf, h⟩
    · rw [if_neg hf] at h
      refine Or.inr ⟨by simpa using hf, ?_, h⟩
      unfold Nuc.has hasIdx at hb
      rw [if_neg hf] at hb
      by_contra hc
      rw [if_pos (by omega)] at hb
      cases hb

theorem make_parts {f : AceFile} {g : List ℝ} {k : Nat} {b : RxnBase} {r : STRxn} (h : STRxn.make f g k b = .ok r) : r.base = b := by
  unfold STRxn.make at h
  obtain ⟨_, _, h⟩ := bind_ok h
  obtain ⟨_, _, h⟩ := bind_ok h
  obtain ⟨_, _, h⟩ := bind_ok h
  obtain ⟨_, _, h⟩ := bind_ok h
  cases h
  rfl

theorem xs_of_rxn {f : AceFile} {a : AceIn ℝ} (h : FileHolds f a) {k : Nat} {e : RxnIn ℝ} (he : a.rxns[k]? = some e) {b : RxnBase} {r : STRxn}
    (hr : STRxn.make f a.grid k b = .ok r) : r.xs = ⟨a.grid, e.values, e.idx, false⟩ ∧ a.grid[e.idx]? = some r.threshold := by
  have := h.rxn he b
  rw [hr] at this
  obtain ⟨_, _, h3, h4, h5, h6, h7⟩ := rxnMake_ok this.symm
  refine ⟨?_, h7⟩
  have hs := h6.1
  simp only [STRxn.forget] at h3 h4 h5 hs
  cases hx : r.xs with
  | mk g v i b => rw [hx] at h3 h4 h5 hs; simp_all

theorem entry_of_mt {f : AceFile} {a : AceIn ℝ} (h : FileHolds f a) {k mt : Nat} (hk : k ∈ List.range f.nmt) (hm : natAt f.xss (f.mtr + k) = .ok mt) :
    ∃ e, a.rxns[k]? = some e ∧ e.mt = mt := by
  rw [List.mem_range, ← h.count] at hk
  refine ⟨a.rxns[k], List.getElem?_eq_getElem hk, ?_⟩
  have := h.mt (List.getElem?_eq_getElem hk)
  rw [hm] at this
  exact (Except.ok.inj this).symm

end PNDL
