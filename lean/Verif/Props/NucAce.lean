import Verif.Lemmas.NucLookup

/-! C99: a nuclide is what its file says.  C100: a nuclide sharing distributions.  C101: evaluation of a nuclide read from a file. -/
namespace PNDL
open Spec

/-! ### C99 -/

theorem makeAce_zero {vs g : List ℝ} {b : Bool} {x : XS ℝ} (h : XS.makeAce vs g 0 b = .ok x) : x = ⟨g, vs, 0, false⟩ := by
  unfold XS.makeAce at h
  split at h
  · cases h
  · split at h
    · cases h
    · cases h; rfl

theorem columns_of {f : AceFile} {a : AceIn ℝ} (h : FileHolds f a) {g : EGrid} {u : ℝ} (hg : EGrid.readAce f = .ok (g, u)) {m : MainXS ℝ} {p : XS ℝ}
    (hm : mainAce f g.energy = .ok (m, p)) : g.energy = a.grid ∧ m.total = ⟨a.grid, a.total, 0, false⟩ ∧ m.disap = ⟨a.grid, a.disap, 0, false⟩ ∧
      m.elastic = ⟨a.grid, a.elastic, 0, false⟩ ∧ m.heating = ⟨a.grid, a.heating, 0, false⟩ := by
  obtain ⟨he, _⟩ := readGrid_sim h hg
  rw [he] at hm
  have := main_sim h hm
  unfold MainXS.make at this
  obtain ⟨t, h1, this⟩ := bind_ok this
  obtain ⟨d, h2, this⟩ := bind_ok this
  obtain ⟨e, h3, this⟩ := bind_ok this
  obtain ⟨q, h4, this⟩ := bind_ok this
  cases this
  exact ⟨he, makeAce_zero h1, makeAce_zero h2, makeAce_zero h3, makeAce_zero h4⟩

/-- **C99** The energies and the four main cross sections of every nuclide constructed from a file are the columns of the file's ESZ block. -/
theorem C99_columns (fuel : Nat) (f : AceFile) (n : Nuc) (hn : Made fuel f n) (a : AceIn ℝ) (h : FileHolds f a) :
    n.grid.energy = a.grid ∧ n.total = ⟨a.grid, a.total, 0, false⟩ ∧ n.disap = ⟨a.grid, a.disap, 0, false⟩ ∧
      n.elasticXS = ⟨a.grid, a.elastic, 0, false⟩ ∧ n.heating = ⟨a.grid, a.heating, 0, false⟩ := by
  cases hn with
  | direct hn =>
    obtain ⟨m, s, fi, l0, ad, cx, h1, h2, _, _, _, _, _, _, _, _, rfl, _⟩ := makeAce_parts hn
    exact columns_of h h1 h2
  | shared ho hn =>
    obtain ⟨m, s, fi, cx, h1, h2, _, _, _, _, _, rfl, _⟩ := makeShared_parts hn
    exact columns_of h h1 h2

/-- **C99** Reactions of a nuclide made from one file: `has_reaction` is true exactly for the MTs the file provides; `reaction` then returns
entry `k` of the file for that MT: the `ReactionBase` of entry `k` (see C97), the cross section values and start index of entry `k`, and the
grid energy at that index as threshold; for all other MTs it throws. -/
theorem C99_reactions (f : AceFile) (fuel : Nat) (n : Nuc) (hn : Nuc.makeAce f fuel = .ok n) (a : AceIn ℝ) (h : FileHolds f a) (mt : Nat) :
    (n.has mt = .ok true ∧ Provides a mt ∧ ∃ (r : STRxn) (k : Nat) (e : RxnIn ℝ), n.reaction mt = .ok r ∧ a.rxns[k]? = some e ∧ e.mt = mt ∧ r.base.mt = mt ∧
        RxnBase.makeAce f.toAceBlocks k fuel = .ok r.base ∧ r.xs = ⟨a.grid, e.values, e.idx, false⟩ ∧ a.grid[e.idx]? = some r.threshold) ∨
      (n.has mt = .ok false ∧ ¬ Provides a mt ∧ n.reaction mt = .error .exc) := by
  have hb : Built a n.toSTN := .direct (makeAce_sim h hn)
  have hl := C55_lookup a n.toSTN hb mt
  rw [has_toSTN, reaction_toSTN] at hl
  rcases hl with ⟨h1, h2, r', h3, h4, _⟩ | ⟨h1, h2, h3⟩
  · obtain ⟨r, hr, rfl⟩ := map_ok h3
    refine Or.inl ⟨h1, h2, r, ?_⟩
    obtain ⟨m, s, fi, l0, ad, cx, hg, _, hs, _, _, _, hfi, _, _, _, _, rfl, hi, hx, _⟩ := makeAce_parts hn
    obtain ⟨he, _⟩ := readGrid_sim h hg
    rw [he] at hs hfi
    have fin : ∀ k, k ∈ List.range f.nmt → natAt f.xss (f.mtr + k) = .ok mt → STRxn.fromAce f fuel a.grid k = .ok r →
        ∃ (k : Nat) (e : RxnIn ℝ), n.reaction mt = .ok r ∧ a.rxns[k]? = some e ∧ e.mt = mt ∧ r.base.mt = mt ∧
        RxnBase.makeAce f.toAceBlocks k fuel = .ok r.base ∧ r.xs = ⟨a.grid, e.values, e.idx, false⟩ ∧ a.grid[e.idx]? = some r.threshold := by
      intro k hk hm hf
      obtain ⟨e, he', hem⟩ := entry_of_mt h hk hm
      unfold STRxn.fromAce at hf
      obtain ⟨b, hb, hf⟩ := bind_ok hf
      have := make_parts hf
      subst this
      exact ⟨k, e, hr, he', hem, h4, hb, xs_of_rxn h he' hf⟩
    rcases reaction_split hr with ⟨_, hf⟩ | ⟨_, _, hf⟩
    · unfold Fission.makeAce at hfi
      obtain ⟨nu, _, hfi⟩ := bind_ok hfi
      by_cases hff : f.fissile = false
      · rw [if_pos hff] at hfi
        rw [fission_reaction_get] at hf
        have hmt := get_fission hf
        rw [← Except.ok.inj hfi] at hf
        rcases hmt with e | e | e | e | e <;> subst e <;> cases hf
      · rw [if_neg hff] at hfi
        obtain ⟨fam, _, hfi⟩ := bind_ok hfi
        obtain ⟨st, hst, hfi⟩ := bind_ok hfi
        obtain ⟨p, _, hfi⟩ := bind_ok hfi
        rw [fission_reaction_get, ← Except.ok.inj hfi] at hf
        obtain ⟨k, hk, hm, hmk⟩ := (fis_inv hst).look mt r hf
        exact fin k hk hm hmk
    · rw [hi, hx] at hf
      obtain ⟨k, hk, hm, hmk⟩ := rxnAt_origin (nuc_inv hs) hf
      exact fin k hk hm hmk
  · refine Or.inr ⟨h1, h2, ?_⟩
    cases hr : n.reaction mt with
    | ok r => rw [hr] at h3; cases h3
    | error x => rw [hr] at h3; cases h3; rfl

/-- **C99** The MT list of a nuclide made from one file: sorted, and exactly the MTs it has. -/
theorem C99_list (f : AceFile) (fuel : Nat) (n : Nuc) (hn : Nuc.makeAce f fuel = .ok n) (a : AceIn ℝ) (h : FileHolds f a) :
    n.mts.Pairwise (· ≤ ·) ∧ ∀ mt, n.has mt = .ok true ↔ mt ∈ n.mts := by
  have hs := makeAce_sim h hn
  refine ⟨?_, fun mt => ?_⟩
  · rw [show n.mts = n.toSTN.mts from rfl, (stnMake_ok hs).2.2]
    exact sortedLE _
  · rw [← has_toSTN]
    exact C55_listed_partial a n.toSTN hs mt

/-- **C99** Photon production: the file's GPD column, or zero everywhere from the first energy on if there is none. -/
theorem C99_photon (fuel : Nat) (f : AceFile) (n : Nuc) (hn : Made fuel f n) (a : AceIn ℝ) (h : FileHolds f a) :
    (∀ i vs, f.gpd = some i → vs.length = f.ne → Holds f.xss i vs → n.photon = ⟨a.grid, vs, 0, false⟩ ∧ ∀ v ∈ vs, 0 ≤ v) ∧
    (f.gpd = none → ∀ E e0, a.grid.head? = some e0 → n.photon.eval E = .ok 0) := by
  have key : ∀ m, mainAce f n.grid.energy = .ok (m, n.photon) → n.grid.energy = a.grid →
      (∀ i vs, f.gpd = some i → vs.length = f.ne → Holds f.xss i vs → n.photon = ⟨a.grid, vs, 0, false⟩ ∧ ∀ v ∈ vs, 0 ≤ v) ∧
      (f.gpd = none → ∀ E e0, a.grid.head? = some e0 → n.photon.eval E = .ok 0) := by
    intro m hm he
    rw [he] at hm
    unfold mainAce at hm
    obtain ⟨_, _, hm⟩ := bind_ok hm
    obtain ⟨_, _, hm⟩ := bind_ok hm
    obtain ⟨_, _, hm⟩ := bind_ok hm
    obtain ⟨_, _, hm⟩ := bind_ok hm
    obtain ⟨g, hg, hm⟩ := bind_ok hm
    have hgp : g = n.photon := by cases hm; rfl
    subst hgp
    constructor
    · intro i vs hi hl hH
      rw [hi] at hg
      simp only [XS.readPlain] at hg
      rw [← hl, hH.slice] at hg
      refine ⟨makeAce_zero hg, ?_⟩
      exact (C29_ace _ _ _ _ _ hg).2.2.2.2 rfl
    · intro hi E e0 h0
      rw [hi] at hg
      simp only [XS.makeConst] at hg
      rw [if_neg (by simp)] at hg
      rw [← Except.ok.inj hg]
      unfold XS.eval XS.evalSingle
      rw [if_pos rfl]
      simp only [front]
      cases hgr : a.grid with
      | nil => rw [hgr] at h0; cases h0
      | cons x xs =>
        have g0 : getAt (x :: xs) 0 = .ok x := rfl
        have g1 : getAt [(0 : ℝ)] 0 = .ok 0 := rfl
        simp [bind, Except.bind, g0, g1]
  cases hn with
  | direct hn =>
    obtain ⟨m, s, fi, l0, ad, cx, h1, h2, _⟩ := makeAce_parts hn
    exact key m h2 (readGrid_sim h h1).1
  | shared ho hn =>
    obtain ⟨m, s, fi, cx, h1, h2, _⟩ := makeShared_parts hn
    exact key m h2 (readGrid_sim h h1).1

/-- **C99** Elastic scattering: the first angular distribution of the file (see C92), its weight ratio, its temperature, the free-gas target
model, target at rest above 400 kT.  A weight ratio that is not positive or a negative temperature is never accepted. -/
theorem C99_elastic (f : AceFile) (fuel : Nat) (n : Nuc) (hn : Nuc.makeAce f fuel = .ok n) :
    ∃ l0 ad, intAt f.xss f.land = .ok l0 ∧ AngleDist.makeAce f.xss f.andB l0 = .ok ad ∧ n.elastic.angle = ad.sample fuel ∧ n.elastic.awr = f.awr ∧
      n.elastic.kT = f.temperature * kToMeV ∧ n.elastic.useTar = true ∧ n.elastic.tar = 400 ∧ n.elastic.broadener = some (svtSample fuel) ∧
      0 < f.awr ∧ 0 ≤ f.temperature * kToMeV ∧ n.awr = f.awr ∧ n.temperature = f.temperature := by
  obtain ⟨m, s, fi, l0, ad, cx, _, _, _, hl, had, hel, _, _, _, _, _, _, _, _, hw, _, ht⟩ := makeAce_parts hn
  refine ⟨l0, ad, hl, had, ?_⟩
  unfold Elastic.make at hel
  split at hel
  · cases hel
  · rename_i w1
    split at hel
    · cases hel
    · rename_i w2
      split at hel
      · cases hel
      · split at hel
        · cases hel
        · rw [← Except.ok.inj hel]
          exact ⟨rfl, rfl, rfl, rfl, rfl, rfl, not_le.mp w1, not_lt.mp w2, hw, ht⟩

/-- **C99** Fission data of a nuclide made from one file: the neutrons per fission and the delayed families are those of the file's blocks (see
C59, C77); the prompt spectrum is the distribution of MT 18 if there is one, else the sum of MT 19, 20, 21 and 38, which then are all there,
else (no fission reaction) absorption. -/
theorem C99_fission (f : AceFile) (fuel : Nat) (n : Nuc) (hn : Nuc.makeAce f fuel = .ok n) :
    Nu.make f.fissile f.xss f.nu f.dnu = .ok n.fission.nu ∧
    (f.fissile = true → families (familyLawAce f.xss f.dned) f.xss f.bdd f.dnedl f.dned f.ngrps = .ok n.fission.families) ∧
    (f.fissile = false → n.fission.families = [] ∧ n.fission.spectrum = .absorption) ∧
    (∀ r, n.reaction 18 = .ok r → n.fission.spectrum = .mt18 r.base.dist) ∧
    (n.has 18 = .ok false → (∃ a b c d, n.reaction 19 = .ok a ∧ n.reaction 20 = .ok b ∧ n.reaction 21 = .ok c ∧ n.reaction 38 = .ok d ∧
        n.fission.spectrum = .summed a b c d) ∨
      (n.has 19 = .ok false ∧ n.has 20 = .ok false ∧ n.has 21 = .ok false ∧ n.has 38 = .ok false ∧ n.fission.spectrum = .absorption)) := by
  obtain ⟨m, s, fi, l0, ad, cx, _, _, _, _, _, _, hfi, _, _, _, _, rfl, _⟩ := makeAce_parts hn
  unfold Fission.makeAce at hfi
  obtain ⟨nu, hnu, hfi⟩ := bind_ok hfi
  have hr : ∀ mt, isFisMT mt = true → ∀ r, n.reaction mt = .ok r ↔ FisState.get ⟨n.fission.m18, n.fission.m19, n.fission.m20, n.fission.m21,
      n.fission.m38, []⟩ mt = some r := by
    intro mt hf r
    rw [← fission_reaction_get]
    unfold Nuc.reaction Nuc.has
    rw [if_pos hf, if_pos hf]
    simp only [bind, Except.bind]
    constructor
    · intro h
      split at h
      · cases h
      · exact h
    · intro h
      rw [if_neg]
      · exact h
      · unfold Fission.has
        rw [fission_reaction_get] at h
        rw [h]; simp
  have hh : ∀ mt, isFisMT mt = true → n.has mt = .ok (FisState.get ⟨n.fission.m18, n.fission.m19, n.fission.m20, n.fission.m21,
      n.fission.m38, []⟩ mt).isSome := by
    intro mt hf
    unfold Nuc.has
    rw [if_pos hf]
    rfl
  rw [hh 18 rfl, hh 19 rfl, hh 20 rfl, hh 21 rfl, hh 38 rfl]
  simp only [hr 18 rfl, hr 19 rfl, hr 20 rfl, hr 21 rfl, hr 38 rfl]
  simp only [FisState.get, if_true, Nat.reduceEqDiff, if_false]
  by_cases hb : f.fissile = false
  · rw [if_pos hb] at hfi
    rw [← Except.ok.inj hfi]
    refine ⟨hnu, fun h => absurd (h.symm.trans hb) (by simp), fun _ => ⟨rfl, rfl⟩, ?_, fun _ => Or.inr ?_⟩
    · intro r h; cases h
    · simp
  · rw [if_neg hb] at hfi
    obtain ⟨fam, hfam, hfi⟩ := bind_ok hfi
    obtain ⟨st, _, hfi⟩ := bind_ok hfi
    obtain ⟨p, hp, hfi⟩ := bind_ok hfi
    rw [← Except.ok.inj hfi]
    refine ⟨hnu, fun _ => hfam, fun h => absurd h hb, ?_, ?_⟩
    · intro r h
      simp only [] at h ⊢
      unfold FisState.prompt at hp
      rw [h] at hp
      exact (Except.ok.inj hp).symm
    · simp only []
      intro h
      have h18 : st.m18 = none := by cases hm : st.m18 with
        | none => rfl
        | some r => rw [hm] at h; simp at h
      unfold FisState.prompt at hp
      rw [h18] at hp
      obtain ⟨m18, m19, m20, m21, m38, l⟩ := st
      clear h18 h
      cases m19 <;> cases m20 <;> cases m21 <;> cases m38 <;> cases hp
      · exact Or.inr ⟨rfl, rfl, rfl, rfl, rfl⟩
      · exact Or.inl ⟨_, _, _, _, rfl, rfl, rfl, rfl, rfl⟩

/-- Which energy law belongs to a law number of a delayed family with data at index `j`; `dned` is the start of the block its
locators count from. -/
inductive Spec.FamilyLawIs (xss : List ℝ) (dned j : Nat) : Int → ELaw → Prop
  | bins (d) : EnergyBins.makeAce xss j = .ok d → FamilyLawIs xss dned j 1 (.bins d)
  | tabular (d) : TabEnergy.makeAce xss j dned = .ok d → FamilyLawIs xss dned j 4 (.tabular d)
  | genEvap (t b) : genEvapAce xss j = .ok (t, b) → FamilyLawIs xss dned j 5 (.genEvap t b)
  | maxwell (t u) : tempAce xss j = .ok (t, u) → FamilyLawIs xss dned j 7 (.maxwell t u)
  | evap (t u) : tempAce xss j = .ok (t, u) → FamilyLawIs xss dned j 9 (.evap t u)
  | watt (x y u) : wattAce xss j = .ok (x, y, u) → FamilyLawIs xss dned j 11 (.watt x y u)

theorem familyLaw_iff (xss : List ℝ) (dned j : Nat) (law : Int) (d : ELaw) :
    familyLawAce xss dned law j = .ok d ↔ FamilyLawIs xss dned j law d := by
  constructor
  · intro h
    unfold familyLawAce at h
    split_ifs at h with h1 h2 h3 h4 h5 h6 <;> obtain ⟨y, hy, rfl⟩ := map_ok h <;> subst_vars
    · exact .bins _ hy
    · exact .tabular _ hy
    · exact .genEvap _ _ hy
    · exact .maxwell _ _ hy
    · exact .evap _ _ hy
    · exact .watt _ _ _ hy
  · intro h
    cases h with
    | bins d h2 => simp [familyLawAce, h2, Except.map]
    | tabular d h2 => simp [familyLawAce, h2, Except.map]
    | genEvap t b h2 => simp [familyLawAce, h2, Except.map]
    | maxwell t u h2 => simp [familyLawAce, h2, Except.map]
    | evap t u h2 => simp [familyLawAce, h2, Except.map]
    | watt x y u h2 => simp [familyLawAce, h2, Except.map]

theorem readFamilies_each {D : Type} (mk : Int → Nat → Res D) (xss : List ℝ) (dnedl dned : Nat) : ∀ (n i g : Nat) (out : List (Family D)),
    readFamilies mk xss dnedl dned n i g = .ok out → out.length = n ∧
      ∀ k F, out[k]? = some F → ∃ i', Family.make mk xss dnedl dned i' (g + k) = .ok F := by
  intro n
  induction n with
  | zero => intro i g out h; cases h; exact ⟨rfl, fun k F h => by simp at h⟩
  | succ n ih =>
    intro i g out h
    unfold readFamilies at h
    obtain ⟨f, hf, h⟩ := bind_ok h
    obtain ⟨nr, _, h⟩ := bind_ok h
    obtain ⟨ne, _, h⟩ := bind_ok h
    obtain ⟨fs, hfs, h⟩ := bind_ok h
    cases h
    obtain ⟨h1, h2⟩ := ih _ _ _ hfs
    refine ⟨by simp [h1], fun k F hk => ?_⟩
    cases k with
    | zero => simp only [List.getElem?_cons_zero, Option.some.injEq] at hk; subst hk; exact ⟨i, hf⟩
    | succ k =>
      simp only [List.getElem?_cons_succ] at hk
      obtain ⟨i', h⟩ := h2 k F hk
      exact ⟨i', by rw [show g + (k + 1) = g + 1 + k by omega]; exact h⟩

/-- **C99** Delayed families of a fissile nuclide: as many as the file says (none if it has no such block), and the `k`-th (from zero) emits with the law
whose number and data are found through entry `k` of the locator block, whichever of the accepted numbers it is. -/
theorem C99_delayed (f : AceFile) (fuel : Nat) (n : Nuc) (hn : Nuc.makeAce f fuel = .ok n) (hf : f.fissile = true) :
    n.fission.families.length = (if 1 < f.bdd then f.ngrps else 0) ∧
    ∀ k F, n.fission.families[k]? = some F → ∃ locc law idat, natAt f.xss (f.dnedl + k) = .ok locc ∧ getAt f.xss (f.dned + locc) = .ok law ∧
      natAt f.xss (f.dned + locc + 1) = .ok idat ∧ FamilyLawIs f.xss f.dned (f.dned + idat - 1) ⌊law⌋ F.law := by
  have h := (C99_fission f fuel n hn).2.1 hf
  unfold families at h
  by_cases hb : 1 < f.bdd
  · rw [if_pos (by omega)] at h
    obtain ⟨h1, h2⟩ := readFamilies_each _ _ _ _ _ _ _ _ h
    rw [if_pos hb]
    refine ⟨h1, fun k F hk => ?_⟩
    obtain ⟨i', hm⟩ := h2 k F hk
    obtain ⟨locc, law, idat, a1, a2, a3, a4⟩ := C77_law _ _ _ _ _ _ F (by omega) hm
    rw [show 1 + k - 1 = k by omega] at a1
    exact ⟨locc, law, idat, a1, a2, a3, (familyLaw_iff _ _ _ _ _).mp a4⟩
  · rw [if_neg (by omega)] at h
    rw [if_neg hb]
    cases h' : n.fission.families with
    | nil => exact ⟨rfl, fun k F hk => by simp at hk⟩
    | cons x y => rw [h'] at h; cases h

/-- **C99** Unresolved resonances: the tables are those of the file's UNR block, on the nuclide's own elastic, fission and heating cross
sections and its own MT 102 (zero if it has none); `urr_min_energy` is the first energy of that block. -/
theorem C99_urr (fuel : Nat) (f : AceFile) (n : Nuc) (hn : Made fuel f n) :
    (∃ cx, URR.make f.xss f.lunr ⟨n.elasticXS, cx, n.fissionXS, n.heating⟩ (n.rxns.map STRxn.forget) = .ok n.urr ∧
      (∀ r, n.reaction 102 = .ok r → cx = r.xs) ∧ (n.has 102 = .ok false → ∀ i, cx.at i = .ok 0)) ∧
    (∀ l, f.lunr = some l → getAt f.xss (l + 6) = .ok n.urrMin ∧ ∀ e0, n.urr.energy.head? = some e0 → n.urrMin = e0) ∧
    (f.lunr = none → n.urrMin = 50000 ∧ n.urr.energy = []) := by
  have key : ∀ (s : NucState) (cx : XS ℝ), n.idx = s.idx → n.rxns = s.rxns → captureXS n.grid.energy s.idx s.rxns = .ok cx →
      URR.make f.xss f.lunr ⟨n.elasticXS, cx, n.fissionXS, n.heating⟩ (n.rxns.map STRxn.forget) = .ok n.urr →
      EGrid.readAce f = .ok (n.grid, n.urrMin) → (∃ cx, URR.make f.xss f.lunr ⟨n.elasticXS, cx, n.fissionXS, n.heating⟩ (n.rxns.map STRxn.forget) = .ok n.urr ∧
      (∀ r, n.reaction 102 = .ok r → cx = r.xs) ∧ (n.has 102 = .ok false → ∀ i, cx.at i = .ok 0)) ∧
    (∀ l, f.lunr = some l → getAt f.xss (l + 6) = .ok n.urrMin ∧ ∀ e0, n.urr.energy.head? = some e0 → n.urrMin = e0) ∧
    (f.lunr = none → n.urrMin = 50000 ∧ n.urr.energy = []) := by
    intro s cx hi hx hc hu hg
    rw [← hi, ← hx] at hc
    refine ⟨⟨cx, hu, ?_, ?_⟩, ?_, ?_⟩
    · intro r hr
      rcases reaction_split hr with ⟨h, _⟩ | ⟨_, _, h⟩
      · cases h
      · unfold captureXS at hc
        obtain ⟨b, hb, hc⟩ := bind_ok hc
        unfold Nuc.reaction Nuc.has at hr
        rw [if_neg (by decide), hb] at hr
        simp only [bind, Except.bind] at hr
        cases b with
        | false => cases hr
        | true =>
          rw [if_neg (by simp), h] at hc
          exact (Except.ok.inj hc).symm
    · intro hh i
      unfold Nuc.has at hh
      rw [if_neg (by decide)] at hh
      unfold captureXS at hc
      rw [hh] at hc
      simp only [bind, Except.bind, if_true, XS.makeConst] at hc
      rw [if_neg (by simp)] at hc
      rw [← Except.ok.inj hc]
      simp only [XS.at, front, if_true]
      rfl
    · intro l hl
      unfold EGrid.readAce at hg
      rw [hl] at hg
      obtain ⟨es, _, hg⟩ := bind_ok hg
      obtain ⟨u, hu', hg⟩ := bind_ok hg
      obtain ⟨g, _, hg⟩ := bind_ok hg
      cases hg
      refine ⟨hu', fun e0 he0 => ?_⟩
      rw [hl] at hu
      unfold URR.make at hu
      obtain ⟨ne, _, hu⟩ := bind_ok hu
      obtain ⟨np, _, hu⟩ := bind_ok hu
      obtain ⟨code, _, hu⟩ := bind_ok hu
      obtain ⟨inel, _, hu⟩ := bind_ok hu
      obtain ⟨ab, _, hu⟩ := bind_ok hu
      obtain ⟨fac, _, hu⟩ := bind_ok hu
      obtain ⟨en, hen, hu⟩ := bind_ok hu
      obtain ⟨ts, _, hu⟩ := bind_ok hu
      cases hcode : interpOfCode code with
      | none => rw [hcode] at hu; cases hu
      | some r =>
        rw [hcode] at hu
        simp only [] at hu
        split at hu
        · cases hu
        · obtain ⟨i1, _, hu⟩ := bind_ok hu
          obtain ⟨i2, _, hu⟩ := bind_ok hu
          rw [← Except.ok.inj hu] at he0
          simp only [] at he0
          unfold xssSlice at hen
          split at hen
          · have hen' := Except.ok.inj hen
            rw [← hen', List.head?_take] at he0
            split at he0
            · cases he0
            · rw [List.head?_drop] at he0
              rw [getAt_eq_ok] at hu'
              rw [hu'] at he0
              exact Option.some.inj he0
          · cases hen
    · intro hl
      unfold EGrid.readAce at hg
      rw [hl] at hg hu
      obtain ⟨es, _, hg⟩ := bind_ok hg
      obtain ⟨u, hu', hg⟩ := bind_ok hg
      obtain ⟨g, _, hg⟩ := bind_ok hg
      cases hg
      refine ⟨(Except.ok.inj hu').symm, ?_⟩
      unfold URR.make at hu
      rw [← Except.ok.inj hu]
  cases hn with
  | direct hn =>
    obtain ⟨m, s, fi, l0, ad, cx, h1, _, _, _, _, _, _, _, h2, h3, _, _, h4, h5, _⟩ := makeAce_parts hn
    exact key s cx h4 h5 h2 h3 h1
  | shared ho hn =>
    obtain ⟨m, s, fi, cx, h1, _, _, _, _, h2, h3, _, _, h4, h5, _⟩ := makeShared_parts hn
    exact key s cx h4 h5 h2 h3 h1

/-! ### C100 -/

/-- **C100** Sharing: every reaction of the new nuclide has the `ReactionBase` (MT, Q, yield, distributions) of the same MT in the other
nuclide, and the cross section and threshold of its own file. -/
theorem C100_reactions (f : AceFile) (o n : Nuc) (hn : Nuc.makeShared f o = .ok n) (a : AceIn ℝ) (h : FileHolds f a) (mt : Nat) (r : STRxn)
    (hr : n.reaction mt = .ok r) : ∃ (r0 : STRxn) (k : Nat) (e : RxnIn ℝ), o.reaction mt = .ok r0 ∧ r.base = r0.base ∧ a.rxns[k]? = some e ∧ e.mt = mt ∧
      r.xs = ⟨a.grid, e.values, e.idx, false⟩ ∧ a.grid[e.idx]? = some r.threshold := by
  obtain ⟨m, s, fi, cx, hg, _, hs, hfi, _, _, _, _, rfl, hi, hx, _⟩ := makeShared_parts hn
  obtain ⟨he, _⟩ := readGrid_sim h hg
  rw [he] at hs hfi
  have fin : ∀ k r0, k ∈ List.range f.nmt → natAt f.xss (f.mtr + k) = .ok mt → STRxn.fromOther f a.grid k r0 = .ok r → o.reaction mt = .ok r0 →
      ∃ (r0 : STRxn) (k : Nat) (e : RxnIn ℝ), o.reaction mt = .ok r0 ∧ r.base = r0.base ∧ a.rxns[k]? = some e ∧ e.mt = mt ∧
      r.xs = ⟨a.grid, e.values, e.idx, false⟩ ∧ a.grid[e.idx]? = some r.threshold := by
    intro k r0 hk hm hf ho
    obtain ⟨e, he', hem⟩ := entry_of_mt h hk hm
    unfold STRxn.fromOther at hf
    exact ⟨r0, k, e, ho, make_parts hf, he', hem, xs_of_rxn h he' hf⟩
  rcases reaction_split hr with ⟨hff, hf⟩ | ⟨hff, hlt, hf⟩
  · unfold Fission.makeShared at hfi
    by_cases hb : f.fissile = false
    · rw [if_pos hb] at hfi
      rw [fission_reaction_get] at hf
      have hmt := get_fission hf
      rw [← Except.ok.inj hfi] at hf
      rcases hmt with e | e | e | e | e <;> subst e <;> cases hf
    · rw [if_neg hb] at hfi
      dsimp only at hfi
      obtain ⟨st, hst, hfi⟩ := bind_ok hfi
      obtain ⟨p, _, hfi⟩ := bind_ok hfi
      rw [fission_reaction_get, ← Except.ok.inj hfi] at hf
      obtain ⟨k, hk, hm, hmk⟩ := (fis_inv hst).look mt r hf
      obtain ⟨r0, h0, hmk⟩ := bind_ok hmk
      refine fin k r0 hk hm hmk ?_
      have hg0 : FisState.get ⟨o.fission.m18, o.fission.m19, o.fission.m20, o.fission.m21, o.fission.m38, []⟩ mt = some r0 := by
        cases hgg : FisState.get ⟨o.fission.m18, o.fission.m19, o.fission.m20, o.fission.m21, o.fission.m38, []⟩ mt with
        | none => rw [hgg] at h0; cases h0
        | some x => rw [hgg] at h0; cases h0; rfl
      unfold Nuc.reaction Nuc.has
      rw [if_pos hff, if_pos hff]
      simp only [bind, Except.bind]
      rw [if_neg (by unfold Fission.has; rw [hg0]; simp)]
      exact fission_reaction_get.mpr hg0
  · rw [hi, hx] at hf
    obtain ⟨k, hk, hm, hmk⟩ := rxnAt_origin (nuc_inv hs) hf
    obtain ⟨j, hj, hmk⟩ := bind_ok hmk
    obtain ⟨r0, h0, hmk⟩ := bind_ok hmk
    refine fin k r0 hk hm hmk ?_
    have hneg : ¬ j < 0 := by
      intro hn
      unfold getInt at h0
      rw [if_pos hn] at h0
      cases h0
    unfold Nuc.reaction Nuc.has hasIdx
    rw [if_neg (by rw [hff]; simp), if_neg (by omega), hj]
    simp only [bind, Except.bind, pure, Except.pure]
    rw [if_neg (by simp; omega), if_neg (by rw [hff]; simp)]
    unfold rxnAt
    rw [hj]
    exact h0

/-- **C100** Sharing: weight ratio, fissile flag, angular distribution and all settings of elastic scattering, neutrons per fission and delayed
families are the other nuclide's; the temperature is the file's. -/
theorem C100_members (f : AceFile) (o n : Nuc) (hn : Nuc.makeShared f o = .ok n) :
    n.awr = o.awr ∧ n.fissile = o.fissile ∧ n.temperature = f.temperature ∧ n.elastic = { o.elastic with kT := f.temperature * kToMeV } ∧
      n.fission.nu = o.fission.nu ∧ n.fission.families = o.fission.families := by
  obtain ⟨m, s, fi, cx, _, _, _, hfi, _, _, _, _, rfl, _, _, h1, h2, h3, h4⟩ := makeShared_parts hn
  refine ⟨h1, h2, h3, h4, ?_⟩
  unfold Fission.makeShared at hfi
  by_cases hb : f.fissile = false
  · rw [if_pos hb] at hfi
    rw [← Except.ok.inj hfi]
    exact ⟨rfl, rfl⟩
  · rw [if_neg hb] at hfi
    dsimp only at hfi
    obtain ⟨st, hst, hfi⟩ := bind_ok hfi
    obtain ⟨p, _, hfi⟩ := bind_ok hfi
    rw [← Except.ok.inj hfi]
    exact ⟨rfl, rfl⟩

/-! ### C101 -/

theorem Spec.Read.built {fuel : Nat} {f : AceFile} {a : AceIn ℝ} {n : Nuc} (h : Read fuel f a n) : Built a n.toSTN := by
  induction h with
  | direct h hn => exact .direct (makeAce_sim h hn)
  | shared _ h hn ih => exact .shared ih (makeShared_sim h hn)

theorem Spec.Read.made {fuel : Nat} {f : AceFile} {a : AceIn ℝ} {n : Nuc} (h : Read fuel f a n) : Made fuel f n ∧ FileHolds f a := by
  induction h with
  | direct h hn => exact ⟨.direct hn, h⟩
  | shared _ h hn ih => exact ⟨.shared ih.1 hn, h⟩

theorem Spec.Read.grid {fuel : Nat} {f : AceFile} {a : AceIn ℝ} {n : Nuc} (h : Read fuel f a n) : EGrid.makeAce a.grid 8192 = .ok n.grid := by
  cases h with
  | direct h hn =>
    obtain ⟨m, s, fi, l0, ad, cx, h1, _⟩ := makeAce_parts hn
    exact (readGrid_sim h h1).2
  | shared _ h hn =>
    obtain ⟨m, s, fi, cx, h1, _⟩ := makeShared_parts hn
    exact (readGrid_sim h h1).2

/-- **C101** The energies of a nuclide read from a file are positive and in order; a file for which they are not is never accepted. -/
theorem C101_grid (fuel : Nat) (f : AceFile) (a : AceIn ℝ) (n : Nuc) (h : Read fuel f a n) :
    a.grid ≠ [] ∧ a.grid.Pairwise (· ≤ ·) ∧ ∀ E ∈ a.grid, 0 < E := by
  have hg := h.grid
  unfold EGrid.makeAce at hg
  split at hg
  · cases hg
  · rename_i hs
    have hs' : a.grid.Pairwise (· ≤ ·) := isSorted_iff.mp (by simpa using hs)
    obtain ⟨e0, h0, hg⟩ := bind_ok hg
    rw [front_eq_ok] at h0
    split at hg
    · cases hg
    · rename_i hp
      have hp' := not_le.mp hp
      cases hgr : a.grid with
      | nil => rw [hgr] at h0; cases h0
      | cons x xs =>
        rw [hgr] at h0 hs'
        cases h0
        refine ⟨by simp, hs', fun E hE => ?_⟩
        rcases List.mem_cons.mp hE with e | e
        · rw [e]; exact hp'
        · exact hp'.trans_le ((List.pairwise_cons.mp hs').1 E e)

/-- **C101** For every nuclide read from a file with distinct energies and every energy from the first one on, `evaluate_xs` returns: the values
of the nuclide's cross sections at the bracketing grid index, absorption being disappearance plus fission, capture that of MT 102 or zero,
nothing negative, and the packet is balanced if the total is at least elastic plus absorption. -/
theorem C101_evaluate (fuel : Nat) (f : AceFile) (a : AceIn ℝ) (n : Nuc) (h : Read fuel f a n) (hs : a.grid.Pairwise (· < ·))
    (h32 : a.grid.length < 2 ^ 32) (e0 E : ℝ) (h0 : a.grid.head? = some e0) (hE : e0 ≤ E) :
    ∃ p i, n.evaluateE E = .ok p ∧ n.grid.lowerIndex E = .ok i ∧ IsLowerIndex a.grid E i ∧
      n.total.evalIdx E i = .ok p.total ∧ n.elasticXS.evalIdx E i = .ok p.elastic ∧ n.fissionXS.evalIdx E i = .ok p.fission ∧
      n.heating.evalIdx E i = .ok p.heating ∧ (∃ d, n.disap.evalIdx E i = .ok d ∧ p.absorption = d + p.fission) ∧
      (n.has 102 = .ok true → ∃ r, n.reaction 102 = .ok r ∧ r.xs.evalIdx E i = .ok p.capture) ∧ (n.has 102 = .ok false → p.capture = 0) ∧
      0 ≤ p.total ∧ 0 ≤ p.elastic ∧ 0 ≤ p.fission ∧ 0 ≤ p.absorption ∧ 0 ≤ p.capture ∧ 0 ≤ p.inelastic ∧ p.fission ≤ p.absorption ∧
      (p.elastic + p.absorption ≤ p.total → p.total = p.elastic + p.inelastic + p.absorption) ∧ (p.total < p.elastic + p.absorption → p.inelastic = 0) := by
  obtain ⟨hne, hle, hpos⟩ := C101_grid fuel f a n h
  have h0' : a.grid[0]? = some e0 := by rw [← List.head?_eq_getElem?]; exact h0
  have hp0 : 0 < e0 := hpos e0 (List.mem_of_getElem? h0')
  obtain ⟨g, hg, _, hl⟩ := C28_lower_index a.grid 8192 e0 hle h0' hp0 h32 (by norm_num) (by norm_num)
  have hgn : g = n.grid := by
    have h1 := h.grid
    unfold EGrid.makeAce at h1
    unfold EGrid.make at hg
    have hso : ¬ isSorted a.grid = false := by rw [isSorted_iff.mpr hle]; simp
    rw [if_neg hso] at h1 hg
    rw [front_eq_ok.mpr h0'] at h1 hg
    simp only [bind, Except.bind] at h1 hg
    rw [if_neg (not_le.mpr hp0)] at h1
    rw [if_neg (not_lt.mpr hp0.le)] at hg
    rw [h1] at hg
    exact (Except.ok.inj hg).symm
  subst hgn
  obtain ⟨i, hi, hI⟩ := hl E
  obtain ⟨p, k1, k2⟩ := C57_total a n.toSTN h.built hs (List.length_pos_iff.mpr hne) h32 E i
  obtain ⟨q1, q2, q3, q4, q5, q6, q7⟩ := k2 (lowerIndex_brackets hs h0' hE hI)
  obtain ⟨b1, b2, b3, b4, b5, b6, b7, b8, b9, b10⟩ := C57_balance n.toSTN E i p k1
  rw [evaluate_toSTN] at k1
  rw [has_toSTN] at b6 b7
  refine ⟨p, i, ?_, hi, hI, b1, b2, b3, b4, b5, ?_, b7, q1, q2, q3, q4, q5, q6, q7, b9, b10⟩
  · unfold Nuc.evaluateE
    rw [hi]
    exact k1
  · intro hh
    obtain ⟨r, hr, hx⟩ := b6 hh
    rw [reaction_toSTN] at hr
    obtain ⟨r', hr', rfl⟩ := map_ok hr
    exact ⟨r', hr', hx⟩

end PNDL
