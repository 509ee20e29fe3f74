import Verif.Model.PromptSpectrum
import Verif.Spec.PromptSpectrum
import Verif.Props.NucAce
import Verif.Props.NucAccept
import Verif.Props.Mixture
import Verif.Props.JointLaw
import Verif.Props.ReactionLaw
import Verif.Props.ReadSample
import Verif.Props.ReadCosine
import Verif.Props.ReadEnergy
import Verif.Props.ReadDensity
import Verif.Props.Spndl

/-! C148: the prompt fission spectrum of a nuclide read from a file. -/
namespace PNDL
open Spec MeasureTheory Set

theorem fis_reaction_get (n : Nuc) {mt : Nat} (hf : isFisMT mt = true) (r : STRxn) : n.reaction mt = .ok r ↔
    FisState.get ⟨n.fission.m18, n.fission.m19, n.fission.m20, n.fission.m21, n.fission.m38, []⟩ mt = some r := by
  rw [← fission_reaction_get]
  unfold Nuc.reaction Nuc.has
  rw [if_pos hf, if_pos hf]
  simp only [bind, Except.bind]
  constructor
  · intro h
    split at h
    · cases h
    · exact h
  · intro h
    rw [if_neg]
    · exact h
    · unfold Fission.has
      rw [fission_reaction_get] at h
      rw [h]; simp

theorem fis_has_get (n : Nuc) {mt : Nat} (hf : isFisMT mt = true) : n.has mt = .ok (FisState.get ⟨n.fission.m18, n.fission.m19, n.fission.m20,
    n.fission.m21, n.fission.m38, []⟩ mt).isSome := by
  unfold Nuc.has
  rw [if_pos hf]
  rfl

/-- How the spectrum is chosen, in terms of the reactions the nuclide has. -/
theorem prompt_of {n : Nuc} {s : FisState} (hp : s.prompt = .ok n.fission.spectrum) (h : n.fission.m18 = s.m18 ∧ n.fission.m19 = s.m19 ∧ n.fission.m20 = s.m20 ∧
    n.fission.m21 = s.m21 ∧ n.fission.m38 = s.m38) :
    (∀ r, n.reaction 18 = .ok r → n.fission.spectrum = .mt18 r.base.dist) ∧
    (n.has 18 = .ok false → (∃ r, Partials n r ∧ n.fission.spectrum = .summed (r 0) (r 1) (r 2) (r 3)) ∨
      ((∀ j, n.has (partialMT j) = .ok false) ∧ n.fission.spectrum = .absorption)) := by
  obtain ⟨e0, e1, e2, e3, e4⟩ := h
  have hr := fun mt hf => fis_reaction_get n (mt := mt) hf
  have hh := fun mt hf => fis_has_get n (mt := mt) hf
  rw [e0, e1, e2, e3, e4] at hr hh
  constructor
  · intro r h
    rw [hr 18 rfl] at h
    have h : s.m18 = some r := h
    unfold FisState.prompt at hp
    rw [h] at hp
    exact (Except.ok.inj hp).symm
  · intro h
    rw [hh 18 rfl] at h
    have h18 : s.m18 = none := by
      cases hm : s.m18 with
      | none => rfl
      | some r => rw [hm] at h; cases h
    have g1 := hr 19 rfl
    have g2 := hr 20 rfl
    have g3 := hr 21 rfl
    have g4 := hr 38 rfl
    have q1 := hh 19 rfl
    have q2 := hh 20 rfl
    have q3 := hh 21 rfl
    have q4 := hh 38 rfl
    unfold FisState.prompt at hp
    rw [h18] at hp
    cases a1 : s.m19 <;> cases a2 : s.m20 <;> cases a3 : s.m21 <;> cases a4 : s.m38 <;> simp only [a1, a2, a3, a4] at hp <;> try (cases hp; done)
    · rw [a1] at q1; rw [a2] at q2; rw [a3] at q3; rw [a4] at q4
      refine Or.inr ⟨fun j => ?_, (Except.ok.inj hp).symm⟩
      fin_cases j
      · exact q1
      · exact q2
      · exact q3
      · exact q4
    · rename_i r1 r2 r3 r4
      refine Or.inl ⟨![r1, r2, r3, r4], fun j => ?_, (Except.ok.inj hp).symm⟩
      fin_cases j
      · exact (g1 r1).mpr a1
      · exact (g2 r2).mpr a2
      · exact (g3 r3).mpr a3
      · exact (g4 r4).mpr a4

theorem read_prompt {fuel : Nat} {f : AceFile} {a : AceIn ℝ} {n : Nuc} (h : Read fuel f a n) (hf : f.fissile = true) :
    ∃ s : FisState, s.prompt = .ok n.fission.spectrum ∧ n.fission.m18 = s.m18 ∧ n.fission.m19 = s.m19 ∧ n.fission.m20 = s.m20 ∧
      n.fission.m21 = s.m21 ∧ n.fission.m38 = s.m38 := by
  cases h with
  | direct h hn =>
    obtain ⟨m, s, fi, l0, ad, cx, _, _, _, _, _, _, hfi, _, _, _, _, rfl, _⟩ := makeAce_parts hn
    unfold Fission.makeAce at hfi
    obtain ⟨nu, hnu, hfi⟩ := bind_ok hfi
    rw [if_neg (by rw [hf]; simp)] at hfi
    obtain ⟨fam, hfam, hfi⟩ := bind_ok hfi
    obtain ⟨st, _, hfi⟩ := bind_ok hfi
    obtain ⟨p, hp, hfi⟩ := bind_ok hfi
    rw [← Except.ok.inj hfi]
    exact ⟨st, hp, rfl, rfl, rfl, rfl, rfl⟩
  | shared _ h hn =>
    obtain ⟨m, s, fi, cx, _, _, _, hfi, _, _, _, _, rfl, _⟩ := makeShared_parts hn
    unfold Fission.makeShared at hfi
    rw [if_neg (by rw [hf]; simp)] at hfi
    dsimp only at hfi
    obtain ⟨st, _, hfi⟩ := bind_ok hfi
    obtain ⟨p, hp, hfi⟩ := bind_ok hfi
    rw [← Except.ok.inj hfi]
    exact ⟨st, hp, rfl, rfl, rfl, rfl, rfl⟩

/-! ### C148 -/

/-- **C148** Which distribution it is: for every fissile file, read directly or sharing the distributions of another nuclide, the prompt spectrum is the
neutron distribution of MT 18 if the nuclide has that reaction, else the sum over the four partial fission reactions of the nuclide, if it has them; a nuclide
with none of these has a spectrum that throws. -/
theorem C148_source (fuel : Nat) (f : AceFile) (a : AceIn ℝ) (n : Nuc) (h : Read fuel f a n) (hf : f.fissile = true) (fuel' : Nat) :
    (∃ r, n.reaction 18 = .ok r ∧ n.promptSpectrum fuel' = r.base.dist.toAE fuel') ∨
    (n.has 18 = .ok false ∧ ∃ r, Partials n r ∧ n.promptSpectrum fuel' = (STRxn.summed n.grid fuel' (r 0) (r 1) (r 2) (r 3)).toAE) ∨
    (n.has 18 = .ok false ∧ (∀ j, n.has (partialMT j) = .ok false) ∧ ∀ E ω k, (n.promptSpectrum fuel').sample E ω k = .error .exc) := by
  obtain ⟨s, hp, he⟩ := read_prompt h hf
  obtain ⟨h1, h2⟩ := prompt_of hp he
  have hh := fis_has_get n (mt := 18) rfl
  cases hg : FisState.get ⟨n.fission.m18, n.fission.m19, n.fission.m20, n.fission.m21, n.fission.m38, []⟩ 18 with
  | some r =>
    have hr := (fis_reaction_get n (mt := 18) rfl r).mpr hg
    refine Or.inl ⟨r, hr, ?_⟩
    unfold Nuc.promptSpectrum
    rw [h1 r hr]
    rfl
  | none =>
    rw [hg] at hh
    refine Or.inr ?_
    rcases h2 hh with ⟨r, hr, hs⟩ | ⟨hn, hs⟩
    · refine Or.inl ⟨hh, r, hr, ?_⟩
      unfold Nuc.promptSpectrum
      rw [hs]
      rfl
    · refine Or.inr ⟨hh, hn, fun E ω k => ?_⟩
      unfold Nuc.promptSpectrum
      rw [hs]
      rfl

theorem partials_unique {n : Nuc} {r r' : Fin 4 → STRxn} (h : Partials n r) (h' : Partials n r') : r = r' := by
  funext j
  exact Except.ok.inj ((h j).symm.trans (h' j))

/-- The spectrum of a nuclide without MT 18 that has the partial reactions `r`. -/
theorem prompt_summed {fuel : Nat} {f : AceFile} {a : AceIn ℝ} {n : Nuc} (h : Read fuel f a n) (hf : f.fissile = true) (h18 : n.has 18 = .ok false)
    {r : Fin 4 → STRxn} (hr : Partials n r) (fuel' : Nat) : n.promptSpectrum fuel' = (STRxn.summed n.grid fuel' (r 0) (r 1) (r 2) (r 3)).toAE := by
  rcases C148_source fuel f a n h hf fuel' with ⟨r18, h1, _⟩ | ⟨_, r', h1, h2⟩ | ⟨_, h1, _⟩
  · unfold Nuc.reaction at h1
    rw [h18] at h1
    cases h1
  · rw [partials_unique hr h1]; exact h2
  · have := hr 0
    unfold Nuc.reaction at this
    rw [h1 0] at this
    cases this

/-- The cross section of a reaction of a nuclide read from a file. -/
theorem read_xs {fuel : Nat} {f : AceFile} {a : AceIn ℝ} {n : Nuc} (h : Read fuel f a n) {mt : Nat} {r : STRxn} (hr : n.reaction mt = .ok r)
    (hm : FissionMT mt) : GoodXS r.xs ∧ r.xs.grid = a.grid ∧ a.grid[r.xs.index]? = some r.threshold := by
  have hg := (fis_reaction_get n ((isFisMT_iff mt).mpr hm) r).mp hr
  have hs := get_slot ⟨n.fission.m18, n.fission.m19, n.fission.m20, n.fission.m21, n.fission.m38, []⟩ mt
  rw [hg] at hs
  have hs : n.toSTN.fis.slot mt = some r.forget := hs.symm
  rcases (built_ok h.built).flook mt hm with ⟨_, h0⟩ | ⟨_, e, _, _, r', h0, d, hk⟩
  · rw [hs] at h0; cases h0
  · rw [hs] at h0
    cases h0
    obtain ⟨_, _, k3, _, k5, k6, k7⟩ := rxnMake_ok hk
    refine ⟨k6, k3, ?_⟩
    rw [show r.xs.index = e.idx from k5]
    exact k7

theorem read_lower {fuel : Nat} {f : AceFile} {a : AceIn ℝ} {n : Nuc} (h : Read fuel f a n) (h32 : a.grid.length < 2 ^ 32) (E : ℝ) :
    ∃ i, n.grid.lowerIndex E = .ok i ∧ IsLowerIndex a.grid E i := by
  obtain ⟨hne, hle, hpos⟩ := C101_grid fuel f a n h
  obtain ⟨e0, h0'⟩ := getElem?_of_lt (l := a.grid) (i := 0) (List.length_pos_iff.mpr hne)
  have hp0 : 0 < e0 := hpos e0 (List.mem_of_getElem? h0')
  obtain ⟨g, hg, _, hl⟩ := C28_lower_index a.grid 8192 e0 hle h0' hp0 h32 (by norm_num) (by norm_num)
  have hgn : g = n.grid := by
    have h1 := h.grid
    unfold EGrid.makeAce at h1
    unfold EGrid.make at hg
    have hso : ¬ isSorted a.grid = false := by rw [isSorted_iff.mpr hle]; simp
    rw [if_neg hso] at h1 hg
    rw [front_eq_ok.mpr h0'] at h1 hg
    simp only [bind, Except.bind] at h1 hg
    rw [if_neg (not_le.mpr hp0)] at h1
    rw [if_neg (not_lt.mpr hp0.le)] at hg
    rw [h1] at hg
    exact (Except.ok.inj hg).symm
  subst hgn
  exact hl E

theorem partialMT_fission (j : Fin 4) : FissionMT (partialMT j) := by
  fin_cases j <;> simp [partialMT, FissionMT]

/-- One partial reaction: what the object uses as its cross section. -/
theorem part_at {fuel : Nat} {f : AceFile} {a : AceIn ℝ} {n : Nuc} (h : Read fuel f a n) (hs : a.grid.Pairwise (· < ·)) {mt : Nat} {r : STRxn}
    (hr : n.reaction mt = .ok r) (hm : FissionMT mt) {E : ℝ} {i : Nat} (hi : IsLowerIndex a.grid E i) (fuel' : Nat) :
    ∃ x, (r.part fuel').at E i = .ok x ∧ Competes r E x ∧ 0 ≤ x := by
  obtain ⟨hg, he, ht⟩ := read_xs h hr hm
  unfold FisPart.at STRxn.part
  dsimp only
  by_cases hE : E > r.threshold
  · rw [if_pos hE]
    obtain ⟨e0, h0⟩ := getElem?_of_lt (l := a.grid) (i := 0) (by have := lt_length_of_some ht; omega)
    have hle : e0 ≤ r.threshold := pairwise_le_getElem? (hs.imp le_of_lt) (Nat.zero_le _) h0 ht
    rw [← he] at hs hi ht h0
    obtain ⟨v, hv, hv0⟩ := evalIdx_nonneg_ok (Or.inl hg) hs E i (lowerIndex_brackets hs h0 (by linarith) hi)
    refine ⟨v, hv, Or.inl ⟨hE, ?_⟩, hv0⟩
    rw [← C31_agree_partial r.xs hg hs E r.threshold e0 i hi ht h0 (fun _ => by linarith) (fun _ => ne_of_gt hE)]
    exact hv
  · rw [if_neg hE]
    exact ⟨0, rfl, Or.inr ⟨not_lt.mp hE, rfl⟩, le_rfl⟩

theorem competes_unique {r : STRxn} {E x y : ℝ} (h : Competes r E x) (h' : Competes r E y) : x = y := by
  rcases h with ⟨h1, h2⟩ | ⟨h1, h2⟩ <;> rcases h' with ⟨k1, k2⟩ | ⟨k1, k2⟩
  · exact Except.ok.inj (h2.symm.trans k2)
  · linarith
  · linarith
  · rw [h2, k2]

theorem distOf_summed (g : EGrid) (fuel : Nat) (r : Fin 4 → STRxn) (j : Fin 4) :
    distOf (STRxn.summed g fuel (r 0) (r 1) (r 2) (r 3)) j = (r j).base.dist.toAE fuel := by
  fin_cases j <;> rfl

/-- All four. -/
theorem parts_compete {fuel : Nat} {f : AceFile} {a : AceIn ℝ} {n : Nuc} (h : Read fuel f a n) (hs : a.grid.Pairwise (· < ·)) (h32 : a.grid.length < 2 ^ 32)
    {r : Fin 4 → STRxn} (hr : Partials n r) (E : ℝ) :
    ∃ x : Fin 4 → ℝ, (∀ j, Competes (r j) E (x j)) ∧ (∀ j, 0 ≤ x j) ∧ ∀ fuel', PartialXS (STRxn.summed n.grid fuel' (r 0) (r 1) (r 2) (r 3)) E x := by
  obtain ⟨i, hi, hI⟩ := read_lower h h32 E
  have key := fun j fuel' => part_at h hs (hr j) (partialMT_fission j) hI fuel'
  choose x hx hc h0 using fun j => key j 0
  refine ⟨x, hc, h0, fun fuel' => ⟨i, hi, ?_, ?_, ?_, ?_⟩⟩
  · exact hx 0
  · exact hx 1
  · exact hx 2
  · exact hx 3

/-- The same for cross sections that are given. -/
theorem parts_given {fuel : Nat} {f : AceFile} {a : AceIn ℝ} {n : Nuc} (h : Read fuel f a n) (hs : a.grid.Pairwise (· < ·)) (h32 : a.grid.length < 2 ^ 32)
    {r : Fin 4 → STRxn} (hr : Partials n r) {E : ℝ} {x : Fin 4 → ℝ} (hx : ∀ j, Competes (r j) E (x j)) :
    (∀ j, 0 ≤ x j) ∧ ∀ fuel', PartialXS (STRxn.summed n.grid fuel' (r 0) (r 1) (r 2) (r 3)) E x := by
  obtain ⟨y, h1, h2, h3⟩ := parts_compete h hs h32 hr E
  have : y = x := by funext j; exact competes_unique (h1 j) (hx j)
  rw [← this]
  exact ⟨h2, h3⟩

/-- **C148** Every energy gives the partial fission reactions cross sections to compete with, and none is negative. -/
theorem C148_defined (fuel : Nat) (f : AceFile) (a : AceIn ℝ) (n : Nuc) (h : Read fuel f a n) (hs : a.grid.Pairwise (· < ·)) (h32 : a.grid.length < 2 ^ 32)
    (r : Fin 4 → STRxn) (hr : Partials n r) (E : ℝ) : ∃ x : Fin 4 → ℝ, ∀ j, Competes (r j) E (x j) ∧ 0 ≤ x j := by
  obtain ⟨y, h1, h2, _⟩ := parts_compete h hs h32 hr E
  exact ⟨y, fun j => ⟨h1 j, h2 j⟩⟩

/-- **C148** Sampling a spectrum made of partial reactions: the first random number chooses the reaction, with a probability that is its share of the cross
sections at that energy; the rest of the stream samples that reaction's distribution. -/
theorem C148_choice (fuel : Nat) (f : AceFile) (a : AceIn ℝ) (n : Nuc) (h : Read fuel f a n) (hf : f.fissile = true) (hs : a.grid.Pairwise (· < ·))
    (h32 : a.grid.length < 2 ^ 32) (h18 : n.has 18 = .ok false) (r : Fin 4 → STRxn) (hr : Partials n r) (E : ℝ) (x : Fin 4 → ℝ)
    (hx : ∀ j, Competes (r j) E (x j)) (ht : 0 < ∑ j, x j) (j : Fin 4) :
    (∀ fuel' ω k, FallsToPartial x (ω k) j → (n.promptSpectrum fuel').sample E ω k = ((r j).base.dist.toAE fuel').sample E ω (k + 1)) ∧
    volume {xi : ℝ | 0 ≤ xi ∧ xi < 1 ∧ FallsToPartial x xi j} = ENNReal.ofReal (x j / ∑ i, x i) := by
  obtain ⟨h0, hp⟩ := parts_given h hs h32 hr hx
  refine ⟨fun fuel' ω k hj => ?_, C61_probability x h0 ht j⟩
  rw [prompt_summed h hf h18 hr, ← distOf_summed n.grid fuel' r j]
  exact C61_sample _ E ω k x (hp fuel') h0 ht j hj

/-- **C148** (partial) The law of what is sampled: the mixture of the densities the partial reactions report, in proportion to their cross sections at that
energy.  Missing: distributions that do not sample the density they report (C118). -/
theorem C148_law_partial (fuel : Nat) (f : AceFile) (a : AceIn ℝ) (n : Nuc) (h : Read fuel f a n) (hf : f.fissile = true) (hs : a.grid.Pairwise (· < ·))
    (h32 : a.grid.length < 2 ^ 32) (h18 : n.has 18 = .ok false) (r : Fin 4 → STRxn) (hr : Partials n r) (E : ℝ) (x : Fin 4 → ℝ)
    (hx : ∀ j, Competes (r j) E (x j)) (ht : 0 < ∑ j, x j) (lo hi : ℝ) (hd : ∀ j, SoundMix (r j).base.dist E lo hi) (k : Nat) :
    ∃ p : Fin 4 → ℝ → ℝ → ℝ,
      (∀ j mu e, -1 ≤ mu → mu ≤ 1 → lo ≤ e → e ≤ hi → ((r j).base.dist.toAE 0).pdf E mu e = .ok (some (p j mu e))) ∧
      Samples (fun fuel' ω => asPair ((n.promptSpectrum fuel').sample E ω k)) (jointLaw lo hi fun mu e => ∑ j, x j / (∑ i, x i) * p j mu e) := by
  obtain ⟨h0, hp⟩ := parts_given h hs h32 hr hx
  have hF : ∀ j, FaithfulAE (fun fuel' => distOf (STRxn.summed n.grid fuel' (r 0) (r 1) (r 2) (r 3)) j) E lo hi := by
    intro j
    simp only [distOf_summed]
    exact mix_faithful (hd j)
  obtain ⟨p, h1, h2⟩ := C112_fission (fun fuel' => STRxn.summed n.grid fuel' (r 0) (r 1) (r 2) (r 3)) E lo hi x hp h0 ht hF k
  refine ⟨p, ?_, ?_⟩
  · intro j mu e a1 a2 a3 a4
    rw [← distOf_summed n.grid 0 r j]
    exact h1 j mu e a1 a2 a3 a4
  · simp only [prompt_summed h hf h18 hr]
    exact h2

/-- **C148** (partial) A nuclide with MT 18: what is sampled has the density the spectrum reports.  Missing: as above. -/
theorem C148_mt18_partial (fuel : Nat) (f : AceFile) (a : AceIn ℝ) (n : Nuc) (h : Read fuel f a n) (hf : f.fissile = true) (r : STRxn)
    (hr : n.reaction 18 = .ok r) (E lo hi : ℝ) (hd : SoundMix r.base.dist E lo hi) (k : Nat) :
    SamplesJoint (fun fuel' ω => (n.promptSpectrum fuel').sample E ω k) lo hi ((n.promptSpectrum 0).pdf E) := by
  have hp : ∀ fuel', n.promptSpectrum fuel' = r.base.dist.toAE fuel' := by
    intro fuel'
    obtain ⟨s, hp, he⟩ := read_prompt h hf
    unfold Nuc.promptSpectrum
    rw [(prompt_of hp he).1 r hr]
    rfl
  simp only [hp]
  exact (mix_faithful hd).samples k

/-! ### Samples and densities of the spectrum -/

theorem evalIdx_noUB {s : XS ℝ} (hg : GoodXS s) (E : ℝ) (i : Nat) : NoUB (s.evalIdx E i) := by
  have hb := hg.below
  have ha := hg.aligned
  unfold XS.evalIdx
  rw [if_neg (by simp [hg.notSingle])]
  refine NoUB.ite (fun _ => .ok _) fun h1 => NoUB.ite (fun _ => ?_) fun h2 => ?_
  · obtain ⟨v, hv⟩ := last_exists (l := s.values) (by omega)
    rw [back_eq_ok.mpr hv]
    exact .ok _
  · unfold XS.pastEnd at h2
    simp only [decide_eq_true_eq, not_and] at h2
    have h2 := h2 (by omega)
    obtain ⟨a, k1⟩ := getElem?_of_lt (l := s.grid) (i := i) (by omega)
    obtain ⟨b, k2⟩ := getElem?_of_lt (l := s.grid) (i := i + 1) (by omega)
    obtain ⟨sl, k3⟩ := getElem?_of_lt (l := s.values) (i := i - s.index) (by omega)
    obtain ⟨sh, k4⟩ := getElem?_of_lt (l := s.values) (i := i - s.index + 1) (by omega)
    simp only [getAt_eq_ok.mpr k1, getAt_eq_ok.mpr k2, getAt_eq_ok.mpr k3, getAt_eq_ok.mpr k4, bind, Except.bind, xsLin, cdiv]
    by_cases h0 : b - a = 0
    · rw [if_pos h0]; intro hc; cases hc
    · rw [if_neg h0]; exact .ok _

theorem part_noUB {fuel : Nat} {f : AceFile} {a : AceIn ℝ} {n : Nuc} (h : Read fuel f a n) {mt : Nat} {r : STRxn} (hr : n.reaction mt = .ok r)
    (hm : FissionMT mt) (E : ℝ) (i fuel' : Nat) : NoUB ((r.part fuel').at E i) := by
  unfold FisPart.at
  exact NoUB.ite (fun _ => evalIdx_noUB (read_xs h hr hm).1 E i) fun _ => .ok _

theorem rdiv_noUB (x y : ℝ) : NoUB (rdiv x y) := by
  by_cases h : y = 0
  · rw [h, rdiv_zero]; intro hc; cases hc
  · rw [rdiv_ok h]; exact .ok _

/-- A sample of the summed spectrum is a sample of one of the four distributions. -/
theorem sfs_sample_mem {s : SFS} {E : ℝ} {ω : Tape} {k : Nat} {v : ℝ × ℝ × Nat} (h : s.sample E ω k = .ok v) :
    ∃ j, (distOf s j).sample E ω (k + 1) = .ok v := by
  unfold SFS.sample at h
  obtain ⟨⟨p0, p1, p2, p3⟩, _, h⟩ := bind_ok h
  dsimp only at h
  by_cases c0 : ω k < p0
  · rw [if_pos c0] at h; exact ⟨0, h⟩
  · rw [if_neg c0] at h
    by_cases c1 : ω k < p0 + p1
    · rw [if_pos c1] at h; exact ⟨1, h⟩
    · rw [if_neg c1] at h
      by_cases c2 : ω k < p0 + p1 + p2
      · rw [if_pos c2] at h; exact ⟨2, h⟩
      · rw [if_neg c2] at h; exact ⟨3, h⟩

theorem sfs_noUB {s : SFS} {E : ℝ} {ω : Tape} {k : Nat} (hp : NoUB (s.probs E)) (hd : ∀ j, NoUB ((distOf s j).sample E ω (k + 1))) :
    NoUB (s.sample E ω k) := by
  unfold SFS.sample
  refine NoUB.bind hp fun p _ => ?_
  obtain ⟨p0, p1, p2, p3⟩ := p
  exact NoUB.ite (fun _ => hd 0) fun _ => NoUB.ite (fun _ => hd 1) fun _ => NoUB.ite (fun _ => hd 2) fun _ => hd 3

theorem branch_nonneg {p v : ℝ} {f : Res (Option ℝ)} (hp : 0 < p) (hf : ∀ w, f = .ok (some w) → 0 ≤ w) (h : SFS.branch p f = .ok (some v)) : 0 ≤ v := by
  unfold SFS.branch at h
  obtain ⟨o, ho, h⟩ := bind_ok h
  cases o with
  | none => cases h
  | some w =>
    have h := Option.some.inj (Except.ok.inj h)
    rw [← h]
    have := mul_nonneg hp.le (hf w ho)
    linarith

theorem sfs_density_nonneg {s : SFS} {E v : ℝ} {f : AE → Res (Option ℝ)} (hf : ∀ j w, f (distOf s j) = .ok (some w) → 0 ≤ w)
    (h : s.density E f = .ok (some v)) : 0 ≤ v := by
  unfold SFS.density at h
  obtain ⟨⟨p0, p1, p2, p3⟩, _, h⟩ := bind_ok h
  dsimp only at h
  by_cases c0 : p0 > 0
  · rw [if_pos c0] at h; exact branch_nonneg c0 (hf 0) h
  · rw [if_neg c0] at h
    by_cases c1 : p1 > 0
    · rw [if_pos c1] at h; exact branch_nonneg c1 (hf 1) h
    · rw [if_neg c1] at h
      by_cases c2 : p2 > 0
      · rw [if_pos c2] at h; exact branch_nonneg c2 (hf 2) h
      · rw [if_neg c2] at h
        by_cases c3 : p3 > 0
        · rw [if_pos c3] at h; exact branch_nonneg c3 (hf 3) h
        · rw [if_neg c3] at h
          rw [← Option.some.inj (Except.ok.inj h)]

/-- The distributions the prompt spectrum of a nuclide draws on. -/
def Spec.FissionDist (n : Nuc) (d : NDist) : Prop := ∃ mt r, FissionMT mt ∧ n.reaction mt = .ok r ∧ r.base.dist = d

/-- A sample of the prompt spectrum is a sample of the distribution of one of the fission reactions. -/
theorem prompt_sample_mem {fuel : Nat} {f : AceFile} {a : AceIn ℝ} {n : Nuc} (h : Read fuel f a n) (hf : f.fissile = true) {E : ℝ} {fuel' : Nat} {ω : Tape}
    {k : Nat} {v : ℝ × ℝ × Nat} (hv : (n.promptSpectrum fuel').sample E ω k = .ok v) :
    ∃ d k', FissionDist n d ∧ (d.toAE fuel').sample E ω k' = .ok v := by
  rcases C148_source fuel f a n h hf fuel' with ⟨r, h1, h2⟩ | ⟨_, r, h1, h2⟩ | ⟨_, _, h1⟩
  · rw [h2] at hv
    exact ⟨_, k, ⟨18, r, by simp [FissionMT], h1, rfl⟩, hv⟩
  · rw [h2] at hv
    obtain ⟨j, hj⟩ := sfs_sample_mem hv
    rw [distOf_summed] at hj
    exact ⟨_, _, ⟨_, _, partialMT_fission j, h1 j, rfl⟩, hj⟩
  · rw [h1] at hv; cases hv

/-- **C148** (partial) Sampling the prompt spectrum at any energy accesses nothing outside its tables, if sampling the distributions of the fission
reactions does not (`Spec.SafeDist`, C136, which is what is missing).  Where no partial reaction is open the code divides zero by zero, see `C148_closed`. -/
theorem C148_safe_partial (fuel : Nat) (f : AceFile) (a : AceIn ℝ) (n : Nuc) (h : Read fuel f a n) (hf : f.fissile = true) (h32 : a.grid.length < 2 ^ 32)
    (ω : Tape) (hω : UnitTape ω) (hd : ∀ d, FissionDist n d → SafeDist ω d) (E : ℝ) (fuel' k : Nat) :
    (n.promptSpectrum fuel').sample E ω k ≠ .error .ub := by
  rcases C148_source fuel f a n h hf fuel' with ⟨r, h1, h2⟩ | ⟨_, r, h1, h2⟩ | ⟨_, _, h1⟩
  · rw [h2]
    obtain ⟨f', i, hb⟩ := h.base h1
    exact noUB_dist fuel' E hω r.base.dist (RxnBase.makeAce_wf hb) (hd _ ⟨18, r, by simp [FissionMT], h1, rfl⟩) k
  · rw [h2]
    refine sfs_noUB ?_ fun j => ?_
    · obtain ⟨i, hi, _⟩ := read_lower h h32 E
      have hp := fun j => part_noUB h (h1 j) (partialMT_fission j) E i fuel'
      unfold SFS.probs
      refine NoUB.bind (by rw [show (STRxn.summed n.grid fuel' (r 0) (r 1) (r 2) (r 3)).grid = n.grid from rfl, hi]; exact .ok _) fun i' hi' => ?_
      rw [show (STRxn.summed n.grid fuel' (r 0) (r 1) (r 2) (r 3)).grid = n.grid from rfl, hi] at hi'
      cases hi'
      refine NoUB.bind (hp 0) fun _ _ => NoUB.bind (hp 1) fun _ _ => NoUB.bind (hp 2) fun _ _ => NoUB.bind (hp 3) fun _ _ => ?_
      exact NoUB.bind (rdiv_noUB _ _) fun _ _ => NoUB.bind (rdiv_noUB _ _) fun _ _ => NoUB.bind (rdiv_noUB _ _) fun _ _ =>
        NoUB.bind (rdiv_noUB _ _) fun _ _ => .pure _
    · rw [distOf_summed]
      obtain ⟨f', i, hb⟩ := h.base (h1 j)
      exact noUB_dist fuel' E hω _ (RxnBase.makeAce_wf hb) (hd _ ⟨_, _, partialMT_fission j, h1 j, rfl⟩) _
  · rw [h1]; intro hc; cases hc

/-- **C148** Every cosine sampled from the prompt spectrum, at every positive energy, is in `[-1, 1]`. -/
theorem C148_cosine (fuel : Nat) (f : AceFile) (a : AceIn ℝ) (n : Nuc) (h : Read fuel f a n) (hf : f.fissile = true) (E : ℝ) (hE : 0 < E) (ω : Tape)
    (hω : UnitTape ω) (fuel' k : Nat) (mu e : ℝ) (k' : Nat) (hs : (n.promptSpectrum fuel').sample E ω k = .ok (mu, e, k')) : -1 ≤ mu ∧ mu ≤ 1 := by
  obtain ⟨d, k1, ⟨mt, r, _, hr, rfl⟩, hd⟩ := prompt_sample_mem h hf hs
  obtain ⟨f', i, hp, hb⟩ := h.base_pos hr
  exact dist_cosine hE hω _ (makeAce_ratio hb hp) hd

/-- **C148** (partial) Every energy sampled from the prompt spectrum is not negative, provided that no fission reaction given in the lab frame holds negative
energies (`Spec.NonnegDist`, C142, which is what is missing). -/
theorem C148_energy_partial (fuel : Nat) (f : AceFile) (a : AceIn ℝ) (n : Nuc) (h : Read fuel f a n) (hf : f.fissile = true) (E : ℝ) (hE : 0 < E)
    (hd : ∀ d, FissionDist n d → NonnegDist E d) (ω : Tape) (hω : UnitTape ω) (fuel' k : Nat) (mu e : ℝ) (k' : Nat)
    (hs : (n.promptSpectrum fuel').sample E ω k = .ok (mu, e, k')) : 0 ≤ e := by
  obtain ⟨d, k1, hm, hsd⟩ := prompt_sample_mem h hf hs
  have hn := hd d hm
  obtain ⟨mt, r, _, hr, rfl⟩ := hm
  obtain ⟨f', i, hp, hb⟩ := h.base_pos hr
  exact dist_nonneg hE hω _ (RxnBase.makeAce_wf hb) (makeAce_ratio hb hp) hn hsd

/-- **C148** (partial) No density the prompt spectrum reports is negative, provided that the fission reactions meet the condition of C147 (`Spec.PosDist`,
which is what is missing). -/
theorem C148_density_partial (fuel : Nat) (f : AceFile) (a : AceIn ℝ) (n : Nuc) (h : Read fuel f a n) (hf : f.fissile = true) (E : ℝ)
    (hd : ∀ d, FissionDist n d → PosDist E d) (fuel' : Nat) :
    (∀ mu x v, (n.promptSpectrum fuel').pdf E mu x = .ok (some v) → 0 ≤ v) ∧
    ((∀ d, FissionDist n d → ForwardDist E d) → ∀ mu v, (n.promptSpectrum fuel').anglePdf E mu = .ok (some v) → 0 ≤ v) := by
  have key : ∀ mt r, FissionMT mt → n.reaction mt = .ok r → (∀ mu x v, (r.base.dist.toAE fuel').pdf E mu x = .ok (some v) → 0 ≤ v) ∧
      (ForwardDist E r.base.dist → ∀ mu v, (r.base.dist.toAE fuel').anglePdf E mu = .ok (some v) → 0 ≤ v) := fun mt r hm hr =>
    C147_nuclide_partial fuel f a n h mt r hr E (hd _ ⟨mt, r, hm, hr, rfl⟩) fuel'
  rcases C148_source fuel f a n h hf fuel' with ⟨r, h1, h2⟩ | ⟨_, r, h1, h2⟩ | ⟨g1, g2, _⟩
  · rw [h2]
    obtain ⟨k1, k2⟩ := key 18 r (by simp [FissionMT]) h1
    exact ⟨k1, fun hw => k2 (hw _ ⟨18, r, by simp [FissionMT], h1, rfl⟩)⟩
  · rw [h2]
    refine ⟨fun mu x v hv => sfs_density_nonneg (f := fun d => d.pdf E mu x) (fun j w hw => ?_) hv,
      fun hw mu v hv => sfs_density_nonneg (f := fun d => d.anglePdf E mu) (fun j w hj => ?_) hv⟩
    · rw [distOf_summed] at hw
      exact (key _ _ (partialMT_fission j) (h1 j)).1 mu x w hw
    · rw [distOf_summed] at hj
      exact (key _ _ (partialMT_fission j) (h1 j)).2 (hw _ ⟨_, _, partialMT_fission j, h1 j, rfl⟩) mu w hj
  · obtain ⟨s, hp, he⟩ := read_prompt h hf
    rcases (prompt_of hp he).2 g1 with ⟨r, hr, _⟩ | ⟨_, hs⟩
    · exfalso
      have := hr 0
      unfold Nuc.reaction at this
      rw [g2 0] at this
      cases this
    · unfold Nuc.promptSpectrum
      rw [hs]
      refine ⟨fun _ _ _ hv => ?_, fun _ _ _ hv => ?_⟩
      · cases hv
      · cases hv

/-! ### What is wrong with it -/

/-- The full claim is false of the code: up to the lowest threshold of the partial reactions (which may be an energy of the grid, with a positive fission
cross section) the spectrum divides zero by zero. -/
theorem C148_closed (fuel : Nat) (f : AceFile) (a : AceIn ℝ) (n : Nuc) (h : Read fuel f a n) (hf : f.fissile = true) (hs : a.grid.Pairwise (· < ·))
    (h32 : a.grid.length < 2 ^ 32) (h18 : n.has 18 = .ok false) (r : Fin 4 → STRxn) (hr : Partials n r) (E : ℝ) (hE : ∀ j, E ≤ (r j).threshold)
    (fuel' : Nat) (ω : Tape) (k : Nat) : (n.promptSpectrum fuel').sample E ω k = .error .nonfinite := by
  rw [prompt_summed h hf h18 hr]
  exact (C61_closed _ E ω k ((parts_given h hs h32 hr (x := fun _ => 0) fun j => Or.inr ⟨hE j, rfl⟩).2 fuel')).2

/-- The full claim is false of the code: with the first and another partial reaction open, what the spectrum samples does not have the density it reports. -/
theorem C148_violation (fuel : Nat) (f : AceFile) (a : AceIn ℝ) (n : Nuc) (h : Read fuel f a n) (hf : f.fissile = true) (hs : a.grid.Pairwise (· < ·))
    (h32 : a.grid.length < 2 ^ 32) (h18 : n.has 18 = .ok false) (r : Fin 4 → STRxn) (hr : Partials n r) (E : ℝ) (x : Fin 4 → ℝ)
    (hx : ∀ j, Competes (r j) E (x j)) (h0 : 0 < x 0) (j : Fin 4) (hj0 : j ≠ 0) (hj : 0 < x j) (lo hi : ℝ) (hd : ∀ j, SoundMix (r j).base.dist E lo hi)
    (k : Nat) : ¬ SamplesJoint (fun fuel' ω => (n.promptSpectrum fuel').sample E ω k) lo hi ((n.promptSpectrum 0).pdf E) := by
  obtain ⟨hn, hp⟩ := parts_given h hs h32 hr hx
  have hF : ∀ j, FaithfulAE (fun fuel' => distOf (STRxn.summed n.grid fuel' (r 0) (r 1) (r 2) (r 3)) j) E lo hi := by
    intro j
    simp only [distOf_summed]
    exact mix_faithful (hd j)
  simp only [prompt_summed h hf h18 hr]
  exact C112_violation_fission (fun fuel' => STRxn.summed n.grid fuel' (r 0) (r 1) (r 2) (r 3)) E lo hi x hp hn h0 j hj0 hj hF k

/-! ### A file with four partial fission reactions -/

namespace Example

/-- Three energies and the four partial fission reactions, starting at the first, first, second and third energy, all with the evaporation spectrum of
`evapFile`, given in the lab frame. -/
noncomputable def fissionFile : AceFile where
  xss := [19, 20, 21, 38, 180, 180, 180, 180, 19, 19, 19, 19, 0, 0, 0, 0, 0, 1, 1, 1, 1, 0, 9, 10, 0, 2, 1, 9, 1, 1, 0, 2, 1, 9, 2, 2, 1,
    2, 4, 8, 5, 5, 6, 0, 0, 0, 2, 2, 2, 0, 0, 0, 1, 6, 11, 15, 1, 3, 1, 1, 1, 1, 3, 1, 1, 1, 2, 2, 1, 1, 3, 1, 1, 1, 1, 5 / 2]
  awr := 3
  mtr := 0
  lqr := 4
  tyr := 8
  land := 12
  andB := 76
  ldlw := 17
  dlw := 21
  fissile := true
  temperature := 293
  esz := 37
  ne := 3
  nmt := 4
  lsig := 52
  sig := 56
  gpd := none
  lunr := none
  nu := 74
  dnu := 0
  bdd := 0
  dnedl := 0
  dned := 0
  ngrps := 0

noncomputable def fissionContents : AceIn ℝ where
  fissile := true
  grid := [2, 4, 8]
  total := [5, 5, 6]
  disap := [0, 0, 0]
  elastic := [2, 2, 2]
  heating := [0, 0, 0]
  rxns := [⟨19, 0, [1, 1, 1], 0⟩, ⟨20, 0, [1, 1, 1], 0⟩, ⟨21, 1, [1, 1], 0⟩, ⟨38, 2, [1], 0⟩]

theorem fission_holds : FileHolds fissionFile fissionContents where
  fissile := rfl
  grid := rfl
  total := rfl
  disap := rfl
  elastic := rfl
  heating := rfl
  main := ⟨fissionFile.xss.take 37, fissionFile.xss.drop 52, by simp [fissionFile, fissionContents], rfl⟩
  count := rfl
  entry := by
    intro k e he
    match k with
    | 0 =>
      simp only [fissionContents, List.getElem?_cons_zero, Option.some.injEq] at he
      subst he
      exact ⟨rfl, ⟨fissionFile.xss.take 0, fissionFile.xss.drop 1, by simp [fissionFile], by simp [fissionFile]⟩, 1, by norm_num,
        ⟨fissionFile.xss.take 52, fissionFile.xss.drop 53, by simp [fissionFile], by simp [fissionFile]⟩, ⟨fissionFile.xss.take 56, fissionFile.xss.drop 61, by simp [fissionFile], by simp [fissionFile]⟩⟩
    | 1 =>
      simp only [fissionContents, List.getElem?_cons_succ, List.getElem?_cons_zero, Option.some.injEq] at he
      subst he
      exact ⟨rfl, ⟨fissionFile.xss.take 1, fissionFile.xss.drop 2, by simp [fissionFile], by simp [fissionFile]⟩, 6, by norm_num,
        ⟨fissionFile.xss.take 53, fissionFile.xss.drop 54, by simp [fissionFile], by simp [fissionFile]⟩, ⟨fissionFile.xss.take 61, fissionFile.xss.drop 66, by simp [fissionFile], by simp [fissionFile]⟩⟩
    | 2 =>
      simp only [fissionContents, List.getElem?_cons_succ, List.getElem?_cons_zero, Option.some.injEq] at he
      subst he
      exact ⟨rfl, ⟨fissionFile.xss.take 2, fissionFile.xss.drop 3, by simp [fissionFile], by simp [fissionFile]⟩, 11, by norm_num,
        ⟨fissionFile.xss.take 54, fissionFile.xss.drop 55, by simp [fissionFile], by simp [fissionFile]⟩, ⟨fissionFile.xss.take 66, fissionFile.xss.drop 70, by norm_num [fissionFile], by simp [fissionFile]⟩⟩
    | 3 =>
      simp only [fissionContents, List.getElem?_cons_succ, List.getElem?_cons_zero, Option.some.injEq] at he
      subst he
      exact ⟨rfl, ⟨fissionFile.xss.take 3, fissionFile.xss.drop 4, by simp [fissionFile], by simp [fissionFile]⟩, 15, by norm_num,
        ⟨fissionFile.xss.take 55, fissionFile.xss.drop 56, by simp [fissionFile], by simp [fissionFile]⟩, ⟨fissionFile.xss.take 70, fissionFile.xss.drop 73, by norm_num [fissionFile], by simp [fissionFile]⟩⟩
    | k + 4 => simp [fissionContents] at he

theorem fissionContents_acceptable : Acceptable fissionContents where
  total := ⟨rfl, by simp [fissionContents]⟩
  disap := ⟨rfl, by simp [fissionContents]⟩
  elastic := ⟨rfl, by simp [fissionContents]⟩
  heating := rfl
  entry := by
    intro e he _
    simp only [fissionContents, List.mem_cons, List.not_mem_nil, or_false] at he
    rcases he with rfl | rfl | rfl | rfl <;> exact ⟨by norm_num, by simp [fissionContents], rfl, by simp⟩
  fission := by
    intro _
    exact Or.inr ⟨⟨⟨19, 0, [1, 1, 1], 0⟩, by simp [fissionContents], rfl⟩, ⟨⟨20, 0, [1, 1, 1], 0⟩, by simp [fissionContents], rfl⟩,
      ⟨⟨21, 1, [1, 1], 0⟩, by simp [fissionContents], rfl⟩, ⟨⟨38, 2, [1], 0⟩, by simp [fissionContents], rfl⟩⟩

/-- The distribution all four reactions have. -/
noncomputable def fissionDist : NDist := .one (.uncorrelated ⟨⟨[1 / 10 ^ 5], [.isotropic]⟩, .evap twoTab 1⟩)

theorem fission_reaction (j : Fin 4) : ∃ y, ∀ fuel, RxnBase.makeAce fissionFile.toAceBlocks j (fuel + 1) = .ok ⟨partialMT j, 180, 3, y, fissionDist⟩ := by
  obtain ⟨t, ht⟩ := probOne_make
  have hone : ∀ (i : Nat) (v : ℝ), fissionFile.xss[i]? = some v → Holds fissionFile.xss i [v] := by
    intro i v hv
    have hlt := lt_length_of_some hv
    refine ⟨fissionFile.xss.take i, fissionFile.xss.drop (i + 1), ?_, by simp; omega⟩
    rw [List.getElem?_eq_getElem hlt] at hv
    rw [← Option.some.inj hv]
    simp
  have hat : ReactionAt fissionFile.toAceBlocks j (partialMT j) 180 19 (some ⟨[1 / 10 ^ 5], [.isotropic]⟩) [(9, 10, ⟨[], [1, 9], [1, 1]⟩)] := by
    refine ⟨hone _ _ ?_, hone _ _ ?_, hone _ _ ?_, Or.inr ⟨0, _, rfl, hone _ _ ?_, rfl⟩, 1, le_refl _, hone _ _ ?_, ?_⟩
    · fin_cases j <;> simp [fissionFile, partialMT]
    · fin_cases j <;> simp [fissionFile]
    · fin_cases j <;> simp [fissionFile]
    · fin_cases j <;> simp [fissionFile]
    · fin_cases j <;> simp [fissionFile]
    · exact ⟨le_refl _, by norm_num, rfl, ⟨fissionFile.xss.take 21, fissionFile.xss.drop 30, by norm_num [fissionFile, TabRecord.encode], by simp [fissionFile]⟩⟩
  have htemp : tempAce fissionFile.xss (fissionFile.dlw + (10 - 1)) = .ok (twoTab, 1) := by
    have h := (C76_read_next fissionFile.xss 30 ⟨[], [1, 9], [2, 2]⟩ ⟨fissionFile.xss.take 30, fissionFile.xss.drop 36, by norm_num [fissionFile, TabRecord.encode], by simp [fissionFile]⟩ rfl).1
    unfold tempAce
    rw [show fissionFile.dlw + (10 - 1) = 30 from rfl, h]
    simp only [bind, Except.bind]
    rw [show getAt fissionFile.xss (30 + (TabRecord.mk [] [1, 9] [2, 2]).encode.length) = .ok 1 from rfl]
    simp only []
    rw [twoTab_make]
    rfl
  refine ⟨.const |(19 : ℝ)|, fun fuel => ?_⟩
  have hm := C97_reaction fissionFile.toAceBlocks j (partialMT j) 180 19 _ _ hat (by norm_num) (.const |(19 : ℝ)|)
    (by unfold readYield; rw [if_pos (by norm_num)]) [(.uncorrelated ⟨⟨[1 / 10 ^ 5], [.isotropic]⟩, .evap twoTab 1⟩, t)]
    (.cons ⟨.evap _ _ _ rfl htemp, ht⟩ .nil) (fuel + 1) (by simp)
  rw [if_neg (by norm_num)] at hm
  exact hm

theorem fission_accepted : ∃ n, Nuc.makeAce fissionFile 1 = .ok n := by
  refine (C102_accept fissionFile 1 fissionContents fission_holds (by simp [fissionContents])).mpr ⟨fissionContents_acceptable, by simp [fissionContents]; norm_num,
    ⟨2, rfl, two_pos⟩, (by intro i hi; cases hi), ?_, ?_, by norm_num [fissionFile], by norm_num [fissionFile], ?_, fun _ => ⟨[], rfl⟩, (by intro l hl; cases hl), ?_⟩
  · intro k e he _
    have hk : k < 4 := lt_length_of_some he
    obtain ⟨y, hy⟩ := fission_reaction ⟨k, hk⟩
    exact ⟨_, hy 0⟩
  · refine ⟨0, ⟨[1 / 10 ^ 5], [.isotropic]⟩, ?_, rfl⟩
    exact Holds.int (n := 0) ⟨fissionFile.xss.take 12, fissionFile.xss.drop 13, by simp [fissionFile], by simp [fissionFile]⟩
  · have hn : readNu fissionFile.xss 73 = .ok (.poly [5 / 2]) := by
      norm_num [readNu, fissionFile, natAt, getAt, xssSlice, bind, Except.bind, pure, Except.pure]
    have hg : getAt fissionFile.xss 73 = .ok 1 := rfl
    refine ⟨⟨.poly [5 / 2], .poly [5 / 2], .const 0⟩, ?_⟩
    unfold Nu.make readTotalPrompt readDelayed
    rw [if_neg (by simp [fissionFile]), show fissionFile.nu = 74 from rfl, show fissionFile.dnu = 0 from rfl, if_pos (by norm_num), if_neg (by norm_num)]
    simp only [show ((74 : ℤ) - 1).toNat = 73 from rfl, hg, hn, bind, Except.bind, zero_lt_one, if_true, lt_irrefl, if_false, pure, Except.pure]
    rfl
  · exact ⟨⟨⟨[], [], 0, true⟩, ⟨[], [], 0, true⟩, ⟨[], [], 0, true⟩, ⟨[], [], 0, true⟩⟩, [], _, by decide, rfl⟩

/-- The hypotheses of C148 are met by this file: at incident energy 5 three of the reactions are open, with equal cross sections. -/
theorem fission_hypotheses : ∃ n r, Read 1 fissionFile fissionContents n ∧ fissionFile.fissile = true ∧ fissionContents.grid.Pairwise (· < ·) ∧
    n.has 18 = .ok false ∧ Partials n r ∧ (∀ j, (r j).threshold = ![2, 2, 4, 8] j) ∧
    (∀ j, (r j).xs = ⟨[2, 4, 8], ![[1, 1, 1], [1, 1, 1], [1, 1], [1]] j, ![0, 0, 1, 2] j, false⟩) ∧ n.fissile = true ∧ (∀ j, Competes (r j) 5 (![1, 1, 1, 0] j)) ∧
    (∀ j, SoundMix (r j).base.dist 5 0 4) ∧ ∀ d, FissionDist n d → (∀ ω, SafeDist ω d) ∧ NonnegDist 5 d ∧ PosDist 5 d ∧ ForwardDist 5 d := by
  obtain ⟨n, hn⟩ := fission_accepted
  have hp : ∀ mt, FissionMT mt → mt ≠ 18 → Provides fissionContents mt := by
    intro mt hm h18
    refine ⟨?_, fun _ => rfl⟩
    rcases hm with h | h | h | h | h
    · exact absurd h h18
    · exact ⟨⟨19, 0, [1, 1, 1], 0⟩, by simp [fissionContents], h.symm⟩
    · exact ⟨⟨20, 0, [1, 1, 1], 0⟩, by simp [fissionContents], h.symm⟩
    · exact ⟨⟨21, 1, [1, 1], 0⟩, by simp [fissionContents], h.symm⟩
    · exact ⟨⟨38, 2, [1], 0⟩, by simp [fissionContents], h.symm⟩
  have look : ∀ j, ∃ r, n.reaction (partialMT j) = .ok r ∧ r.base.dist = fissionDist ∧ r.threshold = ![2, 2, 4, 8] j ∧
      r.xs = ⟨[2, 4, 8], ![[1, 1, 1], [1, 1, 1], [1, 1], [1]] j, ![0, 0, 1, 2] j, false⟩ := by
    intro j
    rcases C99_reactions fissionFile 1 n hn fissionContents fission_holds (partialMT j) with ⟨hh, _, r, k, e, h1, h2, h3, _, hb, h5, h6⟩ | ⟨_, h, _⟩
    · have hk : k < 4 := lt_length_of_some h2
      have hkj : k = j := by
        interval_cases k <;> simp [fissionContents] at h2 <;> subst h2 <;> fin_cases j <;> first | rfl | (simp [partialMT] at h3)
      obtain ⟨y, hy⟩ := fission_reaction j
      rw [hkj] at hb
      have hb' := Except.ok.inj ((hy 0).symm.trans hb)
      refine ⟨r, h1, by rw [← hb'], ?_, ?_⟩
      · subst hkj
        fin_cases j <;> simp [fissionContents] at h2 <;> subst h2 <;> simpa [fissionContents] using h6.symm
      · subst hkj
        fin_cases j <;> simp [fissionContents] at h2 <;> subst h2 <;> rw [h5] <;> simp [fissionContents]
    · refine absurd (hp _ (partialMT_fission j) ?_) h
      fin_cases j <;> simp [partialMT]
  choose r h1 h2 h3 h4 using look
  have h18 : n.has 18 = .ok false := by
    rcases C99_reactions fissionFile 1 n hn fissionContents fission_holds 18 with ⟨_, ⟨⟨e, he, h⟩, _⟩, _⟩ | ⟨h, _, _⟩
    · simp only [fissionContents, List.mem_cons, List.not_mem_nil, or_false] at he
      rcases he with rfl | rfl | rfl | rfl <;> cases h
    · exact h
  have hsound : SoundMix fissionDist 5 0 4 := by
    refine ⟨⟨rfl, by simp, by simp⟩, ?_, 2, ?_, by norm_num, by norm_num, le_rfl, by norm_num⟩
    · intro law hl
      simp only [List.mem_cons, List.not_mem_nil, or_false] at hl
      subst hl
      trivial
    · norm_num [twoTab, Tab1D.eval, Region.eval, seekRegion, front, back, getAt, bind, Except.bind, pure, Except.pure, lowerBound, lowerBoundRange, bisect, subIdx,
        Interpolation.interpolate, rdiv]
  refine ⟨n, r, .direct fission_holds hn, rfl, by simp [fissionContents]; norm_num, h18, h1, h3, h4, ?_, ?_, fun j => by rw [h2]; exact hsound, ?_⟩
  · obtain ⟨_, _, _, _, _, _, _, _, _, _, _, _, _, _, _, _, _, _, _, _, _, hfs, _⟩ := makeAce_parts hn
    exact hfs
  · intro j
    by_cases hj : (![2, 2, 4, 8] j : ℝ) < 5
    · left
      rw [h3]
      refine ⟨hj, ?_⟩
      rw [h4]
      fin_cases j
      · norm_num [XS.eval, front, back, getAt, bind, Except.bind, pure, Except.pure, lowerBound, lowerBoundRange, bisect, subIdx, xsLin, cdiv]
      · norm_num [XS.eval, front, back, getAt, bind, Except.bind, pure, Except.pure, lowerBound, lowerBoundRange, bisect, subIdx, xsLin, cdiv]
      · norm_num [XS.eval, front, back, getAt, bind, Except.bind, pure, Except.pure, lowerBound, lowerBoundRange, bisect, subIdx, xsLin, cdiv]
      · norm_num at hj
    · right
      rw [h3]
      refine ⟨not_lt.mp hj, ?_⟩
      fin_cases j <;> simp at hj ⊢ <;> norm_num at hj
  · rintro d ⟨mt, r', hm, hr', rfl⟩
    have : r'.base.dist = fissionDist := by
      have : ∃ j, mt = partialMT j := by
        rcases hm with h | h | h | h | h
        · subst h
          unfold Nuc.reaction at hr'
          rw [h18] at hr'
          cases hr'
        · exact ⟨0, h⟩
        · exact ⟨1, h⟩
        · exact ⟨2, h⟩
        · exact ⟨3, h⟩
      obtain ⟨j, rfl⟩ := this
      rw [h1 j] at hr'
      cases hr'
      exact h2 j
    rw [this]
    refine ⟨fun ω => ?_, ?_, ?_, ?_⟩
    · refine ⟨⟨by simp, fun t ht => by simp at ht⟩, ?_⟩
      show ValidBreakpoints [2] 2
      exact ⟨by simp, by simp, rfl⟩
    · trivial
    · trivial
    · trivial

end Example

open Example in
/-- The full claim is false of the code: a file is accepted whose fission cross section at the first energy of its grid is 2, and there the prompt spectrum
divides zero by zero; at energy 5, where three partial reactions are open, the spectrum does not sample the density it reports. -/
theorem C148_violation_file : ∃ (f : AceFile) (a : AceIn ℝ) (n : Nuc), Read 1 f a n ∧ a.grid[0]? = some 2 ∧ n.fissionXS.at 0 = .ok 2 ∧
    (∀ fuel ω k, (n.promptSpectrum fuel).sample 2 ω k = .error .nonfinite) ∧
    ∀ k, ¬ SamplesJoint (fun fuel ω => (n.promptSpectrum fuel).sample 5 ω k) 0 4 ((n.promptSpectrum 0).pdf 5) := by
  obtain ⟨n, r, hn, hf, hg, h18, hr, ht, hx, hfs, hc, hd, _⟩ := fission_hypotheses
  have h32 : fissionContents.grid.length < 2 ^ 32 := by simp [fissionContents]
  refine ⟨fissionFile, fissionContents, n, hn, rfl, ?_, fun fuel ω k => ?_, fun k => ?_⟩
  · obtain ⟨x19, x20, x21, x38, c1, c2, c3, c4, hs⟩ := C60_sum fissionContents n.toSTN hn.built hfs (by rw [has_toSTN]; exact h18) h32 0 (by simp [fissionContents])
    have key : ∀ j x, Contribution n.toSTN (partialMT j) 0 x → (r j).xs.at 0 = .ok x := by
      intro j x hx
      rcases hx with ⟨_, r', h1, h2⟩ | ⟨h1, _⟩
      · rw [reaction_toSTN, hr j] at h1
        cases h1
        exact h2
      · rw [has_toSTN] at h1
        have := hr j
        unfold Nuc.reaction at this
        rw [h1] at this
        cases this
    have k0 := key 0 x19 c1
    have k1 := key 1 x20 c2
    have k2 := key 2 x21 c3
    have k3 := key 3 x38 c4
    rw [hx] at k0 k1 k2 k3
    simp [XS.at, getAt] at k0 k1 k2 k3
    have : n.toSTN.fissionXS.at 0 = .ok 2 := by
      rw [hs]
      subst_vars
      norm_num
    exact this
  · refine C148_closed 1 _ _ n hn hf hg h32 h18 r hr 2 (fun j => ?_) fuel ω k
    rw [ht]
    fin_cases j <;> norm_num
  · exact C148_violation 1 _ _ n hn hf hg h32 h18 r hr 5 _ hc (by norm_num) 1 (by decide) (by norm_num) 0 4 hd k

end PNDL
