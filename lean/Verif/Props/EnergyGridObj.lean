import Verif.Model.EnergyGridObj
import Verif.Props.EnergyGrid
import Verif.Props.NucAccept
import Verif.Props.UrrAce
import Verif.Props.LibraryNuc

/-! C154: re-hashing an energy grid, and the unresolved region it announces. -/
namespace PNDL
open Spec

/-- A number of bins that can be asked for. -/
def Spec.BinCount (n : Nat) : Prop := 1 ≤ n ∧ n < 2 ^ 32 - 1

/-- The object comes from one of the two constructors. -/
def Spec.Constructed (o : EGridObj) : Prop :=
  (∃ es n, BinCount n ∧ EGridObj.ofVector es n = .ok o) ∨ ∃ f n, BinCount n ∧ EGridObj.ofFile f n = .ok o

/-- What a constructor leaves behind: energies in order, the first one positive, hashed into some number of bins. -/
private def Hashed (g : EGrid) : Prop :=
  g.energy.Pairwise (· ≤ ·) ∧ (∃ e0, g.energy[0]? = some e0 ∧ 0 < e0) ∧ ∃ n, BinCount n ∧ hashGrid g.energy n = .ok g

private theorem hashGrid_energy {es : List ℝ} {n : Nat} {g : EGrid} (h : hashGrid es n = .ok g) : g.energy = es := by
  unfold hashGrid at h
  obtain ⟨_, _, h⟩ := bind_ok h
  obtain ⟨_, _, h⟩ := bind_ok h
  obtain ⟨_, _, h⟩ := bind_ok h
  obtain ⟨_, _, h⟩ := bind_ok h
  obtain ⟨_, _, h⟩ := bind_ok h
  rw [← Except.ok.inj h]

private theorem hashGrid_pos {es : List ℝ} {n : Nat} {g : EGrid} (h : hashGrid es n = .ok g) : ∃ e0, es[0]? = some e0 ∧ 0 < e0 := by
  unfold hashGrid at h
  obtain ⟨e0, h0, h⟩ := bind_ok h
  obtain ⟨_, _, h⟩ := bind_ok h
  obtain ⟨u, hu, h⟩ := bind_ok h
  refine ⟨e0, front_eq_ok.mp h0, ?_⟩
  by_contra hc
  unfold clog at hu
  rw [if_neg hc] at hu
  cases hu

private theorem make_hashed {es : List ℝ} {n : Nat} (hn : BinCount n) {g : EGrid} (h : EGrid.make es n = .ok g) : Hashed g := by
  unfold EGrid.make at h
  by_cases hs : isSorted es = false
  · rw [if_pos hs] at h; cases h
  rw [if_neg hs] at h
  obtain ⟨e0, _, h⟩ := bind_ok h
  by_cases hc : e0 < 0
  · rw [if_pos hc] at h; cases h
  rw [if_neg hc] at h
  have he := hashGrid_energy h
  refine ⟨?_, ?_, n, hn, ?_⟩
  · rw [he]; exact isSorted_iff.mp (by simpa using hs)
  · rw [he]; exact hashGrid_pos h
  · rw [he]; exact h

private theorem makeAce_hashed {es : List ℝ} {n : Nat} (hn : BinCount n) {g : EGrid} (h : EGrid.makeAce es n = .ok g) : Hashed g := by
  unfold EGrid.makeAce at h
  by_cases hs : isSorted es = false
  · rw [if_pos hs] at h; cases h
  rw [if_neg hs] at h
  obtain ⟨e0, _, h⟩ := bind_ok h
  by_cases hc : e0 ≤ 0
  · rw [if_pos hc] at h; cases h
  rw [if_neg hc] at h
  have he := hashGrid_energy h
  refine ⟨?_, ?_, n, hn, ?_⟩
  · rw [he]; exact isSorted_iff.mp (by simpa using hs)
  · rw [he]; exact hashGrid_pos h
  · rw [he]; exact h

private theorem makeAce_energy {es : List ℝ} {n : Nat} {g : EGrid} (h : EGrid.makeAce es n = .ok g) : g.energy = es := by
  unfold EGrid.makeAce at h
  by_cases hs : isSorted es = false
  · rw [if_pos hs] at h; cases h
  rw [if_neg hs] at h
  obtain ⟨e0, _, h⟩ := bind_ok h
  by_cases hc : e0 ≤ 0
  · rw [if_pos hc] at h; cases h
  rw [if_neg hc] at h
  exact hashGrid_energy h

private theorem constructed_hashed {o : EGridObj} (h : Constructed o) : Hashed o.grid := by
  rcases h with ⟨es, n, hn, h⟩ | ⟨f, n, hn, h⟩
  · unfold EGridObj.ofVector at h
    obtain ⟨g, hg, h⟩ := bind_ok h
    rw [← Except.ok.inj h]
    exact make_hashed hn hg
  · unfold EGridObj.ofFile at h
    obtain ⟨es, _, h⟩ := bind_ok h
    obtain ⟨u, _, h⟩ := bind_ok h
    obtain ⟨g, hg, h⟩ := bind_ok h
    rw [← Except.ok.inj h]
    exact makeAce_hashed hn hg

private theorem hashed_lookup {g : EGrid} (h : Hashed g) (h32 : g.energy.length < 2 ^ 32) (E : ℝ) :
    ∃ i, g.lowerIndex E = .ok i ∧ IsLowerIndex g.energy E i := by
  obtain ⟨hs, ⟨e0, h0, hp⟩, n, hn, hg⟩ := h
  obtain ⟨g', h1, _, h3⟩ := C28_lower_index g.energy n e0 hs h0 hp h32 hn.1 hn.2
  have : EGrid.make g.energy n = .ok g := by
    unfold EGrid.make
    rw [if_neg (by simp [isSorted_iff.mpr hs]), front_eq_ok.mpr h0]
    simp only [bind, Except.bind]
    rw [if_neg (not_lt.mpr hp.le), hg]
  rw [this] at h1
  rw [Except.ok.inj h1]
  rw [← Except.ok.inj h1]
  exact Except.ok.inj h1 ▸ h3 E

private theorem rehash_hashed {g : EGrid} (h : Hashed g) {n : Nat} (hn : BinCount n) :
    ∃ g', hashGrid g.energy n = .ok g' ∧ g'.energy = g.energy ∧ Hashed g' := by
  obtain ⟨hs, ⟨e0, h0, hp⟩, _⟩ := h
  have hne : g.energy ≠ [] := by rintro hn; rw [hn] at h0; cases h0
  obtain ⟨e1, h1⟩ : ∃ e1, g.energy.getLast? = some e1 := ⟨_, List.getLast?_eq_some_getLast hne⟩
  have hl1 : g.energy[g.energy.length - 1]? = some e1 := by rw [← List.getLast?_eq_getElem?]; exact h1
  have hle : e0 ≤ e1 := pairwise_le_getElem? hs (Nat.zero_le _) h0 hl1
  refine ⟨_, hashGrid_ok h0 h1 hp (hp.trans_le hle) hn.1 hn.2, rfl, hs, ⟨e0, h0, hp⟩, n, hn, hashGrid_ok h0 h1 hp (hp.trans_le hle) hn.1 hn.2⟩

/-- **C154** Re-hashing: after any sequence of `hash_energy_grid` calls the grid has the energies it was made with, finds for every energy
the index a search of the whole grid finds — the one it found before — and announces the same unresolved region. -/
theorem C154_rehash (o : EGridObj) (ho : Constructed o) (h32 : o.grid.energy.length < 2 ^ 32) (bins : List Nat) (hb : ∀ n ∈ bins, BinCount n) :
    ∃ o', bins.foldlM (fun o n => o.rehash n) o = .ok o' ∧ o'.grid.energy = o.grid.energy ∧
      (∀ E, ∃ i, o.grid.lowerIndex E = .ok i ∧ o'.grid.lowerIndex E = .ok i ∧ IsLowerIndex o.grid.energy E i) ∧
      o'.urrMinEnergy = o.urrMinEnergy ∧ o'.hasUrr = o.hasUrr := by
  have hH := constructed_hashed ho
  have key : ∀ (bins : List Nat) (o : EGridObj), Hashed o.grid → (∀ n ∈ bins, BinCount n) →
      ∃ o', bins.foldlM (fun o n => o.rehash n) o = .ok o' ∧ o'.grid.energy = o.grid.energy ∧ Hashed o'.grid ∧ o'.urrStart = o.urrStart := by
    intro bins
    induction bins with
    | nil => intro o h _; exact ⟨o, rfl, rfl, h, rfl⟩
    | cons n bins ih =>
      intro o h hb
      obtain ⟨g', h1, h2, h3⟩ := rehash_hashed h (hb n (by simp))
      obtain ⟨o', k1, k2, k3, k4⟩ := ih ⟨g', o.urrStart⟩ h3 (fun m hm => hb m (by simp [hm]))
      refine ⟨o', ?_, k2.trans h2, k3, k4⟩
      rw [List.foldlM_cons]
      have : o.rehash n = .ok ⟨g', o.urrStart⟩ := by
        unfold EGridObj.rehash
        rw [h1]
        rfl
      rw [this]
      exact k1
  obtain ⟨o', h1, h2, h3, h4⟩ := key bins o hH hb
  refine ⟨o', h1, h2, fun E => ?_, ?_, ?_⟩
  · obtain ⟨i, a1, a2⟩ := hashed_lookup hH h32 E
    obtain ⟨j, b1, b2⟩ := hashed_lookup h3 (by rw [h2]; exact h32) E
    rw [h2] at b2
    obtain ⟨hs, ⟨e0, h0, _⟩, _⟩ := hH
    have : i = j := C28_unique o.grid.energy hs E i j (by rintro hn; rw [hn] at h0; cases h0) a2 b2
    subst this
    exact ⟨i, a1, b1, a2⟩
  · unfold EGridObj.urrMinEnergy; rw [h4]
  · unfold EGridObj.hasUrr EGridObj.urrMinEnergy; rw [h4, h2]

/-- The grid of a nuclide is the one read from its file. -/
theorem C154_nuclide (fuel : Nat) (f : AceFile) (n : Nuc) (hn : Made fuel f n) : EGridObj.ofFile f 8192 = .ok n.energyGrid ∧ Constructed n.energyGrid := by
  obtain ⟨m, cx, h, _⟩ := made_parts hn
  have : EGridObj.ofFile f 8192 = .ok n.energyGrid := by
    unfold EGrid.readAce at h
    unfold EGridObj.ofFile
    obtain ⟨es, h1, h⟩ := bind_ok h
    obtain ⟨u, h2, h⟩ := bind_ok h
    obtain ⟨g, h3, h⟩ := bind_ok h
    have he := Except.ok.inj h
    rw [h1]
    simp only [bind, Except.bind]
    cases hl : f.lunr with
    | none =>
      rw [hl] at h2
      simp only [h3, pure, Except.pure, Nuc.energyGrid, Except.ok.injEq, EGridObj.mk.injEq]
      exact ⟨congrArg Prod.fst he, congrArg some ((Except.ok.inj h2).trans (congrArg Prod.snd he))⟩
    | some l =>
      rw [hl] at h2
      simp only [h2, h3, pure, Except.pure, Nuc.energyGrid, Except.ok.injEq, EGridObj.mk.injEq]
      exact ⟨congrArg Prod.fst he, congrArg some (congrArg Prod.snd he)⟩
  exact ⟨this, Or.inr ⟨f, 8192, ⟨by norm_num, by norm_num⟩, this⟩⟩

/-- What `has_urr` answers for a nuclide. -/
private theorem hasUrr_nuc {fuel : Nat} {f : AceFile} {n : Nuc} (hn : Made fuel f n) :
    ∃ mx, n.grid.energy.getLast? = some mx ∧ ∀ b, n.energyGrid.hasUrr = .ok b ↔ (b = true ↔ n.urrMin < mx) := by
  obtain ⟨hs, ⟨e0, h0, _⟩, _⟩ := constructed_hashed (C154_nuclide fuel f n hn).2
  have hne : n.grid.energy ≠ [] := by
    rintro hc
    have : n.energyGrid.grid.energy = [] := hc
    rw [this] at h0; cases h0
  refine ⟨_, List.getLast?_eq_some_getLast hne, fun b => ?_⟩
  have hb : back n.energyGrid.grid.energy = .ok (n.grid.energy.getLast hne) := back_eq_ok.mpr (List.getLast?_eq_some_getLast hne)
  unfold EGridObj.hasUrr
  rw [hb]
  simp only [EGridObj.urrMinEnergy, Nuc.energyGrid, bind, Except.bind, pure, Except.pure, Except.ok.injEq]
  by_cases hc : n.urrMin < n.grid.energy.getLast hne <;> cases b <;> simp [hc]

/-- **C154** `has_urr` of the grid of a nuclide says whether its probability tables can be used, and `urr_min_energy` where they start, if
the file has no UNR block, or one of at least three energies that starts below the last energy of the grid, and no grid energy beyond
50000 MeV. -/
theorem C154_has_urr_partial (fuel : Nat) (f : AceFile) (n : Nuc) (hn : Made fuel f n) (mx : ℝ) (hmx : n.grid.energy.getLast? = some mx)
    (h : (f.lunr = none ∧ mx ≤ 50000) ∨ (f.lunr ≠ none ∧ 3 ≤ n.urr.energy.length ∧ ∃ e0, n.urr.energy.head? = some e0 ∧ e0 < mx)) :
    n.energyGrid.hasUrr = .ok n.urr.isValid ∧ ∀ e0, n.urr.energy.head? = some e0 → n.energyGrid.urrMinEnergy = .ok e0 := by
  obtain ⟨mx', h1, h2⟩ := hasUrr_nuc hn
  rw [hmx] at h1
  obtain rfl := Option.some.inj h1
  obtain ⟨_, u1, u2⟩ := C99_urr fuel f n hn
  rcases h with ⟨hl, hle⟩ | ⟨hl, h3, e0, he, hlt⟩
  · obtain ⟨v1, v2⟩ := u2 hl
    refine ⟨(h2 _).mpr ?_, fun e0 he => by rw [v2] at he; cases he⟩
    rw [v1, URR.isValid, v2]
    simpa using hle
  · obtain ⟨l, hl⟩ := Option.ne_none_iff_exists'.mp hl
    have hm := (u1 l hl).2 e0 he
    refine ⟨(h2 _).mpr ?_, fun e he' => ?_⟩
    · rw [hm, URR.isValid]
      simp [hlt]
      omega
    · rw [he] at he'
      obtain rfl := Option.some.inj he'
      show Except.ok n.urrMin = _
      rw [hm]

/-- **C154** A block of one or two energies is announced by `has_urr` although its tables are never used (C58). -/
theorem C154_short_block (fuel : Nat) (f : AceFile) (n : Nuc) (hn : Made fuel f n) (hl : f.lunr ≠ none) (mx e0 : ℝ)
    (hmx : n.grid.energy.getLast? = some mx) (he : n.urr.energy.head? = some e0) (hlt : e0 < mx) (hsz : n.urr.energy.length ≤ 2) :
    n.energyGrid.hasUrr = .ok true ∧ n.urr.isValid = false ∧ ∀ E i xi, n.urr.evaluate E i xi = .ok none := by
  obtain ⟨mx', h1, h2⟩ := hasUrr_nuc hn
  rw [hmx] at h1
  obtain rfl := Option.some.inj h1
  obtain ⟨_, u1, _⟩ := C99_urr fuel f n hn
  obtain ⟨l, hl⟩ := Option.ne_none_iff_exists'.mp hl
  have hm := (u1 l hl).2 e0 he
  have hv : n.urr.isValid = false := by unfold URR.isValid; simpa using hsz
  refine ⟨(h2 _).mpr (by rw [hm]; simpa using hlt), hv, fun E i xi => ?_⟩
  unfold URR.evaluate
  rw [if_pos hv]

/-- **C154** The converse: tables that start at or beyond the last grid energy can be used and are not announced. -/
theorem C154_late_block (fuel : Nat) (f : AceFile) (n : Nuc) (hn : Made fuel f n) (hl : f.lunr ≠ none) (mx e0 : ℝ)
    (hmx : n.grid.energy.getLast? = some mx) (he : n.urr.energy.head? = some e0) (hlt : mx ≤ e0) (hsz : 3 ≤ n.urr.energy.length) :
    n.energyGrid.hasUrr = .ok false ∧ n.urr.isValid = true := by
  obtain ⟨mx', h1, h2⟩ := hasUrr_nuc hn
  rw [hmx] at h1
  obtain rfl := Option.some.inj h1
  obtain ⟨_, u1, _⟩ := C99_urr fuel f n hn
  obtain ⟨l, hl⟩ := Option.ne_none_iff_exists'.mp hl
  have hm := (u1 l hl).2 e0 he
  refine ⟨(h2 _).mpr (by rw [hm]; simpa using hlt), by unfold URR.isValid; simp; omega⟩

/-- **C154** A grid made from a list of energies never gave `urr_min_energy` a value: asking for it, or for `has_urr`, is undefined
behaviour, also after any re-hashing. -/
theorem C154_violation_vector (es : List ℝ) (nbins : Nat) (o : EGridObj) (ho : EGridObj.ofVector es nbins = .ok o) (bins : List Nat)
    (o' : EGridObj) (ho' : bins.foldlM (fun o n => o.rehash n) o = .ok o') :
    o'.urrMinEnergy = .error .ub ∧ o'.hasUrr = .error .ub := by
  have h0 : o.urrStart = none := by
    unfold EGridObj.ofVector at ho
    obtain ⟨g, _, h⟩ := bind_ok ho
    rw [← Except.ok.inj h]
  have key : ∀ (bins : List Nat) (o : EGridObj), o.urrStart = none → bins.foldlM (fun o n => o.rehash n) o = .ok o' → o'.urrStart = none := by
    intro bins
    induction bins with
    | nil => intro o h hh; rw [← Except.ok.inj hh]; exact h
    | cons n bins ih =>
      intro o h hh
      rw [List.foldlM_cons] at hh
      obtain ⟨o1, h1, hh⟩ := bind_ok hh
      refine ih o1 ?_ hh
      unfold EGridObj.rehash at h1
      obtain ⟨g, _, h1⟩ := bind_ok h1
      rw [← Except.ok.inj h1]
      exact h
  have h := key bins o h0 ho'
  unfold EGridObj.hasUrr EGridObj.urrMinEnergy
  rw [h]
  exact ⟨rfl, rfl⟩

/-! ### Files with a UNR block -/

namespace Example

/-- The file of `NucAccept` with a UNR block behind its other blocks. -/
noncomputable def urrFile (b : UrrBlock) : AceFile := { file with xss := file.xss ++ b.encode, lunr := some 33 }

private theorem mono {i : Nat} {v b : List ℝ} (h : ∃ pre post, file.xss = pre ++ v ++ post ∧ pre.length = i) :
    Holds (file.xss ++ b) i v := by
  obtain ⟨p, q, h1, h2⟩ := h
  exact ⟨p, q ++ b, by rw [h1]; simp, h2⟩

theorem urrFile_holds (b : UrrBlock) : FileHolds (urrFile b) contents where
  fissile := rfl
  grid := rfl
  total := rfl
  disap := rfl
  elastic := rfl
  heating := rfl
  main := mono file_holds.main
  count := rfl
  entry := by
    intro k e he
    obtain ⟨h1, h2, lc, h3, h4, h5⟩ := file_holds.entry k e he
    exact ⟨h1, mono h2, lc, h3, mono h4, mono h5⟩

/-- The file is accepted if the block makes sense. -/
theorem urrFile_accepted (b : UrrBlock) (hs : b.Sized) (hne : b.energies ≠ [])
    (hg : b.Good [⟨102, 0, ⟨[], [], 0, true⟩, 0⟩, ⟨103, 0, ⟨[], [], 0, true⟩, 0⟩]) :
    ∃ n, Nuc.makeAce (urrFile b) 1 = .ok n ∧ n.urr.energy = b.energies ∧ n.grid.energy = [1, 2, 4] := by
  have hH : Holds (urrFile b).xss 33 b.encode := ⟨file.xss, [], by simp [urrFile], by simp [file]⟩
  have hA : ∃ n, Nuc.makeAce (urrFile b) 1 = .ok n := by
    refine (C102_accept (urrFile b) 1 contents (urrFile_holds b) (by simp [contents])).mpr ⟨contents_acceptable, by simp [contents]; norm_num,
      ⟨1, rfl, one_pos⟩, (by intro i hi; cases hi), ?_, ?_, by norm_num [file, urrFile], by norm_num [file, urrFile], ⟨_, rfl⟩, (by intro h; cases h), ?_, ?_⟩
    · have one : ∀ k (mt : Nat) (q : ℝ), natAt (urrFile b).xss (file.mtr + k) = .ok mt → getAt (urrFile b).xss (file.lqr + k) = .ok q →
          getAt (urrFile b).xss (file.tyr + k) = .ok 0 → ∃ b', RxnBase.makeAce (urrFile b).toAceBlocks k 1 = .ok b' := by
        intro k mt q h1 h2 h3
        unfold RxnBase.makeAce
        rw [show natAt (urrFile b).toAceBlocks.xss ((urrFile b).toAceBlocks.mtr + k) = .ok mt from h1]
        simp only [bind, Except.bind]
        rw [show getAt (urrFile b).toAceBlocks.xss ((urrFile b).toAceBlocks.lqr + k) = .ok q from h2]
        simp only []
        rw [show getAt (urrFile b).toAceBlocks.xss ((urrFile b).toAceBlocks.tyr + k) = .ok 0 from h3]
        simp only []
        have : ∃ y, readYield (urrFile b).xss (urrFile b).dlw 0 = .ok y := by
          unfold readYield
          simp [bind, Except.bind, pure, Except.pure]
        obtain ⟨y, hy⟩ := this
        rw [show readYield (urrFile b).toAceBlocks.xss (urrFile b).toAceBlocks.dlw 0 = .ok y from hy]
        simp only []
        rw [if_neg (by simp)]
        exact ⟨_, rfl⟩
      intro k e he _
      match k with
      | 0 => exact one 0 102 7 (Holds.nat (n := 102) (mono ⟨file.xss.take 15, file.xss.drop 16, by simp [file], by simp [file]⟩)) rfl rfl
      | 1 => exact one 1 103 (-3) (Holds.nat (n := 103) (mono ⟨file.xss.take 16, file.xss.drop 17, by simp [file], by simp [file]⟩)) rfl rfl
      | k + 2 => simp [contents] at he
    · refine ⟨0, ⟨[1 / 10 ^ 5], [.isotropic]⟩, ?_, rfl⟩
      exact Holds.int (n := 0) (mono ⟨file.xss.take 32, [], by simp [file], by simp [file, urrFile]⟩)
    · intro l hl
      obtain rfl := Option.some.inj hl
      have := List.length_pos_iff.mpr hne
      simp [urrFile, file, UrrBlock.encode]
      omega
    · obtain ⟨u, hu, _⟩ := C106_read (urrFile b).xss 33 b ⟨⟨[], [], 0, true⟩, ⟨[], [], 0, true⟩, ⟨[], [], 0, true⟩, ⟨[], [], 0, true⟩⟩ _ hs hH hg
      exact ⟨_, _, u, by decide, hu⟩
  obtain ⟨n, hn⟩ := hA
  obtain ⟨m, cx, _, _, _, hu, _⟩ := made_parts (Made.direct hn)
  refine ⟨n, hn, ?_, ?_⟩
  · by_cases hG : b.Good (n.rxns.map STRxn.forget)
    · obtain ⟨u, h1, h2⟩ := C106_read (urrFile b).xss 33 b ⟨n.elasticXS, cx, n.fissionXS, n.heating⟩ _ hs hH hG
      have h3 : URR.make (urrFile b).xss (some 33) ⟨n.elasticXS, cx, n.fissionXS, n.heating⟩ (n.rxns.map STRxn.forget) = .ok n.urr := hu
      rw [h1] at h3
      rw [← Except.ok.inj h3]
      exact h2.energy
    · have h3 : URR.make (urrFile b).xss (some 33) ⟨n.elasticXS, cx, n.fissionXS, n.heating⟩ (n.rxns.map STRxn.forget) = .ok n.urr := hu
      rw [C106_refuse (urrFile b).xss 33 b _ _ hs hH hG] at h3
      cases h3
  · exact makeAce_energy (Read.direct (urrFile_holds b) hn).grid

/-- A block over given energies: one band each. -/
noncomputable def bandBlock (es : List ℝ) : UrrBlock := ⟨.linLin, -1, -1, 0, es, 1, es.map fun _ => [(1, ⟨1, 1, 0, 0, 0⟩)]⟩

theorem bandBlock_accepted (es : List ℝ) (hne : es ≠ []) :
    ∃ n, Nuc.makeAce (urrFile (bandBlock es)) 1 = .ok n ∧ n.urr.energy = es ∧ n.grid.energy = [1, 2, 4] := by
  refine urrFile_accepted (bandBlock es) ⟨by simp [bandBlock], by simp [bandBlock], by simp [bandBlock]⟩ hne
    ⟨?_, Or.inl rfl, ⟨none, Or.inl ⟨by norm_num [bandBlock], rfl⟩⟩, none, Or.inl ⟨by norm_num [bandBlock], rfl⟩⟩
  intro t ht
  simp only [bandBlock, List.mem_map] at ht
  obtain ⟨_, _, rfl⟩ := ht
  exact ⟨by norm_num, by norm_num, by norm_num, by norm_num⟩

/-- The hypotheses of `C154_has_urr_partial` are met: three energies ... -/
example : ∃ n, Made 1 (urrFile (bandBlock [2, 3, 4])) n ∧ n.energyGrid.hasUrr = .ok true ∧ n.urr.isValid = true ∧ n.energyGrid.urrMinEnergy = .ok 2 := by
  obtain ⟨n, hn, h1, h2⟩ := bandBlock_accepted [2, 3, 4] (by simp)
  obtain ⟨k1, k2⟩ := C154_has_urr_partial 1 _ n (.direct hn) 4 (by rw [h2]; rfl)
    (Or.inr ⟨by simp [urrFile], by rw [h1]; simp, 2, by rw [h1]; rfl, by norm_num⟩)
  have hv : n.urr.isValid = true := by unfold URR.isValid; rw [h1]; simp
  exact ⟨n, .direct hn, by rw [k1, hv], hv, k2 2 (by rw [h1]; rfl)⟩

/-- ... and none. -/
example : ∃ n, Made 1 file n ∧ n.energyGrid.hasUrr = .ok false ∧ n.urr.isValid = false := by
  obtain ⟨n, hn⟩ := file_accepted
  have hg : n.grid.energy = [1, 2, 4] := makeAce_energy (Read.direct file_holds hn).grid
  have hv : n.urr.isValid = false := by
    unfold URR.isValid
    rw [((C99_urr 1 file n (.direct hn)).2.2 rfl).2]
    simp
  obtain ⟨k1, _⟩ := C154_has_urr_partial 1 _ n (.direct hn) 4 (by rw [hg]; rfl) (Or.inl ⟨rfl, by norm_num⟩)
  exact ⟨n, .direct hn, by rw [k1, hv], hv⟩

/-- Re-hashing, starting from a list of energies. -/
example : ∃ o o', EGridObj.ofVector [1, 2, 4] 8192 = .ok o ∧ [1, 100].foldlM (fun o n => o.rehash n) o = .ok o' ∧ o'.hasUrr = .error .ub := by
  obtain ⟨g, hg, he, _⟩ := C28_lower_index [1, 2, 4] 8192 1 (by norm_num) rfl (by norm_num) (by norm_num) (by norm_num) (by norm_num)
  have ho : EGridObj.ofVector [1, 2, 4] 8192 = .ok ⟨g, none⟩ := by unfold EGridObj.ofVector; rw [hg]; rfl
  obtain ⟨o', h1, _⟩ := C154_rehash ⟨g, none⟩ (Or.inl ⟨_, 8192, ⟨by norm_num, by norm_num⟩, ho⟩) (by simp [he]) [1, 100]
    (by simp [BinCount])
  exact ⟨_, o', ho, h1, (C154_violation_vector _ _ _ ho _ _ h1).2⟩

end Example

/-- **C154** The full claim is false of the code: a nuclide read from a file whose UNR block has two energies has a grid that announces
an unresolved region, and no usable tables; one whose block starts at the last grid energy has usable tables and announces none. -/
theorem C154_violation_block :
    (∃ f n, Made 1 f n ∧ n.energyGrid.hasUrr = .ok true ∧ n.urr.isValid = false ∧ ∀ E i xi, n.urr.evaluate E i xi = .ok none) ∧
    ∃ f n, Made 1 f n ∧ n.energyGrid.hasUrr = .ok false ∧ n.urr.isValid = true := by
  constructor
  · obtain ⟨n, hn, h1, h2⟩ := Example.bandBlock_accepted [2, 3] (by simp)
    exact ⟨_, n, .direct hn, C154_short_block 1 _ n (.direct hn) (by simp [Example.urrFile]) 4 2 (by rw [h2]; rfl) (by rw [h1]; rfl) (by norm_num)
      (by rw [h1]; simp)⟩
  · obtain ⟨n, hn, h1, h2⟩ := Example.bandBlock_accepted [4, 5, 6] (by simp)
    exact ⟨_, n, .direct hn, C154_late_block 1 _ n (.direct hn) (by simp [Example.urrFile]) 4 4 (by rw [h2]; rfl) (by rw [h1]; rfl) le_rfl
      (by rw [h1]; simp)⟩

end PNDL
