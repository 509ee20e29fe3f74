import Verif.Lemmas.NoUB
import Verif.Props.NucAce
import Verif.Props.Reaction
import Verif.Props.Spectra

/-! C136 — a reaction read from a file can be sampled at every energy. -/
namespace PNDL
open Spec

/-! ### What the readers guarantee -/

/-- An angular distribution as the reader leaves it. -/
structure WFAngle (d : AngleDist) : Prop where
  len : d.laws.length = d.energy.length
  bins : ∀ b, AngleLaw.bins b ∈ d.laws → b.length = 33
  table : ∀ t, AngleLaw.table t ∈ d.laws → ValidPC t
  legendre : ∀ s, AngleLaw.legendre s ∉ d.laws
  sorted : d.energy.Pairwise (· ≤ ·)
  order : ∀ b, AngleLaw.bins b ∈ d.laws → b.Pairwise (· ≤ ·)

theorem angleLawAce_wf {xss : List ℝ} {b : Nat} {l : Int} {a : AngleLaw} (h : angleLawAce xss b l = .ok a) :
    (∀ c, a = .bins c → c.length = 33 ∧ c.Pairwise (· ≤ ·)) ∧ (∀ t, a = .table t → ValidPC t) ∧ ∀ s, a ≠ .legendre s := by
  unfold angleLawAce at h
  split at h
  · obtain ⟨_, _, h⟩ := bind_ok h
    obtain ⟨c, hc, h⟩ := bind_ok h
    cases h
    unfold binsAce at hc
    obtain ⟨s, hs, hc⟩ := bind_ok hc
    refine ⟨?_, ?_, ?_⟩
    · intro c' e; cases e
      obtain ⟨e1, e2, e3, _⟩ := binsMake_ok hc
      rw [e1]; exact ⟨e2, e3⟩
    · intro t e; cases e
    · intro s e; cases e
  · split at h
    · obtain ⟨_, _, h⟩ := bind_ok h
      obtain ⟨c, hc, h⟩ := bind_ok h
      cases h
      unfold angleTableAce at hc
      obtain ⟨s, hs, hc⟩ := bind_ok hc
      refine ⟨?_, ?_, ?_⟩
      · intro c' e; cases e
      · intro t e; cases e
        have : s = c := by
          unfold angleTableMake at hc
          obtain ⟨_, _, hc⟩ := bind_ok hc
          split at hc
          · cases hc
          obtain ⟨_, _, hc⟩ := bind_ok hc
          split at hc
          · cases hc
          exact Except.ok.inj hc
        rw [← this]; exact PCTable.makeAce_valid hs
      · intro s e; cases e
    · cases h
      refine ⟨?_, ?_, ?_⟩ <;> intro _ e <;> cases e

theorem angleLawsAce_wf {xss : List ℝ} {b : Nat} : ∀ (n k : Nat) (as : List AngleLaw), angleLawsAce xss b n k = .ok as →
    as.length = n ∧ ∀ a ∈ as, (∀ c, a = .bins c → c.length = 33 ∧ c.Pairwise (· ≤ ·)) ∧ (∀ t, a = .table t → ValidPC t) ∧ ∀ s, a ≠ .legendre s := by
  intro n
  induction n with
  | zero => intro k as h; cases h; simp
  | succ n ih =>
    intro k as h
    unfold angleLawsAce at h
    obtain ⟨l, _, h⟩ := bind_ok h
    obtain ⟨a, ha, h⟩ := bind_ok h
    obtain ⟨as', has, h⟩ := bind_ok h
    cases h
    obtain ⟨h1, h2⟩ := ih _ _ has
    refine ⟨by simp [h1], ?_⟩
    intro a' ha'
    rcases List.mem_cons.mp ha' with rfl | ha'
    · exact angleLawAce_wf ha
    · exact h2 a' ha'

theorem AngleDist.makeAce_wf {xss : List ℝ} {b : Nat} {l : Int} {d : AngleDist} (h : AngleDist.makeAce xss b l = .ok d) : WFAngle d := by
  unfold AngleDist.makeAce at h
  split at h
  · cases h
  split at h
  · obtain ⟨i, _, h⟩ := bind_ok h
    obtain ⟨ne, _, h⟩ := bind_ok h
    obtain ⟨es, hes, h⟩ := bind_ok h
    split at h
    · cases h
    rename_i hso
    obtain ⟨as, has, h⟩ := bind_ok h
    cases h
    obtain ⟨h1, h2⟩ := angleLawsAce_wf _ _ _ has
    exact ⟨by rw [h1, xssSlice_length hes], fun b hb => ((h2 _ hb).1 b rfl).1, fun t ht => (h2 _ ht).2.1 t rfl, fun s hs => (h2 _ hs).2.2 s rfl,
      isSorted_iff.mp (by simpa using hso), fun b hb => ((h2 _ hb).1 b rfl).2⟩
  · cases h
    refine ⟨rfl, ?_, ?_, ?_, by simp, ?_⟩ <;> intro _ e <;> simp at e

/-- An energy law as the readers leave it. -/
def WFELaw : ELaw → Prop
  | .bins d => d.bins.length = d.energy.length ∧ d.energy.Pairwise (· ≤ ·) ∧ ∀ b ∈ d.bins, b.Pairwise (· ≤ ·)
  | .photon p => 0 < p.Eg ∧ 0 < p.A
  | .level _ => True
  | .tabular d => d.tables.length = d.energy.length ∧ ∀ t ∈ d.tables, ValidPC t
  | .genEvap t b => BuiltTab t ∧ b.Pairwise (· ≤ ·)
  | .maxwell t _ => BuiltTab t
  | .evap t _ => BuiltTab t
  | .watt a b _ => BuiltTab a ∧ BuiltTab b

theorem binSetsAce_len {xss : List ℝ} {net k : Nat} : ∀ (n j : Nat) (bs : List (List ℝ)), binSetsAce xss net k n j = .ok bs → bs.length = n := by
  intro n
  induction n with
  | zero => intro j bs h; cases h; rfl
  | succ n ih =>
    intro j bs h
    unfold binSetsAce at h
    obtain ⟨b, _, h⟩ := bind_ok h
    obtain ⟨bs', h', h⟩ := bind_ok h
    cases h
    simp [ih _ _ h']

theorem EnergyBins.makeAce_wf {xss : List ℝ} {i : Nat} {d : EnergyBins} (h : EnergyBins.makeAce xss i = .ok d) : WFELaw (.bins d) := by
  unfold EnergyBins.makeAce at h
  obtain ⟨_, _, h⟩ := bind_ok h
  obtain ⟨ne, _, h⟩ := bind_ok h
  obtain ⟨es, hes, h⟩ := bind_ok h
  split at h
  · cases h
  rename_i hso
  obtain ⟨_, _, h⟩ := bind_ok h
  obtain ⟨bs, hbs, h⟩ := bind_ok h
  split at h
  · cases h
  rename_i hbo
  cases h
  refine ⟨?_, isSorted_iff.mp (by simpa using hso), fun b hb => isSorted_iff.mp ?_⟩
  · show bs.length = es.length
    rw [binSetsAce_len _ _ _ hbs, xssSlice_length hes]
  · simp only [List.any_eq_true, Bool.not_eq_true', not_exists, not_and, Bool.not_eq_false] at hbo
    exact hbo b hb

theorem Photon.makeAce_wf {xss : List ℝ} {awr : ℝ} {i : Nat} {p : Photon} (h : Photon.makeAce xss awr i = .ok p) : WFELaw (.photon p) := by
  unfold Photon.makeAce at h
  obtain ⟨_, _, h⟩ := bind_ok h
  obtain ⟨_, _, h⟩ := bind_ok h
  unfold Photon.make at h
  split at h
  · cases h
  split at h
  · cases h
  split at h
  · cases h
  cases h
  exact ⟨by linarith, by linarith⟩

theorem tablesAce_wf {T : Type} {mk : Nat → Res T} {P : T → Prop} (hP : ∀ loc t, mk loc = .ok t → P t) {xss : List ℝ} {base : Nat} :
    ∀ (n k : Nat) (ts : List T), tablesAce mk xss base n k = .ok ts → ts.length = n ∧ ∀ t ∈ ts, P t := by
  intro n
  induction n with
  | zero => intro k ts h; cases h; simp
  | succ n ih =>
    intro k ts h
    unfold tablesAce at h
    obtain ⟨_, _, h⟩ := bind_ok h
    obtain ⟨loc, _, h⟩ := bind_ok h
    obtain ⟨t, ht, h⟩ := bind_ok h
    obtain ⟨ts', h', h⟩ := bind_ok h
    cases h
    obtain ⟨h1, h2⟩ := ih _ _ h'
    refine ⟨by simp [h1], ?_⟩
    intro t' ht'
    rcases List.mem_cons.mp ht' with rfl | ht'
    · exact hP _ _ ht
    · exact h2 t' ht'

theorem TabEnergy.makeAce_wf {xss : List ℝ} {i jed : Nat} {d : TabEnergy} (h : TabEnergy.makeAce xss i jed = .ok d) : WFELaw (.tabular d) := by
  unfold TabEnergy.makeAce at h
  obtain ⟨_, _, h⟩ := bind_ok h
  obtain ⟨ne, _, h⟩ := bind_ok h
  obtain ⟨es, hes, h⟩ := bind_ok h
  obtain ⟨ts, hts, h⟩ := bind_ok h
  cases h
  obtain ⟨h1, h2⟩ := tablesAce_wf (P := ValidPC) (fun _ _ h => PCTable.makeAce_valid h) _ _ _ hts
  exact ⟨by rw [h1, xssSlice_length hes], h2⟩

theorem tempAce_wf {xss : List ℝ} {i : Nat} {t : Tab1D} {u : ℝ} (h : tempAce xss i = .ok (t, u)) : BuiltTab t := by
  unfold tempAce at h
  obtain ⟨⟨⟨nbt, int⟩, ⟨x, y⟩, nx⟩, _, h⟩ := bind_ok h
  dsimp only at h
  obtain ⟨_, _, h⟩ := bind_ok h
  obtain ⟨t', ht, h⟩ := bind_ok h
  cases h
  exact builtTab_of ht

theorem readTabB_wf {xss : List ℝ} {i n : Nat} {t : Tab1D} (h : readTabB xss i = .ok (t, n)) : BuiltTab t := by
  unfold readTabB at h
  obtain ⟨⟨⟨nbt, int⟩, ⟨x, y⟩, nx⟩, _, h⟩ := bind_ok h
  dsimp only at h
  obtain ⟨t', ht, h⟩ := bind_ok h
  cases h
  exact builtTab_of ht

theorem genEvapAce_wf {xss : List ℝ} {i : Nat} {t : Tab1D} {b : List ℝ} (h : genEvapAce xss i = .ok (t, b)) : BuiltTab t ∧ b.Pairwise (· ≤ ·) := by
  unfold genEvapAce at h
  obtain ⟨⟨⟨nbt, int⟩, ⟨x, y⟩, nx⟩, _, h⟩ := bind_ok h
  dsimp only at h
  obtain ⟨_, _, h⟩ := bind_ok h
  obtain ⟨_, _, h⟩ := bind_ok h
  split at h
  · cases h
  rename_i hso
  obtain ⟨t', ht, h⟩ := bind_ok h
  cases h
  exact ⟨builtTab_of ht, isSorted_iff.mp (by simpa using hso)⟩

theorem wattAce_wf {xss : List ℝ} {i : Nat} {a b : Tab1D} {u : ℝ} (h : wattAce xss i = .ok (a, b, u)) : BuiltTab a ∧ BuiltTab b := by
  unfold wattAce at h
  obtain ⟨⟨a', i'⟩, ha, h⟩ := bind_ok h
  dsimp only at h
  obtain ⟨⟨b', i''⟩, hb, h⟩ := bind_ok h
  dsimp only at h
  obtain ⟨_, _, h⟩ := bind_ok h
  cases h
  exact ⟨readTabB_wf ha, readTabB_wf hb⟩

/-- A law as the readers leave it. -/
def WFLaw : Law → Prop
  | .uncorrelated u => WFAngle u.angle ∧ WFELaw u.energy
  | .kalbach d => d.tables.length = d.energy.length ∧ (∀ t ∈ d.tables, ValidKT t) ∧ d.energy.Pairwise (· ≤ ·)
  | .tabEnergyAngle d => d.tables.length = d.energy.length ∧ (∀ t ∈ d.tables, ValidEA t) ∧ d.energy.Pairwise (· ≤ ·)
  | .nbody d => NBody.make d.n d.Ap d.A d.Q = .ok d

theorem NBody.makeAce_wf {xss : List ℝ} {awr : ℝ} {i : Nat} {q : ℝ} {d : NBody} (h : NBody.makeAce xss awr i q = .ok d) : WFLaw (.nbody d) := by
  unfold NBody.makeAce at h
  obtain ⟨n, _, h⟩ := bind_ok h
  obtain ⟨ap, _, h⟩ := bind_ok h
  have h' := h
  rcases C43_make n ap awr q with e | e <;> rw [e] at h' <;> cases h'
  exact h

theorem Kalbach.makeAce_wf {xss : List ℝ} {dlw i : Nat} {d : Kalbach} (h : Kalbach.makeAce xss dlw i = .ok d) : WFLaw (.kalbach d) := by
  unfold Kalbach.makeAce at h
  obtain ⟨_, _, h⟩ := bind_ok h
  obtain ⟨ne, _, h⟩ := bind_ok h
  obtain ⟨es, hes, h⟩ := bind_ok h
  split at h
  · cases h
  rename_i hso
  obtain ⟨ts, hts, h⟩ := bind_ok h
  cases h
  obtain ⟨h1, h2⟩ := tablesAce_wf (P := ValidKT) (fun _ _ h => KalbachTable.makeAce_valid h) _ _ _ hts
  exact ⟨by rw [h1, xssSlice_length hes], h2, isSorted_iff.mp (by simpa using hso)⟩

theorem TabEnergyAngle.makeAce_wf {xss : List ℝ} {dlw i jed : Nat} {d : TabEnergyAngle} (h : TabEnergyAngle.makeAce xss dlw i jed = .ok d) :
    WFLaw (.tabEnergyAngle d) := by
  unfold TabEnergyAngle.makeAce at h
  obtain ⟨_, _, h⟩ := bind_ok h
  obtain ⟨ne, _, h⟩ := bind_ok h
  obtain ⟨es, hes, h⟩ := bind_ok h
  split at h
  · cases h
  rename_i hso
  obtain ⟨ts, hts, h⟩ := bind_ok h
  cases h
  obtain ⟨h1, h2⟩ := tablesAce_wf (P := ValidEA) (fun _ _ h => EATable.makeAce_valid h) _ _ _ hts
  exact ⟨by rw [h1, xssSlice_length hes], h2, isSorted_iff.mp (by simpa using hso)⟩

theorem lawAce_wf {a : AceBlocks} {q : ℝ} {angle : Option AngleDist} (ha : ∀ d, angle = some d → WFAngle d) {law : Int} {j : Nat} {d : Law}
    (h : lawAce a q angle law j = .ok d) : WFLaw d := by
  have hl := (C97_law a q angle law j d).mp h
  cases hl with
  | bins ang d h1 h2 => exact ⟨ha _ h1, EnergyBins.makeAce_wf h2⟩
  | photon ang d h1 h2 => exact ⟨ha _ h1, Photon.makeAce_wf h2⟩
  | level ang c1 c2 h1 h2 => exact ⟨ha _ h1, trivial⟩
  | tabular ang d h1 h2 => exact ⟨ha _ h1, TabEnergy.makeAce_wf h2⟩
  | genEvap ang t b h1 h2 => exact ⟨ha _ h1, genEvapAce_wf h2⟩
  | maxwell ang t u h1 h2 => exact ⟨ha _ h1, tempAce_wf h2⟩
  | evap ang t u h1 h2 => exact ⟨ha _ h1, tempAce_wf h2⟩
  | watt ang x y u h1 h2 => exact ⟨ha _ h1, wattAce_wf h2⟩
  | kalbach d h2 => exact Kalbach.makeAce_wf h2
  | correlated d h2 => exact TabEnergyAngle.makeAce_wf h2
  | nbody d h2 => exact NBody.makeAce_wf h2

theorem lawsAce_wf {a : AceBlocks} {q : ℝ} {angle : Option AngleDist} (ha : ∀ d, angle = some d → WFAngle d) : ∀ (fuel i : Nat)
    (ls : List (Law × Tab1D)), lawsAce a q angle fuel i = .ok ls → ls ≠ [] ∧ ∀ p ∈ ls, WFLaw p.1 ∧ BuiltTab p.2 := by
  intro fuel
  induction fuel with
  | zero => intro i ls h; cases h
  | succ n ih =>
    intro i ls h
    unfold lawsAce at h
    obtain ⟨lnw, _, h⟩ := bind_ok h
    obtain ⟨law, _, h⟩ := bind_ok h
    obtain ⟨_, _, h⟩ := bind_ok h
    obtain ⟨j, _, h⟩ := bind_ok h
    obtain ⟨⟨p, _⟩, hp, h⟩ := bind_ok h
    dsimp only at h
    obtain ⟨d, hd, h⟩ := bind_ok h
    have hw : WFLaw d ∧ BuiltTab p := ⟨lawAce_wf ha hd, readTabB_wf hp⟩
    split at h
    · cases h
      exact ⟨by simp, by simpa using hw⟩
    · obtain ⟨_, _, h⟩ := bind_ok h
      obtain ⟨rest, hr, h⟩ := bind_ok h
      cases h
      refine ⟨by simp, ?_⟩
      intro p' hp'
      rcases List.mem_cons.mp hp' with rfl | hp'
      · exact hw
      · exact (ih _ _ hr).2 p' hp'

/-- The distribution of a reaction as the readers leave it. -/
def WFDist : NDist → Prop
  | .absorption _ => True
  | .one l => WFLaw l
  | .several ls => ls ≠ [] ∧ ∀ p ∈ ls, WFLaw p.1 ∧ BuiltTab p.2
  | .cm _ _ d => WFDist d

theorem RxnBase.makeAce_wf {a : AceBlocks} {indx fuel : Nat} {r : RxnBase} (h : RxnBase.makeAce a indx fuel = .ok r) : WFDist r.dist := by
  unfold RxnBase.makeAce at h
  obtain ⟨mt, _, h⟩ := bind_ok h
  obtain ⟨q, _, h⟩ := bind_ok h
  obtain ⟨tyr, _, h⟩ := bind_ok h
  obtain ⟨y, _, h⟩ := bind_ok h
  split at h
  · obtain ⟨ls, hl, h⟩ := bind_ok h
    obtain ⟨d, hd, h⟩ := bind_ok h
    cases h
    unfold loadAce at hl
    obtain ⟨locb, _, hl⟩ := bind_ok hl
    obtain ⟨angle, hang, hl⟩ := bind_ok hl
    obtain ⟨locc, _, hl⟩ := bind_ok hl
    obtain ⟨i, _, hl⟩ := bind_ok hl
    have hwa : ∀ d, angle = some d → WFAngle d := by
      intro d hd
      split at hang
      · obtain ⟨d', hd', hang⟩ := bind_ok hang
        cases hang; cases hd
        exact AngleDist.makeAce_wf hd'
      · cases hang; cases hd
    obtain ⟨hne, hw⟩ := lawsAce_wf hwa _ _ _ hl
    have hd' : WFDist d := by
      match ls, hne, hw, hd with
      | [l], _, hw, hd => cases hd; exact (hw l (by simp)).1
      | l1 :: l2 :: ls, hne, hw, hd => cases hd; exact ⟨hne, hw⟩
    show WFDist (if tyr < 0 then .cm a.awr q d else d)
    by_cases ht : tyr < 0
    · rw [if_pos ht]; exact hd'
    · rw [if_neg ht]; exact hd'
  · cases h
    trivial

/-! ### Sampling -/

theorem noUB_angleLaw {law : AngleLaw} (h1 : ∀ b, law = .bins b → b.length = 33) (h2 : ∀ t, law = .table t → ValidPC t ∧ FromZero t)
    (h3 : ∀ s, law ≠ .legendre s) (fuel : Nat) {ω : Tape} (hω : UnitTape ω) (k : Nat) : NoUB (law.sample fuel ω k) := by
  cases law with
  | isotropic => exact .ok _
  | bins b =>
    have hlt := bin_lt (hω k).1 (hω k).2
    have hl := h1 b rfl
    show NoUB (binsSample b ω k)
    unfold binsSample
    dsimp only
    refine (noUB_getAt ?_).bind fun _ _ => .ok _
    rw [hl]
    split <;> omega
  | table t =>
    obtain ⟨hv, h0⟩ := h2 t rfl
    show NoUB (angleTableSample t ω k)
    unfold angleTableSample
    exact (noUB_pcSample hv h0 (hω k).1 (hω k).2.le).bind fun _ _ => .ok _
  | legendre s => exact absurd rfl (h3 s)

theorem noUB_angle {d : AngleDist} (hw : WFAngle d) (hs : SafeAngle d) (fuel : Nat) (E : ℝ) {ω : Tape} (hω : UnitTape ω) (k : Nat) :
    NoUB (d.sample fuel E ω k) := by
  have hpos : 0 < d.energy.length := List.length_pos_of_ne_nil hs.1
  have hle := lowerBound_le_length d.energy E
  have key : ∀ law ∈ d.laws, ∀ k, NoUB (law.sample fuel ω k) := fun law hm k =>
    noUB_angleLaw (fun b e => hw.bins b (e ▸ hm)) (fun t e => ⟨hw.table t (e ▸ hm), hs.2 t (e ▸ hm)⟩) (fun s e => hw.legendre s (e ▸ hm)) fuel hω k
  have hf : NoUB (d.find E) := by
    unfold AngleDist.find
    dsimp only
    refine .ite (fun _ => (noUB_front (by rw [hw.len]; omega)).bind fun _ _ => .ok _) fun h0 =>
      .ite (fun _ => (noUB_back (by rw [hw.len]; omega)).bind fun _ _ => .ok _) fun h1 => ?_
    rw [subIdx_of_le (by omega)]
    exact (NoUB.ok _).bind fun _ e => by
      cases e
      exact (noUB_getAt (by omega)).bind fun _ _ => (noUB_getAt (by omega)).bind fun _ _ => (noUB_rdiv _ _).bind fun _ _ =>
        (noUB_getAt (by rw [hw.len]; omega)).bind fun _ _ => (noUB_getAt (by rw [hw.len]; omega)).bind fun _ _ => .ok _
  unfold AngleDist.sample
  refine hf.bind fun r hr => ?_
  unfold AngleDist.find at hr
  dsimp only at hr
  split at hr
  · obtain ⟨l, hl, hr⟩ := bind_ok hr
    cases hr
    exact key l (List.mem_of_getElem? (front_eq_ok.mp hl)) k
  split at hr
  · obtain ⟨l, hl, hr⟩ := bind_ok hr
    cases hr
    exact key l (List.mem_of_getLast? (back_eq_ok.mp hl)) k
  obtain ⟨_, _, hr⟩ := bind_ok hr
  obtain ⟨_, _, hr⟩ := bind_ok hr
  obtain ⟨_, _, hr⟩ := bind_ok hr
  obtain ⟨f, _, hr⟩ := bind_ok hr
  obtain ⟨a, ha, hr⟩ := bind_ok hr
  obtain ⟨b, hb, hr⟩ := bind_ok hr
  cases hr
  dsimp only
  exact (NoUB.ite (fun _ => key a (List.mem_of_getElem? (getAt_eq_ok.mp ha)) _) (fun _ => key b (List.mem_of_getElem? (getAt_eq_ok.mp hb)) _)).bind
    fun _ _ => .ok _

theorem noUB_sampleBins {b : List ℝ} {ω : Tape} (hω : UnitTape ω) (hs : SafeBins ω b) (i j : Nat) : NoUB (sampleBins (ω i) (ω j) b) := by
  intro h
  have := (C40_undefined_iff b hs.1 (ω i) (ω j) (hω i).1).mp h
  exact absurd (hs.2 i) (not_lt.mpr this)

theorem noUB_rejLoop (cand : Nat → Res ℝ) (n : Nat) (du : ℝ) : ∀ fuel k, NoUB (rejLoop cand n du fuel k) := by
  intro fuel
  induction fuel with
  | zero => intro k h; cases h
  | succ m ih =>
    intro k
    unfold rejLoop
    cases cand k with
    | ok e => simp only; exact .ite (fun _ => .ok _) (fun _ => ih _)
    | error e => exact ih _

theorem noUB_energy {l : ELaw} (fuel : Nat) (E : ℝ) {ω : Tape} (hω : UnitTape ω) (hw : WFELaw l) (hs : SafeELaw ω l) (k : Nat) :
    NoUB (l.sample fuel E ω k) := by
  cases l with
  | bins d =>
    obtain ⟨hne, hb⟩ := hs
    have hpos : 0 < d.energy.length := List.length_pos_of_ne_nil hne
    have hle := lowerBound_le_length d.energy E
    have hl : d.bins.length = d.energy.length := hw.1
    show NoUB (d.sample false E ω k)
    unfold EnergyBins.sample
    dsimp only
    have key : ∀ b ∈ d.bins, ∀ k, NoUB (do
        let v ← (if false = true then sampleBins (ω (k + 1)) (ω k) b else sampleBins (ω k) (ω (k + 1)) b : Res ℝ)
        return (v, k + 2) : Res (ℝ × Nat)) := by
      intro b hbm k
      rw [if_neg (by simp)]
      exact (noUB_sampleBins hω (hb b hbm) _ _).bind fun _ _ => .ok _
    refine .ite (fun _ => (noUB_front (by omega)).bind fun b e => key b (List.mem_of_getElem? (front_eq_ok.mp e)) _) fun h0 =>
      .ite (fun _ => (noUB_back (by omega)).bind fun b e => key b (List.mem_of_getLast? (back_eq_ok.mp e)) _) fun h1 => ?_
    rw [subIdx_of_le (by omega)]
    exact (NoUB.ok _).bind fun _ e => by
      cases e
      exact (noUB_getAt (by omega)).bind fun _ _ => (noUB_getAt (by omega)).bind fun _ _ => (noUB_rdiv _ _).bind fun _ _ =>
        .ite (fun _ => (noUB_getAt (by omega)).bind fun b e => key b (List.mem_of_getElem? (getAt_eq_ok.mp e)) _)
          (fun _ => (noUB_getAt (by omega)).bind fun b e => key b (List.mem_of_getElem? (getAt_eq_ok.mp e)) _)
  | photon p =>
    show NoUB (p.sample E k)
    unfold Photon.sample
    exact .ite (fun _ => .ok _) fun _ => (noUB_rdiv _ _).bind fun _ _ => .ok _
  | level l => exact .ok _
  | tabular d =>
    obtain ⟨hl, hv⟩ := hw
    obtain ⟨h2, h0⟩ := hs
    show NoUB (d.sample E ω k)
    unfold TabEnergy.sample
    refine (noUB_bracketIn h2 E).bind ?_
    rintro ⟨l, f⟩ e
    have hlt := bracketIn_lt h2 e
    dsimp only
    refine (noUB_getAt (by omega)).bind fun t0 e0 => (noUB_getAt (by omega)).bind fun t1 e1 => ?_
    have m0 := List.mem_of_getElem? (getAt_eq_ok.mp e0)
    have m1 := List.mem_of_getElem? (getAt_eq_ok.mp e1)
    have p0 : 0 < t0.values.length := List.length_pos_of_ne_nil (hv t0 m0).ne
    have p1 : 0 < t1.values.length := List.length_pos_of_ne_nil (hv t1 m1).ne
    refine (noUB_front p0).bind fun _ _ => (noUB_back p0).bind fun _ _ => (noUB_front p1).bind fun _ _ => (noUB_back p1).bind fun _ _ => ?_
    refine (NoUB.ite (fun _ => (noUB_pcSample (hv t0 m0) (h0 t0 m0) (hω _).1 (hω _).2.le).bind fun _ _ => .ok _)
      (fun _ => (noUB_pcSample (hv t1 m1) (h0 t1 m1) (hω _).1 (hω _).2.le).bind fun _ _ => .ok _)).bind fun _ _ => ?_
    exact (noUB_rdiv _ _).bind fun _ _ => .ok _
  | genEvap t b =>
    show NoUB (genEvapSample t b E ω k)
    unfold genEvapSample
    exact (noUB_tabEval hw.1 hs.1 E).bind fun _ _ => (noUB_sampleBins hω hs.2 _ _).bind fun _ _ => .ok _
  | maxwell t u => exact (noUB_tabEval hw hs E).bind fun _ _ => noUB_rejLoop _ _ _ _ _
  | evap t u => exact (noUB_tabEval hw hs E).bind fun _ _ => noUB_rejLoop _ _ _ _ _
  | watt a b u =>
    exact (noUB_tabEval hw.1 hs.1 E).bind fun _ _ => (noUB_tabEval hw.2 hs.2 E).bind fun _ _ => noUB_rejLoop _ _ _ _ _

theorem noUB_kalbachCosine (R A x y : ℝ) : NoUB (kalbachCosine R A x y) := by
  unfold kalbachCosine
  exact .ite (fun _ => (noUB_rdiv _ _).bind fun _ _ => (noUB_clog _).bind fun _ _ => .ok _)
    (fun _ => (noUB_rdiv _ _).bind fun _ _ => (noUB_clog _).bind fun _ _ => .ok _)

theorem noUB_unitBase {a b c d : Res ℝ} (ha : NoUB a) (hb : NoUB b) (hc : NoUB c) (hd : NoUB d) (f : ℝ) : NoUB (unitBase a b c d f) := by
  unfold unitBase
  exact ha.bind fun _ _ => hb.bind fun _ _ => hc.bind fun _ _ => hd.bind fun _ _ => .ok _

theorem noUB_kalbach {d : Kalbach} (hw : WFLaw (.kalbach d)) (h2 : 2 ≤ d.energy.length) (E : ℝ) {ω : Tape} (hω : UnitTape ω) (k : Nat) :
    NoUB (d.sample E ω k) := by
  obtain ⟨hl, hv, _⟩ := hw
  unfold Kalbach.sample
  refine (noUB_bracketIn h2 E).bind ?_
  rintro ⟨l, f⟩ e
  have hlt := bracketIn_lt h2 e
  dsimp only
  refine (noUB_getAt (by omega)).bind fun t0 e0 => (noUB_getAt (by omega)).bind fun t1 e1 => ?_
  have v0 := hv t0 (List.mem_of_getElem? (getAt_eq_ok.mp e0))
  have v1 := hv t1 (List.mem_of_getElem? (getAt_eq_ok.mp e1))
  have p0 : 0 < t0.energy.length := List.length_pos_of_ne_nil v0.pc.ne
  have p1 : 0 < t1.energy.length := List.length_pos_of_ne_nil v1.pc.ne
  refine (noUB_unitBase (noUB_front p0) (noUB_back p0) (noUB_front p1) (noUB_back p1) f).bind fun _ _ => ?_
  have key : ∀ (t : KalbachTable), ValidKT t → ∀ (a b : ℝ), NoUB (do
      let e ← t.sampleEnergy (ω (k + 1))
      let r ← t.evalR e
      let s ← t.evalA e
      return (e, a, b, r, s) : Res (ℝ × ℝ × ℝ × ℝ × ℝ)) := by
    intro t v a b
    refine (noUB_pcSample v.pc (fun c hc => ?_) (hω _).1 (hω _).2.le).bind fun e _ => ?_
    · have := v.start
      have hc' : t.cdf[0]? = some c := hc
      rw [this] at hc'; cases hc'; exact le_refl _
    · obtain ⟨r, hr, _⟩ := t.param_ok v v.lenR e
      obtain ⟨s, hs, _⟩ := t.param_ok v v.lenA e
      rw [show t.evalR e = .ok r from hr, show t.evalA e = .ok s from hs]
      exact .ok _
  refine (NoUB.ite (fun _ => key t0 v0 _ _) (fun _ => key t1 v1 _ _)).bind fun _ _ => ?_
  exact (noUB_rdiv _ _).bind fun _ _ => (noUB_kalbachCosine _ _ _ _).bind fun _ _ => .ok _

theorem noUB_eaTable {t : EATable} (hv : ValidEA t) (h0 : ∀ a ∈ t.angles, FromZero a) {ω : Tape} (hω : UnitTape ω) (hp : ∀ j, 0 < ω j) (k : Nat) :
    NoUB (t.sample ω k) := by
  obtain ⟨hle, hlb⟩ := lowerBound_partition (l := t.cdf) (x := ω k) (by
    intro i j a b hij ha hb hb2
    rcases min_le_iff.mp (hv.pc.cdf_sorted i j a b hij ha hb) with h | h <;> linarith [(hω k).2])
  have hlast : t.cdf[t.cdf.length - 1]? = some 1 := by rw [← List.getLast?_eq_getElem?]; exact hv.pc.cdf_last
  have h1 : 0 < lowerBound t.cdf (ω k) := (hlb 0 0 hv.start).mp (hp k)
  have h2 : lowerBound t.cdf (ω k) < t.cdf.length := by
    have := mt (hlb _ _ hlast).mpr (not_lt.mpr (hω k).2.le)
    have := (List.getElem?_eq_some_iff.mp hlast).1
    omega
  have hlc : t.cdf.length = t.energy.length := hv.pc.lenC
  have hlp : t.pdf.length = t.energy.length := hv.pc.lenP
  have hla := hv.lenA
  have hang : ∀ a ∈ t.angles, ∀ j, NoUB (a.sample (ω j)) := fun a ha j => noUB_pcSample (hv.angles a ha) (h0 a ha) (hω j).1 (hω j).2.le
  unfold EATable.sample
  dsimp only
  rw [subIdx_of_le h1]
  refine (NoUB.ok _).bind fun _ e => ?_
  cases e
  refine (noUB_getAt (by omega)).bind fun p0 _ => ?_
  refine (NoUB.ite (fun _ => .ok _) fun _ => (noUB_getAt (by omega)).bind fun _ _ => .ok _).bind fun flat _ => ?_
  refine (noUB_getAt (by omega)).bind fun v0 _ => (noUB_getAt (by omega)).bind fun c0 _ => ?_
  refine .ite (fun _ => ?_) (fun _ => ?_)
  · unfold histInterp
    exact ((noUB_rdiv _ _).bind fun _ _ => .ok _).bind fun _ _ => (noUB_getAt (by omega)).bind fun a ha =>
      (hang a (List.mem_of_getElem? (getAt_eq_ok.mp ha)) _).bind fun _ _ => .ok _
  · refine (noUB_getAt (by omega)).bind fun p1 _ => (noUB_getAt (by omega)).bind fun v1 _ => ?_
    unfold linInterp
    refine ((noUB_rdiv _ _).bind fun _ _ => (noUB_rdiv _ _).bind fun _ _ => .ok _).bind fun _ _ => ?_
    refine (noUB_getAt (by omega)).bind fun c1 _ => (noUB_rdiv _ _).bind fun f _ => ?_
    refine (NoUB.ite (fun _ => noUB_getAt (by omega)) (fun _ => noUB_getAt (by omega))).bind fun a ha => ?_
    have hm : a ∈ t.angles := by
      split at ha <;> exact List.mem_of_getElem? (getAt_eq_ok.mp ha)
    exact (hang a hm _).bind fun _ _ => .ok _

theorem noUB_tabEnergyAngle {d : TabEnergyAngle} (hw : WFLaw (.tabEnergyAngle d)) {ω : Tape} (hω : UnitTape ω)
    (hs : SafeLaw ω (.tabEnergyAngle d)) (E : ℝ) (k : Nat) : NoUB (d.sample E ω k) := by
  obtain ⟨hl, hv, _⟩ := hw
  obtain ⟨h2, hp, h0⟩ := hs
  unfold TabEnergyAngle.sample
  refine (noUB_bracketIn h2 E).bind ?_
  rintro ⟨l, f⟩ e
  have hlt := bracketIn_lt h2 e
  dsimp only
  refine (noUB_getAt (by omega)).bind fun t0 e0 => (noUB_getAt (by omega)).bind fun t1 e1 => ?_
  have m0 := List.mem_of_getElem? (getAt_eq_ok.mp e0)
  have m1 := List.mem_of_getElem? (getAt_eq_ok.mp e1)
  have p0 : 0 < t0.energy.length := List.length_pos_of_ne_nil (hv t0 m0).pc.ne
  have p1 : 0 < t1.energy.length := List.length_pos_of_ne_nil (hv t1 m1).pc.ne
  refine (noUB_unitBase (noUB_front p0) (noUB_back p0) (noUB_front p1) (noUB_back p1) f).bind fun _ _ => ?_
  refine (NoUB.ite (fun _ => (noUB_eaTable (hv t0 m0) (h0 t0 m0) hω hp _).bind fun _ _ => .ok _)
    (fun _ => (noUB_eaTable (hv t1 m1) (h0 t1 m1) hω hp _).bind fun _ _ => .ok _)).bind fun _ _ => ?_
  exact (noUB_rdiv _ _).bind fun _ _ => .ok _

theorem noUB_maxwellian (ω : Tape) (k : Nat) : NoUB (maxwellianSpectrum ω k) := by
  unfold maxwellianSpectrum
  exact (noUB_clog _).bind fun _ _ => (noUB_clog _).bind fun _ _ => .ok _

theorem noUB_nbody (d : NBody) (E : ℝ) (ω : Tape) (k : Nat) : NoUB (d.sample E ω k) := by
  unfold NBody.sample
  refine (noUB_maxwellian _ _).bind fun x _ => ?_
  refine (NoUB.ite (fun _ => (noUB_maxwellian _ _).bind fun _ _ => .ok _) fun _ => .ite (fun _ => (noUB_clog _).bind fun _ _ => .ok _) fun _ =>
    .ite (fun _ => (noUB_clog _).bind fun _ _ => (noUB_clog _).bind fun _ _ => .ok _) fun _ => .ok _).bind fun _ _ => ?_
  exact (noUB_rdiv _ _).bind fun _ _ => .ok _

theorem noUB_law {l : Law} (fuel : Nat) (E : ℝ) {ω : Tape} (hω : UnitTape ω) (hw : WFLaw l) (hs : SafeLaw ω l) (k : Nat) :
    NoUB ((l.toAE fuel).sample E ω k) := by
  cases l with
  | uncorrelated u =>
    show NoUB (u.sample fuel E ω k)
    unfold Uncorr.sample
    exact (noUB_angle hw.1 hs.1 fuel E hω k).bind fun _ _ => (noUB_energy fuel E hω hw.2 hs.2 _).bind fun _ _ => .ok _
  | kalbach d => exact noUB_kalbach hw hs E hω k
  | tabEnergyAngle d => exact noUB_tabEnergyAngle hw hω hs E k
  | nbody d => exact noUB_nbody d E ω k

theorem noUB_select (E xi : ℝ) : ∀ (ds : List AE) (ps : List Tab1D) (s : ℝ), ds.length = ps.length → (∀ p ∈ ps, NoUB (p.eval E)) →
    NoUB (Multi.select E xi ds ps s) := by
  intro ds
  induction ds with
  | nil => intro ps s _ _; unfold Multi.select; exact .ok _
  | cons d ds ih =>
    intro ps s hl hp
    cases ps with
    | nil => simp at hl
    | cons p ps =>
      unfold Multi.select
      exact (hp p (by simp)).bind fun _ _ => .ite (fun _ => .ok _) fun _ => ih ps _ (by simpa using hl) fun q hq => hp q (by simp [hq])

theorem select_mem (E xi : ℝ) : ∀ (ds : List AE) (ps : List Tab1D) (s : ℝ) (d : AE), Multi.select E xi ds ps s = .ok (some d) → d ∈ ds := by
  intro ds
  induction ds with
  | nil => intro ps s d h; unfold Multi.select at h; cases h
  | cons d0 ds ih =>
    intro ps s d h
    cases ps with
    | nil => unfold Multi.select at h; cases h
    | cons p ps =>
      unfold Multi.select at h
      obtain ⟨w, _, h⟩ := bind_ok h
      split at h
      · cases h; simp
      · exact List.mem_cons_of_mem _ (ih _ _ _ h)

theorem noUB_cmToLab (E A mu Eo : ℝ) : NoUB (cmToLab E A mu Eo) := by
  unfold cmToLab
  exact (noUB_csqrt _).bind fun _ _ => (noUB_rdiv _ _).bind fun _ _ => (noUB_rdiv _ _).bind fun _ _ => (noUB_csqrt _).bind fun _ _ =>
    (noUB_rdiv _ _).bind fun _ _ => (noUB_rdiv _ _).bind fun _ _ => (noUB_csqrt _).bind fun _ _ => .ok _

theorem noUB_dist (fuel : Nat) (E : ℝ) {ω : Tape} (hω : UnitTape ω) : ∀ (d : NDist), WFDist d → SafeDist ω d → ∀ k, NoUB ((d.toAE fuel).sample E ω k)
  | .absorption _, _, _, _ => .exc
  | .one l, hw, hs, k => noUB_law fuel E hω hw hs k
  | .several ls, hw, hs, k => by
    obtain ⟨hne, hw⟩ := hw
    have hd : ∀ d ∈ ls.map (fun p => p.1.toAE fuel), ∀ k, NoUB (d.sample E ω k) := by
      intro d hd k
      obtain ⟨p, hp, rfl⟩ := List.mem_map.mp hd
      exact noUB_law fuel E hω (hw p hp).1 (hs p hp).1 k
    show NoUB (Multi.sample ⟨ls.map (fun p => p.1.toAE fuel), ls.map Prod.snd⟩ E ω k)
    unfold Multi.sample
    dsimp only
    refine (noUB_select E (ω k) _ _ 0 (by simp) ?_).bind fun s hsel => ?_
    · intro t ht
      obtain ⟨p, hp, rfl⟩ := List.mem_map.mp ht
      exact noUB_tabEval (hw p hp).2 (hs p hp).2 E
    · cases s with
      | some d => exact hd d (select_mem _ _ _ _ _ _ hsel) _
      | none =>
        refine (noUB_back (by rw [List.length_map]; exact List.length_pos_of_ne_nil hne)).bind fun d hb => ?_
        exact hd d (List.mem_of_getLast? (back_eq_ok.mp hb)) _
  | .cm awr q d, hw, hs, k => by
    show NoUB (CMDist.sample ⟨awr, q, d.toAE fuel⟩ E ω k)
    unfold CMDist.sample
    exact (noUB_dist fuel E hω d hw hs k).bind fun _ _ => (noUB_cmToLab _ _ _ _).bind fun _ _ => .ok _


/-! ### C136 -/

/-- **C136** For every file, reaction, energy, threshold and stream of numbers in `[0, 1)`: if the constructor accepts the reaction and its tables
satisfy the conditions that the constructors do not check, sampling the reaction accesses nothing outside its tables.  Missing for the full claim: those
conditions (`Spec.SafeDist`), see the violations. -/
theorem C136_safe_partial (a : AceBlocks) (indx fuel : Nat) (r : RxnBase) (h : RxnBase.makeAce a indx fuel = .ok r) (ω : Tape) (hω : UnitTape ω)
    (hs : SafeDist ω r.dist) (threshold E : ℝ) (fuel' k : Nat) : r.sample threshold fuel' E ω k ≠ .error .ub := by
  unfold RxnBase.sample
  exact NoUB.ite (fun _ => .ok _) (fun _ => noUB_dist fuel' E hω r.dist (RxnBase.makeAce_wf h) hs k)

theorem Spec.Read.base {fuel : Nat} {f : AceFile} {a : AceIn ℝ} {n : Nuc} (h : Read fuel f a n) {mt : Nat} {r : STRxn} (hr : n.reaction mt = .ok r) :
    ∃ (f' : AceFile) (k : Nat), RxnBase.makeAce f'.toAceBlocks k fuel = .ok r.base := by
  induction h generalizing r with
  | direct h hn =>
    rcases C99_reactions _ fuel _ hn _ h mt with ⟨_, _, r', k, e, h1, _, _, _, h5, _⟩ | ⟨_, _, h3⟩
    · rw [hr] at h1; cases h1
      exact ⟨_, k, h5⟩
    · rw [hr] at h3; cases h3
  | shared _ h hn ih =>
    obtain ⟨r0, k, e, h1, h2, _⟩ := C100_reactions _ _ _ hn _ h mt r hr
    rw [h2]
    exact ih h1

/-- **C136** The same for every reaction of every nuclide a program can construct, directly or by sharing the distributions of another. -/
theorem C136_nuclide_partial (fuel : Nat) (f : AceFile) (a : AceIn ℝ) (n : Nuc) (hn : Read fuel f a n) (mt : Nat) (r : STRxn)
    (hr : n.reaction mt = .ok r) (ω : Tape) (hω : UnitTape ω) (hs : SafeDist ω r.base.dist) (E : ℝ) (fuel' k : Nat) :
    r.base.sample r.threshold fuel' E ω k ≠ .error .ub := by
  obtain ⟨f', i, hb⟩ := hn.base hr
  exact C136_safe_partial _ _ _ _ hb ω hω hs _ E fuel' k

/-- **C136** The same for the elastic scattering angle of a nuclide made from one file. -/
theorem C136_elastic_partial (f : AceFile) (fuel : Nat) (n : Nuc) (hn : Nuc.makeAce f fuel = .ok n) (ω : Tape) (hω : UnitTape ω)
    (hs : ∀ l d, intAt f.xss f.land = .ok l → AngleDist.makeAce f.xss f.andB l = .ok d → SafeAngle d) (E : ℝ) (k : Nat) :
    n.elastic.angle E ω k ≠ .error .ub := by
  obtain ⟨l, d, h1, h2, h3, _⟩ := C99_elastic f fuel n hn
  rw [h3]
  exact noUB_angle (AngleDist.makeAce_wf h2) (hs l d h1 h2) fuel E hω k

theorem familyLaw_wf {xss : List ℝ} {dned j : Nat} {law : Int} {d : ELaw} (h : FamilyLawIs xss dned j law d) : WFELaw d := by
  cases h with
  | bins d h => exact EnergyBins.makeAce_wf h
  | tabular d h => exact TabEnergy.makeAce_wf h
  | genEvap t b h => exact genEvapAce_wf h
  | maxwell t u h => exact tempAce_wf h
  | evap t u h => exact tempAce_wf h
  | watt x y u h => exact wattAce_wf h

/-- **C136** The same for the energies of the delayed neutrons. -/
theorem C136_delayed_partial (f : AceFile) (fuel : Nat) (n : Nuc) (hn : Nuc.makeAce f fuel = .ok n) (F : Family ELaw) (hF : F ∈ n.fission.families)
    (ω : Tape) (hω : UnitTape ω) (hs : SafeELaw ω F.law) (E : ℝ) (fuel' k : Nat) : F.law.sample fuel' E ω k ≠ .error .ub := by
  by_cases hf : f.fissile = true
  · obtain ⟨i, hi⟩ := List.getElem?_of_mem hF
    obtain ⟨_, _, _, _, _, _, h⟩ := (C99_delayed f fuel n hn hf).2 i F hi
    exact noUB_energy fuel' E hω (familyLaw_wf h) hs k
  · have := ((C99_fission f fuel n hn).2.2.1 (by simpa using hf)).1
    rw [this] at hF; cases hF

theorem probOne_make : ∃ t, Tab1D.make ((TabRecord.mk [] [1, 9] [1, 1]).effective.map Prod.fst) ((TabRecord.mk [] [1, 9] [1, 1]).effective.map Prod.snd)
    (TabRecord.mk [] [1, 9] [1, 1]).x (TabRecord.mk [] [1, 9] [1, 1]).y = .ok t := by
  refine ⟨⟨[2], [.linLin], [1, 9], [1, 1], [⟨.linLin, [1, 9], [1, 1]⟩]⟩, ?_⟩
  have hs2 : isSorted ([1, 9] : List ℝ) = true := isSorted_iff.mpr (by norm_num)
  simp [TabRecord.effective, Tab1D.make, buildRegions, slice, hs2, Region.make, Interpolation.verifyX, Interpolation.verifyY, nextLow,
      subIdx, Interpolation.hasSignChange, front, getAt, bind, Except.bind, pure, Except.pure]

/-- The full claim is false of the code: a file whose reaction has an angular distribution without energies is accepted, and sampling that reaction
reads outside the (empty) table at every energy from the threshold on, whatever the stream. -/
theorem C136_violation_empty : ∃ (a : AceBlocks) (r : RxnBase), (∀ fuel, RxnBase.makeAce a 0 (fuel + 1) = .ok r) ∧
    ∀ threshold E fuel ω k, threshold ≤ E → r.sample threshold fuel E ω k = .error .ub := by
  refine ⟨{ exBlocks with xss := [51, -2, -1, 0, 1, 1, 0, 3, 10, 0, 2, 1, 9, 1, 1, 3, 1/2, 0] }, ?_⟩
  obtain ⟨a, ha⟩ : ∃ a : AceBlocks, a = { exBlocks with xss := [51, -2, -1, 0, 1, 1, 0, 3, 10, 0, 2, 1, 9, 1, 1, 3, 1/2, 0] } := ⟨_, rfl⟩
  have hx : a.xss = [51, -2, -1, 0, 1, 1, 0, 3, 10, 0, 2, 1, 9, 1, 1, 3, 1/2, 0] := by rw [ha]
  have hang : AngleDist.makeAce a.xss a.andB 1 = .ok ⟨[], []⟩ := by
    rw [ha]
    norm_num [AngleDist.makeAce, exBlocks, subIdx, natAt, getAt, xssSlice, isSorted, angleLawsAce, bind, Except.bind, pure, Except.pure]
  rw [← ha]
  have hat : ReactionAt a 0 51 (-2) (-1) (some ⟨[], []⟩) [(3, 10, ⟨[], [1, 9], [1, 1]⟩)] := by
    refine ⟨⟨[], [-2, -1, 0, 1, 1, 0, 3, 10, 0, 2, 1, 9, 1, 1, 3, 1/2, 0], by rw [hx]; simp, by rw [ha]; rfl⟩,
      ⟨[51], [-1, 0, 1, 1, 0, 3, 10, 0, 2, 1, 9, 1, 1, 3, 1/2, 0], by rw [hx]; simp, by rw [ha]; rfl⟩,
      ⟨[51, -2], [0, 1, 1, 0, 3, 10, 0, 2, 1, 9, 1, 1, 3, 1/2, 0], by rw [hx]; simp, by rw [ha]; rfl⟩,
      Or.inr ⟨1, _, rfl, ?_, by simpa using hang⟩, 1, le_refl _, ?_, ?_⟩
    · exact ⟨[51, -2, -1, 0], [1, 0, 3, 10, 0, 2, 1, 9, 1, 1, 3, 1/2, 0], by rw [hx]; simp, by rw [ha]; rfl⟩
    · exact ⟨[51, -2, -1, 0, 1], [0, 3, 10, 0, 2, 1, 9, 1, 1, 3, 1/2, 0], by rw [hx]; simp, by rw [ha]; rfl⟩
    · exact ⟨le_refl _, by norm_num, rfl, ⟨[51, -2, -1, 0, 1, 1], [3, 1/2, 0], by rw [hx]; norm_num [TabRecord.encode], by rw [ha]; rfl⟩⟩
  have hlaw : LawIs a (-2) (some ⟨[], []⟩) (a.dlw + (10 - 1)) 3 (.uncorrelated ⟨⟨[], []⟩, .level ⟨3, 1/2⟩⟩) := by
    refine .level _ _ _ rfl ?_
    rw [ha]; rfl
  obtain ⟨t, ht⟩ := probOne_make
  have hm := fun fuel => C97_reaction a 0 51 (-2) (-1) (some ⟨[], []⟩) _ hat (by norm_num) (.const |(-1 : ℝ)|)
    (by unfold readYield; rw [if_pos (by norm_num)]) [(.uncorrelated ⟨⟨[], []⟩, .level ⟨3, 1/2⟩⟩, t)] (.cons ⟨hlaw, ht⟩ .nil) (fuel + 1) (by simp)
  refine ⟨_, hm, ?_⟩
  intro th E fuel ω k hE
  have hf : AngleDist.find ⟨[], []⟩ E = .error .ub := by
    unfold AngleDist.find
    have h0 : lowerBound ([] : List ℝ) E = 0 := Nat.le_zero.mp (lowerBound_le List.Pairwise.nil E)
    simp only [h0, if_true]
    rfl
  unfold RxnBase.sample
  rw [if_neg (not_lt.mpr hE), if_pos (by norm_num)]
  show CMDist.sample ⟨a.awr, -2, (NDist.one (.uncorrelated ⟨⟨[], []⟩, .level ⟨3, 1/2⟩⟩)).toAE fuel⟩ E ω k = _
  unfold CMDist.sample
  show (Uncorr.sample fuel ⟨⟨[], []⟩, .level ⟨3, 1/2⟩⟩ E ω k >>= _) = _
  unfold Uncorr.sample AngleDist.sample
  dsimp only
  rw [hf]
  rfl

/-- The full claim is false of the code: for every reaction read with a tabulated energy-angle law (number 61) on at least two energies, the random
number 0 as second number drawn makes the code read before the beginning of a table, at every energy from the threshold on. -/
theorem C136_violation_zero (a : AceBlocks) (indx fuel : Nat) (r : RxnBase) (h : RxnBase.makeAce a indx fuel = .ok r) (d : TabEnergyAngle)
    (hd : r.dist = .one (.tabEnergyAngle d)) (h2 : 2 ≤ d.energy.length) (ω : Tape) (k : Nat) (h0 : ω (k + 1) = 0) (threshold E : ℝ) (hE : threshold ≤ E)
    (fuel' : Nat) : r.sample threshold fuel' E ω k = .error .ub := by
  have hw := RxnBase.makeAce_wf h
  rw [hd] at hw
  obtain ⟨hl, hv, hs⟩ : WFLaw (.tabEnergyAngle d) := hw
  obtain ⟨e0, he0⟩ := getElem?_of_lt (l := d.energy) (i := 0) (by omega)
  obtain ⟨en, hen⟩ := last_exists (l := d.energy) (by omega)
  obtain ⟨l, f, _, _, hb, hlt, _⟩ := C67_bracket d.energy E e0 en hs h2 he0 hen
  obtain ⟨t0, ht0⟩ := getElem?_of_lt (l := d.tables) (i := l) (by omega)
  obtain ⟨t1, ht1⟩ := getElem?_of_lt (l := d.tables) (i := l + 1) (by omega)
  have v0 := hv t0 (List.mem_of_getElem? ht0)
  have v1 := hv t1 (List.mem_of_getElem? ht1)
  have p0 : 0 < t0.energy.length := List.length_pos_of_ne_nil v0.pc.ne
  have p1 : 0 < t1.energy.length := List.length_pos_of_ne_nil v1.pc.ne
  obtain ⟨a0, ha0⟩ := getElem?_of_lt (l := t0.energy) (i := 0) p0
  obtain ⟨b0, hb0⟩ := last_exists (l := t0.energy) p0
  obtain ⟨a1, ha1⟩ := getElem?_of_lt (l := t1.energy) (i := 0) p1
  obtain ⟨b1, hb1⟩ := last_exists (l := t1.energy) p1
  have hu : unitBase t0.minEnergy t0.maxEnergy t1.minEnergy t1.maxEnergy f = .ok (a0, b0, a1, b1, a0 + f * (a1 - a0), b0 + f * (b1 - b0)) := by
    unfold unitBase EATable.minEnergy EATable.maxEnergy
    rw [front_eq_ok.mpr ha0, back_eq_ok.mpr hb0, front_eq_ok.mpr ha1, back_eq_ok.mpr hb1]
    rfl
  have s0 := C63_violation_ea_zero t0 v0 ω (k + 1) h0
  have s1 := C63_violation_ea_zero t1 v1 ω (k + 1) h0
  unfold RxnBase.sample
  rw [if_neg (not_lt.mpr hE), hd]
  show d.sample E ω k = _
  unfold TabEnergyAngle.sample
  rw [hb]
  simp only [bind, Except.bind, getAt_eq_ok.mpr ht0, getAt_eq_ok.mpr ht1, hu, s0, s1]
  split <;> rename_i heq <;> split at heq <;> cases heq <;> rfl

/-- A concrete file that meets the hypotheses of `C136_safe_partial` for every stream: the level law of C97. -/
theorem C136_hypotheses : ∃ r, (∀ fuel, RxnBase.makeAce exBlocks 0 (fuel + 1) = .ok r) ∧ (∀ ω, SafeDist ω r.dist) ∧
    r.dist = .cm 10 (-2) (.one (.uncorrelated ⟨⟨[1 / 10 ^ 5], [.isotropic]⟩, .level ⟨3, 1/2⟩⟩)) := by
  obtain ⟨t, ht⟩ := probOne_make
  have hat : ReactionAt exBlocks 0 51 (-2) (-1) (some ⟨[1 / 10 ^ 5], [.isotropic]⟩) [(3, 10, ⟨[], [1, 9], [1, 1]⟩)] := by
    refine ⟨⟨[], [-2, -1, 0, 0, 1, 0, 3, 10, 0, 2, 1, 9, 1, 1, 3, 1/2], by simp [exBlocks], rfl⟩,
      ⟨[51], [-1, 0, 0, 1, 0, 3, 10, 0, 2, 1, 9, 1, 1, 3, 1/2], by simp [exBlocks], rfl⟩,
      ⟨[51, -2], [0, 0, 1, 0, 3, 10, 0, 2, 1, 9, 1, 1, 3, 1/2], by simp [exBlocks], rfl⟩, Or.inr ⟨0, _, rfl, ?_, rfl⟩, 1, le_refl _, ?_, ?_⟩
    · exact ⟨[51, -2, -1, 0], [1, 0, 3, 10, 0, 2, 1, 9, 1, 1, 3, 1/2], by simp [exBlocks], rfl⟩
    · exact ⟨[51, -2, -1, 0, 0], [0, 3, 10, 0, 2, 1, 9, 1, 1, 3, 1/2], by simp [exBlocks], rfl⟩
    · exact ⟨le_refl _, by norm_num, rfl, ⟨[51, -2, -1, 0, 0, 1], [3, 1/2], by norm_num [exBlocks, TabRecord.encode], rfl⟩⟩
  have hm := fun fuel => C97_reaction exBlocks 0 51 (-2) (-1) _ _ hat (by norm_num) (.const |(-1 : ℝ)|)
    (by unfold readYield; rw [if_pos (by norm_num)]) [(.uncorrelated ⟨⟨[1 / 10 ^ 5], [.isotropic]⟩, .level ⟨3, 1/2⟩⟩, t)]
    (.cons ⟨.level _ _ _ rfl rfl, ht⟩ .nil) (fuel + 1) (by simp)
  refine ⟨_, hm, ?_, ?_⟩
  · intro ω
    dsimp only
    rw [if_pos (by norm_num)]
    exact ⟨⟨by simp, fun t ht => by simp at ht⟩, trivial⟩
  · dsimp only
    rw [if_pos (by norm_num)]
    rfl

end PNDL
