import Verif.Props.Serpent
import Verif.Lemmas.NuclideStr

/-! C107: what the lines of a Serpent directory file say is what the library lists. -/
namespace PNDL
open Spec

variable {K : Type} [Field K] [LinearOrder K]

/-- What a line is about: a nuclide (charge, mass, isomeric state) with its atomic weight ratio, or a thermal scattering law. -/
inductive Spec.Subject (K : Type) where
  | nuclide (Z A I : Nat) (awr : K)
  | thermal (name : List Char)

/-- What a line says. -/
structure Spec.LineData (K : Type) where
  subject : Spec.Subject K
  file : List Char
  binary : Bool
  temp : K

/-- The line says so: type `1…` is neutron data for the nuclide `ZA = 1000 Z + A`, isomeric state `I`; type `3…` is a thermal
scattering law, identified as `name.ext` with a three-character extension.  The file is binary if the eighth column is `1…`. -/
def Spec.LineSays (cv : Conv K) (r : DirRow) (d : Spec.LineData K) : Prop :=
  d.file = r.path ∧ (d.binary = true ↔ ∃ l, r.bin = '1' :: l) ∧ cv.stod r.temp = .ok d.temp ∧
    match d.subject with
    | .nuclide Z A I awr => (∃ l, r.type = '1' :: l) ∧ cv.stoul r.za = .ok (1000 * Z + A) ∧ cv.stoul r.iso = .ok I ∧ cv.stod r.aw = .ok awr ∧ Z < 2 ^ 8 ∧ A < 1000
    | .thermal name => (∃ l, r.type = '3' :: l) ∧ '.' ∉ name ∧
        ∃ a b c, r.zaid = name ++ ['.', a, b, c] ∧ ∀ x ∈ [a, b, c], x.isAlphanum = true ∨ x = '_'

/-- The line's table, as the library lists it. -/
def Spec.LineData.entry (d : Spec.LineData K) : TableEntry K := ⟨d.file, d.binary, d.temp⟩

/-- Is the line about this nuclide (in its ground state)? -/
def Spec.LineData.about (d : Spec.LineData K) (Z A : Nat) : Bool :=
  match d.subject with
  | .nuclide Z' A' I _ => decide (Z' = Z ∧ A' = A ∧ I = 0)
  | .thermal _ => false

/-- Is the line about this thermal scattering law? -/
def Spec.LineData.law (d : Spec.LineData K) (name : List Char) : Bool :=
  match d.subject with
  | .nuclide _ _ _ _ => false
  | .thermal n => decide (n = name)

theorem wordC_of {x : Char} (h : x.isAlphanum = true ∨ x = '_') : isWordC x = true := by
  unfold isWordC isUpC isLoC isDigC
  rcases h with h | h
  · have h' : x.isUpper = true ∨ x.isLower = true ∨ x.isDigit = true := by
      simpa [Char.isAlphanum, Char.isAlpha, or_assoc] using h
    have hx : x.toNat = x.val.toNat := rfl
    rcases h' with h | h | h
    · simp only [Char.isUpper, Bool.and_eq_true, decide_eq_true_eq, ge_iff_le, UInt32.le_iff_toNat_le] at h
      have : 65 ≤ x.toNat ∧ x.toNat ≤ 90 := h
      simp [this]
    · simp only [Char.isLower, Bool.and_eq_true, decide_eq_true_eq, ge_iff_le, UInt32.le_iff_toNat_le] at h
      have : 97 ≤ x.toNat ∧ x.toNat ≤ 122 := h
      simp [this]
    · simp only [Char.isDigit, Bool.and_eq_true, decide_eq_true_eq, ge_iff_le, UInt32.le_iff_toNat_le] at h
      have : 48 ≤ x.toNat ∧ x.toNat ≤ 57 := h
      simp [this]
  · simp [h]

theorem stripExt_name {name : List Char} {a b c : Char} (hn : '.' ∉ name) (h : ∀ x ∈ [a, b, c], x.isAlphanum = true ∨ x = '_') :
    stripExt (name ++ ['.', a, b, c]) = name := by
  unfold stripExt
  rw [List.length_append, regexErase_skip]
  · have : takeExt ['.', a, b, c] = some (['.', a, b, c], []) := by
      show (if isWordC a && isWordC b && isWordC c then some (['.', a, b, c], ([] : List Char)) else none) = _
      rw [wordC_of (h a (by simp)), wordC_of (h b (by simp)), wordC_of (h c (by simp))]
      rfl
    simp only [List.length_cons, List.length_nil, regexErase, this]
    simp
  · intro x hx t
    have hx' : x ≠ '.' := by rintro rfl; exact hn hx
    unfold takeExt
    split
    · rename_i heq
      simp only [List.cons.injEq] at heq
      exact absurd heq.1 hx'
    · rfl

/-- The nuclide number of the file is decoded. -/
theorem zaidOfNum_eq {Z A : Nat} (hZ : Z < 2 ^ 8) (hA : A < 1000) : zaidOfNum (1000 * Z + A) = ⟨Z, A, hZ, by omega⟩ := by
  unfold zaidOfNum
  have e1 : (1000 * Z + A) % 2 ^ 32 = 1000 * Z + A := Nat.mod_eq_of_lt (by omega)
  have e2 : (1000 * Z + A) / 1000 = Z := by omega
  have e3 : Z % 2 ^ 8 = Z := Nat.mod_eq_of_lt hZ
  congr 1
  · rw [e1, e2, e3]
  · rw [e1, e2, e3]; omega

theorem head_one {b : Bool} {s : List Char} (h : b = true ↔ ∃ l, s = '1' :: l) : (s.head? == some '1') = b := by
  have h1 : (s.head? == some '1') = true ↔ ∃ l, s = '1' :: l := by
    cases s with
    | nil => simp
    | cons c l => simp
  cases b with
  | true => exact h1.mpr (h.mp rfl)
  | false =>
    rw [← Bool.not_eq_true]
    intro hh
    exact absurd (h.mpr (h1.mp hh)) (by simp)

/-- The registration of a line about a nuclide, whatever the isomeric state. -/
theorem regOfRow_nuclide {cv : Conv K} {r : DirRow} {d : LineData K} {Z A I : Nat} {awr : K} (h : LineSays cv r d) (hd : d.subject = .nuclide Z A I awr) :
    ∃ (hZ : Z < 2 ^ 8) (hA : A < 2 ^ 32), regOfRow cv r = .ok (.neutron ⟨Z, A, hZ, hA⟩ d.entry awr) := by
  obtain ⟨h1, h2, h3, h4⟩ := h
  rw [hd] at h4
  obtain ⟨⟨l, hl⟩, hza, _, haw, hZ, hA⟩ := h4
  refine ⟨hZ, by omega, ?_⟩
  unfold regOfRow
  rw [h3, hl]
  simp only [bind, Except.bind, List.head?_cons, if_true, hza, haw, zaidOfNum_eq hZ hA, head_one h2, pure, Except.pure, LineData.entry, h1]

theorem regOfRow_thermal {cv : Conv K} {r : DirRow} {d : LineData K} {name : List Char} (h : LineSays cv r d) (hd : d.subject = .thermal name) :
    regOfRow cv r = .ok (.tsl name d.entry) := by
  obtain ⟨h1, h2, h3, h4⟩ := h
  rw [hd] at h4
  obtain ⟨⟨l, hl⟩, hn, a, b, c, hz, hw⟩ := h4
  unfold regOfRow
  rw [h3, hl, hz, stripExt_name hn hw]
  simp only [bind, Except.bind, List.head?_cons, head_one h2, pure, Except.pure, LineData.entry, h1]
  rw [if_neg (by decide)]

/-- The registrations of lines without isomers. -/
theorem regs_say {cv : Conv K} : ∀ {rows : List DirRow} {ds : List (LineData K)}, List.Forall₂ (LineSays cv) rows ds →
    (∀ d ∈ ds, ∀ Z A I awr, d.subject = .nuclide Z A I awr → I = 0) →
    ∃ regs, rows.mapM (regOfRow cv) = .ok regs ∧
      (∀ z : ZAID, neutronEntries regs z = (ds.filter fun d => d.about z.Z z.A).map LineData.entry) ∧
      (∀ name, tslEntries regs name = (ds.filter fun d => d.law name).map LineData.entry) ∧
      ∀ z : ZAID, awrs regs z =
        ds.filterMap fun d => match d.subject with
          | .nuclide Z' A' I a => if Z' = z.Z ∧ A' = z.A ∧ I = 0 then some a else none
          | .thermal _ => none := by
  intro rows ds h
  induction h with
  | nil => intro _; exact ⟨[], rfl, fun _ => rfl, fun _ => rfl, fun _ => rfl⟩
  | @cons r d rows ds h1 h2 ih =>
    intro h0
    obtain ⟨regs, e1, e2, e3, e4⟩ := ih fun x hx => h0 x (by simp [hx])
    cases hs : d.subject with
    | nuclide Z A I awr =>
      obtain ⟨hZ, hA, hr⟩ := regOfRow_nuclide h1 hs
      have hI := h0 d (by simp) Z A I awr hs
      subst hI
      have hz : ∀ z : ZAID, ((⟨Z, A, hZ, hA⟩ : ZAID) = z) ↔ (Z = z.Z ∧ A = z.A) := by
        intro z
        cases z
        simp
      refine ⟨.neutron ⟨Z, A, hZ, hA⟩ d.entry awr :: regs, ?_, fun z => ?_, fun name => ?_, fun z => ?_⟩
      · rw [List.mapM_cons, hr]
        simp only [bind, Except.bind, e1]
        rfl
      · unfold neutronEntries at e2 ⊢
        rw [List.filterMap_cons, List.filter_cons]
        have ha : d.about z.Z z.A = decide (Z = z.Z ∧ A = z.A) := by
          unfold LineData.about
          rw [hs]
          simp
        rw [ha]
        dsimp only
        by_cases hc : Z = z.Z ∧ A = z.A
        · rw [if_pos ((hz z).mpr hc), if_pos (by simpa using hc), List.map_cons, ← e2]
        · rw [if_neg (fun hh => hc ((hz z).mp hh)), if_neg (by simpa using hc), ← e2]
      · unfold tslEntries at e3 ⊢
        rw [List.filterMap_cons, List.filter_cons]
        have ha : d.law name = false := by
          unfold LineData.law
          rw [hs]
        rw [ha, if_neg (by simp), ← e3]
      · unfold awrs at e4 ⊢
        rw [List.filterMap_cons, List.filterMap_cons, e4, hs]
        dsimp only
        by_cases hc : Z = z.Z ∧ A = z.A
        · rw [if_pos ((hz z).mpr hc), if_pos ⟨hc.1, hc.2, rfl⟩]
        · rw [if_neg (fun hh => hc ((hz z).mp hh)), if_neg (fun hh => hc ⟨hh.1, hh.2.1⟩)]
    | thermal nm =>
      have hr := regOfRow_thermal h1 hs
      refine ⟨.tsl nm d.entry :: regs, ?_, fun z => ?_, fun name => ?_, fun z => ?_⟩
      · rw [List.mapM_cons, hr]
        simp only [bind, Except.bind, e1]
        rfl
      · unfold neutronEntries at e2 ⊢
        rw [List.filterMap_cons, List.filter_cons]
        have ha : d.about z.Z z.A = false := by
          unfold LineData.about
          rw [hs]
        rw [ha, if_neg (by simp), ← e2]
      · unfold tslEntries at e3 ⊢
        rw [List.filterMap_cons, List.filter_cons]
        have ha : d.law name = decide (nm = name) := by
          unfold LineData.law
          rw [hs]
        rw [ha]
        dsimp only
        by_cases hc : nm = name
        · rw [if_pos hc, if_pos (by simpa using hc), List.map_cons, ← e3]
        · rw [if_neg hc, if_neg (by simpa using hc), ← e3]
      · unfold awrs at e4 ⊢
        rw [List.filterMap_cons, List.filterMap_cons, e4, hs]

/-- C107, files that do not end in white space and list no isomers: for every nuclide and every thermal scattering law, the
library lists exactly the tables of the non-alias lines about it, in their order, each with its file, format and temperature.
Missing: isomers (`C107_violation_isomer`) and the repeated last line (`C54_violation`). -/
theorem C107_listed_partial (cv : Conv K) (rows : List DirRow) (text : List Char) (h : DirFile rows [] text) (hrows : rows ≠ [])
    (say : DirRow → LineData K) (hsay : ∀ r ∈ rows, Relevant r → LineSays cv r (say r))
    (hiso : ∀ r ∈ rows, Relevant r → ∀ Z A I awr, (say r).subject = .nuclide Z A I awr → I = 0) :
    ∃ kept regs, NonAlias rows kept ∧ parseSerpent cv text = .ok regs ∧
      (∀ z : ZAID, neutronEntries regs z = ((kept.map say).filter fun d => d.about z.Z z.A).map LineData.entry) ∧
      (∀ name, tslEntries regs name = ((kept.map say).filter fun d => d.law name).map LineData.entry) ∧
      ∀ (z : ZAID) awr, awrOf regs z = some awr → ∃ r ∈ kept, (say r).subject = .nuclide z.Z z.A 0 awr := by
  obtain ⟨kept, hk, hp⟩ := C54_each_once_partial cv rows text h hrows
  have hmem : ∀ r ∈ kept, r ∈ rows ∧ Relevant r := fun r hr => ⟨hk.1.subset hr, hk.2.1 r hr⟩
  have hf : List.Forall₂ (LineSays cv) kept (kept.map say) := by
    rw [List.forall₂_map_right_iff, List.forall₂_same]
    exact fun r hr => hsay r (hmem r hr).1 (hmem r hr).2
  obtain ⟨regs, e1, e2, e3, e4⟩ := regs_say hf (by
    intro d hd
    obtain ⟨r, hr, rfl⟩ := List.mem_map.mp hd
    exact hiso r (hmem r hr).1 (hmem r hr).2)
  refine ⟨kept, regs, hk, hp.trans e1, e2, e3, fun z awr ha => ?_⟩
  unfold awrOf at ha
  rw [e4] at ha
  have := List.mem_of_getLast? ha
  rw [List.mem_filterMap] at this
  obtain ⟨d, hd, hx⟩ := this
  obtain ⟨r, hr, rfl⟩ := List.mem_map.mp hd
  refine ⟨r, hr, ?_⟩
  cases hs : (say r).subject with
  | nuclide Z A I a =>
    rw [hs] at hx
    dsimp only at hx
    by_cases hc : Z = z.Z ∧ A = z.A ∧ I = 0
    · rw [if_pos hc] at hx
      cases hx
      rw [hc.1, hc.2.1, hc.2.2]
    · rw [if_neg hc] at hx; cases hx
  | thermal n => rw [hs] at hx; cases hx

/-- C107 fails for isomers: the column with the isomeric state is read but not used, so that the tables of a nuclide and of its
isomers all become tables of the nuclide in its ground state. -/
theorem C107_violation_isomer (cv : Conv K) (r : DirRow) (d : LineData K) (Z A I : Nat) (awr : K) (h : LineSays cv r d)
    (hd : d.subject = .nuclide Z A I awr) : ∃ (hZ : Z < 2 ^ 8) (hA : A < 2 ^ 32) (g : Reg K), regOfRow cv r = .ok g ∧
      neutronEntries [g] ⟨Z, A, hZ, hA⟩ = [d.entry] ∧ ∀ z : ZAID, z ≠ ⟨Z, A, hZ, hA⟩ → neutronEntries [g] z = [] := by
  obtain ⟨hZ, hA, hr⟩ := regOfRow_nuclide h hd
  refine ⟨hZ, hA, _, hr, by simp [neutronEntries], fun z hz => ?_⟩
  simp [neutronEntries, hz.symm]

/-- C107, a file with americium 242 and its isomer, at the same temperature: both tables are listed for the ground state, none for the
nuclide `Am242m1`, and both have the temperature of the request. -/
theorem C107_violation_example :
    (parseSerpent digitConv "Am-242.03c 95242.03c 1 95242 0 240 300 0 gs\nAm-242m.03c 95342.03c 1 95242 1 240 300 0 m1".toList).map
      (fun regs => (neutronEntries regs ⟨95, 242, by decide, by decide⟩, neutronEntries regs (Nuclide.zaid ⟨⟨⟨95⟩, 242⟩, 1⟩)))
      = .ok ([⟨"gs".toList, false, 300⟩, ⟨"m1".toList, false, 300⟩], []) := by
  decide +kernel

/-- Two lines that meet the hypotheses of `C107_listed_partial`. -/
def exLine1 : DirRow := ⟨"U-235.03c".toList, "92235.03c".toList, "1".toList, "92235".toList, "0".toList, "233".toList, "300".toList, "1".toList, "u5".toList⟩
def exLine2 : DirRow := ⟨"grph.20t".toList, "grph.20t".toList, "3".toList, "0".toList, "0".toList, "0".toList, "296".toList, "0".toList, "c".toList⟩

example : LineSays digitConv exLine1 ⟨.nuclide 92 235 0 233, "u5".toList, true, 300⟩ ∧ LineSays digitConv exLine2 ⟨.thermal "grph".toList, "c".toList, false, 296⟩ := by
  refine ⟨⟨by decide, ⟨fun _ => ⟨[], by decide⟩, fun _ => rfl⟩, by decide +kernel, ?_⟩, ⟨by decide, ⟨fun h => Bool.noConfusion h, fun h => ?_⟩, by decide +kernel, ?_⟩⟩
  · exact ⟨⟨[], by decide⟩, by decide +kernel, by decide +kernel, by decide +kernel, by decide, by decide⟩
  · obtain ⟨l, hl⟩ := h
    have : exLine2.bin = ['0'] := by decide
    rw [this] at hl
    cases hl
  · exact ⟨⟨[], by decide⟩, by decide, '2', '0', 't', by decide, by decide⟩

end PNDL
