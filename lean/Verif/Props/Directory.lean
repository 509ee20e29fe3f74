import Verif.Model.Directory
import Verif.Props.Nuclide

/-! C90: the names a library lists can be used to ask for the data. -/
namespace PNDL
open Spec

theorem symbol_not_nuclide {s : List Char} (h : ElemSym s) : ¬ NuclideLang s := by
  rintro ⟨a, w, d, m, b, rfl, ha, hw, ⟨hd1, _, hd2⟩, _, _⟩
  obtain ⟨u, lo, e, hu, _, hlo⟩ := h
  obtain ⟨c, d', rfl⟩ : ∃ c d', d = c :: d' := by cases d with | nil => simp at hd1 | cons c d' => exact ⟨c, d', rfl⟩
  have hc := hd2 c (by simp)
  have hm : c ∈ u :: lo := by rw [← e]; simp
  unfold Upper at hu
  unfold Digit at hc
  rcases List.mem_cons.mp hm with rfl | hm
  · omega
  · have := hlo c hm
    unfold Lower at this
    omega

theorem element_lookup (Z : Nat) (h1 : 1 ≤ Z) (h2 : Z ≤ 118) : ∃ s, (Element.mk Z).symbol = .ok s ∧
    symbolToZaid s = .ok (Element.mk Z).zaid := by
  obtain ⟨⟨s, hs, he⟩, _⟩ := C05_element Z ⟨Z⟩ (Element.ofZ_ok.mpr ⟨h1, h2, rfl⟩) [] [] (by simp [Ws]) (by simp [Ws])
  refine ⟨s, hs, ?_⟩
  simp only [List.nil_append, List.append_nil] at he
  obtain ⟨r, hr, q1, q2, q3, q4, q5, q6, q7⟩ := row_of h1 h2
  have hsr : s = r.symbol := by rw [q1] at hs; simpa using hs.symm
  have hsym : ElemSym s := by rw [hsr]; exact q5
  unfold symbolToZaid
  have hn : isNuclideRegex s = false := by
    cases h : isNuclideRegex s with
    | false => rfl
    | true => exact absurd (isNuclideRegex_iff.mp h) (symbol_not_nuclide hsym)
  have hel : isElementRegex s = true := isElementRegex_iff.mpr ⟨[], s, [], by simp, by simp [Ws], hsym, by simp [Ws]⟩
  rw [hn, hel]
  simp [he, bind, Except.bind, pure, Except.pure]


/-- A nuclide built from a ZAID with an admissible isomer level encodes to the same ZAID. -/
theorem ofZaid_zaid (z : ZAID) (n : Nuclide) (hA : z.A < 1000) (h : Nuclide.ofZaid z = .ok n) (hl : n.level ≤ 2) :
    n.zaid = z ∧ ∃ A, Nuclide.ofZAL z.Z A n.level = .ok n := by
  have hZ : 1 ≤ z.Z ∧ z.Z ≤ 118 := by
    by_contra hc
    have := (C02_element z.Z).2 hc
    unfold Nuclide.ofZaid at h
    rw [this] at h
    cases h
  obtain ⟨h1, h2⟩ := hZ
  have hLl := largest_lt h1 h2
  have key : ∀ A, n = ⟨⟨⟨z.Z⟩, A⟩, n.level⟩ → z.Z ≤ A → A < 300 →
      (if n.level > 0 then (A + 300 + n.level * 100) % 2 ^ 32 else A % 2 ^ 32) = z.A →
      n.zaid = z ∧ ∃ A, Nuclide.ofZAL z.Z A n.level = .ok n := by
    intro A e a1 a2 a3
    refine ⟨?_, A, ofZAL_ok.mpr ⟨h1, h2, a1, a2, hl, e⟩⟩
    have eZ : n.zaid.Z = z.Z := by
      change n.isotope.element.Z % 2 ^ 8 = z.Z
      rw [e]; exact Nat.mod_eq_of_lt z.hZ
    have eA : n.zaid.A = z.A := by
      change n.zaidA = z.A
      unfold Nuclide.zaidA
      have : n.isotope.A = A := by rw [e]
      rw [this]
      exact a3
    cases hz : n.zaid with
    | mk Z' A' _ _ =>
      cases z with
      | mk Z A _ _ => rw [hz] at eZ eA; simp only at eZ eA; subst eZ eA; rfl
  rw [Nuclide.ofZaid_eq _ h1 h2] at h
  by_cases hgt : z.A > 300
  · rw [if_pos hgt] at h
    obtain ⟨k, q1, q2, q3, q4⟩ := decodeLoop_shape (largestOf z.Z) (sub32 z.A 400) (sub32 z.A 400) 1 (le_refl _) (by decide)
    simp only at h
    generalize decodeLoop (largestOf z.Z) (sub32 z.A 400) (sub32 z.A 400) 1 = r at *
    by_cases hr : r.1 > largestOf z.Z
    · rw [if_pos hr] at h; cases h
    rw [if_neg hr] at h
    cases hi : Isotope.ofZA z.Z r.1 with
    | error e => rw [hi] at h; cases h
    | ok i =>
      obtain ⟨_, _, i3, i4, rfl⟩ := Isotope.ofZA_ok.mp hi
      rw [hi] at h
      simp only [Except.map] at h
      cases h
      dsimp only at hl key
      refine key r.1 rfl i3 i4 ?_
      by_cases h400 : 400 ≤ z.A
      · have e : sub32 z.A 400 = z.A - 400 := by unfold sub32; rw [if_pos h400]
        rw [e] at q1
        have hk : k < 10 := by omega
        have hlev : r.2 = 1 + k := by rw [q2]; omega
        rw [hlev]
        simp only [gt_iff_lt]
        rw [if_pos (by omega)]
        omega
      · exfalso
        have e : sub32 z.A 400 = 2 ^ 32 - (400 - z.A) := by unfold sub32; rw [if_neg h400]
        rw [e] at q1
        have : 42949665 ≤ k ∧ k ≤ 42949672 := by omega
        rw [q2] at hl
        omega
  · rw [if_neg hgt] at h
    cases hi : Isotope.ofZA z.Z z.A with
    | error e => rw [hi] at h; cases h
    | ok i =>
      obtain ⟨_, _, i3, i4, rfl⟩ := Isotope.ofZA_ok.mp hi
      rw [hi] at h
      simp only [Except.map] at h
      cases h
      refine key z.A rfl i3 i4 ?_
      dsimp only
      rw [if_neg (by omega)]
      omega

/-- The full statement would be: every symbol listed for the neutron data of a library leads back to the ZAID it was listed for.  Proved when the
ZAID does not denote an isomer level above 2 (`A < 1000` holds for every number `1000 Z + A` with `Z ≤ 255`); the rest is false. -/
theorem C90_neutron_partial (z : ZAID) (s : List Char) (hA : z.A < 1000) (h : listedSymbol z = .ok s)
    (hl : ∀ n, Nuclide.ofZaid z = .ok n → n.level ≤ 2) : symbolToZaid s = .ok z := by
  unfold listedSymbol at h
  by_cases h0 : z.A = 0
  · rw [if_pos h0] at h
    by_cases hZ : 1 ≤ z.Z ∧ z.Z ≤ 118
    · have he : Element.ofZaid z = .ok ⟨z.Z⟩ := Element.ofZ_ok.mpr ⟨hZ.1, hZ.2, rfl⟩
      rw [he] at h
      simp only [bind, Except.bind] at h
      obtain ⟨s', hs', hl'⟩ := element_lookup z.Z hZ.1 hZ.2
      rw [hs'] at h
      cases h
      rw [hl']
      congr 1
      cases z with
      | mk Z A _ _ =>
        simp only at h0
        subst h0
        simp only [Element.zaid, ZAID.mk.injEq, and_true]
        exact Nat.mod_eq_of_lt (by assumption)
    · have he : Element.ofZaid z = .error .exc := (C02_element z.Z).2 hZ
      rw [he] at h
      cases h
  · rw [if_neg h0] at h
    cases hn : Nuclide.ofZaid z with
    | error e => rw [hn] at h; cases h
    | ok n =>
      rw [hn] at h
      simp only [bind, Except.bind] at h
      obtain ⟨hz, A, hal⟩ := ofZaid_zaid z n hA hn (hl n hn)
      obtain ⟨s', hs', hos⟩ := C05_nuclide_roundtrip z.Z A n.level n hal [] [] (by simp [Ws]) (by simp [Ws])
      rw [hs'] at h
      cases h
      simp only [List.nil_append, List.append_nil] at hos
      unfold symbolToZaid
      have hreg : isNuclideRegex s = true := by
        cases hb : isNuclideRegex s with
        | true => rfl
        | false => unfold Nuclide.ofString at hos; rw [hb] at hos; simp at hos
      rw [if_pos hreg, hos]
      simp [bind, Except.bind, pure, Except.pure, hz]

/-- The list contains one symbol per nuclide of the library, each of which leads back to its nuclide. -/
theorem C90_list_partial (zs : List ZAID) (syms : List (List Char)) (h : listSymbols zs = .ok syms)
    (hok : ∀ z ∈ zs, z.A < 1000 ∧ ∀ n, Nuclide.ofZaid z = .ok n → n.level ≤ 2) :
    ∃ zs' : List ZAID, zs'.Perm zs ∧ syms.map symbolToZaid = zs'.map (fun z => Except.ok z) := by
  refine ⟨_, List.mergeSort_perm zs (fun a b => !ZAID.lt b a), ?_⟩
  unfold listSymbols at h
  have hmem : ∀ z ∈ zs.mergeSort (fun a b => !ZAID.lt b a), z ∈ zs := fun z hz => (List.mergeSort_perm zs _).mem_iff.mp hz
  generalize zs.mergeSort (fun a b => !ZAID.lt b a) = l at *
  induction l generalizing syms with
  | nil => simp only [List.mapM_nil, pure, Except.pure] at h; cases h; rfl
  | cons z l ih =>
    rw [List.mapM_cons] at h
    cases h1 : listedSymbol z with
    | error e => rw [h1] at h; cases h
    | ok s =>
      rw [h1] at h
      simp only [bind, Except.bind] at h
      cases h2 : l.mapM listedSymbol with
      | error e => rw [h2] at h; cases h
      | ok ss =>
        rw [h2] at h
        simp only [pure, Except.pure] at h
        cases h
        obtain ⟨a1, a2⟩ := hok z (hmem z (by simp))
        rw [List.map_cons, List.map_cons, C90_neutron_partial z s a1 h1 a2, ih ss h2 (fun z hz => hmem z (by simp [hz]))]

/-- Violation: the ZAID 1601 is listed as `H1m3`, which no look-up accepts. -/
theorem C90_violation_neutron : ∃ z : ZAID, z.zaid = 1601 ∧ listedSymbol z = .ok "H1m3".toList ∧
    symbolToZaid "H1m3".toList = .error .exc :=
  ⟨⟨1, 601, by decide, by decide⟩, by decide, by decide +kernel, by decide +kernel⟩

/-- Neutron symbols that work: U235, Am242m1, natural carbon. -/
example : listedSymbol ⟨92, 235, by decide, by decide⟩ = .ok "U235".toList ∧
    listedSymbol ⟨95, 642, by decide, by decide⟩ = .ok "Am242m1".toList ∧
    listedSymbol ⟨6, 0, by decide, by decide⟩ = .ok "C".toList := by decide +kernel

/-! ### Thermal scattering laws -/

theorem takeTsl_full (w : List Char) (hw : ∀ c ∈ w, isTslC c = true) (hne : w ≠ []) : takeTsl w = some (w.take 6, w.drop 6) := by
  unfold takeTsl
  have : (w.take 6).takeWhile isTslC = w.take 6 := by
    have h := List.takeWhile_append_of_pos (l₁ := w.take 6) (l₂ := []) (p := isTslC) (fun c hc => hw c (List.mem_of_mem_take hc))
    simpa using h
  rw [this]
  have hne' : (w.take 6).isEmpty = false := by
    cases w with
    | nil => exact absurd rfl hne
    | cons c w => rfl
  simp only [hne', List.length_take]
  rw [if_neg (by simp)]
  by_cases h6 : 6 ≤ w.length
  · rw [Nat.min_eq_left h6]
  · rw [Nat.min_eq_right (by omega), List.drop_of_length_le (by omega), List.drop_of_length_le (by omega)]

theorem search_tsl (w : List Char) (hw : ∀ c ∈ w, isTslC c = true) (hne : w ≠ []) : regexSearch takeTsl w = w.take 6 := by
  cases w with
  | nil => exact absurd rfl hne
  | cons c w =>
    unfold regexSearch
    rw [takeTsl_full _ hw hne]

/-- The full statement would be: every name listed for the thermal scattering laws of a library finds that law.  Proved for names of one to
six letters, digits, underscores or hyphens. -/
theorem C90_tsl_partial (names : List (List Char)) (w : List Char) (hm : w ∈ names) (hw : ∀ c ∈ w, isTslC c = true) (hne : w ≠ [])
    (h6 : w.length ≤ 6) : findTsl names w = .ok w := by
  unfold findTsl
  rw [search_tsl w hw hne, List.take_of_length_le h6]
  dsimp only
  rw [if_neg (by simpa using hne), if_pos hm]

/-- Violation: a listed law with a longer name is never found — the name is cut after six characters, so it is refused or the law of the
shorter name is returned. -/
theorem C90_violation_tsl (names : List (List Char)) (w : List Char) (h6 : 6 < w.length) :
    findTsl names w ≠ .ok w := by
  have hlen : ∀ s : List Char, (regexSearch takeTsl s).length ≤ 6 := by
    intro s
    induction s with
    | nil => simp [regexSearch]
    | cons c s ih =>
      unfold regexSearch
      cases h : takeTsl (c :: s) with
      | none => exact ih
      | some p =>
        obtain ⟨x, y⟩ := p
        dsimp only
        unfold takeTsl at h
        dsimp only at h
        split at h
        · cases h
        · cases h
          exact (List.takeWhile_sublist _).length_le.trans (by simp)
  intro h
  unfold findTsl at h
  dsimp only at h
  have := hlen w
  split at h
  · cases h
  · split at h
    · have e : regexSearch takeTsl w = w := by injection h
      rw [e] at this; omega
    · cases h

/-- … the law found is another one. -/
theorem C90_violation_tsl_other : findTsl ["be-met".toList, "be-metal".toList] "be-metal".toList = .ok "be-met".toList := by
  decide +kernel

end PNDL
