import Verif.Lemmas.NuclideStr

/-! C01–C05: identifiers. -/
namespace PNDL
open Spec

/-! ## C01 — ZAID integer encoding and ordering agree -/

/-- Two ZAIDs with `A < 1000` and the same integer code are the same ZAID. -/
theorem C01_zaid_injective (a b : ZAID) (ha : a.A < 1000) (hb : b.A < 1000) (h : a.zaid = b.zaid) : a = b := by
  obtain ⟨aZ, aA, h1, h2⟩ := a
  obtain ⟨bZ, bA, h3, h4⟩ := b
  simp only [ZAID.zaid] at *
  rw [Nat.mod_eq_of_lt (by omega), Nat.mod_eq_of_lt (by omega)] at h
  have e1 : aZ = bZ := by omega
  have e2 : aA = bA := by omega
  subst e1; subst e2; rfl

/-- `operator<` agrees with `<` on the integer codes. -/
theorem C01_order_agrees (a b : ZAID) (ha : a.A < 1000) (hb : b.A < 1000) : a.lt b = true ↔ a.zaid < b.zaid := by
  obtain ⟨aZ, aA, h1, h2⟩ := a
  obtain ⟨bZ, bA, h3, h4⟩ := b
  simp only [ZAID.zaid, ZAID.lt] at *
  rw [Nat.mod_eq_of_lt (by omega), Nat.mod_eq_of_lt (by omega)]
  split
  · simp; omega
  · split
    · simp; omega
    · split
      · simp; omega
      · simp; omega

/-- `operator<` is a strict total order, `operator==` is equality (no bound on `A`). -/
theorem C01_strict_total_order :
    (∀ a : ZAID, a.lt a = false) ∧
    (∀ a b c : ZAID, a.lt b = true → b.lt c = true → a.lt c = true) ∧
    (∀ a b : ZAID, a.lt b = true ∨ a.eq b = true ∨ b.lt a = true) ∧
    (∀ a b : ZAID, ¬ (a.lt b = true ∧ b.lt a = true)) ∧
    (∀ a b : ZAID, a.eq b = true ↔ a = b) := by
  have key : ∀ a b : ZAID, a.lt b = true ↔ a.Z < b.Z ∨ (a.Z = b.Z ∧ a.A < b.A) := by
    intro a b
    unfold ZAID.lt
    split
    · simp; omega
    · split
      · simp; omega
      · split
        · simp; omega
        · simp; omega
  have ke : ∀ a b : ZAID, a.eq b = true ↔ a.Z = b.Z ∧ a.A = b.A := by intro a b; simp [ZAID.eq]
  refine ⟨?_, ?_, ?_, ?_, ?_⟩
  · intro a
    have := key a a
    cases h : a.lt a
    · rfl
    · rw [h] at this; simp at this
  · intro a b c; simp only [key]; omega
  · intro a b; simp only [key, ke]; omega
  · intro a b; simp only [key]; omega
  · intro a b
    rw [ke]
    constructor
    · rintro ⟨h1, h2⟩
      cases a; cases b; simp_all
    · rintro rfl; simp

/-- `std::hash<ZAID>` is consistent with `operator==`, for whatever hash of `uint32_t` is used. -/
theorem C01_hash_consistent (h : Nat → Nat) (a b : ZAID) (heq : a.eq b = true) : a.hash h = b.hash h := by
  rw [(C01_strict_total_order.2.2.2.2 a b).mp heq]

/-- Why the bound on `A` is needed: two different ZAIDs share the code 2000. -/
theorem C01_bound_needed : ∃ a b : ZAID, a ≠ b ∧ a.zaid = b.zaid :=
  ⟨⟨1, 1000, by decide, by decide⟩, ⟨2, 0, by decide, by decide⟩, by decide, by decide⟩

example : (⟨92, 235, by decide, by decide⟩ : ZAID).zaid = 92235 ∧ (235 : Nat) < 1000 := by decide
example : (⟨92, 235, by decide, by decide⟩ : ZAID).lt ⟨94, 239, by decide, by decide⟩ = true := by decide

/-! ## C02 — Element/Isotope construction accepts exactly the documented domain -/

/-- `Element(Z)`: succeeds iff `1 ≤ Z ≤ 118`, then stores `Z`; otherwise it throws. -/
theorem C02_element (Z : Nat) :
    (1 ≤ Z ∧ Z ≤ 118 → ∃ e, Element.ofZ Z = .ok e ∧ e.Z = Z) ∧
    (¬ (1 ≤ Z ∧ Z ≤ 118) → Element.ofZ Z = .error .exc) := by
  constructor
  · rintro ⟨h1, h2⟩; exact ⟨⟨Z⟩, Element.ofZ_ok.mpr ⟨h1, h2, rfl⟩, rfl⟩
  · intro h; unfold Element.ofZ nElem; rw [if_pos (by omega)]

/-- `Isotope(Z, A)`: succeeds iff `1 ≤ Z ≤ 118` and `Z ≤ A < 300`, then stores `Z`, `A`; otherwise it throws. -/
theorem C02_isotope (Z A : Nat) :
    (1 ≤ Z ∧ Z ≤ 118 ∧ Z ≤ A ∧ A < 300 → ∃ i, Isotope.ofZA Z A = .ok i ∧ i.Z = Z ∧ i.A = A) ∧
    (¬ (1 ≤ Z ∧ Z ≤ 118 ∧ Z ≤ A ∧ A < 300) → Isotope.ofZA Z A = .error .exc) := by
  constructor
  · rintro ⟨h1, h2, h3, h4⟩
    exact ⟨⟨⟨Z⟩, A⟩, Isotope.ofZA_ok.mpr ⟨h1, h2, h3, h4, rfl⟩, rfl, rfl⟩
  · exact Isotope.ofZA_err

/-- The ZAID constructors agree with the integer ones, and every constructible element has a table row
(the accessors never index out of range). -/
theorem C02_zaid_and_accessors :
    (∀ z : ZAID, Element.ofZaid z = Element.ofZ z.Z) ∧
    (∀ z : ZAID, Isotope.ofZaid z = Isotope.ofZA z.Z z.A) ∧
    (∀ Z e, Element.ofZ Z = .ok e → ∃ n s L, e.name = .ok n ∧ e.symbol = .ok s ∧ e.largest = .ok L ∧ Z < L ∧ L < 300) := by
  refine ⟨fun _ => rfl, fun _ => rfl, ?_⟩
  intro Z e h
  obtain ⟨h1, h2, rfl⟩ := Element.ofZ_ok.mp h
  have hl : Z - 1 < elementsTable.length := by rw [elementsTable_length]; omega
  refine ⟨elementsTable[Z-1].name, elementsTable[Z-1].symbol, largestOf Z, ?_, ?_, largest_ok h1 h2,
    largest_gt h1 h2, largest_lt h1 h2⟩ <;>
  simp [Element.name, Element.symbol, Element.info, subIdx, h1, getAt_of_lt hl, bind, Except.bind, pure, Except.pure]

example : ∃ i, Isotope.ofZA 92 235 = .ok i := ⟨⟨⟨92⟩, 235⟩, by decide⟩
example : Isotope.ofZA 92 91 = .error .exc ∧ Isotope.ofZA 119 200 = .error .exc ∧ Isotope.ofZA 1 300 = .error .exc := by decide

/-! ## C03 — Nuclide <-> ZAID round trip -/

theorem ofZAL_ok {Z A level : Nat} {n : Nuclide} :
    Nuclide.ofZAL Z A level = .ok n ↔
      1 ≤ Z ∧ Z ≤ 118 ∧ Z ≤ A ∧ A < 300 ∧ level ≤ 2 ∧ n = ⟨⟨⟨Z⟩, A⟩, level⟩ := by
  unfold Nuclide.ofZAL
  by_cases h : 1 ≤ Z ∧ Z ≤ 118 ∧ Z ≤ A ∧ A < 300
  · obtain ⟨h1, h2, h3, h4⟩ := h
    rw [Isotope.ofZA_ok.mpr ⟨h1, h2, h3, h4, rfl⟩]
    simp only [bind, Except.bind]
    split
    · simp; omega
    · simp; constructor
      · rintro rfl; exact ⟨h1, h2, h3, h4, by omega, rfl⟩
      · rintro ⟨_, _, _, _, _, rfl⟩; rfl
  · rw [Isotope.ofZA_err h]
    simp [bind, Except.bind]; omega

/-- **Exact characterisation of the round trip.**  A nuclide built from `(Z, A, level)` survives
`Nuclide(n.zaid())` if and only if it is a ground state, or a level-1 isomer with `A ≤ L`, or a level-2 isomer with
`A ≤ L < A + 100`, where `L` is the element's largest tabulated isotope. -/
theorem C03_roundtrip_iff (Z A level L : Nat) (n : Nuclide) (hn : Nuclide.ofZAL Z A level = .ok n)
    (hL : (Element.mk Z).largest = .ok L) :
    Nuclide.ofZaid n.zaid = .ok n ↔
      level = 0 ∨ (level = 1 ∧ A ≤ L) ∨ (level = 2 ∧ A ≤ L ∧ L < A + 100) := by
  obtain ⟨h1, h2, h3, h4, h5, rfl⟩ := ofZAL_ok.mp hn
  have hL' : L = largestOf Z := by
    rw [largest_ok h1 h2] at hL; simpa using hL.symm
  subst hL'
  have hZ : (Nuclide.zaid ⟨⟨⟨Z⟩, A⟩, level⟩).Z = Z := by
    show Z % 2 ^ 8 = Z; omega
  rw [Nuclide.ofZaid_eq _ (by omega) (by omega), hZ]
  have hlt := largest_lt h1 h2
  have hA : (Nuclide.zaid ⟨⟨⟨Z⟩, A⟩, level⟩).A = if level > 0 then A + 300 + level * 100 else A := by
    show (Nuclide.zaidA _) = _
    simp only [Nuclide.zaidA]
    split <;> omega
  rw [hA]
  have h012 : level = 0 ∨ level = 1 ∨ level = 2 := by omega
  rcases h012 with rfl | rfl | rfl
  · simp only [gt_iff_lt, lt_irrefl, if_false]
    rw [if_neg (by omega), Isotope.ofZA_ok.mpr ⟨h1, h2, h3, h4, rfl⟩]
    simp [Except.map]
  · simp only [gt_iff_lt, Nat.lt_one_iff, if_true]
    rw [if_pos (by omega)]
    have e : sub32 (A + 300 + 1 * 100) 400 = A := by unfold sub32; rw [if_pos (by omega)]; omega
    rw [e]
    obtain ⟨k, q1, q2, q3, q4⟩ := decodeLoop_shape (largestOf Z) A A 1 (le_refl _) (by decide)
    generalize decodeLoop (largestOf Z) A A 1 = r at *
    obtain ⟨rA, rl⟩ := r
    simp only at *
    by_cases hAL : A ≤ largestOf Z
    · have hk : k = 0 := by
        by_contra hk
        have := q4 k (by omega) (le_refl _)
        omega
      subst hk
      have : rA = A := by omega
      subst this
      rw [if_neg (by omega), Isotope.ofZA_ok.mpr ⟨h1, h2, h3, h4, rfl⟩]
      simp [Except.map, q2]; omega
    · have : ¬ (A = 1 ∧ False) := by simp
      constructor
      · intro hh
        exfalso
        split at hh
        · simp at hh
        · rename_i hr
          cases hi : Isotope.ofZA Z rA with
          | error e => rw [hi] at hh; simp [Except.map] at hh
          | ok i =>
            rw [hi] at hh
            have := (Isotope.ofZA_ok.mp hi).2.2.2.2
            subst this
            simp [Except.map] at hh
            omega
      · intro hh; omega
  · simp only [gt_iff_lt, Nat.zero_lt_succ, if_true]
    rw [if_pos (by omega)]
    have e : sub32 (A + 300 + 2 * 100) 400 = A + 100 := by unfold sub32; rw [if_pos (by omega)]; omega
    rw [e]
    obtain ⟨k, q1, q2, q3, q4⟩ := decodeLoop_shape (largestOf Z) (A + 100) (A + 100) 1 (le_refl _) (by decide)
    generalize decodeLoop (largestOf Z) (A + 100) (A + 100) 1 = r at *
    obtain ⟨rA, rl⟩ := r
    simp only at *
    by_cases hAL : A ≤ largestOf Z ∧ largestOf Z < A + 100
    · have hk : k = 1 := by
        have hk0 : k ≠ 0 := by rintro rfl; omega
        by_contra hk1
        have := q4 (k - 1) (by omega) (by omega)
        omega
      subst hk
      have : rA = A := by omega
      subst this
      rw [if_neg (by omega), Isotope.ofZA_ok.mpr ⟨h1, h2, h3, h4, rfl⟩]
      simp [Except.map, q2]; omega
    · constructor
      · intro hh
        exfalso
        split at hh
        · simp at hh
        · rename_i hr
          cases hi : Isotope.ofZA Z rA with
          | error e => rw [hi] at hh; simp [Except.map] at hh
          | ok i =>
            rw [hi] at hh
            have := (Isotope.ofZA_ok.mp hi).2.2.2.2
            subst this
            simp [Except.map] at hh
            obtain ⟨hh1, hh2⟩ := hh
            subst hh1
            have hk : k = 1 := by omega
            subst hk
            have := q4 1 (by omega) (by omega)
            omega
      · intro hh; omega

/-- Without the side condition the encoding itself is ambiguous: `(A, level 2)` and `(A+100, level 1)` have the same
ZAID, for every element and every `A`. -/
theorem C03_encoding_collision (Z A : Nat) (_hA : A + 100 < 300) :
    (Nuclide.mk ⟨⟨Z⟩, A⟩ 2).zaid = (Nuclide.mk ⟨⟨Z⟩, A + 100⟩ 1).zaid := by
  have : (Nuclide.mk ⟨⟨Z⟩, A⟩ 2).zaidA = (Nuclide.mk ⟨⟨Z⟩, A + 100⟩ 1).zaidA := by
    unfold Nuclide.zaidA
    simp only [gt_iff_lt, Nat.zero_lt_succ, if_true, Nat.lt_one_iff]
  unfold Nuclide.zaid
  congr 1

/-- Violation witness: the valid nuclide U-135m2 is decoded as U-235m1. -/
theorem C03_violation : ∃ n : Nuclide, Nuclide.ofZAL 92 135 2 = .ok n ∧
    Nuclide.ofZaid n.zaid = .ok ⟨⟨⟨92⟩, 235⟩, 1⟩ :=
  ⟨⟨⟨⟨92⟩, 135⟩, 2⟩, by decide, by decide +kernel⟩

/-- Violation witness: the valid nuclide U-250m1 (heavier than the table's 243) is decoded as U-150m2. -/
theorem C03_violation_heavy : ∃ n : Nuclide, Nuclide.ofZAL 92 250 1 = .ok n ∧
    Nuclide.ofZaid n.zaid = .ok ⟨⟨⟨92⟩, 150⟩, 2⟩ :=
  ⟨⟨⟨⟨92⟩, 250⟩, 1⟩, by decide, by decide +kernel⟩

/-- Am-242m1 (the usual isomer in data libraries) and Hf-178m2 round trip. -/
example : Nuclide.ofZaid (Nuclide.mk ⟨⟨95⟩, 242⟩ 1).zaid = .ok ⟨⟨⟨95⟩, 242⟩, 1⟩ ∧
    Nuclide.ofZaid (Nuclide.mk ⟨⟨72⟩, 178⟩ 2).zaid = .ok ⟨⟨⟨72⟩, 178⟩, 2⟩ := by decide +kernel

/-! ## C04 — isomer level at most 2 -/

/-- The constructors from parts never build a level above 2. -/
theorem C04_from_parts (i : Isotope) (Z A level : Nat) (n : Nuclide) :
    (Nuclide.ofIsotope i level = .ok n → n.level ≤ 2) ∧ (Nuclide.ofZAL Z A level = .ok n → n.level ≤ 2) := by
  constructor
  · unfold Nuclide.ofIsotope
    split
    · simp
    · simp; rintro rfl; simp; omega
  · intro h
    obtain ⟨_, _, _, _, h5, rfl⟩ := ofZAL_ok.mp h
    exact h5

/-- Full statement, false of the shipped code: a ZAID-constructed nuclide can have level 6. -/
theorem C04_violation : ∃ (z : ZAID) (n : Nuclide), Nuclide.ofZaid z = .ok n ∧ n.level = 6 ∧ ¬ n.level ≤ 2 :=
  ⟨⟨92, 1135, by decide, by decide⟩, ⟨⟨⟨92⟩, 235⟩, 6⟩ , by decide +kernel, rfl, by decide⟩

theorem ofZaid_steps (z : ZAID) (h1 : 1 ≤ z.Z) (h2 : z.Z ≤ 118) (hA : 300 < z.A) (A' k : Nat)
    (hk : sub32 z.A 400 = A' + 100 * k) (hle : A' ≤ largestOf z.Z) (hgt : largestOf z.Z < A' + 100)
    (h100 : 100 ≤ largestOf z.Z) (hZ : z.Z ≤ A') :
    Nuclide.ofZaid z = .ok ⟨⟨⟨z.Z⟩, A'⟩, (1 + k) % 256⟩ := by
  have hlt := largest_lt h1 h2
  rw [Nuclide.ofZaid_eq _ h1 h2, if_pos hA, hk,
    decodeLoop_steps (largestOf z.Z) A' (by omega) k _ 1 (by omega) (by decide) (by intros; omega)]
  show (if A' > largestOf z.Z then _ else _) = _
  rw [if_neg (by omega), Isotope.ofZA_ok.mpr ⟨h1, h2, hZ, by omega, rfl⟩]
  rfl

/-- Second violation: `A` in 301..399 makes `A_ -= 400` wrap around `uint32_t`; ZAID(92,301) is accepted
as U-197 with isomer level 39 (after 42 949 670 loop iterations and 167 772 wraps of the 8-bit level). -/
theorem C04_violation_wrap : Nuclide.ofZaid ⟨92, 301, by decide, by decide⟩ = .ok ⟨⟨⟨92⟩, 197⟩, 39⟩ := by
  have hL : largestOf 92 = 243 := by decide +kernel
  exact ofZaid_steps ⟨92, 301, by decide, by decide⟩ (by decide) (by decide) (by decide) 197 42949670 (by decide)
    (by simp only [hL]; decide) (by simp only [hL]; decide) (by simp only [hL]; decide) (by decide)

/-- Proved part: for every ZAID whose `A` is at most 300, or lies in the window `[400, L+500]` that encoded isomers use,
the level is at most 2.  (Missing for the full claim: `A` in 301..399 and `A > L+500`, where it is false.) -/
theorem C04_level_le_two_partial (z : ZAID) (n : Nuclide) (L : Nat) (hL : (Element.mk z.Z).largest = .ok L)
    (hA : z.A ≤ 300 ∨ (400 ≤ z.A ∧ z.A ≤ L + 500)) (h : Nuclide.ofZaid z = .ok n) : n.level ≤ 2 := by
  by_cases hZ : 1 ≤ z.Z ∧ z.Z ≤ 118
  · obtain ⟨h1, h2⟩ := hZ
    have hL' : L = largestOf z.Z := by
      rw [largest_ok h1 h2] at hL; simpa using hL.symm
    subst hL'
    rw [Nuclide.ofZaid_eq _ h1 h2] at h
    split at h
    · rename_i hgt
      have e : sub32 z.A 400 = z.A - 400 := by unfold sub32; rw [if_pos (by omega)]
      rw [e] at h
      obtain ⟨k, q1, q2, q3, q4⟩ := decodeLoop_shape (largestOf z.Z) (z.A - 400) (z.A - 400) 1 (le_refl _) (by decide)
      simp only at h
      generalize decodeLoop (largestOf z.Z) (z.A - 400) (z.A - 400) 1 = r at *
      split at h
      · simp at h
      · cases hi : Isotope.ofZA z.Z r.1 with
        | error e => rw [hi] at h; simp [Except.map] at h
        | ok i =>
          rw [hi] at h; simp [Except.map] at h
          subst h
          simp only [q2]
          have : k ≤ 1 := by
            by_contra hk
            have := q4 (k - 1) (by omega) (by omega)
            omega
          omega
    · cases hi : Isotope.ofZA z.Z z.A with
      | error e => rw [hi] at h; simp [Except.map] at h
      | ok i => rw [hi] at h; simp [Except.map] at h; subst h; simp
  · have : Element.ofZ z.Z = .error .exc := by unfold Element.ofZ nElem; rw [if_pos (by omega)]
    unfold Nuclide.ofZaid at h
    rw [this] at h; simp [bind, Except.bind] at h

/-- Tightness: in the range just above the window, whenever construction succeeds the level exceeds 2. -/
theorem C04_window_tight (z : ZAID) (n : Nuclide) (L : Nat) (hL : (Element.mk z.Z).largest = .ok L)
    (hA : L + 500 < z.A ∧ z.A < 20000) (h : Nuclide.ofZaid z = .ok n) : 2 < n.level := by
  by_cases hZ : 1 ≤ z.Z ∧ z.Z ≤ 118
  · obtain ⟨h1, h2⟩ := hZ
    have hL' : L = largestOf z.Z := by
      rw [largest_ok h1 h2] at hL; simpa using hL.symm
    subst hL'
    rw [Nuclide.ofZaid_eq _ h1 h2] at h
    rw [if_pos (by omega)] at h
    have e : sub32 z.A 400 = z.A - 400 := by unfold sub32; rw [if_pos (by omega)]
    rw [e] at h
    obtain ⟨k, q1, q2, q3, q4⟩ := decodeLoop_shape (largestOf z.Z) (z.A - 400) (z.A - 400) 1 (le_refl _) (by decide)
    simp only at h
    generalize decodeLoop (largestOf z.Z) (z.A - 400) (z.A - 400) 1 = r at *
    split at h
    · simp at h
    · cases hi : Isotope.ofZA z.Z r.1 with
      | error e => rw [hi] at h; simp [Except.map] at h
      | ok i =>
        rw [hi] at h; simp [Except.map] at h
        subst h
        simp only [q2]
        omega
  · have : Element.ofZ z.Z = .error .exc := by unfold Element.ofZ nElem; rw [if_pos (by omega)]
    unfold Nuclide.ofZaid at h
    rw [this] at h; simp [bind, Except.bind] at h

example : ∃ n, Nuclide.ofZaid ⟨95, 642, by decide, by decide⟩ = .ok n ∧ n.level = 1 ∧
    (Element.mk 95).largest = .ok 249 := ⟨⟨⟨⟨95⟩, 242⟩, 1⟩, by decide +kernel, rfl, by decide +kernel⟩

/-! ## C05 — symbols -/

/-- The scanners decide exactly the languages of the regular expressions in the source. -/
theorem C05_regex_languages (s : List Char) :
    (isElementRegex s = true ↔ ElementLang s) ∧ (isNameRegex s = true ↔ NameLang s) ∧
    (isIsotopeRegex s = true ↔ IsotopeLang s) ∧ (isNuclideRegex s = true ↔ NuclideLang s) :=
  ⟨isElementRegex_iff, isNameRegex_iff, isIsotopeRegex_iff, isNuclideRegex_iff⟩

theorem table_symbols : ∀ i : Fin 118, ∃ e, elementsTable[i.val]? = some e ∧
    findInTable ElemInfo.symbol e.symbol = some i.val ∧ findInTable ElemInfo.name e.name = some i.val ∧
    isElementRegex e.symbol = true ∧ (skipWs e.symbol = e.symbol) ∧ (e.symbol.all (fun c => !isSpaceC c)) = true ∧
    takeName e.name = some (e.name, []) ∧ 3 ≤ e.name.length := by
  have : ∀ i : Fin 118, (match elementsTable[i.val]? with
    | none => false
    | some e => decide (findInTable ElemInfo.symbol e.symbol = some i.val) &&
      decide (findInTable ElemInfo.name e.name = some i.val) && isElementRegex e.symbol &&
      decide (skipWs e.symbol = e.symbol) && e.symbol.all (fun c => !isSpaceC c) &&
      decide (takeName e.name = some (e.name, [])) && decide (3 ≤ e.name.length)) = true := by decide +kernel
  intro i
  have h := this i
  split at h
  · simp at h
  · rename_i e he
    refine ⟨e, he, ?_⟩
    simp only [Bool.and_eq_true, decide_eq_true_eq] at h
    obtain ⟨⟨⟨⟨⟨⟨h1, h2⟩, h3⟩, h4⟩, h5⟩, h6⟩, h7⟩ := h
    exact ⟨h1, h2, h3, h4, h5, h6, h7⟩

theorem elemSym_of_row {e : ElemInfo} (h3 : isElementRegex e.symbol = true)
    (h5 : (e.symbol.all (fun c => !isSpaceC c)) = true) : ElemSym e.symbol := by
  obtain ⟨a, w, b, hs, ha, hw, hb⟩ := isElementRegex_iff.mp h3
  have hns : ∀ c ∈ e.symbol, isSpaceC c = false := by
    intro c hc; simpa using List.all_eq_true.mp h5 c hc
  have ha0 : a = [] := by
    cases a with
    | nil => rfl
    | cons x a =>
      have h1 := hns x (by rw [hs]; simp)
      rw [isSpaceC_iff.mpr (ha x (by simp))] at h1
      simp at h1
  have hb0 : b = [] := by
    cases b with
    | nil => rfl
    | cons x b =>
      have h1 := hns x (by rw [hs]; simp)
      rw [isSpaceC_iff.mpr (hb x (by simp))] at h1
      simp at h1
  rw [hs, ha0, hb0]; simpa using hw

/-- Symbol and table row of a valid `Z`. -/
theorem row_of {Z : Nat} (h1 : 1 ≤ Z) (h2 : Z ≤ 118) : ∃ e, elementsTable[Z - 1]? = some e ∧
    (Element.mk Z).symbol = .ok e.symbol ∧ (Element.mk Z).name = .ok e.name ∧
    findInTable ElemInfo.symbol e.symbol = some (Z - 1) ∧ findInTable ElemInfo.name e.name = some (Z - 1) ∧
    ElemSym e.symbol ∧ takeName e.name = some (e.name, []) ∧ 3 ≤ e.name.length := by
  obtain ⟨e, he, p1, p2, p3, p4, p5, p6, p7⟩ := table_symbols ⟨Z - 1, by omega⟩
  simp only at he p1 p2
  have hg : getAt elementsTable (Z - 1) = .ok e := getAt_eq_ok.mpr he
  refine ⟨e, he, ?_, ?_, p1, p2, elemSym_of_row p3 p5, p6, p7⟩ <;>
  simp [Element.name, Element.symbol, Element.info, subIdx, h1, hg, bind, Except.bind, pure, Except.pure]

theorem findInTable_some {f : ElemInfo → List Char} {w : List Char} {i : Nat} (h : findInTable f w = some i) :
    ∃ e, elementsTable[i]? = some e ∧ f e = w := by
  unfold findInTable at h
  obtain ⟨hlt, hb, _⟩ := List.findIdx?_eq_some_iff_getElem.mp h
  exact ⟨elementsTable[i], by simp [hlt], by simpa using hb⟩

theorem findInTable_lt {f : ElemInfo → List Char} {w : List Char} {i : Nat} (h : findInTable f w = some i) :
    i < 118 := by
  obtain ⟨e, he, _⟩ := findInTable_some h
  have := (List.getElem?_eq_some_iff.mp he).1
  rwa [elementsTable_length] at this

/-- `Element(s)` on a (white-space padded) symbol-shaped string is the table look-up of the symbol. -/
theorem ofString_sym {a w b : List Char} (ha : Ws a) (hw : ElemSym w) (hb : Ws b) (Z : Nat) :
    Element.ofString (a ++ w ++ b) = .ok ⟨Z⟩ ↔
      1 ≤ Z ∧ (elementsTable[Z - 1]?.map ElemInfo.symbol = some w) := by
  have hreg : isElementRegex (a ++ w ++ b) = true := isElementRegex_iff.mpr ⟨a, w, b, rfl, ha, hw, hb⟩
  have hs : regexSearch takeElem (a ++ w ++ b) = w :=
    search_elem ha hw (fun c hc => not_lower_of_space (hb.head c hc))
  unfold Element.ofString
  simp only [hreg, if_true, hs]
  constructor
  · intro h
    cases hf : findInTable ElemInfo.symbol w with
    | some i =>
      rw [hf] at h; simp at h
      subst h
      obtain ⟨e, he, hew⟩ := findInTable_some hf
      simp [he, hew]
    | none =>
      -- the name branch: a two-letter name does not exist in the table
      rw [hf] at h
      simp only at h
      split at h
      · rename_i i hi
        split at hi
        · rename_i hn
          exfalso
          obtain ⟨e, he, hew⟩ := findInTable_some hi
          have hlt := findInTable_lt hi
          obtain ⟨e', he', _, _, _, _, _, _, hlen⟩ := table_symbols ⟨i, hlt⟩
          simp only at he'
          rw [he] at he'; cases he'
          obtain ⟨a', w', b', hs', ha', hw', hb'⟩ := isNameRegex_iff.mp hn
          have : regexSearch takeName (a ++ w ++ b) = w' := by
            rw [hs']
            exact search_name ha' hw' (fun c hc => not_lower_of_space (hb'.head c hc))
          rw [this] at hew
          -- w' has length ≥ 3, yet `a ++ w ++ b` has at most 2 non-space characters
          have hns : ∀ (x y : List Char), Ws x → (y.filter (fun c => !isSpaceC c)) = y → True := by intros; trivial
          have f1 : (a ++ w ++ b).filter (fun c => !isSpaceC c) = w := by
            simp only [List.filter_append]
            have fa : a.filter (fun c => !isSpaceC c) = [] := by
              rw [List.filter_eq_nil_iff]; intro c hc; simp [isSpaceC_iff.mpr (ha c hc)]
            have fb : b.filter (fun c => !isSpaceC c) = [] := by
              rw [List.filter_eq_nil_iff]; intro c hc; simp [isSpaceC_iff.mpr (hb c hc)]
            have fw : w.filter (fun c => !isSpaceC c) = w := by
              rw [List.filter_eq_self]
              intro c hc
              obtain ⟨u, lo, rfl, hu, _, hlo⟩ := hw
              have : 32 < c.toNat := by
                simp only [List.mem_cons] at hc
                rcases hc with rfl | hc
                · unfold Upper at hu; omega
                · have := hlo c hc; unfold Lower at this; omega
              simp [not_space_of_gt this]
            simp [fa, fb, fw]
          have f2 : (a' ++ w' ++ b').filter (fun c => !isSpaceC c) = w' := by
            simp only [List.filter_append]
            have fa : a'.filter (fun c => !isSpaceC c) = [] := by
              rw [List.filter_eq_nil_iff]; intro c hc; simp [isSpaceC_iff.mpr (ha' c hc)]
            have fb : b'.filter (fun c => !isSpaceC c) = [] := by
              rw [List.filter_eq_nil_iff]; intro c hc; simp [isSpaceC_iff.mpr (hb' c hc)]
            have fw : w'.filter (fun c => !isSpaceC c) = w' := by
              rw [List.filter_eq_self]
              intro c hc
              obtain ⟨u, lo, rfl, hu, _, hlo⟩ := hw'
              have : 32 < c.toNat := by
                simp only [List.mem_cons] at hc
                rcases hc with rfl | hc
                · unfold Upper at hu; omega
                · have := hlo c hc; unfold Lower at this; omega
              simp [not_space_of_gt this]
            simp [fa, fb, fw]
          rw [← hs', f1] at f2
          obtain ⟨u, lo, hwe, _, hlo, _⟩ := hw
          rw [← f2] at hew
          rw [hew, hwe] at hlen
          simp at hlen; omega
        · simp at hi
      · simp at h
  · rintro ⟨h1, h⟩
    have hlt : Z - 1 < 118 := by
      cases he : elementsTable[Z - 1]? with
      | none => rw [he] at h; simp at h
      | some e =>
        have := (List.getElem?_eq_some_iff.mp he).1
        rwa [elementsTable_length] at this
    obtain ⟨e, he, p1, _⟩ := table_symbols ⟨Z - 1, hlt⟩
    simp only at he p1
    rw [he] at h; simp at h
    rw [← h, p1]
    simp; omega

/-- `Element(e.symbol())` and `Element(e.name())` give back `e`, also with surrounding white space. -/
theorem C05_element (Z : Nat) (e : Element) (he : Element.ofZ Z = .ok e) (a b : List Char) (ha : Ws a) (hb : Ws b) :
    (∃ s, e.symbol = .ok s ∧ Element.ofString (a ++ s ++ b) = .ok e) ∧
    (∃ s, e.name = .ok s ∧ Element.ofString (a ++ s ++ b) = .ok e) := by
  obtain ⟨h1, h2, rfl⟩ := Element.ofZ_ok.mp he
  obtain ⟨r, hr, q1, q2, q3, q4, q5, q6, q7⟩ := row_of h1 h2
  refine ⟨⟨r.symbol, q1, (ofString_sym ha q5 hb Z).mpr ⟨h1, by simp [hr]⟩⟩, r.name, q2, ?_⟩
  obtain ⟨_, hnm⟩ := takeName_some q6
  have hn : isElementRegex (a ++ r.name ++ b) = false := by
    by_contra hc
    obtain ⟨a', w', b', hs', ha', hw', hb'⟩ := isElementRegex_iff.mp ((Bool.not_eq_false _).mp hc)
    have hh := search_elem ha' hw' (fun c hc => not_lower_of_space (hb'.head c hc))
    have hsk := skipWs_append ha' (s := w' ++ b') (fun c hc => Upper.not_space (hw'.head c hc))
    have hsk2 := skipWs_append ha (s := r.name ++ b) (fun c hc => Upper.not_space (hnm.head c hc))
    rw [← List.append_assoc] at hsk hsk2
    rw [hs', hsk] at hsk2
    -- third character of the name is a lower case letter, but a space (or the end) in w' ++ b'
    obtain ⟨u, lo, hne, hu, _, hlo⟩ := hnm
    obtain ⟨u', lo', hwe, hu', hl', hlo'⟩ := hw'
    rw [hne, hwe] at hsk2
    simp at hsk2
    rw [hne] at q7; simp at q7
    obtain ⟨_, hsk2⟩ := hsk2
    match lo, lo', q7, hl', hsk2 with
    | x :: y :: lo, [], _, _, hsk2 =>
      simp at hsk2
      have := hb'.head x (by rw [hsk2]; rfl)
      have h3 := hlo x (by simp)
      exact not_lower_of_space this h3
    | x :: y :: lo, [z], _, _, hsk2 =>
      simp at hsk2
      have := hb'.head y (by rw [hsk2.2]; rfl)
      have h3 := hlo y (by simp)
      exact not_lower_of_space this h3
    | x :: y :: lo, z :: z' :: _, _, hl', _ => simp at hl'
  have hn2 : isNameRegex (a ++ r.name ++ b) = true := isNameRegex_iff.mpr ⟨a, r.name, b, rfl, ha, hnm, hb⟩
  have hs : regexSearch takeName (a ++ r.name ++ b) = r.name :=
    search_name ha hnm (fun c hc => not_lower_of_space (hb.head c hc))
  unfold Element.ofString
  simp only [hn, hn2, hs, q4]
  simp; omega

/-- **Complete specification of `Isotope(string)`**: it succeeds with `(Z, A)` exactly on the strings
`ws* symbol(Z) digits ws*` whose digits denote `A`, with `Z ≤ A < 300`; it throws on every other string. -/
theorem C05_isotope_ofString (s : List Char) (i : Isotope) :
    Isotope.ofString s = .ok i ↔
      ∃ a w d b, s = a ++ w ++ d ++ b ∧ Ws a ∧ ElemSym w ∧ Digits13 d ∧ Ws b ∧
        Denotes w d [] i.Z i.A 0 ∧ i.Z ≤ i.A ∧ i.A < 300 := by
  unfold Isotope.ofString
  constructor
  · intro h
    split at h
    · simp at h
    · rename_i hreg
      obtain ⟨a, w, d, b, rfl, ha, hw, hd, hb⟩ := isIsotopeRegex_iff.mp (by simpa using hreg)
      refine ⟨a, w, d, b, rfl, ha, hw, hd, hb, ?_⟩
      have hs1 : regexSearch takeElem (a ++ w ++ d ++ b) = w := by
        rw [List.append_assoc]
        exact search_elem ha hw (fun c hc => not_lower_of_digit (hd.head c hc))
      rw [hs1, search_digits ha hw hd (fun c hc => not_digit_of_space (hb.head c hc)), stoul_decVal] at h
      cases he : Element.ofString w with
      | error e => rw [he] at h; simp [bind, Except.bind] at h
      | ok e =>
        rw [he] at h
        simp only [bind, Except.bind, Isotope.check] at h
        split at h
        · simp at h
        · split at h
          · simp at h
          · simp at h; subst h
            have := (ofString_sym (a := []) (b := []) (by simp [Ws]) hw (by simp [Ws]) e.Z).mp (by simpa using he)
            refine ⟨⟨this.1, this.2, rfl, rfl⟩, ?_, ?_⟩
            · show e.Z ≤ _; simp; omega
            · simp; omega
  · rintro ⟨a, w, d, b, rfl, ha, hw, hd, hb, ⟨h1, h2, h3, _⟩, h5, h6⟩
    rw [if_neg (by rw [isIsotopeRegex_iff.mpr ⟨a, w, d, b, rfl, ha, hw, hd, hb⟩]; simp)]
    have hs1 : regexSearch takeElem (a ++ w ++ d ++ b) = w := by
      rw [List.append_assoc]
      exact search_elem ha hw (fun c hc => not_lower_of_digit (hd.head c hc))
    rw [hs1, search_digits ha hw hd (fun c hc => not_digit_of_space (hb.head c hc)), stoul_decVal]
    have := (ofString_sym (a := []) (b := []) (by simp [Ws]) hw (by simp [Ws]) i.Z).mpr ⟨h1, h2⟩
    simp only [List.nil_append, List.append_nil] at this
    rw [this]
    simp only [bind, Except.bind, Isotope.check]
    rw [← h3, if_neg (by omega), if_neg (by omega)]
    rfl

/-- **Complete specification of `Nuclide(string)`**. -/
theorem C05_nuclide_ofString (s : List Char) (n : Nuclide) :
    Nuclide.ofString s = .ok n ↔
      ∃ a w d m b, s = a ++ w ++ d ++ m ++ b ∧ Ws a ∧ ElemSym w ∧ Digits13 d ∧ IsomerOpt m ∧ Ws b ∧
        Denotes w d m n.isotope.Z n.isotope.A n.level ∧ n.isotope.Z ≤ n.isotope.A ∧ n.isotope.A < 300 := by
  have hlev : ∀ m, IsomerOpt m →
      (if m.length > 0 then stoul (m.drop 1) % 2 ^ 8 else 0) = isomerLevel m := by
    intro m hm
    rcases hm with rfl | rfl | rfl | rfl <;> decide
  have hiso : ∀ w d, ElemSym w → Digits13 d → ∀ i, Isotope.ofString (w ++ d) = .ok i ↔
      (Denotes w d [] i.Z i.A 0 ∧ i.Z ≤ i.A ∧ i.A < 300) := by
    intro w d hw hd i
    rw [C05_isotope_ofString]
    constructor
    · rintro ⟨a', w', d', b', hs, ha, hw', hd', hb, h⟩
      have e1 := takeIso_append hw hd (r := []) (by simp)
      have hsk := skipWs_append (a := []) (s := w ++ d) (by simp [Ws]) (fun c hc => Upper.not_space (hw.head c hc))
      have hsk2 := skipWs_append ha (s := w' ++ d' ++ b')
        (fun c hc => Upper.not_space (hw'.head (r := d' ++ b') c (by simpa using hc)))
      rw [show a' ++ (w' ++ d' ++ b') = a' ++ w' ++ d' ++ b' by simp, ← hs] at hsk2
      simp only [List.nil_append] at hsk
      rw [hsk] at hsk2
      have t1 := takeElem_append hw (r := d) (fun c hc => not_lower_of_digit (hd.head (r := []) c (by simpa using hc)))
      have t2 := takeElem_append hw' (r := d' ++ b') (fun c hc => not_lower_of_digit (hd'.head c hc))
      rw [hsk2, List.append_assoc, t2] at t1
      simp at t1
      obtain ⟨rfl, t1⟩ := t1
      have t3 := takeDigits_append hd (r := []) (by simp)
      have t4 := takeDigits_append hd' (r := b') (fun c hc => not_digit_of_space (hb.head c hc))
      rw [t1] at t4
      rw [List.append_nil, t4] at t3
      simp at t3
      obtain ⟨rfl, _⟩ := t3
      exact h
    · intro h
      exact ⟨[], w, d, [], by simp, by simp [Ws], hw, hd, by simp [Ws], h⟩
  unfold Nuclide.ofString
  constructor
  · intro h
    split at h
    · simp at h
    · rename_i hreg
      obtain ⟨a, w, d, m, b, rfl, ha, hw, hd, hm, hb⟩ := isNuclideRegex_iff.mp (by simpa using hreg)
      refine ⟨a, w, d, m, b, rfl, ha, hw, hd, hm, hb, ?_⟩
      have hs1 : regexSearch takeIso (a ++ w ++ d ++ m ++ b) = w ++ d := by
        rw [show a ++ w ++ d ++ m ++ b = a ++ w ++ d ++ (m ++ b) by simp]
        exact search_iso ha hw hd (fun c hc => (isomerOpt_head hm hb c hc).1)
      rw [hs1, erase_iso ha hw hd hm hb] at h
      simp only [search_isomer ha hm hb, hlev m hm] at h
      cases hi : Isotope.ofString (w ++ d) with
      | error e => rw [hi] at h; simp [bind, Except.bind] at h
      | ok i =>
        rw [hi] at h
        simp [bind, Except.bind, pure, Except.pure] at h
        subst h
        obtain ⟨⟨x1, x2, x3, _⟩, x5, x6⟩ := (hiso w d hw hd i).mp hi
        exact ⟨⟨x1, x2, x3, rfl⟩, x5, x6⟩
  · rintro ⟨a, w, d, m, b, rfl, ha, hw, hd, hm, hb, ⟨x1, x2, x3, x4⟩, x5, x6⟩
    rw [if_neg (by rw [isNuclideRegex_iff.mpr ⟨a, w, d, m, b, rfl, ha, hw, hd, hm, hb⟩]; simp)]
    have hs1 : regexSearch takeIso (a ++ w ++ d ++ m ++ b) = w ++ d := by
      rw [show a ++ w ++ d ++ m ++ b = a ++ w ++ d ++ (m ++ b) by simp]
      exact search_iso ha hw hd (fun c hc => (isomerOpt_head hm hb c hc).1)
    rw [hs1, erase_iso ha hw hd hm hb]
    simp only [search_isomer ha hm hb, hlev m hm]
    rw [(hiso w d hw hd n.isotope).mpr ⟨⟨x1, x2, x3, rfl⟩, x5, x6⟩]
    simp only [bind, Except.bind, pure, Except.pure, ← x4]

/-- The decimal text of every admissible mass number is 1–3 digits that denote it. -/
theorem toDec_ok {A : Nat} (hA : A < 300) : Digits13 (toDec A) ∧ decVal (toDec A) = A := by
  have : ∀ i : Fin 300, (decide (1 ≤ (toDec i.val).length) && decide ((toDec i.val).length ≤ 3) &&
      (toDec i.val).all isDigC && decide (decVal (toDec i.val) = i.val)) = true := by decide +kernel
  have h := this ⟨A, hA⟩
  simp only [Bool.and_eq_true, decide_eq_true_eq] at h
  obtain ⟨⟨⟨h1, h2⟩, h3⟩, h4⟩ := h
  exact ⟨⟨h1, h2, fun c hc => isDigC_iff.mp (List.all_eq_true.mp h3 c hc)⟩, h4⟩

/-- `Isotope(i.symbol()) == i`, also with surrounding white space. -/
theorem C05_isotope_roundtrip (Z A : Nat) (i : Isotope) (hi : Isotope.ofZA Z A = .ok i)
    (a b : List Char) (ha : Ws a) (hb : Ws b) :
    ∃ s, i.symbol = .ok s ∧ Isotope.ofString (a ++ s ++ b) = .ok i := by
  obtain ⟨h1, h2, h3, h4, rfl⟩ := Isotope.ofZA_ok.mp hi
  obtain ⟨r, hr, q1, _, _, _, q5, _, _⟩ := row_of h1 h2
  obtain ⟨t1, t2⟩ := toDec_ok h4
  refine ⟨r.symbol ++ toDec A, by simp [Isotope.symbol, q1, bind, Except.bind, pure, Except.pure], ?_⟩
  rw [C05_isotope_ofString]
  exact ⟨a, r.symbol, toDec A, b, by simp, ha, q5, t1, hb, ⟨h1, by simp [Isotope.Z, hr], t2.symm, rfl⟩, h3, h4⟩

/-- `Nuclide(n.symbol()) == n` for every nuclide of level at most 2, also with surrounding white space. -/
theorem C05_nuclide_roundtrip (Z A level : Nat) (n : Nuclide) (hn : Nuclide.ofZAL Z A level = .ok n)
    (a b : List Char) (ha : Ws a) (hb : Ws b) :
    ∃ s, n.symbol = .ok s ∧ Nuclide.ofString (a ++ s ++ b) = .ok n := by
  obtain ⟨h1, h2, h3, h4, h5, rfl⟩ := ofZAL_ok.mp hn
  obtain ⟨r, hr, q1, _, _, _, q5, _, _⟩ := row_of h1 h2
  obtain ⟨t1, t2⟩ := toDec_ok h4
  have h012 : level = 0 ∨ level = 1 ∨ level = 2 := by omega
  refine ⟨r.symbol ++ toDec A ++ (if level > 0 then 'm' :: toDec level else []), ?_, ?_⟩
  · rcases h012 with rfl | rfl | rfl <;>
    simp [Nuclide.symbol, Isotope.symbol, q1, bind, Except.bind, pure, Except.pure]
  · rw [C05_nuclide_ofString]
    refine ⟨a, r.symbol, toDec A, if level > 0 then 'm' :: toDec level else [], b, by simp, ha, q5, t1, ?_, hb,
      ⟨h1, by simp [Isotope.Z, hr], t2.symm, ?_⟩, h3, h4⟩
    · rcases h012 with rfl | rfl | rfl
      · exact Or.inl rfl
      · exact Or.inr (Or.inr (Or.inl (by decide)))
      · exact Or.inr (Or.inr (Or.inr (by decide)))
    · show level = _
      rcases h012 with rfl | rfl | rfl <;> decide

/-- Consequence for C04: string-constructed nuclides have level at most 2. -/
theorem C04_from_string (s : List Char) (n : Nuclide) (h : Nuclide.ofString s = .ok n) : n.level ≤ 2 := by
  obtain ⟨a, w, d, m, b, _, _, _, _, hm, _, ⟨_, _, _, h4⟩, _⟩ := (C05_nuclide_ofString s n).mp h
  rw [h4]
  rcases hm with rfl | rfl | rfl | rfl <;> decide

example : Nuclide.ofString [' ', 'A', 'm', '2', '4', '2', 'm', '1', '\n'] = .ok ⟨⟨⟨95⟩, 242⟩, 1⟩ := by decide +kernel
example : Element.ofString ['T', 'i', 'n', ' '] = .ok ⟨50⟩ := by decide +kernel
example : Isotope.ofString ['U', '2', '3', '5', '1'] = .error .exc := by decide +kernel

end PNDL
