import Verif.Lemmas.Nuclide

namespace PNDL
open Spec

theorem isUpC_iff {c : Char} : isUpC c = true ↔ Upper c := by
  simp [isUpC, Upper]
theorem isLoC_iff {c : Char} : isLoC c = true ↔ Lower c := by
  simp [isLoC, Lower]
theorem isDigC_iff {c : Char} : isDigC c = true ↔ Digit c := by
  simp [isDigC, Digit]
theorem isSpaceC_iff {c : Char} : isSpaceC c = true ↔ c ∈ [' ', '\t', '\n', '\x0b', '\x0c', '\r'] := by
  simp [isSpaceC, or_assoc]

theorem space_toNat {c : Char} (h : isSpaceC c = true) : c.toNat ≤ 32 := by
  rw [isSpaceC_iff] at h
  simp only [List.mem_cons, List.not_mem_nil, or_false] at h
  rcases h with h | h | h | h | h | h <;> subst h <;> decide

theorem not_space_of_gt {c : Char} (h : 32 < c.toNat) : isSpaceC c = false := by
  by_contra hc
  have := space_toNat (c := c) (by simpa using hc)
  omega

theorem skipWs_append {a s : List Char} (ha : Ws a) (hs : ∀ c, s.head? = some c → isSpaceC c = false) :
    skipWs (a ++ s) = s := by
  induction a with
  | nil =>
    cases s with
    | nil => rfl
    | cons c s => simp [skipWs, hs c rfl]
  | cons x a ih =>
    have hx : isSpaceC x = true := isSpaceC_iff.mpr (ha x (by simp))
    have := ih (fun c hc => ha c (by simp [hc]))
    simpa [skipWs, hx] using this

theorem skipWs_ws {a : List Char} (ha : Ws a) : skipWs a = [] := by
  have := skipWs_append (s := []) ha (by simp)
  simpa using this

theorem skipWs_decomp (s : List Char) : ∃ a, Ws a ∧ s = a ++ skipWs s :=
  ⟨s.takeWhile isSpaceC, fun c hc => isSpaceC_iff.mp (List.all_eq_true.mp List.all_takeWhile c hc),
    (List.takeWhile_append_dropWhile).symm⟩

theorem skipWs_isEmpty {s : List Char} : (skipWs s).isEmpty = true ↔ Ws s := by
  constructor
  · intro h
    obtain ⟨a, ha, hs⟩ := skipWs_decomp s
    rw [List.isEmpty_iff.mp h] at hs
    rw [hs]; simpa using ha
  · intro h; simp [skipWs_ws h]

/-! `takeElem` -/

theorem takeElem_some {s w r : List Char} (h : takeElem s = some (w, r)) : s = w ++ r ∧ ElemSym w := by
  unfold takeElem at h
  split at h
  · simp at h
  · rename_i u r'
    split at h
    · rename_i hu
      split at h
      · rename_i l r''
        split at h
        · rename_i hl
          simp at h
          obtain ⟨rfl, rfl⟩ := h
          exact ⟨rfl, u, [l], rfl, isUpC_iff.mp hu, by simp, by simpa using isLoC_iff.mp hl⟩
        · simp at h
          obtain ⟨rfl, rfl⟩ := h
          exact ⟨rfl, u, [], rfl, isUpC_iff.mp hu, by simp, by simp⟩
      · simp at h
        obtain ⟨rfl, rfl⟩ := h
        exact ⟨rfl, u, [], rfl, isUpC_iff.mp hu, by simp, by simp⟩
    · simp at h

theorem takeElem_append {w r : List Char} (hw : ElemSym w) (hr : ∀ c, r.head? = some c → ¬ Lower c) :
    takeElem (w ++ r) = some (w, r) := by
  obtain ⟨u, lo, rfl, hu, hl, hlo⟩ := hw
  match lo, hl with
  | [], _ =>
    cases r with
    | nil => simp [takeElem, isUpC_iff.mpr hu]
    | cons c r =>
      have hc : isLoC c = false := by
        have := hr c rfl
        rw [← isLoC_iff] at this; simpa using this
      simp [takeElem, isUpC_iff.mpr hu, hc]
  | [l], _ =>
    have : isLoC l = true := isLoC_iff.mpr (hlo l (by simp))
    simp [takeElem, isUpC_iff.mpr hu, this]

theorem takeElem_none {c : Char} {s : List Char} (h : ¬ Upper c) : takeElem (c :: s) = none := by
  have : isUpC c = false := by rw [← isUpC_iff] at h; simpa using h
  simp [takeElem, this]

theorem takeName_some {s w r : List Char} (h : takeName s = some (w, r)) : s = w ++ r ∧ ElemName w := by
  unfold takeName at h
  split at h
  · simp at h
  · rename_i u r'
    split at h
    · rename_i hu
      simp at h hu
      obtain ⟨rfl, rfl⟩ := h
      refine ⟨by simp [List.takeWhile_append_dropWhile], u, _, rfl, isUpC_iff.mp hu.1, ?_, ?_⟩
      · intro h0
        cases r' with
        | nil => simp at hu
        | cons x r' =>
          simp [List.takeWhile_cons] at h0
          simp [h0] at hu
      · exact fun c hc => isLoC_iff.mp (List.all_eq_true.mp List.all_takeWhile c hc)
    · simp at h

theorem takeWhile_append_of {p : Char → Bool} {a r : List Char} (ha : ∀ c ∈ a, p c = true)
    (hr : ∀ c, r.head? = some c → p c = false) : (a ++ r).takeWhile p = a ∧ (a ++ r).dropWhile p = r := by
  induction a with
  | nil =>
    cases r with
    | nil => simp
    | cons c r => simp [hr c rfl]
  | cons x a ih =>
    have := ih (fun c hc => ha c (by simp [hc]))
    simp [ha x (by simp), this]

theorem takeName_append {w r : List Char} (hw : ElemName w) (hr : ∀ c, r.head? = some c → ¬ Lower c) :
    takeName (w ++ r) = some (w, r) := by
  obtain ⟨u, lo, rfl, hu, hl, hlo⟩ := hw
  have h := takeWhile_append_of (p := isLoC) (a := lo) (r := r) (fun c hc => isLoC_iff.mpr (hlo c hc))
    (fun c hc => by have := hr c hc; rw [← isLoC_iff] at this; simpa using this)
  have hu' := isUpC_iff.mpr hu
  simp only [List.cons_append, takeName, h.1, h.2, hu', Bool.true_and]
  cases lo with
  | nil => exact absurd rfl hl
  | cons => simp

theorem takeName_none {c : Char} {s : List Char} (h : ¬ Upper c) : takeName (c :: s) = none := by
  have : isUpC c = false := by rw [← isUpC_iff] at h; simpa using h
  simp [takeName, this]

/-! `takeDigits` -/

theorem takeDigits_some {s d r : List Char} (h : takeDigits s = some (d, r)) : s = d ++ r ∧ Digits13 d := by
  unfold takeDigits at h
  simp only at h
  split at h
  · simp at h
  · rename_i hne
    simp only [Option.some.injEq, Prod.mk.injEq] at h
    obtain ⟨h1, h2⟩ := h
    have hp : d <+: s := by
      rw [← h1]
      exact (List.takeWhile_prefix _).trans (List.take_prefix _ _)
    obtain ⟨t, ht⟩ := hp
    refine ⟨?_, ?_, ?_, ?_⟩
    · rw [← h2, h1, ← ht]; simp
    · rw [h1] at hne
      cases d with
      | nil => simp at hne
      | cons => simp
    · rw [← h1]
      have := (List.takeWhile_prefix (p := isDigC) (l := s.take 3)).length_le
      simp at this; omega
    · rw [← h1]; exact fun c hc => isDigC_iff.mp (List.all_eq_true.mp List.all_takeWhile c hc)

theorem takeDigits_append {d r : List Char} (hd : Digits13 d) (hr : ∀ c, r.head? = some c → ¬ Digit c) :
    takeDigits (d ++ r) = some (d, r) := by
  obtain ⟨h1, h2, h3⟩ := hd
  have hr' : ∀ c, (r.take (3 - d.length)).head? = some c → isDigC c = false := by
    intro c hc
    have : r.head? = some c := by
      cases r with
      | nil => simp at hc
      | cons x r =>
        cases hk : 3 - d.length with
        | zero => simp [hk] at hc
        | succ k => simpa [hk] using hc
    have := hr c this
    rw [← isDigC_iff] at this; simpa using this
  have h := takeWhile_append_of (p := isDigC) (a := d) (r := r.take (3 - d.length))
    (fun c hc => isDigC_iff.mpr (h3 c hc)) hr'
  have e : (d ++ r).take 3 = d ++ r.take (3 - d.length) := by
    rw [List.take_append, List.take_of_length_le h2]
  unfold takeDigits
  simp only [e, h.1]
  cases d with
  | nil => simp at h1
  | cons => simp

theorem takeDigits_none {c : Char} {s : List Char} (h : ¬ Digit c) : takeDigits (c :: s) = none := by
  have : isDigC c = false := by rw [← isDigC_iff] at h; simpa using h
  simp [takeDigits, this]

theorem not_lower_of_digit {c : Char} (h : Digit c) : ¬ Lower c := by unfold Digit Lower at *; omega
theorem not_lower_of_upper {c : Char} (h : Upper c) : ¬ Lower c := by unfold Upper Lower at *; omega
theorem not_upper_of_digit {c : Char} (h : Digit c) : ¬ Upper c := by unfold Digit Upper at *; omega
theorem not_upper_of_space {c : Char} (h : isSpaceC c = true) : ¬ Upper c := by
  have := space_toNat h; unfold Upper; omega
theorem not_lower_of_space {c : Char} (h : isSpaceC c = true) : ¬ Lower c := by
  have := space_toNat h; unfold Lower; omega
theorem not_digit_of_space {c : Char} (h : isSpaceC c = true) : ¬ Digit c := by
  have := space_toNat h; unfold Digit; omega

theorem takeIso_some {s w r : List Char} (h : takeIso s = some (w, r)) :
    ∃ e d, w = e ++ d ∧ s = e ++ d ++ r ∧ ElemSym e ∧ Digits13 d := by
  unfold takeIso at h
  split at h
  · simp at h
  · rename_i e r1 h1
    split at h
    · simp at h
    · rename_i d r2 h2
      simp at h
      obtain ⟨rfl, rfl⟩ := h
      obtain ⟨a1, a2⟩ := takeElem_some h1
      obtain ⟨b1, b2⟩ := takeDigits_some h2
      exact ⟨e, d, rfl, by rw [a1, b1]; simp, a2, b2⟩

theorem Spec.Digits13.head {d r : List Char} (hd : Digits13 d) : ∀ c, (d ++ r).head? = some c → Digit c := by
  obtain ⟨h1, _, h3⟩ := hd
  cases d with
  | nil => simp at h1
  | cons x d => intro c hc; simp at hc; subst hc; exact h3 _ (by simp)

theorem takeIso_append {e d r : List Char} (he : ElemSym e) (hd : Digits13 d)
    (hr : ∀ c, r.head? = some c → ¬ Digit c) : takeIso (e ++ d ++ r) = some (e ++ d, r) := by
  unfold takeIso
  rw [List.append_assoc, takeElem_append he (fun c hc => not_lower_of_digit (hd.head c hc))]
  simp only [takeDigits_append hd hr]

theorem takeIso_none {c : Char} {s : List Char} (h : ¬ Upper c) : takeIso (c :: s) = none := by
  simp [takeIso, takeElem_none h]

theorem takeIsomer_some {s w r : List Char} (h : takeIsomer s = some (w, r)) :
    s = w ++ r ∧ (w = ['m', '0'] ∨ w = ['m', '1'] ∨ w = ['m', '2']) := by
  unfold takeIsomer at h
  split at h
  · rename_i c r'
    split at h
    · rename_i hc
      simp at h hc
      obtain ⟨rfl, rfl⟩ := h
      refine ⟨rfl, ?_⟩
      rcases hc with (h | h) | h <;> subst h <;> simp
    · simp at h
  · simp at h

theorem Spec.ElemSym.head {w r : List Char} (hw : ElemSym w) : ∀ c, (w ++ r).head? = some c → Upper c := by
  obtain ⟨u, lo, rfl, hu, _⟩ := hw
  intro c hc; simp at hc; subst hc; exact hu

theorem Spec.Upper.not_space {c : Char} (h : Upper c) : isSpaceC c = false :=
  not_space_of_gt (by unfold Upper at h; omega)
theorem Spec.Ws.head {b : List Char} (hb : Ws b) : ∀ c, b.head? = some c → isSpaceC c = true := by
  intro c hc
  cases b with
  | nil => simp at hc
  | cons x b => simp at hc; subst hc; exact isSpaceC_iff.mpr (hb _ (by simp))

theorem isElementRegex_iff {s : List Char} : isElementRegex s = true ↔ ElementLang s := by
  constructor
  · intro h
    unfold isElementRegex at h
    split at h
    · rename_i w r hw
      obtain ⟨a, ha, hs⟩ := skipWs_decomp s
      obtain ⟨h1, h2⟩ := takeElem_some hw
      exact ⟨a, w, r, by rw [List.append_assoc, ← h1]; exact hs, ha, h2, skipWs_isEmpty.mp h⟩
    · simp at h
  · rintro ⟨a, w, b, rfl, ha, hw, hb⟩
    unfold isElementRegex
    rw [List.append_assoc, skipWs_append ha (fun c hc => Upper.not_space (hw.head c hc)),
      takeElem_append hw (fun c hc => not_lower_of_space (hb.head c hc))]
    exact skipWs_isEmpty.mpr hb

theorem Spec.ElemName.head {w r : List Char} (hw : ElemName w) : ∀ c, (w ++ r).head? = some c → Upper c := by
  obtain ⟨u, lo, rfl, hu, _⟩ := hw
  intro c hc; simp at hc; subst hc; exact hu

theorem isNameRegex_iff {s : List Char} : isNameRegex s = true ↔ NameLang s := by
  constructor
  · intro h
    unfold isNameRegex at h
    split at h
    · rename_i w r hw
      obtain ⟨a, ha, hs⟩ := skipWs_decomp s
      obtain ⟨h1, h2⟩ := takeName_some hw
      exact ⟨a, w, r, by rw [List.append_assoc, ← h1]; exact hs, ha, h2, skipWs_isEmpty.mp h⟩
    · simp at h
  · rintro ⟨a, w, b, rfl, ha, hw, hb⟩
    unfold isNameRegex
    rw [List.append_assoc, skipWs_append ha (fun c hc => Upper.not_space (hw.head c hc)),
      takeName_append hw (fun c hc => not_lower_of_space (hb.head c hc))]
    exact skipWs_isEmpty.mpr hb

theorem isIsotopeRegex_iff {s : List Char} : isIsotopeRegex s = true ↔ IsotopeLang s := by
  constructor
  · intro h
    unfold isIsotopeRegex at h
    split at h
    · rename_i w r hw
      obtain ⟨a, ha, hs⟩ := skipWs_decomp s
      obtain ⟨e, d, rfl, h1, h2, h3⟩ := takeIso_some hw
      refine ⟨a, e, d, r, ?_, ha, h2, h3, skipWs_isEmpty.mp h⟩
      rw [hs, h1]; simp
    · simp at h
  · rintro ⟨a, w, d, b, rfl, ha, hw, hd, hb⟩
    unfold isIsotopeRegex
    rw [show a ++ w ++ d ++ b = a ++ (w ++ d ++ b) by simp,
      skipWs_append ha (fun c hc => Upper.not_space (hw.head (r := d ++ b) c (by simpa using hc))),
      takeIso_append hw hd (fun c hc => not_digit_of_space (hb.head c hc))]
    exact skipWs_isEmpty.mpr hb

theorem takeIsomer_ws {b : List Char} (hb : Ws b) : takeIsomer b = none := by
  cases b with
  | nil => simp [takeIsomer]
  | cons x b =>
    have := hb.head x rfl
    unfold takeIsomer
    split
    · rename_i c r heq
      simp at heq
      rw [heq.1] at this
      simp [isSpaceC] at this
    · rfl

theorem isomerOpt_head {m b : List Char} (hm : IsomerOpt m) (hb : Ws b) :
    ∀ c, (m ++ b).head? = some c → ¬ Digit c ∧ ¬ Upper c := by
  intro c hc
  rcases hm with rfl | rfl | rfl | rfl
  · exact ⟨not_digit_of_space (hb.head c (by simpa using hc)), not_upper_of_space (hb.head c (by simpa using hc))⟩
  all_goals
    simp at hc; subst hc; unfold Digit Upper; constructor <;> decide

theorem isNuclideRegex_iff {s : List Char} : isNuclideRegex s = true ↔ NuclideLang s := by
  constructor
  · intro h
    unfold isNuclideRegex at h
    split at h
    · rename_i w r hw
      obtain ⟨a, ha, hs⟩ := skipWs_decomp s
      obtain ⟨e, d, rfl, h1, h2, h3⟩ := takeIso_some hw
      split at h
      · rename_i m r' hm
        obtain ⟨q1, q2⟩ := takeIsomer_some hm
        refine ⟨a, e, d, m, r', ?_, ha, h2, h3, ?_, skipWs_isEmpty.mp h⟩
        · rw [hs, h1, q1]; simp
        · exact Or.inr q2
      · refine ⟨a, e, d, [], r, ?_, ha, h2, h3, Or.inl rfl, skipWs_isEmpty.mp h⟩
        rw [hs, h1]; simp
    · simp at h
  · rintro ⟨a, w, d, m, b, rfl, ha, hw, hd, hm, hb⟩
    unfold isNuclideRegex
    rw [show a ++ w ++ d ++ m ++ b = a ++ (w ++ d ++ (m ++ b)) by simp,
      skipWs_append ha (fun c hc => Upper.not_space (hw.head (r := d ++ (m ++ b)) c (by simpa using hc))),
      takeIso_append hw hd (fun c hc => (isomerOpt_head hm hb c hc).1)]
    rcases hm with rfl | rfl | rfl | rfl
    · simp only [List.nil_append, takeIsomer_ws hb]
      exact skipWs_isEmpty.mpr hb
    all_goals
      simp [takeIsomer, skipWs_ws hb]

/-! Searching -/

theorem regexSearch_skip {m : List Char → Option (List Char × List Char)} {a s : List Char}
    (ha : ∀ c ∈ a, ∀ t, m (c :: t) = none) : regexSearch m (a ++ s) = regexSearch m s := by
  induction a with
  | nil => rfl
  | cons x a ih =>
    simp only [List.cons_append, regexSearch, ha x (by simp)]
    exact ih (fun c hc => ha c (by simp [hc]))

theorem regexSearch_hit {m : List Char → Option (List Char × List Char)} {s w r : List Char}
    (hs : s ≠ []) (h : m s = some (w, r)) : regexSearch m s = w := by
  cases s with
  | nil => exact absurd rfl hs
  | cons c s => simp [regexSearch, h]

theorem ws_not_upper {a : List Char} (ha : Ws a) : ∀ c ∈ a, ¬ Upper c :=
  fun c hc => not_upper_of_space (isSpaceC_iff.mpr (ha c hc))
theorem ws_not_digit {a : List Char} (ha : Ws a) : ∀ c ∈ a, ¬ Digit c :=
  fun c hc => not_digit_of_space (isSpaceC_iff.mpr (ha c hc))

theorem Spec.ElemSym.ne_nil {w : List Char} (h : ElemSym w) : w ≠ [] := by
  obtain ⟨u, lo, rfl, _⟩ := h; simp
theorem Spec.ElemName.ne_nil {w : List Char} (h : ElemName w) : w ≠ [] := by
  obtain ⟨u, lo, rfl, _⟩ := h; simp

theorem search_elem {a w r : List Char} (ha : Ws a) (hw : ElemSym w) (hr : ∀ c, r.head? = some c → ¬ Lower c) :
    regexSearch takeElem (a ++ w ++ r) = w := by
  rw [List.append_assoc, regexSearch_skip (fun c hc t => takeElem_none (ws_not_upper ha c hc))]
  exact regexSearch_hit (by simp [hw.ne_nil]) (takeElem_append hw hr)

theorem search_name {a w r : List Char} (ha : Ws a) (hw : ElemName w) (hr : ∀ c, r.head? = some c → ¬ Lower c) :
    regexSearch takeName (a ++ w ++ r) = w := by
  rw [List.append_assoc, regexSearch_skip (fun c hc t => takeName_none (ws_not_upper ha c hc))]
  exact regexSearch_hit (by simp [hw.ne_nil]) (takeName_append hw hr)

theorem Spec.ElemSym.not_digit {w : List Char} (h : ElemSym w) : ∀ c ∈ w, ¬ Digit c := by
  obtain ⟨u, lo, rfl, hu, _, hlo⟩ := h
  intro c hc
  simp only [List.mem_cons] at hc
  rcases hc with rfl | hc
  · unfold Upper Digit at *; omega
  · have := hlo c hc; unfold Lower Digit at *; omega

theorem search_digits {a w d r : List Char} (ha : Ws a) (hw : ElemSym w) (hd : Digits13 d)
    (hr : ∀ c, r.head? = some c → ¬ Digit c) : regexSearch takeDigits (a ++ w ++ d ++ r) = d := by
  rw [show a ++ w ++ d ++ r = (a ++ w) ++ (d ++ r) by simp, regexSearch_skip]
  · refine regexSearch_hit ?_ (takeDigits_append hd hr)
    obtain ⟨h1, _⟩ := hd
    cases d with
    | nil => simp at h1
    | cons => simp
  · intro c hc t
    simp only [List.mem_append] at hc
    rcases hc with hc | hc
    · exact takeDigits_none (ws_not_digit ha c hc)
    · exact takeDigits_none (hw.not_digit c hc)

theorem search_iso {a w d r : List Char} (ha : Ws a) (hw : ElemSym w) (hd : Digits13 d)
    (hr : ∀ c, r.head? = some c → ¬ Digit c) : regexSearch takeIso (a ++ w ++ d ++ r) = w ++ d := by
  rw [show a ++ w ++ d ++ r = a ++ (w ++ d ++ r) by simp,
    regexSearch_skip (fun c hc t => takeIso_none (ws_not_upper ha c hc))]
  exact regexSearch_hit (by simp [hw.ne_nil]) (takeIso_append hw hd hr)

theorem regexErase_skip {m : List Char → Option (List Char × List Char)} {a s : List Char} {f : Nat}
    (ha : ∀ c ∈ a, ∀ t, m (c :: t) = none) : regexErase m (a.length + f) (a ++ s) = a ++ regexErase m f s := by
  induction a with
  | nil => simp
  | cons x a ih =>
    rw [show (x :: a).length + f = (a.length + f) + 1 by simp; omega]
    simp only [List.cons_append, regexErase, ha x (by simp)]
    rw [ih (fun c hc => ha c (by simp [hc]))]

theorem regexErase_nohit {m : List Char → Option (List Char × List Char)} {a : List Char} {f : Nat}
    (hf : a.length ≤ f) (ha : ∀ c ∈ a, ∀ t, m (c :: t) = none) : regexErase m f a = a := by
  have := regexErase_skip (m := m) (a := a) (s := []) (f := f - a.length) ha
  rw [show a.length + (f - a.length) = f by omega] at this
  simp only [List.append_nil] at this
  rw [this]
  cases f - a.length <;> simp [regexErase]

theorem isomerOpt_not_upper {m : List Char} (hm : IsomerOpt m) : ∀ c ∈ m, ¬ Upper c := by
  rcases hm with rfl | rfl | rfl | rfl
  · simp
  all_goals
    intro c hc; simp at hc; rcases hc with rfl | rfl <;> · unfold Upper; decide

theorem erase_iso {a w d m b : List Char} (ha : Ws a) (hw : ElemSym w) (hd : Digits13 d) (hm : IsomerOpt m) (hb : Ws b) :
    regexErase takeIso (a ++ w ++ d ++ m ++ b).length (a ++ w ++ d ++ m ++ b) = a ++ (m ++ b) := by
  have e1 : a ++ w ++ d ++ m ++ b = a ++ (w ++ d ++ (m ++ b)) := by simp
  rw [e1, List.length_append, regexErase_skip (fun c hc t => takeIso_none (ws_not_upper ha c hc))]
  congr 1
  have ht := takeIso_append hw hd (fun c hc => (isomerOpt_head hm hb c hc).1)
  obtain ⟨u, lo, rfl, _⟩ := hw
  rw [show (u :: lo ++ d ++ (m ++ b)).length = (lo ++ d ++ (m ++ b)).length + 1 by simp]
  rw [show u :: lo ++ d ++ (m ++ b) = u :: (lo ++ d ++ (m ++ b)) by simp] at ht ⊢
  simp only [regexErase]
  rw [ht]
  simp only
  refine regexErase_nohit (by simp; omega) ?_
  intro c hc t
  simp only [List.mem_append] at hc
  rcases hc with hc | hc
  · exact takeIso_none (isomerOpt_not_upper hm c hc)
  · exact takeIso_none (ws_not_upper hb c hc)

theorem takeIsomer_cons_ne {c : Char} {t : List Char} (h : c ≠ 'm') : takeIsomer (c :: t) = none := by
  unfold takeIsomer
  split
  · rename_i heq; simp at heq; exact absurd heq.1 h
  · rfl

theorem ws_ne_m {a : List Char} (ha : Ws a) : ∀ c ∈ a, c ≠ 'm' := by
  rintro c hc rfl
  have := ha _ hc
  simp at this

theorem search_isomer {a m b : List Char} (ha : Ws a) (hm : IsomerOpt m) (hb : Ws b) :
    regexSearch takeIsomer (a ++ (m ++ b)) = m := by
  rw [regexSearch_skip (fun c hc t => takeIsomer_cons_ne (ws_ne_m ha c hc))]
  rcases hm with rfl | rfl | rfl | rfl
  · have := regexSearch_skip (m := takeIsomer) (a := b) (s := []) (fun c hc t => takeIsomer_cons_ne (ws_ne_m hb c hc))
    simpa [regexSearch] using this
  all_goals
    exact regexSearch_hit (by simp) (by simp [takeIsomer]; rfl)

theorem stoul_eq (d : List Char) : ∀ acc, d.foldl (fun acc c => 10 * acc + (c.toNat - '0'.toNat)) acc
    = acc * 10 ^ d.length + decVal d := by
  induction d with
  | nil => intro acc; simp [decVal]
  | cons c d ih =>
    intro acc
    simp only [List.foldl_cons, ih, decVal, List.length_cons]
    have : '0'.toNat = 48 := by decide
    rw [this, Nat.add_mul, Nat.pow_succ]
    rw [Nat.mul_comm 10 acc, Nat.mul_assoc, Nat.mul_comm 10]
    omega

theorem stoul_decVal (d : List Char) : stoul d = decVal d := by
  unfold stoul; rw [stoul_eq]; simp

end PNDL
