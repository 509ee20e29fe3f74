import Verif.Lemmas.AceText

/-! C89: the reader of ACE text files. -/
namespace PNDL
open Spec

theorem space_stop {c : Char} (h : isSpaceC c = true) : isDigC c = false ∧ c ≠ '.' ∧ c ≠ 'e' ∧ c ≠ 'E' := by
  simp only [isSpaceC, Bool.or_eq_true, beq_iff_eq] at h
  rcases h with ((((h | h) | h) | h) | h) | h <;> subst h <;> decide

theorem sign_stop (s : Sign) (h : s ≠ .none) : ∃ c, s.text = [c] ∧ isSpaceC c = false ∧ isDigC c = false ∧ c ≠ '.' ∧ c ≠ 'e' ∧ c ≠ 'E' := by
  cases s with
  | none => exact absurd rfl h
  | plus => exact ⟨'+', rfl, by decide⟩
  | minus => exact ⟨'-', rfl, by decide⟩

theorem dropWhile_white {w : List Char} (hw : White w) (r : List Char) : (w ++ r).dropWhile isSpaceC = r.dropWhile isSpaceC := by
  induction w with
  | nil => rfl
  | cons c w ih =>
    have hc := hw c (by simp)
    rw [List.cons_append, List.dropWhile_cons, if_pos hc]
    exact ih (fun d hd => hw d (by simp [hd]))

/-- The first character of an integer. -/
theorem Spec.IntNum.head (n : IntNum) (hn : n.Wf) : ∃ c t, n.text = c :: t ∧ isSpaceC c = false := by
  obtain ⟨sg, ds⟩ := n
  obtain ⟨h1, -⟩ := hn
  by_cases hs : sg = .none
  · subst hs
    cases ds with
    | nil => exact absurd rfl h1
    | cons d ds => exact ⟨digit d, _, rfl, digit_not_space d⟩
  · obtain ⟨c, hc, h2, _⟩ := sign_stop sg hs
    exact ⟨c, _, by unfold IntNum.text; rw [hc]; rfl, h2⟩

/-- The first character of a number. -/
theorem Spec.Num.head (n : Num) (hn : n.Wf) : ∃ c t, n.text = c :: t ∧ isSpaceC c = false := by
  obtain ⟨sg, ip, fp, ex⟩ := n
  obtain ⟨h1, -⟩ := hn
  by_cases hs : sg = .none
  · subst hs
    cases ip with
    | cons d ds => exact ⟨digit d, _, rfl, digit_not_space d⟩
    | nil =>
      cases fp with
      | none => exact absurd (by simp [Num.frac]) h1
      | some f => exact ⟨'.', _, rfl, by decide⟩
  · obtain ⟨c, hc, h2, _⟩ := sign_stop sg hs
    exact ⟨c, _, by unfold Num.text; rw [hc]; rfl, h2⟩

/-- One field is read, and the stream stands behind it. -/
theorem get_field {α : Type} (sc : Scanner α) (w txt r : List Char) (v : α) (hw : White w)
    (hh : ∃ c t, txt = c :: t ∧ isSpaceC c = false) (hs : sc (txt ++ r) = (v, true, r)) :
    TStream.get sc ⟨w ++ (txt ++ r), false, false⟩ = (⟨r, r.isEmpty, false⟩, some v) := by
  obtain ⟨c, t, rfl, hc⟩ := hh
  unfold TStream.get
  rw [if_neg (by simp)]
  dsimp only
  rw [dropWhile_white hw, List.cons_append, List.dropWhile_cons, if_neg (by simp [hc])]
  dsimp only
  rw [List.cons_append] at hs
  rw [hs]
  rfl

theorem field_int_any (p : Entry IntNum) (hp : Fields IntNum.Wf IntNum.sign [p]) (r : List Char) (hr : ∀ c ∈ r.head?, isDigC c = false) :
    TStream.get scanInt ⟨p.1 ++ (p.2.text ++ r), false, false⟩ = (⟨r, r.isEmpty, false⟩, some p.2.value) := by
  obtain ⟨h1, _, h3⟩ := hp p (by simp)
  exact get_field scanInt p.1 p.2.text r p.2.value h1 (p.2.head h3) (p.2.scan h3 r hr)

theorem field_int (p : Entry IntNum) (hp : Fields IntNum.Wf IntNum.sign [p]) (r : List Char) (hr : Stop r) :
    TStream.get scanInt ⟨p.1 ++ (p.2.text ++ r), false, false⟩ = (⟨r, r.isEmpty, false⟩, some p.2.value) :=
  field_int_any p hp r (fun c hc => (hr c hc).1)

theorem field_num {K : Type} [Field K] [CharZero K] (p : Entry Num) (hp : Fields Num.Wf Num.sign [p]) (r : List Char) (hr : Stop r) :
    TStream.get (scanDouble (K := K)) ⟨p.1 ++ (p.2.text ++ r), false, false⟩ = (⟨r, r.isEmpty, false⟩, some p.2.value) := by
  obtain ⟨h1, _, h3⟩ := hp p (by simp)
  exact get_field scanDouble p.1 p.2.text r p.2.value h1 (p.2.head h3) (p.2.scan h3 r hr)

/-- What a field starts with does not continue a number, and it is not empty. -/
theorem field_stop {α : Type} {Wf : α → Prop} {sign : α → Sign} {text : α → List Char} (ht : ∀ n, ∃ t, text n = (sign n).text ++ t)
    (p : Entry α) (hp : Fields Wf sign [p]) (r : List Char) : Stop (p.1 ++ (text p.2 ++ r)) ∧ p.1 ++ (text p.2 ++ r) ≠ [] := by
  obtain ⟨h1, h2, _⟩ := hp p (by simp)
  obtain ⟨t, ht⟩ := ht p.2
  rcases hw : p.1 with _ | ⟨c, w⟩
  · rw [hw] at h2
    obtain ⟨c, hc, _, q⟩ := sign_stop (sign p.2) (by simpa using h2)
    rw [ht, hc]
    refine ⟨?_, by simp⟩
    intro d hd
    simp at hd
    subst hd
    exact q
  · refine ⟨?_, by simp⟩
    intro d hd
    simp at hd
    subst hd
    exact space_stop (h1 c (by rw [hw]; simp))

theorem intText_sign (n : IntNum) : ∃ t, n.text = n.sign.text ++ t := ⟨_, rfl⟩
theorem numText_sign (n : Num) : ∃ t, n.text = n.sign.text ++ t := ⟨n.ip.map digit ++ (fpText n.fp ++ expText n.exp), by unfold Num.text; simp only [List.append_assoc]⟩

theorem fields_cons {α : Type} {Wf : α → Prop} {sign : α → Sign} {p : Entry α} {l : List (Entry α)} (h : Fields Wf sign (p :: l)) :
    Fields Wf sign [p] ∧ Fields Wf sign l :=
  ⟨fun q hq => h q (by simp at hq; simp [hq]), fun q hq => h q (by simp [hq])⟩

theorem fieldsText_cons {α : Type} (text : α → List Char) (p : Entry α) (l : List (Entry α)) (r : List Char) :
    fieldsText text (p :: l) ++ r = p.1 ++ (text p.2 ++ (fieldsText text l ++ r)) := by
  simp [fieldsText, List.flatMap_cons]

theorem fields_stop {α : Type} {Wf : α → Prop} {sign : α → Sign} {text : α → List Char} (ht : ∀ n, ∃ t, text n = (sign n).text ++ t)
    (l : List (Entry α)) (hl : Fields Wf sign l) (r : List Char) (hr : Stop r) :
    Stop (fieldsText text l ++ r) ∧ (r ≠ [] ∨ l ≠ [] → fieldsText text l ++ r ≠ []) := by
  cases l with
  | nil => simpa [fieldsText] using hr
  | cons p l =>
    rw [fieldsText_cons]
    have := field_stop ht p (fields_cons hl).1 (fieldsText text l ++ r)
    exact ⟨this.1, fun _ => this.2⟩

theorem isEmpty_false {α : Type} {l : List α} (h : l ≠ []) : l.isEmpty = false := by cases l with | nil => exact absurd rfl h | cons => rfl

theorem textInts_fields_any (l : List (Entry IntNum)) (hl : Fields IntNum.Wf IntNum.sign l) (r : List Char)
    (hr : ∀ c ∈ r.head?, isDigC c = false) (hne : r ≠ []) :
    textInts l.length ⟨fieldsText IntNum.text l ++ r, false, false⟩ = (l.map (fun p => p.2.value), ⟨r, false, false⟩) := by
  induction l with
  | nil => simp [textInts, fieldsText]
  | cons p l ih =>
    obtain ⟨h1, h2⟩ := fields_cons hl
    have q1 : (∀ c ∈ (fieldsText IntNum.text l ++ r).head?, isDigC c = false) ∧ fieldsText IntNum.text l ++ r ≠ [] := by
      cases l with
      | nil => simpa [fieldsText] using ⟨hr, hne⟩
      | cons q l =>
        rw [fieldsText_cons]
        have := field_stop intText_sign q (fields_cons h2).1 (fieldsText IntNum.text l ++ r)
        exact ⟨fun c hc => (this.1 c hc).1, this.2⟩
    rw [fieldsText_cons]
    simp only [List.length_cons, textInts]
    rw [field_int_any p h1 _ q1.1]
    dsimp only
    rw [isEmpty_false q1.2, ih h2]
    simp

theorem textInts_fields (l : List (Entry IntNum)) (hl : Fields IntNum.Wf IntNum.sign l) (r : List Char) (hr : Stop r) (hne : r ≠ []) :
    textInts l.length ⟨fieldsText IntNum.text l ++ r, false, false⟩ = (l.map (fun p => p.2.value), ⟨r, false, false⟩) :=
  textInts_fields_any l hl r (fun c hc => (hr c hc).1) hne

theorem textIzaw_fields {K : Type} [Field K] [CharZero K] (l : List (Entry IntNum × Entry Num))
    (hl : ∀ p ∈ l, Fields IntNum.Wf IntNum.sign [p.1] ∧ Fields Num.Wf Num.sign [p.2]) (r : List Char) (hr : Stop r) (hne : r ≠ []) :
    textIzaw (K := K) l.length ⟨pairsText l ++ r, false, false⟩ =
      .ok (l.map (fun p => (p.1.2.value, p.2.2.value)), ⟨r, false, false⟩) := by
  induction l with
  | nil => simp [textIzaw, pairsText]
  | cons p l ih =>
    obtain ⟨h1, h2⟩ := hl p (by simp)
    have h3 : ∀ p ∈ l, Fields IntNum.Wf IntNum.sign [p.1] ∧ Fields Num.Wf Num.sign [p.2] := fun q hq => hl q (by simp [hq])
    have e : pairsText (p :: l) ++ r = p.1.1 ++ (p.1.2.text ++ (p.2.1 ++ (p.2.2.text ++ (pairsText l ++ r)))) := by
      simp [pairsText, List.flatMap_cons]
    have q1 : Stop (pairsText l ++ r) ∧ pairsText l ++ r ≠ [] := by
      cases l with
      | nil => simpa [pairsText] using ⟨hr, hne⟩
      | cons q l =>
        have e' : pairsText (q :: l) ++ r = q.1.1 ++ (q.1.2.text ++ (q.2.1 ++ (q.2.2.text ++ (pairsText l ++ r)))) := by
          simp [pairsText, List.flatMap_cons]
        rw [e']
        exact field_stop intText_sign q.1 (h3 q (by simp)).1 _
    have q2 := field_stop numText_sign p.2 h2 (pairsText l ++ r)
    rw [e]
    simp only [List.length_cons, textIzaw]
    rw [field_int p.1 h1 _ q2.1]
    dsimp only
    rw [isEmpty_false q2.2, field_num p.2 h2 _ q1.1]
    dsimp only
    rw [isEmpty_false q1.2, ih h3]
    simp [bind, Except.bind, pure, Except.pure]

/-- The XSS loop reads the first `n` of the numbers. -/
theorem textXss_fields {K : Type} [Field K] [CharZero K] (n : Nat) (l : List (Entry Num)) (hl : Fields Num.Wf Num.sign l)
    (hn : n ≤ l.length) (r : List Char) (hr : Stop r) :
    textXss (K := K) n ⟨fieldsText Num.text l ++ r, false, false⟩ = (l.take n).map (fun p => p.2.value) := by
  induction n generalizing l with
  | zero => simp [textXss]
  | succ n ih =>
    cases l with
    | nil => simp at hn
    | cons p l =>
      obtain ⟨h1, h2⟩ := fields_cons hl
      obtain ⟨q1, q2⟩ := fields_stop numText_sign l h2 r hr
      rw [fieldsText_cons]
      simp only [textXss]
      rw [if_neg (by simp), field_num p h1 _ q1]
      dsimp only
      simp only [Option.getD_some, List.take_succ_cons, List.map_cons]
      congr 1
      cases n with
      | zero => simp [textXss]
      | succ n =>
        have hne : fieldsText Num.text l ++ r ≠ [] := q2 (Or.inr (by intro hc; rw [hc] at hn; simp at hn))
        rw [isEmpty_false hne]
        exact ih l h2 (by simp at hn; omega)

/-- When there are fewer numbers than `n`, followed by `s` : they are read, and the loop goes on from there. -/
theorem textXss_more {K : Type} [Field K] [CharZero K] (m : Nat) (l : List (Entry Num)) (hl : Fields Num.Wf Num.sign l)
    (r : List Char) (hr : Stop r) (hne : r ≠ []) :
    textXss (K := K) (l.length + m) ⟨fieldsText Num.text l ++ r, false, false⟩ =
      l.map (fun p => p.2.value) ++ textXss m ⟨r, false, false⟩ := by
  induction l with
  | nil => simp [fieldsText]
  | cons p l ih =>
    obtain ⟨h1, h2⟩ := fields_cons hl
    obtain ⟨q1, q2⟩ := fields_stop numText_sign l h2 r hr
    rw [fieldsText_cons, List.length_cons, show l.length + 1 + m = (l.length + m) + 1 by omega]
    simp only [textXss]
    rw [if_neg (by simp), field_num p h1 _ q1]
    dsimp only
    rw [isEmpty_false (q2 (Or.inl hne)), ih h2]
    simp

theorem textXss_eof {K : Type} [Field K] (m : Nat) (s : TStream) (h : s.eof = true) : textXss (K := K) m s = [] := by
  cases m with
  | zero => rfl
  | succ m => simp [textXss, h]

theorem textXss_failed {K : Type} [Field K] (m : Nat) (r : List Char) :
    textXss (K := K) m ⟨r, false, true⟩ = List.replicate m 0 := by
  induction m with
  | zero => rfl
  | succ m ih => simp [textXss, TStream.get, ih, List.replicate_succ]

/-- The body of the file, once the header has been read. -/
theorem body_read {K : Type} [Field K] [CharZero K] (cv : TextConv K) (kT : K) (file : List Char) (h : TextHeader K) (b : Body)
    (tail : List Char) (hb : b.Wf) (ht : Stop tail) (hne : b.xss ≠ [] ∨ tail ≠ []) (hs : 0 ≤ b.size) (hn : b.size ≤ b.xss.length)
    (hh : textHeader cv kT file = .ok (h, ⟨b.text ++ tail, false, false⟩)) :
    ∃ a, readAscii cv kT file = .ok a ∧ b.Read a ∧ a.temperature = h.temperature ∧ a.awr = h.awr ∧ a.zaidTxt = h.zaidTxt ∧
      a.date = h.date ∧ a.comment = h.comment ∧ a.mat = h.mat := by
  have e : b.text ++ tail = pairsText b.izaw ++ (fieldsText IntNum.text b.nxs ++ (fieldsText IntNum.text b.jxs ++
      (fieldsText Num.text b.xss ++ tail))) := by simp [Body.text]
  rw [e] at hh
  obtain ⟨s3, n3⟩ := fields_stop numText_sign b.xss hb.xss tail ht
  have n3 := n3 hne.symm
  obtain ⟨s2, n2⟩ := fields_stop intText_sign b.jxs hb.jxs _ s3
  have n2 := n2 (Or.inl n3)
  obtain ⟨s1, n1⟩ := fields_stop intText_sign b.nxs hb.nxs _ s2
  have n1 := n1 (Or.inl n2)
  have r1 := textIzaw_fields (K := K) b.izaw hb.izaw _ s1 n1
  have r2 := textInts_fields b.nxs hb.nxs _ s2 n2
  have r3 := textInts_fields b.jxs hb.jxs _ s3 n3
  rw [hb.n_izaw] at r1
  rw [hb.n_nxs] at r2
  rw [hb.n_jxs] at r3
  have l1 := hb.n_nxs
  have l2 := hb.n_jxs
  have hz : ∀ i, i < 16 → ∃ z, (b.nxs.map (fun p => p.2.value))[i]? = some z := fun i hi =>
    ⟨_, List.getElem?_eq_getElem (by simp; omega)⟩
  have hj : ∃ z, (b.jxs.map (fun p => p.2.value))[1]? = some z := ⟨_, List.getElem?_eq_getElem (by simp; omega)⟩
  obtain ⟨z0, hz0⟩ := hz 0 (by omega)
  obtain ⟨z1, hz1⟩ := hz 1 (by omega)
  obtain ⟨j1, hj1⟩ := hj
  have hsz : b.size = z0 := by unfold Body.size; rw [List.getElem?_map] at hz0; rw [hz0]; rfl
  have r4 := textXss_fields (K := K) z0.toNat b.xss hb.xss (by omega) tail ht
  have hl : (((b.xss.take z0.toNat).map (fun p => p.2.value (K := K)))).length = z0.toNat := by
    simp only [List.length_map, List.length_take]; omega
  refine ⟨⟨zaidOfNxs z1, h.temperature, h.awr, decide (j1 > 0), h.zaidTxt, h.date, h.comment, h.mat,
    b.izaw.map (fun p => (p.1.2.value, p.2.2.value)), b.nxs.map (fun p => p.2.value), b.jxs.map (fun p => p.2.value),
    (b.xss.take b.size.toNat).map (fun p => p.2.value)⟩, ?_, ⟨rfl, rfl, rfl, rfl, ?_, ?_⟩, rfl, rfl, rfl, rfl, rfl, rfl⟩
  · unfold readAscii
    simp only [hh, bind, Except.bind, r1, r2, r3]
    simp only [getAt, hz0]
    rw [if_neg (by omega)]
    simp only [r4, hl]
    rw [if_neg (by simp)]
    simp only [hz1, hj1, hsz, pure, Except.pure]
  · intro Z A hZ hA hZA
    dsimp only at hZA
    rw [hz1] at hZA
    cases hZA
    have hu : txtU32 ((1000 * Z + A : Nat) : Int) = 1000 * Z + A := by unfold txtU32; omega
    have hd : (1000 * Z + A) / 1000 % 2 ^ 8 = Z := by omega
    constructor
    · change txtU32 _ / 1000 % 2 ^ 8 = Z
      rw [hu, hd]
    · change txtU32 _ - (txtU32 _ / 1000 % 2 ^ 8) * 1000 = A
      rw [hu, hd]; omega
  · dsimp only
    rw [hj1]
    simp

theorem readStr_append (a r : List Char) (n : Nat) (h : a.length = n) :
    TStream.readStr n ⟨a ++ r, false, false⟩ = (a, ⟨r, false, false⟩) := by
  unfold TStream.readStr
  rw [if_neg (by simp), if_pos (by simp; omega)]
  simp [← h]

theorem skip_append (a r : List Char) (n : Nat) (h : a.length = n) : TStream.skip n ⟨a ++ r, false, false⟩ = ⟨r, false, false⟩ := by
  unfold TStream.skip
  rw [if_neg (by simp), if_pos (by simp; omega)]
  simp [← h]

theorem skipNl_lineEnd (nl c r : List Char) (hnl : LineEnd nl) (hc : c ≠ []) (hs : ∀ d ∈ c.head?, d ≠ '\n' ∧ d ≠ '\r') :
    TStream.skipNl (TStream.skipNl ⟨nl ++ (c ++ r), false, false⟩) = ⟨c ++ r, false, false⟩ := by
  cases c with
  | nil => exact absurd rfl hc
  | cons d c =>
    have := hs d (by simp)
    rcases hnl with rfl | rfl
    · simp [TStream.skipNl, this.1, this.2]
    · simp [TStream.skipNl]

theorem textTail_fixed (h : Fixed) (hf : h.Wf) (r : List Char) :
    textTail ⟨h.date ++ (h.nl ++ (h.comment ++ (h.mat ++ r))), false, false⟩ = ((h.date, h.comment, h.mat), ⟨r, false, false⟩) := by
  unfold textTail
  rw [readStr_append _ _ _ hf.date]
  dsimp only
  rw [skipNl_lineEnd _ _ _ hf.nl (by intro hc; have := hf.comment; rw [hc] at this; simp at this) hf.start]
  rw [readStr_append _ _ _ hf.comment]
  dsimp only
  rw [readStr_append _ _ _ hf.mat]

/-- A file with the old header — name, atomic weight (12 characters), temperature (12 characters), a blank, date, line end, comment, material —
followed by the arrays is read back exactly: every number has its written value and every text field is the text of the file. -/
theorem C89_exact {K : Type} [Field K] [CharZero K] (cv : TextConv K) (kT : K) (h : Fixed) (hf : h.Wf) (awr temp : List Char) (blank : Char)
    (hmid : h.mid = awr ++ temp ++ [blank]) (hawr : awr.length = 12) (htemp : temp.length = 12) (w t : K) (hw : cv.stod awr = .ok w)
    (htt : cv.stod temp = .ok t) (hold : h.zaid.take 2 ≠ ['2', '.']) (b : Body) (hb : b.Wf) (tail : List Char) (ht : Stop tail)
    (hne : b.xss ≠ [] ∨ tail ≠ []) (hs : 0 ≤ b.size) (hn : b.size ≤ b.xss.length) :
    ∃ a, readAscii cv kT (h.text ++ (b.text ++ tail)) = .ok a ∧ b.Read a ∧ a.temperature = t * kT ∧ a.awr = w ∧ a.zaidTxt = h.zaid ∧
      a.date = h.date ∧ a.comment = h.comment ∧ a.mat = h.mat := by
  have hh : textHeader cv kT (h.text ++ (b.text ++ tail)) =
      .ok (⟨w, t * kT, h.zaid, h.date, h.comment, h.mat⟩, ⟨b.text ++ tail, false, false⟩) := by
    have e : h.text ++ (b.text ++ tail) = h.zaid ++ (awr ++ (temp ++ ([blank] ++ (h.date ++ (h.nl ++ (h.comment ++ (h.mat ++
        (b.text ++ tail)))))))) := by unfold Fixed.text; rw [hmid]; simp only [List.append_assoc]
    unfold textHeader
    dsimp only
    have h2 : (h.text ++ (b.text ++ tail)).take 2 ≠ ['2', '.'] := by
      rw [e, List.take_append_of_le_length (by rw [hf.zaid]; omega)]; exact hold
    rw [if_neg h2, e, readStr_append _ _ _ hf.zaid]
    dsimp only
    rw [readStr_append _ _ _ hawr]
    dsimp only
    rw [readStr_append _ _ _ htemp]
    dsimp only
    simp only [hw, htt, bind, Except.bind, pure, Except.pure]
    rw [skip_append [blank] _ 1 rfl, textTail_fixed h hf]
  exact body_read cv kT _ _ b tail hb ht hne hs hn hh

theorem getline_append (l r : List Char) (h : '\n' ∉ l) : TStream.getline ⟨l ++ '\n' :: r, false, false⟩ = (l, ⟨r, false, false⟩) := by
  have hd : (l ++ '\n' :: r).dropWhile (fun c => c ≠ '\n') = '\n' :: r := by
    induction l with
    | nil => simp
    | cons c l ih =>
      have hc : c ≠ '\n' := fun e => h (by simp [e])
      rw [List.cons_append, List.dropWhile_cons, if_pos (by simpa using hc)]
      exact ih (fun hm => h (by simp [hm]))
  have ht : (l ++ '\n' :: r).takeWhile (fun c => c ≠ '\n') = l := by
    clear hd
    induction l with
    | nil => simp
    | cons c l ih =>
      have hc : c ≠ '\n' := fun e => h (by simp [e])
      rw [List.cons_append, List.takeWhile_cons, if_pos (by simpa using hc), ih (fun hm => h (by simp [hm]))]
  unfold TStream.getline
  rw [if_neg (by simp)]
  dsimp only
  rw [hd, ht]

theorem splitLoop_blanks (n : Nat) (r : List Char) : splitLoop (List.replicate n ' ' ++ r) [] = splitLoop r [] := by
  induction n with
  | zero => rfl
  | succ n ih => simp [List.replicate_succ, splitLoop, ih]

theorem splitLoop_word (w r tmp : List Char) (hw : ' ' ∉ w) : splitLoop (w ++ r) tmp = splitLoop r (tmp ++ w) := by
  induction w generalizing tmp with
  | nil => simp
  | cons c w ih =>
    have hc : c ≠ ' ' := fun e => hw (by simp [e])
    rw [List.cons_append, splitLoop, if_pos hc, ih _ (fun hm => hw (by simp [hm]))]
    simp

theorem splitLoop_end (tmp r : List Char) (h : tmp ≠ []) (hr : r = [] ∨ ∃ r', r = ' ' :: r') :
    splitLoop r tmp = tmp :: splitLoop r [] := by
  have hp : tmp.length > 0 := List.length_pos_iff.mpr h
  rcases hr with rfl | ⟨r', rfl⟩
  · simp [splitLoop, h]
  · simp [splitLoop, h]

theorem splitLine_words (l : List (Nat × List Char)) (trail : Nat) (h : Words l) :
    splitLine (wordsText l trail) = l.map Prod.snd := by
  have key : ∀ l : List (Nat × List Char), (∀ q ∈ l, 1 ≤ q.1 ∧ q.2 ≠ [] ∧ ' ' ∉ q.2) →
      splitLine (wordsText l trail) = l.map Prod.snd ∧ (wordsText l trail = [] ∨ ∃ r', wordsText l trail = ' ' :: r') := by
    intro l
    induction l with
    | nil =>
      intro _
      have e : wordsText [] trail = List.replicate trail ' ' ++ [] := by simp [wordsText]
      refine ⟨by rw [e]; unfold splitLine; rw [splitLoop_blanks]; simp [splitLoop], ?_⟩
      cases trail with
      | zero => left; rfl
      | succ n => right; exact ⟨List.replicate n ' ', by simp [wordsText, List.replicate_succ]⟩
    | cons p l ih =>
      intro hl
      obtain ⟨h1, h2, h3⟩ := hl p (by simp)
      obtain ⟨i1, i2⟩ := ih (fun q hq => hl q (by simp [hq]))
      have e : wordsText (p :: l) trail = List.replicate p.1 ' ' ++ (p.2 ++ wordsText l trail) := by simp [wordsText]
      constructor
      · rw [e]
        unfold splitLine
        rw [splitLoop_blanks, splitLoop_word _ _ _ h3, List.nil_append, splitLoop_end _ _ h2 i2]
        unfold splitLine at i1
        rw [i1]
        rfl
      · right
        obtain ⟨k, hk⟩ : ∃ k, p.1 = k + 1 := ⟨p.1 - 1, by omega⟩
        rw [e, hk, List.replicate_succ]
        exact ⟨_, rfl⟩
  cases l with
  | nil => exact (key [] (by simp)).1
  | cons p l =>
    obtain ⟨⟨h2, h3⟩, hl⟩ := h
    obtain ⟨i1, i2⟩ := key l hl
    have e : wordsText (p :: l) trail = List.replicate p.1 ' ' ++ (p.2 ++ wordsText l trail) := by simp [wordsText]
    rw [e]
    unfold splitLine
    rw [splitLoop_blanks, splitLoop_word _ _ _ h3, List.nil_append, splitLoop_end _ _ h2 i2]
    unfold splitLine at i1
    rw [i1]
    rfl

theorem skipLines_lines (l : List (List Char)) (r : List Char) (h : ∀ x ∈ l, '\n' ∉ x) :
    TStream.skipLines l.length ⟨linesText l ++ r, false, false⟩ = ⟨r, false, false⟩ := by
  induction l with
  | nil => simp [linesText, TStream.skipLines]
  | cons x l ih =>
    have e : linesText (x :: l) ++ r = x ++ '\n' :: (linesText l ++ r) := by simp [linesText]
    rw [e, List.length_cons, TStream.skipLines, getline_append _ _ (h x (by simp))]
    exact ih (fun y hy => h y (by simp [hy]))

/-- A file with the new header whose second line announces two comment lines, these being the two lines of the old header. -/
theorem C89_exact_new {K : Type} [Field K] [CharZero K] (cv : TextConv K) (kT : K) (nh : NewHeader) (hnh : nh.Wf) (w0 w1 w3 : List Char)
    (h0 : nh.ws[0]?.map Prod.snd = some w0) (h1 : nh.ws[1]?.map Prod.snd = some w1) (h3 : nh.ws[3]?.map Prod.snd = some w3) (w t : K)
    (hw : cv.stod w0 = .ok w) (htt : cv.stod w1 = .ok t) (hk : cv.stoi w3 = .ok 2) (h : Fixed) (hf : h.Wf)
    (b : Body) (hb : b.Wf) (tail : List Char) (ht : Stop tail) (hne : b.xss ≠ [] ∨ tail ≠ []) (hs : 0 ≤ b.size) (hn : b.size ≤ b.xss.length) :
    ∃ a, readAscii cv kT (nh.text ++ (h.text ++ (b.text ++ tail))) = .ok a ∧ b.Read a ∧ a.temperature = t * kT ∧ a.awr = w ∧
      a.zaidTxt = h.zaid ∧ a.date = h.date ∧ a.comment = h.comment ∧ a.mat = h.mat := by
  have hh : textHeader cv kT (nh.text ++ (h.text ++ (b.text ++ tail))) =
      .ok (⟨w, t * kT, h.zaid, h.date, h.comment, h.mat⟩, ⟨b.text ++ tail, false, false⟩) := by
    have e : nh.text ++ (h.text ++ (b.text ++ tail)) = nh.line1 ++ '\n' :: (wordsText nh.ws nh.trail ++ '\n' :: (h.zaid ++ (h.mid ++
        (h.date ++ (h.nl ++ (h.comment ++ (h.mat ++ (b.text ++ tail)))))))) := by
      unfold NewHeader.text Fixed.text; simp only [List.append_assoc, List.cons_append, List.nil_append]
    have hl2 : 2 ≤ nh.line1.length := by
      have := congrArg List.length hnh.version
      simp only [List.length_take, List.length_cons, List.length_nil] at this
      omega
    unfold textHeader
    dsimp only
    rw [if_pos (by rw [e, List.take_append_of_le_length hl2]; exact hnh.version), e, getline_append _ _ hnh.line1]
    dsimp only
    rw [getline_append _ _ hnh.line2]
    dsimp only
    rw [splitLine_words _ _ hnh.words]
    simp only [getAt, List.getElem?_map, h0, h1, h3, bind, Except.bind, hw, htt, hk]
    rw [if_pos trivial, readStr_append _ _ _ hf.zaid]
    dsimp only
    rw [skip_append _ _ _ hf.mid, textTail_fixed h hf]
    rfl
  exact body_read cv kT _ _ b tail hb ht hne hs hn hh

/-- A file with the new header and any other number of comment lines, which are skipped; the text fields keep their blanks. -/
theorem C89_exact_comments {K : Type} [Field K] [CharZero K] (cv : TextConv K) (kT : K) (nh : NewHeader) (hnh : nh.Wf)
    (w0 w1 w3 : List Char) (h0 : nh.ws[0]?.map Prod.snd = some w0) (h1 : nh.ws[1]?.map Prod.snd = some w1)
    (h3 : nh.ws[3]?.map Prod.snd = some w3) (w t : K) (hw : cv.stod w0 = .ok w) (htt : cv.stod w1 = .ok t) (lines : List (List Char))
    (hlines : ∀ x ∈ lines, '\n' ∉ x) (hk : cv.stoi w3 = .ok lines.length) (h2 : lines.length ≠ 2)
    (b : Body) (hb : b.Wf) (tail : List Char) (ht : Stop tail) (hne : b.xss ≠ [] ∨ tail ≠ []) (hs : 0 ≤ b.size) (hn : b.size ≤ b.xss.length) :
    ∃ a, readAscii cv kT (nh.text ++ (linesText lines ++ (b.text ++ tail))) = .ok a ∧ b.Read a ∧ a.temperature = t * kT ∧ a.awr = w ∧
      a.zaidTxt = List.replicate 10 ' ' ∧ a.date = List.replicate 10 ' ' ∧ a.comment = List.replicate 70 ' ' ∧
      a.mat = List.replicate 10 ' ' := by
  have hh : textHeader cv kT (nh.text ++ (linesText lines ++ (b.text ++ tail))) =
      .ok (⟨w, t * kT, List.replicate 10 ' ', List.replicate 10 ' ', List.replicate 70 ' ', List.replicate 10 ' '⟩,
        ⟨b.text ++ tail, false, false⟩) := by
    have e : nh.text ++ (linesText lines ++ (b.text ++ tail)) = nh.line1 ++ '\n' :: (wordsText nh.ws nh.trail ++ '\n' ::
        (linesText lines ++ (b.text ++ tail))) := by
      unfold NewHeader.text; simp only [List.append_assoc, List.cons_append, List.nil_append]
    have hl2 : 2 ≤ nh.line1.length := by
      have := congrArg List.length hnh.version
      simp only [List.length_take, List.length_cons, List.length_nil] at this
      omega
    unfold textHeader
    dsimp only
    rw [if_pos (by rw [e, List.take_append_of_le_length hl2]; exact hnh.version), e, getline_append _ _ hnh.line1]
    dsimp only
    rw [getline_append _ _ hnh.line2]
    dsimp only
    rw [splitLine_words _ _ hnh.words]
    simp only [getAt, List.getElem?_map, h0, h1, h3, bind, Except.bind, hw, htt, hk]
    rw [if_neg (by omega), Int.toNat_natCast, skipLines_lines _ _ hlines]
    rfl
  exact body_read cv kT _ _ b tail hb ht hne hs hn hh

/-! ### Wrong numbers of entries -/

/-- The XSS loop decides: the arrays before it were read, `r` is the text after them. -/
theorem body_any {K : Type} [Field K] [CharZero K] (cv : TextConv K) (kT : K) (file : List Char) (h : TextHeader K) (b : Body)
    (r : List Char) (hb : b.Wf) (hx : b.xss = []) (hr : Stop r) (hne : r ≠ []) (hs : 0 ≤ b.size)
    (hh : textHeader cv kT file = .ok (h, ⟨b.text ++ r, false, false⟩)) :
    ((textXss (K := K) b.size.toNat ⟨r, false, false⟩).length ≠ b.size.toNat → readAscii cv kT file = .error .exc) ∧
    ((textXss (K := K) b.size.toNat ⟨r, false, false⟩).length = b.size.toNat →
      ∃ a, readAscii cv kT file = .ok a ∧ a.xss = textXss b.size.toNat ⟨r, false, false⟩) := by
  have e : b.text ++ r = pairsText b.izaw ++ (fieldsText IntNum.text b.nxs ++ (fieldsText IntNum.text b.jxs ++ r)) := by
    simp [Body.text, hx, fieldsText]
  rw [e] at hh
  obtain ⟨s2, n2⟩ := fields_stop intText_sign b.jxs hb.jxs _ hr
  have n2 := n2 (Or.inl hne)
  obtain ⟨s1, n1⟩ := fields_stop intText_sign b.nxs hb.nxs _ s2
  have n1 := n1 (Or.inl n2)
  have r1 := textIzaw_fields (K := K) b.izaw hb.izaw _ s1 n1
  have r2 := textInts_fields b.nxs hb.nxs _ s2 n2
  have r3 := textInts_fields b.jxs hb.jxs _ hr hne
  rw [hb.n_izaw] at r1
  rw [hb.n_nxs] at r2
  rw [hb.n_jxs] at r3
  have l1 := hb.n_nxs
  have l2 := hb.n_jxs
  have hz : ∀ i, i < 16 → ∃ z, (b.nxs.map (fun p => p.2.value))[i]? = some z := fun i hi =>
    ⟨_, List.getElem?_eq_getElem (by simp; omega)⟩
  have hj : ∃ z, (b.jxs.map (fun p => p.2.value))[1]? = some z := ⟨_, List.getElem?_eq_getElem (by simp; omega)⟩
  obtain ⟨z0, hz0⟩ := hz 0 (by omega)
  obtain ⟨z1, hz1⟩ := hz 1 (by omega)
  obtain ⟨j1, hj1⟩ := hj
  have hsz : b.size = z0 := by unfold Body.size; rw [List.getElem?_map] at hz0; rw [hz0]; rfl
  rw [hsz]
  constructor
  · intro hl
    unfold readAscii
    simp only [hh, bind, Except.bind, r1, r2, r3]
    simp only [getAt, hz0]
    rw [if_neg (by omega), if_pos hl]
  · intro hl
    refine ⟨⟨zaidOfNxs z1, h.temperature, h.awr, decide (j1 > 0), h.zaidTxt, h.date, h.comment, h.mat,
      b.izaw.map (fun p => (p.1.2.value, p.2.2.value)), b.nxs.map (fun p => p.2.value), b.jxs.map (fun p => p.2.value),
      textXss z0.toNat ⟨r, false, false⟩⟩, ?_, rfl⟩
    unfold readAscii
    simp only [hh, bind, Except.bind, r1, r2, r3]
    simp only [getAt, hz0]
    rw [if_neg (by omega), if_neg (by omega)]
    simp only [hz1, hj1, pure, Except.pure]

/-- Fewer numbers than asked for, the file ending with the last of them. -/
theorem textXss_end {K : Type} [Field K] [CharZero K] (n : Nat) (l : List (Entry Num)) (hl : Fields Num.Wf Num.sign l)
    (hn : l.length ≤ n) (hne : l ≠ []) :
    textXss (K := K) n ⟨fieldsText Num.text l, false, false⟩ = l.map (fun p => p.2.value) := by
  induction l generalizing n with
  | nil => exact absurd rfl hne
  | cons p l ih =>
    obtain ⟨n, rfl⟩ : ∃ k, n = k + 1 := ⟨n - 1, by simp at hn; omega⟩
    obtain ⟨h1, h2⟩ := fields_cons hl
    have hst : Stop [] := by intro c hc; simp at hc
    obtain ⟨q1, q2⟩ := fields_stop numText_sign l h2 [] hst
    rw [show fieldsText Num.text (p :: l) = fieldsText Num.text (p :: l) ++ [] by simp, fieldsText_cons]
    simp only [textXss]
    rw [if_neg (by simp), field_num p h1 _ q1]
    dsimp only
    simp only [Option.getD_some, List.map_cons]
    congr 1
    by_cases hl0 : l = []
    · subst hl0
      simp only [fieldsText, List.flatMap_nil, List.append_nil, List.isEmpty_nil, List.map_nil]
      exact textXss_eof _ _ rfl
    · rw [isEmpty_false (q2 (Or.inr hl0)), List.append_nil]
      exact ih n h2 (by simp at hn; omega) hl0

/-- Numbers followed by white space only: one more entry is counted, with the value 0. -/
theorem textXss_white {K : Type} [Field K] [CharZero K] (m : Nat) (l : List (Entry Num)) (hl : Fields Num.Wf Num.sign l)
    (w : List Char) (hw : White w) (hne : w ≠ []) :
    textXss (K := K) (l.length + (m + 1)) ⟨fieldsText Num.text l ++ w, false, false⟩ = l.map (fun p => p.2.value) ++ [0] := by
  have hst : Stop w := by
    intro c hc
    exact space_stop (hw c (List.mem_of_mem_head? hc))
  rw [textXss_more (m + 1) l hl w hst hne]
  congr 1
  have hd : w.dropWhile isSpaceC = [] := by
    have := dropWhile_white hw []
    simpa using this
  simp only [textXss]
  rw [if_neg (by simp)]
  unfold TStream.get
  rw [if_neg (by simp)]
  dsimp only
  rw [hd]
  dsimp only
  rw [textXss_eof _ _ rfl]
  simp

/-- The full statement would be: a file with fewer XSS numbers than NXS(1) is always rejected.  It is rejected when two or more numbers are
missing, or when the last number ends the file; missing is the case of the two violations below. -/
theorem C89_short_partial {K : Type} [Field K] [CharZero K] (cv : TextConv K) (kT : K) (file : List Char) (h : TextHeader K) (b : Body)
    (hb : b.Wf) (hx : b.xss = []) (xss : List (Entry Num)) (hxss : Fields Num.Wf Num.sign xss) (hne : xss ≠ []) (w : List Char)
    (hw : White w) (hshort : if w = [] then (xss.length : Int) < b.size else (xss.length : Int) + 1 < b.size)
    (hh : textHeader cv kT file = .ok (h, ⟨b.text ++ (fieldsText Num.text xss ++ w), false, false⟩)) :
    readAscii cv kT file = .error .exc := by
  have hst : Stop w := by
    intro c hc
    exact space_stop (hw c (List.mem_of_mem_head? hc))
  obtain ⟨q1, q2⟩ := fields_stop numText_sign xss hxss w hst
  by_cases hwe : w = []
  · rw [if_pos hwe] at hshort
    subst hwe
    refine (body_any cv kT file h b _ hb hx q1 (q2 (Or.inr hne)) (by omega) hh).1 ?_
    rw [List.append_nil, textXss_end _ _ hxss (by omega) hne]
    simp only [List.length_map]
    omega
  · rw [if_neg hwe] at hshort
    refine (body_any cv kT file h b _ hb hx q1 (q2 (Or.inr hne)) (by omega) hh).1 ?_
    obtain ⟨m, hm⟩ : ∃ m, b.size.toNat = xss.length + (m + 1) := ⟨b.size.toNat - xss.length - 1, by omega⟩
    rw [hm, textXss_white m _ hxss w hw hwe]
    simp only [List.length_append, List.length_map, List.length_cons, List.length_nil]
    omega

/-- Violation: a file with exactly one number too few, ending in white space (a newline, say), is accepted; the last entry is 0. -/
theorem C89_violation_short {K : Type} [Field K] [CharZero K] (cv : TextConv K) (kT : K) (file : List Char) (h : TextHeader K) (b : Body)
    (hb : b.Wf) (hx : b.xss = []) (xss : List (Entry Num)) (hxss : Fields Num.Wf Num.sign xss) (w : List Char)
    (hw : White w) (hwe : w ≠ []) (hshort : b.size = xss.length + 1)
    (hh : textHeader cv kT file = .ok (h, ⟨b.text ++ (fieldsText Num.text xss ++ w), false, false⟩)) :
    ∃ a, readAscii cv kT file = .ok a ∧ a.xss = xss.map (fun p => p.2.value) ++ [0] := by
  have hst : Stop w := by
    intro c hc
    exact space_stop (hw c (List.mem_of_mem_head? hc))
  obtain ⟨q1, q2⟩ := fields_stop numText_sign xss hxss w hst
  have hm : b.size.toNat = xss.length + (0 + 1) := by omega
  have hv := textXss_white (K := K) 0 _ hxss w hw hwe
  obtain ⟨a, h1, h2⟩ := (body_any cv kT file h b _ hb hx q1 (q2 (Or.inl hwe)) (by omega) hh).2 (by rw [hm, hv]; simp)
  exact ⟨a, h1, by rw [h2, hm, hv]⟩

/-- Violation: if something that is no number stands between the entries, the file is accepted all the same; from there on all entries are 0. -/
theorem C89_violation_garbage {K : Type} [Field K] [CharZero K] (cv : TextConv K) (kT : K) (file : List Char) (h : TextHeader K) (b : Body)
    (hb : b.Wf) (hx : b.xss = []) (xss : List (Entry Num)) (hxss : Fields Num.Wf Num.sign xss) (w g rest : List Char)
    (hw : White w) (hwe : w ≠ []) (hg : ∀ c ∈ g.head?, isSpaceC c = false) (hgne : g ≠ [])
    (hgar : scanDouble (K := K) g = (0, false, rest)) (hrest : rest ≠ []) (hsize : xss.length < b.size)
    (hh : textHeader cv kT file = .ok (h, ⟨b.text ++ (fieldsText Num.text xss ++ (w ++ g)), false, false⟩)) :
    ∃ a, readAscii cv kT file = .ok a ∧ a.xss = xss.map (fun p => p.2.value) ++ List.replicate (b.size.toNat - xss.length) 0 := by
  have hst : Stop (w ++ g) := by
    intro c hc
    cases w with
    | nil => exact absurd rfl hwe
    | cons d w => simp at hc; subst hc; exact space_stop (hw d (by simp))
  obtain ⟨q1, q2⟩ := fields_stop numText_sign xss hxss (w ++ g) hst
  obtain ⟨m, hm⟩ : ∃ m, b.size.toNat = xss.length + (m + 1) := ⟨b.size.toNat - xss.length - 1, by omega⟩
  have hv : textXss (K := K) (xss.length + (m + 1)) ⟨fieldsText Num.text xss ++ (w ++ g), false, false⟩ =
      xss.map (fun p => p.2.value) ++ List.replicate (m + 1) 0 := by
    rw [textXss_more (m + 1) xss hxss (w ++ g) hst (by simp [hwe])]
    congr 1
    have hd : (w ++ g).dropWhile isSpaceC = g := by
      rw [dropWhile_white hw]
      cases g with
      | nil => exact absurd rfl hgne
      | cons c g => rw [List.dropWhile_cons, if_neg (by simp [hg c (by simp)])]
    simp only [textXss]
    rw [if_neg (by simp)]
    unfold TStream.get
    rw [if_neg (by simp)]
    dsimp only
    rw [hd]
    cases g with
    | nil => exact absurd rfl hgne
    | cons c g =>
      dsimp only
      rw [hgar]
      dsimp only
      rw [isEmpty_false hrest]
      simp only [Bool.not_false, textXss_failed, Option.getD_some, List.replicate_succ]
  obtain ⟨a, h1, h2⟩ := (body_any cv kT file h b _ hb hx q1 (q2 (Or.inl (by simp [hwe]))) (by omega) hh).2 (by
    rw [hm, hv]; simp)
  exact ⟨a, h1, by rw [h2, hm, hv]; congr 2; omega⟩

/-- Violation: an entry written without its `E` (`1.5-3` for `1.5E-3`), the very fault the error message of the reader speaks of, is accepted: it is
read as two entries, all entries after it move by one place, and the last is lost.  `body_read` reads the file with the entry `m` and
the signed exponent `x` as separate numbers. -/
theorem C89_violation_missing_E {K : Type} [Field K] [CharZero K] (cv : TextConv K) (kT : K) (file : List Char) (h : TextHeader K) (b : Body)
    (hb : b.Wf) (hx : b.xss = []) (pre post : List (Entry Num)) (w : List Char) (m x : Num) (hpre : Fields Num.Wf Num.sign pre)
    (hpost : Fields Num.Wf Num.sign post) (hm : Fields Num.Wf Num.sign [(w, m)]) (hxw : x.Wf) (hxs : x.sign ≠ .none)
    (tail : List Char) (ht : Stop tail) (hsize : b.size = pre.length + 1 + post.length)
    (hh : textHeader cv kT file = .ok (h, ⟨b.text ++ (fieldsText Num.text pre ++ (w ++ (m.text ++ x.text) ++
      (fieldsText Num.text post ++ tail))), false, false⟩)) :
    ∃ a, readAscii cv kT file = .ok a ∧
      a.xss = (pre.map (fun p => p.2.value) ++ m.value :: x.value :: post.map (fun p => p.2.value) : List K).dropLast := by
  obtain ⟨all, hall⟩ : ∃ l, l = pre ++ (w, m) :: ([], x) :: post := ⟨_, rfl⟩
  have hlen : all.length = pre.length + 1 + post.length + 1 := by rw [hall]; simp; omega
  have hf : Fields Num.Wf Num.sign all := by
    rw [hall]
    intro p hp
    rcases List.mem_append.mp hp with hp | hp
    · exact hpre p hp
    · rcases List.mem_cons.mp hp with rfl | hp
      · exact hm _ (by simp)
      · rcases List.mem_cons.mp hp with rfl | hp
        · exact ⟨fun c hc => by simp at hc, Or.inr hxs, hxw⟩
        · exact hpost p hp
  have hb' : (⟨b.izaw, b.nxs, b.jxs, all⟩ : Body).Wf := ⟨hb.n_izaw, hb.n_nxs, hb.n_jxs, hb.izaw, hb.nxs, hb.jxs, hf⟩
  have hsz : (⟨b.izaw, b.nxs, b.jxs, all⟩ : Body).size = b.size := rfl
  have e : b.text ++ (fieldsText Num.text pre ++ (w ++ (m.text ++ x.text) ++ (fieldsText Num.text post ++ tail))) =
      (⟨b.izaw, b.nxs, b.jxs, all⟩ : Body).text ++ tail := by
    simp [Body.text, hx, hall, fieldsText]
  rw [e] at hh
  obtain ⟨a, h1, h2, _⟩ := body_read cv kT file h _ tail hb' ht (Or.inl (by intro hc; dsimp only at hc; rw [hc] at hlen; simp at hlen))
    (by rw [hsz]; omega) (by rw [hsz]; dsimp only; rw [hlen]; omega) hh
  refine ⟨a, h1, ?_⟩
  rw [h2.xss, hsz]
  dsimp only
  rw [List.map_take, hall, hsize, List.dropLast_eq_take]
  simp only [List.map_append, List.map_cons, List.length_append, List.length_cons, List.length_map]
  congr 1
  omega

theorem textInts_add (m n : Nat) (s : TStream) :
    textInts (m + n) s = ((textInts m s).1 ++ (textInts n (textInts m s).2).1, (textInts n (textInts m s).2).2) := by
  induction m generalizing s with
  | zero => simp [textInts]
  | succ m ih =>
    rw [show m + 1 + n = (m + n) + 1 by omega]
    simp only [textInts, ih, List.cons_append]

theorem textInts_length (n : Nat) (s : TStream) : (textInts n s).1.length = n := by
  induction n generalizing s with
  | zero => rfl
  | succ n ih => simp only [textInts, List.length_cons, ih]

theorem textInts_failed (m : Nat) (r : List Char) : textInts m ⟨r, false, true⟩ = (List.replicate m 0, ⟨r, false, true⟩) := by
  induction m with
  | zero => rfl
  | succ m ih => simp [textInts, TStream.get, ih, List.replicate_succ]

/-- Violation: if something that is no integer stands among the entries of NXS and JXS (`1.5` for instance, of which `1` is read and `.5` left), the
file is accepted all the same, provided NXS(1) came before: the entries of NXS and JXS from there on are 0, and so is the whole of XSS,
whatever the file says.  `g` is the text found where an integer should stand, `sg` its sign if it has one. -/
theorem C89_violation_integer {K : Type} [Field K] [CharZero K] (cv : TextConv K) (kT : K) (file : List Char) (h : TextHeader K)
    (izaw : List (Entry IntNum × Entry Num)) (hz : ∀ p ∈ izaw, Fields IntNum.Wf IntNum.sign [p.1] ∧ Fields Num.Wf Num.sign [p.2])
    (hz16 : izaw.length = 16) (n : Entry IntNum) (l : List (Entry IntNum)) (hl : Fields IntNum.Wf IntNum.sign (n :: l)) (hl48 : l.length < 47)
    (hn : 0 ≤ n.2.value) (w g : List Char) (sg : Sign) (hw : White w) (c : Char) (hgd : isDigC c = false)
    (hgs : sg = .none → isSpaceC c = false ∧ c ≠ '-' ∧ c ≠ '+')
    (hh : textHeader cv kT file = .ok (h, ⟨pairsText izaw ++ (fieldsText IntNum.text (n :: l) ++ (w ++ (sg.text ++ c :: g))), false, false⟩)) :
    ∃ a, readAscii cv kT file = .ok a ∧ a.nxs.length = 16 ∧ a.jxs.length = 32 ∧
      a.nxs ++ a.jxs = n.2.value :: l.map (fun p => p.2.value) ++ List.replicate (47 - l.length) 0 ∧
      a.xss = List.replicate n.2.value.toNat 0 := by
  obtain ⟨t, ht⟩ : ∃ t, t = w ++ (sg.text ++ c :: g) := ⟨_, rfl⟩
  have htne : t ≠ [] := by rw [ht]; simp
  have hst : ∀ d ∈ t.head?, isDigC d = false := by
    rw [ht]
    intro d hd
    rcases w with _ | ⟨x, w⟩
    · by_cases hs : sg = .none
      · subst hs
        simp only [Sign.text, List.nil_append, List.head?_cons, Option.mem_some_iff] at hd
        rw [← hd]; exact hgd
      · obtain ⟨x, e1, _, e3, _⟩ := sign_stop sg hs
        rw [e1] at hd
        simp only [List.nil_append, List.singleton_append, List.head?_cons, Option.mem_some_iff] at hd
        rw [← hd]; exact e3
    · simp only [List.cons_append, List.head?_cons, Option.mem_some_iff] at hd
      rw [← hd]; exact (space_stop (hw x (by simp))).1
  rw [← ht] at hh
  have r1 : textIzaw (K := K) izaw.length ⟨pairsText izaw ++ (fieldsText IntNum.text (n :: l) ++ t), false, false⟩ =
      .ok (izaw.map (fun p => (p.1.2.value, p.2.2.value)), ⟨fieldsText IntNum.text (n :: l) ++ t, false, false⟩) := by
    have q := field_stop intText_sign n (fields_cons hl).1 (fieldsText IntNum.text l ++ t)
    rw [← fieldsText_cons] at q
    exact textIzaw_fields izaw hz _ q.1 q.2
  rw [hz16] at r1
  have hget : TStream.get scanInt ⟨t, false, false⟩ = (⟨c :: g, false, true⟩, some 0) := by
    have hd : t.dropWhile isSpaceC = sg.text ++ c :: g := by
      rw [ht, dropWhile_white hw]
      by_cases hs : sg = .none
      · subst hs
        simp [Sign.text, (hgs rfl).1]
      · obtain ⟨d, e1, e2, _⟩ := sign_stop sg hs
        rw [e1, List.singleton_append, List.dropWhile_cons, if_neg (by simp [e2])]
    have hsc : scanInt (sg.text ++ c :: g) = (0, false, c :: g) := by
      have e : ∃ b, takeSign (sg.text ++ c :: g) = (b, c :: g) := by
        cases sg with
        | none =>
          refine ⟨false, ?_⟩
          obtain ⟨_, h2, h3⟩ := hgs rfl
          simp only [Sign.text, List.nil_append]
          unfold takeSign
          split
          · rename_i heq; exact absurd (List.cons.inj heq).1 h2
          · rename_i heq; exact absurd (List.cons.inj heq).1 h3
          · rfl
        | plus => exact ⟨false, rfl⟩
        | minus => exact ⟨true, rfl⟩
      obtain ⟨b, e⟩ := e
      unfold scanInt
      simp [e, hgd]
    unfold TStream.get
    rw [if_neg (by simp)]
    dsimp only
    rw [hd]
    cases hx : sg.text ++ c :: g with
    | nil => simp at hx
    | cons x y =>
      dsimp only
      rw [← hx, hsc]
      rfl
  obtain ⟨s0, hs0⟩ : ∃ s, s = (⟨fieldsText IntNum.text (n :: l) ++ t, false, false⟩ : TStream) := ⟨_, rfl⟩
  have r2 : textInts 48 s0 = (n.2.value :: l.map (fun p => p.2.value) ++ List.replicate (47 - l.length) 0, ⟨c :: g, false, true⟩) := by
    obtain ⟨m, hm⟩ : ∃ m, 47 - l.length = m + 1 := ⟨47 - l.length - 1, by omega⟩
    have e1 := textInts_fields_any (n :: l) hl t hst htne
    have e2 : textInts (m + 1) ⟨t, false, false⟩ = (List.replicate (m + 1) 0, ⟨c :: g, false, true⟩) := by
      simp only [textInts, hget, textInts_failed, Option.getD_some, List.replicate_succ]
    rw [show 48 = (n :: l).length + (m + 1) by simp; omega, textInts_add, hs0, e1]
    dsimp only
    rw [e2, hm]
    rfl
  have r3 := textInts_add 16 32 s0
  rw [show 16 + 32 = 48 from rfl, r2, Prod.mk.injEq] at r3
  obtain ⟨r3, r4⟩ := r3
  cases ha : textInts 16 s0 with
  | mk nx s1 =>
  cases hb : textInts 32 s1 with
  | mk jx s2 =>
  have ln : nx.length = 16 := by have := textInts_length 16 s0; rw [ha] at this; exact this
  have lj : jx.length = 32 := by have := textInts_length 32 s1; rw [hb] at this; exact this
  simp only [ha, hb] at r3 r4
  have hn0 : nx[0]? = some n.2.value := by
    have := congrArg (fun x => x[0]?) r3
    simp only [List.cons_append, List.getElem?_cons_zero] at this
    rw [this, List.getElem?_append_left (by omega)]
  obtain ⟨z1, hz1⟩ : ∃ z, nx[1]? = some z := ⟨_, List.getElem?_eq_getElem (by omega)⟩
  obtain ⟨j1, hj1⟩ : ∃ z, jx[1]? = some z := ⟨_, List.getElem?_eq_getElem (by omega)⟩
  refine ⟨⟨zaidOfNxs z1, h.temperature, h.awr, decide (j1 > 0), h.zaidTxt, h.date, h.comment, h.mat,
    izaw.map (fun p => (p.1.2.value, p.2.2.value)), nx, jx, List.replicate n.2.value.toNat 0⟩, ?_, ln, lj, r3.symm, rfl⟩
  unfold readAscii
  simp only [hh, bind, Except.bind, r1]
  rw [← hs0]
  simp only [ha, hb, getAt, hn0]
  rw [if_neg (by omega)]
  simp only [← r4, textXss_failed, List.length_replicate]
  rw [if_neg (by simp)]
  simp only [hz1, hj1, pure, Except.pure]

/-- Among the integers, `.5` is such a text: it is what is left of `1.5`. -/
example : isDigC '.' = false ∧ isSpaceC '.' = false ∧ ('.' ≠ '-' ∧ '.' ≠ '+') := by decide

/-- A negative NXS(1) is refused (`resize` throws). -/
theorem C89_negative {K : Type} [Field K] [CharZero K] (cv : TextConv K) (kT : K) (file : List Char) (h : TextHeader K) (b : Body)
    (tail : List Char) (hb : b.Wf) (ht : Stop tail) (hne : b.xss ≠ [] ∨ tail ≠ []) (hs : b.size < 0)
    (hh : textHeader cv kT file = .ok (h, ⟨b.text ++ tail, false, false⟩)) : readAscii cv kT file = .error .exc := by
  have e : b.text ++ tail = pairsText b.izaw ++ (fieldsText IntNum.text b.nxs ++ (fieldsText IntNum.text b.jxs ++
      (fieldsText Num.text b.xss ++ tail))) := by simp [Body.text]
  rw [e] at hh
  obtain ⟨s3, n3⟩ := fields_stop numText_sign b.xss hb.xss tail ht
  have n3 := n3 hne.symm
  obtain ⟨s2, n2⟩ := fields_stop intText_sign b.jxs hb.jxs _ s3
  have n2 := n2 (Or.inl n3)
  obtain ⟨s1, n1⟩ := fields_stop intText_sign b.nxs hb.nxs _ s2
  have n1 := n1 (Or.inl n2)
  have r1 := textIzaw_fields (K := K) b.izaw hb.izaw _ s1 n1
  have r2 := textInts_fields b.nxs hb.nxs _ s2 n2
  have r3 := textInts_fields b.jxs hb.jxs _ s3 n3
  rw [hb.n_izaw] at r1
  rw [hb.n_nxs] at r2
  rw [hb.n_jxs] at r3
  have l1 := hb.n_nxs
  obtain ⟨z0, hz0⟩ : ∃ z, (b.nxs.map (fun p => p.2.value))[0]? = some z := ⟨_, List.getElem?_eq_getElem (by simp; omega)⟩
  have hsz : b.size = z0 := by unfold Body.size; rw [List.getElem?_map] at hz0; rw [hz0]; rfl
  unfold readAscii
  simp only [hh, bind, Except.bind, r1, r2, r3]
  simp only [getAt, hz0]
  rw [if_pos (by omega)]

/-- Violation: a file that ends before the IZAW pairs are complete is not refused but makes the reader use uninitialised variables: here
the file ends, apart from white space, after the header. -/
theorem C89_violation_truncated {K : Type} [Field K] (cv : TextConv K) (kT : K) (file : List Char) (h : TextHeader K) (w : List Char)
    (hw : White w) (hh : textHeader cv kT file = .ok (h, ⟨w, false, false⟩)) : readAscii cv kT file = .error .ub := by
  have hd : w.dropWhile isSpaceC = [] := by
    have := dropWhile_white hw []
    simpa using this
  have hg : TStream.get scanInt ⟨w, false, false⟩ = (⟨[], true, true⟩, none) := by
    unfold TStream.get
    rw [if_neg (by simp)]
    dsimp only
    rw [hd]
  unfold readAscii
  simp only [hh, bind, Except.bind, textIzaw, hg]

/-- Violation: a "2.0" file whose second line has no more than three words is read past the end of the list of words. -/
theorem C89_violation_line {K : Type} [Field K] (cv : TextConv K) (kT : K) (line1 rest : List Char) (ws : List (Nat × List Char)) (trail : Nat)
    (hv : line1.take 2 = ['2', '.']) (h1 : '\n' ∉ line1) (h2 : '\n' ∉ wordsText ws trail) (hws : Words ws) (h3 : ws.length = 3)
    (hst : ∀ x, ∃ v, cv.stod x = .ok v) :
    readAscii cv kT (line1 ++ '\n' :: (wordsText ws trail ++ '\n' :: rest)) = .error .ub := by
  have hl2 : 2 ≤ line1.length := by
    have := congrArg List.length hv
    simp only [List.length_take, List.length_cons, List.length_nil] at this
    omega
  obtain ⟨p0, p1, p2, rfl⟩ : ∃ a b c, ws = [a, b, c] := by
    match ws, h3 with
    | [a, b, c], _ => exact ⟨a, b, c, rfl⟩
  obtain ⟨v0, hv0⟩ := hst p0.2
  obtain ⟨v1, hv1⟩ := hst p1.2
  unfold readAscii textHeader
  dsimp only
  rw [if_pos (by rw [List.take_append_of_le_length hl2]; exact hv), getline_append _ _ h1]
  dsimp only
  rw [getline_append _ _ h2]
  dsimp only
  rw [splitLine_words _ _ hws]
  simp [getAt, hv0, hv1, bind, Except.bind]

/-! ### A concrete file -/

/-- `1` after a blank. -/
def exInt : Entry IntNum := ([' '], ⟨.none, [1]⟩)
/-- `-2.50E+01` after a line feed. -/
def exNum : Entry Num := (['\n'], ⟨.minus, [2], some [5, 0], some (true, .plus, [0, 1])⟩)
def exBody : Body := ⟨List.replicate 16 (exInt, exNum), List.replicate 16 exInt, List.replicate 32 exInt, [exNum]⟩

theorem exInt_ok : Fields IntNum.Wf IntNum.sign [exInt] := by
  intro p hp
  simp at hp
  subst hp
  exact ⟨by intro c hc; simp [exInt] at hc; subst hc; decide, Or.inl (by simp [exInt]), by simp [exInt, IntNum.Wf, IntNum.value, natOf]⟩

theorem exNum_ok : Fields Num.Wf Num.sign [exNum] := by
  intro p hp
  simp at hp
  subst hp
  exact ⟨by intro c hc; simp [exNum] at hc; subst hc; decide, Or.inl (by simp [exNum]), by simp [exNum, Num.Wf]⟩

/-- Its text, and its value: -25. -/
example : exNum.2.text = "-2.50E+01".toList ∧ exNum.2.value = (-25 : ℚ) := by
  constructor
  · rfl
  · simp [exNum, Num.value, natOf, Num.frac, Nat.ofDigits]; norm_num

theorem exBody_ok : exBody.Wf := by
  refine ⟨by simp [exBody], by simp [exBody], by simp [exBody], ?_, ?_, ?_, ?_⟩
  · intro p hp
    have := List.eq_of_mem_replicate hp
    subst this
    exact ⟨exInt_ok, exNum_ok⟩
  · intro p hp
    rw [List.eq_of_mem_replicate hp]
    exact exInt_ok _ (by simp)
  · intro p hp
    rw [List.eq_of_mem_replicate hp]
    exact exInt_ok _ (by simp)
  · exact exNum_ok

example : exBody.size = 1 ∧ exBody.xss.length = 1 := by
  simp [exBody, Body.size, exInt, IntNum.value, natOf]

/-- Something that is no number. -/
example : scanDouble (K := ℚ) "N/A 3".toList = (0, false, "N/A 3".toList) := by decide +kernel

/-- A header that satisfies the conditions. -/
example : (Fixed.mk (List.replicate 10 'z') (List.replicate 25 '1') (List.replicate 10 'd') ['\r', '\n'] (List.replicate 70 'c')
    (List.replicate 10 'm')).Wf :=
  ⟨by simp, by simp, by simp, Or.inr rfl, by simp, by simp, by intro c hc; simp at hc; subst hc; decide⟩

end PNDL
