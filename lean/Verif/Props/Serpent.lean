import Verif.Props.Library

/-! C54. -/
namespace PNDL
open Spec

theorem spaceC_mem (c : Char) : isSpaceC c = true ↔ c ∈ [' ', '\t', '\n', '\x0b', '\x0c', '\r'] := by
  unfold isSpaceC
  simp only [Bool.or_eq_true, beq_iff_eq, List.mem_cons, List.not_mem_nil, or_false]
  tauto

theorem dropWhile_blank {b t : List Char} (hb : Blank b) : (b ++ t).dropWhile isSpaceC = t.dropWhile isSpaceC := by
  induction b with
  | nil => rfl
  | cons c b ih =>
    have hc : isSpaceC c = true := (spaceC_mem c).mpr (hb c (by simp))
    rw [List.cons_append, List.dropWhile_cons, if_pos hc]
    exact ih (fun x hx => hb x (List.mem_cons_of_mem _ hx))

theorem word_cons {w : List Char} (hw : Word w) : ∃ c r, w = c :: r ∧ isSpaceC c = false ∧ ∀ x ∈ w, isSpaceC x = false := by
  obtain ⟨h1, h2⟩ := hw
  have h3 : ∀ x ∈ w, isSpaceC x = false := by
    intro x hx
    have := h2 x hx
    rw [← spaceC_mem] at this
    simpa using this
  cases w with
  | nil => exact absurd rfl h1
  | cons c r => exact ⟨c, r, rfl, h3 c (by simp), h3⟩

theorem takeWhile_word {w t : List Char} (hw : ∀ x ∈ w, isSpaceC x = false) (ht : t = [] ∨ ∃ c t', t = c :: t' ∧ isSpaceC c = true) :
    (w ++ t).takeWhile (fun x => !isSpaceC x) = w ∧ (w ++ t).dropWhile (fun x => !isSpaceC x) = t := by
  induction w with
  | nil =>
    rcases ht with rfl | ⟨c, t', rfl, hc⟩
    · simp
    · simp [hc]
  | cons x w ih =>
    have hx : isSpaceC x = false := hw x (by simp)
    obtain ⟨i1, i2⟩ := ih (fun y hy => hw y (List.mem_cons_of_mem _ hy))
    constructor
    · rw [List.cons_append, List.takeWhile_cons]; simp [hx, i1]
    · rw [List.cons_append, List.dropWhile_cons]; simp [hx, i2]

/-- Reading a word. -/
theorem readTok_word {b w t : List Char} (hb : Blank b) (hw : Word w) (ht : t = [] ∨ ∃ c t', t = c :: t' ∧ Blank [c]) (v : List Char) :
    readTok ⟨b ++ w ++ t, false⟩ v = (⟨t, t.isEmpty⟩, w) := by
  obtain ⟨c, r, rfl, hc, hall⟩ := word_cons hw
  have ht' : t = [] ∨ ∃ c t', t = c :: t' ∧ isSpaceC c = true := by
    rcases ht with h | ⟨d, t', h1, h2⟩
    · exact .inl h
    · exact .inr ⟨d, t', h1, (spaceC_mem d).mpr (h2 d (by simp))⟩
  obtain ⟨e1, e2⟩ := takeWhile_word hall ht'
  unfold readTok
  simp only [Bool.false_eq_true, if_false]
  rw [List.append_assoc, dropWhile_blank hb, List.cons_append, List.dropWhile_cons, if_neg (by rw [hc]; simp)]
  simp only
  rw [List.cons_append] at e1 e2
  rw [e1, e2]

/-- Nothing left but white space. -/
theorem readTok_blank {t : List Char} (ht : Blank t) (v : List Char) : readTok ⟨t, false⟩ v = (⟨[], true⟩, v) := by
  unfold readTok
  simp only [Bool.false_eq_true, if_false]
  have := dropWhile_blank (t := []) ht
  rw [List.append_nil] at this
  rw [this]
  rfl

theorem readTok_eof (t v : List Char) : readTok ⟨t, true⟩ v = (⟨t, true⟩, v) := by unfold readTok; rfl

/-- A text followed by white space starts with white space or is empty. -/
theorem text_tail {ws : List (List Char)} {t tail : List Char} (htail : Blank tail)
    (h : ws = [] ∨ ∃ c t', t = c :: t' ∧ Blank [c]) (ht : Text ws t) : t ++ tail = [] ∨ ∃ c t', t ++ tail = c :: t' ∧ Blank [c] := by
  rcases h with rfl | ⟨c, t', rfl, hc⟩
  · cases ht
    cases tail with
    | nil => exact .inl rfl
    | cons c r => exact .inr ⟨c, r, rfl, by intro x hx; exact htail x (by simp at hx; rw [hx]; simp)⟩
  · exact .inr ⟨c, t' ++ tail, rfl, hc⟩

theorem Spec.Text.read {w : List Char} {ws : List (List Char)} {t tail : List Char} (h : Text (w :: ws) t) (htail : Blank tail)
    (v : List Char) : ∃ t', Text ws t' ∧ readTok ⟨t ++ tail, false⟩ v = (⟨t' ++ tail, (t' ++ tail).isEmpty⟩, w) := by
  cases h with
  | @cons b _ _ t' hb hw ht hsep =>
    refine ⟨t', ht, ?_⟩
    rw [List.append_assoc]
    exact readTok_word hb hw (text_tail htail hsep ht) v

theorem Spec.Text.ne_nil {w : List Char} {ws : List (List Char)} {t : List Char} (h : Text (w :: ws) t) : t ≠ [] := by
  cases h with
  | @cons b _ _ t' hb hw ht hsep =>
    intro hc
    simp only [List.append_eq_nil_iff] at hc
    exact hw.1 hc.1.2

/-- Reading a complete line. -/
theorem readRow_text {r row : DirRow} {ws : List (List Char)} {t tail : List Char} (h : Text (columns r ++ ws) t) (htail : Blank tail) :
    ∃ t', Text ws t' ∧ readRow ⟨t ++ tail, false⟩ row = (⟨t' ++ tail, (t' ++ tail).isEmpty⟩, r) := by
  unfold columns at h
  simp only [List.cons_append, List.nil_append] at h
  have ne : ∀ {w : List Char} {ws : List (List Char)} {t : List Char}, Text (w :: ws) t → (t ++ tail).isEmpty = false := by
    intro w ws t h
    have := h.ne_nil
    cases t with
    | nil => exact absurd rfl this
    | cons c t => rfl
  obtain ⟨t1, h1, e1⟩ := h.read htail row.als
  obtain ⟨t2, h2, e2⟩ := h1.read htail row.zaid
  obtain ⟨t3, h3, e3⟩ := h2.read htail row.type
  obtain ⟨t4, h4, e4⟩ := h3.read htail row.za
  obtain ⟨t5, h5, e5⟩ := h4.read htail row.iso
  obtain ⟨t6, h6, e6⟩ := h5.read htail row.aw
  obtain ⟨t7, h7, e7⟩ := h6.read htail row.temp
  obtain ⟨t8, h8, e8⟩ := h7.read htail row.bin
  obtain ⟨t9, h9, e9⟩ := h8.read htail row.path
  rw [ne h1] at e1
  rw [ne h2] at e2
  rw [ne h3] at e3
  rw [ne h4] at e4
  rw [ne h5] at e5
  rw [ne h6] at e6
  rw [ne h7] at e7
  rw [ne h8] at e8
  refine ⟨t9, h9, ?_⟩
  unfold readRow
  simp only [e1, e2, e3, e4, e5, e6, e7, e8, e9]

/-- Reading past the end: all variables keep their values. -/
theorem readRow_blank {t : List Char} (ht : Blank t) (row : DirRow) : readRow ⟨t, false⟩ row = (⟨[], true⟩, row) := by
  unfold readRow
  simp only [readTok_blank ht, readTok_eof]

theorem relevant_iff (r : DirRow) : r.relevant = true ↔ Relevant r := by
  unfold DirRow.relevant Relevant
  cases h : r.type with
  | nil => simp
  | cons c l => simp

variable {K : Type _} [Field K] [LinearOrder K]

/-- The lines that are not aliases of the identifiers in `seen` or of earlier lines. -/
def keepNew : List (List Char) → List DirRow → List DirRow
  | _, [] => []
  | seen, r :: rs =>
    if r.relevant = false then keepNew seen rs
    else if r.zaid ∈ seen then keepNew seen rs
    else r :: keepNew (r.zaid :: seen) rs

theorem keepNew_spec (rows : List DirRow) (seen : List (List Char)) :
    (keepNew seen rows).Sublist rows ∧ (∀ r ∈ keepNew seen rows, Relevant r ∧ r.zaid ∉ seen) ∧
    ((keepNew seen rows).map DirRow.zaid).Nodup ∧ ∀ r ∈ rows, Relevant r → r.zaid ∈ seen ∨ r.zaid ∈ (keepNew seen rows).map DirRow.zaid := by
  induction rows generalizing seen with
  | nil => simp [keepNew]
  | cons r rs ih =>
    unfold keepNew
    by_cases h1 : r.relevant = false
    · rw [if_pos h1]
      obtain ⟨a, b, c, d⟩ := ih seen
      refine ⟨a.cons r, b, c, ?_⟩
      intro x hx hrel
      rcases List.mem_cons.mp hx with rfl | hx
      · rw [← relevant_iff, h1] at hrel; cases hrel
      · exact d x hx hrel
    · rw [if_neg h1]
      by_cases h2 : r.zaid ∈ seen
      · rw [if_pos h2]
        obtain ⟨a, b, c, d⟩ := ih seen
        refine ⟨a.cons r, b, c, ?_⟩
        intro x hx hrel
        rcases List.mem_cons.mp hx with rfl | hx
        · exact .inl h2
        · exact d x hx hrel
      · rw [if_neg h2]
        obtain ⟨a, b, c, d⟩ := ih (r.zaid :: seen)
        refine ⟨a.cons_cons r, ?_, ?_, ?_⟩
        · intro x hx
          rcases List.mem_cons.mp hx with rfl | hx
          · exact ⟨(relevant_iff x).mp (by simpa using h1), h2⟩
          · exact ⟨(b x hx).1, fun hc => (b x hx).2 (List.mem_cons_of_mem _ hc)⟩
        · rw [List.map_cons, List.nodup_cons]
          refine ⟨?_, c⟩
          intro hm
          obtain ⟨x, hx, hz⟩ := List.mem_map.mp hm
          exact (b x hx).2 (by rw [hz]; simp)
        · intro x hx hrel
          rw [List.map_cons]
          rcases List.mem_cons.mp hx with rfl | hx
          · exact .inr (by simp)
          · rcases d x hx hrel with h | h
            · rcases List.mem_cons.mp h with h | h
              · exact .inr (by rw [h]; simp)
              · exact .inl h
            · exact .inr (List.mem_cons_of_mem _ h)

/-- What the loop does with the variables left over from the last line when only white space remains. -/
def leftover (seen : List (List Char)) (row : DirRow) : List DirRow :=
  if row.relevant = false then [] else if row.zaid ∈ seen then [] else [row]

/-- The variables after the given lines. -/
def lastRow : List (List Char) → DirRow → List DirRow → DirRow
  | _, row, [] => row
  | seen, _, r :: rs =>
    if r.relevant = false then lastRow seen r rs
    else if r.zaid ∈ seen then lastRow seen r rs
    else lastRow (r.zaid :: seen) { r with zaid := stripExt r.zaid } rs

/-- `read_zaids` after the given lines. -/
def lastSeen : List (List Char) → List DirRow → List (List Char)
  | seen, [] => seen
  | seen, r :: rs =>
    if r.relevant = false then lastSeen seen rs
    else if r.zaid ∈ seen then lastSeen seen rs
    else lastSeen (r.zaid :: seen) rs

theorem mem_lastSeen (rows : List DirRow) (seen : List (List Char)) (z : List Char) :
    z ∈ lastSeen seen rows ↔ z ∈ seen ∨ z ∈ (keepNew seen rows).map DirRow.zaid := by
  induction rows generalizing seen with
  | nil => simp [lastSeen, keepNew]
  | cons r rs ih =>
    unfold lastSeen keepNew
    split
    · exact ih seen
    · split
      · exact ih seen
      · rw [ih, List.map_cons, List.mem_cons, List.mem_cons]
        tauto

/-- The outcome of registering rows one after the other. -/
def regRows (cv : Conv K) : List (Reg K) → List DirRow → Res (List (Reg K))
  | acc, [] => .ok acc
  | acc, r :: rs =>
    match regOfRow cv r with
    | .error e => .error e
    | .ok g => regRows cv (acc ++ [g]) rs

theorem regRows_append (cv : Conv K) (a b : List DirRow) (acc : List (Reg K)) :
    regRows cv acc (a ++ b) = (match regRows cv acc a with | .error e => .error e | .ok acc' => regRows cv acc' b) := by
  induction a generalizing acc with
  | nil => rfl
  | cons r a ih =>
    rw [List.cons_append, regRows, regRows]
    split
    · rfl
    · exact ih _

theorem regRows_eq (cv : Conv K) (rows : List DirRow) (acc : List (Reg K)) :
    regRows cv acc rows = (rows.mapM (regOfRow cv)).map (fun gs => acc ++ gs) := by
  induction rows generalizing acc with
  | nil => simp [regRows, Except.map, pure, Except.pure]
  | cons r rs ih =>
    rw [regRows, List.mapM_cons]
    simp only [bind, Except.bind]
    cases hr : regOfRow cv r with
    | error e => rfl
    | ok g =>
      simp only [ih]
      cases hm : List.mapM (regOfRow cv) rs with
      | error e => rfl
      | ok gs => simp [Except.map, pure, Except.pure]

/-- The loop on a complete description of the file. -/
theorem parseLoop_rows (cv : Conv K) (rows : List DirRow) (tail : List Char) (htail : Blank tail) :
    ∀ (fuel : Nat) (t : List Char) (row : DirRow) (seen : List (List Char)) (regs : List (Reg K)),
      Text (rows.flatMap columns) t → rows.length + 2 ≤ fuel →
      parseLoop cv fuel ⟨t ++ tail, (t ++ tail).isEmpty⟩ row seen regs =
        (match regRows cv regs (keepNew seen rows) with
          | .error e => .error e
          | .ok regs' => if tail = [] then .ok regs' else regRows cv regs' (leftover (lastSeen seen rows) (lastRow seen row rows))) := by
  induction rows with
  | nil =>
    intro fuel t row seen regs ht hf
    cases ht
    simp only [List.nil_append]
    obtain ⟨f, rfl⟩ : ∃ f, fuel = f + 2 := ⟨fuel - 2, by simp at hf; omega⟩
    cases tail with
    | nil => simp [parseLoop, keepNew, regRows]
    | cons c tl =>
      unfold parseLoop
      simp only [List.isEmpty_cons, Bool.false_eq_true, if_false, readRow_blank htail]
      show _ = (if c :: tl = [] then Except.ok regs else regRows cv regs (leftover seen row))
      have hc : ¬ (c :: tl = []) := by simp
      rw [if_neg hc]
      unfold leftover
      by_cases h1 : row.relevant = false
      · simp only [if_pos h1, parseLoop, if_true, regRows]
      · simp only [if_neg h1]
        by_cases h2 : row.zaid ∈ seen
        · simp only [if_pos h2, parseLoop, if_true, regRows]
        · simp only [if_neg h2, regRows]
          cases regOfRow cv row <;> simp only [parseLoop, if_true]
  | cons r rs ih =>
    intro fuel t row seen regs ht hf
    obtain ⟨f, rfl⟩ : ∃ f, fuel = f + 1 := ⟨fuel - 1, by simp at hf; omega⟩
    have hf' : rs.length + 2 ≤ f := by simp only [List.length_cons] at hf; omega
    rw [List.flatMap_cons] at ht
    have hne : (t ++ tail).isEmpty = false := by
      have h := ht
      unfold columns at h
      simp only [List.cons_append] at h
      have := h.ne_nil
      cases t with
      | nil => exact absurd rfl this
      | cons c t => rfl
    obtain ⟨t', ht', hr⟩ := readRow_text (row := row) ht htail
    rw [hne]
    unfold parseLoop
    simp only [Bool.false_eq_true, if_false, hr]
    unfold keepNew lastSeen lastRow
    by_cases h1 : r.relevant = false
    · simp only [if_pos h1]
      exact ih f t' r seen regs ht' hf'
    · simp only [if_neg h1]
      by_cases h2 : r.zaid ∈ seen
      · simp only [if_pos h2]
        exact ih f t' r seen regs ht' hf'
      · simp only [if_neg h2, regRows]
        cases hg : regOfRow cv r with
        | error e => rfl
        | ok g => exact ih f t' _ (r.zaid :: seen) (regs ++ [g]) ht' hf'

theorem text_length {ws : List (List Char)} {t : List Char} (h : Text ws t) : ws.length ≤ t.length := by
  induction h with
  | nil => simp
  | cons hb hw _ _ ih =>
    have : 1 ≤ _ := List.length_pos_iff.mpr hw.1
    simp only [List.length_cons, List.length_append]; omega

theorem columns_length (rows : List DirRow) : (rows.flatMap columns).length = 9 * rows.length := by
  induction rows with
  | nil => rfl
  | cons r rs ih => rw [List.flatMap_cons, List.length_append, ih]; simp [columns]; omega

/-- The variables before the loop: all empty. -/
def emptyRow : DirRow := ⟨[], [], [], [], [], [], [], [], []⟩

theorem parse_file (cv : Conv K) (rows : List DirRow) (tail text : List Char) (h : DirFile rows tail text) (hrows : rows ≠ []) :
    parseSerpent cv text = (match regRows cv [] (keepNew [] rows) with
          | .error e => .error e
          | .ok regs' => if tail = [] then .ok regs' else regRows cv regs' (leftover (lastSeen [] rows) (lastRow [] emptyRow rows))) := by
  obtain ⟨t, ht, htail, rfl⟩ := h
  have hlen := text_length ht
  rw [columns_length] at hlen
  have hne : (t ++ tail).isEmpty = false := by
    cases rows with
    | nil => exact absurd rfl hrows
    | cons r rs =>
      rw [List.flatMap_cons] at ht
      unfold columns at ht
      simp only [List.cons_append] at ht
      have := ht.ne_nil
      cases t with
      | nil => exact absurd rfl this
      | cons c t => rfl
  have := parseLoop_rows cv rows tail htail ((t ++ tail).length + 2) t emptyRow [] [] ht (by rw [List.length_append]; omega)
  rw [hne] at this
  exact this

/-- C54, for files that do not end in white space: every non-alias neutron or thermal line is registered exactly once, in the order of the
file, and nothing else is.  Missing: files with a final newline (`C54_violation`). -/
theorem C54_each_once_partial (cv : Conv K) (rows : List DirRow) (text : List Char) (h : DirFile rows [] text) (hrows : rows ≠ []) :
    ∃ kept, NonAlias rows kept ∧ parseSerpent cv text = kept.mapM (regOfRow cv) := by
  refine ⟨keepNew [] rows, ?_, ?_⟩
  · obtain ⟨a, b, c, d⟩ := keepNew_spec rows []
    exact ⟨a, fun r hr => (b r hr).1, c, fun r hr hrel => (d r hr hrel).resolve_left (by simp)⟩
  · rw [parse_file cv rows [] text h hrows, regRows_eq]
    cases List.mapM (regOfRow cv) (keepNew [] rows) <;> simp [Except.map]

/-- C54, what happens in general: after the non-alias lines the variables left from the last line are processed once more if the file ends
in white space. -/
theorem C54_with_tail (cv : Conv K) (rows : List DirRow) (tail text : List Char) (h : DirFile rows tail text) (hrows : rows ≠ []) :
    ∃ kept extra, NonAlias rows kept ∧ extra.length ≤ 1 ∧ (tail = [] → extra = []) ∧
      parseSerpent cv text = (kept ++ extra).mapM (regOfRow cv) := by
  refine ⟨keepNew [] rows, if tail = [] then [] else leftover (lastSeen [] rows) (lastRow [] emptyRow rows), ?_, ?_, ?_, ?_⟩
  · obtain ⟨a, b, c, d⟩ := keepNew_spec rows []
    exact ⟨a, fun r hr => (b r hr).1, c, fun r hr hrel => (d r hr hrel).resolve_left (by simp)⟩
  · unfold leftover; split
    · simp
    · split
      · simp
      · split <;> simp
  · intro ht; rw [if_pos ht]
  · rw [parse_file cv rows tail text h hrows]
    have key : ∀ l, regRows cv [] l = l.mapM (regOfRow cv) := by
      intro l; rw [regRows_eq]; cases List.mapM (regOfRow cv) l <;> simp [Except.map]
    rw [← key, regRows_append]
    cases regRows cv [] (keepNew [] rows) with
    | error e => rfl
    | ok acc =>
      simp only
      split
      · rfl
      · rfl

theorem lastRow_append (seen : List (List Char)) (row : DirRow) (rs : List DirRow) (last : DirRow) :
    lastRow seen row (rs ++ [last]) = (if last.relevant = false then last else if last.zaid ∈ lastSeen seen rs then last
      else { last with zaid := stripExt last.zaid }) := by
  induction rs generalizing seen row with
  | nil => simp only [List.nil_append, lastRow]; rfl
  | cons r rs ih =>
    rw [List.cons_append, lastRow, lastSeen]
    split
    · exact ih _ _
    · split
      · exact ih _ _
      · exact ih _ _

theorem keepNew_append (seen : List (List Char)) (rs : List DirRow) (last : DirRow) :
    keepNew seen (rs ++ [last]) = keepNew seen rs ++ leftover (lastSeen seen rs) last := by
  induction rs generalizing seen with
  | nil => simp only [List.nil_append, keepNew, leftover]; rfl
  | cons r rs ih =>
    rw [List.cons_append, keepNew, keepNew, lastSeen]
    split
    · exact ih _
    · split
      · exact ih _
      · rw [List.cons_append, ih]

/-- The full claim is false of the code: when the file ends in white space (every file with a final newline), its last line is new and its
table identifier has an extension (`.03c`), then that line is registered a second time, under its identifier without extension. -/
theorem C54_violation (cv : Conv K) (rows : List DirRow) (last : DirRow) (tail text : List Char)
    (h : DirFile (rows ++ [last]) tail text) (htail : tail ≠ []) (hrel : Relevant last)
    (hnew : ∀ r ∈ rows, Relevant r → r.zaid ≠ last.zaid)
    (hext : ∀ r ∈ rows ++ [last], Relevant r → r.zaid ≠ stripExt last.zaid) :
    ∃ kept, NonAlias rows kept ∧
      parseSerpent cv text = (kept ++ [last, { last with zaid := stripExt last.zaid }]).mapM (regOfRow cv) := by
  have hr : ¬ last.relevant = false := by rw [(relevant_iff last).mpr hrel]; simp
  obtain ⟨a, b, c, d⟩ := keepNew_spec rows []
  have hns : last.zaid ∉ lastSeen [] rows := by
    intro hm
    rcases (mem_lastSeen rows [] _).mp hm with hm | hm
    · cases hm
    · obtain ⟨x, hx, hz⟩ := List.mem_map.mp hm
      exact hnew x (a.subset hx) (b x hx).1 hz
  refine ⟨keepNew [] rows, ⟨a, fun r hr => (b r hr).1, c, fun r hr hrel => (d r hr hrel).resolve_left (by simp)⟩, ?_⟩
  rw [parse_file cv _ tail text h (by simp)]
  simp only [if_neg htail]
  rw [lastRow_append, if_neg hr, if_neg hns, keepNew_append]
  have e1 : leftover (lastSeen [] rows) last = [last] := by unfold leftover; rw [if_neg hr, if_neg hns]
  have e2 : leftover (lastSeen [] (rows ++ [last])) { last with zaid := stripExt last.zaid } =
      [{ last with zaid := stripExt last.zaid }] := by
    unfold leftover
    have hr' : ¬ ({ last with zaid := stripExt last.zaid } : DirRow).relevant = false := hr
    rw [if_neg hr', if_neg]
    intro hm
    rcases (mem_lastSeen (rows ++ [last]) [] _).mp hm with hm | hm
    · cases hm
    · obtain ⟨a', b', _, _⟩ := keepNew_spec (rows ++ [last]) []
      obtain ⟨x, hx, hz⟩ := List.mem_map.mp hm
      exact hext x (a'.subset hx) (b' x hx).1 hz
  rw [e1, e2]
  have key : ∀ l, regRows cv [] l = l.mapM (regOfRow cv) := by
    intro l; rw [regRows_eq]; cases List.mapM (regOfRow cv) l <;> simp [Except.map]
  rw [show keepNew [] rows ++ [last, { last with zaid := stripExt last.zaid }] =
    (keepNew [] rows ++ [last]) ++ [{ last with zaid := stripExt last.zaid }] by simp, ← key]
  exact (regRows_append cv _ _ _).symm

/-- The consequence for the temperature list: the last nuclide of a file with a final newline has its temperature twice, which is the
situation of `C51_violation`. -/
theorem C54_violation_temperatures (cv : Conv K) (rows : List DirRow) (last : DirRow) (tail text : List Char)
    (h : DirFile (rows ++ [last]) tail text) (htail : tail ≠ []) (h1 : last.type.head? = some '1')
    (hnew : ∀ r ∈ rows, Relevant r → r.zaid ≠ last.zaid)
    (hext : ∀ r ∈ rows ++ [last], Relevant r → r.zaid ≠ stripExt last.zaid)
    (z : ZAID) (e : TableEntry K) (awr : K) (hreg : regOfRow cv last = .ok (.neutron z e awr)) (regs : List (Reg K))
    (hp : parseSerpent cv text = .ok regs) : 2 ≤ (neutronTemps regs z).count e.temp := by
  have hrel : Relevant last := by
    cases ht : last.type with
    | nil => rw [ht] at h1; cases h1
    | cons c l => rw [ht] at h1; simp at h1; exact ⟨c, l, ht, .inl h1⟩
  obtain ⟨kept, _, hk⟩ := C54_violation cv rows last tail text h htail hrel hnew hext
  have hreg' : regOfRow cv { last with zaid := stripExt last.zaid } = .ok (.neutron z e awr) := by
    unfold regOfRow at hreg ⊢
    simp only [h1, if_true] at hreg ⊢
    exact hreg
  rw [hk, List.mapM_append] at hp
  simp only [bind, Except.bind, List.mapM_cons, hreg, hreg', List.mapM_nil, pure, Except.pure] at hp
  cases hkm : List.mapM (regOfRow cv) kept with
  | error x => rw [hkm] at hp; cases hp
  | ok gs =>
    rw [hkm] at hp
    simp only [Except.ok.injEq] at hp
    subst hp
    unfold neutronTemps
    rw [(List.mergeSort_perm _ _).count_eq]
    unfold neutronEntries
    rw [List.filterMap_append, List.map_append, List.count_append]
    simp

/-! ### Termination -/

def IStream.measure (s : IStream) : Nat := if s.eof then 0 else s.rest.length + 1

theorem readTok_measure (s : IStream) (v : List Char) :
    (readTok s v).1.measure ≤ s.measure ∧ (s.eof = false → (readTok s v).1.measure < s.measure) := by
  unfold readTok
  by_cases he : s.eof
  · rw [if_pos he]; exact ⟨le_rfl, fun h => by rw [he] at h; cases h⟩
  · rw [if_neg he]
    have hm : s.measure = s.rest.length + 1 := by unfold IStream.measure; rw [if_neg he]
    have hd : (s.rest.dropWhile isSpaceC).length ≤ s.rest.length := (List.dropWhile_sublist _).length_le
    split
    · have : (IStream.mk [] true).measure = 0 := rfl
      simp only [this, hm]
      exact ⟨by omega, fun _ => by omega⟩
    · rename_i c r hcr
      rw [hcr] at hd
      have hns : isSpaceC c = false := by
        have := List.head?_dropWhile_not isSpaceC s.rest
        rw [hcr] at this
        simpa using this
      have hlt : ((c :: r).dropWhile (fun x => !isSpaceC x)).length ≤ r.length := by
        rw [List.dropWhile_cons, if_pos (by rw [hns]; rfl)]
        exact (List.dropWhile_sublist _).length_le
      have hlt2 : (IStream.mk ((c :: r).dropWhile (fun x => !isSpaceC x)) ((c :: r).dropWhile (fun x => !isSpaceC x)).isEmpty).measure
          ≤ r.length + 1 := by
        unfold IStream.measure; split
        · omega
        · simp only; omega
      simp only [List.length_cons] at hd
      simp only [hm]
      exact ⟨by omega, fun _ => by omega⟩

theorem readRow_measure (s : IStream) (r : DirRow) (he : s.eof = false) : (readRow s r).1.measure < s.measure := by
  unfold readRow
  simp only
  refine lt_of_le_of_lt ((readTok_measure _ _).1.trans ((readTok_measure _ _).1.trans ((readTok_measure _ _).1.trans
    ((readTok_measure _ _).1.trans ((readTok_measure _ _).1.trans ((readTok_measure _ _).1.trans ((readTok_measure _ _).1.trans
    (readTok_measure _ _).1))))))) ((readTok_measure s r.als).2 he)

theorem parseLoop_terminates (cv : Conv K) (hcv : ∀ r, regOfRow cv r ≠ .error .diverge) :
    ∀ (fuel : Nat) (s : IStream) (row : DirRow) (seen : List (List Char)) (regs : List (Reg K)), s.measure < fuel →
      parseLoop cv fuel s row seen regs ≠ .error .diverge := by
  intro fuel
  induction fuel with
  | zero => intro s _ _ _ h; omega
  | succ f ih =>
    intro s row seen regs h
    unfold parseLoop
    by_cases he : s.eof
    · rw [if_pos he]; simp
    · rw [if_neg he]
      have hm := readRow_measure s row (by simpa using he)
      simp only
      split
      · exact ih _ _ _ _ (by omega)
      · split
        · exact ih _ _ _ _ (by omega)
        · split
          · rename_i e hr
            intro hc
            cases hc
            exact hcv _ hr
          · exact ih _ _ _ _ (by omega)

/-- C54: the reading loop ends for every file, well-formed or not. -/
theorem C54_terminates (cv : Conv K) (h1 : ∀ s, cv.stod s ≠ .error .diverge) (h2 : ∀ s, cv.stoul s ≠ .error .diverge) (text : List Char) :
    parseSerpent cv text ≠ .error .diverge := by
  apply parseLoop_terminates
  · intro r
    unfold regOfRow
    simp only [bind, Except.bind, pure, Except.pure]
    cases hs : cv.stod r.temp with
    | error e => intro h; cases h; exact h1 _ hs
    | ok t =>
      simp only
      split
      · cases hn : cv.stoul r.za with
        | error e => intro h; cases h; exact h2 _ hn
        | ok n =>
          simp only
          cases ha : cv.stod r.aw with
          | error e => intro h; cases h; exact h1 _ ha
          | ok a => simp
      · simp
  · unfold IStream.measure; simp

/-- A simple number reader for the examples: decimal digits only. -/
def digitConv : Conv ℚ := ⟨fun s => if s.all isDigC then .ok (stoul s : ℚ) else .error .exc, fun s => if s.all isDigC then .ok (stoul s) else .error .exc⟩

/-- A two-line file without final newline, the second line being an alias of the first ... -/
example : (parseSerpent digitConv "H-1.03c 1001.03c 1 1001 0 1 300 0 h1\n1001.03c 1001.03c 1 1001 0 1 300 0 h1".toList).map List.length = .ok 1 := by
  decide +kernel

/-- ... a file without final newline, two different lines ... -/
example : (parseSerpent digitConv "H-1.03c 1001.03c 1 1001 0 1 300 0 h1\nH-2.03c 1002.03c 1 1002 0 2 300 0 h2".toList).map List.length = .ok 2 := by
  decide +kernel

/-- ... and the same file with it: the last table is registered twice. -/
theorem C54_violation_example :
    (parseSerpent digitConv "H-1.03c 1001.03c 1 1001 0 1 300 0 h1\nH-2.03c 1002.03c 1 1002 0 2 300 0 h2\n".toList).map
      (fun regs => ((neutronEntries regs (zaidOfNum 1001)).map TableEntry.temp, (neutronEntries regs (zaidOfNum 1002)).map TableEntry.temp))
      = .ok ([300], [300, 300]) := by
  decide +kernel

end PNDL
