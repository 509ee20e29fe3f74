import Mathlib.Data.List.TakeWhile
import Verif.Spec.Xsdir
import Verif.Props.Directory
import Verif.Props.Library

/-! C91: the MCNP directory file. -/
namespace PNDL
open Spec

theorem cutLines_line (l r tmp : List Char) (h : '\n' ∉ l) : cutLines (l ++ r) tmp = cutLines r (tmp ++ l) := by
  induction l generalizing tmp with
  | nil => simp
  | cons c l ih =>
    have hc : c ≠ '\n' := fun e => h (by simp [e])
    rw [List.cons_append, cutLines, if_neg hc, ih _ (fun hm => h (by simp [hm]))]
    simp

theorem cutLines_lines (ls : List (List Char)) (first : List Char) (h1 : '\n' ∉ first) (h : ∀ l ∈ ls, '\n' ∉ l) :
    cutLines (first ++ ls.flatMap (fun l => '\n' :: l)) [] = first :: ls := by
  rw [cutLines_line _ _ _ h1, List.nil_append]
  induction ls generalizing first with
  | nil => simp [cutLines]
  | cons l ls ih =>
    rw [List.flatMap_cons, List.cons_append, cutLines, if_pos rfl, cutLines_line _ _ _ (h l (by simp)), List.nil_append,
      ih l (h l (by simp)) (fun x hx => h x (by simp [hx]))]

theorem collapse_blanks (p : Bool) (n : Nat) (r : List Char) : collapse p (List.replicate n ' ' ++ r) = collapse (p || decide (0 < n)) r := by
  induction n generalizing p with
  | zero => simp
  | succ n ih =>
    rw [List.replicate_succ, List.cons_append, collapse, if_pos rfl, ih]
    simp

theorem collapse_word (w r : List Char) (hw : ' ' ∉ w) (hne : w ≠ []) (p : Bool) :
    collapse p (w ++ r) = (if p then [' '] else []) ++ w ++ collapse false r := by
  have hf : ∀ w : List Char, ' ' ∉ w → collapse false (w ++ r) = w ++ collapse false r := by
    intro w
    induction w with
    | nil => intro _; rfl
    | cons c w ih =>
      intro hw
      have hc : c ≠ ' ' := fun e => hw (by simp [e])
      rw [List.cons_append, collapse, if_neg hc, if_neg (by simp), ih (fun hm => hw (by simp [hm])), List.cons_append]
  cases w with
  | nil => exact absurd rfl hne
  | cons c w =>
    have hc : c ≠ ' ' := fun e => hw (by simp [e])
    rw [List.cons_append, collapse, if_neg hc, hf w (fun hm => hw (by simp [hm]))]
    cases p <;> simp

theorem collapse_words (l : List (Nat × List Char)) (trail : Nat) (h : ∀ q ∈ l, 1 ≤ q.1 ∧ q.2 ≠ [] ∧ ' ' ∉ q.2) :
    collapse false (wordsText l trail) = l.flatMap (fun q => ' ' :: q.2) := by
  induction l with
  | nil =>
    have e : wordsText [] trail = List.replicate trail ' ' ++ [] := by simp [wordsText]
    rw [e, collapse_blanks]
    simp [collapse]
  | cons p l ih =>
    obtain ⟨h1, h2, h3⟩ := h p (by simp)
    have e : wordsText (p :: l) trail = List.replicate p.1 ' ' ++ (p.2 ++ wordsText l trail) := by simp [wordsText]
    rw [e, collapse_blanks, collapse_word _ _ h3 h2, ih (fun q hq => h q (by simp [hq]))]
    have : (0 < p.1) := h1
    simp [this]

theorem splitBlank_word (w r tmp : List Char) (hw : ' ' ∉ w) : splitBlank (w ++ r) tmp = splitBlank r (tmp ++ w) := by
  induction w generalizing tmp with
  | nil => simp
  | cons c w ih =>
    have hc : c ≠ ' ' := fun e => hw (by simp [e])
    rw [List.cons_append, splitBlank, if_neg hc, ih _ (fun hm => hw (by simp [hm]))]
    simp

theorem splitBlank_words (w : List Char) (l : List (Nat × List Char)) (hw : ' ' ∉ w) (hne : w ≠ []) (h : ∀ q ∈ l, q.2 ≠ [] ∧ ' ' ∉ q.2) :
    splitBlank (w ++ l.flatMap (fun q => ' ' :: q.2)) [] = w :: l.map Prod.snd := by
  rw [splitBlank_word _ _ _ hw, List.nil_append]
  induction l generalizing w with
  | nil => simp [splitBlank, hne]
  | cons p l ih =>
    obtain ⟨h2, h3⟩ := h p (by simp)
    rw [List.flatMap_cons, List.cons_append, splitBlank, if_pos rfl, splitBlank_word _ _ _ h3, List.nil_append,
      ih p.2 h3 h2 (fun q hq => h q (by simp [hq]))]
    rfl

/-- The line as the program sees it: nothing when there are no columns, else the columns. -/
theorem tidy_words (l : XsLine) (h : l.Wf) :
    (l.cols = [] → tidyLine l.text = []) ∧ (l.cols ≠ [] → tidyLine l.text ≠ [] ∧ splitBlank (tidyLine l.text) [] = l.words) := by
  obtain ⟨cols, trail⟩ := l
  obtain ⟨hw, _⟩ := h
  have hdrop : ∀ (n : Nat) (r : List Char), (List.replicate n ' ' ++ r).dropWhile (fun c => c = ' ') = r.dropWhile (fun c => c = ' ') := by
    intro n r
    induction n with
    | zero => rfl
    | succ n ih => rw [List.replicate_succ, List.cons_append, List.dropWhile_cons, if_pos (by simp)]; exact ih
  constructor
  · rintro hc
    simp only at hc
    subst hc
    have e : XsLine.text ⟨[], trail⟩ = List.replicate trail ' ' ++ [] := by simp [XsLine.text, wordsText]
    unfold tidyLine
    rw [e, hdrop]
    simp [collapse]
  · intro hc
    cases cols with
    | nil => exact absurd rfl hc
    | cons p l =>
      obtain ⟨⟨h2, h3⟩, hl⟩ := hw
      have e : XsLine.text ⟨p :: l, trail⟩ = List.replicate p.1 ' ' ++ (p.2 ++ wordsText l trail) := by simp [XsLine.text, wordsText]
      have hd : (p.2 ++ wordsText l trail).dropWhile (fun c => c = ' ') = p.2 ++ wordsText l trail := by
        cases hp : p.2 with
        | nil => exact absurd hp h2
        | cons c w =>
          have hcc : c ≠ ' ' := fun e => h3 (by rw [hp]; simp [e])
          rw [List.cons_append, List.dropWhile_cons, if_neg (by simpa using hcc)]
      have ht : tidyLine (XsLine.text ⟨p :: l, trail⟩) = p.2 ++ l.flatMap (fun q => ' ' :: q.2) := by
        unfold tidyLine
        rw [e, hdrop, hd, collapse_word _ _ h3 h2, collapse_words _ _ hl]
        simp
      rw [ht]
      refine ⟨by simp [h2], ?_⟩
      rw [splitBlank_words _ _ h3 h2 (fun q hq => ⟨(hl q hq).2.1, (hl q hq).2.2⟩)]
      rfl

theorem plusMatch_none {c : Char} {r : List Char} (h : c = ' ' → ∀ d ∈ r.head?, d ≠ '+') : plusMatch (c :: r) = none := by
  unfold plusMatch
  split
  · rename_i t heq
    cases heq
    exact absurd rfl (h rfl '+' (by simp))
  · rfl

theorem joinPlus_cons {c : Char} {r : List Char} (h : c = ' ' → ∀ d ∈ r.head?, d ≠ '+') : joinPlus (c :: r) = c :: joinPlus r := by
  rw [joinPlus]
  split
  · rename_i rest hr
    rw [plusMatch_none h] at hr
    cases hr
  · rfl

/-- Without `+` there is nothing to join. -/
theorem joinPlus_plain (pre r : List Char) (h : '+' ∉ pre) (hr : ∀ c ∈ r.head?, c ≠ '+') : joinPlus (pre ++ r) = pre ++ joinPlus r := by
  induction pre with
  | nil => rfl
  | cons c pre ih =>
    have hp : '+' ∉ pre := fun hm => h (by simp [hm])
    rw [List.cons_append, joinPlus_cons, ih hp, List.cons_append]
    intro _ d hd
    cases pre with
    | nil => exact hr d hd
    | cons e pre =>
      simp at hd
      subst hd
      exact fun e => hp (by simp [e])

theorem joinPlus_none (s : List Char) (h : '+' ∉ s) : joinPlus s = s := by
  have := joinPlus_plain s [] h (by simp)
  rw [List.append_nil] at this
  rw [this]
  simp [joinPlus]

variable {K : Type} [Field K] [LinearOrder K]

/-- What a line of columns registers: nothing for an empty line or a table that is neither neutron nor thermal data; otherwise the ZAID (or name)
of its first column, the file of its third, the type of its fifth (2: binary) and the temperature of its tenth, in kelvin. -/
def Spec.xsReg (cv : Conv K) (kT : K) (ws : List (List Char)) : Res (Option (Reg K)) :=
  match ws with
  | [] => .ok none
  | z :: _ =>
    if ws.length < 7 ∨ 11 < ws.length then .error .exc
    else if z.getLast? = some 'c' then do
      let t ← cv.stod (ws.getD 9 [])
      let n ← cv.stoul (regexErase takeExt35 z.length z)
      return some (.neutron (zaidOfNum n) ⟨ws.getD 2 [], ws.getD 4 [] == ['2'], t * kT⟩ 0)
    else if z.getLast? = some 't' then do
      let t ← cv.stod (ws.getD 9 [])
      return some (.tsl (regexErase takeExt35 z.length z) ⟨ws.getD 2 [], ws.getD 4 [] == ['2'], t * kT⟩)
    else .ok none

omit [LinearOrder K] in
theorem xsLine_words (cv : Conv K) (kT : K) (l : XsLine) (h : l.Wf) : xsLine cv kT l.text = xsReg cv kT l.words := by
  obtain ⟨t1, t2⟩ := tidy_words l h
  unfold xsLine
  by_cases hc : l.cols = []
  · have hw : l.words = [] := by unfold XsLine.words; rw [hc]; rfl
    rw [t1 hc, hw]
    simp [xsReg]
  · obtain ⟨q1, q2⟩ := t2 hc
    dsimp only
    rw [if_neg q1, q2]
    obtain ⟨z, ws, hw⟩ : ∃ z ws, l.words = z :: ws := by
      unfold XsLine.words
      cases hl : l.cols with
      | nil => exact absurd hl hc
      | cons p l => exact ⟨p.2, l.map Prod.snd, rfl⟩
    rw [hw]
    unfold xsReg
    dsimp only
    by_cases hn : (z :: ws).length < 7 ∨ 11 < (z :: ws).length
    · rw [if_pos hn, if_pos hn]
    · rw [if_neg hn, if_neg hn]
      simp only [not_or, not_lt] at hn
      have g0 : getAt (z :: ws) 0 = .ok z := rfl
      have g2 : getAt (z :: ws) 2 = .ok ((z :: ws).getD 2 []) := by
        rw [getAt_of_lt (by omega), List.getD_eq_getElem?_getD, List.getElem?_eq_getElem (by omega)]; rfl
      have g4 : getAt (z :: ws) 4 = .ok ((z :: ws).getD 4 []) := by
        rw [getAt_of_lt (by omega), List.getD_eq_getElem?_getD, List.getElem?_eq_getElem (by omega)]; rfl
      have g9 : (z :: ws)[9]?.getD [] = (z :: ws).getD 9 [] := by rw [List.getD_eq_getElem?_getD]
      rw [g0, g2, g4]
      simp only [bind, Except.bind, g9]
      unfold xsKind
      by_cases hcc : z.getLast? = some 'c'
      · simp only [if_pos hcc]
      · by_cases ht : z.getLast? = some 't'
        · simp only [if_neg hcc, if_pos ht]
        · simp only [if_neg hcc, if_neg ht]
          rfl

/-- The directory registers exactly what its lines say, in the order of the file: every line is read into its blank-separated columns whatever the
number of blanks, and handled by itself. -/
theorem C91_rows (cv : Conv K) (kT : K) (first : List Char) (ls : List XsLine) (h1 : '\n' ∉ first) (hls : ∀ l ∈ ls, l.Wf)
    (hp : '+' ∉ xsText first ls) :
    parseMcnp cv kT (xsText first ls) = (ls.mapM (fun l => xsReg cv kT l.words)).map (fun l => l.filterMap id) := by
  have hnl : ∀ l ∈ ls.map XsLine.text, '\n' ∉ l := by
    intro t ht
    obtain ⟨l, hl, rfl⟩ := List.mem_map.mp ht
    intro hm
    unfold XsLine.text wordsText at hm
    rcases List.mem_append.mp hm with hm | hm
    · obtain ⟨q, hq, hm⟩ := List.mem_flatMap.mp hm
      rcases List.mem_append.mp hm with hm | hm
      · have := List.eq_of_mem_replicate hm; revert this; decide
      · exact (hls l hl).2 q.2 (by unfold XsLine.words; exact List.mem_map_of_mem hq) hm
    · have := List.eq_of_mem_replicate hm; revert this; decide
  have hcut : cutLines (joinPlus (xsText first ls)) [] = first :: ls.map XsLine.text := by
    rw [joinPlus_none _ hp]
    have := cutLines_lines (ls.map XsLine.text) first h1 hnl
    rw [List.flatMap_map] at this
    exact this
  unfold parseMcnp
  rw [hcut, List.drop_one, List.tail_cons]
  have hmap : ∀ ls : List XsLine, (∀ l ∈ ls, l.Wf) →
      (ls.map XsLine.text).mapM (xsLine cv kT) = ls.mapM (fun l => xsReg cv kT l.words) := by
    intro ls
    induction ls with
    | nil => intro _; rfl
    | cons l ls ih =>
      intro h
      rw [List.map_cons, List.mapM_cons, List.mapM_cons, xsLine_words cv kT l (h l (by simp)), ih (fun x hx => h x (by simp [hx]))]
  rw [hmap ls hls]
  cases ls.mapM (fun l => xsReg cv kT l.words) <;> rfl

/-- A line continued with a blank, `+` and white space up to the end of the line is the same as one line. -/
theorem C91_continued (cv : Conv K) (kT : K) (pre w post : List Char) (hpre : '+' ∉ pre) (hw : White w) (hpp : '+' ∉ post) (hpn : '\n' ∉ post.takeWhile isSpaceC) :
    parseMcnp cv kT (pre ++ ([' ', '+'] ++ (w ++ '\n' :: post))) = parseMcnp cv kT (pre ++ ' ' :: post) := by
  have hj : joinPlus (pre ++ ([' ', '+'] ++ (w ++ '\n' :: post))) = joinPlus (pre ++ ' ' :: post) := by
    rw [joinPlus_plain _ _ hpre (by intro c hc; simp at hc; subst hc; decide),
      joinPlus_plain _ _ hpre (by intro c hc; simp at hc; subst hc; decide)]
    congr 1
    have hph : ∀ d ∈ post.head?, d ≠ '+' := by
      intro d hd e
      exact hpp (by rw [← e]; exact List.mem_of_mem_head? hd)
    rw [joinPlus_cons (c := ' ') (r := post) (fun _ => hph)]
    have htw : (w ++ '\n' :: post).takeWhile isSpaceC = w ++ '\n' :: post.takeWhile isSpaceC := by
      rw [List.takeWhile_append_of_pos hw]
      congr 1
    have hdw : (w ++ '\n' :: post).dropWhile isSpaceC = post.dropWhile isSpaceC := by
      have : White (w ++ ['\n']) := by
        intro c hc
        rcases List.mem_append.mp hc with hc | hc
        · exact hw c hc
        · simp at hc; subst hc; decide
      have h2 := List.dropWhile_append_of_pos (p := isSpaceC) (l₂ := post) this
      rwa [List.append_assoc] at h2
    have hrev : ((w ++ '\n' :: post.takeWhile isSpaceC).reverse.takeWhile (fun c => c ≠ '\n')).reverse = post.takeWhile isSpaceC := by
      rw [List.reverse_append, List.reverse_cons, List.append_assoc]
      have ha : ∀ c ∈ (post.takeWhile isSpaceC).reverse, (decide (c ≠ '\n')) = true := by
        intro c hc
        have hc' := List.mem_reverse.mp hc
        simp only [decide_eq_true_eq]
        exact fun e => hpn (by rw [← e]; exact hc')
      rw [List.takeWhile_append_of_pos ha]
      simp
    have hpm : plusMatch (' ' :: '+' :: (w ++ '\n' :: post)) = some post := by
      have e : ∀ r : List Char, plusMatch (' ' :: '+' :: r) = if '\n' ∈ r.takeWhile isSpaceC then
          some (((r.takeWhile isSpaceC).reverse.takeWhile (fun c => c ≠ '\n')).reverse ++ r.dropWhile isSpaceC) else none := fun r => by
        simp only [plusMatch]
      rw [e, htw, hdw]
      rw [if_pos (by simp), hrev, List.takeWhile_append_dropWhile]
    change joinPlus (' ' :: '+' :: (w ++ '\n' :: post)) = ' ' :: joinPlus post
    rw [joinPlus]
    split
    · rename_i rest hr
      rw [hpm] at hr
      cases hr
      rfl
    · rename_i hr
      rw [hpm] at hr
      cases hr
  unfold parseMcnp
  rw [hj]

/-- `.ext` after a name, up to five word characters of it, goes. -/
theorem erase_ext (name ext : List Char) (hn : '.' ∉ name) (he : ∀ c ∈ ext, isWordC c = true) (h3 : 3 ≤ ext.length) :
    regexErase takeExt35 (name ++ '.' :: ext).length (name ++ '.' :: ext) = name ++ ext.drop 5 := by
  rw [List.length_append, regexErase_skip (m := takeExt35) (fun c hc t => by
    unfold takeExt35
    split
    · rename_i heq
      exact absurd (by rw [← (List.cons.inj heq).1]; exact hc) hn
    · rfl)]
  congr 1
  have hw : (ext.take 5).takeWhile isWordC = ext.take 5 :=
    List.takeWhile_eq_self_iff.mpr (fun c hc => he c (List.mem_of_mem_take hc))
  have hm : takeExt35 ('.' :: ext) = some ('.' :: ext.take 5, ext.drop 5) := by
    simp only [takeExt35, hw, List.length_take]
    rw [if_neg (by omega)]
    by_cases h5 : 5 ≤ ext.length
    · rw [Nat.min_eq_left h5]
    · rw [Nat.min_eq_right (by omega), List.drop_eq_nil_of_le (le_refl _), List.drop_eq_nil_of_le (by omega)]
  simp only [List.length_cons, regexErase, hm]
  refine regexErase_nohit (by simp) (fun c hc t => ?_)
  have hcw := he c (List.mem_of_mem_drop hc)
  unfold takeExt35
  split
  · rename_i heq
    rw [(List.cons.inj heq).1] at hcw
    exact absurd hcw (by decide)
  · rfl

omit [LinearOrder K] in
/-- The full statement would be: an entry with 7 to 11 columns, which the error message says is what entries must have, is registered under the name
before the extension of its first column.  Missing: the entries with fewer than ten columns and longer extensions (violations
below). -/
theorem C91_registered_partial (cv : Conv K) (kT : K) (ws : List (List Char)) (name ext t : List Char) (n : Nat) (v : K)
    (h10 : 10 ≤ ws.length) (h11 : ws.length ≤ 11) (hz : ws[0]? = some (name ++ '.' :: ext)) (hname : '.' ∉ name)
    (hext : ∀ c ∈ ext, isWordC c = true) (h3 : 3 ≤ ext.length) (h5 : ext.length ≤ 5) (ht : ws[9]? = some t) (hv : cv.stod t = .ok v)
    (hn : cv.stoul name = .ok n) :
    (ext.getLast? = some 'c' → xsReg cv kT ws =
      .ok (some (.neutron (zaidOfNum n) ⟨ws.getD 2 [], ws.getD 4 [] == ['2'], v * kT⟩ 0))) ∧
    (ext.getLast? = some 't' → xsReg cv kT ws =
      .ok (some (.tsl name ⟨ws.getD 2 [], ws.getD 4 [] == ['2'], v * kT⟩))) := by
  have hr := erase_ext name ext hname hext h3
  rw [List.drop_eq_nil_of_le h5, List.append_nil] at hr
  have hlast : (name ++ '.' :: ext).getLast? = ext.getLast? := by
    cases ext with
    | nil => simp at h3
    | cons c r => simp [List.getLast?_cons]
  obtain ⟨z, hze⟩ : ∃ z, z = name ++ '.' :: ext := ⟨_, rfl⟩
  rw [← hze] at hz hr hlast
  cases ws with
  | nil => simp at h10
  | cons z' ws =>
    simp only [List.getElem?_cons_zero, Option.some.injEq] at hz
    subst hz
    have hd : (z' :: ws).getD 9 [] = t := by rw [List.getD_eq_getElem?_getD, ht]; rfl
    constructor <;> intro hk <;> rw [← hlast] at hk <;> unfold xsReg <;> dsimp only <;> rw [if_neg (by omega), hd]
    · rw [if_pos hk, hv]
      simp only [bind, Except.bind, hr, hn]
      rfl
    · rw [if_neg (by rw [hk]; decide), if_pos hk, hv, hr]
      rfl

omit [LinearOrder K] in
/-- Violation: of an extension of more than five characters only the first five are removed; the rest is glued to the name, under which the thermal table is
then registered (and looked up in vain under its own). -/
theorem C91_violation_extension (cv : Conv K) (kT : K) (ws : List (List Char)) (name ext t : List Char) (v : K)
    (h10 : 10 ≤ ws.length) (h11 : ws.length ≤ 11) (hz : ws[0]? = some (name ++ '.' :: ext)) (hname : '.' ∉ name)
    (hext : ∀ c ∈ ext, isWordC c = true) (h6 : 5 < ext.length) (ht : ws[9]? = some t) (hv : cv.stod t = .ok v)
    (hk : ext.getLast? = some 't') :
    xsReg cv kT ws = .ok (some (.tsl (name ++ ext.drop 5) ⟨ws.getD 2 [], ws.getD 4 [] == ['2'], v * kT⟩)) ∧ name ++ ext.drop 5 ≠ name := by
  have hr := erase_ext name ext hname hext (by omega)
  have hlast : (name ++ '.' :: ext).getLast? = ext.getLast? := by
    cases ext with
    | nil => simp at h6
    | cons c r => simp [List.getLast?_cons]
  obtain ⟨z, hze⟩ : ∃ z, z = name ++ '.' :: ext := ⟨_, rfl⟩
  rw [← hze] at hz hr hlast
  refine ⟨?_, by simp; omega⟩
  cases ws with
  | nil => simp at h10
  | cons z' ws =>
    simp only [List.getElem?_cons_zero, Option.some.injEq] at hz
    subst hz
    have hd : (z' :: ws).getD 9 [] = t := by rw [List.getD_eq_getElem?_getD, ht]; rfl
    rw [← hlast] at hk
    unfold xsReg
    dsimp only
    rw [if_neg (by omega), hd, if_neg (by rw [hk]; decide), if_pos hk, hv, hr]
    rfl

/-- The extension of "h-h2o.40t", and one that is too long. -/
example : '.' ∉ "h-h2o".toList ∧ (∀ c ∈ "40t".toList, isWordC c = true) ∧ "40t".toList.getLast? = some 't' ∧
    regexErase takeExt35 14 "h-h2o.endf80t".toList = "h-h2o0t".toList := by decide +kernel

/-- Violation: a neutron or thermal entry with 7, 8 or 9 columns passes the check of the number of columns, and then ends the construction of the library
with the failure of the conversion of an empty temperature (an exception that is not a `PNDLException`). -/
theorem C91_violation_columns (cv : Conv K) (kT : K) (e : Err) (hcv : cv.stod [] = .error e) (first : List Char) (l : XsLine) (ls : List XsLine)
    (h1 : '\n' ∉ first) (hls : ∀ x ∈ l :: ls, x.Wf) (hp : '+' ∉ xsText first (l :: ls)) (h7 : 7 ≤ l.words.length) (h9 : l.words.length ≤ 9)
    (z : List Char) (hz : l.words[0]? = some z) (hk : z.getLast? = some 'c' ∨ z.getLast? = some 't') :
    parseMcnp cv kT (xsText first (l :: ls)) = .error e := by
  rw [C91_rows cv kT first _ h1 hls hp, List.mapM_cons]
  have : xsReg cv kT l.words = .error e := by
    cases hw : l.words with
    | nil => rw [hw] at h7; simp at h7
    | cons z' ws =>
      rw [hw] at hz h7 h9
      simp only [List.getElem?_cons_zero, Option.some.injEq] at hz
      subst hz
      have hd : (z' :: ws).getD 9 [] = [] := by
        rw [List.getD_eq_getElem?_getD, List.getElem?_eq_none (by omega)]; rfl
      unfold xsReg
      dsimp only
      rw [if_neg (by omega), hd, hcv]
      rcases hk with hk | hk
      · rw [if_pos hk]; rfl
      · rw [if_neg (by rw [hk]; decide), if_pos hk]; rfl
  rw [this]
  rfl

/-! A concrete directory: three lines for U235, the first two of them equal. -/

def exCols (t : String) : XsLine :=
  ⟨["92235.80c", "233.02", "u235.ace", "0", "1", "1", "900", "0", "0", t].map (fun w => (1, w.toList)), 2⟩

def exConv : Conv ℚ where
  stod s := if s = "293".toList then .ok 293 else .ok 600
  stoul _ := .ok 92235

theorem exCols_ok : (exCols "293").Wf ∧ (exCols "600").Wf := by
  refine ⟨⟨⟨by decide +kernel, by decide +kernel⟩, by decide +kernel⟩, ⟨⟨by decide +kernel, by decide +kernel⟩, by decide +kernel⟩⟩

/-- Violation of C51 through a directory file: a table listed twice is registered twice (a Serpent directory drops the second), its
temperatures are 293, 293, 600, and `nearest_temperature` at 600 K answers 293 K. -/
theorem C91_violation_duplicate : ∃ regs, parseMcnp exConv 1 (xsText "directory".toList [exCols "293", exCols "293", exCols "600"]) = .ok regs ∧
    neutronTemps regs ⟨92, 235, by decide, by decide⟩ = [293, 293, 600] ∧
    nearestTemp 600 (neutronTemps regs ⟨92, 235, by decide, by decide⟩) = .ok 293 := by
  refine ⟨[.neutron (zaidOfNum 92235) ⟨"u235.ace".toList, false, 293⟩ 0, .neutron (zaidOfNum 92235) ⟨"u235.ace".toList, false, 293⟩ 0,
      .neutron (zaidOfNum 92235) ⟨"u235.ace".toList, false, 600⟩ 0], ?_, ?_⟩
  · rw [C91_rows _ _ _ _ (by decide) (by
      intro l hl
      simp only [List.mem_cons, List.not_mem_nil, or_false] at hl
      rcases hl with rfl | rfl | rfl <;> first | exact exCols_ok.1 | exact exCols_ok.2) (by decide +kernel)]
    decide +kernel
  · have : neutronTemps (K := ℚ) [.neutron (zaidOfNum 92235) ⟨"u235.ace".toList, false, 293⟩ 0,
        .neutron (zaidOfNum 92235) ⟨"u235.ace".toList, false, 293⟩ 0,
        .neutron (zaidOfNum 92235) ⟨"u235.ace".toList, false, 600⟩ 0] ⟨92, 235, by decide, by decide⟩ = [293, 293, 600] := by
      unfold neutronTemps
      rw [show neutronEntries (K := ℚ) [.neutron (zaidOfNum 92235) ⟨"u235.ace".toList, false, 293⟩ 0,
        .neutron (zaidOfNum 92235) ⟨"u235.ace".toList, false, 293⟩ 0,
        .neutron (zaidOfNum 92235) ⟨"u235.ace".toList, false, 600⟩ 0] ⟨92, 235, by decide, by decide⟩ =
        [⟨"u235.ace".toList, false, 293⟩, ⟨"u235.ace".toList, false, 293⟩, ⟨"u235.ace".toList, false, 600⟩] by decide +kernel]
      exact List.mergeSort_of_pairwise (by norm_num)
    rw [this]
    exact ⟨rfl, C51_violation_sorted.2⟩

/-- The name without its extension. -/
example : regexErase takeExt35 9 "92235.80c".toList = "92235".toList ∧ regexErase takeExt35 9 "h-h2o.40t".toList = "h-h2o".toList := by
  decide +kernel

end PNDL
