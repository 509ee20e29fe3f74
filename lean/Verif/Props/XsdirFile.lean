import Verif.Model.XsdirFile
import Verif.Props.Xsdir
import Verif.Props.AceText

/-! C124: the atomic weight ratios, the data path and the directory of an MCNP library. -/
namespace PNDL
namespace Spec

/-- The text starts with the word `w` (given in small letters), in letters of either case. -/
def StartsCI (w s : List Char) : Prop := (s.take w.length).map Char.toLower = w

instance (w s : List Char) : Decidable (StartsCI w s) := inferInstanceAs (Decidable (_ = _))

/-- The first occurrence of the word `w` in the text is at place `n`. -/
def FirstAt (w s : List Char) (n : Nat) : Prop := StartsCI w (s.drop n) ∧ ∀ m < n, ¬ StartsCI w (s.drop m)

/-- An atomic weight ratio as written: white space, the ZAID, white space, digits, a point and digits. -/
structure AwrEntry where
  before : List Char
  zaid : List (Fin 10)
  mid : List Char
  ip : List (Fin 10)
  fp : List (Fin 10)

def AwrEntry.text (p : AwrEntry) : List Char := p.before ++ (p.zaid.map digit ++ (p.mid ++ (p.ip.map digit ++ '.' :: p.fp.map digit)))

structure AwrEntry.Wf (p : AwrEntry) : Prop where
  before : White p.before ∧ p.before ≠ []
  zaid : 4 ≤ p.zaid.length ∧ p.zaid.length ≤ 6
  mid : White p.mid ∧ p.mid ≠ []
  ip : p.ip ≠ []
  fp : p.fp ≠ []

/-- The ratio. -/
def AwrEntry.ratio {K : Type} [Field K] (p : AwrEntry) : K := (⟨.none, p.ip, some p.fp, none⟩ : Num).value

def awrBlock (l : List AwrEntry) : List Char := l.flatMap AwrEntry.text

/-- What follows the ratios: after white space, no digit. -/
def EndsAwr (rest : List Char) : Prop := ∀ c ∈ (rest.dropWhile isSpaceC).head?, isDigC c = false

/-- The text has the heading "atomic weight ratios" (in letters of either case), for the first time, and under it the entries `l` and then `rest`. -/
structure AwrText (file : List Char) (l : List AwrEntry) (rest : List Char) : Prop where
  exists_ : ∃ n a w1 b w2 c, FirstAt "atomic".toList file n ∧ file.drop n = a ++ (w1 ++ (b ++ (w2 ++ (c ++ (awrBlock l ++ rest))))) ∧
    a.map Char.toLower = "atomic".toList ∧ b.map Char.toLower = "weight".toList ∧ c.map Char.toLower = "ratios".toList ∧
    (White w1 ∧ w1 ≠ []) ∧ (White w2 ∧ w2 ≠ [])
  entries : ∀ p ∈ l, p.Wf
  some : l ≠ []

/-- The data path of the file: the one after the word `datapath` and an optional equals sign, where that word first occurs; if it does not occur, the directory of the
file itself.  The path must consist of the characters the reader knows, and not contain the word itself. -/
inductive PathIs (parent file : List Char) : List Char → Prop
  | absent : (∀ m, ¬ StartsCI "datapath".toList (file.drop m)) → PathIs parent file parent
  | given (m : Nat) (d w1 eq w2 p rest : List Char) : FirstAt "datapath".toList file m →
      file.drop m = d ++ (w1 ++ (eq ++ (w2 ++ (p ++ rest)))) → d.map Char.toLower = "datapath".toList → White w1 → White w2 →
      (eq = [] ∧ w2 = [] ∨ eq = ['=']) → p ≠ [] → (∀ c ∈ p, isPathC c = true) → (∀ c ∈ p.head?, c ≠ ' ') →
      (∀ c ∈ rest.head?, isPathC c = false) → (∀ k, ¬ StartsCI "datapath".toList (p.drop k)) → PathIs parent file p

end Spec
open Spec

theorem FirstAt.le {w s : List Char} {n : Nat} (h : FirstAt w s n) (hw : w ≠ []) : n ≤ s.length := by
  by_contra hc
  have h1 := h.1
  unfold StartsCI at h1
  rw [List.drop_eq_nil_of_le (by omega)] at h1
  exact hw (by rw [← h1]; simp)

theorem matchCI_some {w s : List Char} (h : StartsCI w s) : matchCI w s = some (s.drop w.length) := if_pos h
theorem matchCI_none {w s : List Char} (h : ¬ StartsCI w s) : matchCI w s = none := if_neg h

theorem matchCI_append {w a : List Char} (h : a.map Char.toLower = w) (r : List Char) : matchCI w (a ++ r) = some r := by
  have hl : a.length = w.length := by rw [← h, List.length_map]
  unfold matchCI
  rw [← hl, List.take_left', List.drop_left' rfl, if_pos h]
  rfl

theorem regexFind_at {α : Type} (m : List Char → Option α) (a : α) : ∀ (s : List Char) (n : Nat), n ≤ s.length → m (s.drop n) = some a →
    (∀ k < n, m (s.drop k) = none) → regexFind m s = some a := by
  intro s
  induction s with
  | nil =>
    intro n hn h _
    have : n = 0 := by simpa using hn
    subst this
    exact h
  | cons c r ih =>
    intro n hn h hk
    cases n with
    | zero => simp only [List.drop_zero] at h; simp only [regexFind, h]
    | succ n =>
      have h0 := hk 0 (by omega)
      simp only [List.drop_zero] at h0
      simp only [regexFind, h0]
      exact ih n (by simpa using hn) h (fun k hk' => hk (k + 1) (by omega))

theorem regexFind_none {α : Type} (m : List Char → Option α) : ∀ (s : List Char), (∀ k, m (s.drop k) = none) → regexFind m s = none := by
  intro s
  induction s with
  | nil => intro h; exact h 0
  | cons c r ih =>
    intro h
    have h0 := h 0
    simp only [List.drop_zero] at h0
    simp only [regexFind, h0]
    exact ih (fun k => h (k + 1))

theorem space1_append {w r : List Char} (hw : White w) (hne : w ≠ []) (hr : ∀ c ∈ r.head?, isSpaceC c = false) : space1 (w ++ r) = some r := by
  have h1 : (w ++ r).takeWhile isSpaceC = w := by
    rw [List.takeWhile_append_of_pos hw]
    cases r with
    | nil => simp
    | cons c r => rw [List.takeWhile_cons, if_neg (by simp [hr c (by simp)]), List.append_nil]
  have h2 : (w ++ r).dropWhile isSpaceC = r := by
    rw [dropWhile_white hw]
    cases r with
    | nil => rfl
    | cons c r => rw [List.dropWhile_cons, if_neg (by simp [hr c (by simp)])]
  unfold space1
  rw [h1, h2, isEmpty_false hne]
  rfl

theorem white_split {w r : List Char} (hw : White w) (hr : ∀ c ∈ r.head?, isSpaceC c = false) :
    (w ++ r).takeWhile isSpaceC = w ∧ (w ++ r).dropWhile isSpaceC = r := by
  constructor
  · rw [List.takeWhile_append_of_pos hw]
    cases r with
    | nil => simp
    | cons c r => rw [List.takeWhile_cons, if_neg (by simp [hr c (by simp)]), List.append_nil]
  · rw [dropWhile_white hw]
    cases r with
    | nil => rfl
    | cons c r => rw [List.dropWhile_cons, if_neg (by simp [hr c (by simp)])]

theorem digits_head_space (ds : List (Fin 10)) (hds : ds ≠ []) (r : List Char) : ∀ c ∈ (ds.map digit ++ r).head?, isSpaceC c = false := by
  cases ds with
  | nil => exact absurd rfl hds
  | cons d ds => intro c hc; simp at hc; subst hc; exact digit_not_space d

theorem white_head_digit {w : List Char} (hw : White w) (hne : w ≠ []) (r : List Char) : ∀ c ∈ (w ++ r).head?, isDigC c = false := by
  cases w with
  | nil => exact absurd rfl hne
  | cons d w => intro c hc; simp at hc; subst hc; exact (space_stop (hw d (by simp))).1

theorem map_digit_ne {ds : List (Fin 10)} (h : ds ≠ []) : (ds.map digit).isEmpty = false := isEmpty_false (by simpa using h)

/-- One entry is matched as a whole. -/
theorem awrPair_text (p : AwrEntry) (hp : p.Wf) (r : List Char) (hr : ∀ c ∈ r.head?, isDigC c = false) :
    awrPair (p.text ++ r) = some (p.text, r) := by
  have hz : p.zaid ≠ [] := by intro h; have := hp.zaid.1; rw [h] at this; simp at this
  have e : p.text ++ r = p.before ++ (p.zaid.map digit ++ (p.mid ++ (p.ip.map digit ++ '.' :: (p.fp.map digit ++ r)))) := by
    simp [AwrEntry.text]
  obtain ⟨a1, a2⟩ := white_split (r := p.zaid.map digit ++ (p.mid ++ (p.ip.map digit ++ '.' :: (p.fp.map digit ++ r)))) hp.before.1
    (digits_head_space _ hz _)
  obtain ⟨b1, b2⟩ := takeWhile_digits p.zaid (p.mid ++ (p.ip.map digit ++ '.' :: (p.fp.map digit ++ r)))
    (white_head_digit hp.mid.1 hp.mid.2 _)
  obtain ⟨c1, c2⟩ := white_split (r := p.ip.map digit ++ '.' :: (p.fp.map digit ++ r)) hp.mid.1 (digits_head_space _ hp.ip _)
  obtain ⟨d1, d2⟩ := takeWhile_digits p.ip ('.' :: (p.fp.map digit ++ r)) (by intro c hc; simp at hc; subst hc; decide)
  obtain ⟨e1, e2⟩ := takeWhile_digits p.fp r hr
  unfold awrPair
  simp only [e, a1, a2, b1, b2, c1, c2, d1, d2, e1, e2, isEmpty_false hp.before.2, isEmpty_false hp.mid.2, map_digit_ne hp.ip, map_digit_ne hp.fp,
    List.length_map]
  rw [if_neg (by have := hp.zaid; simp; omega)]
  simp [AwrEntry.text]

theorem entry_head (p : AwrEntry) (hp : p.Wf) (r : List Char) : ∀ c ∈ (p.text ++ r).head?, isDigC c = false := by
  have := white_head_digit hp.before.1 hp.before.2 (p.zaid.map digit ++ (p.mid ++ (p.ip.map digit ++ '.' :: p.fp.map digit)) ++ r)
  rw [← List.append_assoc] at this
  exact this

theorem block_head (l : List AwrEntry) (hl : ∀ p ∈ l, p.Wf) (r : List Char) (hr : ∀ c ∈ r.head?, isDigC c = false) :
    ∀ c ∈ (awrBlock l ++ r).head?, isDigC c = false := by
  cases l with
  | nil => simpa [awrBlock] using hr
  | cons p l =>
    have e : awrBlock (p :: l) ++ r = p.text ++ (awrBlock l ++ r) := by simp [awrBlock, List.flatMap_cons]
    rw [e]
    exact entry_head p (hl p (by simp)) _

theorem awrRun_block (l : List AwrEntry) (hl : ∀ p ∈ l, p.Wf) (r : List Char) (hr : ∀ c ∈ r.head?, isDigC c = false) (n : Nat) :
    awrRun (l.length + n) (awrBlock l ++ r) = awrBlock l ++ awrRun n r := by
  induction l with
  | nil => simp [awrBlock]
  | cons p l ih =>
    have e : awrBlock (p :: l) ++ r = p.text ++ (awrBlock l ++ r) := by simp [awrBlock, List.flatMap_cons]
    rw [e, List.length_cons, show l.length + 1 + n = (l.length + n) + 1 by omega]
    simp only [awrRun]
    rw [awrPair_text p (hl p (by simp)) _ (block_head l (fun q hq => hl q (by simp [hq])) r hr)]
    dsimp only
    rw [ih (fun q hq => hl q (by simp [hq]))]
    simp [awrBlock, List.flatMap_cons]

theorem block_length (l : List AwrEntry) (hl : ∀ p ∈ l, p.Wf) : l.length ≤ (awrBlock l).length := by
  induction l with
  | nil => simp
  | cons p l ih =>
    have e : awrBlock (p :: l) = p.text ++ awrBlock l := by simp [awrBlock, List.flatMap_cons]
    have := ih (fun q hq => hl q (by simp [hq]))
    have h1 : 1 ≤ p.before.length := by
      have := (hl p (by simp)).before.2
      cases h : p.before with | nil => exact absurd h this | cons => simp
    rw [e, List.length_append, List.length_cons]
    unfold AwrEntry.text
    rw [List.length_append]
    omega

theorem awrLoop_block {K : Type} [Field K] [CharZero K] (l : List AwrEntry) (hl : ∀ p ∈ l, p.Wf) (hne : l ≠ []) (n : Nat) (hn : l.length < n) :
    awrLoop (K := K) n ⟨awrBlock l, false, false⟩ = .ok (l.map (fun p => (zaidOfNum (natOf p.zaid), p.ratio))) := by
  induction l generalizing n with
  | nil => exact absurd rfl hne
  | cons p l ih =>
    have hp := hl p (by simp)
    have hq : ∀ q ∈ l, q.Wf := fun q hq => hl q (by simp [hq])
    obtain ⟨n, rfl⟩ : ∃ k, n = k + 1 := ⟨n - 1, by omega⟩
    have hz : p.zaid ≠ [] := by intro h; have := hp.zaid.1; rw [h] at this; simp at this
    have e : awrBlock (p :: l) = p.before ++ ((⟨.none, p.zaid⟩ : IntNum).text ++ (p.mid ++ ((⟨.none, p.ip, some p.fp, none⟩ : Num).text ++
        awrBlock l))) := by
      simp [awrBlock, List.flatMap_cons, AwrEntry.text, IntNum.text, Num.text, Sign.text, fpText, expText]
    have hb : natOf p.zaid < 10 ^ 6 := by
      have h1 := Nat.ofDigits_lt_base_pow_length (b := 10) (l := p.zaid.reverse.map Fin.val) (by norm_num) (by
        intro x hx
        obtain ⟨d, _, rfl⟩ := List.mem_map.mp hx
        exact d.2)
      rw [List.length_map, List.length_reverse] at h1
      exact lt_of_lt_of_le h1 (Nat.pow_le_pow_right (by norm_num) hp.zaid.2)
    have g1 := get_field scanInt p.before (⟨.none, p.zaid⟩ : IntNum).text (p.mid ++ ((⟨.none, p.ip, some p.fp, none⟩ : Num).text ++ awrBlock l))
      (natOf p.zaid : Int) hp.before.1 ⟨digit (p.zaid.head hz), p.zaid.tail.map digit, by
        simp only [IntNum.text, Sign.text, List.nil_append]
        conv_lhs => rw [← List.cons_head_tail hz]
        rfl, digit_not_space _⟩
      (by
        have := Spec.IntNum.scan ⟨.none, p.zaid⟩ ⟨hz, by simp [IntNum.value]; omega⟩
          (p.mid ++ ((⟨.none, p.ip, some p.fp, none⟩ : Num).text ++ awrBlock l)) (white_head_digit hp.mid.1 hp.mid.2 _)
        rw [this]
        simp [IntNum.value])
    have hst : Stop (awrBlock l) := by
      cases l with
      | nil => intro c hc; simp [awrBlock] at hc
      | cons q l =>
        have hqw := (hq q (by simp)).before
        intro c hc
        have e : awrBlock (q :: l) = q.before ++ (q.zaid.map digit ++ (q.mid ++ (q.ip.map digit ++ '.' :: q.fp.map digit)) ++ awrBlock l) := by
          simp [awrBlock, List.flatMap_cons, AwrEntry.text]
        rw [e] at hc
        cases hb : q.before with
        | nil => exact absurd hb hqw.2
        | cons d w => rw [hb] at hc; simp at hc; subst hc; exact space_stop (hqw.1 d (by rw [hb]; simp))
    have g2 := get_field (scanDouble (K := K)) p.mid (⟨.none, p.ip, some p.fp, none⟩ : Num).text (awrBlock l)
      (p.ratio (K := K)) hp.mid.1 ⟨digit (p.ip.head hp.ip), p.ip.tail.map digit ++ '.' :: p.fp.map digit, by
        simp only [Num.text, Sign.text, List.nil_append, fpText, expText, List.append_nil]
        conv_lhs => rw [← List.cons_head_tail hp.ip]
        rfl, digit_not_space _⟩
      (by
        have := Spec.Num.scan (K := K) ⟨.none, p.ip, some p.fp, none⟩ ⟨by simp [hp.ip], by simp⟩ (awrBlock l) hst
        exact this)
    have hm : (p.mid ++ ((⟨.none, p.ip, some p.fp, none⟩ : Num).text ++ awrBlock l)) ≠ [] := by simp [hp.mid.2]
    rw [e]
    simp only [awrLoop]
    rw [if_neg (by simp), g1]
    dsimp only
    rw [isEmpty_false hm, g2]
    dsimp only
    cases l with
    | nil =>
      obtain ⟨n, rfl⟩ : ∃ k, n = k + 1 := ⟨n - 1, by simp at hn; omega⟩
      simp [awrBlock, awrLoop, bind, Except.bind, pure, Except.pure]
    | cons q l =>
      have hne' : awrBlock (q :: l) ≠ [] := by
        have := block_length (q :: l) hq
        intro h
        rw [h] at this
        simp at this
      rw [isEmpty_false hne', ih hq (by simp) n (by simp at hn ⊢; omega)]
      simp [bind, Except.bind, pure, Except.pure]

theorem lower_not_space {c : Char} (h : isSpaceC c = true) : c.toLower = c := by
  simp only [isSpaceC, Bool.or_eq_true, beq_iff_eq] at h
  rcases h with ((((h | h) | h) | h) | h) | h <;> subst h <;> decide

theorem ci_head {w a : List Char} (h : a.map Char.toLower = w) (hw : w ≠ []) (hs : ∀ c ∈ w.head?, isSpaceC c = false) (r : List Char) :
    ∀ c ∈ (a ++ r).head?, isSpaceC c = false := by
  cases a with
  | nil => exact absurd h.symm hw
  | cons x a =>
    intro c hc
    simp at hc
    subst hc
    by_contra hx
    have hx : isSpaceC x = true := by simpa using hx
    have := hs x (by rw [← h]; simp [lower_not_space hx])
    rw [hx] at this
    cases this

theorem ends_awr {rest : List Char} (h : EndsAwr rest) : (∀ c ∈ rest.head?, isDigC c = false) ∧ awrPair rest = none := by
  constructor
  · intro c hc
    cases rest with
    | nil => simp at hc
    | cons d r =>
      simp at hc
      subst hc
      by_cases hs : isSpaceC d = true
      · exact (space_stop hs).1
      · exact h d (by rw [List.dropWhile_cons, if_neg hs]; rfl)
  · unfold awrPair
    dsimp only
    rw [if_pos]
    right; left
    cases hd : rest.dropWhile isSpaceC with
    | nil => simp
    | cons d r =>
      have := h d (by rw [hd]; rfl)
      rw [List.takeWhile_cons, if_neg (by simp [this])]
      simp

theorem awrRun_none {r : List Char} (h : awrPair r = none) (n : Nat) : awrRun n r = [] := by
  cases n with
  | zero => rfl
  | succ n => simp only [awrRun, h]

theorem awrMatch_block (a w1 b w2 c : List Char) (l : List AwrEntry) (rest : List Char) (ha : a.map Char.toLower = "atomic".toList)
    (hb : b.map Char.toLower = "weight".toList) (hc : c.map Char.toLower = "ratios".toList) (h1 : White w1 ∧ w1 ≠ []) (h2 : White w2 ∧ w2 ≠ [])
    (hl : ∀ p ∈ l, p.Wf) (hne : l ≠ []) (hr : ∀ c ∈ rest.head?, isDigC c = false) (hp : awrPair rest = none) :
    awrMatch (a ++ (w1 ++ (b ++ (w2 ++ (c ++ (awrBlock l ++ rest)))))) = some (awrBlock l) := by
  unfold awrMatch
  rw [matchCI_append ha]
  simp only [Option.bind_eq_bind, Option.bind_some]
  rw [space1_append h1.1 h1.2 (ci_head hb (by decide) (by decide) _)]
  simp only [Option.bind_some]
  rw [matchCI_append hb]
  simp only [Option.bind_some]
  rw [space1_append h2.1 h2.2 (ci_head hc (by decide) (by decide) _)]
  simp only [Option.bind_some]
  rw [matchCI_append hc]
  simp only [Option.bind_some]
  have hlen := block_length l hl
  obtain ⟨n, hn⟩ : ∃ n, (awrBlock l ++ rest).length = l.length + n := ⟨(awrBlock l ++ rest).length - l.length, by
    rw [List.length_append]; omega⟩
  rw [hn, awrRun_block l hl rest hr n, awrRun_none hp, List.append_nil]
  rw [if_neg]
  have : awrBlock l ≠ [] := by
    intro h
    rw [h] at hlen
    cases l with | nil => exact hne rfl | cons => simp at hlen
  simp [isEmpty_false this]

theorem find_awr {file : List Char} {l : List AwrEntry} {rest : List Char} (h : AwrText file l rest) (hr : ∀ c ∈ rest.head?, isDigC c = false)
    (hp : awrPair rest = none) : regexFind awrMatch file = some (awrBlock l) := by
  obtain ⟨n, a, w1, b, w2, c, hF, he, ha, hb, hc, h1, h2⟩ := h.exists_
  refine regexFind_at awrMatch _ file n (FirstAt.le hF (by decide)) ?_ ?_
  · rw [he]
    exact awrMatch_block a w1 b w2 c l rest ha hb hc h1 h2 h.entries h.some hr hp
  · intro k hk
    unfold awrMatch
    rw [matchCI_none (hF.2 k hk)]
    rfl

theorem find_dir {file : List Char} {k : Nat} (h : FirstAt "directory".toList file k) : regexFind dirText file = some (file.drop k) := by
  refine regexFind_at dirText _ file k (FirstAt.le h (by decide)) ?_ ?_
  · unfold dirText
    rw [matchCI_some h.1]
    rfl
  · intro m hm
    unfold dirText
    rw [matchCI_none (h.2 m hm)]
    rfl

theorem erase_none (m : List Char → Option (List Char × List Char)) : ∀ (s : List Char) (f : Nat), (∀ k, m (s.drop k) = none) → regexErase m f s = s := by
  intro s
  induction s with
  | nil => intro f h; cases f <;> rfl
  | cons c s ih =>
    intro f h
    cases f with
    | zero => rfl
    | succ f =>
      have h0 := h 0
      simp only [List.drop_zero] at h0
      simp only [regexErase, h0]
      rw [ih f (fun k => h (k + 1))]

theorem pathHead_none {s : List Char} (h : ¬ StartsCI "datapath".toList s) : pathHead s = none := by
  unfold pathHead
  rw [matchCI_none h]
  rfl

theorem erasePath_plain {p : List Char} (h : ∀ k, ¬ StartsCI "datapath".toList (p.drop k)) : erasePath p = p := by
  unfold erasePath
  apply erase_none
  intro k
  rw [pathHead_none (h k)]
  rfl

theorem pathC_not_space {c : Char} (h : isPathC c = true) (hb : c ≠ ' ') : isSpaceC c = false := by
  by_contra hs
  have hs : isSpaceC c = true := by simpa using hs
  simp only [isSpaceC, Bool.or_eq_true, beq_iff_eq] at hs
  rcases hs with ((((hs | hs) | hs) | hs) | hs) | hs
  · exact hb hs
  all_goals subst hs; revert h; decide

theorem path_head_some {d w1 eq w2 q : List Char} (hd : d.map Char.toLower = "datapath".toList) (h1 : White w1) (h2 : White w2)
    (heq : eq = [] ∧ w2 = [] ∨ eq = ['=']) (hq : ∀ c ∈ q.head?, isSpaceC c = false ∧ c ≠ '=') :
    ∃ bl, pathHead (d ++ (w1 ++ (eq ++ (w2 ++ q)))) = some (q, bl) := by
  unfold pathHead
  rw [matchCI_append hd]
  simp only [Option.bind_eq_bind, Option.bind_some]
  rcases heq with ⟨rfl, rfl⟩ | rfl
  · simp only [List.nil_append]
    have a2 := (white_split (r := q) h1 (fun c hc => (hq c hc).1)).2
    rw [a2]
    split
    · rename_i r2
      exact absurd rfl (hq '=' (by simp)).2
    · exact ⟨_, rfl⟩
  · have a2 := (white_split (r := ['='] ++ (w2 ++ q)) h1 (by intro c hc; simp at hc; subst hc; decide)).2
    have b2 := (white_split (r := q) h2 (fun c hc => (hq c hc).1)).2
    rw [a2]
    simp only [List.cons_append, List.nil_append]
    rw [b2]
    exact ⟨_, rfl⟩

theorem pathMatch_given {d w1 eq w2 p rest : List Char} (hd : d.map Char.toLower = "datapath".toList) (h1 : White w1) (h2 : White w2)
    (heq : eq = [] ∧ w2 = [] ∨ eq = ['=']) (hp : p ≠ []) (hpc : ∀ c ∈ p, isPathC c = true) (hph : ∀ c ∈ p.head?, c ≠ ' ')
    (hr : ∀ c ∈ rest.head?, isPathC c = false) : pathMatch (d ++ (w1 ++ (eq ++ (w2 ++ (p ++ rest))))) = some p := by
  have hq : ∀ c ∈ (p ++ rest).head?, isSpaceC c = false ∧ c ≠ '=' := by
    cases p with
    | nil => exact absurd rfl hp
    | cons x p =>
      intro c hc
      simp at hc
      subst hc
      refine ⟨pathC_not_space (hpc x (by simp)) (hph x (by simp)), ?_⟩
      intro hx
      have := hpc x (by simp)
      rw [hx] at this
      revert this; decide
  obtain ⟨bl, hbl⟩ := path_head_some hd h1 h2 heq hq
  have ht : (p ++ rest).takeWhile isPathC = p := by
    rw [List.takeWhile_append_of_pos hpc]
    cases rest with
    | nil => simp
    | cons c r => rw [List.takeWhile_cons, if_neg (by simp [hr c (by simp)]), List.append_nil]
  unfold pathMatch
  rw [hbl]
  simp only [Option.bind_eq_bind, Option.bind_some, ht]
  rw [if_neg (by simp [hp])]
  rfl

theorem dataPath_is {parent file p : List Char} (h : PathIs parent file p) : dataPath parent file = p := by
  have hno : ∀ s, ¬ StartsCI "datapath".toList s → pathMatch s = none := by
    intro s hs
    unfold pathMatch
    rw [pathHead_none hs]
    rfl
  cases h with
  | absent h =>
    unfold dataPath
    rw [regexFind_none pathMatch file (fun k => hno _ (h k))]
  | given m d w1 eq w2 _ rest hF he hd h1 h2 heq hp hpc hph hr hn =>
    unfold dataPath
    rw [regexFind_at pathMatch p file m (FirstAt.le hF (by decide)) (by rw [he]; exact pathMatch_given hd h1 h2 heq hp hpc hph hr)
      (fun k hk => hno _ (hF.2 k hk))]
    exact erasePath_plain hn

variable {K : Type} [Field K]

/-- **C124** The full statement would be: whatever its data path, an MCNP directory file is read into the atomic weight ratios listed under their heading, and the tables listed
after the word "directory", with their files below the data path.  Here for files in which the three words first occur where they should, whose ratios are written without
exponent and with a point, and whose path does not contain the word "datapath".  Missing: the others (violations below). -/
theorem C124_read_partial [CharZero K] (cv : Conv K) (kT : K) (parent file : List Char) (l : List AwrEntry) (rest path : List Char) (k : Nat)
    (hA : AwrText file l rest) (hE : EndsAwr rest) (hP : PathIs parent file path) (hD : FirstAt "directory".toList file k) :
    readXsdir cv kT parent file = (parseMcnp cv kT (file.drop k)).map (fun regs =>
      ⟨l.map (fun p => (zaidOfNum (natOf p.zaid), p.ratio)), regs.map (Reg.below path)⟩) := by
  obtain ⟨e1, e2⟩ := ends_awr hE
  unfold readXsdir
  rw [find_awr hA e1 e2]
  dsimp only
  rw [awrLoop_block l hA.entries hA.some _ (by have := block_length l hA.entries; omega), find_dir hD, dataPath_is hP]
  simp only [bind, Except.bind]
  cases parseMcnp cv kT (file.drop k) <;> rfl

/-- **C124** Each ratio can be had under every symbol that stands for its ZAID: the last one listed counts, and a nuclide that is not listed is refused. -/
theorem C124_ratio {K : Type} [Field K] (l : List AwrEntry) (symbol : List Char) (z : ZAID) (hz : symbolToZaid symbol = .ok z) :
    (∀ pre p post, l = pre ++ p :: post → zaidOfNum (natOf p.zaid) = z → (∀ q ∈ post, zaidOfNum (natOf q.zaid) ≠ z) →
      atomicWeightRatio (K := K) (l.map (fun p => (zaidOfNum (natOf p.zaid), p.ratio))) symbol = .ok p.ratio) ∧
    ((∀ q ∈ l, zaidOfNum (natOf q.zaid) ≠ z) →
      atomicWeightRatio (K := K) (l.map (fun p => (zaidOfNum (natOf p.zaid), p.ratio))) symbol = .error .exc) := by
  have hnil : ∀ l : List AwrEntry, (∀ q ∈ l, zaidOfNum (natOf q.zaid) ≠ z) →
      (l.map (fun p => (zaidOfNum (natOf p.zaid), p.ratio (K := K)))).filter (fun p => decide (p.1 = z)) = [] := by
    intro l h
    rw [List.filter_eq_nil_iff]
    intro x hx
    obtain ⟨q, hq, rfl⟩ := List.mem_map.mp hx
    simpa using h q hq
  constructor
  · intro pre p post hl hp hq
    unfold atomicWeightRatio
    rw [hz, hl]
    simp only [bind, Except.bind, List.map_append, List.map_cons, List.filter_append, List.filter_cons, hp, decide_true, if_true, hnil post hq]
    simp [pure, Except.pure]
  · intro h
    unfold atomicWeightRatio
    rw [hz]
    simp only [bind, Except.bind, hnil l h]
    rfl

omit [Field K] in
/-- **C124** Where a table is looked for: at the name the directory gives if it begins with a slash, else below the data path. -/
theorem C124_below (path : List Char) (hp : path ≠ []) (hs : path.getLast? ≠ some '/') (e : TableEntry K) (z : ZAID) (a : K) (n : List Char) :
    ∃ f, (Reg.below path (.neutron z e a) = .neutron z ⟨f, e.binary, e.temp⟩ a ∧ Reg.below path (.tsl n e) = .tsl n ⟨f, e.binary, e.temp⟩) ∧
      (e.file.head? = some '/' → f = e.file) ∧ (e.file.head? ≠ some '/' → f = path ++ '/' :: e.file) := by
  refine ⟨joinPath path e.file, ⟨rfl, rfl⟩, fun h => if_pos h, fun h => ?_⟩
  unfold joinPath
  rw [if_neg h, if_neg hp, if_neg hs]

/-- **C124** Without the heading and at least one ratio, or without the word "directory", the file is refused. -/
theorem C124_refused (cv : Conv K) (kT : K) (parent file : List Char) :
    ((∀ m, ¬ StartsCI "atomic".toList (file.drop m)) → readXsdir cv kT parent file = .error .exc) ∧
    (∀ [CharZero K] (l : List AwrEntry) (rest : List Char), AwrText file l rest → EndsAwr rest →
      (∀ m, ¬ StartsCI "directory".toList (file.drop m)) → readXsdir cv kT parent file = .error .exc) := by
  constructor
  · intro h
    unfold readXsdir
    rw [regexFind_none awrMatch file]
    intro k
    unfold awrMatch
    rw [matchCI_none (h k)]
    rfl
  · intro _ l rest hA hE h
    obtain ⟨e1, e2⟩ := ends_awr hE
    unfold readXsdir
    rw [find_awr hA e1 e2]
    dsimp only
    rw [awrLoop_block l hA.entries hA.some _ (by have := block_length l hA.entries; omega), regexFind_none dirText file]
    · rfl
    · intro k
      unfold dirText
      rw [matchCI_none (h k)]
      rfl

/-- Violation: a ratio written with an exponent is read without it, and all ratios after it are lost, without a word (`l` ends with the entry before
its `E`). -/
theorem C124_violation_exponent [CharZero K] (cv : Conv K) (kT : K) (parent file : List Char) (l : List AwrEntry) (rest : List Char)
    (hA : AwrText file l ('E' :: rest)) (x : Xsdir K) (h : readXsdir cv kT parent file = .ok x) :
    x.awrs = l.map (fun p => (zaidOfNum (natOf p.zaid), p.ratio)) := by
  obtain ⟨e1, e2⟩ := ends_awr (rest := 'E' :: rest) (by intro c hc; simp [isSpaceC] at hc; subst hc; decide)
  unfold readXsdir at h
  rw [find_awr hA e1 e2] at h
  dsimp only at h
  rw [awrLoop_block l hA.entries hA.some _ (by have := block_length l hA.entries; omega)] at h
  simp only [bind, Except.bind] at h
  split at h
  · cases h
  · split at h
    · cases h
    · cases h; rfl

/-- Violation: at a ratio written without a point, or with no digit after it (or for a ZAID that has not four to six digits) the list of ratios ends, without a word: whatever follows is lost. -/
theorem C124_violation_integer [CharZero K] (cv : Conv K) (kT : K) (parent file : List Char) (l : List AwrEntry) (w1 w2 rest : List Char)
    (z r : List (Fin 10)) (h1 : White w1) (h1e : w1 ≠ []) (h2 : White w2) (h2e : w2 ≠ []) (hz : z ≠ []) (hr : r ≠ [])
    (hrest : ∀ c ∈ rest.head?, isDigC c = false) (hbad : (∀ c ∈ rest.head?, c ≠ '.') ∨ (∃ r4, rest = '.' :: r4 ∧ ∀ c ∈ r4.head?, isDigC c = false) ∨ z.length < 4 ∨ 6 < z.length)
    (hA : AwrText file l (w1 ++ (z.map digit ++ (w2 ++ (r.map digit ++ rest))))) (x : Xsdir K) (h : readXsdir cv kT parent file = .ok x) :
    x.awrs = l.map (fun p => (zaidOfNum (natOf p.zaid), p.ratio)) := by
  obtain ⟨a1, a2⟩ := white_split (r := z.map digit ++ (w2 ++ (r.map digit ++ rest))) h1 (digits_head_space _ hz _)
  obtain ⟨b1, b2⟩ := takeWhile_digits z (w2 ++ (r.map digit ++ rest)) (white_head_digit h2 h2e _)
  obtain ⟨c1, c2⟩ := white_split (r := r.map digit ++ rest) h2 (digits_head_space _ hr _)
  obtain ⟨d1, d2⟩ := takeWhile_digits r rest hrest
  have hp : awrPair (w1 ++ (z.map digit ++ (w2 ++ (r.map digit ++ rest)))) = none := by
    unfold awrPair
    simp only [a1, a2, b1, b2, c1, c2, d1, d2, List.length_map]
    split
    · rfl
    · rename_i hc
      rcases hbad with hbad | ⟨r5, rfl, h5⟩ | hbad
      · split
        · rename_i r4 heq
          exact absurd rfl (hbad '.' (by simp))
        · rfl
      · have : r5.takeWhile isDigC = [] := by
          cases r5 with
          | nil => rfl
          | cons c t => rw [List.takeWhile_cons, h5 c (by simp)]; rfl
        simp only [this, List.isEmpty_nil, if_true]
      · exact absurd (by rcases hbad with h | h <;> simp [h]) hc
  unfold readXsdir at h
  rw [find_awr hA (white_head_digit h1 h1e _) hp] at h
  dsimp only at h
  rw [awrLoop_block l hA.entries hA.some _ (by have := block_length l hA.entries; omega)] at h
  simp only [bind, Except.bind] at h
  split at h
  · cases h
  · split at h
    · cases h
    · cases h; rfl

/-- Violation: the word "directory" is looked for in the whole file: if it occurs before its place, in the data path or in a comment, the lines after that are taken for the
directory, and the first of them with fewer than seven words ends the construction. -/
theorem C124_violation_directory [LinearOrder K] [CharZero K] (cv : Conv K) (kT : K) (parent file : List Char) (l : List AwrEntry) (rest : List Char) (k : Nat)
    (hA : AwrText file l rest) (hE : EndsAwr rest) (hD : FirstAt "directory".toList file k) (first : List Char) (ln : XsLine) (ls : List XsLine)
    (hk : file.drop k = xsText first (ln :: ls)) (h1 : '\n' ∉ first) (hls : ∀ x ∈ ln :: ls, x.Wf) (hp : '+' ∉ xsText first (ln :: ls))
    (h0 : ln.words ≠ []) (h7 : ln.words.length < 7) : readXsdir cv kT parent file = .error .exc := by
  obtain ⟨e1, e2⟩ := ends_awr hE
  have hx : xsReg cv kT ln.words = .error .exc := by
    cases hw : ln.words with
    | nil => exact absurd hw h0
    | cons z ws =>
      rw [hw] at h7
      unfold xsReg
      dsimp only
      rw [if_pos (Or.inl h7)]
  unfold readXsdir
  rw [find_awr hA e1 e2]
  dsimp only
  rw [awrLoop_block l hA.entries hA.some _ (by have := block_length l hA.entries; omega), find_dir hD, hk]
  simp only [bind, Except.bind]
  rw [C91_rows cv kT first _ h1 hls hp, List.mapM_cons, hx]
  rfl

/-- Violation: the word "datapath" is taken out of the path itself: with the path `a` "datapath" `b` the tables are looked for below `a` `b`. -/
theorem C124_violation_datapath (parent file : List Char) (m : Nat) (d w1 eq w2 a x b rest : List Char) (hF : FirstAt "datapath".toList file m)
    (he : file.drop m = d ++ (w1 ++ (eq ++ (w2 ++ (a ++ (x ++ b) ++ rest))))) (hd : d.map Char.toLower = "datapath".toList) (h1 : White w1) (h2 : White w2)
    (heq : eq = [] ∧ w2 = [] ∨ eq = ['=']) (hx : x.map Char.toLower = "datapath".toList) (hpc : ∀ c ∈ a ++ (x ++ b), isPathC c = true)
    (hph : ∀ c ∈ a.head?, c ≠ ' ') (hr : ∀ c ∈ rest.head?, isPathC c = false) (ha : ∀ k < a.length, ¬ StartsCI "datapath".toList ((a ++ (x ++ b)).drop k))
    (hb : ∀ k, ¬ StartsCI "datapath".toList (b.drop k)) (hbh : ∀ c ∈ b.head?, c ≠ ' ') (hbn : b ≠ []) : dataPath parent file = a ++ b := by
  have hxne : x ≠ [] := by intro h; rw [h] at hx; revert hx; decide
  have hno : ∀ s, ¬ StartsCI "datapath".toList s → pathMatch s = none := by
    intro s hs
    unfold pathMatch
    rw [pathHead_none hs]
    rfl
  have hh : ∀ c ∈ (a ++ (x ++ b)).head?, c ≠ ' ' := by
    cases a with
    | nil =>
      intro c hc e
      have := ci_head hx (by decide) (by decide) b c hc
      rw [e] at this
      revert this; decide
    | cons y a => intro c hc; exact hph c (by simpa using hc)
  unfold dataPath
  rw [regexFind_at pathMatch (a ++ (x ++ b)) file m (FirstAt.le hF (by decide)) (by
    rw [he]; exact pathMatch_given hd h1 h2 heq (by simp [hxne]) hpc hh hr) (fun k hk => hno _ (hF.2 k hk))]
  dsimp only
  have hbq : ∀ c ∈ b.head?, isSpaceC c = false ∧ c ≠ '=' := by
    intro c hc
    have hcm : isPathC c = true := hpc c (by simp [List.mem_of_mem_head? hc])
    refine ⟨pathC_not_space hcm (hbh c hc), ?_⟩
    intro h
    rw [h] at hcm
    revert hcm; decide
  obtain ⟨bl, hbl⟩ := path_head_some (d := x) (w1 := []) (eq := []) (w2 := []) (q := b) hx (fun c hc => by simp at hc) (fun c hc => by simp at hc)
    (Or.inl ⟨rfl, rfl⟩) hbq
  simp only [List.nil_append] at hbl
  unfold erasePath
  obtain ⟨mm, hmm⟩ : ∃ f, f = (fun s => (pathHead s).map fun r => (([] : List Char), r.1)) := ⟨_, rfl⟩
  rw [← hmm]
  have hskip : ∀ (a : List Char) (f : Nat), (∀ k < a.length, mm ((a ++ (x ++ b)).drop k) = none) →
      regexErase mm (a.length + f) (a ++ (x ++ b)) = a ++ regexErase mm f (x ++ b) := by
    intro a
    induction a with
    | nil => intro f _; simp
    | cons y a ih =>
      intro f h
      have h0 := h 0 (by simp)
      simp only [List.cons_append, List.drop_zero] at h0
      rw [List.length_cons, show a.length + 1 + f = (a.length + f) + 1 by omega, List.cons_append]
      simp only [regexErase, h0]
      rw [ih f (fun k hk => h (k + 1) (by simpa using hk))]
      rfl
  rw [List.length_append, hskip a _ (fun k hk => by rw [hmm]; simp only [pathHead_none (ha k hk)]; rfl)]
  congr 1
  have hxb : mm (x ++ b) = some ([], b) := by rw [hmm]; simp only [hbl]; rfl
  have hlen : (x ++ b).length = ((x ++ b).length - 1) + 1 := by
    have : 0 < (x ++ b).length := by rw [List.length_append]; have := List.length_pos_iff.mpr hxne; omega
    omega
  rw [hlen]
  cases hc : x ++ b with
  | nil => simp [hxne] at hc
  | cons y t =>
    simp only [regexErase]
    rw [← hc, hxb]
    dsimp only
    exact erase_none mm b _ (fun k => by rw [hmm]; simp only [pathHead_none (hb k)]; rfl)

/-! ### A concrete file -/

def exRatio : AwrEntry := ⟨['\n', ' '], [1, 0, 0, 1], [' '], [0], [9, 9, 9]⟩

theorem exRatio_ok : exRatio.Wf :=
  ⟨⟨by unfold White; decide, by decide⟩, by decide, ⟨by unfold White; decide, by decide⟩, by decide, by decide⟩

/-- The text up to the ratios, between them and the directory, and a line of the directory. -/
def exFile (path : String) : List Char :=
  "datapath=".toList ++ path.toList ++ "\nAtomic Weight Ratios".toList ++ awrBlock [exRatio, exRatio] ++ "\n".toList ++
    xsText "directory".toList [exCols "293"]

theorem exFile_awr (path : String) (n : Nat) (hF : FirstAt "atomic".toList (exFile path) n) (hn : n = 10 + path.toList.length) :
    AwrText (exFile path) [exRatio, exRatio] ('\n' :: xsText "directory".toList [exCols "293"]) where
  exists_ := by
    refine ⟨n, "Atomic".toList, [' '], "Weight".toList, [' '], "Ratios".toList, hF, ?_, by decide, by decide, by decide, ⟨by unfold White; decide, by decide⟩,
      ⟨by unfold White; decide, by decide⟩⟩
    subst hn
    unfold exFile
    have : ("datapath=".toList ++ path.toList ++ "\nAtomic Weight Ratios".toList ++ awrBlock [exRatio, exRatio] ++ "\n".toList ++
        xsText "directory".toList [exCols "293"]) = ("datapath=".toList ++ path.toList ++ ['\n']) ++ ("Atomic Weight Ratios".toList ++ (awrBlock [exRatio, exRatio] ++
        ('\n' :: xsText "directory".toList [exCols "293"]))) := by simp
    rw [this, List.drop_left' (by simp; omega)]
    rfl
  entries := by intro p hp; simp at hp; subst hp; exact exRatio_ok
  some := by simp

theorem exFile_ends : EndsAwr ('\n' :: xsText "directory".toList [exCols "293"]) := by
  unfold EndsAwr
  decide +kernel

/-- The conditions of `C124_read_partial` hold for a file with the path `/data/endf`: it is read, and its table is looked for below that path. -/
example : ∃ regs, readXsdir exConv 1 [] (exFile "/data/endf") = .ok ⟨[(zaidOfNum 1001, 999 / 1000), (zaidOfNum 1001, 999 / 1000)], regs⟩ ∧
    regs = [.neutron (zaidOfNum 92235) ⟨"/data/endf/u235.ace".toList, false, 293⟩ 0] := by
  have hF : FirstAt "atomic".toList (exFile "/data/endf") 20 := by unfold FirstAt; decide +kernel
  have hD : FirstAt "directory".toList (exFile "/data/endf") 65 := by unfold FirstAt; decide +kernel
  have hr : (exRatio.ratio : ℚ) = 999 / 1000 := by simp [AwrEntry.ratio, exRatio, Num.value, natOf, Num.frac, Nat.ofDigits]; norm_num
  have hP : PathIs [] (exFile "/data/endf") "/data/endf".toList := by
    refine .given 0 "datapath".toList [] ['='] [] "/data/endf".toList ((exFile "/data/endf").drop 19) (by unfold FirstAt; decide +kernel) (by decide +kernel)
      (by decide) (by unfold White; decide) (by unfold White; decide) (Or.inr rfl) (by decide) (by decide) (by decide) (by decide +kernel) ?_
    intro k
    by_cases hk : k < 10
    · revert k; decide +kernel
    · rw [List.drop_eq_nil_of_le (by simp; omega)]; decide
  have hrow := C91_rows exConv (1 : ℚ) "directory".toList [exCols "293"] (by decide) (by
    intro l hl; simp at hl; subst hl; exact exCols_ok.1) (by decide +kernel)
  refine ⟨_, ?_, rfl⟩
  rw [C124_read_partial exConv 1 [] _ _ _ _ 65 (exFile_awr _ 20 hF (by decide)) exFile_ends hP hD,
    show (exFile "/data/endf").drop 65 = xsText "directory".toList [exCols "293"] by decide +kernel, hrow]
  simp only [List.map_cons, List.map_nil, hr]
  decide +kernel

/-- The lines of the file as entries of a directory. -/
def exHeading : XsLine := ⟨[(0, "Atomic".toList), (1, "Weight".toList), (1, "Ratios".toList)], 0⟩
def exRatioLine : XsLine := ⟨[(1, "1001".toList), (1, "0.999".toList)], 0⟩
def exDirLine : XsLine := ⟨[(0, "directory".toList)], 0⟩

/-- The same file with the path `/home/directory/endf` is refused. -/
theorem C124_violation_directory_example : readXsdir exConv 1 [] (exFile "/home/directory/endf") = .error .exc := by
  have hF : FirstAt "atomic".toList (exFile "/home/directory/endf") 30 := by unfold FirstAt; decide +kernel
  have hD : FirstAt "directory".toList (exFile "/home/directory/endf") 15 := by unfold FirstAt; decide +kernel
  have w1 : exHeading.Wf := ⟨⟨by decide +kernel, by decide +kernel⟩, by decide +kernel⟩
  have w2 : exRatioLine.Wf := ⟨⟨by decide +kernel, by decide +kernel⟩, by decide +kernel⟩
  have w3 : exDirLine.Wf := ⟨⟨by decide +kernel, by decide +kernel⟩, by decide +kernel⟩
  have hw : ∀ x ∈ [exHeading, exRatioLine, exRatioLine, exDirLine, exCols "293"], x.Wf := by
    intro x hx
    simp only [List.mem_cons, List.not_mem_nil, or_false] at hx
    rcases hx with h | h | h | h | h
    · rw [h]; exact w1
    · rw [h]; exact w2
    · rw [h]; exact w2
    · rw [h]; exact w3
    · rw [h]; exact exCols_ok.1
  exact C124_violation_directory exConv 1 [] _ _ _ 15 (exFile_awr _ 30 hF (by decide)) exFile_ends hD "directory/endf".toList exHeading
    [exRatioLine, exRatioLine, exDirLine, exCols "293"] (by decide +kernel) (by decide) hw (by decide +kernel) (by decide) (by decide)

/-- With the path `/data/datapath/endf` the tables are looked for below `/data//endf`. -/
example : dataPath [] (exFile "/data/datapath/endf") = "/data//endf".toList := by decide +kernel

end PNDL
