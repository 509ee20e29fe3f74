import Verif.Spec.AceText
import Mathlib.Tactic.Ring
import Mathlib.Tactic.FieldSimp
import Mathlib.Tactic.LinearCombination
import Mathlib.Data.Nat.Digits.Lemmas

namespace PNDL
open Spec

theorem isDigC_digit (d : Fin 10) : isDigC (digit d) = true := by revert d; decide
theorem digit_toNat (d : Fin 10) : (digit d).toNat - '0'.toNat = d.val := by revert d; decide
theorem digit_not_space (d : Fin 10) : isSpaceC (digit d) = false := by revert d; decide
theorem digit_ne (d : Fin 10) : digit d ≠ '-' ∧ digit d ≠ '+' ∧ digit d ≠ '.' ∧ digit d ≠ 'e' ∧ digit d ≠ 'E' := by
  revert d; decide

theorem takeWhile_digits (ds : List (Fin 10)) (r : List Char) (h : ∀ c ∈ r.head?, isDigC c = false) :
    (ds.map digit ++ r).takeWhile isDigC = ds.map digit ∧ (ds.map digit ++ r).dropWhile isDigC = r := by
  induction ds with
  | nil =>
    cases r with
    | nil => simp
    | cons c r => have := h c (by simp); simp [List.takeWhile, List.dropWhile, this]
  | cons d ds ih => simp [List.takeWhile_cons, List.dropWhile_cons, isDigC_digit, ih.1, ih.2]

theorem digVal_append (a : List Char) (b : List (Fin 10)) :
    digVal (a ++ b.map digit) = digVal a * 10 ^ b.length + natOf b := by
  unfold digVal natOf
  rw [List.foldl_append]
  generalize List.foldl (fun n c => 10 * n + (c.toNat - '0'.toNat)) 0 a = n
  induction b generalizing n with
  | nil => simp
  | cons d b ih =>
    simp only [List.map_cons, List.foldl_cons, digit_toNat, ih, List.reverse_cons, List.map_append, List.map_nil, List.length_cons,
      Nat.ofDigits_append, Nat.ofDigits_cons, Nat.ofDigits_nil, List.length_map, List.length_reverse]
    ring

theorem digVal_digits (b : List (Fin 10)) : digVal (b.map digit) = natOf b := by
  have := digVal_append [] b
  simpa [digVal] using this

theorem takeSign_text (s : Sign) (r : List Char) (h : ∀ c ∈ r.head?, c ≠ '-' ∧ c ≠ '+') :
    takeSign (s.text ++ r) = (decide (s = .minus), r) := by
  cases s with
  | none =>
    cases r with
    | nil => rfl
    | cons c r =>
      have := h c (by simp)
      simp only [Sign.text, List.nil_append, takeSign]
      split
      · rename_i heq; simp_all
      · rename_i heq; simp_all
      · rfl
  | plus => rfl
  | minus => rfl

theorem head_digits (ds : List (Fin 10)) (r : List Char) (P : Char → Prop) (hd : ∀ d, P (digit d)) (hr : ∀ c ∈ r.head?, P c) :
    ∀ c ∈ (ds.map digit ++ r).head?, P c := by
  cases ds with
  | nil => simpa using hr
  | cons d ds => intro c hc; simp at hc; subst hc; exact hd d

theorem natOf_append (a b : List (Fin 10)) : natOf (a ++ b) = natOf a * 10 ^ b.length + natOf b := by
  rw [← digVal_digits, List.map_append, digVal_append, digVal_digits]

theorem Spec.IntNum.scan (n : IntNum) (hn : n.Wf) (r : List Char) (hr : ∀ c ∈ r.head?, isDigC c = false) :
    scanInt (n.text ++ r) = (n.value, true, r) := by
  obtain ⟨h1, h2, h3⟩ := hn
  have hs : takeSign (n.text ++ r) = (decide (n.sign = .minus), n.ds.map digit ++ r) := by
    unfold IntNum.text
    rw [List.append_assoc]
    apply takeSign_text
    have : n.ds.map digit ++ r ≠ [] := by cases h : n.ds with | nil => exact absurd h h1 | cons a b => simp
    cases hd : n.ds with
    | nil => exact absurd hd h1
    | cons d ds => intro c hc; simp at hc; subst hc; exact ⟨(digit_ne d).1, (digit_ne d).2.1⟩
  unfold scanInt
  rw [hs]
  dsimp only
  rw [(takeWhile_digits _ _ hr).1, (takeWhile_digits _ _ hr).2, digVal_digits]
  have he : (n.ds.map digit).isEmpty = false := by cases hd : n.ds with | nil => exact absurd hd h1 | cons d ds => rfl
  have hv : (if decide (n.sign = .minus) = true then -(natOf n.ds : Int) else (natOf n.ds : Int)) = n.value := by
    unfold IntNum.value
    by_cases h : n.sign = .minus <;> simp [h]
  rw [hv, he]
  rw [if_neg (by simp), if_neg (by omega), if_neg (by omega)]

theorem Spec.Num.scan {K : Type} [Field K] [CharZero K] (n : Num) (hn : n.Wf) (r : List Char) (hr : Stop r) :
    (scanDouble (K := K)) (n.text ++ r) = (n.value, true, r) := by
  obtain ⟨h1, h2⟩ := hn
  obtain ⟨sg, ip, fp, ex⟩ := n
  -- the exponent part
  obtain ⟨ext, hext⟩ : ∃ t, t = expText ex ++ r := ⟨_, rfl⟩
  obtain ⟨fpt, hfpt⟩ : ∃ t, t = fpText fp ++ ext := ⟨_, rfl⟩
  have htext : Num.text ⟨sg, ip, fp, ex⟩ ++ r = sg.text ++ (ip.map digit ++ fpt) := by
    rw [hfpt, hext]; unfold Num.text; simp only [List.append_assoc]
  have hextd : ∀ c ∈ ext.head?, isDigC c = false ∧ c ≠ '.' := by
    intro c hc
    rw [hext] at hc
    cases ex with
    | none => simp only [fpText, expText, List.nil_append] at hc; exact ⟨(hr c hc).1, (hr c hc).2.1⟩
    | some e =>
      obtain ⟨up, s, ds⟩ := e
      simp [expText] at hc
      cases up <;> simp at hc <;> subst hc <;> decide
  have hfptd : ∀ c ∈ fpt.head?, isDigC c = false := by
    intro c hc
    rw [hfpt] at hc
    cases fp with
    | none => simp only [fpText, expText, List.nil_append] at hc; exact (hextd c hc).1
    | some f => simp [fpText] at hc; subst hc; decide
  have hfrac : takeFrac fpt = ((Num.frac ⟨sg, ip, fp, ex⟩).map digit, ext) := by
    rw [hfpt]
    unfold Num.frac
    cases fp with
    | none =>
      simp only [fpText, expText, List.nil_append, Option.getD_none, List.map_nil]
      cases hE : ext with
      | nil => rfl
      | cons c t =>
        have hne := (hextd c (by rw [hE]; simp)).2
        clear * - hne
        unfold takeFrac
        split
        · rename_i heq; cases heq; exact absurd rfl hne
        · rfl
    | some f =>
      simp only [fpText, Option.getD_some, List.cons_append]
      change (List.takeWhile isDigC (f.map digit ++ ext), List.dropWhile isDigC (f.map digit ++ ext)) = _
      rw [(takeWhile_digits f ext (fun c hc => (hextd c hc).1)).1, (takeWhile_digits f ext (fun c hc => (hextd c hc).1)).2]
  have hsign : takeSign (sg.text ++ (ip.map digit ++ fpt)) = (decide (sg = .minus), ip.map digit ++ fpt) := by
    apply takeSign_text
    intro c hc
    cases ip with
    | cons d ds => simp at hc; subst hc; exact ⟨(digit_ne d).1, (digit_ne d).2.1⟩
    | nil =>
      cases fp with
      | none => exact absurd (by simp [Num.frac]) h1
      | some f => rw [hfpt] at hc; simp [fpText] at hc; subst hc; decide
  have he : (ip.map digit ++ (Num.frac ⟨sg, ip, fp, ex⟩).map digit).isEmpty = false := by
    rw [← List.map_append]
    cases hd : ip ++ (Num.frac ⟨sg, ip, fp, ex⟩) with
    | nil => exact absurd hd h1
    | cons d ds => rfl
  rw [htext]
  unfold scanDouble
  rw [hsign]
  dsimp only
  rw [(takeWhile_digits ip fpt hfptd).1, (takeWhile_digits ip fpt hfptd).2, hfrac]
  dsimp only
  rw [he, if_neg (by simp)]
  obtain ⟨fr, hfr⟩ : ∃ f, f = Num.frac ⟨sg, ip, fp, ex⟩ := ⟨_, rfl⟩
  have hm : (digVal (ip.map digit ++ fr.map digit) : K) * (10 : K) ^ (-((fr.map digit).length : Int)) =
      (natOf ip : K) + (natOf fr : K) * (10 : K) ^ (-(fr.length : Int)) := by
    rw [digVal_append, digVal_digits, List.length_map]
    have h10 : (10 : K) ≠ 0 := by norm_num
    have hp : (10 : K) ^ fr.length ≠ 0 := pow_ne_zero _ h10
    push_cast
    rw [zpow_neg, zpow_natCast]
    field_simp
  rw [← hfr, hm]
  unfold Num.value
  rw [← hfr]
  dsimp only
  cases ex with
  | none =>
    have hx : takeExp ext = none := by
      rw [hext]
      simp only [fpText, expText, List.nil_append]
      cases r with
      | nil => rfl
      | cons c r =>
        obtain ⟨_, _, q3, q4⟩ := hr c (by simp)
        simp [takeExp, q3, q4]
    rw [hx]
    dsimp only
    have : ext = r := by rw [hext]; rfl
    rw [this]
    by_cases hs : sg = .minus <;> simp [hs]
  | some e =>
    obtain ⟨up, s, ds⟩ := e
    have hds : ds ≠ [] := h2 _ rfl
    have hx : takeExp ext = some (decide (s = .minus), ds.map digit, r) := by
      rw [hext]
      have hss : takeSign (s.text ++ (ds.map digit ++ r)) = (decide (s = .minus), ds.map digit ++ r) := by
        apply takeSign_text
        intro c hc
        cases ds with
        | nil => exact absurd rfl hds
        | cons d ds => simp at hc; subst hc; exact ⟨(digit_ne d).1, (digit_ne d).2.1⟩
      have ht := takeWhile_digits ds r (fun c hc => (hr c hc).1)
      cases up <;> simp [expText, takeExp, hss, ht.1, ht.2]
    rw [hx]
    dsimp only
    have hde : (ds.map digit).isEmpty = false := by
      cases ds with
      | nil => exact absurd rfl hds
      | cons d ds => rfl
    rw [hde, if_neg (by simp), digVal_digits]
    by_cases hs : sg = .minus <;> by_cases hs' : s = .minus <;> simp [hs, hs'] <;> ring
end PNDL
