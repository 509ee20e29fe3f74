import Verif.Model.AceBinary
import Verif.Lemmas.Base

namespace PNDL

@[simp] theorem le_length (k n : Nat) : (le k n).length = k := by
  induction k generalizing n with
  | zero => rfl
  | succ k ih => simp [le, ih]

theorem unle_le (k n : Nat) (h : n < 256 ^ k) : unle (le k n) = n := by
  induction k generalizing n with
  | zero => simp at h; subst h; rfl
  | succ k ih =>
    rw [le, unle, ih _ (by rw [pow_succ] at h; omega)]
    omega

theorem unle_le4 {n : Nat} (h : n < 2 ^ 32) : unle (le 4 n) = n := unle_le 4 n (by norm_num at h ⊢; exact h)
theorem unle_le8 {n : Nat} (h : n < 2 ^ 64) : unle (le 8 n) = n := unle_le 8 n (by norm_num at h ⊢; exact h)

/-- A stream in the good state. -/
def good (b : List Byte) : Stream := ⟨b, false, false⟩

theorem read_good {n : Nat} {b r : List Byte} (h : b.length = n) : (good (b ++ r)).read n = (b, good r) := by
  subst h; simp [Stream.read, good]

theorem ignore_good {n : Nat} {b r : List Byte} (h : b.length = n) : (good (b ++ r)).ignore n = good r := by
  subst h; simp [Stream.ignore, good]

theorem readInto_good {n : Nat} {old b r : List Byte} (h : b.length = n) (ho : old.length = n) :
    readInto old n (good (b ++ r)) = (b, good r) := by
  rw [readInto, read_good h]
  simp [overwrite, h, ← ho]

theorem readUninit_good {n : Nat} {b r : List Byte} (h : b.length = n) :
    readUninit n (good (b ++ r)) = .ok (b, good r) := by
  simp [readUninit, read_good h, h]

theorem readIzaw_good (l : List (Nat × Nat)) (r : List Byte)
    (hl : ∀ p ∈ l, p.1 < 2 ^ 32 ∧ p.2 < 2 ^ 64) :
    readIzaw l.length (good (l.flatMap (fun p => le 4 p.1 ++ le 8 p.2) ++ r)) = .ok (l, good r) := by
  induction l with
  | nil => simp [readIzaw]
  | cons p l ih =>
    have hp := hl p (by simp)
    simp only [List.flatMap_cons, List.length_cons, readIzaw, List.append_assoc]
    rw [readUninit_good (le_length 4 _)]
    simp only [bind, Except.bind]
    rw [readUninit_good (le_length 8 _)]
    simp only
    rw [ih (fun q hq => hl q (by simp [hq]))]
    simp [pure, Except.pure, unle_le4 hp.1, unle_le8 hp.2]

theorem readInts_good (l : List Nat) (r : List Byte) (hl : ∀ p ∈ l, p < 2 ^ 32) :
    readInts l.length (good (l.flatMap (le 4) ++ r)) = (l, good r) := by
  induction l with
  | nil => simp [readInts]
  | cons p l ih =>
    simp only [List.flatMap_cons, List.length_cons, readInts, List.append_assoc]
    rw [readInto_good (le_length 4 _) (le_length 4 _), ih (fun q hq => hl q (by simp [hq]))]
    simp [unle_le4 (hl p (by simp))]

theorem flatMap_le8_length (l : List Nat) : (l.flatMap (le 8)).length = 8 * l.length := by
  induction l with
  | nil => rfl
  | cons a l ih => simp [ih]; omega

theorem words_flatMap (l : List Nat) (r : List Byte) (hl : ∀ p ∈ l, p < 2 ^ 64) :
    words l.length (l.flatMap (le 8) ++ r) = l := by
  induction l with
  | nil => rfl
  | cons a l ih =>
    simp only [List.length_cons, words, List.flatMap_cons, List.append_assoc]
    rw [List.take_append_of_le_length (by simp), List.take_of_length_le (by simp), unle_le8 (hl a (by simp)),
      List.drop_append_of_le_length (by simp), List.drop_of_length_le (by simp), List.nil_append,
      ih (fun q hq => hl q (by simp [hq]))]

/-- The record loop reads back what the record writer wrote. -/
theorem readRecords_save (size : Nat) : ∀ (k : Nat) (done rest : List Nat) (f : Nat) (rlenB : List Byte) (tail : List Byte),
    rest.length ≤ k → size = done.length + rest.length → (saveRecords k rest).length + 1 ≤ f →
    (rlenB = [] ∨ rlenB.length = 4) →
    ∃ s, readRecords size f done.length rlenB (done.flatMap (le 8) ++ List.replicate (8 * rest.length) 0)
        (good (saveRecords k rest ++ tail)) = .ok ((done ++ rest).flatMap (le 8), s) := by
  intro k
  induction k with
  | zero =>
    intro done rest f rlenB tail h1 h2 h3 h4
    have hr : rest = [] := List.length_eq_zero_iff.mp (by omega)
    subst hr
    cases f with
    | zero => simp [saveRecords] at h3
    | succ f =>
      refine ⟨good (saveRecords 0 [] ++ tail), ?_⟩
      rw [readRecords, if_neg (by simp at h2; omega)]
      simp
  | succ k ih =>
    intro done rest f rlenB tail h1 h2 h3 h4
    cases f with
    | zero => omega
    | succ f =>
      by_cases hr : rest.length > 0
      · obtain ⟨n, hn⟩ : ∃ n, n = if rest.length > 512 then 512 else rest.length := ⟨_, rfl⟩
        have hn1 : 1 ≤ n := by rw [hn]; split <;> omega
        have hn2 : n ≤ rest.length := by rw [hn]; split <;> omega
        have hn3 : n ≤ 512 := by rw [hn]; split <;> omega
        have hsave : saveRecords (k + 1) rest =
            le 4 (n * 8) ++ ((rest.take n).flatMap (le 8) ++ (le 4 (n * 8) ++ saveRecords k (rest.drop n))) := by
          rw [saveRecords, if_pos hr]
          simp only [← hn]
          rw [Nat.mod_eq_of_lt (by omega)]
          simp [List.append_assoc]
        rw [hsave] at h3 ⊢
        simp only [List.length_append, le_length, flatMap_le8_length] at h3
        rw [readRecords, if_pos (by simp [good]; omega)]
        simp only [List.append_assoc]
        rw [read_good (le_length 4 _)]
        simp only
        have hov : overwrite rlenB (le 4 (n * 8)) = le 4 (n * 8) := by
          unfold overwrite
          rcases h4 with h | h
          · simp [h]
          · rw [List.drop_of_length_le (by rw [le_length]; omega)]; simp
        rw [hov, if_neg (by simp), List.take_of_length_le (by simp), unle_le4 (by omega)]
        have hlen : ((rest.take n).flatMap (le 8)).length = n * 8 := by
          rw [flatMap_le8_length, List.length_take]; omega
        rw [read_good hlen]
        simp only
        have hw : writeAt (done.flatMap (le 8) ++ List.replicate (8 * rest.length) 0) (8 * done.length)
            ((rest.take n).flatMap (le 8)) =
            .ok ((done ++ rest.take n).flatMap (le 8) ++ List.replicate (8 * (rest.drop n).length) 0) := by
          unfold writeAt
          rw [if_pos (by simp only [List.length_append, flatMap_le8_length, List.length_replicate, hlen]; omega)]
          congr 1
          have e1 : (done.flatMap (le 8) ++ List.replicate (8 * rest.length) 0).take (8 * done.length)
              = done.flatMap (le 8) := by
            rw [List.take_append_of_le_length (by rw [flatMap_le8_length]),
              List.take_of_length_le (by rw [flatMap_le8_length])]
          have e2 : (done.flatMap (le 8) ++ List.replicate (8 * rest.length) 0).drop (8 * done.length + n * 8)
              = List.replicate (8 * (rest.drop n).length) 0 := by
            rw [List.drop_append, List.drop_of_length_le (by rw [flatMap_le8_length]; omega), flatMap_le8_length,
              List.drop_replicate, List.length_drop]
            simp; omega
          rw [hlen, e1, e2, List.flatMap_append]
        rw [hw]
        simp only [bind, Except.bind]
        rw [ignore_good (le_length 4 _)]
        have hidx : done.length + n * 8 / 8 = (done ++ rest.take n).length := by
          rw [List.length_append, List.length_take]; omega
        rw [hidx]
        obtain ⟨s, hs⟩ := ih (done ++ rest.take n) (rest.drop n) f (le 4 (n * 8)) tail
          (by rw [List.length_drop]; omega)
          (by rw [List.length_append, List.length_take, List.length_drop]; omega)
          (by omega) (Or.inr (le_length 4 _))
        refine ⟨s, ?_⟩
        rw [hs]
        simp
      · have hr0 : rest = [] := List.length_eq_zero_iff.mp (by omega)
        subst hr0
        refine ⟨good (saveRecords (k + 1) [] ++ tail), ?_⟩
        rw [readRecords, if_neg (by simp at h2; omega)]
        simp

end PNDL
