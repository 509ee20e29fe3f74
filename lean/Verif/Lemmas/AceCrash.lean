import Verif.Props.AceBinarySafe
import Verif.Spec.AceCrash

/-! Reading the first bytes of a saved file. -/
namespace PNDL
open Spec

theorem unle_append (a b : List Byte) : unle (a ++ b) = unle a + 256 ^ a.length * unle b := by
  induction a with
  | nil => simp [unle]
  | cons x a ih => simp only [List.cons_append, unle, ih, List.length_cons, pow_succ]; ring

theorem unle_zeros (n : Nat) : unle (List.replicate n 0) = 0 := by
  induction n with
  | zero => rfl
  | succ n ih => simp [List.replicate_succ, unle, ih]

theorem unle_take_le (k t n : Nat) : unle ((le k n).take t) = n % 256 ^ (min t k) := by
  induction k generalizing t n with
  | zero => simp [le, unle, Nat.mod_one]
  | succ k ih =>
    cases t with
    | zero => simp [unle, Nat.mod_one]
    | succ t =>
      rw [le, List.take_succ_cons, unle, ih, show min (t + 1) (k + 1) = min t k + 1 by omega, pow_succ, mul_comm (256 ^ _) 256, Nat.mod_mul]

/-- An entry of which `t` bytes arrived. -/
theorem unle_partial {w t x : Nat} (hx : x < 256 ^ w) (b : Nat) : unle ((le w x).take t ++ List.replicate b 0) = x % 256 ^ t := by
  rw [unle_append, unle_zeros, mul_zero, add_zero, unle_take_le]
  by_cases h : t ≤ w
  · rw [min_eq_left h]
  · rw [min_eq_right (by omega), Nat.mod_eq_of_lt hx, Nat.mod_eq_of_lt (lt_of_lt_of_le hx (Nat.pow_le_pow_right (by norm_num) (by omega)))]

theorem arrived_cons (w p x : Nat) (l : List Nat) : arrived w p (x :: l) = (x % 256 ^ p) :: arrived w (p - w) l := by
  unfold arrived
  rw [List.mapIdx_cons]
  congr 1
  refine congrArg (fun f => List.mapIdx f l) ?_
  funext i y
  rw [show p - w * (i + 1) = p - w - w * i by rw [Nat.mul_succ]; omega]

theorem arrived_length (w p : Nat) (l : List Nat) : (arrived w p l).length = l.length := by simp [arrived]

theorem arrived_all {w p : Nat} {l : List Nat} (hl : ∀ x ∈ l, x < 256 ^ w) (hp : w * l.length ≤ p) : arrived w p l = l := by
  induction l generalizing p with
  | nil => rfl
  | cons x l ih =>
    rw [List.length_cons, Nat.mul_succ] at hp
    rw [arrived_cons, ih (fun y hy => hl y (by simp [hy])) (by omega),
      Nat.mod_eq_of_lt (lt_of_lt_of_le (hl x (by simp)) (Nat.pow_le_pow_right (by norm_num) (by omega)))]

theorem arrived_zero (w : Nat) (l : List Nat) : arrived w 0 l = List.replicate l.length 0 := by
  induction l with
  | nil => rfl
  | cons x l ih => rw [arrived_cons, Nat.zero_sub, ih, pow_zero, Nat.mod_one]; rfl

theorem flatMap_le_length (w : Nat) (l : List Nat) : (l.flatMap (le w)).length = w * l.length := by
  induction l with
  | nil => rfl
  | cons a l ih => rw [List.flatMap_cons, List.length_append, le_length, ih, List.length_cons, Nat.mul_succ]; omega

/-- The words of an array of zeros into which the first bytes were read. -/
theorem words_arrived (l : List Nat) (hl : ∀ x ∈ l, x < 2 ^ 64) (p : Nat) :
    words l.length ((l.flatMap (le 8)).take p ++ List.replicate (8 * l.length - p) 0) = arrived 8 p l := by
  induction l generalizing p with
  | nil => rfl
  | cons x l ih =>
    have hx : x < 256 ^ 8 := by have := hl x (by simp); norm_num at this ⊢; exact this
    rw [List.length_cons, words, arrived_cons, List.flatMap_cons]
    by_cases hp : 8 ≤ p
    · have h0 : (le 8 x ++ l.flatMap (le 8)).take p = le 8 x ++ (l.flatMap (le 8)).take (p - 8) := by
        rw [List.take_append, le_length, List.take_of_length_le (l := le 8 x) (by rw [le_length]; exact hp)]
      rw [h0, List.append_assoc,
        List.take_append_of_le_length (by rw [le_length]), List.take_of_length_le (by rw [le_length]), List.drop_append_of_le_length (by rw [le_length]),
        List.drop_of_length_le (by rw [le_length]), List.nil_append, unle_le8 (hl x (by simp)),
        show 8 * (l.length + 1) - p = 8 * l.length - (p - 8) by omega, ih (fun y hy => hl y (by simp [hy])),
        Nat.mod_eq_of_lt (lt_of_lt_of_le hx (Nat.pow_le_pow_right (by norm_num) hp))]
    · have h1 : ((le 8 x ++ l.flatMap (le 8)).take p ++ List.replicate (8 * (l.length + 1) - p) 0) =
          ((le 8 x).take p ++ List.replicate (8 - p) 0) ++ List.replicate (8 * l.length) 0 := by
        rw [List.take_append_of_le_length (by rw [le_length]; omega), List.append_assoc, List.replicate_append_replicate]
        congr 2; omega
      have h2 : ((le 8 x).take p ++ List.replicate (8 - p) 0).length = 8 := by
        rw [List.length_append, List.length_take, le_length, List.length_replicate]; omega
      rw [h1, List.take_append_of_le_length (by rw [h2]), List.take_of_length_le (by rw [h2]), List.drop_append_of_le_length (by rw [h2]),
        List.drop_of_length_le (by rw [h2]), List.nil_append, unle_partial hx, show p - 8 = 0 by omega, arrived_zero]
      have := ih (fun y hy => hl y (by simp [hy])) 0
      rw [List.take_zero, List.nil_append, Nat.sub_zero, arrived_zero] at this
      rw [this]

/-- The loops for NXS and JXS at the end of a file. -/
theorem readInts_cut (l : List Nat) (hl : ∀ x ∈ l, x < 2 ^ 32) (t : Nat) (ht : t < 4 * l.length) :
    ∃ s, readInts l.length (good ((l.flatMap (le 4)).take t)) = (arrived 4 t l, s) ∧ s.eof = true := by
  have done : ∀ (l : List Nat) (s : Stream), s.eof = true → ∃ s', readInts l.length s = (List.replicate l.length 0, s') ∧ s'.eof = true := by
    intro l
    induction l with
    | nil => intro s h; exact ⟨s, rfl, h⟩
    | cons x l ih =>
      intro s h
      obtain ⟨s', e1, e2⟩ := ih (s.read 4).2 (read_eof h).2
      refine ⟨s', ?_, e2⟩
      simp only [List.length_cons, readInts, readInto, e1]
      rw [(read_eof h).1]
      rfl
  induction l generalizing t with
  | nil => simp at ht
  | cons x l ih =>
    have hx : x < 256 ^ 4 := by have := hl x (by simp); norm_num at this ⊢; exact this
    rw [List.length_cons] at ht ⊢
    rw [arrived_cons, List.flatMap_cons]
    by_cases h4 : 4 ≤ t
    · obtain ⟨s, e1, e2⟩ := ih (fun y hy => hl y (by simp [hy])) (t - 4) (by omega)
      refine ⟨s, ?_, e2⟩
      rw [List.take_append, le_length, List.take_of_length_le (l := le 4 x) (by rw [le_length]; exact h4)]
      simp only [readInts]
      rw [readInto_good (le_length 4 _) (le_length 4 _), e1, unle_le4 (hl x (by simp)),
        Nat.mod_eq_of_lt (lt_of_lt_of_le hx (Nat.pow_le_pow_right (by norm_num) h4))]
    · obtain ⟨s, e1, e2⟩ := done l ⟨[], true, true⟩ rfl
      refine ⟨s, ?_, e2⟩
      rw [List.take_append_of_le_length (by rw [le_length]; omega)]
      simp only [readInts, readInto]
      rw [read_short (by rw [List.length_take, le_length]; omega)]
      simp only
      rw [e1, show t - 4 = 0 by omega, arrived_zero]
      have : overwrite (le 4 0) ((le 4 x).take t) = (le 4 x).take t ++ List.replicate (4 - t) 0 := by
        unfold overwrite
        rw [List.length_take, le_length, min_eq_left (by omega)]
        congr 1
        rw [show le 4 0 = List.replicate 4 0 from rfl, List.drop_replicate]
      rw [this, unle_partial hx]

theorem xssBytes_le (t n : Nat) : xssBytes t n ≤ 8 * n := min_le_left _ _

theorem xssBytes_short {t n : Nat} (h : t < 8 + 8 * min n 512) : xssBytes t n = min (8 * min n 512) (t - 4) := by
  unfold xssBytes
  have hm : min n 512 ≤ 512 := min_le_right _ _
  have hn : min n 512 ≤ n := min_le_left _ _
  rw [Nat.div_eq_of_lt (show t < 4104 by omega), Nat.mod_eq_of_lt (show t < 4104 by omega)]
  rcases le_total n 512 with h5 | h5
  · rw [min_eq_left h5] at h ⊢; omega
  · rw [min_eq_right h5] at h ⊢; omega

theorem xssBytes_long {t n : Nat} (h : 8 + 8 * min n 512 ≤ t) : xssBytes t n = 8 * min n 512 + xssBytes (t - (8 + 8 * min n 512)) (n - min n 512) := by
  unfold xssBytes
  rcases le_total n 512 with h5 | h5
  · rw [min_eq_left h5] at h ⊢
    rw [Nat.sub_self, mul_zero, Nat.zero_min, add_zero]
    refine min_eq_left ?_
    by_cases h6 : 4104 ≤ t
    · have : 1 ≤ t / 4104 := Nat.div_pos h6 (by norm_num)
      omega
    · rw [Nat.div_eq_of_lt (by omega), Nat.mod_eq_of_lt (by omega)]; omega
  · rw [min_eq_right h5] at h ⊢
    obtain ⟨u, rfl⟩ : ∃ u, t = u + 4104 := ⟨t - 4104, by omega⟩
    rw [show u + 4104 - (8 + 8 * 512) = u by omega, Nat.add_div_right _ (by norm_num), Nat.add_mod_right]
    omega

/-- The record loop at the end of a file. -/
theorem readRecords_cut (size : Nat) : ∀ (k : Nat) (done rest : List Nat) (f : Nat) (rlenB : List Byte) (t : Nat),
    rest.length ≤ k → size = done.length + rest.length → t ≤ (saveRecords k rest).length → t + 2 ≤ f →
    (rlenB = [] ∧ (rest = [] ∨ 4 ≤ t)) ∨ rlenB.length = 4 →
    ∃ s, readRecords size f done.length rlenB (done.flatMap (le 8) ++ List.replicate (8 * rest.length) 0) (good ((saveRecords k rest).take t)) =
      .ok (done.flatMap (le 8) ++ ((rest.flatMap (le 8)).take (xssBytes t rest.length) ++ List.replicate (8 * rest.length - xssBytes t rest.length) 0), s) := by
  intro k
  induction k with
  | zero =>
    intro done rest f rlenB t h1 h2 h3 h4 h5
    have hr : rest = [] := List.length_eq_zero_iff.mp (by omega)
    subst hr
    obtain ⟨f, rfl⟩ : ∃ g, f = g + 1 := ⟨f - 1, by omega⟩
    refine ⟨good ((saveRecords 0 []).take t), ?_⟩
    rw [readRecords, if_neg (by simp at h2; omega)]
    simp
  | succ k ih =>
    intro done rest f rlenB t h1 h2 h3 h4 h5
    obtain ⟨f, rfl⟩ : ∃ g, f = g + 1 + 1 := ⟨f - 2, by omega⟩
    by_cases hr : rest.length > 0
    swap
    · have hr0 : rest = [] := List.length_eq_zero_iff.mp (by omega)
      subst hr0
      refine ⟨good ((saveRecords (k + 1) []).take t), ?_⟩
      rw [readRecords, if_neg (by simp at h2; omega)]
      simp
    obtain ⟨n, hn⟩ : ∃ n, n = min rest.length 512 := ⟨_, rfl⟩
    have hn0 : (if rest.length > 512 then 512 else rest.length) = n := by rw [hn]; split <;> omega
    have hsave : saveRecords (k + 1) rest = le 4 (n * 8) ++ ((rest.take n).flatMap (le 8) ++ (le 4 (n * 8) ++ saveRecords k (rest.drop n))) := by
      rw [saveRecords, if_pos hr]
      simp only [hn0]
      rw [Nat.mod_eq_of_lt (by omega)]
      simp [List.append_assoc]
    have hlen : ((rest.take n).flatMap (le 8)).length = n * 8 := by rw [flatMap_le8_length, List.length_take]; omega
    have hsplit : rest.flatMap (le 8) = (rest.take n).flatMap (le 8) ++ (rest.drop n).flatMap (le 8) := by
      rw [← List.flatMap_append, List.take_append_drop]
    -- storing `m` bytes of the record
    have hwrite : ∀ m, m ≤ n * 8 → writeAt (done.flatMap (le 8) ++ List.replicate (8 * rest.length) 0) (8 * done.length) (((rest.take n).flatMap (le 8)).take m) =
        .ok (done.flatMap (le 8) ++ ((rest.flatMap (le 8)).take m ++ List.replicate (8 * rest.length - m) 0)) := by
      intro m hm
      have hml : (((rest.take n).flatMap (le 8)).take m).length = m := by rw [List.length_take, hlen]; omega
      unfold writeAt
      rw [if_pos (by rw [hml, List.length_append, flatMap_le8_length, List.length_replicate]; omega), hml]
      have e1 : (done.flatMap (le 8) ++ List.replicate (8 * rest.length) 0).take (8 * done.length) = done.flatMap (le 8) := by
        rw [List.take_append_of_le_length (by rw [flatMap_le8_length]), List.take_of_length_le (by rw [flatMap_le8_length])]
      have e2 : (done.flatMap (le 8) ++ List.replicate (8 * rest.length) 0).drop (8 * done.length + m) = List.replicate (8 * rest.length - m) 0 := by
        rw [List.drop_append, List.drop_of_length_le (by rw [flatMap_le8_length]; omega), flatMap_le8_length, List.drop_replicate, List.nil_append]
        congr 1; omega
      rw [e1, e2, List.append_assoc, hsplit, List.take_append_of_le_length (by rw [hlen]; omega)]
    have hi : done.length < size := by omega
    by_cases ht4 : 4 ≤ t
    · have hr' : rlenB = [] ∨ rlenB.length = 4 := by rcases h5 with h | h; exacts [Or.inl h.1, Or.inr h]
      have hb : (saveRecords (k + 1) rest).take t = le 4 (n * 8) ++ (((rest.take n).flatMap (le 8) ++ (le 4 (n * 8) ++ saveRecords k (rest.drop n))).take (t - 4)) := by
        rw [hsave, List.take_append, le_length, List.take_of_length_le (l := le 4 (n * 8)) (by rw [le_length]; exact ht4)]
      rw [hb, readRecords_step hi hr' (by rw [List.length_append, le_length]; omega)]
      have hm : unle ((le 4 (n * 8) ++ (((rest.take n).flatMap (le 8) ++ (le 4 (n * 8) ++ saveRecords k (rest.drop n))).take (t - 4))).take 4) = n * 8 := by
        rw [List.take_append_of_le_length (by rw [le_length]), List.take_of_length_le (by rw [le_length]), unle_le4 (by omega)]
      have ht' : ((le 4 (n * 8) ++ (((rest.take n).flatMap (le 8) ++ (le 4 (n * 8) ++ saveRecords k (rest.drop n))).take (t - 4))).take 4) = le 4 (n * 8) := by
        rw [List.take_append_of_le_length (by rw [le_length]), List.take_of_length_le (by rw [le_length])]
      have hd : ((le 4 (n * 8) ++ (((rest.take n).flatMap (le 8) ++ (le 4 (n * 8) ++ saveRecords k (rest.drop n))).take (t - 4))).drop 4) =
          (((rest.take n).flatMap (le 8) ++ (le 4 (n * 8) ++ saveRecords k (rest.drop n))).take (t - 4)) := by
        rw [List.drop_append_of_le_length (by rw [le_length]), List.drop_of_length_le (by rw [le_length]), List.nil_append]
      rw [hm, ht', hd]
      by_cases htd : n * 8 ≤ t - 4
      · have hb2 : ((rest.take n).flatMap (le 8) ++ (le 4 (n * 8) ++ saveRecords k (rest.drop n))).take (t - 4) =
            (rest.take n).flatMap (le 8) ++ (le 4 (n * 8) ++ saveRecords k (rest.drop n)).take (t - 4 - n * 8) := by
          rw [List.take_append, hlen, List.take_of_length_le (l := (rest.take n).flatMap (le 8)) (by rw [hlen]; exact htd)]
        rw [hb2, read_good hlen]
        simp only
        have hw := hwrite (n * 8) le_rfl
        rw [List.take_of_length_le (l := (rest.take n).flatMap (le 8)) (by rw [hlen])] at hw
        rw [hw]
        simp only [bind, Except.bind]
        by_cases htr : 8 + 8 * n ≤ t
        · have hb3 : (le 4 (n * 8) ++ saveRecords k (rest.drop n)).take (t - 4 - n * 8) = le 4 (n * 8) ++ (saveRecords k (rest.drop n)).take (t - (8 + 8 * n)) := by
            rw [List.take_append, le_length, List.take_of_length_le (l := le 4 (n * 8)) (by rw [le_length]; omega), show t - 4 - n * 8 - 4 = t - (8 + 8 * n) by omega]
          rw [hb3, ignore_good (le_length 4 _)]
          rw [hsave] at h3
          simp only [List.length_append, le_length, hlen] at h3
          obtain ⟨s, hs⟩ := ih (done ++ rest.take n) (rest.drop n) (f + 1) (le 4 (n * 8)) (t - (8 + 8 * n))
            (by rw [List.length_drop]; omega) (by rw [List.length_append, List.length_take, List.length_drop]; omega) (by omega) (by omega) (Or.inr (le_length 4 _))
          have hidx : done.length + n * 8 / 8 = (done ++ rest.take n).length := by rw [List.length_append, List.length_take]; omega
          have hbuf : done.flatMap (le 8) ++ ((rest.flatMap (le 8)).take (n * 8) ++ List.replicate (8 * rest.length - n * 8) 0) =
              (done ++ rest.take n).flatMap (le 8) ++ List.replicate (8 * (rest.drop n).length) 0 := by
            rw [hsplit, List.take_append_of_le_length (by rw [hlen]), List.take_of_length_le (by rw [hlen]), List.flatMap_append, List.length_drop, List.append_assoc]
            congr 3; omega
          rw [hidx, hbuf]
          refine ⟨s, ?_⟩
          rw [hs]
          congr 2
          rw [List.flatMap_append, List.append_assoc]
          congr 1
          have hx := xssBytes_long (t := t) (n := rest.length) (by rw [← hn]; exact htr)
          rw [← hn] at hx
          rw [hx, List.length_drop, hsplit, List.take_append, hlen, List.take_of_length_le (l := (rest.take n).flatMap (le 8)) (by rw [hlen]; omega),
            show 8 * n + xssBytes (t - (8 + 8 * n)) (rest.length - n) - n * 8 = xssBytes (t - (8 + 8 * n)) (rest.length - n) by omega, List.append_assoc,
            show 8 * rest.length - (8 * n + xssBytes (t - (8 + 8 * n)) (rest.length - n)) = 8 * (rest.length - n) - xssBytes (t - (8 + 8 * n)) (rest.length - n) by omega]
        · rw [readRecords_eof (ignore_short (by rw [List.length_take]; omega))]
          rw [xssBytes_short (by rw [← hn]; omega), ← hn, show min (8 * n) (t - 4) = n * 8 by omega]
          exact ⟨_, rfl⟩
      · have hb2 : ((rest.take n).flatMap (le 8) ++ (le 4 (n * 8) ++ saveRecords k (rest.drop n))).take (t - 4) = ((rest.take n).flatMap (le 8)).take (t - 4) := by
          rw [List.take_append_of_le_length (by rw [hlen]; omega)]
        rw [hb2, read_short (by rw [List.length_take, hlen]; omega)]
        simp only
        rw [hwrite (t - 4) (by omega)]
        simp only [bind, Except.bind]
        rw [readRecords_eof (ignore_eof rfl)]
        rw [xssBytes_short (by rw [← hn]; omega), ← hn, show min (8 * n) (t - 4) = t - 4 by omega]
        exact ⟨_, rfl⟩
    · have h5' : rlenB.length = 4 := by
        rcases h5 with ⟨_, h | h⟩ | h
        · subst h; simp at hr
        · omega
        · exact h
      have hbl : ((saveRecords (k + 1) rest).take t).length < 4 := by rw [List.length_take]; omega
      rw [readRecords, if_pos ⟨rfl, hi⟩, read_short hbl]
      simp only
      have ho : (overwrite rlenB ((saveRecords (k + 1) rest).take t)).length = 4 := by
        unfold overwrite; rw [List.length_append, List.length_drop]; omega
      rw [if_neg (by omega), (read_eof (s := ⟨[], true, true⟩) rfl).1]
      have hw := hwrite 0 (by omega)
      rw [List.take_zero] at hw
      rw [hw]
      simp only [bind, Except.bind]
      rw [readRecords_eof (ignore_eof (read_eof rfl).2)]
      rw [xssBytes_short (by omega), show min (8 * min rest.length 512) (t - 4) = 0 by omega]
      exact ⟨_, rfl⟩

end PNDL
