import Verif.Props.AceBinary

/-! C13: exactly which binary files make the reader leave its arrays. -/
namespace PNDL
open Spec

/-- `Overruns room b`: among the records in the bytes `b`, read into an array with room for `room` more 8-byte entries, some record carries more data than
there is room for.  A record is a 4-byte length `m`, `m` bytes of data (fewer at the end of the file) and 4 bytes that are skipped; the entries it fills are
`m / 8`. -/
inductive Spec.Overruns : Nat → List Byte → Prop
  | here {room : Nat} {b : List Byte} (h4 : 4 ≤ b.length) (h0 : 0 < room) (h : 8 * room < min (unle (b.take 4)) (b.length - 4)) : Overruns room b
  | later {room : Nat} {b : List Byte} (h8 : 8 + unle (b.take 4) ≤ b.length) (h0 : unle (b.take 4) / 8 < room)
      (h : Overruns (room - unle (b.take 4) / 8) (b.drop (8 + unle (b.take 4)))) : Overruns room b

theorem Spec.Overruns.pos {room : Nat} {b : List Byte} (h : Overruns room b) : 0 < room ∧ 4 ≤ b.length := by
  cases h with
  | here h4 h0 h => exact ⟨h0, h4⟩
  | later h8 h0 h => exact ⟨by omega, by omega⟩

theorem read_enough {n : Nat} {b : List Byte} (h : n ≤ b.length) : (good b).read n = (b.take n, good (b.drop n)) := by
  simp [Stream.read, good, h]

theorem read_short {n : Nat} {b : List Byte} (h : b.length < n) : (good b).read n = (b, ⟨[], true, true⟩) := by
  simp [Stream.read, good, Nat.not_le.mpr h]

theorem read_eof {n : Nat} {s : Stream} (h : s.eof = true) : (s.read n).1 = [] ∧ (s.read n).2.eof = true := by
  simp [Stream.read, h]

theorem ignore_eof {n : Nat} {s : Stream} (h : s.eof = true) : (s.ignore n).eof = true := by
  simp [Stream.ignore, h]

theorem ignore_enough {n : Nat} {b : List Byte} (h : n ≤ b.length) : (good b).ignore n = good (b.drop n) := by
  simp [Stream.ignore, good, h]

theorem ignore_short {n : Nat} {b : List Byte} (h : b.length < n) : ((good b).ignore n).eof = true := by
  simp [Stream.ignore, good, Nat.not_le.mpr h]

theorem readRecords_eof {size f i : Nat} {rlenB buf : List Byte} {s : Stream} (h : s.eof = true) :
    readRecords size (f + 1) i rlenB buf s = .ok (buf, s) := by
  rw [readRecords, if_neg (by simp [h])]

theorem overwrite_full {old m : List Byte} (h : old = [] ∨ old.length = 4) (hm : m.length = 4) : overwrite old m = m := by
  unfold overwrite
  rcases h with h | h
  · simp [h]
  · rw [List.drop_of_length_le (by omega)]; simp

/-- One record with a complete length marker. -/
theorem readRecords_step {size f i : Nat} {rlenB buf b : List Byte} (hi : i < size) (hr : rlenB = [] ∨ rlenB.length = 4) (h4 : 4 ≤ b.length) :
    readRecords size (f + 1) i rlenB buf (good b) =
      (do let buf' ← writeAt buf (8 * i) ((good (b.drop 4)).read (unle (b.take 4))).1
          readRecords size f (i + unle (b.take 4) / 8) (b.take 4) buf' (((good (b.drop 4)).read (unle (b.take 4))).2.ignore 4)) := by
  have hl : (b.take 4).length = 4 := by rw [List.length_take]; omega
  rw [readRecords, if_pos (by simp [good, hi])]
  rw [read_enough h4]
  simp only
  rw [overwrite_full hr hl, if_neg (by omega), List.take_of_length_le (by omega)]

/-- The record loop on any bytes: out of range exactly when a record overruns or the first length marker is incomplete. -/
theorem readRecords_iff (size : Nat) : ∀ (n : Nat) (b : List Byte), b.length ≤ n → ∀ (i f : Nat) (rlenB buf : List Byte), buf.length = 8 * size →
    b.length + 2 ≤ f → (rlenB = [] ∨ rlenB.length = 4) →
    ((Overruns (size - i) b ∨ (rlenB = [] ∧ i < size ∧ b.length < 4)) → readRecords size f i rlenB buf (good b) = .error .ub) ∧
    (¬ (Overruns (size - i) b ∨ (rlenB = [] ∧ i < size ∧ b.length < 4)) → ∃ r, readRecords size f i rlenB buf (good b) = .ok r) := by
  intro n
  induction n using Nat.strong_induction_on with
  | _ n ih =>
  intro b hbn i f rlenB buf hbuf hf hr
  obtain ⟨f, rfl⟩ : ∃ g, f = g + 2 := ⟨f - 2, by omega⟩
  by_cases hi : i < size
  swap
  · rw [readRecords, if_neg (by omega)]
    refine ⟨?_, fun _ => ⟨_, rfl⟩⟩
    rintro (h | h)
    · have := h.pos; omega
    · omega
  by_cases h4 : 4 ≤ b.length
  swap
  · -- an incomplete length marker
    rw [readRecords, if_pos (by simp [good, hi]), read_short (by omega)]
    simp only
    rcases hr with hr | hr
    · subst hr
      rw [if_pos (by simp [overwrite]; omega)]
      exact ⟨fun _ => rfl, fun h => absurd (Or.inr ⟨rfl, hi, by omega⟩) h⟩
    · have hl : (overwrite rlenB b).length = 4 := by unfold overwrite; rw [List.length_append, List.length_drop]; omega
      rw [if_neg (by omega)]
      have hre : ((Stream.mk [] true true).read (unle ((overwrite rlenB b).take 4))).1 = [] := rfl
      rw [hre]
      have hw : writeAt buf (8 * i) [] = .ok (buf.take (8 * i) ++ [] ++ buf.drop (8 * i + ([] : List Byte).length)) := by
        unfold writeAt; rw [if_pos (by simp; omega)]
      rw [hw]
      simp only [bind, Except.bind]
      rw [readRecords_eof (ignore_eof (read_eof rfl).2)]
      refine ⟨?_, fun _ => ⟨_, rfl⟩⟩
      rintro (h | h)
      · have := h.pos; omega
      · rw [h.1] at hr; simp at hr
  · rw [readRecords_step hi hr h4]
    have hd4 : (b.drop 4).length = b.length - 4 := List.length_drop
    have hl : (b.take 4).length = 4 := by rw [List.length_take]; omega
    obtain ⟨m, hm⟩ : ∃ m, m = unle (b.take 4) := ⟨_, rfl⟩
    rw [← hm]
    by_cases hfull : m ≤ b.length - 4
    · rw [read_enough (by omega)]
      have hdl : ((b.drop 4).take m).length = m := by rw [List.length_take]; omega
      by_cases hfit : m ≤ 8 * (size - i)
      · have hw : writeAt buf (8 * i) ((b.drop 4).take m) = .ok (buf.take (8 * i) ++ (b.drop 4).take m ++ buf.drop (8 * i + ((b.drop 4).take m).length)) := by
          unfold writeAt; rw [if_pos (by omega)]
        rw [hw]
        simp only [bind, Except.bind, List.drop_drop]
        have hnot : ¬ 8 * (size - i) < min m (b.length - 4) := by omega
        by_cases hclose : 4 + m + 4 ≤ b.length
        · rw [ignore_enough (by rw [List.length_drop]; omega), List.drop_drop]
          have hlen2 : (b.drop (4 + m + 4)).length = b.length - (4 + m + 4) := List.length_drop
          have hbl : (buf.take (8 * i) ++ (b.drop 4).take m ++ buf.drop (8 * i + ((b.drop 4).take m).length)).length = 8 * size := by
            simp only [List.length_append, List.length_take, List.length_drop]; omega
          obtain ⟨q1, q2⟩ := ih (b.length - (4 + m + 4)) (by omega) (b.drop (4 + m + 4)) (by omega) (i + m / 8) (f + 1) (b.take 4) _ hbl (by omega) (Or.inr hl)
          have e1 : size - (i + m / 8) = size - i - m / 8 := by omega
          rw [e1] at q1 q2
          have hne : b.take 4 ≠ [] := by intro hc; rw [hc] at hl; simp at hl
          refine ⟨?_, ?_⟩
          · rintro (h | h)
            · apply q1
              left
              cases h with
              | here h4 h0 h => rw [← hm] at h; exact absurd h hnot
              | later h8 h0 h =>
                rw [← hm] at h
                rwa [show 4 + m + 4 = 8 + m by omega]
            · omega
          · intro h
            apply q2
            rintro (h' | h')
            · apply h
              left
              refine .later (by rw [← hm]; omega) ?_ ?_
              · rw [← hm]; have := h'.pos; omega
              · rw [← hm, show 8 + m = 4 + m + 4 by omega]; exact h'
            · exact hne h'.1
        · rw [readRecords_eof (ignore_short (by rw [List.length_drop]; omega))]
          refine ⟨?_, fun _ => ⟨_, rfl⟩⟩
          rintro (h | h)
          · cases h with
            | here h4 h0 h => rw [← hm] at h; exact absurd h hnot
            | later h8 h0 h => rw [← hm] at h8; omega
          · omega
      · have hw : writeAt buf (8 * i) ((b.drop 4).take m) = .error .ub := by
          unfold writeAt; rw [if_neg (by omega)]
        rw [hw]
        refine ⟨fun _ => rfl, fun h => absurd (Or.inl (.here h4 (by omega) ?_)) h⟩
        rw [← hm]; omega
    · rw [read_short (by omega)]
      by_cases hfit : b.length - 4 ≤ 8 * (size - i)
      · have hw : writeAt buf (8 * i) (b.drop 4) = .ok (buf.take (8 * i) ++ b.drop 4 ++ buf.drop (8 * i + (b.drop 4).length)) := by
          unfold writeAt; rw [if_pos (by omega)]
        rw [hw]
        simp only [bind, Except.bind]
        rw [readRecords_eof (ignore_eof rfl)]
        refine ⟨?_, fun _ => ⟨_, rfl⟩⟩
        rintro (h | h)
        · cases h with
          | here h4 h0 h => rw [← hm] at h; omega
          | later h8 h0 h => rw [← hm] at h8; omega
        · omega
      · have hw : writeAt buf (8 * i) (b.drop 4) = .error .ub := by
          unfold writeAt; rw [if_neg (by omega)]
        rw [hw]
        refine ⟨fun _ => rfl, fun h => absurd (Or.inl (.here h4 (by omega) ?_)) h⟩
        rw [← hm]; omega

theorem readIzaw_eof : ∀ (k : Nat) (s : Stream), s.eof = true → readIzaw (k + 1) s = .error .ub := by
  intro k s h
  rw [readIzaw, readUninit]
  rw [(read_eof h).1]
  simp [bind, Except.bind]

theorem readIzaw_iff : ∀ (k : Nat) (b : List Byte), (12 * k ≤ b.length → ∃ l, readIzaw k (good b) = .ok (l, good (b.drop (12 * k)))) ∧
    (b.length < 12 * k → readIzaw k (good b) = .error .ub) := by
  intro k
  induction k with
  | zero => intro b; exact ⟨fun _ => ⟨[], by simp [readIzaw]⟩, fun h => by omega⟩
  | succ k ih =>
    intro b
    rw [readIzaw]
    by_cases h4 : 4 ≤ b.length
    · have e1 : readUninit 4 (good b) = .ok (b.take 4, good (b.drop 4)) := by
        simp only [readUninit, read_enough h4, List.length_take]; rw [if_pos (by omega)]
      rw [e1]
      simp only [bind, Except.bind]
      by_cases h8 : 8 ≤ (b.drop 4).length
      · have e2 : readUninit 8 (good (b.drop 4)) = .ok ((b.drop 4).take 8, good (b.drop 12)) := by
          rw [readUninit, read_enough h8, List.drop_drop]
          simp only [List.length_take]; rw [if_pos (by omega)]
        rw [e2]
        simp only
        obtain ⟨q1, q2⟩ := ih (b.drop 12)
        have hl : (b.drop 12).length = b.length - 12 := List.length_drop
        rw [List.length_drop] at h8
        refine ⟨fun h => ?_, fun h => ?_⟩
        · obtain ⟨l, hl'⟩ := q1 (by omega)
          rw [hl']
          refine ⟨(unle (b.take 4), unle ((b.drop 4).take 8)) :: l, ?_⟩
          simp only [List.drop_drop, show 12 + 12 * k = 12 * (k + 1) by omega]
          rfl
        · rw [q2 (by omega)]
      · have e2 : readUninit 8 (good (b.drop 4)) = .error .ub := by
          rw [readUninit, read_short (by omega)]; simp only; rw [if_neg (by omega)]
        rw [e2]
        rw [List.length_drop] at h8
        exact ⟨fun h => by omega, fun _ => rfl⟩
    · have e1 : readUninit 4 (good b) = .error .ub := by
        rw [readUninit, read_short (by omega)]; simp only; rw [if_neg (by omega)]
      rw [e1]
      exact ⟨fun h => by omega, fun _ => rfl⟩

theorem readInts_length : ∀ (k : Nat) (s : Stream), (readInts k s).1.length = k := by
  intro k
  induction k with
  | zero => intro s; rfl
  | succ k ih => intro s; simp only [readInts, List.length_cons]; rw [ih]

theorem readInts_eof : ∀ (k : Nat) (s : Stream), s.eof = true → (readInts k s).2.eof = true := by
  intro k
  induction k with
  | zero => intro s h; exact h
  | succ k ih => intro s h; simp only [readInts, readInto]; exact ih _ (read_eof h).2

theorem readInts_iff : ∀ (k : Nat) (b : List Byte), (4 * k ≤ b.length → (readInts k (good b)).2 = good (b.drop (4 * k)) ∧
    ∀ n, 0 < k → (readInts k (good b)).1[0]? = some n → n = unle (b.take 4)) ∧
    (b.length < 4 * k → (readInts k (good b)).2.eof = true) := by
  intro k
  induction k with
  | zero => intro b; exact ⟨fun _ => ⟨by simp [readInts], fun n h => by omega⟩, fun h => by omega⟩
  | succ k ih =>
    intro b
    simp only [readInts, readInto]
    by_cases h4 : 4 ≤ b.length
    · rw [read_enough h4]
      obtain ⟨q1, q2⟩ := ih (b.drop 4)
      have hl : (b.drop 4).length = b.length - 4 := List.length_drop
      refine ⟨fun h => ⟨?_, ?_⟩, fun h => q2 (by omega)⟩
      · rw [(q1 (by omega)).1, List.drop_drop, show 4 + 4 * k = 4 * (k + 1) by omega]
      · intro n _ hn
        simp only [List.getElem?_cons_zero, Option.some.injEq] at hn
        rw [← hn, overwrite_full (Or.inr (le_length 4 0)) (by rw [List.length_take]; omega)]
    · rw [read_short (by omega)]
      exact ⟨fun h => by omega, fun _ => readInts_eof k _ rfl⟩

/-- The part of the reader after the fixed-width strings. -/
def readTail (mulT : Nat → Nat) (zaidTxt awr temp date comment mat : List Byte) (s : Stream) : Res ACE := do
  let (izaw, s) ← readIzaw 16 s
  let (nxs, s) := readInts 16 s
  let (jxs, s) := readInts 32 s
  let s := s.ignore 4
  let n0 ← getAt nxs 0
  if i32 n0 < 0 then .error .exc
  else do
    let size := (i32 n0).toNat
    let (buf, _) ← readRecords size (s.bytes.length + 2) 0 [] (List.replicate (8 * size) 0) s
    let zaidInt ← getAt nxs 1
    let Z := (zaidInt / 1000) % 2 ^ 8
    let A := sub32 zaidInt (Z * 1000)
    let j1 ← getAt jxs 1
    return {
      Z := Z, A := A, temperature := mulT (unle temp), awr := unle awr, fissile := decide (i32 j1 > 0),
      zaidTxt := zaidTxt, date := date, comment := comment, mat := mat,
      izaw := izaw, nxs := nxs, jxs := jxs, xss := words size buf }

theorem readInto_state {old : List Byte} {n : Nat} {s : Stream} : (readInto old n s).2 = (s.read n).2 := rfl

/-- `P s b`: the stream holds the unread bytes `b` in the good state, or has met the end of the file (and then `b` is none of it). -/
theorem readBinary_tail (mulT : Nat → Nat) (file : List Byte) : ∃ z a t d c m, ∃ s : Stream, ACE.readBinary mulT file = readTail mulT z a t d c m s ∧
    (120 ≤ file.length → s = good (file.drop 120)) ∧ (file.length < 120 → s.eof = true) := by
  have key : ∀ (b : List Byte) (k : Nat) (s : Stream) (n : Nat), (k ≤ b.length → s = good (b.drop k)) → (b.length < k → s.eof = true) →
      (k + n ≤ b.length → (s.read n).2 = good (b.drop (k + n))) ∧ (b.length < k + n → (s.read n).2.eof = true) := by
    intro b k s n h1 h2
    by_cases hk : k ≤ b.length
    · rw [h1 hk]
      have hl : (b.drop k).length = b.length - k := List.length_drop
      by_cases hn : n ≤ (b.drop k).length
      · rw [read_enough hn, List.drop_drop]
        exact ⟨fun _ => rfl, fun h => by omega⟩
      · rw [read_short (by omega)]
        exact ⟨fun h => by omega, fun _ => rfl⟩
    · exact ⟨fun h => by omega, fun _ => (read_eof (h2 (by omega))).2⟩
  obtain ⟨s0, hs0⟩ : ∃ s0, s0 = (Stream.mk file false false).ignore 4 := ⟨_, rfl⟩
  have k0 : (4 ≤ file.length → s0 = good (file.drop 4)) ∧ (file.length < 4 → s0.eof = true) := by
    rw [hs0]
    exact ⟨fun h => ignore_enough (b := file) h, fun h => ignore_short (b := file) h⟩
  have k1 := key file 4 s0 10 k0.1 k0.2
  have k2 := key file 14 _ 8 k1.1 k1.2
  have k3 := key file 22 _ 8 k2.1 k2.2
  have k4 := key file 30 _ 10 k3.1 k3.2
  have k5 := key file 40 _ 70 k4.1 k4.2
  have k6 := key file 110 _ 10 k5.1 k5.2
  obtain ⟨s1, e1⟩ : ∃ x, x = (s0.read 10).2 := ⟨_, rfl⟩
  obtain ⟨s2, e2⟩ : ∃ x, x = (s1.read 8).2 := ⟨_, rfl⟩
  obtain ⟨s3, e3⟩ : ∃ x, x = (s2.read 8).2 := ⟨_, rfl⟩
  obtain ⟨s4, e4⟩ : ∃ x, x = (s3.read 10).2 := ⟨_, rfl⟩
  obtain ⟨s5, e5⟩ : ∃ x, x = (s4.read 70).2 := ⟨_, rfl⟩
  rw [← e1, ← e2, ← e3, ← e4, ← e5] at k6
  refine ⟨(readInto (List.replicate 10 32) 10 s0).1, (readInto (le 8 0) 8 s1).1, (readInto (le 8 0) 8 s2).1, (readInto (List.replicate 10 32) 10 s3).1,
    (readInto (List.replicate 70 32) 70 s4).1, (readInto (List.replicate 10 32) 10 s5).1, (s5.read 10).2, ?_, k6.1, k6.2⟩
  rw [e5, e4, e3, e2, e1, hs0]
  rfl

/-- **C13** Exactly which files make `read_binary` leave its arrays (or use a number it has not read): those shorter than the fixed-width part up to IZAW;
those that declare a positive number of XSS entries and end before the first record's length; and those with a record that carries more data than there is
room left in the array of the declared size.  All other files are read or refused. -/
theorem C13_iff (mulT : Nat → Nat) (file : List Byte) : ACE.readBinary mulT file = .error .ub ↔
    file.length < 312 ∨ (508 ≤ file.length ∧ ∃ n : Nat, i32 (unle ((file.drop 312).take 4)) = n ∧ 0 < n ∧
      (file.length < 512 ∨ Overruns n (file.drop 508))) := by
  obtain ⟨z, a, t, d, c, m, s, he, hs1, hs2⟩ := readBinary_tail mulT file
  rw [he]
  unfold readTail
  by_cases h120 : 120 ≤ file.length
  swap
  · rw [readIzaw_eof 15 s (hs2 (by omega))]
    exact ⟨fun _ => Or.inl (by omega), fun _ => rfl⟩
  rw [hs1 h120]
  have hl : (file.drop 120).length = file.length - 120 := List.length_drop
  obtain ⟨q1, q2⟩ := readIzaw_iff 16 (file.drop 120)
  by_cases h312 : 312 ≤ file.length
  swap
  · rw [q2 (by omega)]
    exact ⟨fun _ => Or.inl (by omega), fun _ => rfl⟩
  obtain ⟨l, hq⟩ := q1 (by omega)
  rw [hq, List.drop_drop]
  simp only [bind, Except.bind]
  rw [show 120 + 12 * 16 = 312 from rfl]
  have hl2 : (file.drop 312).length = file.length - 312 := List.length_drop
  obtain ⟨p1, p2⟩ := readInts_iff 16 (file.drop 312)
  obtain ⟨N, hN⟩ : ∃ N, N = readInts 16 (good (file.drop 312)) := ⟨_, rfl⟩
  rw [← hN] at p1 p2 ⊢
  obtain ⟨J, hJ⟩ : ∃ J, J = readInts 32 N.2 := ⟨_, rfl⟩
  rw [← hJ]
  have lN : N.1.length = 16 := by rw [hN]; exact readInts_length _ _
  have lJ : J.1.length = 32 := by rw [hJ]; exact readInts_length _ _
  obtain ⟨n0, hn0⟩ : ∃ x, N.1[0]? = some x := ⟨N.1[0], by simp [lN]⟩
  obtain ⟨n1, hn1⟩ : ∃ x, N.1[1]? = some x := ⟨N.1[1], by simp [lN]⟩
  obtain ⟨j1, hj1⟩ : ∃ x, J.1[1]? = some x := ⟨J.1[1], by simp [lJ]⟩
  simp only [getAt_eq_ok.mpr hn0, getAt_eq_ok.mpr hn1, getAt_eq_ok.mpr hj1]
  -- what comes after the record loop cannot fail
  obtain ⟨S, hS⟩ : ∃ S, S = J.2.ignore 4 := ⟨_, rfl⟩
  rw [← hS]
  by_cases h508 : 508 ≤ file.length
  · obtain ⟨g1, g2⟩ := p1 (by omega)
    have hJ2 : J.2 = good (file.drop 504) := by
      rw [hJ, g1, List.drop_drop]
      have := ((readInts_iff 32 (file.drop 376)).1 (by rw [List.length_drop]; omega)).1
      rw [show 312 + 4 * 16 = 376 from rfl, this, List.drop_drop]
    have hS2 : S = good (file.drop 508) := by
      rw [hS, hJ2, ignore_enough (by rw [List.length_drop]; omega), List.drop_drop]
    have hn : n0 = unle ((file.drop 312).take 4) := g2 n0 (by norm_num) hn0
    rw [← hn]
    by_cases hneg : i32 n0 < 0
    · rw [if_pos hneg]
      refine ⟨fun h => (by cases h), ?_⟩
      rintro (h | ⟨_, n, e, _⟩) <;> omega
    · rw [if_neg hneg]
      obtain ⟨n, hnn⟩ : ∃ n : Nat, i32 n0 = n := ⟨(i32 n0).toNat, by omega⟩
      have hl5 : (file.drop 508).length = file.length - 508 := List.length_drop
      obtain ⟨r1, r2⟩ := readRecords_iff n (file.length - 508) (file.drop 508) (by omega) 0 ((file.drop 508).length + 2) [] (List.replicate (8 * n) 0) (by simp)
        (by omega) (Or.inl rfl)
      rw [Nat.sub_zero] at r1 r2
      rw [hS2, hnn]
      simp only [Int.toNat_natCast, show (good (file.drop 508)).bytes = file.drop 508 from rfl]
      by_cases hbad : Overruns n (file.drop 508) ∨ (([] : List Byte) = [] ∧ 0 < n ∧ (file.drop 508).length < 4)
      · rw [r1 hbad]
        refine ⟨fun _ => Or.inr ⟨h508, n, rfl, ?_, ?_⟩, fun _ => rfl⟩
        · rcases hbad with h | h
          · exact h.pos.1
          · exact h.2.1
        · rcases hbad with h | h
          · exact Or.inr h
          · left; omega
      · obtain ⟨r, hr⟩ := r2 hbad
        rw [hr]
        refine ⟨fun h => (by cases h), ?_⟩
        rintro (h | ⟨_, n', e, h0, h⟩)
        · omega
        · have : n = n' := by exact_mod_cast e
          subst this
          exfalso
          apply hbad
          rcases h with h | h
          · exact Or.inr ⟨rfl, h0, by omega⟩
          · exact Or.inl h
  · have hSe : S.eof = true := by
      rw [hS]
      by_cases h376 : 376 ≤ file.length
      · have g1 := (p1 (by omega)).1
        by_cases h504 : 504 ≤ file.length
        · have hJ2 : J.2 = good (file.drop 504) := by
            rw [hJ, g1, List.drop_drop]
            have := ((readInts_iff 32 (file.drop 376)).1 (by rw [List.length_drop]; omega)).1
            rw [show 312 + 4 * 16 = 376 from rfl, this, List.drop_drop]
          rw [hJ2]; exact ignore_short (by rw [List.length_drop]; omega)
        · apply ignore_eof
          rw [hJ, g1, List.drop_drop]
          exact (readInts_iff 32 (file.drop 376)).2 (by rw [List.length_drop]; omega)
      · apply ignore_eof
        rw [hJ]
        exact readInts_eof _ _ (p2 (by omega))
    by_cases hneg : i32 n0 < 0
    · rw [if_pos hneg]
      refine ⟨fun h => (by cases h), ?_⟩
      rintro (h | ⟨h, _⟩) <;> omega
    · rw [if_neg hneg, readRecords_eof hSe]
      refine ⟨fun h => (by cases h), ?_⟩
      rintro (h | ⟨h, _⟩) <;> omega

/-- **C13** A file that is long enough and whose records stay within the declared size is read without leaving the arrays.  Missing for the full claim: the
other files, for all of which it is false (`C13_iff`). -/
theorem C13_file_safe_partial (mulT : Nat → Nat) (file : List Byte) (hl : 512 ≤ file.length)
    (hf : ∀ n : Nat, i32 (unle ((file.drop 312).take 4)) = n → ¬ Overruns n (file.drop 508)) : ACE.readBinary mulT file ≠ .error .ub := by
  intro h
  rcases (C13_iff mulT file).mp h with h | ⟨_, n, e, _, h | h⟩
  · omega
  · omega
  · exact hf n e h

/-- Files of the kind `save_binary` writes have no overrunning record. -/
theorem recordsFit_not_overruns {room : Nat} {b : List Byte} (h : RecordsFit room b) : ¬ Overruns room b := by
  induction h with
  | full b => intro hc; have := hc.pos; omega
  | record room n data close rest hn h32 hd hc h ih =>
    have ht : (le 4 (n * 8) ++ data ++ close ++ rest).take 4 = le 4 (n * 8) := by
      simp [List.append_assoc, List.take_append_of_le_length, List.take_of_length_le]
    have hm : unle ((le 4 (n * 8) ++ data ++ close ++ rest).take 4) = n * 8 := by rw [ht, unle_le4 h32]
    intro hov
    cases hov with
    | here h4 h0 h => rw [hm] at h; omega
    | later h8 h0 h =>
      rw [hm] at h
      have e : (le 4 (n * 8) ++ data ++ close ++ rest).drop (8 + n * 8) = rest :=
        List.drop_left' (by simp [hd, hc]; omega)
      rw [e, show n * 8 / 8 = n by omega] at h
      exact ih h

/-- The hypotheses of `C13_file_safe_partial` are met by every file that ends in such records, whatever its first 508 bytes. -/
theorem C13_file_hypotheses (header b : List Byte) (hh : header.length = 508) (h4 : 4 ≤ b.length) (k : Nat)
    (hk : i32 (unle ((header.drop 312).take 4)) = k) (hb : RecordsFit k b) : 512 ≤ (header ++ b).length ∧
    ∀ n : Nat, i32 (unle (((header ++ b).drop 312).take 4)) = n → ¬ Overruns n ((header ++ b).drop 508) := by
  refine ⟨by simp; omega, ?_⟩
  intro n hn
  rw [List.drop_append_of_le_length (by omega), List.take_append_of_le_length (by rw [List.length_drop]; omega), hk] at hn
  have : k = n := by exact_mod_cast hn
  subst this
  rw [List.drop_left' hh]
  exact recordsFit_not_overruns hb

end PNDL
