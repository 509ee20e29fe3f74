import Verif.Lemmas.AceBinary
import Verif.Spec.AceBinary

/-! C10–C13: ACE binary files. -/
namespace PNDL
open Spec

theorem i32_of_lt {n : Nat} (h : n < 2 ^ 31) : i32 n = n := by unfold i32; rw [if_pos h]

theorem i32_pos_iff {j : Nat} (h : j < 2 ^ 32) : i32 j > 0 ↔ 0 < j ∧ j < 2 ^ 31 := by
  unfold i32; split <;> omega

theorem zaid_sub (n : Nat) : sub32 n (n / 1000 % 2 ^ 8 * 1000) = n - (n / 1000 % 256) * 1000 := by
  unfold sub32; rw [if_pos (by omega), show (2:Nat)^8 = 256 from rfl]

/-! ## C10 — round trip -/

/-- Reading back the bytes written by `save_binary` gives the same object in every member; the temperature is the
stored (scaled-down) value scaled back up. -/
theorem C10_roundtrip (mulT divT : Nat → Nat) (a : ACE) (ht : AceTyped a) (hn : NxsMatches a) (hd : DerivedOk a)
    (h64 : divT a.temperature < 2 ^ 64) :
    ACE.readBinary mulT (a.saveBinary divT).2 =
      .ok { a with temperature := mulT (divT a.temperature) } := by
  obtain ⟨n, j, hn1, hj1, hZ, hA, hf⟩ := hd
  obtain ⟨hn0, hxl⟩ := hn
  have hj : j < 2 ^ 32 := ht.jxsB j (List.mem_of_getElem? hj1)
  unfold ACE.readBinary ACE.saveBinary
  simp only
  rw [List.take_of_length_le (by rw [ht.zaidTxt]), List.take_of_length_le (by rw [ht.date]),
    List.take_of_length_le (by rw [ht.comment]), List.take_of_length_le (by rw [ht.mat]),
    List.take_of_length_le (by rw [ht.izaw]), List.take_of_length_le (by rw [ht.nxs]),
    List.take_of_length_le (by rw [ht.jxs])]
  simp only [List.append_assoc]
  rw [show ∀ b, Stream.mk b false false = good b from fun _ => rfl]
  rw [ignore_good (le_length 4 _)]
  rw [readInto_good ht.zaidTxt (by simp)]
  simp only
  rw [readInto_good (le_length 8 _) (le_length 8 _)]
  simp only
  rw [readInto_good (le_length 8 _) (le_length 8 _)]
  simp only
  rw [readInto_good ht.date (by simp)]
  simp only
  rw [readInto_good ht.comment (by simp)]
  simp only
  rw [readInto_good ht.mat (by simp)]
  simp only
  have hi := readIzaw_good a.izaw (a.nxs.flatMap (le 4) ++ (a.jxs.flatMap (le 4) ++
    (le 4 (100 + 64 * 4 + 18 * 8) ++ saveRecords a.xss.length a.xss))) ht.izawB
  rw [ht.izaw] at hi
  rw [hi]
  simp only [bind, Except.bind]
  have hx := readInts_good a.nxs (a.jxs.flatMap (le 4) ++
    (le 4 (100 + 64 * 4 + 18 * 8) ++ saveRecords a.xss.length a.xss)) ht.nxsB
  rw [ht.nxs] at hx
  rw [hx]
  simp only
  have hjx := readInts_good a.jxs (le 4 (100 + 64 * 4 + 18 * 8) ++ saveRecords a.xss.length a.xss) ht.jxsB
  rw [ht.jxs] at hjx
  rw [hjx]
  simp only
  rw [ignore_good (le_length 4 _), getAt_eq_ok.mpr hn0]
  simp only
  rw [i32_of_lt hxl, if_neg (by omega)]
  simp only [Int.toNat_natCast]
  obtain ⟨s, hs⟩ := readRecords_save a.xss.length a.xss.length [] a.xss
    ((good (saveRecords a.xss.length a.xss)).bytes.length + 2) [] [] (le_refl _) (by simp) (by simp [good]) (Or.inl rfl)
  simp only [List.length_nil, List.flatMap_nil, List.nil_append, List.append_nil] at hs
  rw [hs]
  simp only
  rw [getAt_eq_ok.mpr hn1, getAt_eq_ok.mpr hj1]
  simp only [pure, Except.pure]
  have hw := words_flatMap a.xss [] ht.xssB
  rw [List.append_nil] at hw
  rw [hw, zaid_sub, unle_le8 h64, unle_le8 ht.awr64]
  have hfis : decide (i32 j > 0) = a.fissile := by
    rw [hf]; exact decide_eq_decide.mpr (i32_pos_iff hj)
  rw [hfis]
  have hZ' : n / 1000 % 2 ^ 8 = a.Z := hZ.symm
  have hA' : n - n / 1000 % 256 * 1000 = a.A := by rw [hA, hZ]
  rw [hZ', hA']

/-- A concrete table with 3 XSS entries (and one with 600, i.e. two records) meets the hypotheses. -/
def aceSample (k : Nat) : ACE where
  Z := 92
  A := 235
  temperature := 7
  awr := 7
  fissile := true
  zaidTxt := List.replicate 10 57
  date := List.replicate 10 49
  comment := List.replicate 70 99
  mat := List.replicate 10 109
  izaw := List.replicate 16 (0, 0)
  nxs := k :: 92235 :: List.replicate 14 5
  jxs := 1 :: 17 :: List.replicate 30 9
  xss := List.replicate k 12345

theorem aceSample_ok (k : Nat) (hk : k < 2 ^ 31) :
    AceTyped (aceSample k) ∧ NxsMatches (aceSample k) ∧ DerivedOk (aceSample k) := by
  refine ⟨⟨rfl, rfl, rfl, rfl, rfl, rfl, rfl, by show (7 : Nat) < _; norm_num, ?_, ?_, ?_, ?_⟩, ⟨?_, ?_⟩, 92235, 17, rfl, rfl, rfl, by show (235 : Nat) = 92235 - 92 * 1000; norm_num, by show true = decide _; norm_num [aceSample]⟩
  · intro p hp; simp [aceSample] at hp; subst hp; simp
  · intro n hn
    simp only [aceSample, List.mem_cons, List.mem_replicate] at hn
    rcases hn with rfl | rfl | ⟨_, rfl⟩ <;> omega
  · intro n hn
    simp only [aceSample, List.mem_cons, List.mem_replicate] at hn
    rcases hn with rfl | rfl | ⟨_, rfl⟩ <;> omega
  · intro n hn; simp only [aceSample, List.mem_replicate] at hn; rw [hn.2]; norm_num
  · show some k = some (List.replicate k _).length; rw [List.length_replicate]
  · show (List.replicate k _).length < _; rw [List.length_replicate]; exact hk

example : AceTyped (aceSample 600) ∧ NxsMatches (aceSample 600) ∧ DerivedOk (aceSample 600) :=
  aceSample_ok 600 (by norm_num)

/-! ## C11 — saving changes the object -/

/-- The full claim ("saving does not change the ACE") is false of the shipped code: the temperature is divided in place. -/
theorem C11_violation (divT : Nat → Nat) (a : ACE) (h : divT a.temperature ≠ a.temperature) :
    (a.saveBinary divT).1 ≠ a := by
  intro hc
  exact h (congrArg ACE.temperature hc)

/-- Consequently a second save writes different bytes whenever scaling twice differs from scaling once. -/
theorem C11_violation_second_save (divT : Nat → Nat) (a : ACE)
    (h1 : divT a.temperature < 2 ^ 64) (h2 : divT (divT a.temperature) < 2 ^ 64)
    (h : divT (divT a.temperature) ≠ divT a.temperature) :
    ((a.saveBinary divT).1.saveBinary divT).2 ≠ (a.saveBinary divT).2 := by
  intro hc
  simp only [ACE.saveBinary, List.append_assoc] at hc
  have e1 := List.append_cancel_left (List.append_cancel_left (List.append_cancel_left hc))
  have e2 := List.append_inj_left e1 (by simp)
  have := congrArg unle e2
  rw [unle_le8 h1, unle_le8 h2] at this
  exact h this

example : ∃ divT : Nat → Nat, divT (divT 8) ≠ divT 8 := ⟨fun n => n / 2, by decide⟩

/-- Proved part: every member other than the temperature is unchanged, and the bytes written depend only on the
object before the call. -/
theorem C11_others_unchanged_partial (divT : Nat → Nat) (a : ACE) :
    (a.saveBinary divT).1 = { a with temperature := divT a.temperature } := rfl

/-! ## C12 — zaid reconstruction -/

/-- Whenever `read_binary` succeeds, `1000*Z + A` is NXS(2) (as unsigned 32-bit), `Z` is `NXS(2)/1000` truncated to 8
bits; when `NXS(2) < 256000`, `A = NXS(2) mod 1000`. -/
theorem C12_zaid (mulT : Nat → Nat) (file : List Byte) (a : ACE) (h : ACE.readBinary mulT file = .ok a) :
    ∃ n, a.nxs[1]? = some n ∧ 1000 * a.Z + a.A = n ∧ a.Z = (n / 1000) % 256 ∧
      (n < 256000 → a.Z = n / 1000 ∧ a.A = n % 1000) := by
  unfold ACE.readBinary at h
  simp only [bind, Except.bind] at h
  split at h
  · simp at h
  · split at h
    · simp at h
    · split at h
      · simp at h
      · split at h
        · simp at h
        · split at h
          · simp at h
          · rename_i n hn
            split at h
            · simp at h
            · simp only [pure, Except.pure, Except.ok.injEq] at h
              subst h
              refine ⟨n, getAt_eq_ok.mp hn, ?_, rfl, ?_⟩
              · simp only [zaid_sub]; omega
              · intro hlt; simp only [zaid_sub]; constructor <;> omega

/-- The reconstructed identifier is usable as a `ZAID` with integer code NXS(2). -/
theorem C12_zaid_code (mulT : Nat → Nat) (file : List Byte) (a : ACE) (h : ACE.readBinary mulT file = .ok a)
    (hZ : a.Z < 2 ^ 8) (hA : a.A < 2 ^ 32) (n : Nat) (hn : a.nxs[1]? = some n) (h32 : n < 2 ^ 32) :
    (ZAID.mk a.Z a.A hZ hA).zaid = n := by
  obtain ⟨m, hm, h1, _⟩ := C12_zaid mulT file a h
  rw [hn] at hm; cases hm
  simp only [ZAID.zaid]
  rw [h1, Nat.mod_eq_of_lt h32]

/-! ## C13 — memory safety of the reader -/

theorem readRecords_fit (size : Nat) : ∀ (room : Nat) (b : List Byte), RecordsFit room b →
    ∀ (i f : Nat) (rlenB buf : List Byte), i + room = size → buf.length = 8 * size → b.length + 1 ≤ f →
    (∀ m, room = m + 1 → True) → (rlenB = [] ∨ rlenB.length = 4) →
    (∃ r, readRecords size f i rlenB buf (good b) = .ok r ∧ r.1.length = 8 * size) := by
  intro room b h
  induction h with
  | full b =>
    intro i f rlenB buf hi hb hf _ hr
    cases f with
    | zero => omega
    | succ f =>
      refine ⟨(buf, good b), ?_, hb⟩
      rw [readRecords, if_neg (by omega)]
  | record room n data close rest hn h32 hd hc _ ih =>
    intro i f rlenB buf hi hb hf _ hr
    cases f with
    | zero => omega
    | succ f =>
      simp only [List.length_append, le_length, hd, hc] at hf
      rw [readRecords]
      by_cases hlt : i < size
      · rw [if_pos (by simp [good, hlt])]
        simp only [List.append_assoc]
        rw [read_good (le_length 4 _)]
        simp only
        have hov : overwrite rlenB (le 4 (n * 8)) = le 4 (n * 8) := by
          unfold overwrite
          rcases hr with h | h
          · simp [h]
          · rw [List.drop_of_length_le (by rw [le_length]; omega)]; simp
        rw [hov, if_neg (by simp), List.take_of_length_le (by simp), unle_le4 h32, read_good hd]
        simp only
        have hw : writeAt buf (8 * i) data = .ok (buf.take (8 * i) ++ data ++ buf.drop (8 * i + data.length)) := by
          unfold writeAt; rw [if_pos (by omega)]
        rw [hw]
        simp only [bind, Except.bind]
        rw [ignore_good hc, show n * 8 / 8 = n by omega]
        exact ih (i + n) f _ _ (by omega) (by simp [List.length_take, List.length_drop]; omega) (by omega) (by simp)
          (Or.inr (le_length 4 _))
      · rw [if_neg (by simp [hlt])]
        exact ⟨_, rfl, hb⟩

/-- Proved part: if the file's record markers fit the declared XSS length, the reader's XSS loop finishes without
writing outside the array (for any array size, any number of records, any data).  Missing for the full claim: files whose
markers do not fit, for which it is false (`C13_violation`). -/
theorem C13_fitting_records_safe_partial (size : Nat) (b : List Byte) (h : RecordsFit size b) (f : Nat)
    (hf : b.length + 1 ≤ f) :
    ∃ r, readRecords size f 0 [] (List.replicate (8 * size) 0) (good b) = .ok r ∧ r.1.length = 8 * size :=
  readRecords_fit size size b h 0 f [] _ (by omega) (by simp) hf (by simp) (Or.inl rfl)

/-- The marker/data sequence `save_binary` writes is of this kind. -/
theorem C13_saved_records_fit (xs : List Nat) : ∀ k, xs.length ≤ k → RecordsFit xs.length (saveRecords k xs) := by
  intro k
  induction k generalizing xs with
  | zero =>
    intro h
    have : xs = [] := List.length_eq_zero_iff.mp (by omega)
    subst this; exact .full _
  | succ k ih =>
    intro h
    rw [saveRecords]
    split
    · rename_i hpos
      simp only
      obtain ⟨n, hn⟩ : ∃ n, n = if xs.length > 512 then 512 else xs.length := ⟨_, rfl⟩
      have hn1 : 1 ≤ n := by rw [hn]; split <;> omega
      have hn2 : n ≤ xs.length := by rw [hn]; split <;> omega
      have hn3 : n ≤ 512 := by rw [hn]; split <;> omega
      rw [← hn, Nat.mod_eq_of_lt (by omega)]
      refine .record xs.length n _ _ _ hn2 (by omega) ?_ (by simp) ?_
      · rw [flatMap_le8_length, List.length_take]; omega
      · have := ih (xs.drop n) (by rw [List.length_drop]; omega)
        rwa [List.length_drop] at this
    · have : xs = [] := List.length_eq_zero_iff.mp (by omega)
      subst this; exact .full _

/-- The full claim is false of the shipped code: a file declaring one XSS entry but carrying a 16-byte record makes the
reader write past the end of the array. -/
theorem C13_violation : ∃ file : List Byte, ACE.readBinary id file = .error .ub :=
  ⟨List.replicate 4 0 ++ List.replicate 116 32 ++ List.replicate 192 0 ++ le 4 1 ++ List.replicate 60 0 ++
     List.replicate 128 0 ++ List.replicate 4 0 ++ le 4 16 ++ List.replicate 16 65 ++ le 4 16, by decide +kernel⟩

/-- It is the record length that matters: the same file with an 8-byte record is read without error. -/
theorem C13_violation_contrast :
    (ACE.readBinary id (List.replicate 4 0 ++ List.replicate 116 32 ++ List.replicate 192 0 ++ le 4 1 ++ List.replicate 60 0 ++
     List.replicate 128 0 ++ List.replicate 4 0 ++ le 4 8 ++ List.replicate 8 65 ++ le 4 8)).toBool = true := by
  decide +kernel

end PNDL
