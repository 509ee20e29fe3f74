import Verif.Lemmas.AceCrash

/-! C159: `save_binary` interrupted, and what reading the file then gives. -/
namespace PNDL
open Spec

/-- The reader after IZAW. -/
private def afterIzaw (mulT : Nat → Nat) (a : ACE) (temp : Nat) (s : Stream) : Res ACE := do
  let (nxs, s) := readInts 16 s
  let (jxs, s) := readInts 32 s
  let s := s.ignore 4
  let n0 ← getAt nxs 0
  if i32 n0 < 0 then .error .exc
  else do
    let size := (i32 n0).toNat
    let (buf, _) ← readRecords size (s.bytes.length + 2) 0 [] (List.replicate (8 * size) 0) s
    let zaidInt ← getAt nxs 1
    let Z := (zaidInt / 1000) % 2 ^ 8
    let A := sub32 zaidInt (Z * 1000)
    let j1 ← getAt jxs 1
    return {
      Z := Z, A := A, temperature := mulT temp, awr := a.awr, fissile := decide (i32 j1 > 0),
      zaidTxt := a.zaidTxt, date := a.date, comment := a.comment, mat := a.mat,
      izaw := a.izaw, nxs := nxs, jxs := jxs, xss := words size buf }

/-- The first 312 bytes written. -/
private def headerBytes (a : ACE) (temp : Nat) : List Byte :=
  le 4 500 ++ a.zaidTxt ++ le 8 a.awr ++ le 8 temp ++ a.date ++ a.comment ++ a.mat ++ a.izaw.flatMap (fun p => le 4 p.1 ++ le 8 p.2)

private theorem izaw_length (l : List (Nat × Nat)) : (l.flatMap (fun p => le 4 p.1 ++ le 8 p.2)).length = 12 * l.length := by
  induction l with
  | nil => rfl
  | cons p l ih => rw [List.flatMap_cons, List.length_append, List.length_append, le_length, le_length, ih, List.length_cons]; omega

private theorem headerBytes_length {a : ACE} (ht : AceTyped a) (temp : Nat) : (headerBytes a temp).length = 312 := by
  unfold headerBytes
  simp only [List.length_append, le_length, izaw_length, ht.zaidTxt, ht.date, ht.comment, ht.mat, ht.izaw]

private theorem saved_bytes {a : ACE} (ht : AceTyped a) (divT : Nat → Nat) : (a.saveBinary divT).2 =
    headerBytes a (divT a.temperature) ++ (a.nxs.flatMap (le 4) ++ (a.jxs.flatMap (le 4) ++ (le 4 500 ++ saveRecords a.xss.length a.xss))) := by
  unfold ACE.saveBinary headerBytes
  simp only
  rw [List.take_of_length_le (by rw [ht.zaidTxt]), List.take_of_length_le (by rw [ht.date]),
    List.take_of_length_le (by rw [ht.comment]), List.take_of_length_le (by rw [ht.mat]),
    List.take_of_length_le (by rw [ht.izaw]), List.take_of_length_le (by rw [ht.nxs]),
    List.take_of_length_le (by rw [ht.jxs])]
  simp only [List.append_assoc]

private theorem read_after {a : ACE} (ht : AceTyped a) (mulT : Nat → Nat) {temp : Nat} (h64 : temp < 2 ^ 64) (b : List Byte) :
    ACE.readBinary mulT (headerBytes a temp ++ b) = afterIzaw mulT a temp (good b) := by
  unfold ACE.readBinary headerBytes afterIzaw
  simp only [List.append_assoc]
  rw [show ∀ b, Stream.mk b false false = good b from fun _ => rfl]
  rw [ignore_good (le_length 4 _)]
  rw [readInto_good ht.zaidTxt (by simp)]
  simp only
  rw [readInto_good (le_length 8 _) (le_length 8 _)]
  simp only
  rw [readInto_good (le_length 8 _) (le_length 8 _)]
  simp only
  rw [readInto_good ht.date (by simp)]
  simp only
  rw [readInto_good ht.comment (by simp)]
  simp only
  rw [readInto_good ht.mat (by simp)]
  simp only
  have hi := readIzaw_good a.izaw b ht.izawB
  rw [ht.izaw] at hi
  rw [hi, unle_le8 h64, unle_le8 ht.awr64]
  simp only [bind, Except.bind]

/-- The bytes of XSS in a complete file. -/
private theorem saveRecords_length (k : Nat) (l : List Nat) (h : l.length ≤ k) : (saveRecords k l).length = 8 * l.length + 8 * ((l.length + 511) / 512) := by
  induction k generalizing l with
  | zero => rw [List.length_eq_zero_iff.mp (show l.length = 0 by omega)]; rfl
  | succ k ih =>
    rw [saveRecords]
    by_cases hl : l.length > 0
    · rw [if_pos hl]
      simp only [List.length_append, le_length, flatMap_le8_length]
      rw [ih _ (by rw [List.length_drop]; split <;> omega)]
      rw [List.length_drop, List.length_take]
      split
      · have : (l.length + 511) / 512 = (l.length - 512 + 511) / 512 + 1 := by omega
        rw [this]; omega
      · omega
    · rw [if_neg hl, List.length_eq_zero_iff.mp (show l.length = 0 by omega)]; rfl

theorem saved_length (divT : Nat → Nat) (a : ACE) (ht : AceTyped a) :
    (a.saveBinary divT).2.length = 508 + 8 * a.xss.length + 8 * ((a.xss.length + 511) / 512) := by
  rw [saved_bytes ht]
  simp only [List.length_append, headerBytes_length ht, flatMap_le_length, le_length, ht.nxs, ht.jxs, saveRecords_length _ _ (le_refl a.xss.length)]
  omega

/-- **C159** A file whose header and first record mark were written is read without complaint: everything but XSS is right, and of XSS what was written, followed by
zeros. -/
theorem C159_records (mulT divT : Nat → Nat) (a : ACE) (ht : AceTyped a) (hn : NxsMatches a) (hd : DerivedOk a) (h64 : divT a.temperature < 2 ^ 64)
    (old : List Byte) (k : Nat) (hk : 512 ≤ k) (hk' : k ≤ (a.saveBinary divT).2.length) :
    ACE.readBinary mulT (a.saveStopped divT old (some k)) =
      .ok { a with temperature := mulT (divT a.temperature), xss := arrived 8 (xssBytes (k - 508) a.xss.length) a.xss } := by
  have hsl := saved_length divT a ht
  obtain ⟨n, j, hn1, hj1, hZ, hA, hf⟩ := hd
  obtain ⟨hn0, hxl⟩ := hn
  have hj : j < 2 ^ 32 := ht.jxsB j (List.mem_of_getElem? hj1)
  have hfile : a.saveStopped divT old (some k) = headerBytes a (divT a.temperature) ++ (a.nxs.flatMap (le 4) ++ (a.jxs.flatMap (le 4) ++
      (le 4 500 ++ (saveRecords a.xss.length a.xss).take (k - 508)))) := by
    show (a.saveBinary divT).2.take k = _
    have l1 := headerBytes_length ht (divT a.temperature)
    have l2 : (a.nxs.flatMap (le 4)).length = 64 := by rw [flatMap_le_length, ht.nxs]
    have l3 : (a.jxs.flatMap (le 4)).length = 128 := by rw [flatMap_le_length, ht.jxs]
    rw [saved_bytes ht, List.take_append, l1, List.take_of_length_le (l := headerBytes _ _) (by rw [l1]; omega),
      List.take_append (l₁ := a.nxs.flatMap (le 4)), l2, List.take_of_length_le (l := a.nxs.flatMap (le 4)) (by rw [l2]; omega),
      List.take_append (l₁ := a.jxs.flatMap (le 4)), l3, List.take_of_length_le (l := a.jxs.flatMap (le 4)) (by rw [l3]; omega),
      List.take_append (l₁ := le 4 500), le_length, List.take_of_length_le (l := le 4 500) (by rw [le_length]; omega),
      show k - 312 - 64 - 128 - 4 = k - 508 by omega]
  rw [hfile, read_after ht mulT h64]
  unfold afterIzaw
  have hx := readInts_good a.nxs (a.jxs.flatMap (le 4) ++ (le 4 500 ++ (saveRecords a.xss.length a.xss).take (k - 508))) ht.nxsB
  rw [ht.nxs] at hx
  rw [hx]
  simp only
  have hjx := readInts_good a.jxs (le 4 500 ++ (saveRecords a.xss.length a.xss).take (k - 508)) ht.jxsB
  rw [ht.jxs] at hjx
  rw [hjx]
  simp only
  rw [ignore_good (le_length 4 _), getAt_eq_ok.mpr hn0]
  simp only [bind, Except.bind]
  rw [i32_of_lt hxl, if_neg (by omega)]
  simp only [Int.toNat_natCast]
  have hrl := saveRecords_length a.xss.length a.xss le_rfl
  obtain ⟨s, hs⟩ := readRecords_cut a.xss.length a.xss.length [] a.xss ((good ((saveRecords a.xss.length a.xss).take (k - 508))).bytes.length + 2) [] (k - 508)
    (le_refl _) (by simp) (by omega) (by simp [good]; omega) (Or.inl ⟨rfl, Or.inr (by omega)⟩)
  simp only [List.length_nil, List.flatMap_nil, List.nil_append] at hs
  rw [hs]
  simp only
  rw [getAt_eq_ok.mpr hn1, getAt_eq_ok.mpr hj1]
  simp only [pure, Except.pure]
  rw [words_arrived a.xss ht.xssB, zaid_sub]
  have hfis : decide (i32 j > 0) = a.fissile := by
    rw [hf]; exact decide_eq_decide.mpr (i32_pos_iff hj)
  have hZ' : n / 1000 % 2 ^ 8 = a.Z := hZ.symm
  have hA' : n - n / 1000 % 256 * 1000 = a.A := by rw [hA, hZ]
  rw [hfis, hZ', hA']

/-- **C159** A save that stopped in the last four bytes, or not at all, gives the whole table. -/
theorem C159_complete (mulT divT : Nat → Nat) (a : ACE) (ht : AceTyped a) (hn : NxsMatches a) (hd : DerivedOk a) (h64 : divT a.temperature < 2 ^ 64)
    (old : List Byte) (k : Nat) (hk : (a.saveBinary divT).2.length ≤ k + 4) (hx : a.xss ≠ []) :
    ACE.readBinary mulT (a.saveStopped divT old (some k)) = .ok { a with temperature := mulT (divT a.temperature) } := by
  have hsl := saved_length divT a ht
  have h0 : 0 < a.xss.length := List.length_pos_iff.mpr hx
  by_cases hk' : k ≤ (a.saveBinary divT).2.length
  · rw [C159_records mulT divT a ht hn hd h64 old k (by omega) hk']
    congr 2
    refine arrived_all (fun x hxx => by have := ht.xssB x hxx; norm_num at this ⊢; exact this) ?_
    unfold xssBytes
    rw [hsl] at hk
    refine le_min le_rfl ?_
    generalize a.xss.length = n at *
    generalize hu : k - 508 = u
    have h1 : 8 * n + 8 * ((n + 511) / 512) ≤ u + 4 := by omega
    have h2 := Nat.div_add_mod u 4104
    have h3 : u % 4104 < 4104 := Nat.mod_lt _ (by norm_num)
    omega
  · have : a.saveStopped divT old (some k) = (a.saveBinary divT).2 := List.take_of_length_le (by omega)
    rw [this]
    exact C10_roundtrip mulT divT a ht hn hd h64

/-- **C159** A save that stopped between IZAW and the end of the header is read without complaint as a table of zeros. -/
theorem C159_header (mulT divT : Nat → Nat) (a : ACE) (ht : AceTyped a) (hn : NxsMatches a) (h64 : divT a.temperature < 2 ^ 64)
    (old : List Byte) (k : Nat) (hk : 312 ≤ k) (hk' : k < 508) :
    ∃ a', ACE.readBinary mulT (a.saveStopped divT old (some k)) = .ok a' ∧ a'.nxs = arrived 4 (k - 312) a.nxs ∧ a'.jxs = arrived 4 (k - 376) a.jxs ∧
      a'.xss = List.replicate (a.xss.length % 256 ^ (k - 312)) 0 ∧ a'.awr = a.awr ∧ a'.temperature = mulT (divT a.temperature) ∧ a'.izaw = a.izaw ∧
      a'.zaidTxt = a.zaidTxt ∧ a'.date = a.date ∧ a'.comment = a.comment ∧ a'.mat = a.mat := by
  obtain ⟨hn0, hxl⟩ := hn
  have l1 := headerBytes_length ht (divT a.temperature)
  have l2 : (a.nxs.flatMap (le 4)).length = 64 := by rw [flatMap_le_length, ht.nxs]
  have l3 : (a.jxs.flatMap (le 4)).length = 128 := by rw [flatMap_le_length, ht.jxs]
  have hfile : a.saveStopped divT old (some k) = headerBytes a (divT a.temperature) ++ ((a.nxs.flatMap (le 4) ++ (a.jxs.flatMap (le 4) ++
      (le 4 500 ++ saveRecords a.xss.length a.xss))).take (k - 312)) := by
    show (a.saveBinary divT).2.take k = _
    rw [saved_bytes ht, List.take_append, l1, List.take_of_length_le (l := headerBytes _ _) (by rw [l1]; omega)]
  rw [hfile, read_after ht mulT h64]
  -- what the two loops leave
  have key : ∃ s, s.eof = true ∧ (readInts 16 (good ((a.nxs.flatMap (le 4) ++ (a.jxs.flatMap (le 4) ++ (le 4 500 ++ saveRecords a.xss.length a.xss))).take (k - 312)))).1 =
      arrived 4 (k - 312) a.nxs ∧ (readInts 32 (readInts 16 (good ((a.nxs.flatMap (le 4) ++ (a.jxs.flatMap (le 4) ++
      (le 4 500 ++ saveRecords a.xss.length a.xss))).take (k - 312)))).2) = (arrived 4 (k - 376) a.jxs, s) ∨
      ∃ b, b.length < 4 ∧ (readInts 16 (good ((a.nxs.flatMap (le 4) ++ (a.jxs.flatMap (le 4) ++ (le 4 500 ++ saveRecords a.xss.length a.xss))).take (k - 312)))).1 =
      arrived 4 (k - 312) a.nxs ∧ (readInts 32 (readInts 16 (good ((a.nxs.flatMap (le 4) ++ (a.jxs.flatMap (le 4) ++
      (le 4 500 ++ saveRecords a.xss.length a.xss))).take (k - 312)))).2) = (arrived 4 (k - 376) a.jxs, good b) := by
    have n4 : ∀ x ∈ a.nxs, x < 256 ^ 4 := fun x hx => by have := ht.nxsB x hx; norm_num at this ⊢; exact this
    have j4 : ∀ x ∈ a.jxs, x < 256 ^ 4 := fun x hx => by have := ht.jxsB x hx; norm_num at this ⊢; exact this
    by_cases h1 : k < 376
    · rw [List.take_append_of_le_length (by rw [l2]; omega)]
      obtain ⟨s, e1, e2⟩ := readInts_cut a.nxs ht.nxsB (k - 312) (by rw [ht.nxs]; omega)
      rw [ht.nxs] at e1
      obtain ⟨s', e3, e4⟩ : ∃ s', readInts a.jxs.length s = (List.replicate a.jxs.length 0, s') ∧ s'.eof = true := by
        generalize a.jxs = l
        clear e1 hfile
        induction l generalizing s with
        | nil => exact ⟨s, rfl, e2⟩
        | cons x l ih =>
          obtain ⟨s', e1, e2'⟩ := ih (s.read 4).2 (read_eof e2).2
          refine ⟨s', ?_, e2'⟩
          simp only [List.length_cons, readInts, readInto, e1]
          rw [(read_eof e2).1]
          rfl
      refine ⟨s', Or.inl ⟨e4, ?_, ?_⟩⟩
      · rw [e1]
      · rw [e1]
        simp only
        rw [ht.jxs] at e3
        rw [e3, show k - 376 = 0 by omega, arrived_zero, ht.jxs]
    · have e0 : (a.nxs.flatMap (le 4) ++ (a.jxs.flatMap (le 4) ++ (le 4 500 ++ saveRecords a.xss.length a.xss))).take (k - 312) =
          a.nxs.flatMap (le 4) ++ (a.jxs.flatMap (le 4) ++ (le 4 500 ++ saveRecords a.xss.length a.xss)).take (k - 376) := by
        rw [List.take_append, l2, List.take_of_length_le (l := a.nxs.flatMap (le 4)) (by rw [l2]; omega), show k - 312 - 64 = k - 376 by omega]
      have e1 := readInts_good a.nxs ((a.jxs.flatMap (le 4) ++ (le 4 500 ++ saveRecords a.xss.length a.xss)).take (k - 376)) ht.nxsB
      rw [ht.nxs] at e1
      have ea : arrived 4 (k - 312) a.nxs = a.nxs := arrived_all n4 (by rw [ht.nxs]; omega)
      rw [e0, e1, ea]
      by_cases h2 : k < 504
      · rw [List.take_append_of_le_length (by rw [l3]; omega)]
        obtain ⟨s, f1, f2⟩ := readInts_cut a.jxs ht.jxsB (k - 376) (by rw [ht.jxs]; omega)
        rw [ht.jxs] at f1
        exact ⟨s, Or.inl ⟨f2, rfl, f1⟩⟩
      · refine ⟨good [], Or.inr ⟨((le 4 500).take (k - 504)), by rw [List.length_take, le_length]; omega, rfl, ?_⟩⟩
        rw [List.take_append, l3, List.take_of_length_le (l := a.jxs.flatMap (le 4)) (by rw [l3]; omega), show k - 376 - 128 = k - 504 by omega,
          List.take_append_of_le_length (by rw [le_length]; omega)]
        have f1 := readInts_good a.jxs ((le 4 500).take (k - 504)) ht.jxsB
        rw [ht.jxs] at f1
        simp only
        rw [f1, arrived_all j4 (by rw [ht.jxs]; omega)]
  have key2 : ∃ s s' : Stream, s'.eof = true ∧ s' = s.ignore 4 ∧ (readInts 16 (good ((a.nxs.flatMap (le 4) ++ (a.jxs.flatMap (le 4) ++
      (le 4 500 ++ saveRecords a.xss.length a.xss))).take (k - 312)))).1 = arrived 4 (k - 312) a.nxs ∧
      (readInts 32 (readInts 16 (good ((a.nxs.flatMap (le 4) ++ (a.jxs.flatMap (le 4) ++ (le 4 500 ++ saveRecords a.xss.length a.xss))).take (k - 312)))).2) =
        (arrived 4 (k - 376) a.jxs, s) := by
    obtain ⟨s, h | ⟨b, hb, h1, h2⟩⟩ := key
    · exact ⟨s, _, ignore_eof h.1, rfl, h.2.1, h.2.2⟩
    · exact ⟨good b, _, ignore_short hb, rfl, h1, h2⟩
  obtain ⟨s, s', he, hs', h1, h2⟩ := key2
  unfold afterIzaw
  simp only
  rw [h1, h2]
  simp only
  rw [← hs']
  have hz : (arrived 4 (k - 312) a.nxs)[0]? = some (a.xss.length % 256 ^ (k - 312)) := by
    unfold arrived
    rw [List.getElem?_mapIdx, hn0]
    simp only [Option.map_some, Nat.mul_zero, Nat.sub_zero]
  have hlt : a.xss.length % 256 ^ (k - 312) < 2 ^ 31 := lt_of_le_of_lt (Nat.mod_le _ _) hxl
  rw [getAt_eq_ok.mpr hz]
  simp only [bind, Except.bind]
  rw [i32_of_lt hlt, if_neg (by omega)]
  simp only [Int.toNat_natCast]
  rw [readRecords_eof he]
  simp only
  have hl1 : 1 < (arrived 4 (k - 312) a.nxs).length := by rw [arrived_length, ht.nxs]; norm_num
  have hl2 : 1 < (arrived 4 (k - 376) a.jxs).length := by rw [arrived_length, ht.jxs]; norm_num
  rw [getAt_eq_ok.mpr (List.getElem?_eq_getElem hl1), getAt_eq_ok.mpr (List.getElem?_eq_getElem hl2)]
  refine ⟨_, rfl, rfl, rfl, ?_, rfl, rfl, rfl, rfl, rfl, rfl, rfl⟩
  show words _ _ = _
  generalize a.xss.length % 256 ^ (k - 312) = m
  have := words_arrived (List.replicate m 0) (fun x hx => by rw [(List.mem_replicate.mp hx).2]; norm_num) 0
  rw [List.take_zero, List.nil_append, Nat.sub_zero, arrived_zero, List.length_replicate] at this
  exact this

/-- **C159** The other stops: reading the file is undefined. -/
theorem C159_violation_undefined (mulT divT : Nat → Nat) (a : ACE) (ht : AceTyped a) (hn : NxsMatches a) (old : List Byte) (k : Nat)
    (hk : k < 312 ∨ 508 ≤ k ∧ k < 512 ∧ a.xss ≠ []) : ACE.readBinary mulT (a.saveStopped divT old (some k)) = .error .ub := by
  have hsl := saved_length divT a ht
  have hlen : (a.saveStopped divT old (some k)).length = min k (a.saveBinary divT).2.length := List.length_take
  rw [C13_iff]
  rcases hk with hk | ⟨h1, h2, h3⟩
  · exact Or.inl (by omega)
  · have h0 : 0 < a.xss.length := List.length_pos_iff.mpr h3
    refine Or.inr ⟨by omega, a.xss.length, ?_, h0, Or.inl (by omega)⟩
    have l1 := headerBytes_length ht (divT a.temperature)
    obtain ⟨x, l, hnl⟩ : ∃ x l, a.nxs = x :: l := by
      cases h : a.nxs with
      | nil => have := ht.nxs; rw [h] at this; cases this
      | cons x l => exact ⟨x, l, rfl⟩
    have hx : x = a.xss.length := by have := hn.1; rw [hnl] at this; exact Option.some.inj this
    have e : ((a.saveStopped divT old (some k)).drop 312).take 4 = le 4 a.xss.length := by
      show (((a.saveBinary divT).2.take k).drop 312).take 4 = _
      rw [saved_bytes ht, List.take_append, l1, List.take_of_length_le (l := headerBytes _ _) (by rw [l1]; omega),
        List.drop_append_of_le_length (by rw [l1]), List.drop_of_length_le (by rw [l1]), List.nil_append, hnl, List.flatMap_cons, hx, List.append_assoc,
        List.take_take, min_eq_left (by omega), List.take_append_of_le_length (by rw [le_length]), List.take_of_length_le (by rw [le_length])]
    rw [e, unle_le4 (lt_trans hn.2 (by norm_num))]
    exact i32_of_lt hn.2

/-- **C159** No stop is ever noticed: the reader never refuses the file.  So whenever a number that is not zero was lost, what is read is another table. -/
theorem C159_violation_silent (mulT divT : Nat → Nat) (a : ACE) (ht : AceTyped a) (hn : NxsMatches a) (hd : DerivedOk a) (h64 : divT a.temperature < 2 ^ 64)
    (old : List Byte) (k i x : Nat) (hk : 512 ≤ k) (hk' : k ≤ (a.saveBinary divT).2.length) (hi : a.xss[i]? = some x) (hx : x ≠ 0)
    (hlost : xssBytes (k - 508) a.xss.length ≤ 8 * i) :
    ∃ a', ACE.readBinary mulT (a.saveStopped divT old (some k)) = .ok a' ∧ a'.xss.length = a.xss.length ∧ a'.xss[i]? = some 0 ∧ a'.xss ≠ a.xss := by
  refine ⟨_, C159_records mulT divT a ht hn hd h64 old k hk hk', arrived_length _ _ _, ?_, ?_⟩
  · show (arrived _ _ _)[i]? = _
    unfold arrived
    rw [List.getElem?_mapIdx, hi, Nat.sub_eq_zero_of_le hlost]
    simp [Nat.mod_one]
  · intro h
    have h' : (arrived 8 (xssBytes (k - 508) a.xss.length) a.xss)[i]? = a.xss[i]? := by rw [show arrived 8 (xssBytes (k - 508) a.xss.length) a.xss = a.xss from h]
    unfold arrived at h'
    rw [List.getElem?_mapIdx, hi, Nat.sub_eq_zero_of_le hlost] at h'
    simp [Nat.mod_one] at h'
    exact hx h'.symm

/-- **C159** The entries that were written are right, whatever the stop: what the reader invents is zeros only. -/
theorem C159_written_partial (mulT divT : Nat → Nat) (a : ACE) (ht : AceTyped a) (hn : NxsMatches a) (hd : DerivedOk a) (h64 : divT a.temperature < 2 ^ 64)
    (old : List Byte) (k : Nat) (hk : 512 ≤ k) (hk' : k ≤ (a.saveBinary divT).2.length) :
    ∃ a', ACE.readBinary mulT (a.saveStopped divT old (some k)) = .ok a' ∧ a'.xss.length = a.xss.length ∧
      (∀ i, 8 * (i + 1) ≤ xssBytes (k - 508) a.xss.length → a'.xss[i]? = a.xss[i]?) ∧
      ∀ i, xssBytes (k - 508) a.xss.length ≤ 8 * i → ∀ x, a'.xss[i]? = some x → x = 0 := by
  refine ⟨_, C159_records mulT divT a ht hn hd h64 old k hk hk', arrived_length _ _ _, fun i hi => ?_, fun i hi x hx => ?_⟩
  · show (arrived _ _ _)[i]? = _
    unfold arrived
    rw [List.getElem?_mapIdx]
    cases h : a.xss[i]? with
    | none => rfl
    | some x =>
      have : x < 256 ^ 8 := by have := ht.xssB x (List.mem_of_getElem? h); norm_num at this ⊢; exact this
      show some (x % _) = _
      rw [Nat.mod_eq_of_lt (lt_of_lt_of_le this (Nat.pow_le_pow_right (by norm_num) (by omega)))]
  · have hx' : (arrived 8 (xssBytes (k - 508) a.xss.length) a.xss)[i]? = some x := hx
    unfold arrived at hx'
    rw [List.getElem?_mapIdx, Nat.sub_eq_zero_of_le hi] at hx'
    cases h : a.xss[i]? with
    | none => rw [h] at hx'; cases hx'
    | some y => rw [h] at hx'; simp [Nat.mod_one] at hx'; exact hx'.symm

/-- **C159** Saving over a good file and stopping at once loses it: the old table cannot be read any more. -/
theorem C159_violation_overwrite (mulT divT : Nat → Nat) (a b : ACE) (ht : AceTyped a) (hn : NxsMatches a) (hd : DerivedOk a)
    (h64 : divT a.temperature < 2 ^ 64) (hb : AceTyped b) (hbn : NxsMatches b) :
    ACE.readBinary mulT (b.saveStopped divT (a.saveBinary divT).2 none) = .ok { a with temperature := mulT (divT a.temperature) } ∧
    ACE.readBinary mulT (b.saveStopped divT (a.saveBinary divT).2 (some 0)) = .error .ub :=
  ⟨C10_roundtrip mulT divT a ht hn hd h64, C159_violation_undefined mulT divT b hb hbn _ 0 (Or.inl (by norm_num))⟩

/-- The hypotheses hold for a table of 600 entries (two records): the file has 5324 bytes, and a stop after 5000 of them loses the last 38 entries. -/
example : ∃ a', ACE.readBinary id ((aceSample 600).saveStopped id [] (some 5000)) = .ok a' ∧ a'.xss.length = (aceSample 600).xss.length ∧ a'.xss[599]? = some 0 ∧
    a'.xss ≠ (aceSample 600).xss := by
  obtain ⟨h1, h2, h3⟩ := aceSample_ok 600 (by norm_num)
  have hl : (aceSample 600).xss.length = 600 := List.length_replicate
  refine C159_violation_silent id id _ h1 h2 h3 (by show (7 : Nat) < _; norm_num) [] 5000 599 12345 (by norm_num) ?_ ?_ (by norm_num) ?_
  · rw [saved_length _ _ h1, hl]; norm_num
  · show (List.replicate 600 12345)[599]? = _
    rw [List.getElem?_replicate]; rfl
  · rw [hl]; decide

end PNDL
