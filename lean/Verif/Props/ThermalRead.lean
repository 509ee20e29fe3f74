import Verif.Spec.ThermalFile
import Verif.Props.ThermalLaw
import Verif.Props.ThermalCont
import Verif.Props.TabRead
import Verif.Props.Linearize

/-! C116: a thermal scattering law made from a file holds what the file says, and exactly the sensible files are accepted. -/
namespace PNDL
open Spec

theorem bind_iff {α β : Type} {x : Res α} {f : α → Res β} {y : β} : (x >>= f) = .ok y ↔ ∃ a, x = .ok a ∧ f a = .ok y := by
  constructor
  · exact fun h => bind_ok h
  · rintro ⟨a, rfl, h⟩; exact h

theorem ite_error_iff {α : Type} {p : Prop} [Decidable p] {e : Err} {x : Res α} {y : α} : (if p then .error e else x) = .ok y ↔ ¬ p ∧ x = .ok y := by
  split_ifs with h
  · simp [h]
  · simp [h]

theorem pure_iff {α : Type} {x y : α} : (pure x : Res α) = .ok y ↔ x = y := by
  constructor
  · intro h; cases h; rfl
  · rintro rfl; rfl

theorem ok_iff {α : Type} {x y : α} : (.ok x : Res α) = .ok y ↔ x = y := by
  constructor
  · intro h; cases h; rfl
  · rintro rfl; rfl

theorem locator_nat (n : Nat) : locator ((n : Int) + 1) = .ok n := by
  unfold locator
  rw [if_pos (by omega)]
  simp

theorem asU32_nat {n : Nat} (h : n < 2 ^ 32) : asU32 (n : Int) = n := by
  unfold asU32
  omega

theorem Spec.Holds.counted {xss : List ℝ} {i : Nat} {x y : List ℝ} (h : Holds xss i (Spec.counted x y)) (hl : y.length = x.length) :
    natAt xss i = .ok x.length ∧ xssSlice xss (i + 1) x.length = .ok x ∧ xssSlice xss (i + 1 + x.length) x.length = .ok y := by
  unfold Spec.counted at h
  refine ⟨h.left.nat, h.right.left.slice, ?_⟩
  have := h.right.right.slice
  rw [hl] at this
  exact this

theorem sorted_bounds {l : List ℝ} (hs : l.Pairwise (· ≤ ·)) (hne : l ≠ []) (u v : ℝ) :
    (∃ a, front l = .ok a ∧ ¬ a < u ∧ ∃ b, back l = .ok b ∧ ¬ b > v) ↔ ∀ m ∈ l, u ≤ m ∧ m ≤ v := by
  obtain ⟨a, ha⟩ := getElem?_of_lt (l := l) (i := 0) (List.length_pos_iff.mpr hne)
  obtain ⟨b, hb⟩ := last_exists (l := l) (List.length_pos_iff.mpr hne)
  constructor
  · rintro ⟨a', ha', h1, b', hb', h2⟩ m hm
    rw [front_eq_ok] at ha'
    rw [back_eq_ok] at hb'
    obtain ⟨k, hk⟩ := List.mem_iff_getElem?.mp hm
    have q1 := pairwise_le_getElem? hs (Nat.zero_le k) ha' hk
    have q2 := pairwise_le_getElem? hs (by have := lt_length_of_some hk; omega) hk (getLast_get hb')
    exact ⟨by linarith, by linarith⟩
  · intro h
    exact ⟨a, front_eq_ok.mpr ha, not_lt.mpr (h a (List.mem_of_getElem? ha)).1, b, back_eq_ok.mpr hb, not_lt.mpr (h b (List.mem_of_getLast? hb)).2⟩

theorem sorted_nonneg {l : List ℝ} (hs : l.Pairwise (· ≤ ·)) : (∃ a, front l = .ok a ∧ ¬ a < 0) ↔ l ≠ [] ∧ ∀ m ∈ l, 0 ≤ m := by
  constructor
  · rintro ⟨a, ha, h⟩
    rw [front_eq_ok] at ha
    refine ⟨by rintro rfl; simp at ha, fun m hm => ?_⟩
    obtain ⟨k, hk⟩ := List.mem_iff_getElem?.mp hm
    have := pairwise_le_getElem? hs (Nat.zero_le k) ha hk
    linarith
  · rintro ⟨hne, h⟩
    obtain ⟨a, ha⟩ := getElem?_of_lt (l := l) (i := 0) (List.length_pos_iff.mpr hne)
    exact ⟨a, front_eq_ok.mpr ha, not_lt.mpr (h a (List.mem_of_getElem? ha))⟩

theorem isSorted_false {l : List ℝ} : ¬ (isSorted l = false) ↔ l.Pairwise (· ≤ ·) := by
  rw [Bool.not_eq_false]
  exact isSorted_iff

/-! ### Discrete energies -/

theorem readDiscrete_iff {xss : List ℝ} {nmu i : Nat} {d x : DiscreteEnergy} (h : Holds xss i (discreteRecord d)) (hl : d.cosines.length = nmu) :
    readDiscrete xss nmu i = .ok x ↔ (0 < d.energy ∧ AreCosines d.cosines) ∧ x = d := by
  have h' : Holds xss i ([d.energy] ++ d.cosines) := h
  have hs := h'.right.slice
  rw [hl] at hs
  unfold readDiscrete
  rw [h'.left.get]
  simp only [List.length_cons, List.length_nil, Nat.zero_add] at hs
  simp only [bind_iff, ite_error_iff, ok_iff, exists_eq_left', hs, pure_iff, not_le, AreCosines]
  push Not
  constructor
  · rintro ⟨h1, h2, rfl⟩; exact ⟨⟨h1, h2⟩, rfl⟩
  · rintro ⟨⟨h1, h2⟩, rfl⟩; exact ⟨h1, h2, rfl⟩

theorem readDiscretes_iff {xss : List ℝ} {nmu : Nat} : ∀ {t : List DiscreteEnergy} {i : Nat} {xs : List DiscreteEnergy}, Holds xss i (t.flatMap discreteRecord) →
    (∀ d ∈ t, d.cosines.length = nmu) → (readDiscretes xss nmu t.length i = .ok xs ↔ (∀ d ∈ t, 0 < d.energy ∧ AreCosines d.cosines) ∧ xs = t) := by
  intro t
  induction t with
  | nil => intro i xs _ _; simp [readDiscretes, eq_comm]
  | cons d t ih =>
    intro i xs h hl
    rw [List.flatMap_cons] at h
    have hr := h.right
    have e : i + (discreteRecord d).length = i + 1 + nmu := by
      have := hl d (by simp)
      simp only [discreteRecord, List.length_cons]; omega
    rw [e] at hr
    rw [List.length_cons, readDiscretes]
    simp only [bind_iff, readDiscrete_iff h.left (hl d (by simp)), ih hr (fun x hx => hl x (by simp [hx])), pure_iff]
    constructor
    · rintro ⟨_, ⟨h1, rfl⟩, _, ⟨h2, rfl⟩, rfl⟩
      exact ⟨fun x hx => (List.mem_cons.mp hx).elim (fun h => h ▸ h1) (h2 x), rfl⟩
    · rintro ⟨h1, rfl⟩
      exact ⟨d, ⟨h1 d (by simp), rfl⟩, t, ⟨fun x hx => h1 x (by simp [hx]), rfl⟩, rfl⟩

theorem flatMap_length_const {α β : Type} (f : α → List β) (n : Nat) : ∀ l : List α, (∀ a ∈ l, (f a).length = n) → (l.flatMap f).length = l.length * n := by
  intro l
  induction l with
  | nil => simp
  | cons a l ih =>
    intro h
    rw [List.flatMap_cons, List.length_append, ih (fun x hx => h x (by simp [hx])), h a (by simp), List.length_cons, Nat.succ_mul]
    omega

theorem readDiscreteTables_iff {xss : List ℝ} {nmu noe : Nat} : ∀ {out : List (List DiscreteEnergy)} {i : Nat} {os : List (List DiscreteEnergy)},
    Holds xss i (out.flatMap (fun t => t.flatMap discreteRecord)) → (∀ t ∈ out, t.length = noe ∧ ∀ d ∈ t, d.cosines.length = nmu) →
    (readDiscreteTables xss nmu noe out.length i = .ok os ↔ (∀ t ∈ out, ∀ d ∈ t, 0 < d.energy ∧ AreCosines d.cosines) ∧ os = out) := by
  intro out
  induction out with
  | nil => intro i xs _ _; simp [readDiscreteTables, eq_comm]
  | cons t out ih =>
    intro i os h hl
    rw [List.flatMap_cons] at h
    have hr := h.right
    obtain ⟨l1, l2⟩ := hl t (by simp)
    rw [flatMap_length_const discreteRecord (1 + nmu) t (fun d hd => by simp only [discreteRecord, List.length_cons, l2 d hd]; omega), l1] at hr
    have key := @readDiscretes_iff xss nmu t i
    rw [l1] at key
    rw [List.length_cons, readDiscreteTables]
    simp only [bind_iff, key h.left l2, ih hr (fun x hx => hl x (by simp [hx])), pure_iff]
    constructor
    · rintro ⟨_, ⟨h1, rfl⟩, _, ⟨h2, rfl⟩, rfl⟩
      exact ⟨fun x hx => (List.mem_cons.mp hx).elim (fun h => h ▸ h1) (h2 x), rfl⟩
    · rintro ⟨h1, rfl⟩
      exact ⟨t, ⟨h1 t (by simp), rfl⟩, out, ⟨fun x hx => h1 x (by simp [hx]), rfl⟩, rfl⟩

/-! ### Tables of energies -/

theorem readEntry_iff {xss : List ℝ} {nmu i : Nat} {d x : CEDCEntry} (h : Holds xss i (entryRecord d)) (hl : d.mus.length = nmu) :
    readEntry xss nmu i = .ok x ↔ (d.mus ≠ [] ∧ AreCosines d.mus) ∧ x = ⟨d.e, if d.p < 0 ∧ |d.p| < 1 / 10 ^ 20 then 0 else d.p, d.c, sortIfNeeded d.mus⟩ := by
  have h' : Holds xss i ([d.e] ++ ([d.p] ++ ([d.c] ++ d.mus))) := h
  have h2 := h'.right
  have h3 := h2.right
  have h4 := h3.right
  have hs := h4.slice
  rw [hl] at hs
  simp only [List.length_cons, List.length_nil, Nat.zero_add] at hs h2 h3
  unfold readEntry
  rw [h'.left.get, h2.left.get, h3.left.get]
  have hp := sortIfNeeded_perm d.mus
  have hss := sortIfNeeded_sorted d.mus
  simp only [bind_iff, ite_error_iff, ok_iff, exists_eq_left', show i + 3 = i + 1 + 1 + 1 from rfl, hs, pure_iff]
  by_cases hne : d.mus = []
  · have : sortIfNeeded d.mus = [] := by rw [hne] at hp ⊢; exact hp.eq_nil
    rw [this]
    simp [hne, front, getAt]
  · have hne' : sortIfNeeded d.mus ≠ [] := fun h => hne (by rw [h] at hp; exact hp.symm.eq_nil)
    have key := sorted_bounds hss hne' (-1) 1
    have hm : (∀ m ∈ sortIfNeeded d.mus, -1 ≤ m ∧ m ≤ 1) ↔ AreCosines d.mus :=
      ⟨fun h m hm => h m (hp.mem_iff.mpr hm), fun h m hm => h m (hp.mem_iff.mp hm)⟩
    rw [hm] at key
    rw [← key]
    constructor
    · rintro ⟨a, h1, h2, b, h3, h4, rfl⟩
      exact ⟨⟨hne, a, h1, h2, b, h3, h4⟩, rfl⟩
    · rintro ⟨⟨_, a, h1, h2, b, h3, h4⟩, rfl⟩
      exact ⟨a, h1, h2, b, h3, h4, rfl⟩

/-- What the reader makes of a point. -/
noncomputable def entryRead (d : CEDCEntry) : CEDCEntry := ⟨d.e, if d.p < 0 ∧ |d.p| < 1 / 10 ^ 20 then 0 else d.p, d.c, sortIfNeeded d.mus⟩

theorem readEntries_iff {xss : List ℝ} {nmu : Nat} : ∀ {t : List CEDCEntry} {i : Nat} {xs : List CEDCEntry}, Holds xss i (t.flatMap entryRecord) →
    (∀ d ∈ t, d.mus.length = nmu) → (readEntries xss nmu t.length i = .ok xs ↔ (∀ d ∈ t, d.mus ≠ [] ∧ AreCosines d.mus) ∧ xs = t.map entryRead) := by
  intro t
  induction t with
  | nil => intro i xs _ _; simp [readEntries, eq_comm]
  | cons d t ih =>
    intro i xs h hl
    rw [List.flatMap_cons] at h
    have hr := h.right
    have e : i + (entryRecord d).length = i + 3 + nmu := by
      have := hl d (by simp)
      simp only [entryRecord, List.length_append, List.length_cons, List.length_nil]; omega
    rw [e] at hr
    rw [List.length_cons, readEntries]
    simp only [bind_iff, readEntry_iff h.left (hl d (by simp)), ih hr (fun x hx => hl x (by simp [hx])), pure_iff]
    constructor
    · rintro ⟨_, ⟨h1, rfl⟩, _, ⟨h2, rfl⟩, rfl⟩
      exact ⟨fun x hx => (List.mem_cons.mp hx).elim (fun h => h ▸ h1) (h2 x), rfl⟩
    · rintro ⟨h1, rfl⟩
      exact ⟨_, ⟨h1 d (by simp), rfl⟩, _, ⟨fun x hx => h1 x (by simp [hx]), rfl⟩, rfl⟩

theorem iso_eq {nmu : Nat} (hn : 0 < nmu) : (List.range nmu).map (isoCosine (2 / (nmu : ℝ))) = isotropicCosines nmu := by
  unfold isotropicCosines
  refine List.map_congr_left fun i _ => ?_
  rw [isoCosine_eq]
  have : (0 : ℝ) < nmu := by exact_mod_cast hn
  field_simp

theorem pairwise_zero_cons {l : List ℝ} : (0 :: l).Pairwise (· ≤ ·) ↔ l.Pairwise (· ≤ ·) ∧ ∀ m ∈ l, 0 ≤ m := by
  rw [List.pairwise_cons, and_comm]

theorem addZero_part {α : Type} (f g : CEDCEntry → α) (nmu : Nat) (t : List CEDCEntry) (h : ∀ d, f (entryRead d) = g d)
    (h0 : f ⟨0, 0, 0, (List.range nmu).map (isoCosine (2 / (nmu : ℝ)))⟩ = g ⟨0, 0, 0, isotropicCosines nmu⟩) :
    (addZero nmu (t.map entryRead)).map f = (fromZero nmu t).map g := by
  cases t with
  | nil => simp [addZero, fromZero]
  | cons d t =>
    have hm : (t.map entryRead).map f = t.map g := by
      rw [List.map_map]
      exact List.map_congr_left fun x _ => h x
    unfold addZero fromZero
    rw [List.map_cons]
    dsimp only
    by_cases hc : 0 < d.c
    · rw [if_pos (show (entryRead d).c > 0 from hc), if_pos ⟨d, rfl, hc⟩, List.map_cons, List.map_cons, List.map_cons, List.map_cons, h, h0, hm]
    · rw [if_neg (show ¬ (entryRead d).c > 0 from hc), if_neg (by rintro ⟨e, he, h⟩; cases he; exact hc h), List.map_cons, List.map_cons, h, hm]

theorem fromZero_energy (nmu : Nat) (t : List CEDCEntry) :
    (((fromZero nmu t).map (·.e)).Pairwise (· ≤ ·) ∧ (fromZero nmu t).map (·.e) ≠ [] ∧ ∀ m ∈ (fromZero nmu t).map (·.e), 0 ≤ m) ↔
      (t ≠ [] ∧ (t.map (·.e)).Pairwise (· ≤ ·) ∧ ∀ d ∈ t, 0 ≤ d.e) := by
  cases t with
  | nil => simp [fromZero]
  | cons d t =>
    unfold fromZero
    split_ifs
    · rw [List.map_cons, pairwise_zero_cons]
      constructor
      · rintro ⟨⟨h1, h2⟩, _⟩
        exact ⟨by simp, h1, fun x hx => h2 _ (List.mem_map_of_mem hx)⟩
      · rintro ⟨_, h1, h2⟩
        have : ∀ m ∈ (d :: t).map (·.e), 0 ≤ m := by
          intro m hm
          obtain ⟨x, hx, rfl⟩ := List.mem_map.mp hm
          exact h2 x hx
        exact ⟨⟨h1, this⟩, by simp, fun m hm => (List.mem_cons.mp hm).elim (fun h => h ▸ le_rfl) (this m)⟩
    · constructor
      · rintro ⟨h1, _, h2⟩
        exact ⟨by simp, h1, fun x hx => h2 _ (List.mem_map_of_mem hx)⟩
      · rintro ⟨_, h1, h2⟩
        refine ⟨h1, by simp, fun m hm => ?_⟩
        obtain ⟨x, hx, rfl⟩ := List.mem_map.mp hm
        exact h2 x hx

theorem fromZero_cdf (nmu : Nat) (t : List CEDCEntry) : ((fromZero nmu t).map (·.c)).Pairwise (· ≤ ·) ↔ (t.map (·.c)).Pairwise (· ≤ ·) := by
  cases t with
  | nil => simp [fromZero]
  | cons d t =>
    unfold fromZero
    split_ifs with h
    · obtain ⟨e, he, h⟩ := h
      cases he
      rw [List.map_cons, pairwise_zero_cons]
      refine ⟨fun h => h.1, fun h' => ⟨h', fun m hm => ?_⟩⟩
      rw [List.map_cons] at hm h'
      rcases List.mem_cons.mp hm with rfl | hm
      · exact h.le
      · exact h.le.trans ((List.pairwise_cons.mp h').1 m hm)
    · rfl

theorem fromZero_pdf (nmu : Nat) (t : List CEDCEntry) :
    (∀ m ∈ (fromZero nmu t).map (fun d => if d.p < 0 ∧ |d.p| < 1 / 10 ^ 20 then 0 else d.p), m < 0 → |m| < 1 / 10 ^ 15) ↔ ∀ d ∈ t, -(1 / 10 ^ 15) < d.p := by
  have key : ∀ d : CEDCEntry, ((if d.p < 0 ∧ |d.p| < 1 / 10 ^ 20 then 0 else d.p) < 0 → |if d.p < 0 ∧ |d.p| < 1 / 10 ^ 20 then 0 else d.p| < 1 / 10 ^ 15) ↔ -(1 / 10 ^ 15) < d.p := by
    intro d
    split_ifs with h
    · rw [abs_of_neg h.1] at h
      norm_num at h ⊢
      linarith
    · rcases lt_or_ge d.p 0 with h0 | h0
      · rw [abs_of_neg h0]
        constructor
        · intro h; have := h h0; linarith
        · intro h _; linarith
      · constructor
        · intro _; norm_num; linarith
        · intro _ h; linarith
  have hm : ∀ l : List CEDCEntry, (∀ m ∈ l.map (fun d => if d.p < 0 ∧ |d.p| < 1 / 10 ^ 20 then 0 else d.p), m < 0 → |m| < 1 / 10 ^ 15) ↔ ∀ d ∈ l, -(1 / 10 ^ 15) < d.p := by
    intro l
    rw [List.forall_mem_map]
    exact forall₂_congr fun d _ => key d
  rw [hm]
  unfold fromZero
  split_ifs
  · rw [List.forall_mem_cons]
    refine ⟨fun h => h.2, fun h => ⟨by norm_num, h⟩⟩
  · rfl

/-- The table the reader makes. -/
noncomputable def tableOf (nmu : Nat) (t : List CEDCEntry) : CEDCTable :=
  ⟨(fromZero nmu t).map (·.e), (fromZero nmu t).map (fun e => max 0 e.p), (fromZero nmu t).map (·.c), (addZero nmu (t.map entryRead)).map (·.mus)⟩

theorem CEDCTable.read_iff {xss : List ℝ} {nmu l : Nat} {t : List CEDCEntry} {o : CEDCTable} (h : Holds xss l (t.flatMap entryRecord))
    (hl : ∀ d ∈ t, d.mus.length = nmu) : CEDCTable.read xss nmu t.length l = .ok o ↔ GoodEntries t ∧ o = tableOf nmu t := by
  have e1 : (addZero nmu (t.map entryRead)).map (·.e) = (fromZero nmu t).map (·.e) := addZero_part _ _ _ _ (fun _ => rfl) rfl
  have e2 : (addZero nmu (t.map entryRead)).map (·.c) = (fromZero nmu t).map (·.c) := addZero_part _ _ _ _ (fun _ => rfl) rfl
  have e3 : (addZero nmu (t.map entryRead)).map (·.p) = (fromZero nmu t).map (fun d => if d.p < 0 ∧ |d.p| < 1 / 10 ^ 20 then 0 else d.p) :=
    addZero_part _ _ _ _ (fun _ => rfl) (by simp)
  have e4 : ((fromZero nmu t).map (fun d => if d.p < 0 ∧ |d.p| < 1 / 10 ^ 20 then 0 else d.p)).map (fun p => if p < 0 then 0 else p) =
      (fromZero nmu t).map (fun e => max 0 e.p) := by
    rw [List.map_map]
    refine List.map_congr_left fun d _ => ?_
    simp only [Function.comp_apply]
    split_ifs with h1 h2 h3
    · rw [max_eq_left h1.1.le]
    · rw [max_eq_left h1.1.le]
    · rw [max_eq_left h3.le]
    · rw [max_eq_right (not_lt.mp h3)]
  unfold CEDCTable.read
  simp only [bind_iff, readEntries_iff h hl, ite_error_iff, pure_iff, isSorted_false]
  constructor
  · rintro ⟨es, ⟨h1, rfl⟩, h2, a, ha, h3, h4, h5, rfl⟩
    rw [e1] at h2 ha
    rw [e2] at h4
    rw [e3] at h5
    push Not at h5
    obtain ⟨q1, q2, q3⟩ := (fromZero_energy nmu t).mp ⟨h2, (sorted_nonneg h2).mp ⟨a, ha, h3⟩⟩
    refine ⟨⟨q1, q2, q3, (fromZero_cdf nmu t).mp h4, (fromZero_pdf nmu t).mp h5, h1⟩, ?_⟩
    rw [e1, e2, e3, e4]
    rfl
  · rintro ⟨hg, rfl⟩
    obtain ⟨q1, q2, q3⟩ := (fromZero_energy nmu t).mpr ⟨hg.ne, hg.energy, hg.nonneg⟩
    obtain ⟨a, ha, h3⟩ := (sorted_nonneg q1).mpr ⟨q2, q3⟩
    refine ⟨_, ⟨hg.cosines, rfl⟩, by rw [e1]; exact q1, a, by rw [e1]; exact ha, h3, by rw [e2]; exact (fromZero_cdf nmu t).mpr hg.cdf, ?_, ?_⟩
    · rw [e3]
      push Not
      exact (fromZero_pdf nmu t).mpr hg.pdf
    · rw [e1, e2, e3, e4]
      rfl

theorem forall₂_self_map {α β γ : Type} {R : β → γ → Prop} (f : α → β) (g : α → γ) (h : ∀ a, R (f a) (g a)) : ∀ l : List α, List.Forall₂ R (l.map f) (l.map g)
  | [] => List.Forall₂.nil
  | a :: l => List.Forall₂.cons (h a) (forall₂_self_map f g h l)

theorem tableOf_is {nmu : Nat} (hn : 0 < nmu) (t : List CEDCEntry) : TableIs nmu t (tableOf nmu t) := by
  refine ⟨rfl, rfl, rfl, ?_⟩
  have hR : ∀ d : CEDCEntry, (entryRead d).mus.Perm d.mus ∧ (entryRead d).mus.Pairwise (· ≤ ·) := fun d => ⟨sortIfNeeded_perm _, sortIfNeeded_sorted _⟩
  have hall : ∀ l : List CEDCEntry, List.Forall₂ (fun (u : List ℝ) (e : CEDCEntry) => u.Perm e.mus ∧ u.Pairwise (· ≤ ·)) ((l.map entryRead).map (·.mus)) l := by
    intro l
    have := forall₂_self_map (R := fun (u : List ℝ) (e : CEDCEntry) => u.Perm e.mus ∧ u.Pairwise (· ≤ ·)) (fun d => (entryRead d).mus) (fun d => d) hR l
    rw [List.map_id'] at this
    rw [List.map_map]
    exact this
  show List.Forall₂ _ ((addZero nmu (t.map entryRead)).map (·.mus)) _
  cases t with
  | nil => simp [addZero, fromZero]
  | cons d t =>
    unfold addZero fromZero
    rw [List.map_cons]
    dsimp only
    by_cases hc : 0 < d.c
    · rw [if_pos (show (entryRead d).c > 0 from hc), if_pos ⟨d, rfl, hc⟩, List.map_cons]
      refine List.Forall₂.cons ⟨?_, ?_⟩ (hall (d :: t))
      · rw [iso_eq hn]
      · exact (isoCosine_cosines hn).sorted
    · rw [if_neg (show ¬ (entryRead d).c > 0 from hc), if_neg (by rintro ⟨e, he, h⟩; cases he; exact hc h)]
      exact hall (d :: t)

theorem readCEDCs_iff {xss : List ℝ} {nmu : Nat} : ∀ {locs : List Nat} {tables : List (List CEDCEntry)} {ts : List CEDCTable},
    List.Forall₂ (fun l t => Holds xss l (t.flatMap entryRecord)) locs tables → (∀ t ∈ tables, ∀ e ∈ t, e.mus.length = nmu) →
    (readCEDCs xss nmu (locs.zip (tables.map List.length)) = .ok ts ↔ (∀ t ∈ tables, GoodEntries t) ∧ ts = tables.map (tableOf nmu)) := by
  intro locs tables ts h
  induction h generalizing ts with
  | nil => intro _; simp [readCEDCs, eq_comm]
  | cons h _ ih =>
    intro hl
    rw [List.map_cons, List.zip_cons_cons, readCEDCs]
    simp only [bind_iff, CEDCTable.read_iff h (hl _ (by simp)), ih (fun t ht => hl t (by simp [ht])), pure_iff]
    constructor
    · rintro ⟨_, ⟨h1, rfl⟩, _, ⟨h2, rfl⟩, rfl⟩
      exact ⟨fun x hx => (List.mem_cons.mp hx).elim (fun h => h ▸ h1) (h2 x), rfl⟩
    · rintro ⟨h1, rfl⟩
      exact ⟨_, ⟨h1 _ (by simp), rfl⟩, _, ⟨fun x hx => h1 x (by simp [hx]), rfl⟩, rfl⟩

/-! ### The parts and the whole -/

theorem make1_iff {x y : List ℝ} {t : Tab1D} (hl : y.length = x.length) (h32 : x.length < 2 ^ 32) :
    Tab1D.make1 .linLin x y = .ok t ↔ (x ≠ [] ∧ x.Pairwise (· ≤ ·)) ∧ t = linearTable x y := by
  by_cases hs : x.Pairwise (· ≤ ·)
  · by_cases hne : x = []
    · subst hne
      have : y = [] := List.length_eq_zero_iff.mp hl
      subst this
      simp [Tab1D.make1, isSorted, slice, Region.make, bind, Except.bind]
    · rw [make1_linLin hne hl.symm hs h32, ok_iff]
      exact ⟨fun h => ⟨⟨hne, hs⟩, h.symm⟩, fun h => h.2.symm⟩
  · constructor
    · intro h
      unfold Tab1D.make1 at h
      dsimp only at h
      rw [if_neg (by simp [hl]), if_pos (by rw [← Bool.not_eq_true, isSorted_iff]; exact hs)] at h
      cases h
    · exact fun h => absurd h.1.2 hs

theorem discrete_iff {a : TslAce} {es xs : List ℝ} {nmu s : Nat} (hs : a.jxs 0 = (s : Int) + 1) (hg : Holds a.xss s (Spec.counted es xs)) (hl : xs.length = es.length)
    (hm : nmu < 2 ^ 32) {sk : Bool} {noe : Nat} {out : List (List DiscreteEnergy)} (hn : noe < 2 ^ 32) (h : DistHolds a es.length nmu (.discrete sk noe out)) {d : DiscreteCE} :
    DiscreteCE.makeAce a = .ok d ↔ (es.Pairwise (· ≤ ·) ∧ GoodDist (.discrete sk noe out)) ∧ d = ⟨es, out, noe, nmu, sk⟩ := by
  obtain ⟨h1, h2, h3, h4, h5, i, h6, h7⟩ := h
  obtain ⟨c1, c2, c3⟩ := hg.counted hl
  have hk : decide (a.nxs 6 = 1) = sk := by rw [h1]; cases sk <;> simp
  have hn0 : ¬ (a.nxs 6 ≠ 0 ∧ a.nxs 6 ≠ 1) := by rw [h1]; cases sk <;> simp
  unfold DiscreteCE.makeAce
  rw [if_neg hn0, hs, locator_nat, h6, h2, h3, asU32_nat hm, asU32_nat hn]
  have key := fun os => readDiscreteTables_iff (os := os) h7 h5
  rw [h4] at key
  simp only [hk]
  simp only [bind_iff, ite_error_iff, ok_iff, exists_eq_left', c1, c2, pure_iff, isSorted_false, locator_nat, key]
  unfold GoodDist
  constructor
  · rintro ⟨q1, q2, _, ⟨q3, rfl⟩, rfl⟩
    exact ⟨⟨q1, fun h => by by_contra hc; exact q2 ⟨h, by omega⟩, q3⟩, rfl⟩
  · rintro ⟨⟨q1, q2, q3⟩, rfl⟩
    exact ⟨q1, fun h => absurd (q2 h.1) (by omega), out, ⟨q3, rfl⟩, rfl⟩

theorem natSlice_of {xss : List ℝ} {i : Nat} {l : List Nat} (h : Holds xss i (l.map (fun (n : Nat) => (n : ℝ)))) : natSlice xss i l.length = .ok l := by
  unfold natSlice
  have := h.slice
  rw [List.length_map] at this
  rw [this]
  simp only [bind, Except.bind, pure, Except.pure, List.map_map]
  congr 1
  conv_rhs => rw [← List.map_id l]
  refine List.map_congr_left fun n _ => ?_
  simp

theorem continuous_iff {a : TslAce} {es xs : List ℝ} {nmu s : Nat} (hs : a.jxs 0 = (s : Int) + 1) (hg : Holds a.xss s (Spec.counted es xs)) (hl : xs.length = es.length)
    (hm : nmu < 2 ^ 32) {tables : List (List CEDCEntry)} (h : DistHolds a es.length nmu (.continuous tables)) {u : Bool} {d : ContinuousCE} :
    ContinuousCE.makeAce a u = .ok d ↔ (es.Pairwise (· ≤ ·) ∧ GoodDist (.continuous tables)) ∧ d = ⟨es, tables.map (tableOf nmu), nmu, u⟩ := by
  obtain ⟨h1, h2, h3, h4, i, locs, h5, h6, h7, h8⟩ := h
  obtain ⟨c1, c2, c3⟩ := hg.counted hl
  have n1 := natSlice_of h7.left
  have h7r := h7.right
  rw [List.length_map] at h7r
  have n2 := natSlice_of (l := tables.map List.length) (by rw [List.map_map]; exact h7r)
  rw [h6] at n1 n2
  rw [List.length_map, h3] at n2
  unfold ContinuousCE.makeAce
  rw [if_neg (by rw [h1]; simp), hs, locator_nat, h5, h2, asU32_nat hm]
  simp only [bind_iff, ite_error_iff, ok_iff, exists_eq_left', c1, c2, pure_iff, isSorted_false, locator_nat, n1, n2, readCEDCs_iff h8 h4]
  unfold GoodDist
  constructor
  · rintro ⟨q1, _, ⟨q3, rfl⟩, rfl⟩
    exact ⟨⟨q1, q3⟩, rfl⟩
  · rintro ⟨⟨q1, q3⟩, rfl⟩
    exact ⟨q1, _, ⟨q3, rfl⟩, rfl⟩

theorem incCosines_iff {xss : List ℝ} {nmu i : Nat} {c x : List ℝ} (h : Holds xss i c) (hl : c.length = nmu) :
    incCosines xss nmu i = .ok x ↔ (c ≠ [] ∧ c.Pairwise (· ≤ ·) ∧ AreCosines c) ∧ x = c := by
  have hs := h.slice
  rw [hl] at hs
  unfold incCosines
  simp only [hs, bind_iff, ite_error_iff, ok_iff, exists_eq_left', pure_iff, isSorted_false]
  by_cases hne : c = []
  · subst hne
    simp [front, getAt]
  · constructor
    · rintro ⟨h1, a, h2, h3, b, h4, h5, rfl⟩
      exact ⟨⟨hne, h1, (sorted_bounds h1 hne (-1) 1).mp ⟨a, h2, h3, b, h4, h5⟩⟩, rfl⟩
    · rintro ⟨⟨_, h1, h2⟩, rfl⟩
      obtain ⟨a, h2, h3, b, h4, h5⟩ := (sorted_bounds h1 hne (-1) 1).mpr h2
      exact ⟨h1, a, h2, h3, b, h4, h5, rfl⟩

theorem incCosinesAll_iff {xss : List ℝ} {nmu : Nat} : ∀ {cs : List (List ℝ)} {i : Nat} {xs : List (List ℝ)}, Holds xss i cs.flatten →
    (∀ c ∈ cs, c.length = nmu) → (incCosinesAll xss nmu cs.length i = .ok xs ↔ (∀ c ∈ cs, c ≠ [] ∧ c.Pairwise (· ≤ ·) ∧ AreCosines c) ∧ xs = cs) := by
  intro cs
  induction cs with
  | nil => intro i xs _ _; simp [incCosinesAll, eq_comm]
  | cons d t ih =>
    intro i xs h hl
    rw [List.flatten_cons] at h
    have hr := h.right
    rw [hl d (by simp)] at hr
    rw [List.length_cons, incCosinesAll]
    simp only [bind_iff, incCosines_iff h.left (hl d (by simp)), ih hr (fun x hx => hl x (by simp [hx])), pure_iff]
    constructor
    · rintro ⟨_, ⟨h1, rfl⟩, _, ⟨h2, rfl⟩, rfl⟩
      exact ⟨fun x hx => (List.mem_cons.mp hx).elim (fun h => h ▸ h1) (h2 x), rfl⟩
    · rintro ⟨h1, rfl⟩
      exact ⟨d, ⟨h1 d (by simp), rfl⟩, t, ⟨fun x hx => h1 x (by simp [hx]), rfl⟩, rfl⟩

/-- The two elastic parts the constructor makes. -/
theorem elastic_iff {a : TslAce} {e : TslElastic} (h : ElasticHolds a e) (hsm : ∀ nmu es xs cs, e = .incoherent nmu es xs cs → nmu < 2 ^ 32 ∧ es.length < 2 ^ 32) :
    ∃ ce ie, (∀ c, CohElastic.makeAce a = .ok c ↔ (match e with | .coherent _ _ => GoodElastic e | _ => True) ∧ c = ce) ∧
      (∀ c, IncElastic.makeAce a = .ok c ↔ (match e with | .incoherent _ _ _ _ => GoodElastic e | _ => True) ∧ c = ie) ∧
      (match e with | .absent => True | .coherent edges sf => ce = ⟨edges, sf⟩ | .incoherent nmu es xs cs => ie = ⟨linearTable es xs, nmu, es, cs⟩) := by
  have cohNone : a.nxs 4 ≠ 4 → ∀ c, CohElastic.makeAce a = .ok c ↔ True ∧ c = ⟨[], []⟩ := by
    intro h c
    unfold CohElastic.makeAce
    rw [if_neg h, pure_iff]
    exact ⟨fun h => ⟨trivial, h.symm⟩, fun h => h.2.symm⟩
  have incNone : a.nxs 4 = 4 ∨ a.jxs 3 = 0 → ∀ c, IncElastic.makeAce a = .ok c ↔ True ∧ c = ⟨zeroTab, 0, [], []⟩ := by
    intro h c
    unfold IncElastic.makeAce
    rw [if_pos h, zeroTab_make]
    simp only [bind_iff, ok_iff, exists_eq_left', pure_iff]
    exact ⟨fun h => ⟨trivial, h.symm⟩, fun h => h.2.symm⟩
  cases e with
  | absent => exact ⟨_, _, cohNone h.2, incNone (Or.inr h.1), trivial⟩
  | coherent edges sf =>
    obtain ⟨h1, h2, i, h3, h4⟩ := h
    obtain ⟨c1, c2, c3⟩ := h4.counted h2
    refine ⟨⟨edges, sf⟩, _, fun c => ?_, incNone (Or.inl h1), rfl⟩
    unfold CohElastic.makeAce
    rw [if_pos h1, h3, locator_nat]
    simp only [bind_iff, ite_error_iff, ok_iff, exists_eq_left', c1, c2, c3, pure_iff, isSorted_false]
    unfold GoodElastic
    constructor
    · rintro ⟨q1, b, q2, q3, rfl⟩
      obtain ⟨p1, p2⟩ := (sorted_nonneg q1).mp ⟨b, q2, q3⟩
      exact ⟨⟨p1, q1, p2⟩, rfl⟩
    · rintro ⟨⟨p1, q1, p2⟩, rfl⟩
      obtain ⟨b, q2, q3⟩ := (sorted_nonneg q1).mpr ⟨p1, p2⟩
      exact ⟨q1, b, q2, q3, rfl⟩
  | incoherent nmu es xs cs =>
    obtain ⟨h1, h2, h3, h4, h5, ⟨i, h6, h7⟩, j, h8, h9⟩ := h
    obtain ⟨c1, c2, c3⟩ := h7.counted h3
    obtain ⟨s1, s2⟩ := hsm nmu es xs cs rfl
    refine ⟨_, ⟨linearTable es xs, nmu, es, cs⟩, cohNone h1, fun c => ?_, rfl⟩
    unfold IncElastic.makeAce
    rw [if_neg (by rw [h6]; push Not; exact ⟨h1, by omega⟩), h6, locator_nat, h8, h2, asU32_nat s1]
    have key := fun os => incCosinesAll_iff (xs := os) h9 h5
    rw [h4] at key
    simp only [bind_iff, ite_error_iff, ok_iff, exists_eq_left', c1, c2, c3, pure_iff, locator_nat, make1_iff h3 s2, key]
    unfold GoodElastic
    push Not
    constructor
    · rintro ⟨q1, _, ⟨⟨q2, q3⟩, rfl⟩, _, ⟨q4, rfl⟩, rfl⟩
      exact ⟨⟨q2, q3, q1, q4⟩, rfl⟩
    · rintro ⟨⟨q2, q3, q1, q4⟩, rfl⟩
      exact ⟨q1, _, ⟨⟨q2, q3⟩, rfl⟩, _, ⟨q4, rfl⟩, rfl⟩

theorem inelastic_iff {a : TslAce} {r : TslRec} (h : TslHolds a r) (hsm : TslSmall r) (u : Bool) : ∃ d : IncInelastic,
    (∀ c, IncInelastic.makeAce a u = .ok c ↔ (r.energies ≠ [] ∧ r.energies.Pairwise (· ≤ ·) ∧ GoodDist r.dist) ∧ c = d) ∧
    (r.energies ≠ [] ∧ GoodDist r.dist → d.xs = linearTable r.energies r.xs ∧ DistIs r u d.dist) := by
  obtain ⟨hl, ⟨s, hs, hg⟩, hd, _⟩ := h
  obtain ⟨c1, c2, c3⟩ := hg.counted hl
  obtain ⟨es, xs, nmu, dist, el⟩ := r
  simp only at hl hg hd c1 c2 c3 ⊢
  have h1 := hsm.ne
  have h2 := hsm.nmu
  simp only at h1 h2
  cases dist with
  | discrete sk noe out =>
    refine ⟨⟨linearTable es xs, .discrete ⟨es, out, noe, nmu, sk⟩⟩, fun c => ?_, fun _ => ⟨rfl, rfl⟩⟩
    have key := fun d => discrete_iff (d := d) hs hg hl h2 (hsm.noe sk noe out rfl) hd
    have hk : a.nxs 6 = 0 ∨ a.nxs 6 = 1 := by rw [hd.1]; cases sk <;> simp
    unfold IncInelastic.makeAce
    rw [hs, locator_nat]
    simp only [bind_iff, ok_iff, exists_eq_left', c1, c2, c3, make1_iff hl h1, if_pos hk, key, pure_iff]
    constructor
    · rintro ⟨_, ⟨⟨q1, q2⟩, rfl⟩, _, ⟨⟨_, q3⟩, rfl⟩, rfl⟩
      exact ⟨⟨q1, q2, q3⟩, rfl⟩
    · rintro ⟨⟨q1, q2, q3⟩, rfl⟩
      exact ⟨_, ⟨⟨q1, q2⟩, rfl⟩, _, ⟨⟨q2, q3⟩, rfl⟩, rfl⟩
  | continuous tables =>
    refine ⟨⟨linearTable es xs, .continuous ⟨es, tables.map (tableOf nmu), nmu, u⟩⟩, fun c => ?_, fun hq => ⟨rfl, _, rfl, ?_⟩⟩
    · have key := fun d => continuous_iff (d := d) (u := u) hs hg hl h2 hd
      have hk : ¬ (a.nxs 6 = 0 ∨ a.nxs 6 = 1) := by rw [hd.1]; simp
      unfold IncInelastic.makeAce
      rw [hs, locator_nat]
      simp only [bind_iff, ok_iff, exists_eq_left', c1, c2, c3, make1_iff hl h1, if_neg hk, if_pos hd.1, key, pure_iff]
      constructor
      · rintro ⟨_, ⟨⟨q1, q2⟩, rfl⟩, _, ⟨⟨_, q3⟩, rfl⟩, rfl⟩
        exact ⟨⟨q1, q2, q3⟩, rfl⟩
      · rintro ⟨⟨q1, q2, q3⟩, rfl⟩
        exact ⟨_, ⟨⟨q1, q2⟩, rfl⟩, _, ⟨⟨q2, q3⟩, rfl⟩, rfl⟩
    · obtain ⟨q1, q2⟩ := hq
      have hn : 0 < nmu := by
        obtain ⟨_, _, h3, h4, _⟩ := hd
        have hpos : 0 < tables.length := by rw [h3]; exact List.length_pos_iff.mpr q1
        obtain ⟨t, ht⟩ := List.exists_mem_of_length_pos hpos
        have hgood := q2 t ht
        obtain ⟨e, he⟩ := List.exists_mem_of_ne_nil t hgood.ne
        rw [← h4 t ht e he]
        exact List.length_pos_iff.mpr (hgood.cosines e he).1
      have := forall₂_self_map (R := TableIs nmu) (fun t => t) (tableOf nmu) (fun t => tableOf_is hn t) tables
      rwa [List.map_id'] at this

/-- What the container makes. -/
theorem law_iff {a : TslAce} {r : TslRec} (h : TslHolds a r) (hsm : TslSmall r) (u : Bool) : ∃ t,
    (∀ c, ThermalLaw.makeAce a u = .ok c ↔ TslGood r ∧ c = t) ∧ (TslGood r → TslIs r u t) := by
  obtain ⟨d, hd, hd'⟩ := inelastic_iff h hsm u
  obtain ⟨ce, ie, hce, hie, hm⟩ := elastic_iff h.elastic hsm.inc
  have hel := h.elastic
  have good : TslGood r ↔ (r.energies ≠ [] ∧ r.energies.Pairwise (· ≤ ·) ∧ GoodDist r.dist) ∧ GoodElastic r.elastic :=
    ⟨fun h => ⟨⟨h.ne, h.sorted, h.dist⟩, h.elastic⟩, fun h => ⟨h.1.1, h.1.2.1, h.1.2.2, h.2⟩⟩
  obtain ⟨es, xs, nmu, dist, el⟩ := r
  simp only at hce hie hm hel good hd hd' ⊢
  cases el with
  | absent =>
    refine ⟨⟨false, false, ce, ie, d⟩, fun c => ?_, fun hg => ⟨(hd' ⟨hg.ne, hg.dist⟩).1, (hd' ⟨hg.ne, hg.dist⟩).2, rfl, rfl⟩⟩
    unfold ThermalLaw.makeAce
    have hj : ¬ a.jxs 3 ≠ 0 := fun h => h hel.1
    rw [good]
    simp only [if_neg hj, bind_iff, hd, hce, hie, pure_iff, GoodElastic]
    constructor
    · rintro ⟨_, ⟨q1, rfl⟩, _, ⟨q2, rfl⟩, _, ⟨q3, rfl⟩, rfl⟩
      exact ⟨⟨q1, trivial⟩, rfl⟩
    · rintro ⟨⟨q1, _⟩, rfl⟩
      exact ⟨_, ⟨q1, rfl⟩, _, ⟨trivial, rfl⟩, _, ⟨trivial, rfl⟩, rfl⟩
  | coherent edges sf =>
    refine ⟨⟨true, false, ce, ie, d⟩, fun c => ?_, fun hg => ⟨(hd' ⟨hg.ne, hg.dist⟩).1, (hd' ⟨hg.ne, hg.dist⟩).2, rfl, rfl, hm⟩⟩
    obtain ⟨h1, h2, i, h3, h4⟩ := hel
    unfold ThermalLaw.makeAce
    have hj : a.jxs 3 ≠ 0 := by omega
    rw [good]
    simp only [if_pos hj, if_pos h1, bind_iff, hd, hce, hie, pure_iff]
    constructor
    · rintro ⟨_, ⟨q1, rfl⟩, _, ⟨q2, rfl⟩, _, ⟨q3, rfl⟩, rfl⟩
      exact ⟨⟨q1, q2⟩, rfl⟩
    · rintro ⟨⟨q1, q2⟩, rfl⟩
      exact ⟨_, ⟨q1, rfl⟩, _, ⟨q2, rfl⟩, _, ⟨trivial, rfl⟩, rfl⟩
  | incoherent nmu' es' xs' cs =>
    refine ⟨⟨false, true, ce, ie, d⟩, fun c => ?_, fun hg => ⟨(hd' ⟨hg.ne, hg.dist⟩).1, (hd' ⟨hg.ne, hg.dist⟩).2, rfl, rfl, hm⟩⟩
    obtain ⟨h1, _, _, _, _, ⟨i, h3, _⟩, _⟩ := hel
    unfold ThermalLaw.makeAce
    have hj : a.jxs 3 ≠ 0 := by omega
    rw [good]
    simp only [if_pos hj, if_neg h1, bind_iff, hd, hce, hie, pure_iff]
    constructor
    · rintro ⟨_, ⟨q1, rfl⟩, _, ⟨q2, rfl⟩, _, ⟨q3, rfl⟩, rfl⟩
      exact ⟨⟨q1, q2⟩, rfl⟩
    · rintro ⟨⟨q1, q2⟩, rfl⟩
      exact ⟨_, ⟨q1, rfl⟩, _, ⟨q2, rfl⟩, _, ⟨trivial, rfl⟩, rfl⟩

/-- **C116** A thermal scattering file in the format is accepted exactly if its contents are sensible. -/
theorem C116_accepts (a : TslAce) (r : TslRec) (h : TslHolds a r) (hsm : TslSmall r) (u : Bool) : (∃ t, ThermalLaw.makeAce a u = .ok t) ↔ TslGood r := by
  obtain ⟨t, h1, _⟩ := law_iff h hsm u
  exact ⟨fun ⟨c, hc⟩ => ((h1 c).mp hc).1, fun hg => ⟨t, (h1 t).mpr ⟨hg, rfl⟩⟩⟩

/-- **C116** The law made from it holds the contents: the inelastic cross section, the distribution of outgoing energies and cosines, and the
elastic part. -/
theorem C116_read (a : TslAce) (r : TslRec) (h : TslHolds a r) (hsm : TslSmall r) (u : Bool) (t : ThermalLaw) (ht : ThermalLaw.makeAce a u = .ok t) : TslIs r u t := by
  obtain ⟨t', h1, h2⟩ := law_iff h hsm u
  obtain ⟨hg, rfl⟩ := (h1 t).mp ht
  exact h2 hg

/-- A file that meets the hypotheses: one incident energy with the cross section `x`, one discrete energy with two cosines, two Bragg edges. -/
noncomputable def smallTsl (x : ℝ) : TslAce where
  nxs n := if n = 2 then 1 else if n = 3 then 1 else if n = 4 then 4 else 0
  jxs n := if n = 0 then 1 else if n = 2 then 4 else if n = 3 then 7 else 0
  xss := [1, 3, x] ++ ([1 / 2, -1, 1 / 3] ++ [2, 1, 2, 7, 8])

/-- Its contents. -/
noncomputable def smallTslRec (x : ℝ) : TslRec := ⟨[3], [x], 2, .discrete false 1 [[⟨1 / 2, [-1, 1 / 3]⟩]], .coherent [1, 2] [7, 8]⟩

theorem smallTsl_ok (x : ℝ) : TslHolds (smallTsl x) (smallTslRec x) ∧ TslSmall (smallTslRec x) ∧ TslGood (smallTslRec x) := by
  refine ⟨?_, ?_, ?_⟩
  · refine ⟨rfl, ⟨0, rfl, [], [1 / 2, -1, 1 / 3, 2, 1, 2, 7, 8], ?_, rfl⟩, ⟨rfl, rfl, rfl, rfl, by simp [smallTslRec], 3, rfl, [1, 3, x], [2, 1, 2, 7, 8], ?_, rfl⟩,
      rfl, rfl, 6, rfl, [1, 3, x, 1 / 2, -1, 1 / 3], [], ?_, rfl⟩
    all_goals simp [smallTsl, smallTslRec, Spec.counted, discreteRecord]
  · refine ⟨by simp [smallTslRec], by simp [smallTslRec], ?_, ?_⟩
    · intro sk noe out h
      cases h
      norm_num
    · intro nmu es xs cs h
      cases h
  · refine ⟨by simp [smallTslRec], by simp [smallTslRec], ⟨by simp, ?_⟩, by simp, ?_, ?_⟩
    · intro t ht d hd
      simp only [List.mem_singleton] at ht
      subst ht
      simp only [List.mem_singleton] at hd
      subst hd
      refine ⟨by norm_num, ?_⟩
      intro m hm
      fin_cases hm <;> norm_num
    · norm_num
    · intro e he
      fin_cases he <;> norm_num

example : ∃ t, ThermalLaw.makeAce (smallTsl 5) true = .ok t ∧ t.coherent = ⟨[1, 2], [7, 8]⟩ ∧
    t.inelastic.dist = .discrete ⟨[3], [[⟨1 / 2, [-1, 1 / 3]⟩]], 1, 2, false⟩ := by
  obtain ⟨h1, h2, h3⟩ := smallTsl_ok 5
  obtain ⟨t, ht⟩ := (C116_accepts _ _ h1 h2 true).mpr h3
  obtain ⟨_, q1, q2⟩ := C116_read _ _ h1 h2 true t ht
  exact ⟨t, ht, q2.2.2, q1⟩

/-- **C116** Violation: a file with a negative inelastic cross section is accepted, and the law returns the negative cross section. -/
theorem C116_violation_negative (u : Bool) : ∃ (a : TslAce) (r : TslRec) (t : ThermalLaw), TslHolds a r ∧ (∃ x ∈ r.xs, x < 0) ∧ ThermalLaw.makeAce a u = .ok t ∧
    ∃ E v, t.inelastic.xs.eval E = .ok v ∧ v < 0 := by
  obtain ⟨h1, h2, h3⟩ := smallTsl_ok (-5)
  obtain ⟨t, ht⟩ := (C116_accepts _ _ h1 h2 u).mpr h3
  obtain ⟨q, _, _⟩ := C116_read _ _ h1 h2 u t ht
  refine ⟨_, _, t, h1, ⟨-5, by simp [smallTslRec], by norm_num⟩, ht, 3, -5, ?_, by norm_num⟩
  rw [q]
  simp [linearTable, smallTslRec, Tab1D.eval, Region.eval, front, back, getAt, bind, Except.bind]

end PNDL
