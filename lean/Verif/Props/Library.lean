import Verif.Spec.Library
import Verif.Lemmas.Base

/-! C51, C52, C53. -/
namespace PNDL
open Spec

section Temps
variable {K : Type _} [Field K] [LinearOrder K] [IsStrictOrderedRing K]

/-! ## C51 -/

/-- On a strictly increasing list, once the next temperature is not closer, no later one is. -/
theorem not_closer {T t t1 u : K} (h01 : t < t1) (h1u : t1 ≤ u) (h : |T - t| ≤ |T - t1|) : |T - t| ≤ |T - u| := by
  have hT : T ≤ (t + t1) / 2 := by
    by_contra hc
    push Not at hc
    have : |T - t1| < |T - t| := by
      rw [abs_lt]
      have h2 : 0 < T - t := by linarith
      rw [abs_of_pos h2]
      constructor <;> linarith
    linarith
  rw [abs_le]
  have hu : T - u < 0 := by linarith
  rw [abs_of_neg hu]
  constructor <;> linarith

/-- If the next temperature is closer, so it is than all earlier ones. -/
theorem closer_than_earlier {T t t1 : K} (h01 : t < t1) (h : |T - t1| < |T - t|) : (t + t1) / 2 < T := by
  by_contra hc
  push Not at hc
  have h1 : T - t1 < 0 := by linarith
  rw [abs_of_neg h1] at h
  rcases abs_cases (T - t) with ⟨h2, _⟩ | ⟨h2, _⟩ <;> rw [h2] at h <;> linarith

/-- C51, for temperature lists without repetitions: the returned temperature is one of the list and none is strictly closer.
Missing: lists with a repeated temperature (`C51_violation`). -/
theorem C51_nearest_partial (T : K) (l : List K) (hs : l.Pairwise (· < ·)) (hne : l ≠ []) :
    ∃ t, nearestTemp T l = .ok t ∧ Nearest l T t := by
  induction l with
  | nil => exact absurd rfl hne
  | cons a l ih =>
    cases l with
    | nil =>
      refine ⟨a, ?_, by simp, ?_⟩
      · unfold nearestTemp; split <;> rfl
      · intro u hu; simp at hu; rw [hu]
    | cons b l =>
      rw [List.pairwise_cons] at hs
      obtain ⟨h1, h2⟩ := hs
      have hab : a < b := h1 b (by simp)
      unfold nearestTemp
      split
      · rename_i hlt
        obtain ⟨t, e1, e2, e3⟩ := ih h2 (by simp)
        refine ⟨t, e1, List.mem_cons_of_mem _ e2, ?_⟩
        intro u hu
        rcases List.mem_cons.mp hu with rfl | hu
        · exact (e3 b (by simp)).trans hlt.le
        · exact e3 u hu
      · rename_i hge
        refine ⟨a, rfl, by simp, ?_⟩
        intro u hu
        rcases List.mem_cons.mp hu with rfl | hu
        · exact le_rfl
        · rcases List.mem_cons.mp hu with rfl | hu
          · exact not_lt.mp hge
          · rw [List.pairwise_cons] at h2
            exact not_closer hab (h2.1 u hu).le (not_lt.mp hge)

/-- C51, for every list: the result is one of the temperatures (never an exception or an out-of-range read). -/
theorem C51_member (T : K) (l : List K) (hne : l ≠ []) : ∃ t, nearestTemp T l = .ok t ∧ t ∈ l := by
  induction l with
  | nil => exact absurd rfl hne
  | cons a l ih =>
    cases l with
    | nil => refine ⟨a, ?_, by simp⟩; unfold nearestTemp; split <;> rfl
    | cons b l =>
      unfold nearestTemp
      split
      · obtain ⟨t, e1, e2⟩ := ih (by simp)
        exact ⟨t, e1, List.mem_cons_of_mem _ e2⟩
      · exact ⟨a, rfl, by simp⟩

example : nearestTemp (595 : ℚ) [293, 600, 900] = .ok 600 := by decide +kernel

/-- The full claim is false of the code: a temperature that is listed twice stops the search.  Whatever the wanted temperature and the
distance of the third entry, the repeated first temperature is returned. -/
theorem C51_violation (T t u : K) (hu : |T - u| < |T - t|) (l : List K) :
    nearestTemp T (t :: t :: u :: l) = .ok t ∧ ¬ Nearest (t :: t :: u :: l) T t := by
  constructor
  · unfold nearestTemp; rw [if_neg (lt_irrefl _)]
  · intro h
    have := h.2 u (by simp)
    exact absurd hu (not_lt.mpr this)

/-- A sorted instance of it: asked for 600 K, the library answers 293 K although it has data at 600 K. -/
theorem C51_violation_sorted : ([293, 293, 600] : List ℚ).Pairwise (· ≤ ·) ∧ nearestTemp (600 : ℚ) [293, 293, 600] = .ok 293 := by
  constructor <;> decide +kernel

/-! ## C52 -/

/-- What the selection loop does: the first temperature within tolerance. -/
theorem loadIndex_some {T tol : K} (htol : tol ≤ bigT) {l : List K} {i j : Nat} :
    loadIndex T tol l i = some j ↔ ∃ k t, j = i + k ∧ l[k]? = some t ∧ |T - t| ≤ tol ∧
      ∀ k' t', k' < k → l[k']? = some t' → tol < |T - t'| := by
  induction l generalizing i with
  | nil => simp [loadIndex]
  | cons a l ih =>
    have hkey : loadIndex T tol (a :: l) i = if |T - a| ≤ tol then some i else loadIndex T tol l (i + 1) := by
      conv_lhs => unfold loadIndex
      simp only
      by_cases h1 : |T - a| ≤ tol
      · rw [if_pos h1, if_neg]
        · split
          · exact not_lt.mpr (h1.trans htol)
          · exact lt_irrefl _
      · rw [if_neg h1, ite_self]
    rw [hkey]
    by_cases h1 : |T - a| ≤ tol
    · rw [if_pos h1]
      constructor
      · intro h; cases h
        exact ⟨0, a, rfl, rfl, h1, fun k' t' h => absurd h (by omega)⟩
      · rintro ⟨k, t, hj, hk, hle, hmin⟩
        rcases k with _ | k
        · rw [hj]; rfl
        · exact absurd (hmin 0 a (by omega) rfl) (not_lt.mpr h1)
    · rw [if_neg h1, ih]
      constructor
      · rintro ⟨k, t, hj, hk, hle, hmin⟩
        refine ⟨k + 1, t, by omega, by simpa using hk, hle, ?_⟩
        intro k' t' hk' ht'
        rcases k' with _ | k'
        · simp at ht'; rw [← ht']; exact not_le.mp h1
        · exact hmin k' t' (by omega) (by simpa using ht')
      · rintro ⟨k, t, hj, hk, hle, hmin⟩
        rcases k with _ | k
        · simp at hk; rw [← hk] at hle; exact absurd hle h1
        · refine ⟨k, t, by omega, by simpa using hk, hle, ?_⟩
          intro k' t' hk' ht'
          exact hmin (k' + 1) t' (by omega) (by simpa using ht')

/-- C52: a table is selected iff some tabulated temperature is within the tolerance (tolerances up to `1.E300` K). -/
theorem C52_found_iff (T tol : K) (htol : tol ≤ bigT) (l : List K) :
    (∃ i, loadIndex T tol l 0 = some i) ↔ ∃ t ∈ l, |T - t| ≤ tol := by
  constructor
  · rintro ⟨i, h⟩
    obtain ⟨k, t, _, hk, hle, _⟩ := (loadIndex_some htol).mp h
    exact ⟨t, List.mem_of_getElem? hk, hle⟩
  · rintro ⟨t, ht, hle⟩
    by_contra hc
    push Not at hc
    have key : ∀ n : Nat, ∀ k t', k < n → l[k]? = some t' → tol < |T - t'| := by
      intro n
      induction n with
      | zero => intro k _ h; omega
      | succ n ih =>
        intro k t' hk ht'
        by_cases h : |T - t'| ≤ tol
        · by_cases hkn : k < n
          · exact ih k t' hkn ht'
          · have : k = n := by omega
            subst this
            exact absurd ((loadIndex_some htol (i := 0) (j := k)).mpr ⟨k, t', by omega, ht', h, ih⟩) (hc k)
        · exact not_le.mp h
    obtain ⟨k, hk⟩ := List.getElem?_of_mem ht
    exact absurd (key (k + 1) k t (by omega) hk) (not_lt.mpr hle)

/-- C52, when only one tabulated temperature is within the tolerance: the nearest one is selected.  Missing: several within the
tolerance (`C52_violation`), where the lowest is selected (`C52_first`). -/
theorem C52_nearest_partial (T tol : K) (htol : tol ≤ bigT) (l : List K) (i : Nat) (h : loadIndex T tol l 0 = some i)
    (hone : ∀ t ∈ l, ∀ u ∈ l, |T - t| ≤ tol → |T - u| ≤ tol → t = u) : ∃ t, l[i]? = some t ∧ Nearest l T t := by
  obtain ⟨k, t, hj, hk, hle, _⟩ := (loadIndex_some htol).mp h
  have : i = k := by omega
  subst this
  refine ⟨t, hk, List.mem_of_getElem? hk, ?_⟩
  intro u hu
  by_cases hc : |T - u| ≤ tol
  · rw [hone t (List.mem_of_getElem? hk) u hu hle hc]
  · exact hle.trans (not_le.mp hc).le

/-- What the code does instead: the first (on a sorted list, the lowest) temperature within the tolerance. -/
theorem C52_first (T tol : K) (htol : tol ≤ bigT) (l : List K) (hs : l.Pairwise (· ≤ ·)) (i : Nat) (h : loadIndex T tol l 0 = some i) :
    ∃ t, l[i]? = some t ∧ |T - t| ≤ tol ∧ ∀ u ∈ l, |T - u| ≤ tol → t ≤ u := by
  obtain ⟨k, t, hj, hk, hle, hmin⟩ := (loadIndex_some htol).mp h
  have : i = k := by omega
  subst this
  refine ⟨t, hk, hle, ?_⟩
  intro u hu hut
  obtain ⟨m, hm⟩ := List.getElem?_of_mem hu
  rcases lt_or_ge m i with hmi | hmi
  · exact absurd (hmin m u hmi hm) (not_lt.mpr hut)
  · rcases Nat.lt_or_eq_of_le hmi with hmi | hmi
    · obtain ⟨h1, e1⟩ := List.getElem?_eq_some_iff.mp hk
      obtain ⟨h2, e2⟩ := List.getElem?_eq_some_iff.mp hm
      have := List.pairwise_iff_getElem.mp hs i m h1 h2 hmi
      rw [e1, e2] at this; exact this
    · subst hmi; rw [hm] at hk; cases hk; exact le_rfl

/-- The full claim is false of the code: 300 K is tabulated, 293 K is returned. -/
theorem C52_violation : loadIndex (300 : ℚ) 10 [293, 300] 0 = some 0 ∧ ¬ Nearest ([293, 300] : List ℚ) 300 293 := by
  constructor
  · decide +kernel
  · intro h
    have := h.2 300 (by simp)
    norm_num at this

example : loadIndex (301 : ℚ) 2 [293, 300] 0 = some 1 := by decide +kernel

end Temps

/-! ## C53 -/

section Cache
variable {Key K : Type _} [DecidableEq Key] [Field K] [LinearOrder K]

/-- A freshly constructed library: nothing is loaded. -/
def Spec.Fresh (L : Lib Key K) : Prop :=
  L.next = 0 ∧ L.reads = [] ∧
    ∀ k s, L.lists k = some s → s.first = none ∧ s.loaded.length = s.temps.length ∧ ∀ (i : Nat) (o : LObj), s.loaded[i]? ≠ some (some o)

/-- The table a request selects. -/
def Spec.Selects (L : Lib Key K) (r : LoadReq Key K) (i : Nat) : Prop :=
  ∃ s, L.lists r.key = some s ∧ loadIndex r.T r.tol s.temps 0 = some i

/-- The invariant of the cache. -/
structure CacheInv (L : Lib Key K) : Prop where
  nodup : L.reads.Nodup
  read_iff : ∀ k (i : Nat), (k, i) ∈ L.reads ↔ ∃ s o, L.lists k = some s ∧ s.loaded[i]? = some (some o)
  len : ∀ k s, L.lists k = some s → s.loaded.length = s.temps.length
  ids : ∀ k s (i : Nat) (o : LObj), L.lists k = some s → s.loaded[i]? = some (some o) → o.id < L.next
  inj : ∀ k s (i : Nat) (o : LObj) k' s' (i' : Nat) (o' : LObj), L.lists k = some s → s.loaded[i]? = some (some o) → L.lists k' = some s' →
    s'.loaded[i']? = some (some o') → o.id = o'.id → k = k' ∧ i = i'
  fst : ∀ k s f, L.lists k = some s → s.first = some f → f.id < L.next
  share : ∀ k s (i : Nat) (o : LObj), L.shares k = true → L.lists k = some s → s.loaded[i]? = some (some o) →
    ∃ f, s.first = some f ∧ (o = f ∨ o.base = some f.id)

theorem CacheInv.fresh {L : Lib Key K} (h : Fresh L) : CacheInv L where
  nodup := by rw [h.2.1]; exact List.nodup_nil
  read_iff := by
    intro k i
    rw [h.2.1]
    constructor
    · intro h; cases h
    · rintro ⟨s, o, h1, h2⟩; exact absurd h2 ((h.2.2 k s h1).2.2 i o)
  len := fun k s h1 => (h.2.2 k s h1).2.1
  ids := fun k s i o h1 h2 => absurd h2 ((h.2.2 k s h1).2.2 i o)
  inj := fun k s i o k' s' i' o' h1 h2 => absurd h2 ((h.2.2 k s h1).2.2 i o)
  fst := fun k s f h1 h2 => by rw [(h.2.2 k s h1).1] at h2; cases h2
  share := fun k s i o _ h1 h2 => absurd h2 ((h.2.2 k s h1).2.2 i o)

/-- Case analysis of one call. -/
theorem load_cases (L : Lib Key K) (r : LoadReq Key K) :
    ((L.load r).1 = L ∧ (∀ o, (L.load r).2 = .ok o →
        ∃ s i, L.lists r.key = some s ∧ loadIndex r.T r.tol s.temps 0 = some i ∧ s.loaded[i]? = some (some o))) ∨
    (∃ s i, r.fileOk = true ∧ L.lists r.key = some s ∧ loadIndex r.T r.tol s.temps 0 = some i ∧ s.loaded[i]? = some none ∧
      ∃ o first, o = (⟨L.next, if L.shares r.key then s.first.map LObj.id else none⟩ : LObj) ∧
      first = (if L.shares r.key then (match s.first with | some f => some f | none => some o) else s.first) ∧
      L.load r = (⟨fun k => if k = r.key then some ⟨s.temps, s.loaded.set i (some o), first⟩ else L.lists k, L.shares, L.next + 1,
        (r.key, i) :: L.reads⟩, .ok o)) := by
  unfold Lib.load
  split
  · exact .inl ⟨rfl, fun o h => by cases h⟩
  · rename_i s hs
    split
    · exact .inl ⟨rfl, fun o h => by cases h⟩
    · rename_i i hi
      split
      · exact .inl ⟨rfl, fun o h => by cases h⟩
      · rename_i o ho
        exact .inl ⟨rfl, fun o' h => by cases h; exact ⟨s, i, hs, hi, ho⟩⟩
      · rename_i hn
        by_cases hf : r.fileOk
        · rw [if_pos hf]
          exact .inr ⟨s, i, hf, hs, hi, hn, _, _, rfl, rfl, rfl⟩
        · rw [if_neg hf]
          exact .inl ⟨rfl, fun o h => by cases h⟩

theorem CacheInv.step {L : Lib Key K} (h : CacheInv L) (r : LoadReq Key K) : CacheInv (L.load r).1 := by
  rcases load_cases L r with ⟨h1, _⟩ | ⟨s, i, _, hs, hi, hn, o, first, ho, hfst, heq⟩
  · rw [h1]; exact h
  · rw [heq]
    have hilt : i < s.loaded.length := (List.getElem?_eq_some_iff.mp hn).1
    have hget : ∀ (j : Nat) (o' : LObj), (s.loaded.set i (some o))[j]? = some (some o') → (j = i ∧ o' = o) ∨ (j ≠ i ∧ s.loaded[j]? = some (some o')) := by
      intro j o' hj
      by_cases hji : j = i
      · subst hji
        rw [List.getElem?_set_self hilt] at hj
        cases hj; exact .inl ⟨rfl, rfl⟩
      · rw [List.getElem?_set_ne (Ne.symm hji)] at hj
        exact .inr ⟨hji, hj⟩
    have hnot : (r.key, i) ∉ L.reads := by
      intro hm
      obtain ⟨s', o', e1, e2⟩ := (h.read_iff _ _).mp hm
      rw [hs] at e1; cases e1
      rw [hn] at e2; cases e2
    constructor
    · exact List.nodup_cons.mpr ⟨hnot, h.nodup⟩
    · intro k j
      simp only [List.mem_cons, Prod.mk.injEq]
      by_cases hk : k = r.key
      · subst hk
        simp only [if_true, true_and]
        constructor
        · rintro (rfl | hm)
          · exact ⟨_, o, rfl, List.getElem?_set_self hilt⟩
          · obtain ⟨s', o', e1, e2⟩ := (h.read_iff _ _).mp hm
            rw [hs] at e1; cases e1
            have : j ≠ i := by rintro rfl; rw [hn] at e2; cases e2
            exact ⟨_, o', rfl, by simp only; rw [List.getElem?_set_ne (Ne.symm this)]; exact e2⟩
        · rintro ⟨s', o', e1, e2⟩
          cases e1
          rcases hget j o' e2 with ⟨e, _⟩ | ⟨_, e⟩
          · exact .inl e
          · exact .inr ((h.read_iff _ _).mpr ⟨s, o', hs, e⟩)
      · simp only [hk, if_false, false_and, false_or]
        exact h.read_iff k j
    · intro k s' hk
      simp only at hk
      split at hk
      · cases hk; simp only [List.length_set]; exact h.len _ _ hs
      · exact h.len _ _ hk
    · intro k s' j o' hk hj
      simp only at hk ⊢
      split at hk
      · cases hk
        rcases hget j o' hj with ⟨_, e⟩ | ⟨_, e⟩
        · rw [e, ho]; simp
        · have := h.ids _ _ _ _ hs e; omega
      · have := h.ids _ _ _ _ hk hj; omega
    · intro k s1 j o1 k' s2 j' o2 hk hj hk' hj' hid
      simp only at hk hk'
      have hnew : o.id = L.next := by rw [ho]
      split at hk
      · rename_i hkk
        cases hk
        rcases hget j o1 hj with ⟨e1, e2⟩ | ⟨e1, e2⟩
        · split at hk'
          · rename_i hkk'
            cases hk'
            rcases hget j' o2 hj' with ⟨f1, f2⟩ | ⟨f1, f2⟩
            · exact ⟨by rw [hkk, hkk'], by rw [e1, f1]⟩
            · have := h.ids _ _ _ _ hs f2
              rw [← hid, e2, hnew] at this; omega
          · have := h.ids _ _ _ _ hk' hj'
            rw [← hid, e2, hnew] at this; omega
        · split at hk'
          · rename_i hkk'
            cases hk'
            rcases hget j' o2 hj' with ⟨f1, f2⟩ | ⟨f1, f2⟩
            · have := h.ids _ _ _ _ hs e2
              rw [hid, f2, hnew] at this; omega
            · rw [hkk, hkk']
              exact ⟨rfl, (h.inj _ _ _ _ _ _ _ _ hs e2 hs f2 hid).2⟩
          · obtain ⟨a, b⟩ := h.inj _ _ _ _ _ _ _ _ hs e2 hk' hj' hid
            exact ⟨by rw [hkk]; exact a, b⟩
      · split at hk'
        · rename_i hkk'
          cases hk'
          rcases hget j' o2 hj' with ⟨f1, f2⟩ | ⟨f1, f2⟩
          · have := h.ids _ _ _ _ hk hj
            rw [hid, f2, hnew] at this; omega
          · obtain ⟨a, b⟩ := h.inj _ _ _ _ _ _ _ _ hk hj hs f2 hid
            exact ⟨by rw [hkk']; exact a, b⟩
        · exact h.inj _ _ _ _ _ _ _ _ hk hj hk' hj' hid
    · intro k s' f hk hf
      simp only at hk ⊢
      split at hk
      · cases hk
        simp only at hf
        rw [hfst] at hf
        split at hf
        · split at hf
          · rename_i f' hf'
            cases hf
            have := h.fst _ _ _ hs hf'; omega
          · cases hf; rw [ho]; simp
        · have := h.fst _ _ _ hs hf; omega
      · have := h.fst _ _ _ hk hf; omega
    · intro k s' j o' hsh hk hj
      simp only at hk hsh
      split at hk
      · rename_i hkk
        cases hk
        rw [hkk] at hsh
        simp only
        rw [if_pos hsh] at hfst ho
        rcases hget j o' hj with ⟨_, e⟩ | ⟨_, e⟩
        · cases hf : s.first with
          | none => rw [hf] at hfst; exact ⟨o, hfst, .inl e⟩
          | some f =>
            rw [hf] at hfst
            refine ⟨f, hfst, .inr ?_⟩
            rw [e, ho, hf]; rfl
        · obtain ⟨f, e1, e2⟩ := h.share _ _ _ _ hsh hs e
          rw [e1] at hfst
          exact ⟨f, hfst, e2⟩
      · exact h.share _ _ _ _ hsh hk hj

theorem CacheInv.run {L : Lib Key K} (h : CacheInv L) (hist : List (LoadReq Key K)) : CacheInv (L.run hist) := by
  induction hist generalizing L with
  | nil => exact h
  | cons r hist ih => exact ih (h.step r)

/-- Loaded entries and temperature lists stay. -/
theorem load_keeps (L : Lib Key K) (r : LoadReq Key K) (k : Key) (s : STList K) (hs : L.lists k = some s) :
    ∃ s', (L.load r).1.lists k = some s' ∧ s'.temps = s.temps ∧
      (∀ (i : Nat) (o : LObj), s.loaded[i]? = some (some o) → s'.loaded[i]? = some (some o)) ∧ ∀ f, s.first = some f → s'.first = some f := by
  rcases load_cases L r with ⟨h1, _⟩ | ⟨s1, i, _, hs1, hi, hn, o, first, ho, hfst, heq⟩
  · rw [h1]; exact ⟨s, hs, rfl, fun _ _ h => h, fun _ h => h⟩
  · rw [heq]
    by_cases hk : k = r.key
    · subst hk
      rw [hs] at hs1; cases hs1
      refine ⟨_, if_pos rfl, rfl, ?_, ?_⟩
      · intro j o' hj
        have : j ≠ i := by rintro rfl; rw [hn] at hj; cases hj
        simp only
        rw [List.getElem?_set_ne (Ne.symm this)]; exact hj
      · intro f hf
        simp only
        rw [hfst, hf]; split <;> rfl
    · exact ⟨s, by simp only [if_neg hk]; exact hs, rfl, fun _ _ h => h, fun _ h => h⟩

theorem run_keeps (L : Lib Key K) (hist : List (LoadReq Key K)) (k : Key) (s : STList K) (hs : L.lists k = some s) :
    ∃ s', (L.run hist).lists k = some s' ∧ s'.temps = s.temps ∧
      (∀ (i : Nat) (o : LObj), s.loaded[i]? = some (some o) → s'.loaded[i]? = some (some o)) ∧ ∀ f, s.first = some f → s'.first = some f := by
  induction hist generalizing L s with
  | nil => exact ⟨s, hs, rfl, fun _ _ h => h, fun _ h => h⟩
  | cons r hist ih =>
    obtain ⟨s1, e1, e2, e3, e4⟩ := load_keeps L r k s hs
    obtain ⟨s2, f1, f2, f3, f4⟩ := ih (L.load r).1 s1 e1
    exact ⟨s2, f1, f2.trans e2, fun i o h => f3 i o (e3 i o h), fun f h => f4 f (e4 f h)⟩

/-- What a successful call leaves behind. -/
theorem load_stores (L : Lib Key K) (r : LoadReq Key K) (o : LObj) (h : (L.load r).2 = .ok o) :
    ∃ s i, (L.load r).1.lists r.key = some s ∧ loadIndex r.T r.tol s.temps 0 = some i ∧ s.loaded[i]? = some (some o) := by
  rcases load_cases L r with ⟨h1, h2⟩ | ⟨s1, i, _, hs1, hi, hn, o', first, ho, hfst, heq⟩
  · obtain ⟨s, i, e1, e2, e3⟩ := h2 o h
    exact ⟨s, i, by rw [h1]; exact e1, e2, e3⟩
  · rw [heq] at h ⊢
    simp only [Except.ok.injEq] at h
    subst h
    refine ⟨_, i, if_pos rfl, hi, ?_⟩
    simp only
    exact List.getElem?_set_self (List.getElem?_eq_some_iff.mp hn).1

theorem load_hit (L : Lib Key K) (r : LoadReq Key K) (s : STList K) (i : Nat) (o : LObj) (h1 : L.lists r.key = some s)
    (h2 : loadIndex r.T r.tol s.temps 0 = some i) (h3 : s.loaded[i]? = some (some o)) : (L.load r).2 = .ok o := by
  unfold Lib.load
  simp only [h1, h2, h3]

/-- C53: in every history of calls, whatever their outcomes, each table is read successfully at most once. -/
theorem C53_read_once (L : Lib Key K) (hL : Fresh L) (hist : List (LoadReq Key K)) : (L.run hist).reads.Nodup :=
  ((CacheInv.fresh hL).run hist).nodup

/-- C53: a later request for the table of an earlier successful one returns the same object, whatever happened in between and
whether or not the file could still be read. -/
theorem C53_same_object (L : Lib Key K) (h1 h2 : List (LoadReq Key K)) (r1 r2 : LoadReq Key K) (o : LObj) (i : Nat)
    (hk : r1.key = r2.key) (hok : ((L.run h1).load r1).2 = .ok o) (hs1 : Selects L r1 i) (hs2 : Selects L r2 i) :
    ((((L.run h1).load r1).1.run h2).load r2).2 = .ok o := by
  obtain ⟨s0, a1, a2⟩ := hs1
  obtain ⟨s0', b1, b2⟩ := hs2
  rw [← hk, a1] at b1; cases b1
  obtain ⟨s1, c1, c2, c3, _⟩ := run_keeps L h1 r1.key s0 a1
  obtain ⟨sL, d1, d2, _, _⟩ := load_keeps (L.run h1) r1 r1.key s1 c1
  obtain ⟨s2, j, e1, e2, e3⟩ := load_stores (L.run h1) r1 o hok
  rw [d1] at e1; cases e1
  have hj : j = i := by
    rw [d2, c2, a2] at e2; cases e2; rfl
  subst hj
  obtain ⟨s3, f1, f2, f3, _⟩ := run_keeps ((L.run h1).load r1).1 h2 r1.key sL d1
  have hidx : loadIndex r2.T r2.tol s3.temps 0 = some j := by rw [f2, d2, c2]; exact b2
  have hld : s3.loaded[j]? = some (some o) := f3 j o e3
  exact load_hit _ r2 s3 j o (by rw [← hk]; exact f1) hidx hld

/-- C53: different tables give different objects. -/
theorem C53_distinct (L : Lib Key K) (hL : Fresh L) (h1 h2 : List (LoadReq Key K)) (r1 r2 : LoadReq Key K) (o1 o2 : LObj) (i j : Nat)
    (hs1 : Selects L r1 i) (hs2 : Selects L r2 j) (hne : (r1.key, i) ≠ (r2.key, j))
    (hok1 : ((L.run h1).load r1).2 = .ok o1) (hok2 : ((((L.run h1).load r1).1.run h2).load r2).2 = .ok o2) : o1.id ≠ o2.id := by
  intro hid
  obtain ⟨s0, a1, a2⟩ := hs1
  obtain ⟨t0, b1, b2⟩ := hs2
  obtain ⟨s1, c1, c2, _, _⟩ := run_keeps L h1 r1.key s0 a1
  obtain ⟨sL, d1, d2, _, _⟩ := load_keeps (L.run h1) r1 r1.key s1 c1
  obtain ⟨s2, i', e1, e2, e3⟩ := load_stores (L.run h1) r1 o1 hok1
  rw [d1] at e1; cases e1
  have hi : i' = i := by rw [d2, c2, a2] at e2; cases e2; rfl
  subst hi
  set M := ((L.run h1).load r1).1 with hM
  obtain ⟨s3, f1, f2, f3, _⟩ := run_keeps M h2 r1.key sL d1
  obtain ⟨s4, g1, g2, g3, _⟩ := load_keeps (M.run h2) r2 r1.key s3 f1
  have hcur := g3 _ _ (f3 _ _ e3)
  obtain ⟨t1, p1, p2, _, _⟩ := run_keeps L h1 r2.key t0 b1
  obtain ⟨t2, q1, q2, _, _⟩ := load_keeps (L.run h1) r1 r2.key t1 p1
  obtain ⟨t3, u1, u2, _, _⟩ := run_keeps M h2 r2.key t2 q1
  obtain ⟨t4, v1, v2, _, _⟩ := load_keeps (M.run h2) r2 r2.key t3 u1
  obtain ⟨t5, j', w1, w2, w3⟩ := load_stores (M.run h2) r2 o2 hok2
  rw [v1] at w1; cases w1
  have hj : j' = j := by rw [v2, u2, q2, p2, b2] at w2; cases w2; rfl
  subst hj
  have inv := ((((CacheInv.fresh hL).run h1).step r1).run h2).step r2
  obtain ⟨x, y⟩ := inv.inj _ _ _ _ _ _ _ _ g1 hcur v1 w3 hid
  exact hne (by rw [x, y])

/-- C53: a failed call leaves the library as it was. -/
theorem C53_failure_no_effect (L : Lib Key K) (r : LoadReq Key K) (e : Err) (h : (L.load r).2 = .error e) : (L.load r).1 = L := by
  rcases load_cases L r with ⟨h1, _⟩ | ⟨s, i, _, _, _, _, o, first, _, _, heq⟩
  · exact h1
  · rw [heq] at h; cases h

/-- C53: a request within the data never reads out of range: it fails only with an exception. -/
theorem C53_defined (L : Lib Key K) (hL : Fresh L) (hist : List (LoadReq Key K)) (r : LoadReq Key K) (e : Err)
    (h : ((L.run hist).load r).2 = .error e) : e = .exc := by
  have inv := (CacheInv.fresh hL).run hist
  set M := L.run hist
  unfold Lib.load at h
  split at h
  · cases h; rfl
  · rename_i s hs
    split at h
    · cases h; rfl
    · rename_i i hi
      split at h
      · rename_i hn
        exfalso
        have hlen := inv.len _ _ hs
        have : ∀ (l : List K) (a i : Nat), loadIndex r.T r.tol l a = some i → i < a + l.length := by
          intro l
          induction l with
          | nil => intro a i h; simp [loadIndex] at h
          | cons x l ih =>
            intro a i h
            unfold loadIndex at h
            simp only at h
            have hcase : i = a ∨ loadIndex r.T r.tol l (a + 1) = some i := by
              by_cases c1 : (if l.isEmpty = true then bigT else |r.T - x|) < |r.T - x|
              · rw [if_pos c1] at h; exact .inr h
              · rw [if_neg c1] at h
                by_cases c2 : |r.T - x| ≤ r.tol
                · rw [if_pos c2] at h; cases h; exact .inl rfl
                · rw [if_neg c2] at h; exact .inr h
            rcases hcase with rfl | h
            · simp
            · have := ih _ _ h; simp only [List.length_cons]; omega
        have h1 := this _ _ _ hi
        rw [List.getElem?_eq_none_iff] at hn
        omega
      · cases h
      · split at h
        · cases h
        · cases h; rfl

/-- C53: all neutron data of one nuclide share the distributions of the first one loaded. -/
theorem C53_shared (L : Lib Key K) (hL : Fresh L) (hist : List (LoadReq Key K)) (r : LoadReq Key K) (o : LObj)
    (hsh : L.shares r.key = true) (h : ((L.run hist).load r).2 = .ok o) :
    ∃ s f, ((L.run hist).load r).1.lists r.key = some s ∧ s.first = some f ∧ (o = f ∨ o.base = some f.id) := by
  have hshares : ∀ (hist : List (LoadReq Key K)) (L : Lib Key K), (L.run hist).shares = L.shares := by
    intro hist
    induction hist with
    | nil => intro L; rfl
    | cons r hist ih =>
      intro L
      show ((L.load r).1.run hist).shares = _
      rw [ih]
      rcases load_cases L r with ⟨h1, _⟩ | ⟨s, i, _, _, _, _, o, first, _, _, heq⟩
      · rw [h1]
      · rw [heq]
  obtain ⟨s, i, h1, h2, h3⟩ := load_stores _ r o h
  have inv := ((CacheInv.fresh hL).run hist).step r
  have hsh' : (((L.run hist).load r).1).shares r.key = true := by
    have : ((L.run hist).load r).1 = L.run (hist ++ [r]) := by unfold Lib.run; rw [List.foldl_append]; rfl
    rw [this, hshares]; exact hsh
  obtain ⟨f, e1, e2⟩ := inv.share _ _ _ _ hsh' h1 h3
  exact ⟨s, f, h1, e1, e2⟩

/-- A concrete history: two tables, a failing read, then loads. -/
example : let L : Lib Nat ℚ := ⟨fun k => if k = 0 then some ⟨[293, 600], [none, none], none⟩ else none, fun _ => true, 0, []⟩
    (L.run [⟨0, 600, 1, false⟩, ⟨0, 600, 1, true⟩, ⟨0, 293, 1, true⟩, ⟨0, 600, 1, false⟩]).reads = [(0, 0), (0, 1)] := by
  decide +kernel

end Cache

end PNDL
