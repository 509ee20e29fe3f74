import Verif.Model.Python
import Verif.Lemmas.Prelude
import Mathlib.Tactic.NormNum
import Mathlib.Algebra.Order.Field.Rat

/-! C160: indexing and iterating in Python; laws written in Python. -/
namespace PNDL

private theorem sizeT_ok {i : Nat} (h : i < 2 ^ 64) : pySizeT (i : Int) = .ok i := by
  unfold pySizeT
  rw [if_pos ⟨Int.natCast_nonneg i, by exact_mod_cast h⟩, Int.toNat_natCast]

private theorem gridItem_ok {K : Type} {energy : List K} {i : Nat} {x : K} (h64 : i < 2 ^ 64) (h : energy[i]? = some x) : pyGridItem energy i = .ok x := by
  unfold pyGridItem
  rw [sizeT_ok h64]
  show fromCpp (getAt energy i) = _
  rw [getAt_eq_ok.mpr h]
  rfl

private theorem gridItem_out {K : Type} {energy : List K} {i : Nat} (h64 : i < 2 ^ 64) (h : energy.length ≤ i) : pyGridItem energy i = .error .undefined := by
  unfold pyGridItem
  rw [sizeT_ok h64]
  show fromCpp (getAt energy i) = _
  rw [getAt_of_le h]
  rfl

/-- **C160** `grid[i]` is the i-th point of the grid. -/
theorem C160_grid_item {K : Type} (energy : List K) (i : Nat) (x : K) (h64 : energy.length < 2 ^ 64) (h : energy[i]? = some x) : pyGridItem energy i = .ok x :=
  gridItem_ok (lt_trans (List.getElem?_eq_some_iff.mp h).1 h64) h

/-- **C160** Negative indices, which Python counts from the end, are refused, never mistaken for others. -/
theorem C160_negative {K : Type} [Field K] [LinearOrder K] (energy : List K) (s : XS K) (i : Int) (h : i < 0) :
    pyGridItem energy i = .error .typeError ∧ pyXsItem s i = .error .typeError := by
  have : pySizeT i = .error .typeError := by unfold pySizeT; rw [if_neg (by omega)]
  unfold pyGridItem pyXsItem
  rw [this]
  exact ⟨rfl, rfl⟩

/-- **C160** `xs[i]` is the cross section at the i-th point of the grid: zero below the first stored value. -/
theorem C160_xs_item {K : Type} [Field K] [LinearOrder K] (values grid : List K) (index : Nat) (s : XS K) (hs : XS.make values grid index = .ok s)
    (h32 : grid.length < 2 ^ 32) (i : Nat) (hi : i < grid.length) (hx : index < 2 ^ 32) :
    (i < index → pyXsItem s i = .ok 0) ∧ (index ≤ i → ∃ v, values[i - index]? = some v ∧ pyXsItem s i = .ok v) := by
  unfold XS.make at hs
  simp only [Nat.mod_eq_of_lt hx] at hs
  by_cases h1 : index ≥ grid.length
  · rw [if_pos h1] at hs; cases hs
  rw [if_neg h1] at hs
  by_cases h2 : values.any (fun v => decide (v < 0)) = true
  · rw [if_pos h2] at hs; cases hs
  rw [if_neg h2] at hs
  by_cases h3 : grid.length - index ≠ values.length
  · rw [if_pos h3] at hs; cases hs
  rw [if_neg h3] at hs
  cases hs
  have h3 : grid.length - index = values.length := not_not.mp h3
  unfold pyXsItem
  rw [sizeT_ok (lt_trans (lt_trans hi h32) (by norm_num))]
  refine ⟨fun hlt => ?_, fun hge => ⟨values[i - index], List.getElem?_eq_getElem (by omega), ?_⟩⟩
  · show fromCpp (XS.at _ i) = _
    unfold XS.at
    simp only [Bool.false_eq_true, if_false]
    rw [if_pos hlt]
    rfl
  · show fromCpp (XS.at _ i) = _
    unfold XS.at
    simp only [Bool.false_eq_true, if_false]
    rw [if_neg (by omega), if_neg (by omega), getAt_of_lt (by omega)]
    rfl

/-- **C160** `E in grid` is true for every point of the grid. -/
theorem C160_contains_partial {K : Type} [DecidableEq K] (energy : List K) (h64 : energy.length < 2 ^ 64) (v : K) (hv : v ∈ energy) (f : Nat) (hf : energy.length ≤ f) :
    pyIn (pyGridItem energy) v f 0 = .ok true := by
  obtain ⟨j, hj⟩ := List.mem_iff_getElem?.mp hv
  have hjl := (List.getElem?_eq_some_iff.mp hj).1
  have key : ∀ (d i f : Nat), j = i + d → d + 1 ≤ f → pyIn (pyGridItem energy) v f i = .ok true := by
    intro d
    induction d with
    | zero =>
      intro i f e hf
      obtain ⟨f, rfl⟩ : ∃ g, f = g + 1 := ⟨f - 1, by omega⟩
      rw [Nat.add_zero] at e
      subst e
      rw [pyIn, gridItem_ok (lt_trans hjl h64) hj]
      simp
    | succ d ih =>
      intro i f e hf
      obtain ⟨f, rfl⟩ : ∃ g, f = g + 1 := ⟨f - 1, by omega⟩
      have hi : i < energy.length := by omega
      rw [pyIn, gridItem_ok (lt_trans hi h64) (List.getElem?_eq_getElem hi)]
      simp only
      by_cases e2 : energy[i] = v
      · rw [if_pos e2]
      · rw [if_neg e2]; exact ih (i + 1) f (by omega) (by omega)
  exact key j 0 f (by omega) (by omega)

/-- **C160** The full claim is false of the code: an index past the end is not refused but read, ... -/
theorem C160_violation_item {K : Type} (energy : List K) (i : Nat) (h : energy.length ≤ i) (h64 : i < 2 ^ 64) : pyGridItem energy i = .error .undefined :=
  gridItem_out h64 h

/-- **C160** ... so iterating over any grid runs past its end (nothing tells Python to stop), ... -/
theorem C160_violation_iterate {K : Type} (energy : List K) (h64 : energy.length < 2 ^ 64) (f : Nat) (hf : energy.length < f) :
    pyList (pyGridItem energy) f 0 = .error .undefined := by
  have key : ∀ (d i f : Nat), energy.length = i + d → d < f → pyList (pyGridItem energy) f i = .error .undefined := by
    intro d
    induction d with
    | zero =>
      intro i f e hf
      obtain ⟨f, rfl⟩ : ∃ g, f = g + 1 := ⟨f - 1, by omega⟩
      rw [pyList, gridItem_out (by omega) (by omega)]
    | succ d ih =>
      intro i f e hf
      obtain ⟨f, rfl⟩ : ∃ g, f = g + 1 := ⟨f - 1, by omega⟩
      have hi : i < energy.length := by omega
      rw [pyList, gridItem_ok (by omega) (List.getElem?_eq_getElem hi)]
      simp only
      rw [ih (i + 1) f (by omega) (by omega)]
      rfl
  exact key _ 0 f (by omega) hf

/-- **C160** ... as does asking whether a grid contains an energy it does not contain, ... -/
theorem C160_violation_contains {K : Type} [DecidableEq K] (energy : List K) (h64 : energy.length < 2 ^ 64) (v : K) (hv : v ∉ energy) (f : Nat)
    (hf : energy.length < f) : pyIn (pyGridItem energy) v f 0 = .error .undefined := by
  have key : ∀ (d i f : Nat), energy.length = i + d → d < f → pyIn (pyGridItem energy) v f i = .error .undefined := by
    intro d
    induction d with
    | zero =>
      intro i f e hf
      obtain ⟨f, rfl⟩ : ∃ g, f = g + 1 := ⟨f - 1, by omega⟩
      rw [pyIn, gridItem_out (by omega) (by omega)]
    | succ d ih =>
      intro i f e hf
      obtain ⟨f, rfl⟩ : ∃ g, f = g + 1 := ⟨f - 1, by omega⟩
      have hi : i < energy.length := by omega
      rw [pyIn, gridItem_ok (by omega) (List.getElem?_eq_getElem hi)]
      simp only
      rw [if_neg (fun e : energy[i] = v => hv (by rw [← e]; exact List.getElem_mem hi)), ih (i + 1) f (by omega) (by omega)]
  exact key _ 0 f (by omega) hf

/-- **C160** ... and iterating over a cross section never ends: past the end it repeats its last value. -/
theorem C160_violation_iterate_xs {K : Type} [Field K] [LinearOrder K] (s : XS K) (hv : s.values ≠ []) (f : Nat) (hf : f ≤ 2 ^ 64) :
    pyList (pyXsItem s) f 0 = .error .hang := by
  have item : ∀ i : Nat, i < 2 ^ 64 → ∃ x, pyXsItem s i = .ok x := by
    intro i hi
    have h0 : 0 < s.values.length := List.length_pos_iff.mpr hv
    have : ∃ x, s.at i = .ok x := by
      unfold XS.at
      by_cases h1 : s.single = true
      · rw [if_pos h1]; exact ⟨_, front_eq_ok.mpr (List.getElem?_eq_getElem h0)⟩
      · rw [if_neg h1]
        by_cases h2 : i < s.index
        · rw [if_pos h2]; exact ⟨_, rfl⟩
        · rw [if_neg h2]
          by_cases h3 : i ≥ s.index + s.values.length
          · rw [if_pos h3]; exact ⟨_, back_eq_ok.mpr (List.getLast?_eq_some_getLast hv)⟩
          · rw [if_neg h3]; exact ⟨_, getAt_of_lt (by omega)⟩
    obtain ⟨x, hx⟩ := this
    refine ⟨x, ?_⟩
    unfold pyXsItem
    rw [sizeT_ok hi]
    show fromCpp (s.at i) = _
    rw [hx]
    rfl
  have key : ∀ (f i : Nat), i + f ≤ 2 ^ 64 → pyList (pyXsItem s) f i = .error .hang := by
    intro f
    induction f with
    | zero => intro i _; rfl
    | succ f ih =>
      intro i hi
      obtain ⟨x, hx⟩ := item i (by omega)
      rw [pyList, hx]
      simp only
      rw [ih (i + 1) (by omega)]
      rfl
  exact key f 0 (by omega)

/-- **C160** A number returned by a method written in Python is the number the library uses; `None` from the densities of a joint law is "no density". -/
theorem C160_override_partial {K : Type} (x : K) : pyNumber (.float x) = .ok x ∧ pyEnergyPdf (.float x) = .ok (some x) ∧ pyAngleEnergyPdf (.float x) = .ok (some x) ∧
    pyAngleEnergyPdf (PyObj.none : PyObj K) = .ok none := ⟨rfl, rfl, rfl, rfl⟩

/-- **C160** But an energy law written in Python cannot say that it has no density: `None`, which the method of the library returns then, is an error. -/
theorem C160_violation_none {K : Type} : pyEnergyPdf (PyObj.none : PyObj K) = .error .castError := rfl

/-- A grid of three points. -/
example : pyGridItem [(1 : ℚ), 2, 5] 2 = .ok 5 ∧ pyIn (pyGridItem [(1 : ℚ), 2, 5]) 2 9 0 = .ok true ∧ pyList (pyGridItem [(1 : ℚ), 2, 5]) 9 0 = .error .undefined :=
  ⟨C160_grid_item _ 2 5 (by norm_num) rfl, C160_contains_partial _ (by norm_num) 2 (by simp) 9 (by norm_num), C160_violation_iterate _ (by norm_num) 9 (by norm_num)⟩

/-- A cross section with a threshold. -/
example : ∃ s, XS.make [(3 : ℚ), 4] [1, 2, 5] 1 = .ok s ∧ pyXsItem s 0 = .ok 0 ∧ pyXsItem s 2 = .ok 4 := by
  refine ⟨_, rfl, ?_, ?_⟩ <;> rfl

end PNDL
