import Verif.Spec.ReadSample
import Verif.Props.UnitBase
import Verif.Props.EnergyAngle
import Verif.Props.Angle
import Verif.Props.Energy
import Verif.Props.Tab1D
import Verif.Props.Frame

/-! Computations without out-of-range accesses. -/
namespace PNDL
open Spec

/-- The computation reads nothing outside its vectors. -/
def NoUB {α : Type _} (r : Res α) : Prop := r ≠ .error .ub

theorem NoUB.ok {α : Type _} (a : α) : NoUB (.ok a : Res α) := by intro h; cases h
theorem NoUB.pure {α : Type _} (a : α) : NoUB (Pure.pure a : Res α) := by intro h; cases h
theorem NoUB.exc {α : Type _} : NoUB (.error .exc : Res α) := by intro h; cases h

theorem NoUB.bind {α β : Type _} {r : Res α} {f : α → Res β} (h : NoUB r) (hf : ∀ a, r = .ok a → NoUB (f a)) : NoUB (r >>= f) := by
  cases r with
  | error e => intro hc; apply h; simpa [Bind.bind, Except.bind] using hc
  | ok a => exact hf a rfl

theorem NoUB.ite {α : Type _} {c : Prop} [Decidable c] {a b : Res α} (h1 : c → NoUB a) (h2 : ¬ c → NoUB b) : NoUB (if c then a else b) := by
  by_cases hc : c
  · rw [if_pos hc]; exact h1 hc
  · rw [if_neg hc]; exact h2 hc

theorem noUB_rdiv (a b : ℝ) : NoUB (rdiv a b) := by
  rcases rdiv_cases a b with h | h <;> rw [h] <;> intro hc <;> cases hc

theorem noUB_clog (a : ℝ) : NoUB (clog a) := by
  unfold clog NoUB; split <;> simp

theorem noUB_csqrt (a : ℝ) : NoUB (csqrt a) := by
  unfold csqrt NoUB; split <;> simp

theorem noUB_cpow (a b : ℝ) : NoUB (cpow a b) := by
  unfold cpow NoUB; split_ifs <;> simp

theorem noUB_getAt {α : Type _} {l : List α} {i : Nat} (h : i < l.length) : NoUB (getAt l i) := by
  rw [getAt_of_lt h]; exact .ok _

theorem noUB_subIdx {a b : Nat} (h : b ≤ a) : NoUB (subIdx a b) := by
  rw [subIdx_of_le h]; exact .ok _

theorem noUB_front {α : Type _} {l : List α} (h : 0 < l.length) : NoUB (front l) := noUB_getAt h

theorem noUB_back {α : Type _} {l : List α} (h : 0 < l.length) : NoUB (back l) := by
  obtain ⟨a, ha⟩ := last_exists (l := l) h
  rw [back_eq_ok.mpr ha]; exact .ok _

theorem noUB_interpolate (r : Interpolation) (x x1 y1 x2 y2 : ℝ) : NoUB (r.interpolate x x1 y1 x2 y2) := by
  cases r <;> simp only [Interpolation.interpolate]
  · exact .ok _
  · exact (noUB_rdiv _ _).bind fun _ _ => .ok _
  · exact (noUB_rdiv _ _).bind fun _ _ => (noUB_clog _).bind fun _ _ => (noUB_rdiv _ _).bind fun _ _ => (noUB_clog _).bind fun _ _ =>
      (noUB_rdiv _ _).bind fun _ _ => .ok _
  · exact (noUB_rdiv _ _).bind fun _ _ => (noUB_rdiv _ _).bind fun _ _ => (noUB_cpow _ _).bind fun _ _ => .ok _
  · exact (noUB_rdiv _ _).bind fun _ _ => (noUB_clog _).bind fun _ _ => (noUB_rdiv _ _).bind fun _ _ => (noUB_clog _).bind fun _ _ =>
      (noUB_rdiv _ _).bind fun _ _ => (noUB_rdiv _ _).bind fun _ _ => (noUB_cpow _ _).bind fun _ _ => .ok _

/-- A binary search never leaves its range, sorted or not. -/
theorem bisect_le_len {α : Type _} (p : α → Bool) (l : List α) : ∀ fuel first len, bisect p l fuel first len ≤ first + len := by
  intro fuel
  induction fuel with
  | zero => intro first len; simp [bisect]
  | succ n ih =>
    intro first len
    unfold bisect
    by_cases h0 : len = 0
    · rw [if_pos h0]; omega
    · rw [if_neg h0]
      cases hm : l[first + len / 2]? with
      | none => simp only; omega
      | some a =>
        simp only
        split
        · have := ih (first + len / 2 + 1) (len - len / 2 - 1); omega
        · have := ih first (len / 2); omega

theorem lowerBound_le_length (l : List ℝ) (x : ℝ) : lowerBound l x ≤ l.length := by
  have := bisect_le_len (fun a => decide (a < x)) l (l.length - 0) 0 (l.length - 0)
  unfold lowerBound lowerBoundRange
  omega

theorem noUB_bracketIn {grid : List ℝ} (h : 2 ≤ grid.length) (E : ℝ) : NoUB (bracketIn grid E) := by
  have hle := lowerBound_le_length grid E
  unfold bracketIn
  dsimp only
  refine .ite (fun _ => .ok _) fun h0 => .ite (fun _ => (noUB_subIdx h).bind fun _ _ => .ok _) fun h1 => ?_
  rw [subIdx_of_le (by omega)]
  exact (NoUB.ok _).bind fun _ e => by
    cases e
    exact (noUB_getAt (by omega)).bind fun _ _ => (noUB_getAt (by omega)).bind fun _ _ => (noUB_rdiv _ _).bind fun _ _ => .ok _

theorem bracketIn_lt {grid : List ℝ} (h : 2 ≤ grid.length) {E : ℝ} {l : Nat} {f : ℝ} (hb : bracketIn grid E = .ok (l, f)) : l + 1 < grid.length := by
  have hle := lowerBound_le_length grid E
  unfold bracketIn at hb
  dsimp only at hb
  by_cases h0 : lowerBound grid E = 0
  · rw [if_pos h0] at hb; cases hb; omega
  · rw [if_neg h0] at hb
    by_cases h1 : lowerBound grid E = grid.length
    · rw [if_pos h1, subIdx_of_le h] at hb
      have := Except.ok.inj hb
      have : grid.length - 2 = l := congrArg Prod.fst this
      omega
    · rw [if_neg h1, subIdx_of_le (by omega)] at hb
      obtain ⟨l', e, hb⟩ := bind_ok hb
      cases e
      obtain ⟨_, _, hb⟩ := bind_ok hb
      obtain ⟨_, _, hb⟩ := bind_ok hb
      obtain ⟨_, _, hb⟩ := bind_ok hb
      have := Except.ok.inj hb
      have : lowerBound grid E - 1 = l := congrArg Prod.fst this
      omega

theorem noUB_pcSample {t : PCTable} (hv : ValidPC t) (h0 : FromZero t) {xi : ℝ} (h : 0 ≤ xi) (h1 : xi ≤ 1) : NoUB (t.sample xi) := by
  have hpos : 0 < t.cdf.length := by rw [hv.lenC]; exact List.length_pos_iff.mpr hv.ne
  obtain ⟨c, hc⟩ := getElem?_of_lt (l := t.cdf) (i := 0) hpos
  intro hu
  have := (C32_undefined_iff t hv xi c hc h1).mp hu
  have := h0 c hc
  linarith

/-- A table made by the constructor. -/
def BuiltTab (t : Tab1D) : Prop := Tab1D.make t.nbt t.int t.x t.y = .ok t

theorem builtTab_of {nbt : List Nat} {int : List Interpolation} {x y : List ℝ} {t : Tab1D} (h : Tab1D.make nbt int x y = .ok t) : BuiltTab t := by
  have h' := h
  unfold Tab1D.make at h'
  split at h'
  · cases h'
  split at h'
  · cases h'
  split at h'
  · cases h'
  obtain ⟨gs, hg, h'⟩ := bind_ok h'
  have e := Except.ok.inj h'
  rw [← e] at h ⊢
  exact h

theorem noUB_regionEval {g : Region} (hs : g.xs.Pairwise (· ≤ ·)) (hl : g.xs.length = g.ys.length) (hn : g.xs ≠ []) (v : ℝ) : NoUB (g.eval v) := by
  have hp : 0 < g.xs.length := List.length_pos_of_ne_nil hn
  obtain ⟨a, ha⟩ := getElem?_of_lt (l := g.xs) (i := 0) hp
  obtain ⟨b, hb⟩ := last_exists (l := g.xs) hp
  by_cases hva : v ≤ a
  · obtain ⟨ya, hya⟩ := getElem?_of_lt (l := g.ys) (i := 0) (by omega)
    rw [Region.eval_low ha hya hva]; exact .ok _
  · by_cases hvb : b ≤ v
    · obtain ⟨yb, hyb⟩ := last_exists (l := g.ys) (by omega)
      rw [Region.eval_high ha hb hyb (not_le.mp hva) hvb]; exact .ok _
    · obtain ⟨i, x1, x2, y1, y2, g1, g2, g3, g4, g5, g6, g7⟩ := Region.eval_mid hs hl ha hb (not_le.mp hva) (not_le.mp hvb)
      rw [g7]; exact noUB_interpolate _ _ _ _ _ _

theorem noUB_tabEval {t : Tab1D} (hb : BuiltTab t) (hv : SafeTab t) (v : ℝ) : NoUB (t.eval v) := by
  obtain ⟨nbt, int, x, y, gs⟩ := t
  unfold BuiltTab at hb
  unfold SafeTab at hv
  dsimp only at hb hv
  obtain ⟨gs', e, hxy, hs, ht, hlast, hni⟩ := make_ok hv hb
  cases e
  have hne : x ≠ [] := by
    rintro rfl
    have hv1 := hv.pos 0 (List.mem_of_getLast? hv.last)
    omega
  have hpos := List.length_pos_of_ne_nil hne
  obtain ⟨mx, hmx⟩ := last_exists (l := x) hpos
  obtain ⟨mn, hmn⟩ := getElem?_of_lt (l := x) (i := 0) hpos
  obtain ⟨y0, hy0⟩ := getElem?_of_lt (l := y) (i := 0) (by omega)
  by_cases h1 : v ≤ mn
  · rw [C19_below nbt int x y hv _ hb v mn y0 hmn hy0 h1]; exact .ok _
  · by_cases h2 : mx ≤ v
    · obtain ⟨lo, hi, r, e1, e2, e3⟩ := tiles_last _ _ _ ht hlast
      subst e3
      simp only [Tab1D.eval, front_eq_ok.mpr hmn, back_eq_ok.mpr hmx, back_eq_ok.mpr e1, bind, Except.bind]
      rw [if_neg h1, if_pos h2]
      refine noUB_regionEval (points_sorted hs) ?_ ?_ v
      · rw [points_length le_rfl, points_length (by omega)]
      · intro hc; simp only at hc; have := points_length (l := x) (lo := lo) le_rfl; rw [hc] at this; simp at this; omega
    · obtain ⟨k, lo, hi, r, rest, gs', b, c, e1, e2, e3, e4, e5, e6, e7, e8, e9, e10⟩ :=
        seek_spec (y := y) v hmx (not_le.mp h2).le _ _ _ ht hlast mn hmn (not_le.mp h1).le
      obtain ⟨nxt, gs'', rfl, q1, q2, q3, q4⟩ := tiles_head e2
      rw [eval_inside (tb := ⟨nbt, int, x, y, gs⟩) hmn hmx (not_le.mp h1) (not_le.mp h2)]
      simp only [seekEval, e1, bind, Except.bind]
      refine noUB_regionEval (g := ⟨r, points x lo hi, points y lo hi⟩) (points_sorted hs) ?_ ?_ v
      · rw [points_length q2, points_length (by omega)]
      · intro hc; simp only at hc; have := points_length (l := x) (lo := lo) q2; rw [hc] at this; simp at this; omega

end PNDL
