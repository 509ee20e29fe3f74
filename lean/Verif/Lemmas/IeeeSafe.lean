import Verif.Lemmas.Ieee
import Verif.Spec.Ieee
import Verif.Props.UnitBase

/-! Which search keys lead outside the tables. -/
namespace PNDL
open Spec

/-- Either the function has a value or it leaves its tables, the latter exactly under `B`. -/
def UBIff {α : Type _} (r : Res α) (B : Prop) : Prop := (B → r = .error .ub) ∧ (¬ B → ∃ v, r = .ok v)

theorem UBIff.iff {α : Type _} {r : Res α} {B : Prop} (h : UBIff r B) : r = .error .ub ↔ B :=
  ⟨fun e => Classical.byContradiction fun hB => (by
    obtain ⟨v, hv⟩ := h.2 hB
    rw [hv] at e
    cases e), h.1⟩

theorem UBIff.total {α : Type _} {r : Res α} {B : Prop} (h : UBIff r B) : r = .error .ub ∨ ∃ v, r = .ok v := by
  by_cases hB : B
  · exact .inl (h.1 hB)
  · exact .inr (h.2 hB)

theorem ext_total {r : Res ℝ} {s : Res Num} (h : Ext Num.fin r s) {p : ℝ} (hp : r = .ok p) : ∃ v, s = .ok v := ⟨_, h.1 p hp⟩

/-! ### PCTable -/

theorem PCTable.pdfN_nan {t : PCTable} (hv : ValidPC t) : t.pdfN .nan = .error .ub := by
  have hpos : 0 < t.values.length := List.length_pos_iff.mpr hv.ne
  obtain ⟨mn, hmn⟩ := getElem?_of_lt (l := t.values) (i := 0) (by omega)
  obtain ⟨mx, hmx⟩ := last_exists hpos
  unfold PCTable.pdfN PCTable.minValue PCTable.maxValue
  simp only [front_eq_ok.mpr hmn, back_eq_ok.mpr hmx, bind, Except.bind, lowerBoundN_nan, getAt_eq_ok.mpr hmn]
  rw [if_neg (by simp [Num.lt]), if_neg (by simp [Num.eq])]
  rfl

theorem PCTable.pdfN_inf {t : PCTable} (hv : ValidPC t) (s : Bool) : t.pdfN (.inf s) = .ok (.fin 0) := by
  have hpos : 0 < t.values.length := List.length_pos_iff.mpr hv.ne
  obtain ⟨mn, hmn⟩ := getElem?_of_lt (l := t.values) (i := 0) (by omega)
  obtain ⟨mx, hmx⟩ := last_exists hpos
  unfold PCTable.pdfN PCTable.minValue PCTable.maxValue
  simp only [front_eq_ok.mpr hmn, back_eq_ok.mpr hmx, bind, Except.bind]
  rw [if_pos (by cases s <;> simp [Num.lt])]

theorem PCTable.pdfN_fin {t : PCTable} (hv : ValidPC t) (x : ℝ) : ∃ v, t.pdfN (.fin x) = .ok v := by
  obtain ⟨p, hp, _⟩ := C34_pdf t hv x
  exact ext_total (t.pdfN_ext x) hp

/-! ### Correlated tables -/

theorem jointPdfN_nan {energy pdf : List ℝ} {r : Interpolation} {node : Nat → Res Num} (hne : energy ≠ []) :
    jointPdfN energy pdf r node .nan = .error .ub := by
  have hpos : 0 < energy.length := List.length_pos_iff.mpr hne
  obtain ⟨mn, hmn⟩ := getElem?_of_lt (l := energy) (i := 0) (by omega)
  unfold jointPdfN
  simp only [lowerBoundN_nan]
  rw [if_neg (by omega)]
  simp only [front_eq_ok.mpr hmn, bind, Except.bind, getAt_eq_ok.mpr hmn]
  rw [if_neg (by simp [Num.lt]), if_pos (by simp [Num.eq])]
  rfl

open Classical in
theorem jointPdfN_inf {energy pdf : List ℝ} {r : Interpolation} {node : Nat → Res Num} (hne : energy ≠ []) (s : Bool) :
    jointPdfN energy pdf r node (.inf s) = .ok (.fin 0) := by
  have hpos : 0 < energy.length := List.length_pos_iff.mpr hne
  obtain ⟨mn, hmn⟩ := getElem?_of_lt (l := energy) (i := 0) (by omega)
  unfold jointPdfN
  simp only [lowerBoundN_inf]
  cases s with
  | false => simp
  | true =>
    simp only [if_true]
    rw [if_neg (by omega)]
    simp only [front_eq_ok.mpr hmn, bind, Except.bind]
    rw [if_pos ⟨trivial, by simp [Num.lt]⟩]

open Classical in
theorem jointPdfN_fin {energy pdf : List ℝ} {r : Interpolation} {node : Nat → Res Num} (hne : energy ≠ []) (hs : energy.Pairwise (· ≤ ·))
    (hlen : pdf.length = energy.length) (hnode : ∀ l < energy.length, ∃ m, node l = .ok m) {b : ℝ} (hb : energy.getLast? = some b) (E : ℝ) :
    UBIff (jointPdfN energy pdf r node (.fin E)) ((r ≠ .histogram ∧ SingleTop energy) ∧ E = b) := by
  have hpos : 0 < energy.length := List.length_pos_iff.mpr hne
  obtain ⟨mn, hmn⟩ := getElem?_of_lt (l := energy) (i := 0) (by omega)
  have hl : energy[energy.length - 1]? = some b := by rw [← List.getLast?_eq_getElem?]; exact hb
  have hle := lowerBound_le hs E
  have key : ∀ l, l < energy.length → (r ≠ .histogram → l + 1 < energy.length) → ∃ v, (if r = .histogram then (do
        let m ← node l
        let p ← getAt pdf l
        return Num.mul m (.fin p))
      else do
        let el ← getAt energy l
        let er ← getAt energy (l + 1)
        let f := Num.div (Num.sub (.fin E) (.fin el)) (.fin (er - el))
        let m1 ← node (l + 1)
        let p1 ← getAt pdf (l + 1)
        let m0 ← node l
        let p0 ← getAt pdf l
        return Num.add (Num.mul (Num.mul f m1) (.fin p1)) (Num.mul (Num.mul (Num.sub (.fin 1) f) m0) (.fin p0)) : Res Num) = .ok v := by
    intro l h1 h2
    obtain ⟨m0, hm0⟩ := hnode l h1
    obtain ⟨p0, hp0⟩ := getElem?_of_lt (l := pdf) (i := l) (by omega)
    by_cases hr : r = .histogram
    · rw [if_pos hr]
      simp only [hm0, getAt_eq_ok.mpr hp0, bind, Except.bind]
      exact ⟨_, rfl⟩
    · have h3 := h2 hr
      rw [if_neg hr]
      obtain ⟨m1, hm1⟩ := hnode (l + 1) h3
      obtain ⟨p1, hp1⟩ := getElem?_of_lt (l := pdf) (i := l + 1) (by omega)
      obtain ⟨el, hel⟩ := getElem?_of_lt h1
      obtain ⟨er, her⟩ := getElem?_of_lt h3
      simp only [hm0, hm1, getAt_eq_ok.mpr hp0, getAt_eq_ok.mpr hp1, getAt_eq_ok.mpr hel, getAt_eq_ok.mpr her, bind, Except.bind]
      exact ⟨_, rfl⟩
  obtain ⟨n, hn⟩ : ∃ n, n = lowerBound energy E := ⟨_, rfl⟩
  have hiff : ∀ {i : Nat} {a : ℝ}, energy[i]? = some a → (a < E ↔ i < n) := by
    intro i a ha; rw [hn]; exact lowerBound_iff hs E ha
  rw [← hn] at hle
  unfold jointPdfN
  simp only [lowerBoundN_fin]
  rw [← hn]
  by_cases hend : n = energy.length
  · rw [if_pos hend]
    refine ⟨?_, fun _ => ⟨_, rfl⟩⟩
    rintro ⟨_, rfl⟩
    exact absurd ((hiff hl).mpr (by omega)) (lt_irrefl _)
  rw [if_neg hend]
  have hnl : n < energy.length := by omega
  simp only [front_eq_ok.mpr hmn, bind, Except.bind]
  by_cases hlow : n = 0 ∧ Num.lt (.fin E) (.fin mn)
  · rw [if_pos hlow]
    refine ⟨?_, fun _ => ⟨_, rfl⟩⟩
    rintro ⟨_, rfl⟩
    have h1 : E < mn := hlow.2
    exact absurd h1 (not_lt.mpr (pairwise_le_getElem? hs (Nat.zero_le _) hmn hl))
  rw [if_neg hlow]
  obtain ⟨e, he⟩ := getElem?_of_lt hnl
  simp only [getAt_eq_ok.mpr he]
  have hEe : E ≤ e := not_lt.mp (mt (hiff he).mp (lt_irrefl _))
  have single : ∀ _ : SingleTop energy, E = b → n + 1 = energy.length := by
    rintro ⟨b', hb', hd⟩ rfl
    rw [hb] at hb'; cases hb'
    by_contra hc
    have hd' : energy.dropLast[n]? = some e := by rw [List.getElem?_dropLast, if_pos (by omega)]; exact he
    exact absurd (hd e (List.mem_of_getElem? hd')) (not_lt.mpr hEe)
  by_cases hE : Num.eq (.fin E) (.fin e)
  · have hE' : E = e := hE
    rw [if_neg (not_not.mpr hE)]
    simp only
    constructor
    · rintro ⟨⟨hr, ht⟩, hEb⟩
      have := single ht hEb
      rw [if_neg hr, getAt_eq_ok.mpr he]
      simp only
      have : getAt energy (n + 1) = .error .ub := by
        unfold getAt; rw [List.getElem?_eq_none (by omega)]
      rw [this]
    · intro hB
      refine key n hnl fun hr => ?_
      by_contra hc
      have hnn : n = energy.length - 1 := by omega
      rw [hnn, hl] at he
      cases he
      refine hB ⟨⟨hr, b, hb, fun a ha => ?_⟩, hE'⟩
      obtain ⟨j, hj⟩ := List.mem_iff_getElem?.mp ha
      rw [List.getElem?_dropLast] at hj
      split at hj
      · rename_i hj'
        rw [← hE']
        exact (hiff hj).mpr (by omega)
      · cases hj
  · have hlt : E < e := lt_of_le_of_ne hEe hE
    have hn1 : 1 ≤ n := by
      rcases Nat.eq_zero_or_pos n with h | h
      · rw [h, hmn] at he; cases he; exact absurd ⟨h, hlt⟩ hlow
      · exact h
    rw [if_pos hE, subIdx_of_le hn1]
    simp only
    constructor
    · rintro ⟨_, hEb⟩
      have := pairwise_le_getElem? hs (show n ≤ energy.length - 1 by omega) he hl
      linarith
    · intro _
      exact key (n - 1) (by omega) fun _ => by omega

/-! ### Both tables together -/

theorem windowN {q0 q1 : Num → Res Num} {a0 b0 a1 b1 f Eout : ℝ} (hf0 : 0 ≤ f) (hf1 : f ≤ 1) (h0 : a0 ≤ b0) (h1 : a1 ≤ b1)
    (nan0 : q0 .nan = .error .ub) (nan1 : q1 .nan = .error .ub) (inf0 : ∀ s, ∃ v, q0 (.inf s) = .ok v) {B0 B1 : Prop}
    (fin0 : ∀ x, UBIff (q0 (.fin x)) (B0 ∧ x = b0)) (fin1 : ∀ x, UBIff (q1 (.fin x)) (B1 ∧ x = b1)) {Emin Emax : ℝ}
    (hmin : Emin = a0 + f * (a1 - a0)) (hmax : Emax = b0 + f * (b1 - b0)) :
    UBIff (do
      let p0 ← q0 (scaleInN Eout (.fin Emin) (.fin Emax) a0 b0)
      let p1 ← q1 (scaleInN Eout (.fin Emin) (.fin Emax) a1 b1)
      return mixN (.fin f) p0 p1 : Res Num)
      (Emin = Emax ∨ (B0 ∧ (Eout = Emax ∨ a0 = b0)) ∨ (B1 ∧ (Eout = Emax ∨ a1 = b1))) := by
  by_cases hd : Emin = Emax
  · refine ⟨fun _ => ?_, fun h => absurd (.inl hd) h⟩
    have hsum : (1 - f) * (b0 - a0) + f * (b1 - a1) = 0 := by rw [hmin, hmax] at hd; linarith
    have hz0 : (1 - f) * (b0 - a0) = 0 := by
      have := mul_nonneg (sub_nonneg.mpr hf1) (sub_nonneg.mpr h0)
      have := mul_nonneg hf0 (sub_nonneg.mpr h1)
      linarith
    have hz1 : f * (b1 - a1) = 0 := by linarith
    have hsub : Num.sub (.fin Emax) (.fin Emin) = .fin 0 := by simp [Num.sub, Num.neg, Num.add, hd]
    have hsub2 : Num.sub (.fin Eout) (.fin Emin) = .fin (Eout - Emin) := by simp [Num.sub, Num.neg, Num.add, sub_eq_add_neg]
    have hkey : ∀ a b : ℝ, a = b → scaleInN Eout (.fin Emin) (.fin Emax) a b = .nan := by
      intro a b hab
      unfold scaleInN
      rw [hsub, hsub2, hab, sub_self]
      by_cases hz : Eout - Emin = 0
      · simp [Num.div, hz, Num.mul, Num.add]
      · simp [Num.div, hz, Num.mul, Num.add]
    by_cases hf : f = 1
    · have hb1 : a1 = b1 := by rw [hf] at hz1; linarith
      rw [hkey a1 b1 hb1]
      have : q0 (scaleInN Eout (.fin Emin) (.fin Emax) a0 b0) = .error .ub ∨ ∃ v, q0 (scaleInN Eout (.fin Emin) (.fin Emax) a0 b0) = .ok v := by
        cases hk : scaleInN Eout (.fin Emin) (.fin Emax) a0 b0 with
        | fin x => exact (fin0 x).total
        | inf s => exact .inr (inf0 s)
        | nan => exact .inl nan0
      rcases this with h | ⟨v, h⟩
      · rw [h]; rfl
      · rw [h]; simp only [bind, Except.bind, nan1]
    · have hb0 : a0 = b0 := by
        rcases mul_eq_zero.mp hz0 with h | h
        · exact absurd (by linarith) hf
        · linarith
      rw [hkey a0 b0 hb0, nan0]
      rfl
  · have hne : Emax - Emin ≠ 0 := sub_ne_zero.mpr (Ne.symm hd)
    rw [scaleInN_fin a0 b0 hne, scaleInN_fin a1 b1 hne]
    have hx : ∀ a b : ℝ, (Eout - Emin) / (Emax - Emin) * (b - a) + a = b ↔ Eout = Emax ∨ a = b := by
      intro a b
      constructor
      · intro h
        have : ((Eout - Emin) / (Emax - Emin) - 1) * (b - a) = 0 := by linarith
        rcases mul_eq_zero.mp this with h | h
        · left
          have : (Eout - Emin) / (Emax - Emin) = 1 := by linarith
          rw [div_eq_one_iff_eq hne] at this
          linarith
        · right; linarith
      · rintro (h | h)
        · rw [h, div_self hne]; ring
        · rw [h]; ring
    have c0 := fin0 ((Eout - Emin) / (Emax - Emin) * (b0 - a0) + a0)
    have c1 := fin1 ((Eout - Emin) / (Emax - Emin) * (b1 - a1) + a1)
    rw [hx a0 b0] at c0
    rw [hx a1 b1] at c1
    constructor
    · rintro (h | h | h)
      · exact absurd h hd
      · rw [c0.1 h]; rfl
      · rcases c0.total with h' | ⟨v, h'⟩
        · rw [h']; rfl
        · rw [h']
          simp only [bind, Except.bind]
          rw [c1.1 h]
    · intro hB
      rw [not_or, not_or] at hB
      obtain ⟨v, hv⟩ := c0.2 hB.2.1
      obtain ⟨w, hw⟩ := c1.2 hB.2.2
      rw [hv]
      simp only [bind, Except.bind]
      rw [hw]
      exact ⟨_, rfl⟩

/-! ### Sampling -/

theorem bracketInN_uses {grid : List ℝ} (hs : grid.Pairwise (· ≤ ·)) {E : ℝ} {l : Nat} {f : ℝ} (h : Uses grid E l f) :
    bracketInN grid E = .ok (l, .fin f) ∧ 0 ≤ f ∧ f ≤ 1 := by
  obtain ⟨e0, e1, h0, h1, h⟩ := h
  have hlt := lt_length_of_some h1
  have hle := lowerBound_le hs E
  have i0 := lowerBound_iff hs E h0
  have i1 := lowerBound_iff hs E h1
  unfold bracketInN
  rcases h with ⟨ha, hb, rfl⟩ | ⟨rfl, ha, rfl⟩ | ⟨hl, ha, rfl⟩
  · have hlb : lowerBound grid E = l + 1 := by
      have := i0.mp ha
      have := mt i1.mpr (not_lt.mpr hb)
      omega
    have hpos : 0 < e1 - e0 := by linarith
    rw [hlb, if_neg (by omega), if_neg (by omega), subIdx_of_le (by omega)]
    simp only [bind, Except.bind, Nat.add_sub_cancel, getAt_eq_ok.mpr h0, getAt_eq_ok.mpr h1]
    refine ⟨?_, div_nonneg (by linarith) hpos.le, (div_le_one hpos).mpr (by linarith)⟩
    rw [Num.div_fin hpos.ne']
    rfl
  · have hlb : lowerBound grid E = 0 := by
      have := mt i0.mpr (not_lt.mpr ha)
      omega
    rw [hlb, if_pos rfl]
    exact ⟨rfl, le_rfl, zero_le_one⟩
  · have hlb : lowerBound grid E = grid.length := by
      have := i1.mp ha
      omega
    rw [hlb, if_neg (by omega), if_pos rfl, subIdx_of_le (by omega)]
    refine ⟨?_, zero_le_one, le_rfl⟩
    have : grid.length - 2 = l := by omega
    rw [this]
    rfl

theorem uses_exists {grid : List ℝ} (hs : grid.Pairwise (· ≤ ·)) (hn : 2 ≤ grid.length) (E : ℝ) : ∃ l f, Uses grid E l f := by
  obtain ⟨n, hn'⟩ : ∃ n, n = lowerBound grid E := ⟨_, rfl⟩
  have hle := lowerBound_le hs E
  have hiff : ∀ {i : Nat} {a : ℝ}, grid[i]? = some a → (a < E ↔ i < n) := by
    intro i a ha; rw [hn']; exact lowerBound_iff hs E ha
  rw [← hn'] at hle
  rcases Nat.eq_zero_or_pos n with h | h
  · obtain ⟨e0, h0⟩ := getElem?_of_lt (l := grid) (i := 0) (by omega)
    obtain ⟨e1, h1⟩ := getElem?_of_lt (l := grid) (i := 0 + 1) (by omega)
    exact ⟨0, 0, e0, e1, h0, h1, .inr (.inl ⟨rfl, not_lt.mp (mt (hiff h0).mp (by omega)), rfl⟩)⟩
  · by_cases he : n = grid.length
    · obtain ⟨e0, h0⟩ := getElem?_of_lt (l := grid) (i := grid.length - 2) (by omega)
      obtain ⟨e1, h1⟩ := getElem?_of_lt (l := grid) (i := grid.length - 2 + 1) (by omega)
      exact ⟨grid.length - 2, 1, e0, e1, h0, h1, .inr (.inr ⟨by omega, (hiff h1).mpr (by omega), rfl⟩)⟩
    · obtain ⟨e0, h0⟩ := getElem?_of_lt (l := grid) (i := n - 1) (by omega)
      obtain ⟨e1, h1⟩ := getElem?_of_lt (l := grid) (i := n - 1 + 1) (by omega)
      exact ⟨n - 1, _, e0, e1, h0, h1, .inl ⟨(hiff h0).mpr (by omega), not_lt.mp (mt (hiff h1).mp (by omega)), rfl⟩⟩

theorem KalbachTable.paramN_nan {t : KalbachTable} (hne : t.energy ≠ []) (ys : List ℝ) : t.paramN ys .nan = .error .ub := by
  have hpos : 0 < t.energy.length := List.length_pos_iff.mpr hne
  obtain ⟨mn, hmn⟩ := getElem?_of_lt (l := t.energy) (i := 0) (by omega)
  obtain ⟨mx, hmx⟩ := last_exists hpos
  unfold KalbachTable.paramN
  simp only [front_eq_ok.mpr hmn, back_eq_ok.mpr hmx, bind, Except.bind, lowerBoundN_nan]
  rw [if_neg (by simp [Num.le, Num.lt, Num.eq]), if_neg (by simp [Num.le, Num.lt, Num.eq])]
  rfl

theorem KalbachTable.paramN_some {t : KalbachTable} (hv : ValidKT t) {ys : List ℝ} (hl : ys.length = t.energy.length) {x : Num} (hx : x ≠ .nan) :
    ∃ v, t.paramN ys x = .ok v := by
  cases x with
  | nan => exact absurd rfl hx
  | fin x =>
    obtain ⟨v, hv', _⟩ := t.param_ok hv hl x
    exact ext_total (t.paramN_ext ys x) hv'
  | inf s =>
    have hpos : 0 < t.energy.length := List.length_pos_iff.mpr hv.pc.ne
    obtain ⟨mn, hmn⟩ := getElem?_of_lt (l := t.energy) (i := 0) (by omega)
    obtain ⟨mx, hmx⟩ := last_exists hpos
    obtain ⟨y0, hy0⟩ := getElem?_of_lt (l := ys) (i := 0) (by omega)
    obtain ⟨yn, hyn⟩ := last_exists (l := ys) (by omega)
    unfold KalbachTable.paramN
    simp only [front_eq_ok.mpr hmn, back_eq_ok.mpr hmx, bind, Except.bind]
    cases s with
    | true =>
      rw [if_pos (by simp [Num.le, Num.lt, Num.eq]), front_eq_ok.mpr hy0]
      exact ⟨_, rfl⟩
    | false =>
      rw [if_neg (by simp [Num.le, Num.lt, Num.eq]), if_pos (by simp [Num.le, Num.lt, Num.eq]), back_eq_ok.mpr hyn]
      exact ⟨_, rfl⟩

theorem Num.div_zero_pos {a : ℝ} (h : 0 < a) : Num.div (.fin a) (.fin 0) = .inf false := by
  simp [Num.div, h.ne', h.le]

theorem Num.mul_fin_inf {a : ℝ} (h : 0 < a) : Num.mul (.fin a) (.inf false) = .inf false := by
  simp [Num.mul, h.ne', h.le]

theorem Num.mul_inf_fin {a : ℝ} (h : 0 < a) : Num.mul (.inf false) (.fin a) = .inf false := by
  simp [Num.mul, h.ne', h.le]

open Classical in
/-- The energy drawn from a table is a number unless the draw is inside a rising step. -/
theorem PCTable.sampleN_nan_iff {t : PCTable} (hv : ValidPC t) (h0 : t.cdf[0]? = some 0) {xi : ℝ} (hx0 : 0 ≤ xi) (hx1 : xi ≤ 1) :
    ∃ v, t.sampleN xi = .ok v ∧ (v = .nan ↔ t.interp ≠ .histogram ∧ OnRise t.values t.pdf t.cdf xi) := by
  obtain ⟨hle, hlb⟩ := lowerBound_partition (l := t.cdf) (x := xi) (by
    intro i j a b hij ha hb hb2
    rcases min_le_iff.mp (hv.cdf_sorted i j a b hij ha hb) with h | h <;> linarith)
  obtain ⟨n, hn⟩ : ∃ n, n = lowerBound t.cdf xi := ⟨_, rfl⟩
  rw [← hn] at hle hlb
  have hpos : 0 < t.cdf.length := lt_length_of_some h0
  have hlast : t.cdf[t.cdf.length - 1]? = some 1 := by rw [← List.getLast?_eq_getElem?]; exact hv.cdf_last
  have hlt : n < t.cdf.length := by
    have := mt (hlb _ _ hlast).mpr (not_lt.mpr hx1)
    omega
  obtain ⟨c, hc⟩ := getElem?_of_lt hlt
  have hcx : xi ≤ c := not_lt.mp (mt (hlb n c hc).mp (lt_irrefl _))
  -- a rising step that holds `xi` is the one the search finds
  have honly : ∀ {i : Nat} {c0 c1 : ℝ}, t.cdf[i]? = some c0 → t.cdf[i + 1]? = some c1 → c0 < xi → xi < c1 → n = i + 1 := by
    intro i c0 c1 g0 g1 l0 l1
    have := (hlb i c0 g0).mp l0
    have := mt (hlb (i + 1) c1 g1).mpr (not_lt.mpr l1.le)
    omega
  unfold PCTable.sampleN
  rw [← hn]
  simp only [getAt_eq_ok.mpr hc, bind, Except.bind]
  by_cases he : xi = c
  · rw [if_pos he]
    obtain ⟨v, hvl⟩ := get_of_lenEq (hv.lenC.symm) hc
    rw [getAt_eq_ok.mpr hvl]
    refine ⟨_, rfl, ⟨fun h => (by cases h), ?_⟩⟩
    rintro ⟨_, i, e, p0, p1, c0, c1, _, _, _, _, g0, g1, _, l0, l1⟩
    have := honly g0 g1 l0 l1
    rw [this, g1] at hc
    cases hc
    exact absurd he l1.ne
  rw [if_neg he]
  have hn1 : 1 ≤ n := by
    rcases Nat.eq_zero_or_pos n with h | h
    · rw [h, h0] at hc; cases hc; exact absurd (le_antisymm hcx hx0) he
    · exact h
  obtain ⟨k, hk⟩ : ∃ k, n = k + 1 := ⟨n - 1, by omega⟩
  rw [subIdx_of_le hn1, hk, Nat.add_sub_cancel]
  rw [hk] at hc
  obtain ⟨c0, hc0⟩ := getElem?_of_lt (l := t.cdf) (i := k) (by omega)
  have hc0x : c0 < xi := (hlb k c0 hc0).mpr (by omega)
  obtain ⟨v0, hv0⟩ := get_of_lenEq (hv.lenC.symm) hc0
  obtain ⟨v1, hv1⟩ := get_of_lenEq (hv.lenC.symm) hc
  obtain ⟨p0, hp0⟩ := get_of_lenEq (hv.lenP) hv0
  obtain ⟨p1, hp1⟩ := get_of_lenEq (hv.lenP) hv1
  have hp00 := hv.pdf_nonneg p0 (List.mem_of_getElem? hp0)
  simp only [getAt_eq_ok.mpr hv0, getAt_eq_ok.mpr hp0, getAt_eq_ok.mpr hc0]
  have hhist : Num.add (.fin v0) (Num.div (.fin (xi - c0)) (.fin p0)) ≠ .nan := by
    by_cases hz : p0 = 0
    · have : xi - c0 ≠ 0 := by linarith [sub_pos.mpr hc0x] |> ne_of_gt
      simp [Num.div, hz, this, Num.add]
    · simp [Num.div, hz, Num.add]
  by_cases hr : t.interp = .histogram
  · rw [if_pos hr]
    exact ⟨_, rfl, ⟨fun h => absurd h hhist, fun h => absurd hr h.1⟩⟩
  rw [if_neg hr]
  simp only [getAt_eq_ok.mpr hp1]
  have hthis : OnRise t.values t.pdf t.cdf xi → v0 = v1 ∧ p0 < p1 := by
    rintro ⟨i, e, q0, q1, d0, d1, g1, g2, g3, g4, g5, g6, hq, l0, l1⟩
    have := honly g5 g6 l0 l1
    have hki : k = i := by omega
    subst hki
    rw [hv0] at g1; rw [hv1] at g2; rw [hp0] at g3; rw [hp1] at g4
    cases g1; cases g2; cases g3; cases g4
    exact ⟨rfl, hq⟩
  by_cases hpp : p0 = p1
  · rw [if_pos hpp]
    exact ⟨_, rfl, ⟨fun h => absurd h hhist, fun h => absurd hpp (hthis h.2).2.ne⟩⟩
  rw [if_neg hpp]
  simp only [getAt_eq_ok.mpr hv1]
  refine ⟨_, rfl, ?_⟩
  by_cases hvv : v0 = v1
  · have hvz : v1 - v0 = 0 := by linarith
    have hpz : p1 - p0 ≠ 0 := fun h => hpp (by linarith)
    have hcz : xi - c0 ≠ 0 := by intro h; linarith
    have hcn : ¬ xi - c0 < 0 := by intro h; linarith
    by_cases hup : p0 < p1
    · have hneg : ¬ p1 - p0 < 0 := by intro h; linarith
      constructor
      · intro _
        exact ⟨hr, k, v0, p0, p1, c0, c, hv0, by rw [hv1, hvv], hp0, hp1, hc0, hc, hup, hc0x, lt_of_le_of_ne hcx he⟩
      · intro _
        have e1 : Num.div (.fin (p1 - p0)) (.fin (v1 - v0)) = .inf false := by
          rw [hvz]; exact Num.div_zero_pos (by linarith)
        have e2 : Num.mul (Num.mul (.fin 2) (.inf false)) (.fin (xi - c0)) = .inf false := by
          rw [Num.mul_fin_inf two_pos, Num.mul_inf_fin (by linarith)]
        rw [e1, e2]
        simp [Num.add, Num.max, Num.lt, Num.sqrt, Num.sub, Num.neg, Num.div, Num.mul]
    · have hneg : p1 - p0 < 0 := by
        rcases lt_or_eq_of_le (not_lt.mp hup) with h | h
        · linarith
        · exact absurd h.symm hpp
      refine ⟨fun h => ?_, fun h => absurd (hthis h.2).2 hup⟩
      exfalso
      revert h
      simp [Num.div, hvz, hpz, hneg, Num.mul, Num.add, hcz, hcn, Num.max, Num.lt, Num.sqrt, Num.sub, Num.neg]
  · refine ⟨fun h => ?_, fun h => absurd (hthis h.2).1 hvv⟩
    exfalso
    have hvz : v1 - v0 ≠ 0 := fun h => hvv (by linarith)
    have hm : (p1 - p0) / (v1 - v0) ≠ 0 := div_ne_zero (fun h => hpp (by linarith)) hvz
    revert h
    simp only [Num.div_fin hvz, Num.div_fin hm, Num.mul, Num.add, Num.max, Num.lt, Num.sub, Num.neg]
    by_cases hs : p0 * p0 + 2 * ((p1 - p0) / (v1 - v0)) * (xi - c0) < 0
    · rw [if_pos hs]; simp [Num.sqrt]
    · rw [if_neg hs]; simp only [Num.sqrt, if_neg hs]; simp

end PNDL
