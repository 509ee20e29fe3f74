import Verif.Model.Kalbach
import Verif.Lemmas.PCTable
import Verif.Lemmas.STNeutron

/-! Lemmas about the joint and marginal densities of correlated tables. -/
namespace PNDL
open Spec MeasureTheory

/-- The term of one cell in the marginal density. -/
noncomputable def jointTerm (r : Interpolation) (e0 e1 p0 p1 m0 m1 : ℝ) : ℝ :=
  if r = .histogram then m0 * p0 * (e1 - e0) else 1 / 2 * (e1 - e0) * (m0 * p0 + m1 * p1)

theorem jointPdf_above {energy pdf : List ℝ} {r : Interpolation} {node : Nat → Res ℝ} {E mx : ℝ}
    (hs : energy.Pairwise (· ≤ ·)) (hmx : energy.getLast? = some mx) (h : mx < E) : jointPdf energy pdf r node E = .ok 0 := by
  have hl : energy[energy.length - 1]? = some mx := by rw [← List.getLast?_eq_getElem?]; exact hmx
  have := (lowerBound_iff hs E hl).mp h
  have := lowerBound_le hs E
  have := lt_length_of_some hl
  rw [jointPdf, if_pos (by omega)]

theorem jointPdf_below {energy pdf : List ℝ} {r : Interpolation} {node : Nat → Res ℝ} {E mn : ℝ}
    (hs : energy.Pairwise (· ≤ ·)) (hmn : energy[0]? = some mn) (h : E < mn) : jointPdf energy pdf r node E = .ok 0 := by
  have h0 := mt (lowerBound_iff hs E hmn).mpr (not_lt.mpr h.le)
  have := lt_length_of_some hmn
  rw [jointPdf, if_neg (by omega), front_eq_ok.mpr hmn]
  simp only [bind, Except.bind]
  rw [if_pos ⟨by omega, h⟩]

/-- Inside an open cell. -/
theorem jointPdf_cell {energy pdf : List ℝ} {r : Interpolation} {node : Nat → Res ℝ} {E e0 e1 p0 p1 m0 m1 : ℝ} {l : Nat}
    (hs : energy.Pairwise (· ≤ ·)) (he0 : energy[l]? = some e0) (he1 : energy[l + 1]? = some e1) (hp0 : pdf[l]? = some p0)
    (hp1 : pdf[l + 1]? = some p1) (hm0 : node l = .ok m0) (hm1 : node (l + 1) = .ok m1) (h0 : e0 < E) (h1 : E < e1) :
    jointPdf energy pdf r node E = .ok (if r = .histogram then m0 * p0 else
      (E - e0) / (e1 - e0) * m1 * p1 + (1 - (E - e0) / (e1 - e0)) * m0 * p0) := by
  have hlen := lt_length_of_some he1
  have b1 := (lowerBound_iff hs E he0).mp h0
  have b2 := mt (lowerBound_iff hs E he1).mpr (not_lt.mpr h1.le)
  have hl : lowerBound energy E = l + 1 := by omega
  obtain ⟨mn, hmn⟩ := getElem?_of_lt (l := energy) (i := 0) (by omega)
  have hd : e1 - e0 ≠ 0 := by intro h; linarith
  rw [jointPdf, hl, if_neg (by omega), front_eq_ok.mpr hmn]
  simp only [bind, Except.bind, getAt_eq_ok.mpr he1]
  rw [if_neg (by omega), if_pos h1.ne]
  simp only [subIdx_of_le (show 1 ≤ l + 1 by omega), Nat.add_sub_cancel, hm0, hm1, getAt_eq_ok.mpr he0, getAt_eq_ok.mpr he1,
    getAt_eq_ok.mpr hp0, getAt_eq_ok.mpr hp1, rdiv_ok hd, pure, Except.pure]
  split_ifs <;> rfl

/-- At a grid point (first occurrence) followed by a larger one. -/
theorem jointPdf_grid {energy pdf : List ℝ} {r : Interpolation} {node : Nat → Res ℝ} {e0 e1 p0 p1 m0 m1 : ℝ} {l : Nat}
    (hs : energy.Pairwise (· ≤ ·)) (he0 : energy[l]? = some e0) (he1 : energy[l + 1]? = some e1) (hp0 : pdf[l]? = some p0)
    (hp1 : pdf[l + 1]? = some p1) (hm0 : node l = .ok m0) (hm1 : node (l + 1) = .ok m1) (hlt : e0 < e1)
    (hfirst : ∀ (j : Nat), j < l → ∀ v, energy[j]? = some v → v < e0) :
    jointPdf energy pdf r node e0 = .ok (m0 * p0) := by
  have hlen := lt_length_of_some he1
  have hl : lowerBound energy e0 = l := by
    apply lowerBound_unique hs e0 (by omega)
    intro i a ha
    constructor
    · intro h
      by_contra hc
      have := pairwise_le_getElem? hs (not_lt.mp hc) he0 ha
      linarith
    · intro h; exact hfirst i h a ha
  obtain ⟨mn, hmn⟩ := getElem?_of_lt (l := energy) (i := 0) (by omega)
  have hle : mn ≤ e0 := pairwise_le_getElem? hs (Nat.zero_le _) hmn he0
  have hd : e1 - e0 ≠ 0 := by intro h; linarith
  rw [jointPdf, hl, if_neg (by omega), front_eq_ok.mpr hmn]
  simp only [bind, Except.bind, getAt_eq_ok.mpr he0]
  rw [if_neg (by rintro ⟨_, h⟩; linarith), if_neg (by simp)]
  simp only [hm0, hm1, getAt_eq_ok.mpr he0, getAt_eq_ok.mpr he1, getAt_eq_ok.mpr hp0, getAt_eq_ok.mpr hp1, rdiv_ok hd, pure,
    Except.pure]
  split_ifs
  · rfl
  · congr 1; rw [sub_self, zero_div]; ring

/-- A histogram table at a grid point (first occurrence). -/
theorem jointPdf_grid_hist {energy pdf : List ℝ} {node : Nat → Res ℝ} {e0 p0 m0 : ℝ} {l : Nat}
    (hs : energy.Pairwise (· ≤ ·)) (he0 : energy[l]? = some e0) (hp0 : pdf[l]? = some p0)
    (hm0 : node l = .ok m0) (hfirst : ∀ (j : Nat), j < l → ∀ v, energy[j]? = some v → v < e0) :
    jointPdf energy pdf .histogram node e0 = .ok (m0 * p0) := by
  have hlen := lt_length_of_some he0
  have hl : lowerBound energy e0 = l := by
    apply lowerBound_unique hs e0 (by omega)
    intro i a ha
    constructor
    · intro h
      by_contra hc
      have := pairwise_le_getElem? hs (not_lt.mp hc) he0 ha
      linarith
    · intro h; exact hfirst i h a ha
  obtain ⟨mn, hmn⟩ := getElem?_of_lt (l := energy) (i := 0) (by omega)
  have hle : mn ≤ e0 := pairwise_le_getElem? hs (Nat.zero_le _) hmn he0
  rw [jointPdf, hl, if_neg (by omega), front_eq_ok.mpr hmn]
  simp only [bind, Except.bind, getAt_eq_ok.mpr he0]
  rw [if_neg (by rintro ⟨_, h⟩; linarith), if_neg (by simp)]
  simp only [if_true, hm0, getAt_eq_ok.mpr hp0, pure, Except.pure]

/-- A linearly interpolated table at its last grid point reads beyond the end of its vectors. -/
theorem jointPdf_last {energy pdf : List ℝ} {node : Nat → Res ℝ} {mx : ℝ} (hs : energy.Pairwise (· < ·))
    (hmx : energy.getLast? = some mx) : jointPdf energy pdf .linLin node mx = .error .ub := by
  have hl : energy[energy.length - 1]? = some mx := by rw [← List.getLast?_eq_getElem?]; exact hmx
  have hlen := lt_length_of_some hl
  have hs' : energy.Pairwise (· ≤ ·) := hs.imp le_of_lt
  have hlb : lowerBound energy mx = energy.length - 1 := by
    apply lowerBound_unique hs' mx (by omega)
    intro i a ha
    have := lt_length_of_some ha
    constructor
    · intro h
      by_contra hc
      have hi : i = energy.length - 1 := by omega
      rw [hi, hl] at ha; cases ha; exact lt_irrefl _ h
    · intro h; exact pairwise_lt_getElem? hs h ha hl
  obtain ⟨mn, hmn⟩ := getElem?_of_lt (l := energy) (i := 0) (by omega)
  have hle : mn ≤ mx := pairwise_le_getElem? hs' (Nat.zero_le _) hmn hl
  rw [jointPdf, hlb, if_neg (by omega), front_eq_ok.mpr hmn]
  simp only [bind, Except.bind, getAt_eq_ok.mpr hl]
  rw [if_neg (by rintro ⟨_, h⟩; linarith), if_neg (by simp)]
  simp only [getAt_eq_ok.mpr hl]
  rw [if_neg (by decide), getAt_of_le (show energy.length ≤ energy.length - 1 + 1 by omega)]

/-- Strictly increasing energies: every argument below the last energy, and for histogram tables every argument. -/
theorem jointPdf_defined {energy pdf : List ℝ} {r : Interpolation} {node : Nat → Res ℝ} {mn mx : ℝ}
    (hs : energy.Pairwise (· < ·)) (hlen : pdf.length = energy.length)
    (hmn : energy[0]? = some mn) (hmx : energy.getLast? = some mx) (hnode : ∀ l < energy.length, ∃ m, node l = .ok m)
    (E : ℝ) (hE : E ≠ mx ∨ r = .histogram) : ∃ p, jointPdf energy pdf r node E = .ok p ∧ (E < mn ∨ mx < E → p = 0) ∧
      ((∀ l m, node l = .ok m → 0 ≤ m) → (∀ q ∈ pdf, 0 ≤ q) → 0 ≤ p) := by
  have hs' : energy.Pairwise (· ≤ ·) := hs.imp le_of_lt
  have hl : energy[energy.length - 1]? = some mx := by rw [← List.getLast?_eq_getElem?]; exact hmx
  by_cases ha : mx < E
  · exact ⟨0, jointPdf_above hs' hmx ha, fun _ => rfl, fun _ _ => le_rfl⟩
  by_cases hb : E < mn
  · exact ⟨0, jointPdf_below hs' hmn hb, fun _ => rfl, fun _ _ => le_rfl⟩
  rw [not_lt] at ha hb
  have hno : ¬ (E < mn ∨ mx < E) := by rintro (h | h) <;> linarith
  have grid : ∀ (l : Nat), energy[l]? = some E → ∃ p, jointPdf energy pdf r node E = .ok p ∧ (E < mn ∨ mx < E → p = 0) ∧
      ((∀ l m, node l = .ok m → 0 ≤ m) → (∀ q ∈ pdf, 0 ≤ q) → 0 ≤ p) := by
    intro l he
    have hl1 := lt_length_of_some he
    obtain ⟨p0, hp0⟩ := getElem?_of_lt (l := pdf) (i := l) (by omega)
    obtain ⟨m0, hm0⟩ := hnode l hl1
    have hfirst : ∀ (j : Nat), j < l → ∀ v, energy[j]? = some v → v < E := fun j hj v hv => pairwise_lt_getElem? hs hj hv he
    have key : jointPdf energy pdf r node E = .ok (m0 * p0) := by
      rcases Nat.lt_or_ge (l + 1) energy.length with h | h
      · obtain ⟨e1, he1⟩ := getElem?_of_lt (l := energy) (i := l + 1) h
        obtain ⟨p1, hp1⟩ := getElem?_of_lt (l := pdf) (i := l + 1) (by omega)
        obtain ⟨m1, hm1⟩ := hnode (l + 1) h
        exact jointPdf_grid hs' he he1 hp0 hp1 hm0 hm1 (pairwise_lt_getElem? hs (Nat.lt_succ_self _) he he1) hfirst
      · have hli : l = energy.length - 1 := by omega
        rcases hE with hE | hE
        · rw [hli, hl] at he; cases he; exact absurd rfl hE
        · rw [hE]; exact jointPdf_grid_hist hs' he hp0 hm0 hfirst
    exact ⟨_, key, fun h => absurd h hno, fun hn hq => mul_nonneg (hn l m0 hm0) (hq p0 (List.mem_of_getElem? hp0))⟩
  by_cases he : E = mn
  · exact grid 0 (by rw [hmn, he])
  obtain ⟨i, x1, x2, hi, e1, e2, b1, b2⟩ := bracket_index hs' hmn hmx (lt_of_le_of_ne hb (Ne.symm he)) ha
  rcases b2.lt_or_eq with b2 | b2
  · have hl2 := lt_length_of_some e2
    obtain ⟨p0, hp0⟩ := getElem?_of_lt (l := pdf) (i := i) (by omega)
    obtain ⟨m0, hm0⟩ := hnode i (by omega)
    obtain ⟨p1, hp1⟩ := getElem?_of_lt (l := pdf) (i := i + 1) (by omega)
    obtain ⟨m1, hm1⟩ := hnode (i + 1) hl2
    refine ⟨_, jointPdf_cell hs' e1 e2 hp0 hp1 hm0 hm1 b1 b2, fun h => absurd h hno, fun hn hq => ?_⟩
    have n0 := hn _ _ hm0
    have n1 := hn _ _ hm1
    have q0 := hq p0 (List.mem_of_getElem? hp0)
    have q1 := hq p1 (List.mem_of_getElem? hp1)
    have f0 : 0 ≤ (E - x1) / (x2 - x1) := div_nonneg (by linarith) (by linarith)
    have f1 : 0 ≤ 1 - (E - x1) / (x2 - x1) := by
      rw [sub_nonneg, div_le_one (by linarith)]; linarith
    split_ifs
    · positivity
    · have := mul_nonneg (mul_nonneg f0 n1) q1
      have := mul_nonneg (mul_nonneg f1 n0) q0
      linarith
  · exact grid (i + 1) (by rw [e2, b2])

/-! ### Marginal -/

theorem foldlM_sum {f : Nat → Res ℝ} {g : Nat → ℝ} : ∀ (n : Nat), (∀ i < n, f i = .ok (g i)) →
    (List.range n).foldlM (fun s i => do let x ← f i; return s + x) (0 : ℝ) = .ok (∑ i ∈ Finset.range n, g i) := by
  intro n
  induction n with
  | zero => intro _; rfl
  | succ n ih =>
    intro h
    rw [List.range_succ, List.foldlM_append, ih (fun i hi => h i (by omega)), Finset.sum_range_succ]
    simp only [bind, Except.bind, List.foldlM_cons, List.foldlM_nil, h n (by omega), pure, Except.pure]

theorem marginalTerm_eq {energy pdf : List ℝ} {r : Interpolation} {node : Nat → Res ℝ} {e0 e1 p0 p1 m0 m1 : ℝ} {l : Nat}
    (he0 : energy[l]? = some e0) (he1 : energy[l + 1]? = some e1) (hp0 : pdf[l]? = some p0)
    (hp1 : pdf[l + 1]? = some p1) (hm0 : node l = .ok m0) (hm1 : node (l + 1) = .ok m1) :
    marginalTerm energy pdf r node l = .ok (jointTerm r e0 e1 p0 p1 m0 m1) := by
  rw [marginalTerm]
  simp only [getAt_eq_ok.mpr he0, getAt_eq_ok.mpr he1, getAt_eq_ok.mpr hp0, getAt_eq_ok.mpr hp1, hm0, hm1, bind, Except.bind,
    pure, Except.pure, jointTerm]
  split_ifs <;> rfl

theorem getD_some {l : List ℝ} {i : Nat} (h : i < l.length) : l[i]? = some (l.getD i 0) := by
  simp [List.getD, List.getElem?_eq_getElem h]

/-- The marginal density is the sum over the cells. -/
theorem marginalPdf_eq {energy pdf : List ℝ} {r : Interpolation} {node : Nat → Res ℝ} {g : Nat → ℝ}
    (hlen : pdf.length = energy.length) (hne : energy ≠ []) (hnode : ∀ l < energy.length, node l = .ok (g l)) :
    marginalPdf energy pdf r node = .ok (∑ i ∈ Finset.range (energy.length - 1),
      jointTerm r (energy.getD i 0) (energy.getD (i + 1) 0) (pdf.getD i 0) (pdf.getD (i + 1) 0) (g i) (g (i + 1))) := by
  have hpos := List.length_pos_iff.mpr hne
  rw [marginalPdf, hlen, subIdx_of_le (by omega)]
  simp only [bind, Except.bind]
  apply foldlM_sum
  intro i hi
  exact marginalTerm_eq (getD_some (by omega)) (getD_some (by omega)) (getD_some (by omega)) (getD_some (by omega))
    (hnode i (by omega)) (hnode (i + 1) (by omega))

theorem jointTerm_nonneg {r : Interpolation} {e0 e1 p0 p1 m0 m1 : ℝ} (h : e0 ≤ e1) (hp0 : 0 ≤ p0) (hp1 : 0 ≤ p1) (hm0 : 0 ≤ m0)
    (hm1 : 0 ≤ m1) : 0 ≤ jointTerm r e0 e1 p0 p1 m0 m1 := by
  have : 0 ≤ e1 - e0 := by linarith
  unfold jointTerm
  split_ifs <;> positivity

theorem marginalPdf_nonneg {energy pdf : List ℝ} {r : Interpolation} {node : Nat → Res ℝ} {g : Nat → ℝ} {s : ℝ}
    (hs : energy.Pairwise (· ≤ ·))
    (hlen : pdf.length = energy.length) (hne : energy ≠ []) (hnode : ∀ l < energy.length, node l = .ok (g l))
    (hg : ∀ l < energy.length, 0 ≤ g l) (hp : ∀ p ∈ pdf, 0 ≤ p) (h : marginalPdf energy pdf r node = .ok s) : 0 ≤ s := by
  rw [marginalPdf_eq hlen hne hnode] at h
  cases h
  apply Finset.sum_nonneg
  intro i hi
  have hi' := Finset.mem_range.mp hi
  exact jointTerm_nonneg (pairwise_le_getElem? hs (Nat.le_succ i) (getD_some (by omega)) (getD_some (by omega)))
    (hp _ (List.mem_of_getElem? (getD_some (by omega)))) (hp _ (List.mem_of_getElem? (getD_some (by omega))))
    (hg i (by omega)) (hg (i + 1) (by omega))

/-- The integral of the joint density over one cell. -/
theorem joint_integral_cell {energy pdf : List ℝ} {r : Interpolation} {node : Nat → Res ℝ} {e0 e1 p0 p1 m0 m1 : ℝ}
    {l : Nat} (hs : energy.Pairwise (· ≤ ·)) (he0 : energy[l]? = some e0) (he1 : energy[l + 1]? = some e1) (hp0 : pdf[l]? = some p0)
    (hp1 : pdf[l + 1]? = some p1) (hm0 : node l = .ok m0) (hm1 : node (l + 1) = .ok m1)
    (G : ℝ → ℝ) (hG : ∀ E p, jointPdf energy pdf r node E = .ok p → G E = p) :
    IntervalIntegrable G volume e0 e1 ∧ ∫ E in e0..e1, G E = jointTerm r e0 e1 p0 p1 m0 m1 := by
  have hle : e0 ≤ e1 := pairwise_le_getElem? hs (Nat.le_succ l) he0 he1
  obtain ⟨q, hq⟩ : ∃ q, q = m0 * p0 := ⟨_, rfl⟩
  obtain ⟨m, hm⟩ : ∃ m, m = (if r = .histogram then 0 else (m1 * p1 - m0 * p0) / (e1 - e0)) := ⟨_, rfl⟩
  have heq : Set.EqOn (fun s => q + m * (s - e0)) G (Set.uIoo e0 e1) := by
    intro s hs'
    rw [Set.uIoo_of_le hle] at hs'
    simp only
    rw [hG s _ (jointPdf_cell hs he0 he1 hp0 hp1 hm0 hm1 hs'.1 hs'.2), hm, hq]
    by_cases hr : r = .histogram
    · rw [if_pos hr, if_pos hr]; ring
    · rw [if_neg hr, if_neg hr]
      have : e1 - e0 ≠ 0 := by intro h; have := hs'.1; have := hs'.2; linarith
      field_simp; ring
  have hcont : Continuous (fun s : ℝ => q + m * (s - e0)) := by fun_prop
  refine ⟨(hcont.intervalIntegrable _ _).congr_uIoo heq, ?_⟩
  rw [← intervalIntegral.integral_congr_uIoo heq]
  have hder : ∀ s ∈ Set.uIcc e0 e1, HasDerivAt (fun s => q * (s - e0) + m / 2 * (s - e0) ^ 2) (q + m * (s - e0)) s := by
    intro s _
    have d1 : HasDerivAt (fun s : ℝ => s - e0) 1 s := (hasDerivAt_id s).sub_const e0
    have d2 := (d1.const_mul q).add ((d1.pow 2).const_mul (m / 2))
    have d3 : q + m * (s - e0) = q * 1 + m / 2 * (((2 : ℕ) : ℝ) * (s - e0) ^ (2 - 1) * 1) := by norm_num; ring
    rw [d3]; exact d2
  rw [intervalIntegral.integral_eq_sub_of_hasDerivAt hder (hcont.intervalIntegrable _ _)]
  unfold jointTerm
  by_cases hr : r = .histogram
  · rw [if_pos hr] at hm ⊢; rw [hm, hq]; ring
  · rw [if_neg hr] at hm ⊢
    by_cases hd : e1 - e0 = 0
    · rw [show e1 = e0 by linarith]; ring
    · rw [hm, hq]; field_simp; ring

/-- The integral of the joint density over the outgoing energies is the marginal density. -/
theorem joint_integral {energy pdf : List ℝ} {r : Interpolation} {node : Nat → Res ℝ} {mn mx s : ℝ}
    (hs : energy.Pairwise (· ≤ ·)) (hlen : pdf.length = energy.length) (hmn : energy[0]? = some mn)
    (hmx : energy.getLast? = some mx) (hnode : ∀ l < energy.length, ∃ m, node l = .ok m)
    (hsum : marginalPdf energy pdf r node = .ok s)
    (G : ℝ → ℝ) (hG : ∀ E p, jointPdf energy pdf r node E = .ok p → G E = p) :
    IntervalIntegrable G volume mn mx ∧ ∫ E in mn..mx, G E = s := by
  have hpos := lt_length_of_some hmn
  have hne : energy ≠ [] := List.length_pos_iff.mp hpos
  obtain ⟨g, hg⟩ : ∃ g : Nat → ℝ, ∀ l < energy.length, node l = .ok (g l) := by
    classical
    refine ⟨fun l => if h : l < energy.length then (hnode l h).choose else 0, fun l h => ?_⟩
    simp only [dif_pos h]
    exact (hnode l h).choose_spec
  rw [marginalPdf_eq hlen hne hg] at hsum
  cases hsum
  have key : ∀ (n : Nat) (v : ℝ), energy[n]? = some v → IntervalIntegrable G volume mn v ∧ ∫ E in mn..v, G E =
      ∑ i ∈ Finset.range n, jointTerm r (energy.getD i 0) (energy.getD (i + 1) 0) (pdf.getD i 0) (pdf.getD (i + 1) 0)
        (g i) (g (i + 1)) := by
    intro n
    induction n with
    | zero => intro v hv; rw [hmn] at hv; cases hv; simp
    | succ n ih =>
      intro v hv
      have hl := lt_length_of_some hv
      obtain ⟨i1, i2⟩ := ih _ (getD_some (l := energy) (i := n) (by omega))
      obtain ⟨j1, j2⟩ := joint_integral_cell hs (getD_some (l := energy) (i := n) (by omega)) hv
        (getD_some (l := pdf) (i := n) (by omega)) (getD_some (l := pdf) (i := n + 1) (by omega)) (hg n (by omega))
        (hg (n + 1) hl) G hG
      refine ⟨i1.trans j1, ?_⟩
      rw [← intervalIntegral.integral_add_adjacent_intervals i1 j1, i2, j2, Finset.sum_range_succ]
      have : energy.getD (n + 1) 0 = v := by simp [List.getD, hv]
      rw [this]
  exact key _ _ (by rw [← List.getLast?_eq_getElem?]; exact hmx)

/-- Angular densities with integral 1 give a marginal density with integral 1, on a consistent table. -/
theorem marginal_normalised {t : PCTable} (hv : ValidPC t) (hc : ConsistentPC t) (node : ℝ → Nat → Res ℝ)
    (g : Nat → ℝ → ℝ) (hnode : ∀ mu, ∀ l < t.values.length, node mu l = .ok (g l mu)) (a b : ℝ)
    (hint : ∀ l < t.values.length, IntervalIntegrable (g l) volume a b)
    (hone : ∀ l < t.values.length, ∫ mu in a..b, g l mu = 1)
    (H : ℝ → ℝ) (hH : ∀ mu, marginalPdf t.values t.pdf t.interp (node mu) = .ok (H mu)) :
    IntervalIntegrable H volume a b ∧ ∫ mu in a..b, H mu = 1 := by
  have hpos := List.length_pos_iff.mpr hv.ne
  have hHe : H = fun mu => ∑ i ∈ Finset.range (t.values.length - 1),
      jointTerm t.interp (t.values.getD i 0) (t.values.getD (i + 1) 0) (t.pdf.getD i 0) (t.pdf.getD (i + 1) 0)
        (g i mu) (g (i + 1) mu) := by
    funext mu
    have := hH mu
    rw [marginalPdf_eq hv.lenP hv.ne (hnode mu)] at this
    exact (Except.ok.inj this).symm
  have cell : ∀ i < t.values.length - 1, IntervalIntegrable (fun mu => jointTerm t.interp (t.values.getD i 0)
      (t.values.getD (i + 1) 0) (t.pdf.getD i 0) (t.pdf.getD (i + 1) 0) (g i mu) (g (i + 1) mu)) volume a b ∧
      ∫ mu in a..b, jointTerm t.interp (t.values.getD i 0)
      (t.values.getD (i + 1) 0) (t.pdf.getD i 0) (t.pdf.getD (i + 1) 0) (g i mu) (g (i + 1) mu) =
      t.cdf.getD (i + 1) 0 - t.cdf.getD i 0 := by
    intro i hi
    have hlc := hv.lenC
    have hlp := hv.lenP
    have st := hc.step i _ _ _ _ _ _ (getD_some (l := t.values) (i := i) (by omega)) (getD_some (by omega))
      (getD_some (by omega)) (getD_some (by omega)) (getD_some (by omega)) (getD_some (by omega))
    rw [st]
    have I0 := hint i (by omega)
    have I1 := hint (i + 1) (by omega)
    have o0 := hone i (by omega)
    have o1 := hone (i + 1) (by omega)
    unfold jointTerm cellArea
    by_cases hr : t.interp = .histogram
    · simp only [hr, if_true]
      refine ⟨((I0.mul_const _).mul_const _), ?_⟩
      rw [intervalIntegral.integral_mul_const, intervalIntegral.integral_mul_const, o0]; ring
    · simp only [hr, if_false]
      refine ⟨((I0.mul_const _).add (I1.mul_const _)).const_mul _, ?_⟩
      rw [intervalIntegral.integral_const_mul, intervalIntegral.integral_add (I0.mul_const _) (I1.mul_const _),
        intervalIntegral.integral_mul_const, intervalIntegral.integral_mul_const, o0, o1]; ring
  rw [hHe]
  constructor
  · have := IntervalIntegrable.sum (Finset.range (t.values.length - 1)) (fun i hi => (cell i (Finset.mem_range.mp hi)).1)
    have e : (∑ i ∈ Finset.range (t.values.length - 1), fun mu => jointTerm t.interp (t.values.getD i 0)
        (t.values.getD (i + 1) 0) (t.pdf.getD i 0) (t.pdf.getD (i + 1) 0) (g i mu) (g (i + 1) mu)) =
        (fun mu => ∑ i ∈ Finset.range (t.values.length - 1), jointTerm t.interp (t.values.getD i 0)
        (t.values.getD (i + 1) 0) (t.pdf.getD i 0) (t.pdf.getD (i + 1) 0) (g i mu) (g (i + 1) mu)) := by
      funext mu; rw [Finset.sum_apply]
    rw [e] at this
    exact this
  · rw [intervalIntegral.integral_finsetSum (fun i hi => (cell i (Finset.mem_range.mp hi)).1)]
    rw [Finset.sum_congr rfl (fun i hi => (cell i (Finset.mem_range.mp hi)).2), Finset.sum_range_sub (fun i => t.cdf.getD i 0)]
    have h0 : t.cdf.getD 0 0 = 0 := by simp [List.getD, hc.start]
    have h1 : t.cdf.getD (t.values.length - 1) 0 = 1 := by
      have := hv.cdf_last
      rw [List.getLast?_eq_getElem?, hv.lenC] at this
      simp [List.getD, this]
    rw [h0, h1]; ring

end PNDL
