import Verif.Model.FloatPacket
import Verif.Props.Float
import Verif.Props.STNeutron
import Verif.Props.URR

/-! C163: the packets of `STNeutron` and `URRPTables` in binary64 arithmetic. -/
namespace PNDL
open Spec

/-- A cross section of doubles that are not negative, on the given grid. -/
structure Spec.DoubleTable (grid : List ℝ) (x : XS ℝ) : Prop where
  good : GoodXS x ∨ ConstXS x
  grid : x.grid = grid
  values : ∀ v ∈ x.values, IsDouble v

/-- The data of a nuclide: doubles throughout, on a grid of distinct energies; only heating numbers may be negative. -/
structure Spec.DoubleNuclide (grid : List ℝ) (s : STN ℝ) : Prop where
  distinct : grid.Pairwise (· < ·)
  energies : ∀ e ∈ grid, IsDouble e
  total : DoubleTable grid s.total
  elastic : DoubleTable grid s.elastic
  disap : DoubleTable grid s.disap
  fission : DoubleTable grid s.fissionXS
  heating : FullXS s.heating ∧ s.heating.grid = grid
  capture : s.has 102 = .ok false ∨ s.has 102 = .ok true ∧ ∃ r, s.reaction 102 = .ok r ∧ DoubleTable grid r.xs

/-! ### evaluation with an index -/

theorem evalIdx_with (s : XS ℝ) : s.evalIdx = s.evalIdxWith xsLin := rfl

/-- Whatever the linear formula, the same value or the same chord is chosen. -/
theorem evalIdxWith_cases {s : XS ℝ} (hg : FullXS s) (hs : s.grid.Pairwise (· < ·)) (E : ℝ) (i : Nat) :
    (∃ w, (w = 0 ∨ w ∈ s.values) ∧ ∀ lin, s.evalIdxWith lin E i = .ok w) ∨
      (∃ a b sl sh, s.grid[i]? = some a ∧ s.grid[i + 1]? = some b ∧ a < b ∧ sl ∈ s.values ∧ sh ∈ s.values ∧
        ∀ lin, s.evalIdxWith lin E i = lin E a b sl sh) := by
  have hb := hg.below
  have ha := hg.aligned
  by_cases h1 : i < s.index
  · left; exact ⟨0, Or.inl rfl, fun lin => by simp [XS.evalIdxWith, hg.notSingle, h1]⟩
  have hpe : s.pastEnd i = true ↔ s.grid.length - 1 ≤ i := by
    unfold XS.pastEnd
    rw [decide_eq_true_eq]
    omega
  by_cases h2 : s.grid.length - 1 ≤ i
  · left
    obtain ⟨v, hv⟩ := last_exists (l := s.values) (by omega)
    refine ⟨v, Or.inr (List.mem_of_getLast? hv), fun lin => ?_⟩
    simp [XS.evalIdxWith, hg.notSingle, h1, hpe.mpr h2, back_eq_ok.mpr hv]
  · right
    obtain ⟨a, k1⟩ := getElem?_of_lt (l := s.grid) (i := i) (by omega)
    obtain ⟨b, k2⟩ := getElem?_of_lt (l := s.grid) (i := i + 1) (by omega)
    obtain ⟨sl, k3⟩ := getElem?_of_lt (l := s.values) (i := i - s.index) (by omega)
    obtain ⟨sh, k4⟩ := getElem?_of_lt (l := s.values) (i := i - s.index + 1) (by omega)
    have hab := pairwise_lt_getElem? hs (Nat.lt_succ_self i) k1 k2
    have hp : ¬ s.pastEnd i = true := by rw [hpe]; exact h2
    refine ⟨a, b, sl, sh, k1, k2, hab, List.mem_of_getElem? k3, List.mem_of_getElem? k4, fun lin => ?_⟩
    unfold XS.evalIdxWith
    rw [if_neg (by simp [hg.notSingle]), if_neg h1, if_neg hp]
    simp only [getAt_eq_ok.mpr k1, getAt_eq_ok.mpr k2, getAt_eq_ok.mpr k3, getAt_eq_ok.mpr k4, bind, Except.bind]

section
variable {fl : ℝ → ℝ} (hfl : IsRoundToNearest fl)
include hfl

/-- Evaluating a table of any sign returns. -/
theorem evalIdxFl_total {s : XS ℝ} (hg : FullXS s) (hs : s.grid.Pairwise (· < ·)) (hd : ∀ e ∈ s.grid, IsDouble e) (E : ℝ) (i : Nat) :
    ∃ v, s.evalIdxFl fl E i = .ok v := by
  unfold XS.evalIdxFl
  rcases evalIdxWith_cases hg hs E i with ⟨w, _, h⟩ | ⟨a, b, sl, sh, k1, k2, hab, _, _, h⟩
  · exact ⟨w, h _⟩
  · rw [h]
    have := fl_sub_pos hfl (hd _ (List.mem_of_getElem? k2)) (hd _ (List.mem_of_getElem? k1)) hab
    rw [linFl, cdiv_of_ne this.ne']
    exact ⟨_, rfl⟩

/-- Evaluating a table with an index that brackets the energy: a double that is not negative, near the exact value. -/
theorem evalIdxFl_good {grid : List ℝ} {s : XS ℝ} (ht : DoubleTable grid s) (hs : grid.Pairwise (· < ·)) (hd : ∀ e ∈ grid, IsDouble e) {E : ℝ}
    (hE : IsDouble E) {i : Nat} (hbr : Brackets grid E i) :
    ∃ v w, s.evalIdxFl fl E i = .ok v ∧ s.evalIdx E i = .ok w ∧ IsDouble v ∧ 0 ≤ v ∧ 0 ≤ w ∧
      ∀ M, (∀ y ∈ s.values, y ≤ M) → |v - w| ≤ (2 : ℝ) ^ (-50 : ℤ) * M + (2 : ℝ) ^ (-1074 : ℤ) ∧ v ≤ (1 + (2 : ℝ) ^ (-53 : ℤ)) ^ 2 * M ∧ w ≤ M := by
  have hgr := ht.grid
  subst hgr
  have hη : (0 : ℝ) ≤ (2 : ℝ) ^ (-1074 : ℤ) := by positivity
  have same : ∀ w : ℝ, IsDouble w → 0 ≤ w → s.values ≠ [] → (∃ m ∈ s.values, w ≤ m) → ∀ M, (∀ y ∈ s.values, y ≤ M) →
      |w - w| ≤ (2 : ℝ) ^ (-50 : ℤ) * M + (2 : ℝ) ^ (-1074 : ℤ) ∧ w ≤ (1 + (2 : ℝ) ^ (-53 : ℤ)) ^ 2 * M ∧ w ≤ M := by
    rintro w _ h0 _ ⟨m, hm, hwm⟩ M hM
    have hwM := hwm.trans (hM m hm)
    have hM0 : 0 ≤ M := h0.trans hwM
    have h50 : 0 ≤ (2 : ℝ) ^ (-50 : ℤ) * M := mul_nonneg (by positivity) hM0
    have h53 : (0 : ℝ) < (2 : ℝ) ^ (-53 : ℤ) := by positivity
    rw [sub_self, abs_zero]
    refine ⟨by linarith, ?_, hwM⟩
    nlinarith [mul_nonneg h53.le hM0, mul_nonneg (sq_nonneg ((2 : ℝ) ^ (-53 : ℤ))) hM0]
  rw [evalIdx_with]
  unfold XS.evalIdxFl
  rcases ht.good with hg | ⟨h1, ⟨c, hc, hc0⟩, h3⟩
  · have hne : s.values ≠ [] := by
      have := hg.aligned
      have := hg.below
      exact List.ne_nil_of_length_pos (by omega)
    rcases evalIdxWith_cases hg.full hs E i with ⟨w, hw, h⟩ | ⟨a, b, sl, sh, k1, k2, hab, k3, k4, h⟩
    · obtain ⟨m, hm⟩ := List.exists_mem_of_ne_nil _ hne
      rcases hw with rfl | hw
      · exact ⟨0, 0, h _, h _, isDouble_zero, le_rfl, le_rfl, same 0 isDouble_zero le_rfl hne ⟨m, hm, hg.nonneg m hm⟩⟩
      · exact ⟨w, w, h _, h _, ht.values w hw, hg.nonneg w hw, hg.nonneg w hw, same w (ht.values w hw) (hg.nonneg w hw) hne ⟨w, hw, le_rfl⟩⟩
    · obtain ⟨q1, q2⟩ := hbr a b k1 k2
      have n1 := hg.nonneg _ k3
      have n2 := hg.nonneg _ k4
      obtain ⟨v, h5, h6, h7, h8, _, _, h9⟩ := C128_interpolation hfl hE (hd _ (List.mem_of_getElem? k1)) (hd _ (List.mem_of_getElem? k2))
        (ht.values _ k3) (ht.values _ k4) q1 q2 hab n1 n2
      obtain ⟨b1, b2⟩ := lin_between (sl := sl) (sh := sh) hab q1 q2
      refine ⟨v, (E - a) / (b - a) * (sh - sl) + sl, by rw [h]; exact h5, ?_, h6, h7, (le_min n1 n2).trans b1, fun M hM => ?_⟩
      · rw [h, xsLin, cdiv_of_ne (by linarith)]; rfl
      · have hm : max sl sh ≤ M := max_le (hM _ k3) (hM _ k4)
        refine ⟨h9.trans ?_, h8.trans ?_, b2.trans hm⟩
        · have := mul_le_mul_of_nonneg_left hm (show (0 : ℝ) ≤ (2 : ℝ) ^ (-50 : ℤ) by positivity)
          linarith
        · exact mul_le_mul_of_nonneg_left hm (by positivity)
  · obtain ⟨e0, he⟩ := getElem?_of_lt h3
    have hcm : c ∈ s.values := List.mem_of_getElem? hc
    have hne : s.values ≠ [] := List.ne_nil_of_mem hcm
    unfold XS.evalIdxWith
    simp only [h1, if_true, XS.evalSingle, front_eq_ok.mpr he, front_eq_ok.mpr hc, bind, Except.bind]
    by_cases hlt : E < e0
    · rw [if_pos hlt]
      exact ⟨0, 0, rfl, rfl, isDouble_zero, le_rfl, le_rfl, same 0 isDouble_zero le_rfl hne ⟨c, hcm, hc0⟩⟩
    · rw [if_neg hlt]
      exact ⟨c, c, rfl, rfl, ht.values c hcm, hc0, hc0, same c (ht.values c hcm) hc0 hne ⟨c, hcm, le_rfl⟩⟩

/-! ### what is left of the total -/

/-- The subtraction of `evaluate_xs`: with `y` the computed remainder, the parts add up to the total up to two roundings, unless they exceed it,
and then nothing is left. -/
theorem remainder_fl {t e a : ℝ} (ht : IsDouble t) (he : IsDouble e) (ha : IsDouble a) (ht0 : 0 ≤ t) (he0 : 0 ≤ e) (ha0 : 0 ≤ a) (y : ℝ)
    (hy : y = if fl (fl (t - e) - a) < 0 then 0 else fl (fl (t - e) - a)) :
    IsDouble y ∧ 0 ≤ y ∧ y ≤ t ∧ (t ≤ e + a → y = 0) ∧ (e + a ≤ t → |e + y + a - t| ≤ (2 : ℝ) ^ (-52 : ℤ) * t) := by
  have hx : IsDouble (fl (t - e)) := (hfl _).1
  have e1 := fl_sub_error hfl ht he
  have hxt : fl (t - e) ≤ t := fl_le hfl ht (by linarith)
  have hup : t ≤ e + a → fl (t - e) ≤ a := fun h => fl_le hfl ha (by linarith)
  have hdn : e + a ≤ t → a ≤ fl (t - e) := fun h => le_fl hfl ha (by linarith)
  generalize fl (t - e) = x at *
  have e2 := fl_sub_error hfl hx ha
  have hyt : fl (x - a) ≤ t := fl_le hfl ht (by linarith)
  have hz : t ≤ e + a → fl (x - a) ≤ 0 := fun h => fl_nonpos hfl (by linarith [hup h])
  have hp : e + a ≤ t → 0 ≤ fl (x - a) := fun h => fl_nonneg hfl (by linarith [hdn h])
  have hw : IsDouble (fl (x - a)) := (hfl _).1
  generalize fl (x - a) = w at *
  by_cases hneg : w < 0
  · rw [if_pos hneg] at hy
    subst hy
    refine ⟨isDouble_zero, le_rfl, ht0, fun _ => rfl, fun h => absurd (hp h) (not_le.mpr hneg)⟩
  · rw [if_neg hneg] at hy
    subst hy
    rw [not_lt] at hneg
    refine ⟨hw, hneg, hyt, fun h => le_antisymm (hz h) hneg, fun h => ?_⟩
    have h52 : (2 : ℝ) ^ (-52 : ℤ) = 2 * uround := by unfold uround; norm_num
    rw [h52]
    have hu := uround_pos
    have hax := hdn h
    rw [abs_of_nonneg (show 0 ≤ t - e by linarith)] at e1
    rw [abs_of_nonneg (show 0 ≤ x - a by linarith)] at e2
    have k1 : uround * (t - e) ≤ uround * t := mul_le_mul_of_nonneg_left (by linarith) hu.le
    have k2 : uround * (x - a) ≤ uround * t := mul_le_mul_of_nonneg_left (by linarith) hu.le
    rw [abs_le] at e1 e2 ⊢
    constructor <;> linarith [e1.1, e1.2, e2.1, e2.2]

end

/-! ### C163, nuclides -/

/-- C163 for `evaluate_xs` of a nuclide, for every rounding to nearest: with an index that brackets the energy a packet is returned whose entries
other than heating are doubles that are not negative, none of which exceeds what it is part of; nothing inelastic is reported unless the total
exceeds elastic plus absorption, and when it does the parts add up to the total up to two roundings. -/
theorem C163_packet (fl : ℝ → ℝ) (hfl : IsRoundToNearest fl) (grid : List ℝ) (s : STN ℝ) (hs : DoubleNuclide grid s) (E : ℝ) (hE : IsDouble E)
    (i : Nat) (hbr : Brackets grid E i) :
    ∃ p, s.evaluateFl fl E i = .ok p ∧
      (∀ x ∈ [p.total, p.elastic, p.inelastic, p.absorption, p.fission, p.capture], IsDouble x ∧ 0 ≤ x) ∧
      p.fission ≤ p.absorption ∧ p.inelastic ≤ p.total ∧ (p.total ≤ p.elastic + p.absorption → p.inelastic = 0) ∧
      (p.elastic + p.absorption ≤ p.total → |p.elastic + p.inelastic + p.absorption - p.total| ≤ (2 : ℝ) ^ (-52 : ℤ) * p.total) := by
  obtain ⟨t, _, t1, _, t2, t3, _⟩ := evalIdxFl_good hfl hs.total hs.distinct hs.energies hE hbr
  obtain ⟨e, _, e1, _, e2, e3, _⟩ := evalIdxFl_good hfl hs.elastic hs.distinct hs.energies hE hbr
  obtain ⟨d, _, d1, _, d2, d3, _⟩ := evalIdxFl_good hfl hs.disap hs.distinct hs.energies hE hbr
  obtain ⟨f, _, f1, _, f2, f3, _⟩ := evalIdxFl_good hfl hs.fission hs.distinct hs.energies hE hbr
  obtain ⟨q, q1⟩ := evalIdxFl_total hfl hs.heating.1 (hs.heating.2 ▸ hs.distinct) (hs.heating.2 ▸ hs.energies) E i
  have hc : ∃ h c, s.has 102 = .ok h ∧ (if h then do let r ← s.reaction 102; r.xs.evalIdxFl fl E i else .ok 0 : Res ℝ) = .ok c ∧ IsDouble c ∧ 0 ≤ c := by
    rcases hs.capture with h | ⟨h, r, hr, ht⟩
    · exact ⟨false, 0, h, rfl, isDouble_zero, le_rfl⟩
    · obtain ⟨c, _, c1, _, c2, c3, _⟩ := evalIdxFl_good hfl ht hs.distinct hs.energies hE hbr
      refine ⟨true, c, h, ?_, c2, c3⟩
      rw [if_pos rfl, hr]
      exact c1
  obtain ⟨h, c, h1, h2, h3, h4⟩ := hc
  have a2 : IsDouble (fl (d + f)) := (hfl _).1
  have a3 : f ≤ fl (d + f) := le_fl hfl f2 (by linarith)
  obtain ⟨y, hy⟩ : ∃ y, y = if fl (fl (t - e) - fl (d + f)) < 0 then 0 else fl (fl (t - e) - fl (d + f)) := ⟨_, rfl⟩
  obtain ⟨y1, y2, y3, y4, y5⟩ := remainder_fl hfl t2 e2 a2 t3 e3 (f3.trans a3) y hy
  refine ⟨⟨t, e, y, fl (d + f), f, c, q⟩, ?_, ?_, a3, y3, y4, y5⟩
  · unfold STN.evaluateFl
    simp only [bind, Except.bind] at h2
    simp only [t1, e1, f1, d1, q1, h1, bind, Except.bind, pure, Except.pure, hy]
    rw [h2]
  · intro x hx
    simp only [List.mem_cons, List.not_mem_nil, or_false] at hx
    rcases hx with rfl | rfl | rfl | rfl | rfl | rfl
    exacts [⟨t2, t3⟩, ⟨e2, e3⟩, ⟨y1, y2⟩, ⟨a2, f3.trans a3⟩, ⟨f2, f3⟩, ⟨h3, h4⟩]

/-- Six roundings after four interpolations. -/
theorem close_core {fl : ℝ → ℝ} (hfl : IsRoundToNearest fl) {t e d f t' e' d' f' M : ℝ} (t2 : IsDouble t) (e2 : IsDouble e) (d2 : IsDouble d)
    (f2 : IsDouble f) (t3 : 0 ≤ t) (e3 : 0 ≤ e) (d3 : 0 ≤ d) (f3 : 0 ≤ f) (hM0 : 0 ≤ M)
    (t5 : |t - t'| ≤ (2 : ℝ) ^ (-50 : ℤ) * M + (2 : ℝ) ^ (-1074 : ℤ)) (e5 : |e - e'| ≤ (2 : ℝ) ^ (-50 : ℤ) * M + (2 : ℝ) ^ (-1074 : ℤ))
    (d5 : |d - d'| ≤ (2 : ℝ) ^ (-50 : ℤ) * M + (2 : ℝ) ^ (-1074 : ℤ)) (f5 : |f - f'| ≤ (2 : ℝ) ^ (-50 : ℤ) * M + (2 : ℝ) ^ (-1074 : ℤ))
    (t6 : t ≤ (1 + (2 : ℝ) ^ (-53 : ℤ)) ^ 2 * M) (e6 : e ≤ (1 + (2 : ℝ) ^ (-53 : ℤ)) ^ 2 * M) (d6 : d ≤ (1 + (2 : ℝ) ^ (-53 : ℤ)) ^ 2 * M)
    (f6 : f ≤ (1 + (2 : ℝ) ^ (-53 : ℤ)) ^ 2 * M) :
    |t - t'| ≤ (2 : ℝ) ^ (-50 : ℤ) * M + (2 : ℝ) ^ (-1074 : ℤ) ∧ |e - e'| ≤ (2 : ℝ) ^ (-50 : ℤ) * M + (2 : ℝ) ^ (-1074 : ℤ) ∧
      |f - f'| ≤ (2 : ℝ) ^ (-50 : ℤ) * M + (2 : ℝ) ^ (-1074 : ℤ) ∧
      |fl (d + f) - (d' + f')| ≤ (2 : ℝ) ^ (-48 : ℤ) * M + (2 : ℝ) ^ (-1073 : ℤ) ∧
      |(if fl (fl (t - e) - fl (d + f)) < 0 then 0 else fl (fl (t - e) - fl (d + f))) -
        (if t' - e' - (d' + f') < 0 then 0 else t' - e' - (d' + f'))| ≤ (2 : ℝ) ^ (-47 : ℤ) * M + (2 : ℝ) ^ (-1072 : ℤ) := by
  have ea := fl_add_error hfl d2 f2
  have ha : IsDouble (fl (d + f)) := (hfl _).1
  have ex := fl_sub_error hfl t2 e2
  have hx : IsDouble (fl (t - e)) := (hfl _).1
  generalize fl (d + f) = a at *
  generalize fl (t - e) = x1 at *
  have ey := fl_sub_error hfl hx ha
  generalize fl (x1 - a) = y at *
  have n48 : (2 : ℝ) ^ (-48 : ℤ) = 4 * (2 : ℝ) ^ (-50 : ℤ) := by norm_num
  have n47 : (2 : ℝ) ^ (-47 : ℤ) = 8 * (2 : ℝ) ^ (-50 : ℤ) := by norm_num
  have nu : uround = 1 / 8 * (2 : ℝ) ^ (-50 : ℤ) := by unfold uround; norm_num
  have n73 : (2 : ℝ) ^ (-1073 : ℤ) = 2 * (2 : ℝ) ^ (-1074 : ℤ) := by
    rw [show (-1073 : ℤ) = 1 + -1074 by norm_num, zpow_add₀ (by norm_num), zpow_one]
  have n72 : (2 : ℝ) ^ (-1072 : ℤ) = 4 * (2 : ℝ) ^ (-1074 : ℤ) := by
    rw [show (-1072 : ℤ) = 1 + (1 + -1074) by norm_num, zpow_add₀ (by norm_num), zpow_add₀ (by norm_num), zpow_one]; ring
  have hη : (0 : ℝ) < (2 : ℝ) ^ (-1074 : ℤ) := by positivity
  have h2 : (1 + (2 : ℝ) ^ (-53 : ℤ)) ^ 2 ≤ 1001 / 1000 := by norm_num
  have hκ : (2 : ℝ) ^ (-50 : ℤ) ≤ 1 / 1000 := by norm_num
  have hκ0 : (0 : ℝ) < (2 : ℝ) ^ (-50 : ℤ) := by positivity
  have bt : t ≤ 1001 / 1000 * M := t6.trans (mul_le_mul_of_nonneg_right h2 hM0)
  have be : e ≤ 1001 / 1000 * M := e6.trans (mul_le_mul_of_nonneg_right h2 hM0)
  have bd : d ≤ 1001 / 1000 * M := d6.trans (mul_le_mul_of_nonneg_right h2 hM0)
  have bf : f ≤ 1001 / 1000 * M := f6.trans (mul_le_mul_of_nonneg_right h2 hM0)
  clear t6 e6 d6 f6 h2
  refine ⟨t5, e5, f5, ?_⟩
  rw [n48, n47, n73, n72]
  rw [nu] at ea ex ey
  clear n48 n47 nu n73 n72
  generalize (2 : ℝ) ^ (-1074 : ℤ) = η at *
  generalize (2 : ℝ) ^ (-50 : ℤ) = κ at *
  have hκM : 0 ≤ κ * M := mul_nonneg hκ0.le hM0
  have hκM1 : κ * M ≤ 1 / 1000 * M := mul_le_mul_of_nonneg_right hκ hM0
  have ea' : |a - (d + f)| ≤ 2003 / 8000 * (κ * M) := by
    refine ea.trans ?_
    rw [abs_of_nonneg (show 0 ≤ d + f by linarith)]
    linarith [mul_le_mul_of_nonneg_left (show d + f ≤ 2003 / 1000 * M by linarith) hκ0.le]
  have ex' : |x1 - (t - e)| ≤ 1001 / 8000 * (κ * M) := by
    refine ex.trans ?_
    have : |t - e| ≤ 1001 / 1000 * M := by rw [abs_le]; constructor <;> linarith
    linarith [mul_le_mul_of_nonneg_left this hκ0.le]
  have ey' : |y - (x1 - a)| ≤ 1 / 2 * (κ * M) := by
    refine ey.trans ?_
    rw [abs_le] at ea' ex'
    have : |x1 - a| ≤ 7 / 2 * M := by rw [abs_le]; constructor <;> linarith [ea'.1, ea'.2, ex'.1, ex'.2]
    linarith [mul_le_mul_of_nonneg_left this hκ0.le]
  clear ea ex ey
  rw [abs_le] at t5 e5 d5 f5 ea' ex' ey'
  have hclamp : ∀ r r' b : ℝ, |r - r'| ≤ b → |(if r < 0 then 0 else r) - (if r' < 0 then 0 else r')| ≤ b := by
    intro r r' b hb
    rw [abs_le] at hb ⊢
    split <;> split <;> constructor <;> linarith [hb.1, hb.2]
  constructor
  · rw [abs_le]
    constructor <;> linarith [ea'.1, ea'.2, d5.1, d5.2, f5.1, f5.2]
  · apply hclamp
    rw [abs_le]
    constructor <;> linarith [ea'.1, ea'.2, ex'.1, ex'.2, ey'.1, ey'.2, t5.1, t5.2, e5.1, e5.2, d5.1, d5.2, f5.1, f5.2]

/-- The packet is near the one exact arithmetic gives: `M` bounds the four tables. -/
theorem C163_close (fl : ℝ → ℝ) (hfl : IsRoundToNearest fl) (grid : List ℝ) (s : STN ℝ) (hs : DoubleNuclide grid s) (E : ℝ) (hE : IsDouble E)
    (i : Nat) (hbr : Brackets grid E i) (p q : XSPacket ℝ) (hp : s.evaluateFl fl E i = .ok p) (hq : s.evaluate E i = .ok q) (M : ℝ)
    (hM : ∀ x ∈ [s.total, s.elastic, s.disap, s.fissionXS], ∀ y ∈ x.values, y ≤ M) :
    |p.total - q.total| ≤ (2 : ℝ) ^ (-50 : ℤ) * M + (2 : ℝ) ^ (-1074 : ℤ) ∧ |p.elastic - q.elastic| ≤ (2 : ℝ) ^ (-50 : ℤ) * M + (2 : ℝ) ^ (-1074 : ℤ) ∧
      |p.fission - q.fission| ≤ (2 : ℝ) ^ (-50 : ℤ) * M + (2 : ℝ) ^ (-1074 : ℤ) ∧
      |p.absorption - q.absorption| ≤ (2 : ℝ) ^ (-48 : ℤ) * M + (2 : ℝ) ^ (-1073 : ℤ) ∧
      |p.inelastic - q.inelastic| ≤ (2 : ℝ) ^ (-47 : ℤ) * M + (2 : ℝ) ^ (-1072 : ℤ) := by
  obtain ⟨t, t', t1, t1', t2, t3, t3', t4⟩ := evalIdxFl_good hfl hs.total hs.distinct hs.energies hE hbr
  obtain ⟨e, e', e1, e1', e2, e3, e3', e4⟩ := evalIdxFl_good hfl hs.elastic hs.distinct hs.energies hE hbr
  obtain ⟨d, d', d1, d1', d2, d3, d3', d4⟩ := evalIdxFl_good hfl hs.disap hs.distinct hs.energies hE hbr
  obtain ⟨f, f', f1, f1', f2, f3, f3', f4⟩ := evalIdxFl_good hfl hs.fission hs.distinct hs.energies hE hbr
  have t4 := t4 M (hM _ (by simp))
  have e4 := e4 M (hM _ (by simp))
  have d4 := d4 M (hM _ (by simp))
  have f4 := f4 M (hM _ (by simp))
  unfold STN.evaluateFl at hp
  unfold STN.evaluate at hq
  simp only [t1, e1, d1, f1, bind, Except.bind] at hp
  simp only [t1', e1', d1', f1', bind, Except.bind] at hq
  obtain ⟨x, _, hp⟩ := bind_ok hp
  obtain ⟨x', _, hq⟩ := bind_ok hq
  obtain ⟨h, _, hp⟩ := bind_ok hp
  obtain ⟨h', _, hq⟩ := bind_ok hq
  obtain ⟨c, _, hp⟩ := bind_ok hp
  obtain ⟨c', _, hq⟩ := bind_ok hq
  cases hp
  cases hq
  exact close_core hfl t2 e2 d2 f2 t3 e3 d3 f3 (t3'.trans t4.2.2) t4.1 e4.1 d4.1 f4.1 t4.2.1 e4.2.1 d4.2.1 f4.2.1

/-- A nuclide whose exact packet has no inelastic part may be reported to have one, but not more than that. -/
theorem C163_no_inelastic (fl : ℝ → ℝ) (hfl : IsRoundToNearest fl) (grid : List ℝ) (s : STN ℝ) (hs : DoubleNuclide grid s) (E : ℝ) (hE : IsDouble E)
    (i : Nat) (hbr : Brackets grid E i) (p q : XSPacket ℝ) (hp : s.evaluateFl fl E i = .ok p) (hq : s.evaluate E i = .ok q) (M : ℝ)
    (hM : ∀ x ∈ [s.total, s.elastic, s.disap, s.fissionXS], ∀ y ∈ x.values, y ≤ M) (h0 : q.inelastic = 0) :
    0 ≤ p.inelastic ∧ p.inelastic ≤ (2 : ℝ) ^ (-47 : ℤ) * M + (2 : ℝ) ^ (-1072 : ℤ) := by
  obtain ⟨p', h1, h2, _⟩ := C163_packet fl hfl grid s hs E hE i hbr
  rw [hp] at h1
  cases h1
  have h3 := (C163_close fl hfl grid s hs E hE i hbr p q hp hq M hM).2.2.2.2
  rw [h0, sub_zero, abs_le] at h3
  exact ⟨(h2 _ (by simp)).2, h3.2⟩

/-- The full claim is false of the code: a file in which nothing but elastic scattering and absorption is possible, and whose total is their
sum rounded to the nearest double, is reported to scatter inelastically. -/
theorem C163_violation (fl : ℝ → ℝ) (hfl : IsRoundToNearest fl) (s : STN ℝ) (E : ℝ) (i : Nat) (δ : ℝ) (hδ : δ = (2 : ℝ) ^ (-54 : ℤ))
    (he : s.elastic.evalIdxFl fl E i = .ok 1) (hd : s.disap.evalIdxFl fl E i = .ok (3 * δ)) (hf : s.fissionXS.evalIdxFl fl E i = .ok 0)
    (ht : s.total.evalIdxFl fl E i = .ok (1 + 4 * δ)) (p : XSPacket ℝ) (hp : s.evaluateFl fl E i = .ok p) :
    p.total = fl (p.elastic + p.absorption) ∧ 0 < p.inelastic := by
  have h3 : IsDouble (3 * δ) := by
    have := isDouble_zpow (m := 3) (by norm_num) (z := -54) (by norm_num)
    rw [← hδ] at this
    exact_mod_cast this
  have h1 : (1 : ℝ) = 2 ^ 54 * δ := by rw [hδ]; norm_num
  have hpos : 0 < δ := by rw [hδ]; positivity
  have h4 : IsDouble (1 + 4 * δ) := by
    have := isDouble_zpow (m := 2 ^ 52 + 1) (by norm_num) (z := -52) (by norm_num)
    have h52 : (2 : ℝ) ^ (-52 : ℤ) = 4 * δ := by rw [hδ]; norm_num
    rw [h52] at this
    rw [h1]
    convert this using 1
    push_cast; ring
  have h5 : IsDouble (4 * δ) := by
    have := isDouble_zpow (m := 4) (by norm_num) (z := -54) (by norm_num)
    rw [← hδ] at this
    exact_mod_cast this
  have h6 : IsDouble δ := by
    have := isDouble_zpow (m := 1) (by norm_num) (z := -54) (by norm_num)
    rw [← hδ] at this
    simpa using this
  have r1 : fl (3 * δ + 0) = 3 * δ := by rw [add_zero]; exact fl_self hfl h3
  have r2 : fl (1 + 4 * δ - 1) = 4 * δ := by rw [add_sub_cancel_left]; exact fl_self hfl h5
  have r3 : fl (4 * δ - 3 * δ) = δ := by rw [show 4 * δ - 3 * δ = δ by ring]; exact fl_self hfl h6
  have r4 : fl (1 + 3 * δ) = 1 + 4 * δ := by
    obtain ⟨k1, k2⟩ := hfl (1 + 3 * δ)
    have k3 := k2 _ h4
    rw [show 1 + 4 * δ - (1 + 3 * δ) = δ by ring, abs_of_pos hpos, abs_le] at k3
    generalize fl (1 + 3 * δ) = v at *
    by_contra hne
    have h52 : (2 : ℝ) ^ 1022 * eta = 4 * δ := by unfold eta; rw [hδ, ← zpow_natCast, ← zpow_add₀ (by norm_num)]; norm_num
    refine no_double_between (m := 2 ^ 52) (by norm_num) 1022 k1 ⟨?_, ?_⟩
    · rw [mul_assoc, h52]; push_cast; linarith [k3.1]
    · rw [mul_assoc, h52]; push_cast
      exact lt_of_le_of_ne (by linarith [k3.2]) (fun h => hne (by rw [h]; linarith))
  unfold STN.evaluateFl at hp
  simp only [he, hd, hf, ht, bind, Except.bind, r1, r2, r3] at hp
  obtain ⟨x, _, hp⟩ := bind_ok hp
  obtain ⟨h, _, hp⟩ := bind_ok hp
  obtain ⟨c, _, hp⟩ := bind_ok hp
  cases hp
  dsimp only
  rw [if_neg (not_lt.mpr hpos.le)]
  exact ⟨r4.symm, hpos⟩

/-- Such a nuclide, at the last point of its grid. -/
example : ∃ s : STN ℝ, DoubleNuclide [1, 2] s ∧ ∀ fl, IsRoundToNearest fl → ∃ p, s.evaluateFl fl 2 1 = .ok p ∧
    p.total = fl (p.elastic + p.absorption) ∧ 0 < p.inelastic := by
  obtain ⟨δ, hδ⟩ : ∃ δ : ℝ, δ = (2 : ℝ) ^ (-54 : ℤ) := ⟨_, rfl⟩
  have hpos : 0 < δ := by rw [hδ]; positivity
  have h1 : (1 : ℝ) = 2 ^ 54 * δ := by rw [hδ]; norm_num
  have h2 : IsDouble 2 := isDouble_int (m := 2) (by norm_num)
  have h3 : IsDouble (3 * δ) := by
    have := isDouble_zpow (m := 3) (by norm_num) (z := -54) (by norm_num)
    rw [← hδ] at this
    exact_mod_cast this
  have h4 : IsDouble (1 + 4 * δ) := by
    have := isDouble_zpow (m := 2 ^ 52 + 1) (by norm_num) (z := -52) (by norm_num)
    have h52 : (2 : ℝ) ^ (-52 : ℤ) = 4 * δ := by rw [hδ]; norm_num
    rw [h52] at this
    rw [h1]
    convert this using 1
    push_cast; ring
  have hx : ∀ v : ℝ, IsDouble v → 0 ≤ v → DoubleTable [1, 2] ⟨[1, 2], [v, v], 0, false⟩ := fun v hv h0 =>
    ⟨Or.inl ⟨rfl, by simp, by simp, by simpa using h0⟩, rfl, by simpa using hv⟩
  have he : ∀ (fl : ℝ → ℝ) (v : ℝ), XS.evalIdxFl fl ⟨[1, 2], [v, v], 0, false⟩ 2 1 = .ok v := by
    intro fl v
    simp [XS.evalIdxFl, XS.evalIdxWith, XS.pastEnd, back]
  have hbr : Brackets ([1, 2] : List ℝ) 2 1 := by
    intro a b _ hb
    simp at hb
  obtain ⟨s, hs⟩ : ∃ s : STN ℝ, s = ⟨false, [1, 2], ⟨[1, 2], [1 + 4 * δ, 1 + 4 * δ], 0, false⟩, ⟨[1, 2], [3 * δ, 3 * δ], 0, false⟩,
    ⟨[1, 2], [1, 1], 0, false⟩, ⟨[1, 2], [0, 0], 0, false⟩, ⟨[1, 2], [0, 0], 0, false⟩, Fis.none, [], List.replicate 892 (-1), []⟩ := ⟨_, rfl⟩
  have hd : DoubleNuclide [1, 2] s := by
    rw [hs]
    refine ⟨by simp, by simp [isDouble_one, h2], hx _ h4 (by linarith), hx _ isDouble_one (by norm_num), hx _ h3 (by linarith),
      hx _ isDouble_zero le_rfl, ⟨⟨rfl, by simp, by simp⟩, rfl⟩, Or.inl ?_⟩
    unfold STN.has
    rw [if_neg (by decide), if_neg (by decide)]
    rfl
  refine ⟨s, hd, fun fl hfl => ?_⟩
  obtain ⟨p, hp, _⟩ := C163_packet fl hfl _ s hd 2 h2 1 hbr
  exact ⟨p, hp, C163_violation fl hfl s 2 1 δ hδ (by rw [hs]; exact he fl 1) (by rw [hs]; exact he fl _) (by rw [hs]; exact he fl 0)
    (by rw [hs]; exact he fl _) p hp⟩

/-- The sum of the fission reactions in floating point: near the exact sum, number for number. -/
theorem sumAtFl_near {fl : ℝ → ℝ} (hfl : IsRoundToNearest fl) (f : Fis ℝ)
    (hf : ∀ r, (f.m19 = some r ∨ f.m20 = some r ∨ f.m21 = some r ∨ f.m38 = some r) → ∀ v ∈ r.xs.values, IsDouble v ∧ 0 ≤ v) (i : Nat) (w : ℝ)
    (h : sumAt f i = .ok w) :
    ∃ v, sumAtFl fl f i = .ok v ∧ IsDouble v ∧ 0 ≤ v ∧ 0 ≤ w ∧ |v - w| ≤ (2 : ℝ) ^ (-50 : ℤ) * w := by
  have hu := uround_pos
  have hu1 : uround ≤ 1 / 1000 := by rw [uround_eq]; norm_num
  have at_good : ∀ x : XS ℝ, (∀ v ∈ x.values, IsDouble v ∧ 0 ≤ v) → ∀ v, x.at i = .ok v → IsDouble v ∧ 0 ≤ v := by
    intro x hx v hv
    unfold XS.at at hv
    split at hv
    · exact hx v (List.mem_of_getElem? (front_eq_ok.mp hv))
    · split at hv
      · cases hv; exact ⟨isDouble_zero, le_rfl⟩
      · split at hv
        · exact hx v (List.mem_of_getLast? (back_eq_ok.mp hv))
        · exact hx v (List.mem_of_getElem? (getAt_eq_ok.mp hv))
  have step : ∀ (r : Option (Rxn ℝ)), (∀ x, r = some x → ∀ v ∈ x.xs.values, IsDouble v ∧ 0 ≤ v) → ∀ (a b c ε : ℝ), 0 ≤ ε → ε ≤ 1 / 1000 →
      IsDouble a → 0 ≤ a → 0 ≤ b → |a - b| ≤ ε * b → addAt r i b = .ok c →
      ∃ d, addAtFl fl r i a = .ok d ∧ IsDouble d ∧ 0 ≤ d ∧ 0 ≤ c ∧ |d - c| ≤ (ε + 11 / 10 * uround) * c := by
    intro r hr a b c ε h0 hε ha ha0 hb0 hab hc
    cases r with
    | none =>
      cases hc
      refine ⟨a, rfl, ha, ha0, hb0, hab.trans ?_⟩
      exact mul_le_mul_of_nonneg_right (by linarith) hb0
    | some r =>
      simp only [addAt] at hc
      obtain ⟨x, h1, h2⟩ := bind_ok hc
      cases h2
      obtain ⟨x1, x2⟩ := at_good r.xs (hr r rfl) x h1
      refine ⟨fl (a + x), by simp only [addAtFl, h1]; rfl, (hfl _).1, fl_nonneg hfl (by linarith), by linarith, ?_⟩
      have e1 := fl_add_error hfl ha x1
      rw [abs_of_nonneg (show 0 ≤ a + x by linarith)] at e1
      rw [abs_le] at hab e1 ⊢
      have k1 : ε * b ≤ ε * (b + x) := mul_le_mul_of_nonneg_left (by linarith) h0
      have k3 : ε * b ≤ 1 / 1000 * b := mul_le_mul_of_nonneg_right hε hb0
      have k2 : uround * (a + x) ≤ uround * (11 / 10 * (b + x)) := mul_le_mul_of_nonneg_left (by linarith [hab.2]) hu.le
      constructor <;> linarith [e1.1, e1.2, hab.1, hab.2]
  unfold sumAt at h
  obtain ⟨a, h1, h⟩ := bind_ok h
  obtain ⟨b, h2, h⟩ := bind_ok h
  obtain ⟨c, h3, h4⟩ := bind_ok h
  obtain ⟨a', g1, a1, a2, a3, a4⟩ := step f.m19 (fun x hx => hf x (Or.inl hx)) 0 0 a 0 le_rfl (by norm_num) isDouble_zero le_rfl le_rfl (by simp) h1
  obtain ⟨b', g2, b1, b2, b3, b4⟩ := step f.m20 (fun x hx => hf x (Or.inr (Or.inl hx))) a' a b _ (by positivity) (by rw [uround_eq]; norm_num) a1 a2 a3 a4 h2
  obtain ⟨c', g3, c1, c2, c3, c4⟩ := step f.m21 (fun x hx => hf x (Or.inr (Or.inr (Or.inl hx)))) b' b c _ (by positivity) (by rw [uround_eq]; norm_num) b1 b2 b3 b4 h3
  obtain ⟨d', g4, d1, d2, d3, d4⟩ := step f.m38 (fun x hx => hf x (Or.inr (Or.inr (Or.inr hx)))) c' c w _ (by positivity) (by rw [uround_eq]; norm_num) c1 c2 c3 c4 h4
  refine ⟨d', ?_, d1, d2, d3, d4.trans (mul_le_mul_of_nonneg_right ?_ d3)⟩
  · unfold sumAtFl
    simp only [g1, g2, g3, bind, Except.bind]
    exact g4
  · unfold uround; norm_num

/-- The fission cross section the constructor sums up. -/
theorem C163_fission (fl : ℝ → ℝ) (hfl : IsRoundToNearest fl) (a : AceIn ℝ) (s : STN ℝ) (hb : Built a s) (hpos : 0 < a.grid.length)
    (h32 : a.grid.length < 2 ^ 32) (hr : ∀ r ∈ a.rxns, ∀ v ∈ r.values, IsDouble v) :
    ∃ x, computeFissionFl fl s.fissile a.grid s.fis = .ok x ∧ DoubleTable a.grid x ∧ x.index = s.fissionXS.index ∧
      x.values.length = s.fissionXS.values.length ∧
      ∀ (j : Nat) v w, x.values[j]? = some v → s.fissionXS.values[j]? = some w → |v - w| ≤ (2 : ℝ) ^ (-50 : ℤ) * w := by
  have ho := built_ok hb
  have hx := ho.fxs
  obtain ⟨g1, g2⟩ := fissionXS_ok hb hpos h32
  have slot : ∀ mt, FissionMT mt → ∀ r, s.fis.slot mt = some r → GoodXS r.xs ∧ r.xs.grid = a.grid ∧ ∀ v ∈ r.xs.values, IsDouble v ∧ 0 ≤ v := by
    intro mt hmt r hs
    rcases ho.flook mt hmt with ⟨_, g⟩ | ⟨_, e, he, _, r', g, d, g4⟩
    · rw [g] at hs; cases hs
    · rw [g] at hs
      cases hs
      obtain ⟨_, _, k3, k4, _, k6, _⟩ := rxnMake_ok g4
      exact ⟨k6, k3, fun v hv => ⟨hr e he v (k4 ▸ hv), k6.nonneg v hv⟩⟩
  have same : ∀ x : XS ℝ, s.fissionXS = x → (∀ v ∈ x.values, IsDouble v ∧ 0 ≤ v) → DoubleTable a.grid x ∧ x.index = s.fissionXS.index ∧
      x.values.length = s.fissionXS.values.length ∧
      ∀ (j : Nat) v w, x.values[j]? = some v → s.fissionXS.values[j]? = some w → |v - w| ≤ (2 : ℝ) ^ (-50 : ℤ) * w := by
    rintro x rfl hv
    refine ⟨⟨g1, g2, fun v h => (hv v h).1⟩, rfl, rfl, fun j v w h1 h2 => ?_⟩
    rw [h1] at h2
    cases h2
    rw [sub_self, abs_zero]
    exact mul_nonneg (by positivity) (hv v (List.mem_of_getElem? h1)).2
  unfold computeFission at hx
  unfold computeFissionFl
  by_cases hf : s.fissile = false
  · rw [if_pos hf] at hx ⊢
    refine ⟨_, hx, same _ rfl ?_⟩
    unfold XS.makeConst at hx
    rw [if_neg (lt_irrefl _)] at hx
    rw [← Except.ok.inj hx]
    intro v hv
    rw [List.mem_singleton.mp hv]
    exact ⟨isDouble_zero, le_rfl⟩
  · rw [if_neg hf] at hx ⊢
    cases h18 : s.fis.m18 with
    | some r =>
      rw [h18] at hx
      dsimp only at hx ⊢
      refine ⟨r.xs, rfl, same _ (Except.ok.inj hx).symm ?_⟩
      exact (slot 18 (Or.inl rfl) r h18).2.2
    | none =>
      rw [h18] at hx
      dsimp only at hx ⊢
      obtain ⟨vs, h1, h2⟩ := bind_ok hx
      have l19 := lowerIdx_le s.fis.m19 a.grid.length
      have l20 := lowerIdx_le s.fis.m20 (lowerIdx s.fis.m19 a.grid.length)
      have l21 := lowerIdx_le s.fis.m21 (lowerIdx s.fis.m20 (lowerIdx s.fis.m19 a.grid.length))
      have l38 := lowerIdx_le s.fis.m38 (lowerIdx s.fis.m21 (lowerIdx s.fis.m20 (lowerIdx s.fis.m19 a.grid.length)))
      generalize lowerIdx s.fis.m38 (lowerIdx s.fis.m21 (lowerIdx s.fis.m20 (lowerIdx s.fis.m19 a.grid.length))) = low at *
      have hm : ∀ (l : List Nat) (ws : List ℝ), l.mapM (sumAt s.fis) = .ok ws → ∃ us, l.mapM (sumAtFl fl s.fis) = .ok us ∧
          us.length = ws.length ∧ (∀ v ∈ us, IsDouble v ∧ 0 ≤ v) ∧
          ∀ (j : Nat) v w, us[j]? = some v → ws[j]? = some w → |v - w| ≤ (2 : ℝ) ^ (-50 : ℤ) * w := by
        intro l
        induction l with
        | nil => intro ws h; cases h; exact ⟨[], rfl, rfl, by simp, by simp⟩
        | cons i l ih =>
          intro ws h
          rw [List.mapM_cons] at h
          obtain ⟨w, k1, h⟩ := bind_ok h
          obtain ⟨ws', k2, h⟩ := bind_ok h
          cases h
          obtain ⟨us, q1, q2, q3, q4⟩ := ih ws' k2
          obtain ⟨v, v1, v2, v3, v4, v5⟩ := sumAtFl_near hfl s.fis (fun r h => by
            rcases h with h | h | h | h
            · exact (slot 19 (by simp [FissionMT]) r h).2.2
            · exact (slot 20 (by simp [FissionMT]) r h).2.2
            · exact (slot 21 (by simp [FissionMT]) r h).2.2
            · exact (slot 38 (by simp [FissionMT]) r h).2.2) i w k1
          refine ⟨v :: us, by rw [List.mapM_cons, v1, q1]; rfl, by simp [q2], fun x hx => ?_, fun j x y hx hy => ?_⟩
          · rcases List.mem_cons.mp hx with rfl | hx
            · exact ⟨v2, v3⟩
            · exact q3 x hx
          · cases j with
            | zero => simp at hx hy; rw [← hx, ← hy]; exact v5
            | succ j => exact q4 j x y (by simpa using hx) (by simpa using hy)
      obtain ⟨us, q1, q2, q3, q4⟩ := hm _ _ h1
      rw [q1]
      rcases C29_construction_partial vs a.grid low (by omega) with ⟨⟨t, t1, t2, t3, t4, t5⟩, c1, c2, c3⟩ | ⟨t, _⟩
      · rw [t1] at h2
        rw [← Except.ok.inj h2, t3, t4]
        rcases C29_construction_partial us a.grid low (by omega) with ⟨⟨t', t1', t2', t3', t4', t5'⟩, _⟩ | ⟨_, t'⟩
        · refine ⟨t', t1', ⟨Or.inl t5', t2', fun v hv => (q3 v (t3' ▸ hv)).1⟩, t4', by rw [t3', q2], fun j v w hv hw => ?_⟩
          exact q4 j v w (t3' ▸ hv) hw
        · exact absurd ⟨c1, fun v hv => (q3 v hv).2, by rw [q2]; exact c3⟩ t'
      · rw [t] at h2; cases h2

/-- A nuclide constructed from a file of doubles, with the fission cross section summed in floating point, is one of those `C163_packet` speaks of. -/
theorem C163_built (fl : ℝ → ℝ) (hfl : IsRoundToNearest fl) (a : AceIn ℝ) (s : STN ℝ) (hb : Built a s) (hs : a.grid.Pairwise (· < ·))
    (hpos : 0 < a.grid.length) (h32 : a.grid.length < 2 ^ 32) (hg : ∀ e ∈ a.grid, IsDouble e)
    (hv : ∀ l ∈ [a.total, a.disap, a.elastic], ∀ v ∈ l, IsDouble v) (hr : ∀ r ∈ a.rxns, ∀ v ∈ r.values, IsDouble v) :
    ∃ x, computeFissionFl fl s.fissile a.grid s.fis = .ok x ∧ DoubleNuclide a.grid { s with fissionXS := x } := by
  obtain ⟨x, hx, hx1, _⟩ := C163_fission fl hfl a s hb hpos h32 hr
  refine ⟨x, hx, ?_⟩
  have ho := built_ok hb
  have hm := ho.main
  unfold MainXS.make at hm
  obtain ⟨t, h1, hm⟩ := bind_ok hm
  obtain ⟨d, h2, hm⟩ := bind_ok hm
  obtain ⟨e, h3, hm⟩ := bind_ok hm
  obtain ⟨q, h4, hm⟩ := bind_ok hm
  have hm' : (⟨t, d, e, q⟩ : MainXS ℝ) = ⟨s.total, s.disap, s.elastic, s.heating⟩ := by cases hm; rfl
  injection hm' with e1 e2 e3 e4
  subst e1; subst e2; subst e3; subst e4
  obtain ⟨ft, gt, ot⟩ := makeAce_full h1 hpos
  obtain ⟨fd, gd, od⟩ := makeAce_full h2 hpos
  obtain ⟨fe, ge, oe⟩ := makeAce_full h3 hpos
  obtain ⟨fq, gq, _⟩ := makeAce_full h4 hpos
  have v1 := (C29_ace _ _ _ _ _ h1).2.1
  have v2 := (C29_ace _ _ _ _ _ h2).2.1
  have v3 := (C29_ace _ _ _ _ _ h3).2.1
  refine ⟨hs, hg, ⟨Or.inl (ot rfl), gt, fun v h => hv a.total (by simp) v (v1 ▸ h)⟩, ⟨Or.inl (oe rfl), ge, fun v h => hv a.elastic (by simp) v (v3 ▸ h)⟩,
    ⟨Or.inl (od rfl), gd, fun v h => hv a.disap (by simp) v (v2 ▸ h)⟩, hx1, ⟨fq, gq⟩, ?_⟩
  have key : s.has 102 = .ok false ∨ s.has 102 = .ok true ∧ ∃ r, s.reaction 102 = .ok r ∧ DoubleTable a.grid r.xs := by
    rcases C55_lookup a s hb 102 with ⟨k1, _, r, k2, _, e, _, _, k3, k4, k5, k6⟩ | ⟨k1, _, k2⟩
    · right
      refine ⟨k1, r, k2, ?_⟩
      rcases ho.look 102 (by omega) with ⟨_, g2⟩ | ⟨j, e', r', g1, g2, g3, g4, g5, d, g6⟩
      · exfalso
        unfold STN.has at k1
        rw [if_neg (by decide), if_neg (by decide), getAt_eq_ok.mpr g2] at k1
        simp [bind, Except.bind, pure, Except.pure] at k1
      · have : r' = r := by
          unfold STN.reaction at k2
          rw [k1] at k2
          simp only [bind, Except.bind] at k2
          rw [if_neg (by simp), if_neg (by decide), getAt_eq_ok.mpr g4] at k2
          simp only [getInt_natCast] at k2
          rw [getAt_eq_ok.mpr g5] at k2
          cases k2; rfl
        subst this
        obtain ⟨_, _, m3, m4, _, m6, _⟩ := rxnMake_ok g6
        exact ⟨Or.inl m6, m3, fun v h => hr e' g1 v (m4 ▸ h)⟩
    · exact Or.inl k1
  exact key

/-! ### C163, probability tables -/

/-- The smooth cross sections the probability tables are combined with: doubles on one grid of distinct energies. -/
structure Spec.DoubleURR (grid : List ℝ) (u : URR) : Prop where
  distinct : grid.Pairwise (· < ·)
  energies : ∀ e ∈ grid, IsDouble e
  range : ∀ e ∈ u.energy, IsDouble e
  elastic : DoubleTable grid u.elastic
  capture : DoubleTable grid u.capture
  fission : DoubleTable grid u.fission
  heating : FullXS u.heating ∧ u.heating.grid = grid
  inelastic : ∀ x, u.inelastic = some x → DoubleTable grid x
  absorption : ∀ x, u.absorption = some x → DoubleTable grid x

section
variable {fl : ℝ → ℝ} (hfl : IsRoundToNearest fl)
include hfl

/-- Three numbers that are not negative, added in floating point. -/
theorem sum3_fl {a b c : ℝ} (ha : IsDouble a) (hb : IsDouble b) (hc : IsDouble c) (ha0 : 0 ≤ a) (hb0 : 0 ≤ b) (hc0 : 0 ≤ c) :
    IsDouble (fl (fl (a + b) + c)) ∧ a ≤ fl (fl (a + b) + c) ∧ b ≤ fl (fl (a + b) + c) ∧ c ≤ fl (fl (a + b) + c) ∧
      |fl (fl (a + b) + c) - (a + b + c)| ≤ (2 : ℝ) ^ (-51 : ℤ) * (a + b + c) := by
  have e1 := fl_add_error hfl ha hb
  have d1 : IsDouble (fl (a + b)) := (hfl _).1
  have g1 : a ≤ fl (a + b) := le_fl hfl ha (by linarith)
  have g2 : b ≤ fl (a + b) := le_fl hfl hb (by linarith)
  generalize fl (a + b) = s at *
  have e2 := fl_add_error hfl d1 hc
  have d2 : IsDouble (fl (s + c)) := (hfl _).1
  have g3 : s ≤ fl (s + c) := le_fl hfl d1 (by linarith)
  have g4 : c ≤ fl (s + c) := le_fl hfl hc (by linarith)
  generalize fl (s + c) = w at *
  refine ⟨d2, g1.trans g3, g2.trans g3, g4, ?_⟩
  have hu := uround_pos
  have hu1 : uround ≤ 1 / 1000 := by rw [uround_eq]; norm_num
  have h51 : (2 : ℝ) ^ (-51 : ℤ) = 4 * uround := by unfold uround; norm_num
  rw [h51]
  rw [abs_of_nonneg (show 0 ≤ a + b by linarith)] at e1
  rw [abs_of_nonneg (show 0 ≤ s + c by linarith)] at e2
  rw [abs_le] at e1 e2 ⊢
  have k1 : uround * (a + b) ≤ uround * (a + b + c) := mul_le_mul_of_nonneg_left (by linarith) hu.le
  have k2 : uround * (a + b) ≤ 1 / 1000 * (a + b) := mul_le_mul_of_nonneg_right hu1 (by linarith)
  have k3 : uround * (s + c) ≤ uround * (2 * (a + b + c)) := mul_le_mul_of_nonneg_left (by linarith [e1.2]) hu.le
  constructor <;> linarith [e1.1, e1.2, e2.1, e2.2]

theorem evalOptFl_good {grid : List ℝ} {x : Option (XS ℝ)} (hx : ∀ y, x = some y → DoubleTable grid y) (hs : grid.Pairwise (· < ·))
    (hd : ∀ e ∈ grid, IsDouble e) {E : ℝ} (hE : IsDouble E) {i : Nat} (hbr : Brackets grid E i) :
    ∃ v, evalOptFl fl x E i = .ok v ∧ IsDouble v ∧ 0 ≤ v ∧ (x = none → v = 0) := by
  cases x with
  | none => exact ⟨0, rfl, isDouble_zero, le_rfl, fun _ => rfl⟩
  | some y =>
    obtain ⟨v, _, h1, _, h2, h3, _⟩ := evalIdxFl_good hfl (hx y rfl) hs hd hE hbr
    exact ⟨v, h1, h2, h3, fun h => by cases h⟩

theorem mixBandFl_double {flog fexp : ℝ → ℝ} (he : ∀ x, IsDouble (fexp x)) {r : Interpolation} {lo hi f v : ℝ}
    (h : mixBandFl fl flog fexp r lo hi f = .ok v) : IsDouble v := by
  unfold mixBandFl at h
  split at h
  · cases h; exact (hfl _).1
  · split at h
    · obtain ⟨a, _, h⟩ := bind_ok h
      obtain ⟨q, _, h⟩ := bind_ok h
      obtain ⟨b, _, h⟩ := bind_ok h
      cases h
      exact he _
    · cases h; exact isDouble_zero

theorem scaleByFl_double {factors : Bool} {xs : XS ℝ} {E v w : ℝ} {i : Nat} (hv : IsDouble v) (h : scaleByFl fl factors xs E i v = .ok w) :
    IsDouble w := by
  unfold scaleByFl at h
  split at h
  · obtain ⟨s, _, h⟩ := bind_ok h
    cases h
    exact (hfl _).1
  · cases h; exact hv

end

theorem clamp0_double {v : ℝ} (h : IsDouble v) : IsDouble (clamp0 v) := by
  unfold clamp0
  split
  · exact isDouble_zero
  · exact h

/-- C163 for the packets of probability tables, for every rounding to nearest and whatever the library's logarithm and exponential return: every
entry is a double that is not negative, no part exceeds its whole, and total and absorption are the sums of their parts up to two roundings.
Here nothing is subtracted: the inelastic cross section is the table's. -/
theorem C163_tables (fl : ℝ → ℝ) (hfl : IsRoundToNearest fl) (flog fexp : ℝ → ℝ) (hexp : ∀ x, IsDouble (fexp x)) (grid : List ℝ) (u : URR)
    (hu : DoubleURR grid u) (E : ℝ) (hE : IsDouble E) (i : Nat) (hbr : Brackets grid E i) (xi : ℝ) (p : XSPacket ℝ)
    (h : u.evaluateFl fl flog fexp E i xi = .ok (some p)) :
    (∀ x ∈ [p.total, p.elastic, p.inelastic, p.absorption, p.fission, p.capture, p.heating], IsDouble x ∧ 0 ≤ x) ∧
      p.elastic ≤ p.total ∧ p.inelastic ≤ p.total ∧ p.absorption ≤ p.total ∧ p.capture ≤ p.absorption ∧ p.fission ≤ p.absorption ∧
      |p.total - (p.elastic + p.inelastic + p.absorption)| ≤ (2 : ℝ) ^ (-51 : ℤ) * (p.elastic + p.inelastic + p.absorption) ∧
      evalOptFl fl u.inelastic E i = .ok p.inelastic ∧
      ∃ other, evalOptFl fl u.absorption E i = .ok other ∧
        |p.absorption - (p.capture + p.fission + other)| ≤ (2 : ℝ) ^ (-51 : ℤ) * (p.capture + p.fission + other) := by
  unfold URR.evaluateFl at h
  split at h
  · cases h
  obtain ⟨y0, _, h⟩ := bind_ok h
  obtain ⟨y1, _, h⟩ := bind_ok h
  split at h
  · cases h
  obtain ⟨⟨kk, f⟩, _, h⟩ := bind_ok h
  obtain ⟨tl, _, h⟩ := bind_ok h
  obtain ⟨th, _, h⟩ := bind_ok h
  obtain ⟨bl, _, h⟩ := bind_ok h
  obtain ⟨bh, _, h⟩ := bind_ok h
  obtain ⟨z1, m1, h⟩ := bind_ok h
  obtain ⟨z2, m2, h⟩ := bind_ok h
  obtain ⟨z3, m3, h⟩ := bind_ok h
  obtain ⟨z4, m4, h⟩ := bind_ok h
  obtain ⟨z5, s1, h⟩ := bind_ok h
  obtain ⟨z6, s2, h⟩ := bind_ok h
  obtain ⟨z7, s3, h⟩ := bind_ok h
  obtain ⟨z8, s4, h⟩ := bind_ok h
  obtain ⟨inel, hin, h⟩ := bind_ok h
  obtain ⟨ot, hot, h⟩ := bind_ok h
  cases h
  obtain ⟨v1, a1, a2, a3, _⟩ := evalOptFl_good hfl hu.inelastic hu.distinct hu.energies hE hbr
  obtain ⟨v2, b1, b2, b3, _⟩ := evalOptFl_good hfl hu.absorption hu.distinct hu.energies hE hbr
  rw [a1] at hin
  rw [b1] at hot
  cases hin
  cases hot
  have d1 := clamp0_double (scaleByFl_double hfl (mixBandFl_double hfl hexp m1) s1)
  have d2 := clamp0_double (scaleByFl_double hfl (mixBandFl_double hfl hexp m2) s2)
  have d3 := clamp0_double (scaleByFl_double hfl (mixBandFl_double hfl hexp m3) s3)
  have d4 := clamp0_double (scaleByFl_double hfl (mixBandFl_double hfl hexp m4) s4)
  have n1 := clamp0_nonneg z5
  have n2 := clamp0_nonneg z6
  have n3 := clamp0_nonneg z7
  have n4 := clamp0_nonneg z8
  obtain ⟨q1, q2, q3, q4, q5⟩ := sum3_fl hfl d2 d3 b2 n2 n3 b3
  dsimp only
  generalize fl (fl (clamp0 z6 + clamp0 z7) + ot) = ab at *
  obtain ⟨r1, r2, r3, r4, r5⟩ := sum3_fl hfl d1 a2 q1 n1 a3 (n2.trans q2)
  refine ⟨?_, r2, r3, r4, q2, q3, r5, a1, ot, b1, q5⟩
  intro x hx
  simp only [List.mem_cons, List.not_mem_nil, or_false] at hx
  rcases hx with rfl | rfl | rfl | rfl | rfl | rfl | rfl
  exacts [⟨r1, n1.trans r2⟩, ⟨d1, n1⟩, ⟨a2, a3⟩, ⟨q1, n2.trans q2⟩, ⟨d3, n3⟩, ⟨d2, n2⟩, ⟨d4, n4⟩]

/-- Tables with linear interpolation give a packet for every double in their range, whatever the order of their energies. -/
theorem C163_tables_total (fl : ℝ → ℝ) (hfl : IsRoundToNearest fl) (flog fexp : ℝ → ℝ) (grid : List ℝ) (u : URR) (hv : ValidURR u)
    (hu : DoubleURR grid u) (hval : u.isValid = true) (hlin : u.interp = .linLin) (E e0 e1 : ℝ) (hE : IsDouble E) (h0 : u.energy[0]? = some e0)
    (h1 : u.energy.getLast? = some e1) (hE0 : e0 ≤ E) (hE1 : E ≤ e1) (i : Nat) (hbr : Brackets grid E i) (xi : ℝ) (hxi : xi ≤ 1) :
    ∃ p, u.evaluateFl fl flog fexp E i xi = .ok (some p) := by
  have hlen : u.energy.length > 2 := by simpa [URR.isValid] using hval
  have hb : ∃ k f, u.bracketFl fl flog E = .ok (k, f) ∧ k + 1 < u.energy.length := by
    obtain ⟨v, hvv, hle, hcase⟩ := lowerBound_edge u.energy E e0 e1 h0 h1 hE0 hE1
    have hlt := lt_length_of_some hvv
    unfold URR.bracketFl
    simp only [getAt_eq_ok.mpr hvv, bind, Except.bind]
    by_cases he : E = v
    · rw [if_pos he]
      by_cases hend : lowerBound u.energy E + 1 = u.energy.length
      · rw [if_pos hend, subIdx_of_le (by omega)]
        exact ⟨_, 1, rfl, by omega⟩
      · rw [if_neg hend]
        exact ⟨_, 0, rfl, by omega⟩
    · rw [if_neg he]
      rcases hcase with hc | ⟨k, a, hk, ha, haE, hEv⟩
      · exact absurd hc he
      · have hkv : u.energy[k + 1]? = some v := by rw [← hk]; exact hvv
        rw [hk, subIdx_of_le (by omega)]
        simp only [Nat.add_sub_cancel, getAt_eq_ok.mpr ha, getAt_eq_ok.mpr hkv]
        have hp := fl_sub_pos hfl (hu.range _ (List.mem_of_getElem? hkv)) (hu.range _ (List.mem_of_getElem? ha)) (haE.trans hEv)
        rw [if_pos hlin, rdivFl, rdiv_ok hp.ne']
        exact ⟨k, _, rfl, by omega⟩
  obtain ⟨k, f, hb, hk⟩ := hb
  obtain ⟨tl, htl⟩ := getElem?_of_lt (l := u.tables) (i := k) (by rw [hv.tables]; omega)
  obtain ⟨th, hth⟩ := getElem?_of_lt (l := u.tables) (i := k + 1) (by rw [hv.tables]; omega)
  have mtl := List.mem_of_getElem? htl
  have mth := List.mem_of_getElem? hth
  obtain ⟨c1, hc1, _⟩ := bandOf_spec tl.cdf xi (hv.last tl mtl) hxi
  obtain ⟨c2, hc2, _⟩ := bandOf_spec th.cdf xi (hv.last th mth) hxi
  obtain ⟨bl, hbl⟩ := getElem?_of_lt (l := tl.bands) (i := bandOf tl.cdf xi) (by rw [← hv.bands tl mtl]; exact lt_length_of_some hc1)
  obtain ⟨bh, hbh⟩ := getElem?_of_lt (l := th.bands) (i := bandOf th.cdf xi) (by rw [← hv.bands th mth]; exact lt_length_of_some hc2)
  have tot : ∀ x : XS ℝ, DoubleTable grid x → ∃ v, x.evalIdxFl fl E i = .ok v := fun x hx => by
    obtain ⟨v, _, h, _⟩ := evalIdxFl_good hfl hx hu.distinct hu.energies hE hbr
    exact ⟨v, h⟩
  have sc : ∀ (x : XS ℝ), (∃ v, x.evalIdxFl fl E i = .ok v) → ∀ v, ∃ w, scaleByFl fl u.factors x E i v = .ok w := by
    rintro x ⟨s, hs⟩ v
    unfold scaleByFl
    cases u.factors with
    | false => exact ⟨v, rfl⟩
    | true => rw [if_pos rfl, hs]; exact ⟨_, rfl⟩
  obtain ⟨el', hel⟩ := sc _ (tot _ hu.elastic) (fl (bl.elastic + fl (f * fl (bh.elastic - bl.elastic))))
  obtain ⟨ca', hca⟩ := sc _ (tot _ hu.capture) (fl (bl.capture + fl (f * fl (bh.capture - bl.capture))))
  obtain ⟨fi', hfi⟩ := sc _ (tot _ hu.fission) (fl (bl.fission + fl (f * fl (bh.fission - bl.fission))))
  obtain ⟨he', hhe⟩ := sc _ (evalIdxFl_total hfl hu.heating.1 (hu.heating.2 ▸ hu.distinct) (hu.heating.2 ▸ hu.energies) E i)
    (fl (bl.heating + fl (f * fl (bh.heating - bl.heating))))
  obtain ⟨inel, hin, _⟩ := evalOptFl_good hfl hu.inelastic hu.distinct hu.energies hE hbr
  obtain ⟨ot, hot, _⟩ := evalOptFl_good hfl hu.absorption hu.distinct hu.energies hE hbr
  unfold URR.evaluateFl
  rw [if_neg (by rw [hval]; simp)]
  simp only [front_eq_ok.mpr h0, back_eq_ok.mpr h1, bind, Except.bind]
  rw [if_neg (by rw [not_or, not_lt, not_lt]; exact ⟨hE0, hE1⟩)]
  simp only [hb, getAt_eq_ok.mpr htl, getAt_eq_ok.mpr hth, getAt_eq_ok.mpr hbl, getAt_eq_ok.mpr hbh, mixBandFl, hlin, if_true, hel, hca, hfi, hhe,
    hin, hot, pure, Except.pure]
  exact ⟨_, rfl⟩

/-- Such tables. -/
example : ∃ u : URR, ValidURR u ∧ DoubleURR [1, 3] u ∧ u.isValid = true ∧ u.interp = .linLin ∧ u.energy[0]? = some 1 ∧ u.energy.getLast? = some 3 ∧
    Brackets ([1, 3] : List ℝ) 2 0 := by
  have h2 : IsDouble 2 := isDouble_int (m := 2) (by norm_num)
  have h3 : IsDouble 3 := isDouble_int (m := 3) (by norm_num)
  have hx : ∀ v : ℝ, IsDouble v → 0 ≤ v → DoubleTable [1, 3] ⟨[1, 3], [v, v], 0, false⟩ := fun v hv h0 =>
    ⟨Or.inl ⟨rfl, by simp, by simp, by simpa using h0⟩, rfl, by simpa using hv⟩
  refine ⟨⟨.linLin, true, ⟨[1, 3], [2, 2], 0, false⟩, ⟨[1, 3], [1, 1], 0, false⟩, ⟨[1, 3], [0, 0], 0, false⟩, ⟨[1, 3], [1, 1], 0, false⟩,
    some ⟨[1, 3], [3, 3], 0, false⟩, none, [1, 2, 3], List.replicate 3 ⟨[1], [⟨1, 1, 0, 1, 1⟩]⟩⟩, ?_, ?_, rfl, rfl, rfl, rfl, ?_⟩
  · refine ⟨rfl, ?_, ?_, ?_, ?_, ?_, Or.inl rfl⟩ <;> · intro t ht; rw [List.eq_of_mem_replicate ht]; simp
  · refine ⟨by simp, by simp [isDouble_one, h3], by simp [isDouble_one, h2, h3], hx 2 h2 (by norm_num), hx 1 isDouble_one (by norm_num),
      hx 0 isDouble_zero le_rfl, ⟨⟨rfl, by simp, by simp⟩, rfl⟩, ?_, by simp⟩
    intro x hx'
    rw [← Option.some.inj hx']
    exact hx 3 h3 (by norm_num)
  · intro a b ha hb
    simp at ha hb
    rw [← ha, ← hb]
    norm_num

/-- With exact arithmetic these are the models of C57 and C58. -/
theorem C163_exact : (∀ (s : STN ℝ) E i, s.evaluateFl id E i = s.evaluate E i) ∧
    (∀ fissile grid f, computeFissionFl id fissile grid f = computeFission fissile grid f) ∧
    ∀ (u : URR) E i xi, u.evaluateFl id Real.log Real.exp E i xi = u.evaluate E i xi := by
  have hlin : (fun E El Eh sl sh : ℝ => linFl id E El sl Eh sh) = xsLin := by
    funext E El Eh sl sh
    rfl
  have hx : ∀ (s : XS ℝ) E i, s.evalIdxFl id E i = s.evalIdx E i := by
    intro s E i
    unfold XS.evalIdxFl
    rw [hlin]; rfl
  have hd : ∀ x y, rdivFl id x y = rdiv x y := by
    intro x y
    unfold rdivFl
    cases rdiv x y <;> rfl
  have hl : ∀ x, clogFl Real.log x = clog x := by
    intro x
    unfold clogFl clog
    split <;> simp_all
  refine ⟨fun s E i => ?_, fun a b c => ?_, fun u E i xi => ?_⟩
  · unfold STN.evaluateFl STN.evaluate
    simp only [hx, id]
  · have hs : sumAtFl id = sumAt := by
      funext f i
      have : addAtFl id = addAt := by
        funext r i v
        cases r <;> simp only [addAtFl, addAt, id]
      unfold sumAtFl sumAt
      simp only [this]
    unfold computeFissionFl computeFission
    rw [hs]
    split
    · rfl
    · cases c.m18 <;> rfl
  · have hb : u.bracketFl id Real.log E = u.bracket E := by
      unfold URR.bracketFl URR.bracket
      simp only [hd, hl, id]
    unfold URR.evaluateFl URR.evaluate
    rw [hb]
    have hm : mixBandFl id Real.log Real.exp = mixBand := by
      funext r lo hi f
      unfold mixBandFl mixBand
      simp only [hd, hl, id]
    have hsc : scaleByFl id = scaleBy := by
      funext a b c d e
      unfold scaleByFl scaleBy
      simp only [hx, id]
    have ho : evalOptFl id = evalOpt := by
      funext x E i
      cases x <;> simp only [evalOptFl, evalOpt, hx]
    rw [hm, hsc, ho]
    simp only [id]

end PNDL
