import Verif.Props.URR
import Mathlib.MeasureTheory.Integral.IntervalIntegral.Basic
import Mathlib.Analysis.SpecialFunctions.Pow.Real
import Mathlib.MeasureTheory.Integral.IntervalIntegral.FundThmCalculus
import Mathlib.Analysis.SpecialFunctions.Integrals.Basic

/-! C115: the cross sections of the probability tables are the interpolated bands, and their mean is the interpolated mean. -/
namespace PNDL
open Spec MeasureTheory

/-- The value between `(x0, y0)` and `(x1, y1)`: on the straight line, or on the straight line in logarithms, where a value that has
none counts as zero. -/
noncomputable def Spec.urrBetween (r : Interpolation) (x0 x1 y0 y1 E : ℝ) : ℝ :=
  open Classical in
  if r = .linLin then y0 + (E - x0) / (x1 - x0) * (y1 - y0)
  else if 0 < y0 ∧ 0 < y1 then y0 * (y1 / y0) ^ (Real.log (E / x0) / Real.log (x1 / x0))
  else 0

/-- `b` is the band of the table at `xi`: the first one whose cumulative probability is at least `xi`. -/
def Spec.BandAt (t : PTab) (xi : ℝ) (b : Band) : Prop :=
  ∃ (n : Nat) (c : ℝ), t.bands[n]? = some b ∧ t.cdf[n]? = some c ∧ xi ≤ c ∧ ∀ (m : Nat) (d : ℝ), m < n → t.cdf[m]? = some d → d < xi

/-- `E` is in the cell from `x0` to `x1`, the `k`-th one; the upper end belongs to it only if it is the last energy. -/
structure Spec.UrrCell (u : URR) (k : Nat) (x0 x1 E : ℝ) : Prop where
  lo : u.energy[k]? = some x0
  hi : u.energy[k + 1]? = some x1
  above : x0 ≤ E
  below : E < x1 ∨ E = x1 ∧ k + 2 = u.energy.length

/-- The factor on a value of the tables. -/
def Spec.urrFactor (u : URR) (s : ℝ) : ℝ := if u.factors then s else 1

/-- A competing cross section: zero if there is none. -/
def Spec.CompetingXS (x : Option (XS ℝ)) (E : ℝ) (i : Nat) (v : ℝ) : Prop := (x = none ∧ v = 0) ∨ ∃ s, x = some s ∧ s.evalIdx E i = .ok v

theorem bandAt_iff {t : PTab} (hl : t.cdf.getLast? = some 1) (hb : t.cdf.length = t.bands.length) {xi : ℝ} (hxi : xi ≤ 1) {b : Band} :
    BandAt t xi b ↔ t.bands[bandOf t.cdf xi]? = some b := by
  obtain ⟨c, h1, h2, h3⟩ := bandOf_spec t.cdf xi hl hxi
  constructor
  · rintro ⟨n, d, g1, g2, g3, g4⟩
    rcases Nat.lt_trichotomy (bandOf t.cdf xi) n with h | h | h
    · exact absurd (g4 _ c h h1) (not_lt.mpr h2)
    · rw [h]; exact g1
    · exact absurd (h3 _ d h g2) (not_lt.mpr g3)
  · exact fun h => ⟨_, c, h, h1, h2, h3⟩

theorem bandAt_exists {t : PTab} (hl : t.cdf.getLast? = some 1) (hb : t.cdf.length = t.bands.length) {xi : ℝ} (hxi : xi ≤ 1) : ∃ b, BandAt t xi b := by
  obtain ⟨c, h1, _⟩ := bandOf_spec t.cdf xi hl hxi
  obtain ⟨b, hb⟩ := getElem?_of_lt (l := t.bands) (i := bandOf t.cdf xi) (by rw [← hb]; exact lt_length_of_some h1)
  exact ⟨b, (bandAt_iff hl (by assumption) hxi).mpr hb⟩

/-- Every energy in the range of the tables is in a cell. -/
theorem C115_cell (u : URR) (hs : u.energy.Pairwise (· < ·)) (hn : 2 ≤ u.energy.length) (E e0 e1 : ℝ) (h0 : u.energy[0]? = some e0)
    (h1 : u.energy.getLast? = some e1) (hE0 : e0 ≤ E) (hE1 : E ≤ e1) : ∃ k x0 x1, UrrCell u k x0 x1 E := by
  have hs' : u.energy.Pairwise (· ≤ ·) := hs.imp le_of_lt
  obtain ⟨v, hv, hle, hc⟩ := lowerBound_edge u.energy E e0 e1 h0 h1 hE0 hE1
  have hlt := lt_length_of_some hv
  rcases hle.eq_or_lt with he | he
  · by_cases hend : lowerBound u.energy E + 1 = u.energy.length
    · obtain ⟨k, hk⟩ : ∃ k, lowerBound u.energy E = k + 1 := ⟨lowerBound u.energy E - 1, by omega⟩
      obtain ⟨x0, hx0⟩ := getElem?_of_lt (l := u.energy) (i := k) (by omega)
      rw [hk] at hv
      have := pairwise_lt_getElem? hs (Nat.lt_succ_self k) hx0 hv
      exact ⟨k, x0, v, hx0, hv, by linarith, Or.inr ⟨he, by omega⟩⟩
    · obtain ⟨x1, hx1⟩ := getElem?_of_lt (l := u.energy) (i := lowerBound u.energy E + 1) (by omega)
      have := pairwise_lt_getElem? hs (Nat.lt_succ_self _) hv hx1
      exact ⟨_, v, x1, hv, hx1, by linarith, Or.inl (by linarith)⟩
  · rcases hc with hc | ⟨k, a, hk, ha, haE, hEv⟩
    · exact absurd hc he.ne
    · rw [hk] at hv
      exact ⟨k, a, v, ha, hv, haE.le, Or.inl he⟩

/-- In a cell the search finds it, and the fraction is the one of the interpolation. -/
theorem bracket_cell {u : URR} (hs : u.energy.Pairwise (· < ·)) (hpos : u.interp = .linLin ∨ ∀ e ∈ u.energy, 0 < e) {k : Nat} {x0 x1 E : ℝ}
    (hc : UrrCell u k x0 x1 E) : u.bracket E = .ok (k, if u.interp = .linLin then (E - x0) / (x1 - x0) else Real.log (E / x0) / Real.log (x1 / x0)) := by
  have hs' : u.energy.Pairwise (· ≤ ·) := hs.imp le_of_lt
  have hx := pairwise_lt_getElem? hs (Nat.lt_succ_self k) hc.lo hc.hi
  have hlt := lt_length_of_some hc.hi
  have hlb : ∀ (n : Nat) (v : ℝ), u.energy[n]? = some v → E ≤ v → (∀ (m : Nat) (d : ℝ), m < n → u.energy[m]? = some d → d < E) → lowerBound u.energy E = n := by
    intro n v hv hle hm
    refine lowerBound_unique hs' E (lt_length_of_some hv).le fun j a ha => ⟨fun h => ?_, fun h => hm j a h ha⟩
    by_contra hcon
    have := pairwise_le_getElem? hs' (by omega : n ≤ j) hv ha
    linarith
  have hbelow : ∀ (n : Nat) (v : ℝ), u.energy[n]? = some v → ∀ (m : Nat) (d : ℝ), m < n → u.energy[m]? = some d → d < v := fun n v hv m d hm hd =>
    pairwise_lt_getElem? hs hm hd hv
  unfold URR.bracket
  rcases hc.above.eq_or_lt with he | he
  · rw [hlb k x0 hc.lo he.ge (fun m d hm hd => he ▸ hbelow k x0 hc.lo m d hm hd)]
    simp only [getAt_eq_ok.mpr hc.lo, bind, Except.bind]
    rw [if_pos he.symm, if_neg (by omega)]
    have hz : (if u.interp = .linLin then (E - x0) / (x1 - x0) else Real.log (E / x0) / Real.log (x1 / x0)) = 0 := by
      split_ifs with hi
      · rw [← he, sub_self, zero_div]
      · have h0 := (hpos.resolve_left hi) x0 (List.mem_of_getElem? hc.lo)
        rw [← he, div_self h0.ne', Real.log_one, zero_div]
    rw [hz]
    rfl
  · have hm : ∀ (m : Nat) (d : ℝ), m < k + 1 → u.energy[m]? = some d → d < E := fun m d hm hd =>
      lt_of_le_of_lt (pairwise_le_getElem? hs' (by omega) hd hc.lo) he
    have hEx : E ≤ x1 := by rcases hc.below with h | h; exacts [h.le, h.1.le]
    rw [hlb (k + 1) x1 hc.hi hEx hm]
    simp only [getAt_eq_ok.mpr hc.hi, bind, Except.bind]
    by_cases h : E = x1
    · have hl : k + 2 = u.energy.length := by
        rcases hc.below with h' | h'
        · exact absurd h h'.ne
        · exact h'.2
      rw [if_pos h, if_pos (by omega), subIdx_of_le (by omega)]
      have hz : (if u.interp = .linLin then (E - x0) / (x1 - x0) else Real.log (E / x0) / Real.log (x1 / x0)) = 1 := by
        split_ifs with hi
        · rw [h, div_self (by linarith)]
        · have h0 := (hpos.resolve_left hi) x0 (List.mem_of_getElem? hc.lo)
          rw [h, div_self (Real.log_pos ((one_lt_div h0).mpr hx)).ne']
      rw [hz]
      rfl
    · rw [if_neg h, subIdx_of_le (by omega)]
      simp only [Nat.add_sub_cancel, getAt_eq_ok.mpr hc.lo, getAt_eq_ok.mpr hc.hi]
      by_cases hi : u.interp = .linLin
      · rw [if_pos hi, if_pos hi, rdiv_ok (by linarith)]
        rfl
      · rw [if_neg hi, if_neg hi]
        have h0 := (hpos.resolve_left hi) x0 (List.mem_of_getElem? hc.lo)
        rw [rdiv_ok h0.ne']
        dsimp only
        rw [clog_ok (div_pos (by linarith) h0)]
        dsimp only
        rw [rdiv_ok h0.ne']
        dsimp only
        rw [clog_ok (div_pos (by linarith) h0)]
        dsimp only
        rw [rdiv_ok (Real.log_pos ((one_lt_div h0).mpr hx)).ne']
        rfl

theorem mixBand_eq (r : Interpolation) (x0 x1 E y0 y1 : ℝ) :
    mixBand r y0 y1 (if r = .linLin then (E - x0) / (x1 - x0) else Real.log (E / x0) / Real.log (x1 / x0)) = .ok (urrBetween r x0 x1 y0 y1 E) := by
  unfold mixBand urrBetween
  by_cases hr : r = .linLin
  · rw [if_pos hr, if_pos hr, if_pos hr]
  · rw [if_neg hr, if_neg hr, if_neg hr]
    by_cases h : 0 < y0 ∧ 0 < y1
    · rw [if_pos h, if_pos h, clog_ok h.1, rdiv_ok h.1.ne']
      simp only [bind, Except.bind]
      rw [clog_ok (div_pos h.2 h.1)]
      show Except.ok _ = _
      rw [Real.exp_add, Real.exp_log h.1, Real.rpow_def_of_pos (div_pos h.2 h.1), mul_comm (Real.log (y1 / y0))]
    · rw [if_neg h, if_neg h]

theorem scaleBy_eq {factors : Bool} {x : XS ℝ} {E s : ℝ} {i : Nat} (h : x.evalIdx E i = .ok s) (v : ℝ) :
    scaleBy factors x E i v = .ok (v * if factors then s else 1) := by
  unfold scaleBy
  cases factors with
  | false => simp
  | true => rw [if_pos rfl, h]; rfl

theorem clamp0_eq (v : ℝ) : clamp0 v = max 0 v := by
  unfold clamp0
  split_ifs with h
  · rw [max_eq_left h.le]
  · rw [max_eq_right (not_lt.mp h)]

/-- **C115** The values of the tables: in the cell of `E`, with the bands of the two tables at `xi`, every partial cross section is the
interpolated value of the bands (times the smooth cross section if the tables hold factors), and not below zero; inelastic and the
other absorption are the competing cross sections, absorption is the sum of capture, fission and that, and the total the sum of
elastic, inelastic and absorption. -/
theorem C115_value (u : URR) (grid : List ℝ) (hu : ValidURR u) (hs : SmoothOn grid u) (hv : u.isValid = true) (hsort : u.energy.Pairwise (· < ·))
    (hpos : u.interp = .linLin ∨ ∀ e ∈ u.energy, 0 < e) (k : Nat) (x0 x1 E : ℝ) (hc : UrrCell u k x0 x1 E) (t0 t1 : PTab)
    (ht0 : u.tables[k]? = some t0) (ht1 : u.tables[k + 1]? = some t1) (i : Nat) (xi : ℝ) (hxi : xi ≤ 1) (b0 b1 : Band) (hb0 : BandAt t0 xi b0) (hb1 : BandAt t1 xi b1) :
    ∃ p se sc sf sh other, u.evaluate E i xi = .ok (some p) ∧
      u.elastic.evalIdx E i = .ok se ∧ u.capture.evalIdx E i = .ok sc ∧ u.fission.evalIdx E i = .ok sf ∧ u.heating.evalIdx E i = .ok sh ∧
      p.elastic = max 0 (urrBetween u.interp x0 x1 b0.elastic b1.elastic E * urrFactor u se) ∧
      p.capture = max 0 (urrBetween u.interp x0 x1 b0.capture b1.capture E * urrFactor u sc) ∧
      p.fission = max 0 (urrBetween u.interp x0 x1 b0.fission b1.fission E * urrFactor u sf) ∧
      p.heating = max 0 (urrBetween u.interp x0 x1 b0.heating b1.heating E * urrFactor u sh) ∧
      CompetingXS u.inelastic E i p.inelastic ∧ CompetingXS u.absorption E i other ∧
      p.absorption = p.capture + p.fission + other ∧ p.total = p.elastic + p.inelastic + p.absorption := by
  have hlt := lt_length_of_some hc.hi
  obtain ⟨e0, h0⟩ := getElem?_of_lt (l := u.energy) (i := 0) (by omega)
  obtain ⟨e1, h1⟩ := last_exists (l := u.energy) (by omega)
  have hs' : u.energy.Pairwise (· ≤ ·) := hsort.imp le_of_lt
  have hE0 : e0 ≤ E := (pairwise_le_getElem? hs' (Nat.zero_le k) h0 hc.lo).trans hc.above
  have hE1 : E ≤ e1 := by
    have := pairwise_le_getElem? hs' (by omega : k + 1 ≤ u.energy.length - 1) hc.hi (getLast_get h1)
    rcases hc.below with h | h
    · linarith
    · linarith [h.1]
  have m0 := List.mem_of_getElem? ht0
  have m1 := List.mem_of_getElem? ht1
  have g0 := (bandAt_iff (hu.last t0 m0) (hu.bands t0 m0) hxi).mp hb0
  have g1 := (bandAt_iff (hu.last t1 m1) (hu.bands t1 m1) hxi).mp hb1
  obtain ⟨se, hse⟩ := evalIdx_total (hs.elastic.1.imp_left GoodXS.full) (hs.elastic.2 ▸ hs.distinct) E i
  obtain ⟨sc, hsc⟩ := evalIdx_total (hs.capture.1.imp_left GoodXS.full) (hs.capture.2 ▸ hs.distinct) E i
  obtain ⟨sf, hsf⟩ := evalIdx_total (hs.fission.1.imp_left GoodXS.full) (hs.fission.2 ▸ hs.distinct) E i
  obtain ⟨sh, hsh⟩ := evalIdx_total (Or.inl hs.heating.1) (hs.heating.2 ▸ hs.distinct) E i
  obtain ⟨inel, hin, _⟩ := evalOpt_ok hs.inelastic hs.distinct E i
  obtain ⟨ot, hot, _⟩ := evalOpt_ok hs.absorption hs.distinct E i
  have comp : ∀ (x : Option (XS ℝ)) v, evalOpt x E i = .ok v → CompetingXS x E i v := by
    intro x v h
    cases x with
    | none => cases h; exact Or.inl ⟨rfl, rfl⟩
    | some s => exact Or.inr ⟨s, rfl, h⟩
  obtain ⟨el, hel⟩ : ∃ x, x = max 0 (urrBetween u.interp x0 x1 b0.elastic b1.elastic E * urrFactor u se) := ⟨_, rfl⟩
  obtain ⟨ca, hca⟩ : ∃ x, x = max 0 (urrBetween u.interp x0 x1 b0.capture b1.capture E * urrFactor u sc) := ⟨_, rfl⟩
  obtain ⟨fi, hfi⟩ : ∃ x, x = max 0 (urrBetween u.interp x0 x1 b0.fission b1.fission E * urrFactor u sf) := ⟨_, rfl⟩
  obtain ⟨he, hhe⟩ : ∃ x, x = max 0 (urrBetween u.interp x0 x1 b0.heating b1.heating E * urrFactor u sh) := ⟨_, rfl⟩
  refine ⟨⟨el + inel + (ca + fi + ot), el, inel, ca + fi + ot, fi, ca, he⟩, se, sc, sf, sh, ot, ?_, hse, hsc, hsf, hsh, hel, hca, hfi, hhe, comp _ _ hin, comp _ _ hot, rfl, rfl⟩
  rw [hel, hca, hfi, hhe]
  unfold URR.evaluate
  rw [if_neg (by rw [hv]; simp)]
  simp only [front_eq_ok.mpr h0, back_eq_ok.mpr h1, bind, Except.bind]
  rw [if_neg (by rw [not_or, not_lt, not_lt]; exact ⟨hE0, hE1⟩), bracket_cell hsort hpos hc]
  simp only [getAt_eq_ok.mpr ht0, getAt_eq_ok.mpr ht1, getAt_eq_ok.mpr g0, getAt_eq_ok.mpr g1, mixBand_eq, scaleBy_eq hse, scaleBy_eq hsc, scaleBy_eq hsf, scaleBy_eq hsh,
    hin, hot, pure, Except.pure, clamp0_eq]
  rfl

/-! ### The mean -/

/-- The mean of the values `vs` whose cumulative probabilities, starting from `a`, are `cdf`. -/
def Spec.bandMean : ℝ → List ℝ → List ℝ → ℝ
  | a, c :: cs, v :: vs => (c - a) * v + bandMean c cs vs
  | _, _, _ => 0

theorem step_integral : ∀ (cdf vs : List ℝ) (a L : ℝ), cdf.length = vs.length → cdf.Pairwise (· ≤ ·) → (∀ c ∈ cdf, a ≤ c) → cdf.getLast? = some L →
    IntervalIntegrable (fun xi => vs.getD (bandOf cdf xi) 0) volume a L ∧ ∫ xi in a..L, vs.getD (bandOf cdf xi) 0 = bandMean a cdf vs := by
  intro cdf
  induction cdf with
  | nil => intro vs a L _ _ _ h; simp at h
  | cons c cs ih =>
    intro vs a L hl hs ha hL
    obtain ⟨v, vs', rfl⟩ : ∃ v vs', vs = v :: vs' := by
      cases vs with
      | nil => simp at hl
      | cons v vs' => exact ⟨v, vs', rfl⟩
    have hac : a ≤ c := ha c (by simp)
    have hlow : ∀ xi ∈ Set.uIoc a c, (v :: vs').getD (bandOf (c :: cs) xi) 0 = v := by
      intro xi hx
      rw [Set.uIoc_of_le hac] at hx
      have : bandOf (c :: cs) xi = 0 := by
        unfold bandOf
        rw [List.findIdx_cons]
        simp [hx.2]
      rw [this]; rfl
    have i1 : IntervalIntegrable (fun xi => (v :: vs').getD (bandOf (c :: cs) xi) 0) volume a c := by
      refine (intervalIntegrable_const (c := v)).congr fun xi hx => (hlow xi hx).symm
    have e1 : ∫ xi in a..c, (v :: vs').getD (bandOf (c :: cs) xi) 0 = (c - a) * v := by
      rw [intervalIntegral.integral_congr_ae (g := fun _ => v) (Filter.Eventually.of_forall fun xi hx => hlow xi hx), intervalIntegral.integral_const, smul_eq_mul]
    cases cs with
    | nil =>
      simp at hL
      subst hL
      refine ⟨i1, ?_⟩
      rw [e1]
      simp [bandMean]
    | cons d ds =>
      have hs' := List.pairwise_cons.mp hs
      have hL' : (d :: ds).getLast? = some L := by rw [← hL]; simp
      have hcL : c ≤ L := hs'.1 L (List.mem_of_getLast? hL')
      obtain ⟨i2, e2⟩ := ih vs' c L (by simpa using hl) hs'.2 hs'.1 hL'
      have hhigh : ∀ xi ∈ Set.uIoc c L, (v :: vs').getD (bandOf (c :: d :: ds) xi) 0 = vs'.getD (bandOf (d :: ds) xi) 0 := by
        intro xi hx
        rw [Set.uIoc_of_le hcL] at hx
        have : bandOf (c :: d :: ds) xi = bandOf (d :: ds) xi + 1 := by
          unfold bandOf
          rw [List.findIdx_cons, show decide (c ≥ xi) = false by simpa using hx.1]
          rfl
        rw [this]; rfl
      have i3 : IntervalIntegrable (fun xi => (v :: vs').getD (bandOf (c :: d :: ds) xi) 0) volume c L :=
        i2.congr fun xi hx => (hhigh xi hx).symm
      have e3 : ∫ xi in c..L, (v :: vs').getD (bandOf (c :: d :: ds) xi) 0 = bandMean c (d :: ds) vs' := by
        rw [← e2]
        exact intervalIntegral.integral_congr_ae (Filter.Eventually.of_forall fun xi hx => hhigh xi hx)
      refine ⟨i1.trans i3, ?_⟩
      rw [← intervalIntegral.integral_add_adjacent_intervals i1 i3, e1, e3]
      rfl

/-- The cumulative probabilities are in order and not negative. -/
def Spec.OrderedCdf (t : PTab) : Prop := t.cdf.Pairwise (· ≤ ·) ∧ ∀ c ∈ t.cdf, 0 ≤ c

theorem band_mean {t : PTab} (hl : t.cdf.getLast? = some 1) (hb : t.cdf.length = t.bands.length) (ho : OrderedCdf t) (g : Band → ℝ) (h : ℝ → Band)
    (hh : ∀ xi, 0 ≤ xi → xi ≤ 1 → BandAt t xi (h xi)) :
    IntervalIntegrable (fun xi => g (h xi)) volume 0 1 ∧ ∫ xi in (0 : ℝ)..1, g (h xi) = bandMean 0 t.cdf (t.bands.map g) := by
  obtain ⟨i, e⟩ := step_integral t.cdf (t.bands.map g) 0 1 (by simpa using hb) ho.1 ho.2 hl
  have heq : ∀ xi ∈ Set.uIoc (0 : ℝ) 1, (t.bands.map g).getD (bandOf t.cdf xi) 0 = g (h xi) := by
    intro xi hx
    rw [Set.uIoc_of_le zero_le_one] at hx
    have := (bandAt_iff hl hb hx.2).mp (hh xi hx.1.le hx.2)
    rw [List.getD_eq_getElem?_getD, List.getElem?_map, this]
    rfl
  refine ⟨i.congr heq, ?_⟩
  rw [← e]
  exact (intervalIntegral.integral_congr_ae (Filter.Eventually.of_forall fun xi hx => heq xi hx)).symm

/-- **C115** The mean over the bands: with linear interpolation, the mean over the random number of each partial cross section is the
interpolated mean of the two tables (times the smooth cross section if they hold factors). -/
theorem C115_mean (u : URR) (grid : List ℝ) (hu : ValidURR u) (hs : SmoothOn grid u) (hv : u.isValid = true) (hsort : u.energy.Pairwise (· < ·))
    (hlin : u.interp = .linLin) (ho : ∀ t ∈ u.tables, OrderedCdf t) (k : Nat) (x0 x1 E : ℝ) (hc : UrrCell u k x0 x1 E) (t0 t1 : PTab)
    (ht0 : u.tables[k]? = some t0) (ht1 : u.tables[k + 1]? = some t1) (i : Nat) (hi : Brackets grid E i) :
    ∃ (p : ℝ → XSPacket ℝ) (se sc sf : ℝ), (∀ xi, 0 ≤ xi → xi ≤ 1 → u.evaluate E i xi = .ok (some (p xi))) ∧
      u.elastic.evalIdx E i = .ok se ∧ u.capture.evalIdx E i = .ok sc ∧ u.fission.evalIdx E i = .ok sf ∧
      ∫ xi in (0 : ℝ)..1, (p xi).elastic = urrBetween .linLin x0 x1 (bandMean 0 t0.cdf (t0.bands.map Band.elastic)) (bandMean 0 t1.cdf (t1.bands.map Band.elastic)) E * urrFactor u se ∧
      ∫ xi in (0 : ℝ)..1, (p xi).capture = urrBetween .linLin x0 x1 (bandMean 0 t0.cdf (t0.bands.map Band.capture)) (bandMean 0 t1.cdf (t1.bands.map Band.capture)) E * urrFactor u sc ∧
      ∫ xi in (0 : ℝ)..1, (p xi).fission = urrBetween .linLin x0 x1 (bandMean 0 t0.cdf (t0.bands.map Band.fission)) (bandMean 0 t1.cdf (t1.bands.map Band.fission)) E * urrFactor u sf := by
  have m0 := List.mem_of_getElem? ht0
  have m1 := List.mem_of_getElem? ht1
  have hex : ∀ t ∈ u.tables, ∃ h : ℝ → Band, ∀ xi, xi ≤ 1 → BandAt t xi (h xi) := by
    intro t ht
    classical
    obtain ⟨b, _⟩ := bandAt_exists (hu.last t ht) (hu.bands t ht) (xi := 1) le_rfl
    have : ∀ xi, ∃ b, xi ≤ 1 → BandAt t xi b := fun xi => by
      by_cases h : xi ≤ 1
      · obtain ⟨b, hb⟩ := bandAt_exists (hu.last t ht) (hu.bands t ht) h
        exact ⟨b, fun _ => hb⟩
      · exact ⟨b, fun h' => absurd h' h⟩
    exact ⟨fun xi => (this xi).choose, fun xi h => (this xi).choose_spec h⟩
  obtain ⟨h0, hh0⟩ := hex t0 m0
  obtain ⟨h1, hh1⟩ := hex t1 m1
  obtain ⟨se, hse, ne⟩ := evalIdx_nonneg_ok hs.elastic.1 (hs.elastic.2 ▸ hs.distinct) E i (hs.elastic.2 ▸ hi)
  obtain ⟨sc, hsc, nc⟩ := evalIdx_nonneg_ok hs.capture.1 (hs.capture.2 ▸ hs.distinct) E i (hs.capture.2 ▸ hi)
  obtain ⟨sf, hsf, nf⟩ := evalIdx_nonneg_ok hs.fission.1 (hs.fission.2 ▸ hs.distinct) E i (hs.fission.2 ▸ hi)
  have hval : ∀ xi : ℝ, ∃ p : XSPacket ℝ, 0 ≤ xi → xi ≤ 1 → u.evaluate E i xi = .ok (some p) ∧
      p.elastic = max 0 (urrBetween u.interp x0 x1 (h0 xi).elastic (h1 xi).elastic E * urrFactor u se) ∧
      p.capture = max 0 (urrBetween u.interp x0 x1 (h0 xi).capture (h1 xi).capture E * urrFactor u sc) ∧
      p.fission = max 0 (urrBetween u.interp x0 x1 (h0 xi).fission (h1 xi).fission E * urrFactor u sf) := by
    intro xi
    by_cases hxi : xi ≤ 1
    · obtain ⟨p, se', sc', sf', sh', ot, e1, e2, e3, e4, _, e5, e6, e7, _⟩ := C115_value u grid hu hs hv hsort (Or.inl hlin) k x0 x1 E hc t0 t1 ht0 ht1 i xi hxi
        (h0 xi) (h1 xi) (hh0 xi hxi) (hh1 xi hxi)
      rw [hse] at e2
      rw [hsc] at e3
      rw [hsf] at e4
      cases e2
      cases e3
      cases e4
      exact ⟨p, fun _ _ => ⟨e1, e5, e6, e7⟩⟩
    · exact ⟨⟨0, 0, 0, 0, 0, 0, 0⟩, fun _ h => absurd h hxi⟩
  choose p hp using hval
  have hx := pairwise_lt_getElem? hsort (Nat.lt_succ_self k) hc.lo hc.hi
  have hEx : E ≤ x1 := by rcases hc.below with h | h; exacts [h.le, h.1.le]
  have f0 : 0 ≤ (E - x0) / (x1 - x0) := div_nonneg (by linarith [hc.above]) (by linarith)
  have f1 : (E - x0) / (x1 - x0) ≤ 1 := (div_le_one (by linarith)).mpr (by linarith)
  have key : ∀ (g : Band → ℝ) (s : ℝ) (q : XSPacket ℝ → ℝ), 0 ≤ s → (∀ t ∈ u.tables, ∀ b ∈ t.bands, 0 ≤ g b) →
      (∀ xi, 0 ≤ xi → xi ≤ 1 → q (p xi) = max 0 (urrBetween u.interp x0 x1 (g (h0 xi)) (g (h1 xi)) E * urrFactor u s)) →
      ∫ xi in (0 : ℝ)..1, q (p xi) = urrBetween .linLin x0 x1 (bandMean 0 t0.cdf (t0.bands.map g)) (bandMean 0 t1.cdf (t1.bands.map g)) E * urrFactor u s := by
    intro g s q hs0 hg hq
    obtain ⟨i0, j0⟩ := band_mean (hu.last t0 m0) (hu.bands t0 m0) (ho t0 m0) g h0 fun xi _ h => hh0 xi h
    obtain ⟨i1, j1⟩ := band_mean (hu.last t1 m1) (hu.bands t1 m1) (ho t1 m1) g h1 fun xi _ h => hh1 xi h
    have hF : 0 ≤ urrFactor u s := by unfold urrFactor; split_ifs; exacts [hs0, zero_le_one]
    have hcong : ∫ xi in (0 : ℝ)..1, q (p xi) = ∫ xi in (0 : ℝ)..1, (g (h0 xi) + (E - x0) / (x1 - x0) * (g (h1 xi) - g (h0 xi))) * urrFactor u s := by
      refine intervalIntegral.integral_congr_ae (Filter.Eventually.of_forall fun xi hx => ?_)
      rw [Set.uIoc_of_le zero_le_one] at hx
      obtain ⟨n0, _, a0, _⟩ := hh0 xi hx.2
      obtain ⟨n1, _, a1, _⟩ := hh1 xi hx.2
      have y0 := hg t0 m0 _ (List.mem_of_getElem? a0)
      have y1 := hg t1 m1 _ (List.mem_of_getElem? a1)
      rw [hq xi hx.1.le hx.2, urrBetween, if_pos hlin, max_eq_right]
      refine mul_nonneg ?_ hF
      nlinarith [mul_nonneg f0 y1, mul_nonneg (sub_nonneg.mpr f1) y0]
    rw [hcong, intervalIntegral.integral_mul_const, intervalIntegral.integral_add i0 ((i1.sub i0).const_mul _), intervalIntegral.integral_const_mul,
      intervalIntegral.integral_sub i1 i0, j0, j1, urrBetween, if_pos rfl]
  exact ⟨p, se, sc, sf, fun xi a b => (hp xi a b).1, hse, hsc, hsf, key Band.elastic se _ ne hu.elastic fun xi a b => (hp xi a b).2.1,
    key Band.capture sc _ nc hu.capture fun xi a b => (hp xi a b).2.2.1, key Band.fission sf _ nf hu.fission fun xi a b => (hp xi a b).2.2.2⟩

/-- **C115** At a tabulated energy the linear interpolation gives the band of the table at that energy. -/
theorem C115_node (x0 x1 y0 y1 : ℝ) : urrBetween .linLin x0 x1 y0 y1 x0 = y0 ∧ (x0 < x1 → urrBetween .linLin x0 x1 y0 y1 x1 = y1) := by
  unfold urrBetween
  rw [if_pos rfl, if_pos rfl]
  refine ⟨by simp, fun h => ?_⟩
  rw [div_self (by linarith)]
  ring

/-- **C115** Violation: with logarithmic interpolation the band of the table at a tabulated energy is lost if the next table has a zero
there: the cross section is zero although the table says it is not. -/
theorem C115_violation_node (u : URR) (grid : List ℝ) (hu : ValidURR u) (hs : SmoothOn grid u) (hv : u.isValid = true) (hsort : u.energy.Pairwise (· < ·))
    (hlog : u.interp = .logLog) (hpos : ∀ e ∈ u.energy, 0 < e) (k : Nat) (x0 x1 : ℝ) (hx0 : u.energy[k]? = some x0) (hx1 : u.energy[k + 1]? = some x1) (t0 t1 : PTab)
    (ht0 : u.tables[k]? = some t0) (ht1 : u.tables[k + 1]? = some t1) (i : Nat) (xi : ℝ) (hxi : xi ≤ 1) (b0 b1 : Band) (hb0 : BandAt t0 xi b0) (hb1 : BandAt t1 xi b1)
    (hz : b1.elastic = 0) : ∃ p, u.evaluate x0 i xi = .ok (some p) ∧ p.elastic = 0 := by
  have hx := pairwise_lt_getElem? hsort (Nat.lt_succ_self k) hx0 hx1
  obtain ⟨p, se, _, _, _, _, h1, _, _, _, _, h2, _⟩ := C115_value u grid hu hs hv hsort (Or.inr hpos) k x0 x1 x0 ⟨hx0, hx1, le_rfl, Or.inl hx⟩ t0 t1 ht0 ht1 i xi hxi b0 b1 hb0 hb1
  refine ⟨p, h1, ?_⟩
  rw [h2, urrBetween, if_neg (by rw [hlog]; decide), if_neg (by rw [hz]; simp)]
  simp

/-- Tables in which that happens: elastic cross section 3 in the first table, 0 in the second. -/
noncomputable def logURR : URR where
  interp := .logLog
  factors := false
  elastic := ⟨[1, 2], [3, 4], 0, false⟩
  capture := ⟨[1, 2], [1, 1], 0, false⟩
  fission := ⟨[1, 2], [0], 0, true⟩
  heating := ⟨[1, 2], [-1, 1], 0, false⟩
  inelastic := none
  absorption := none
  energy := [1, 3 / 2, 2]
  tables := [⟨[1], [⟨4, 3, 0, 1, 0⟩]⟩, ⟨[1], [⟨1, 0, 0, 1, 0⟩]⟩, ⟨[1], [⟨1, 0, 0, 1, 0⟩]⟩]

example (i : Nat) : ∃ t b p, logURR.tables[0]? = some t ∧ BandAt t (1 / 2) b ∧ b.elastic = 3 ∧ logURR.evaluate 1 i (1 / 2) = .ok (some p) ∧ p.elastic = 0 := by
  have hb : ∀ b : Band, BandAt ⟨[1], [b]⟩ (1 / 2) b := fun b => ⟨0, 1, rfl, rfl, by norm_num, fun m d hm _ => absurd hm (by omega)⟩
  obtain ⟨p, h1, h2⟩ := C115_violation_node logURR [1, 2] ⟨rfl, by simp [logURR], by simp [logURR], by simp [logURR], by simp [logURR], by simp [logURR], Or.inr rfl⟩
    ⟨by norm_num, ⟨Or.inl ⟨rfl, by decide, rfl, by simp [logURR]⟩, rfl⟩, ⟨Or.inl ⟨rfl, by decide, rfl, by simp [logURR]⟩, rfl⟩,
      ⟨Or.inr ⟨rfl, ⟨0, rfl, le_rfl⟩, by decide⟩, rfl⟩, ⟨⟨rfl, by decide, rfl⟩, rfl⟩, by simp [logURR], by simp [logURR]⟩ (by decide)
    (by simp only [logURR]; norm_num) rfl (by simp [logURR]) 0 1 (3 / 2) rfl rfl _ _ rfl rfl i (1 / 2) (by norm_num) _ _ (hb _) (hb _) rfl
  exact ⟨_, _, p, rfl, hb _, rfl, h1, h2⟩

/-- Concrete tables that meet the hypotheses of `C115_value` and `C115_mean`. -/
example : UrrCell exampleURR 0 1 (3 / 2) (5 / 4) ∧ (∀ t ∈ exampleURR.tables, OrderedCdf t) ∧ exampleURR.energy.Pairwise (· < ·) ∧
    bandMean 0 [1 / 4, 1] [1, 2] = 7 / 4 := by
  refine ⟨⟨rfl, rfl, by norm_num, Or.inl (by norm_num)⟩, ?_, ?_, by norm_num [bandMean]⟩
  · intro t ht
    rw [List.eq_of_mem_replicate ht]
    constructor
    · norm_num
    · intro c hc
      fin_cases hc <;> norm_num
  · simp only [exampleURR]; norm_num

end PNDL
