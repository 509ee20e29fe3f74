import Verif.Model.AceLaws
import Verif.Props.Angle

/-! C95: the densities of equiprobable bins. -/
namespace PNDL
open MeasureTheory

namespace Spec

/-- A proper set of bins: at least two bounds, strictly increasing. -/
def ProperBins (b : List ℝ) : Prop := 2 ≤ b.length ∧ b.Pairwise (· < ·)

/-- `f` is a probability density that vanishes outside the values of `support`: defined everywhere, never negative, and with integral one
over every interval containing the support. -/
def DensityOn (f : ℝ → Res ℝ) (support : ℝ → Prop) : Prop :=
  ∃ g : ℝ → ℝ, (∀ x, f x = .ok (g x)) ∧ (∀ x, 0 ≤ g x) ∧
    ∀ A B : ℝ, (∀ v, support v → A ≤ v ∧ v ≤ B) → IntervalIntegrable g volume A B ∧ ∫ x in A..B, g x = 1

end Spec
open Spec

theorem Spec.ProperBins.sorted {b : List ℝ} (h : ProperBins b) : b.Pairwise (· ≤ ·) := h.2.imp (fun h => h.le)

theorem energyBinSearch_bound {b : List ℝ} (hb : ProperBins b) (x : ℝ) : ∀ n j, j + n = b.length - 1 →
    ∃ i, i < b.length - 1 ∧ energyBinSearch b x n j = .ok i := by
  have := hb.1
  intro n
  induction n with
  | zero => intro j _; exact ⟨0, by omega, rfl⟩
  | succ n ih =>
    intro j hj
    obtain ⟨u, hu⟩ := getElem?_of_lt (l := b) (i := j) (by omega)
    obtain ⟨v, hv⟩ := getElem?_of_lt (l := b) (i := j + 1) (by omega)
    rw [energyBinSearch, getAt_eq_ok.mpr hu, getAt_eq_ok.mpr hv]
    simp only [bind, Except.bind]
    by_cases h : u ≤ x ∧ v ≥ x
    · exact ⟨j, by omega, by rw [if_pos h]⟩
    · rw [if_neg h]
      exact ih (j + 1) (by omega)

theorem strict_get {b : List ℝ} (hb : ProperBins b) {i j : Nat} {u v : ℝ} (hij : i < j) (hu : b[i]? = some u) (hv : b[j]? = some v) :
    u < v := by
  obtain ⟨h1, rfl⟩ := List.getElem?_eq_some_iff.mp hu
  obtain ⟨h2, rfl⟩ := List.getElem?_eq_some_iff.mp hv
  exact List.pairwise_iff_getElem.mp hb.2 i j h1 h2 hij

theorem energyBinSearch_inside {b : List ℝ} (hb : ProperBins b) {i : Nat} {lo hi x : ℝ} (h1 : b[i]? = some lo)
    (h2 : b[i + 1]? = some hi) (hlo : lo < x) (hhi : x < hi) : energyBinSearch b x (b.length - 1) 0 = .ok i := by
  have hi32 := lt_length_of_some h2
  have search : ∀ n j, j ≤ i → i < j + n → j + n = b.length - 1 → energyBinSearch b x n j = .ok i := by
    intro n
    induction n with
    | zero => intro j _ _ _; omega
    | succ n ih =>
      intro j hj hj2 hj3
      obtain ⟨u, hu⟩ := getElem?_of_lt (l := b) (i := j) (by omega)
      obtain ⟨v, hv⟩ := getElem?_of_lt (l := b) (i := j + 1) (by omega)
      rw [energyBinSearch, getAt_eq_ok.mpr hu, getAt_eq_ok.mpr hv]
      simp only [bind, Except.bind]
      rcases hj.lt_or_eq with hlt | rfl
      · have : v ≤ lo := pairwise_le_getElem? hb.sorted (by omega) hv h1
        rw [if_neg (by rintro ⟨_, h⟩; linarith)]
        exact ih (j + 1) (by omega) (by omega) (by omega)
      · rw [h1] at hu; rw [h2] at hv; cases hu; cases hv
        rw [if_pos ⟨hlo.le, hhi.le⟩]
  exact search _ 0 (Nat.zero_le _) (by omega) (by omega)

/-- What is reported between the first and the last bound. -/
theorem pdfBins_eq {b : List ℝ} (hb : ProperBins b) {mn mx : ℝ} (h0 : b[0]? = some mn) (hl : b.getLast? = some mx) (x : ℝ) :
    ((x < mn ∨ x > mx) ∧ pdfBins b x = .ok 0) ∨ (¬ (x < mn ∨ x > mx) ∧ ∃ i lo hi, energyBinSearch b x (b.length - 1) 0 = .ok i ∧
      b[i]? = some lo ∧ b[i + 1]? = some hi ∧ lo < hi ∧ pdfBins b x = .ok (1 / ((b.length - 1 : ℕ) : ℝ) / (hi - lo))) := by
  have hlen := hb.1
  by_cases hx : x < mn ∨ x > mx
  · left
    refine ⟨hx, ?_⟩
    rw [pdfBins, front_eq_ok.mpr h0, back_eq_ok.mpr hl]
    simp only [bind, Except.bind]
    rw [if_pos hx]
  · right
    refine ⟨hx, ?_⟩
    obtain ⟨i, hi, hs⟩ := energyBinSearch_bound hb x (b.length - 1) 0 (by omega)
    obtain ⟨lo, h1⟩ := getElem?_of_lt (l := b) (i := i) (by omega)
    obtain ⟨hh, h2⟩ := getElem?_of_lt (l := b) (i := i + 1) (by omega)
    have hlt := strict_get hb (Nat.lt_succ_self i) h1 h2
    refine ⟨i, lo, hh, hs, h1, h2, hlt, ?_⟩
    have hn : ((b.length - 1 : ℕ) : ℝ) ≠ 0 := by
      have : b.length - 1 ≠ 0 := by omega
      exact_mod_cast this
    rw [pdfBins, front_eq_ok.mpr h0, back_eq_ok.mpr hl]
    simp only [bind, Except.bind]
    rw [if_neg hx, hs]
    simp only [getAt_eq_ok.mpr h1, getAt_eq_ok.mpr h2, rdiv_ok hn]
    exact rdiv_ok (by linarith)

/-- **C95** One set of bins: the reported density is nonnegative, defined everywhere, and has integral one. -/
theorem bins_densityOn {b : List ℝ} (hb : ProperBins b) : DensityOn (pdfBins b) (fun v => v ∈ b) := by
  have hlen := hb.1
  obtain ⟨mn, h0⟩ := getElem?_of_lt (l := b) (i := 0) (by omega)
  obtain ⟨mx, hl⟩ := last_exists (l := b) (by omega)
  have hlast : b[b.length - 1]? = some mx := by rw [← List.getLast?_eq_getElem?]; exact hl
  have hn : (0 : ℝ) < ((b.length - 1 : ℕ) : ℝ) := by
    have : 0 < b.length - 1 := by omega
    exact_mod_cast this
  have hex : ∀ x, ∃ v, pdfBins b x = .ok v ∧ 0 ≤ v ∧ ((x < mn ∨ x > mx) → v = 0) := by
    intro x
    rcases pdfBins_eq hb h0 hl x with ⟨_, h⟩ | ⟨hx, i, lo, hi, _, _, _, hlt, h⟩
    · exact ⟨0, h, le_refl _, fun _ => rfl⟩
    · exact ⟨_, h, div_nonneg (div_nonneg one_pos.le hn.le) (by linarith), fun hh => absurd hh hx⟩
  choose g hg using hex
  have hin : ∀ i lo hi x, b[i]? = some lo → b[i + 1]? = some hi → lo < x → x < hi → g x = 1 / ((b.length - 1 : ℕ) : ℝ) / (hi - lo) := by
    intro i lo hi x h1 h2 hlo hhi
    have a1 := pairwise_le_getElem? hb.sorted (Nat.zero_le i) h0 h1
    have hi' := lt_length_of_some h2
    have a2 := pairwise_le_getElem? hb.sorted (show i + 1 ≤ b.length - 1 by omega) h2 hlast
    rcases pdfBins_eq hb h0 hl x with ⟨hx, _⟩ | ⟨hx, i', lo', hi', hs, e1, e2, _, h⟩
    · rcases hx with h | h <;> linarith
    · rw [energyBinSearch_inside hb h1 h2 hlo hhi] at hs
      cases hs
      rw [h1] at e1; rw [h2] at e2
      cases e1; cases e2
      rw [(hg x).1] at h
      exact Except.ok.inj h
  have cell : ∀ i lo hi, b[i]? = some lo → b[i + 1]? = some hi → IntervalIntegrable g volume lo hi ∧
      ∫ x in lo..hi, g x = 1 / ((b.length - 1 : ℕ) : ℝ) := by
    intro i lo hi h1 h2
    have hlt := strict_get hb (Nat.lt_succ_self i) h1 h2
    have heq : Set.EqOn (fun _ => 1 / ((b.length - 1 : ℕ) : ℝ) / (hi - lo)) g (Set.uIoo lo hi) := by
      intro s hs
      rw [Set.uIoo_of_le hlt.le] at hs
      exact (hin i lo hi s h1 h2 hs.1 hs.2).symm
    refine ⟨(intervalIntegrable_const (μ := volume)).congr_uIoo heq, ?_⟩
    rw [← intervalIntegral.integral_congr_uIoo heq, intervalIntegral.integral_const, smul_eq_mul]
    have : hi - lo ≠ 0 := by intro h; linarith
    field_simp
  have upto : ∀ (k : Nat) (v : ℝ), b[k]? = some v → IntervalIntegrable g volume mn v ∧ ∫ x in mn..v, g x = (k : ℝ) / ((b.length - 1 : ℕ) : ℝ) := by
    intro k
    induction k with
    | zero =>
      intro v hv
      rw [h0] at hv
      cases hv
      exact ⟨IntervalIntegrable.refl, by simp⟩
    | succ k ih =>
      intro v hv
      obtain ⟨u, hu⟩ := getElem?_of_lt (l := b) (i := k) (by have := lt_length_of_some hv; omega)
      obtain ⟨i1, e1⟩ := ih u hu
      obtain ⟨i2, e2⟩ := cell k u v hu hv
      refine ⟨i1.trans i2, ?_⟩
      rw [← intervalIntegral.integral_add_adjacent_intervals i1 i2, e1, e2]
      push_cast
      ring
  refine ⟨g, fun x => (hg x).1, fun x => (hg x).2.1, ?_⟩
  intro A B hAB
  have hA := (hAB mn (List.mem_of_getElem? h0)).1
  have hB := (hAB mx (List.mem_of_getElem? hlast)).2
  obtain ⟨i2, e2⟩ := upto _ mx hlast
  have z1 : Set.EqOn (fun _ => (0 : ℝ)) g (Set.uIoo A mn) := by
    intro s hs
    rw [Set.uIoo_of_le hA] at hs
    exact ((hg s).2.2 (Or.inl hs.2)).symm
  have z3 : Set.EqOn (fun _ => (0 : ℝ)) g (Set.uIoo mx B) := by
    intro s hs
    rw [Set.uIoo_of_le hB] at hs
    exact ((hg s).2.2 (Or.inr hs.1)).symm
  have i1 : IntervalIntegrable g volume A mn := (intervalIntegrable_const (μ := volume)).congr_uIoo z1
  have i3 : IntervalIntegrable g volume mx B := (intervalIntegrable_const (μ := volume)).congr_uIoo z3
  refine ⟨(i1.trans i2).trans i3, ?_⟩
  rw [← intervalIntegral.integral_add_adjacent_intervals (i1.trans i2) i3, ← intervalIntegral.integral_add_adjacent_intervals i1 i2, e2,
    ← intervalIntegral.integral_congr_uIoo z1, ← intervalIntegral.integral_congr_uIoo z3]
  simp only [intervalIntegral.integral_zero, zero_add, add_zero]
  exact div_self hn.ne'

/-- **C95** Equiprobable bins with proper bounds: at every incident energy, the reported density of the outgoing energy is defined everywhere,
never negative, and has integral one.  Missing for the full claim: repeated bounds are accepted, see the violation below. -/
theorem C95_bins_partial (d : EnergyBins) (hne : d.energy ≠ []) (hs : d.energy.Pairwise (· ≤ ·)) (hl : d.energy.length = d.bins.length)
    (hb : ∀ s ∈ d.bins, ProperBins s) (E : ℝ) : DensityOn (d.pdfAt E) (fun v => ∃ s ∈ d.bins, v ∈ s) := by
  have hpos : 0 < d.energy.length := List.length_pos_iff.mpr hne
  have one : ∀ s ∈ d.bins, ∀ f : ℝ → Res ℝ, (∀ x, f x = pdfBins s x) → DensityOn f (fun v => ∃ s ∈ d.bins, v ∈ s) := by
    intro s hs f hf
    obtain ⟨g, g1, g2, g3⟩ := bins_densityOn (hb s hs)
    exact ⟨g, fun x => by rw [hf, g1], g2, fun A B h => g3 A B (fun v hv => h v ⟨s, hs, hv⟩)⟩
  have hle := lowerBound_le hs E
  by_cases h0 : lowerBound d.energy E = 0
  · obtain ⟨s, hs0⟩ := getElem?_of_lt (l := d.bins) (i := 0) (by omega)
    refine one s (List.mem_of_getElem? hs0) _ (fun x => ?_)
    unfold EnergyBins.pdfAt
    simp only [h0, if_true, front_eq_ok.mpr hs0, bind, Except.bind]
  · by_cases h1 : lowerBound d.energy E = d.energy.length
    · obtain ⟨s, hs1⟩ := last_exists (l := d.bins) (by omega)
      refine one s (List.mem_of_mem_getLast? hs1) _ (fun x => ?_)
      unfold EnergyBins.pdfAt
      simp only [h1, if_true, back_eq_ok.mpr hs1, bind, Except.bind]
      rw [if_neg (by omega)]
    · obtain ⟨j, hj⟩ : ∃ j, j = lowerBound d.energy E - 1 := ⟨_, rfl⟩
      obtain ⟨e0, he0⟩ := getElem?_of_lt (l := d.energy) (i := j) (by omega)
      obtain ⟨e1, he1⟩ := getElem?_of_lt (l := d.energy) (i := j + 1) (by omega)
      obtain ⟨s0, hs0⟩ := getElem?_of_lt (l := d.bins) (i := j) (by omega)
      obtain ⟨s1, hs1⟩ := getElem?_of_lt (l := d.bins) (i := j + 1) (by omega)
      have a0 : e0 < E := (lowerBound_iff hs E he0).mpr (by omega)
      have a1 : E ≤ e1 := by
        by_contra h
        have := (lowerBound_iff hs E he1).mp (not_le.mp h)
        omega
      obtain ⟨g, g1, g2, g3⟩ := bins_densityOn (hb s0 (List.mem_of_getElem? hs0))
      obtain ⟨k, k1, k2, k3⟩ := bins_densityOn (hb s1 (List.mem_of_getElem? hs1))
      have f0 : 0 ≤ (E - e0) / (e1 - e0) := div_nonneg (by linarith) (by linarith)
      have f1 : (E - e0) / (e1 - e0) ≤ 1 := by rw [div_le_one (by linarith)]; linarith
      refine ⟨fun x => (1 - (E - e0) / (e1 - e0)) * g x + (E - e0) / (e1 - e0) * k x, ?_, ?_, ?_⟩
      · intro x
        unfold EnergyBins.pdfAt
        dsimp only
        rw [if_neg h0, if_neg h1, subIdx_of_le (by omega), ← hj]
        simp only [bind, Except.bind, getAt_eq_ok.mpr he0, getAt_eq_ok.mpr he1, rdiv_ok (show e1 - e0 ≠ 0 by intro h; linarith),
          getAt_eq_ok.mpr hs0, getAt_eq_ok.mpr hs1, g1, k1, pure, Except.pure]
      · intro x
        exact add_nonneg (mul_nonneg (by linarith) (g2 x)) (mul_nonneg f0 (k2 x))
      · intro A B h
        obtain ⟨ga, gb⟩ := g3 A B (fun v hv => h v ⟨s0, List.mem_of_getElem? hs0, hv⟩)
        obtain ⟨ka, kb⟩ := k3 A B (fun v hv => h v ⟨s1, List.mem_of_getElem? hs1, hv⟩)
        refine ⟨(ga.const_mul _).add (ka.const_mul _), ?_⟩
        rw [intervalIntegral.integral_add (ga.const_mul _) (ka.const_mul _), intervalIntegral.integral_const_mul,
          intervalIntegral.integral_const_mul, gb, kb]
        ring

/-- **C95** General evaporation with proper bounds and a positive temperature at the incident energy: the reported density of the outgoing
energy is defined everywhere, never negative and has integral one. -/
theorem C95_evaporation_partial (t : Tab1D) (b : List ℝ) (hb : ProperBins b) (E T : ℝ) (hT : t.eval E = .ok T) (hpos : 0 < T) :
    DensityOn (genEvapPdf t b E) (fun v => ∃ c ∈ b, v = c * T) := by
  have hlen := hb.1
  obtain ⟨g, g1, g2, g3⟩ := bins_densityOn hb
  obtain ⟨mn, h0⟩ := getElem?_of_lt (l := b) (i := 0) (by omega)
  obtain ⟨mx, hl⟩ := last_exists (l := b) (by omega)
  have hn : ((b.length - 1 : ℕ) : ℝ) ≠ 0 := by
    have : b.length - 1 ≠ 0 := by omega
    exact_mod_cast this
  refine ⟨fun x => g (x / T) / T, ?_, fun x => div_nonneg (g2 _) hpos.le, ?_⟩
  · intro x
    have hg := g1 (x / T)
    unfold genEvapPdf
    simp only [hT, bind, Except.bind, rdiv_ok hpos.ne', front_eq_ok.mpr h0, back_eq_ok.mpr hl]
    rcases pdfBins_eq hb h0 hl (x / T) with ⟨hx, e⟩ | ⟨hx, i, lo, hi, hs, e1, e2, hlt, e⟩
    · rw [if_pos hx]
      rw [e] at hg
      rw [← Except.ok.inj hg, zero_div]
    · rw [if_neg hx, hs]
      rw [e] at hg
      simp only [getAt_eq_ok.mpr e1, getAt_eq_ok.mpr e2, rdiv_ok hn]
      rw [rdiv_ok (mul_ne_zero (by linarith) hpos.ne'), ← Except.ok.inj hg]
      congr 1
      rw [div_div (1 / _)]
  · intro A B h
    obtain ⟨i1, e1⟩ := g3 (A / T) (B / T) (fun v hv => by
      have := h (v * T) ⟨v, hv, rfl⟩
      exact ⟨by rw [div_le_iff₀ hpos]; exact this.1, by rw [le_div_iff₀ hpos]; exact this.2⟩)
    constructor
    · have := (i1.comp_mul_right (c := T⁻¹)).div_const T
      simp only [div_inv_eq_mul, div_mul_cancel₀ _ hpos.ne'] at this
      simpa only [div_eq_mul_inv] using this
    · rw [intervalIntegral.integral_div, intervalIntegral.integral_comp_div (fun x => g x) hpos.ne', e1, smul_eq_mul, mul_one,
        div_self hpos.ne']

/-- **C95** violation: bounds whose first two are equal are accepted by the constructor, and the density at that energy is not a number. -/
theorem C95_violation_repeated (a : ℝ) (rest : List ℝ) (hs : (a :: a :: rest).Pairwise (· ≤ ·)) (E E0 : ℝ) :
    ∃ d, EnergyBins.make [E0] [a :: a :: rest] = .ok d ∧ d.pdfAt E a = .error .nonfinite := by
  refine ⟨⟨[E0], [a :: a :: rest]⟩, ?_, ?_⟩
  · have := isSorted_iff.mpr hs
    simp [EnergyBins.make, this]
    simp [isSorted]
  · have hp : pdfBins (a :: a :: rest) a = .error .nonfinite := by
      obtain ⟨mx, hl⟩ := last_exists (l := a :: a :: rest) (by simp)
      have hmx : a ≤ mx := pairwise_le_getElem? hs (Nat.zero_le ((a :: a :: rest).length - 1)) (i := 0) (by simp)
        (by rw [← List.getLast?_eq_getElem?]; exact hl)
      have hn : (((a :: a :: rest).length - 1 : ℕ) : ℝ) ≠ 0 := by
        simp only [List.length_cons, Nat.add_sub_cancel]
        have : rest.length + 1 ≠ 0 := by omega
        exact_mod_cast this
      rw [pdfBins, front_eq_ok.mpr (show (a :: a :: rest)[0]? = some a from rfl), back_eq_ok.mpr hl]
      simp only [bind, Except.bind]
      rw [if_neg (by rintro (h | h) <;> linarith), show (a :: a :: rest).length - 1 = rest.length + 1 by simp, energyBinSearch]
      have q0 : getAt (a :: a :: rest) 0 = .ok a := rfl
      have q1 : getAt (a :: a :: rest) (0 + 1) = .ok a := rfl
      simp only [q0, q1, bind, Except.bind]
      rw [if_pos ⟨le_refl _, le_refl _⟩]
      simp only [q0, q1]
      rw [rdiv_ok (by rw [show (a :: a :: rest).length - 1 = rest.length + 1 by simp] at hn; exact hn)]
      simp only [sub_self]
      exact rdiv_zero
    unfold EnergyBins.pdfAt
    have hle : lowerBound [E0] E ≤ 1 := lowerBound_le (List.pairwise_singleton _ _) E
    by_cases h0 : lowerBound [E0] E = 0
    · simp only [h0, if_true]
      exact hp
    · have h1 : lowerBound [E0] E = 1 := by omega
      simp only [h1, Nat.one_ne_zero, if_false, List.length_singleton, if_true]
      exact hp

/-- Proper bins exist, and the constructor accepts them. -/
example : ProperBins [0, 1, 3] ∧ EnergyBins.make [1, 5] [[0, 1, 3], [1, 2, 4]] = .ok ⟨[1, 5], [[0, 1, 3], [1, 2, 4]]⟩ := by
  refine ⟨⟨by simp, by norm_num⟩, ?_⟩
  norm_num [EnergyBins.make, isSorted]

end PNDL
