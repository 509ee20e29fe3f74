import Verif.Spec.ReadDensity
import Verif.Props.ReadEnergy
import Verif.Props.Density
import Verif.Props.Kalbach
import Verif.Props.EnergyAngle
import Verif.Props.Jacobian
import Verif.Props.Spndl

/-! C147 — a reported density is never negative. -/
namespace PNDL
open Spec

/-! ### The search, on any list -/

/-- Bisection on a list in any order still ends between an element that satisfies `p` and one that does not. -/
theorem bisect_edges {α : Type _} (p : α → Bool) (l : List α) : ∀ fuel first len, len ≤ fuel → first + len ≤ l.length →
    first ≤ bisect p l fuel first len ∧ bisect p l fuel first len ≤ first + len ∧
      (first < bisect p l fuel first len → ∃ a, l[bisect p l fuel first len - 1]? = some a ∧ p a = true) ∧
      (bisect p l fuel first len < first + len → ∃ a, l[bisect p l fuel first len]? = some a ∧ p a = false) := by
  intro fuel
  induction fuel with
  | zero =>
    intro first len h1 h2
    simp only [bisect]
    exact ⟨le_rfl, by omega, fun h => by omega, fun h => by omega⟩
  | succ fuel ih =>
    intro first len h1 h2
    rw [bisect]
    by_cases h0 : len = 0
    · rw [if_pos h0]
      exact ⟨le_rfl, by omega, fun h => by omega, fun h => by omega⟩
    · rw [if_neg h0]
      have hm : first + len / 2 < l.length := by omega
      have hs : l[first + len / 2]? = some l[first + len / 2] := by simp [hm]
      rw [hs]
      simp only
      by_cases hp : p l[first + len / 2] = true
      · rw [if_pos hp]
        obtain ⟨q1, q2, q3, q4⟩ := ih (first + len / 2 + 1) (len - len / 2 - 1) (by omega) (by omega)
        refine ⟨by omega, by omega, fun _ => ?_, fun h => q4 (by omega)⟩
        by_cases he : first + len / 2 + 1 < bisect p l fuel (first + len / 2 + 1) (len - len / 2 - 1)
        · exact q3 he
        · have : bisect p l fuel (first + len / 2 + 1) (len - len / 2 - 1) = first + len / 2 + 1 := by omega
          rw [this]
          exact ⟨_, hs, hp⟩
      · rw [if_neg hp]
        obtain ⟨q1, q2, q3, q4⟩ := ih first (len / 2) (by omega) (by omega)
        refine ⟨by omega, by omega, q3, fun _ => ?_⟩
        by_cases he : bisect p l fuel first (len / 2) < first + len / 2
        · exact q4 he
        · have : bisect p l fuel first (len / 2) = first + len / 2 := by omega
          rw [this]
          exact ⟨_, hs, by simpa using hp⟩

/-- `std::lower_bound` on numbers in any order: the number before the result is smaller, the one at the result is not. -/
theorem lowerBound_edges (l : List ℝ) (x : ℝ) : (∀ a, 0 < lowerBound l x → l[lowerBound l x - 1]? = some a → a < x) ∧
    ∀ a, l[lowerBound l x]? = some a → x ≤ a := by
  obtain ⟨_, h2, h3, h4⟩ := bisect_edges (fun a => decide (a < x)) l (l.length - 0) 0 (l.length - 0) le_rfl (by omega)
  unfold lowerBound lowerBoundRange
  refine ⟨fun a h ha => ?_, fun a ha => ?_⟩
  · obtain ⟨b, hb, hp⟩ := h3 h
    rw [ha] at hb
    cases hb
    simpa using hp
  · obtain ⟨b, hb, hp⟩ := h4 (by have := lt_length_of_some ha; omega)
    rw [ha] at hb
    cases hb
    simpa using hp

/-- The weight of the upper table is in `[0, 1]`, also when the energies are in no order. -/
theorem weight_unit {l : List ℝ} {x e0 e1 f : ℝ} (h0 : lowerBound l x ≠ 0) (g0 : l[lowerBound l x - 1]? = some e0) (g1 : l[lowerBound l x - 1 + 1]? = some e1)
    (hf : rdiv (x - e0) (e1 - e0) = .ok f) : 0 ≤ f ∧ f ≤ 1 := by
  obtain ⟨k1, k2⟩ := lowerBound_edges l x
  have a := k1 e0 (by omega) g0
  have b := k2 e1 (by rw [← g1]; congr 1; omega)
  rcases rdiv_cases (x - e0) (e1 - e0) with e | e <;> rw [e] at hf <;> cases hf
  exact ⟨div_nonneg (by linarith) (by linarith), div_le_one_of_le₀ (by linarith) (by linarith)⟩

theorem bracketIn_unit {grid : List ℝ} {E : ℝ} {l : Nat} {f : ℝ} (h : bracketIn grid E = .ok (l, f)) : 0 ≤ f ∧ f ≤ 1 := by
  unfold bracketIn at h
  dsimp only at h
  by_cases h0 : lowerBound grid E = 0
  · rw [if_pos h0] at h; cases h; norm_num
  rw [if_neg h0] at h
  by_cases h1 : lowerBound grid E = grid.length
  · rw [if_pos h1] at h
    obtain ⟨i, _, h⟩ := bind_ok h
    cases h; norm_num
  rw [if_neg h1] at h
  rw [subIdx_of_le (by omega)] at h
  simp only [bind, Except.bind] at h
  obtain ⟨e0, g0, h⟩ := bind_ok h
  obtain ⟨e1, g1, h⟩ := bind_ok h
  obtain ⟨f', hf, h⟩ := bind_ok h
  cases h
  exact weight_unit h0 (getAt_eq_ok.mp g0) (getAt_eq_ok.mp g1) hf

theorem mix_nonneg {f p q : ℝ} (f0 : 0 ≤ f) (f1 : f ≤ 1) (hp : 0 ≤ p) (hq : 0 ≤ q) : 0 ≤ (1 - f) * p + f * q :=
  add_nonneg (mul_nonneg (by linarith) hp) (mul_nonneg f0 hq)

theorem rdiv_nonneg {a b c : ℝ} (ha : 0 ≤ a) (hb : 0 ≤ b) (h : rdiv a b = .ok c) : 0 ≤ c := by
  rcases rdiv_cases a b with e | e <;> rw [e] at h <;> cases h
  exact div_nonneg ha hb

theorem csqrt_nonneg {a c : ℝ} (h : csqrt a = .ok c) : 0 ≤ c ∧ 0 ≤ a := by
  rcases lt_or_ge a 0 with ha | ha
  · rw [csqrt_bad ha] at h; cases h
  · rw [csqrt_ok ha] at h; cases h
    exact ⟨Real.sqrt_nonneg _, ha⟩

theorem step_nonneg {b : List ℝ} (hs : b.Pairwise (· ≤ ·)) {i : Nat} {lo hi : ℝ} (h1 : getAt b i = .ok lo) (h2 : getAt b (i + 1) = .ok hi) : 0 ≤ hi - lo := by
  have := pairwise_le_getElem? hs (Nat.le_succ i) (getAt_eq_ok.mp h1) (getAt_eq_ok.mp h2)
  linarith

/-! ### Cosines -/

theorem binsPdf_nonneg {b : List ℝ} (hs : b.Pairwise (· ≤ ·)) {mu v : ℝ} (h : binsPdf b mu = .ok v) : 0 ≤ v := by
  unfold binsPdf at h
  obtain ⟨b0, _, h⟩ := bind_ok h
  obtain ⟨b1, _, h⟩ := bind_ok h
  split at h
  · cases h; exact le_rfl
  obtain ⟨i, _, h⟩ := bind_ok h
  obtain ⟨lo, h1, h⟩ := bind_ok h
  obtain ⟨hi, h2, h⟩ := bind_ok h
  exact rdiv_nonneg (by norm_num) (step_nonneg hs h1 h2) h

theorem pdfAt_nonneg {t : PCTable} (hv : ValidPC t) {x v : ℝ} (h : t.pdfAt x = .ok v) : 0 ≤ v := by
  obtain ⟨p, hp, h0, _⟩ := C34_pdf t hv x
  rw [hp] at h; cases h; exact h0

theorem anglePdf_nonneg {d : AngleDist} (hw : WFAngle d) {E mu v : ℝ} (h : d.pdf E mu = .ok v) : 0 ≤ v := by
  have one : ∀ law ∈ d.laws, ∀ v, law.pdf mu = .ok v → 0 ≤ v := by
    intro law hl v hv
    cases law with
    | isotropic =>
      cases hv
      unfold isoPdf
      split_ifs <;> norm_num
    | bins b => exact binsPdf_nonneg (hw.order b hl) hv
    | table t => exact pdfAt_nonneg (hw.table t hl) hv
    | legendre s => exact absurd hl (hw.legendre s)
  unfold AngleDist.pdf at h
  obtain ⟨r, hr, h⟩ := bind_ok h
  unfold AngleDist.find at hr
  dsimp only at hr
  by_cases h0 : lowerBound d.energy E = 0
  · rw [if_pos h0] at hr
    obtain ⟨l, hl, hr⟩ := bind_ok hr
    cases hr
    exact one l (List.mem_of_getElem? (front_eq_ok.mp hl)) v h
  rw [if_neg h0] at hr
  by_cases h1 : lowerBound d.energy E = d.energy.length
  · rw [if_pos h1] at hr
    obtain ⟨l, hl, hr⟩ := bind_ok hr
    cases hr
    exact one l (List.mem_of_getLast? (back_eq_ok.mp hl)) v h
  rw [if_neg h1, subIdx_of_le (by omega)] at hr
  simp only [bind, Except.bind] at hr
  obtain ⟨e0, g0, hr⟩ := bind_ok hr
  obtain ⟨e1, g1, hr⟩ := bind_ok hr
  obtain ⟨f, hf, hr⟩ := bind_ok hr
  obtain ⟨a, ha, hr⟩ := bind_ok hr
  obtain ⟨b, hb, hr⟩ := bind_ok hr
  cases hr
  obtain ⟨f0, f1⟩ := weight_unit h0 (getAt_eq_ok.mp g0) (getAt_eq_ok.mp g1) hf
  dsimp only at h
  obtain ⟨p, hp, h⟩ := bind_ok h
  obtain ⟨q, hq, h⟩ := bind_ok h
  cases h
  exact mix_nonneg f0 f1 (one a (List.mem_of_getElem? (getAt_eq_ok.mp ha)) p hp) (one b (List.mem_of_getElem? (getAt_eq_ok.mp hb)) q hq)

/-! ### Energies -/

theorem pdfBins_nonneg {b : List ℝ} (hs : b.Pairwise (· ≤ ·)) {x v : ℝ} (h : pdfBins b x = .ok v) : 0 ≤ v := by
  unfold pdfBins at h
  obtain ⟨b0, _, h⟩ := bind_ok h
  obtain ⟨b1, _, h⟩ := bind_ok h
  split at h
  · cases h; exact le_rfl
  obtain ⟨i, _, h⟩ := bind_ok h
  obtain ⟨lo, h1, h⟩ := bind_ok h
  obtain ⟨hi, h2, h⟩ := bind_ok h
  obtain ⟨p, hp, h⟩ := bind_ok h
  exact rdiv_nonneg (rdiv_nonneg zero_le_one (Nat.cast_nonneg _) hp) (step_nonneg hs h1 h2) h

theorem binsEnergy_nonneg {d : EnergyBins} (hw : WFELaw (.bins d)) {E x v : ℝ} (h : d.pdfAt E x = .ok v) : 0 ≤ v := by
  obtain ⟨_, _, hb⟩ := hw
  unfold EnergyBins.pdfAt at h
  dsimp only at h
  by_cases h0 : lowerBound d.energy E = 0
  · rw [if_pos h0] at h
    obtain ⟨l, hl, h⟩ := bind_ok h
    exact pdfBins_nonneg (hb l (List.mem_of_getElem? (front_eq_ok.mp hl))) h
  rw [if_neg h0] at h
  by_cases h1 : lowerBound d.energy E = d.energy.length
  · rw [if_pos h1] at h
    obtain ⟨l, hl, h⟩ := bind_ok h
    exact pdfBins_nonneg (hb l (List.mem_of_getLast? (back_eq_ok.mp hl))) h
  rw [if_neg h1, subIdx_of_le (by omega)] at h
  simp only [bind, Except.bind] at h
  obtain ⟨e0, g0, h⟩ := bind_ok h
  obtain ⟨e1, g1, h⟩ := bind_ok h
  obtain ⟨f, hf, h⟩ := bind_ok h
  obtain ⟨a, ha, h⟩ := bind_ok h
  obtain ⟨p, hp, h⟩ := bind_ok h
  obtain ⟨b, hb', h⟩ := bind_ok h
  obtain ⟨q, hq, h⟩ := bind_ok h
  cases h
  obtain ⟨f0, f1⟩ := weight_unit h0 (getAt_eq_ok.mp g0) (getAt_eq_ok.mp g1) hf
  exact mix_nonneg f0 f1 (pdfBins_nonneg (hb a (List.mem_of_getElem? (getAt_eq_ok.mp ha))) hp)
    (pdfBins_nonneg (hb b (List.mem_of_getElem? (getAt_eq_ok.mp hb'))) hq)

theorem tabEnergy_nonneg {d : TabEnergy} (hv : ∀ t ∈ d.tables, ValidPC t) {E x v : ℝ} (h : d.pdfAt E x = .ok v) : 0 ≤ v := by
  unfold TabEnergy.pdfAt at h
  obtain ⟨⟨l, f⟩, hb, h⟩ := bind_ok h
  obtain ⟨f0, f1⟩ := bracketIn_unit hb
  dsimp only at h
  obtain ⟨t0, h0, h⟩ := bind_ok h
  obtain ⟨t1, h1, h⟩ := bind_ok h
  obtain ⟨mn0, _, h⟩ := bind_ok h
  obtain ⟨mx0, _, h⟩ := bind_ok h
  obtain ⟨mn1, _, h⟩ := bind_ok h
  obtain ⟨mx1, _, h⟩ := bind_ok h
  obtain ⟨u, _, h⟩ := bind_ok h
  obtain ⟨p0, hp0, h⟩ := bind_ok h
  obtain ⟨p1, hp1, h⟩ := bind_ok h
  cases h
  exact mix_nonneg f0 f1 (pdfAt_nonneg (hv t0 (List.mem_of_getElem? (getAt_eq_ok.mp h0))) hp0) (pdfAt_nonneg (hv t1 (List.mem_of_getElem? (getAt_eq_ok.mp h1))) hp1)

theorem genEvap_nonneg {t : Tab1D} {b : List ℝ} (hs : b.Pairwise (· ≤ ·)) {E x v : ℝ} (hT : ∀ T, t.eval E = .ok T → 0 ≤ T)
    (h : genEvapPdf t b E x = .ok v) : 0 ≤ v := by
  unfold genEvapPdf at h
  obtain ⟨T, ht, h⟩ := bind_ok h
  obtain ⟨c, _, h⟩ := bind_ok h
  obtain ⟨b0, _, h⟩ := bind_ok h
  obtain ⟨b1, _, h⟩ := bind_ok h
  split at h
  · cases h; exact le_rfl
  obtain ⟨i, _, h⟩ := bind_ok h
  obtain ⟨lo, h1, h⟩ := bind_ok h
  obtain ⟨hi, h2, h⟩ := bind_ok h
  obtain ⟨p, hp, h⟩ := bind_ok h
  exact rdiv_nonneg (rdiv_nonneg zero_le_one (Nat.cast_nonneg _) hp) (mul_nonneg (step_nonneg hs h1 h2) (hT T ht)) h

theorem evap_nonneg {t : Tab1D} {U E x v : ℝ} (h : evapPdf t U E x = .ok v) : 0 ≤ v := by
  unfold evapPdf at h
  dsimp only at h
  split at h
  · cases h; exact le_rfl
  rename_i hx
  rw [not_or, not_lt] at hx
  obtain ⟨T, _, h⟩ := bind_ok h
  obtain ⟨q, _, h⟩ := bind_ok h
  obtain ⟨r, hr, h⟩ := bind_ok h
  obtain ⟨y, _, h⟩ := bind_ok h
  cases h
  refine mul_nonneg (rdiv_nonneg hx.1 (mul_nonneg (mul_self_nonneg T) ?_) hr) (Real.exp_pos _).le
  have h1 := Real.add_one_le_exp q
  have h2 : Real.exp (-q) * Real.exp q = 1 := by rw [← Real.exp_add]; simp
  have h3 := Real.exp_pos (-q)
  nlinarith [mul_le_mul_of_nonneg_left h1 h3.le]

/-- A power with a half-integer exponent has no value at negative arguments. -/
theorem cpow_half {b e c : ℝ} (he : ∀ k : ℤ, (k : ℝ) ≠ e) (h : cpow b e = .ok c) : 0 ≤ b ∧ 0 ≤ c := by
  unfold cpow at h
  by_cases hb : 0 < b
  · rw [if_pos hb] at h; cases h
    exact ⟨hb.le, (Real.rpow_pos_of_pos hb _).le⟩
  rw [if_neg hb] at h
  by_cases hb0 : b = 0
  · rw [if_pos hb0] at h
    refine ⟨hb0.ge, ?_⟩
    split_ifs at h <;> cases h <;> norm_num
  rw [if_neg hb0, if_neg (he _)] at h
  cases h

theorem half_ne (n : ℤ) (k : ℤ) : (k : ℝ) ≠ (2 * n + 1 : ℤ) / 2 := by
  intro h
  have : (2 * k : ℤ) = 2 * n + 1 := by
    have h2 : (2 : ℝ) * k = ((2 * n + 1 : ℤ) : ℝ) := by rw [h]; ring
    exact_mod_cast h2
  omega

theorem maxwell_nonneg {t : Tab1D} {U E x v : ℝ} (hT : ∀ T, t.eval E = .ok T → T ≤ E - U) (h : maxwellPdf t U E x = .ok v) : 0 ≤ v := by
  unfold maxwellPdf at h
  dsimp only at h
  split at h
  · cases h; exact le_rfl
  rename_i hx
  rw [not_or, not_lt, not_lt] at hx
  obtain ⟨T, ht, h⟩ := bind_ok h
  obtain ⟨p, hp, h⟩ := bind_ok h
  obtain ⟨q, hq, h⟩ := bind_ok h
  obtain ⟨s, hs, h⟩ := bind_ok h
  obtain ⟨so, hso, h⟩ := bind_ok h
  obtain ⟨r, hr, h⟩ := bind_ok h
  obtain ⟨y, hy, h⟩ := bind_ok h
  cases h
  obtain ⟨hT0, hp0⟩ := cpow_half (fun k => by have := half_ne 1 k; push_cast at this; norm_num at this ⊢; exact this) hp
  have hTpos : 0 < T := by
    rcases hT0.lt_or_eq with h | h
    · exact h
    · rw [← h, rdiv_zero] at hq; cases hq
  have hle := hT T ht
  rw [rdiv_ok hTpos.ne'] at hq
  have hq' := Except.ok.inj hq
  have hq1 : 1 ≤ q := by rw [← hq', le_div_iff₀ hTpos]; linarith
  rw [csqrt_ok (by linarith)] at hs
  have hs' := Except.ok.inj hs
  refine mul_nonneg (rdiv_nonneg (csqrt_nonneg hso).1 (mul_nonneg hp0 ?_) hr) (Real.exp_pos _).le
  rw [← hs']
  have hsq : Real.sqrt q ≤ q := by
    rw [Real.sqrt_le_left (by linarith)]
    nlinarith
  have hm : erf (Real.sqrt q) ≤ erf q := erf_strictMono.monotone hsq
  have hsq0 := Real.sqrt_nonneg q
  have hgauss : Real.sqrt q * Real.exp (-q) ≤ Real.sqrt Real.pi / 2 * erf (Real.sqrt q) := by
    have hpi : 0 < Real.sqrt Real.pi := Real.sqrt_pos.mpr Real.pi_pos
    have e : Real.sqrt Real.pi / 2 * erf (Real.sqrt q) = ∫ t in (0 : ℝ)..Real.sqrt q, Real.exp (-t ^ 2) := by
      unfold erf; field_simp
    rw [e]
    have hle : ∫ _ in (0 : ℝ)..Real.sqrt q, Real.exp (-q) ≤ ∫ t in (0 : ℝ)..Real.sqrt q, Real.exp (-t ^ 2) := by
      apply intervalIntegral.integral_mono_on hsq0 (continuous_const.intervalIntegrable _ _) (gauss_continuous.intervalIntegrable _ _)
      intro t ht
      apply Real.exp_le_exp.mpr
      have : t ^ 2 ≤ Real.sqrt q ^ 2 := pow_le_pow_left₀ ht.1 ht.2 2
      rw [Real.sq_sqrt (by linarith)] at this
      linarith
    rw [intervalIntegral.integral_const, smul_eq_mul, sub_zero] at hle
    exact hle
  have hpi : 0 ≤ Real.sqrt Real.pi / 2 := by positivity
  have := mul_le_mul_of_nonneg_left hm hpi
  linarith

theorem watt_nonneg {ta tb : Tab1D} {U E x v : ℝ} (h : wattPdf ta tb U E x = .ok v) : 0 ≤ v := by
  by_cases hx : x < 0 ∨ x > E - U
  · unfold wattPdf at h
    dsimp only at h
    rw [if_pos hx] at h; cases h; exact le_rfl
  have h' := h
  unfold wattPdf at h
  dsimp only at h
  rw [if_neg hx] at h
  rw [not_or, not_lt, not_lt] at hx
  obtain ⟨a, ha, h⟩ := bind_ok h
  obtain ⟨b, hb, h⟩ := bind_ok h
  obtain ⟨s0, hs0, h⟩ := bind_ok h
  obtain ⟨q, hq, h⟩ := bind_ok h
  obtain ⟨s1, hs1, h⟩ := bind_ok h
  obtain ⟨s2, hs2, h⟩ := bind_ok h
  obtain ⟨s3, hs3, h⟩ := bind_ok h
  obtain ⟨y, hy, h⟩ := bind_ok h
  obtain ⟨r, hr, h⟩ := bind_ok h
  obtain ⟨s4, hs4, h⟩ := bind_ok h
  have hdu : 0 ≤ E - U := le_trans hx.1 hx.2
  have ha0 : a ≠ 0 := by rintro rfl; rw [rdiv_zero] at hq; cases hq
  rw [rdiv_ok ha0] at hq
  have hq' := Except.ok.inj hq
  have hq0 := (csqrt_nonneg hs1).2
  have hs1' : s1 = Real.sqrt q := by rw [csqrt_ok hq0] at hs1; exact (Except.ok.inj hs1).symm
  have hs3' : s3 = Real.sqrt (b * (E - U)) := by rw [csqrt_ok (csqrt_nonneg hs3).2] at hs3; exact (Except.ok.inj hs3).symm
  -- at the restriction energy, or without a second parameter, the normalisation is zero
  have zero : ∀ I : ℝ, I = 0 → ∀ e : ℝ, rdiv e I = .ok r → False := fun I hI e he => by rw [hI, rdiv_zero] at he; cases he
  rcases hdu.lt_or_eq with hpos | hz
  · have hap : 0 < a := by
      rcases lt_or_gt_of_ne ha0 with hn | hp
      · rw [← hq'] at hq0
        exact absurd hq0 (not_le.mpr (div_neg_of_pos_of_neg hpos hn))
      · exact hp
    have hbn : 0 ≤ b := by
      by_contra hn
      have := (csqrt_nonneg hs3).2
      exact absurd this (not_le.mpr (mul_neg_of_neg_of_pos (not_le.mp hn) hpos))
    rcases hbn.lt_or_eq with hbp | hbz
    · obtain ⟨I, hI, _, hval⟩ := wattPdf_eq ta tb U E a b ha hb hap hbp (by linarith)
      rw [hval x hx.1 hx.2] at h'
      rw [← Except.ok.inj h']
      exact mul_nonneg (div_nonneg (Real.exp_pos _).le hI.le) (Real.sinh_nonneg_iff.mpr (Real.sqrt_nonneg _))
    · exfalso
      have e0 : s0 = 0 := by rw [← hbz, csqrt_ok (by simp)] at hs0; rw [← Except.ok.inj hs0]; simp
      exact zero _ (by rw [e0, hs3', ← hbz]; simp) _ hr
  · exfalso
    have hs1z : s1 = 0 := by rw [hs1', ← hq', ← hz]; simp
    exact zero _ (by rw [hs1z, hs3', ← hz]; simp [erf_neg]) _ hr

theorem elawPdf_nonneg {l : ELaw} {E x v : ℝ} (hw : WFELaw l) (hp : PosELaw E l) (h : l.pdf E x = .ok (some v)) : 0 ≤ v := by
  have some' : ∀ {r : Res ℝ}, r.map some = .ok (some v) → r = .ok v := by
    intro r hr
    cases r with
    | error e => cases hr
    | ok a => have := Option.some.inj (Except.ok.inj hr); rw [this]
  cases l with
  | bins d => exact binsEnergy_nonneg hw (some' h)
  | photon p => cases h
  | level l => cases h
  | tabular d => exact tabEnergy_nonneg hw.2 (some' h)
  | genEvap t b => exact genEvap_nonneg hw.2 hp (some' h)
  | maxwell t u => exact maxwell_nonneg hp (some' h)
  | evap t u => exact evap_nonneg (some' h)
  | watt a b u => exact watt_nonneg (some' h)

/-! ### Correlated laws -/

theorem joint_nonneg {energy pdf : List ℝ} {r : Interpolation} {node : Nat → Res ℝ} {E v : ℝ} (hn : ∀ l m, node l = .ok m → 0 ≤ m)
    (hp : ∀ p ∈ pdf, 0 ≤ p) (h : jointPdf energy pdf r node E = .ok v) : 0 ≤ v := by
  have pos : ∀ {l p}, getAt pdf l = .ok p → 0 ≤ p := fun h => hp _ (List.mem_of_getElem? (getAt_eq_ok.mp h))
  obtain ⟨k1, k2⟩ := lowerBound_edges energy E
  unfold jointPdf at h
  dsimp only at h
  split at h
  · cases h; exact le_rfl
  obtain ⟨e0, _, h⟩ := bind_ok h
  split at h
  · cases h; exact le_rfl
  obtain ⟨e, he, h⟩ := bind_ok h
  have hE := k2 e (getAt_eq_ok.mp he)
  obtain ⟨l, hl, h⟩ := bind_ok h
  split at h
  · obtain ⟨m, hm, h⟩ := bind_ok h
    obtain ⟨p, hp', h⟩ := bind_ok h
    cases h
    exact mul_nonneg (hn _ _ hm) (pos hp')
  · obtain ⟨el, hel, h⟩ := bind_ok h
    obtain ⟨er, her, h⟩ := bind_ok h
    obtain ⟨f, hf, h⟩ := bind_ok h
    obtain ⟨m1, hm1, h⟩ := bind_ok h
    obtain ⟨p1, hp1, h⟩ := bind_ok h
    obtain ⟨m0, hm0, h⟩ := bind_ok h
    obtain ⟨p0, hp0, h⟩ := bind_ok h
    cases h
    have hf01 : 0 ≤ f ∧ f ≤ 1 := by
      by_cases hEe : E ≠ e
      · rw [if_pos hEe] at hl
        by_cases hz : lowerBound energy E = 0
        · unfold subIdx at hl
          rw [hz, if_neg (by omega)] at hl
          cases hl
        · rw [subIdx_of_le (by omega)] at hl
          cases hl
          exact weight_unit hz (getAt_eq_ok.mp hel) (getAt_eq_ok.mp her) hf
      · rw [if_neg hEe] at hl
        cases hl
        rw [he] at hel
        cases hel
        rw [not_not.mp hEe, sub_self] at hf
        rcases rdiv_cases 0 (er - e) with e' | e' <;> rw [e'] at hf <;> cases hf
        norm_num
    have a1 := mul_nonneg (mul_nonneg hf01.1 (hn _ _ hm1)) (pos hp1)
    have a2 := mul_nonneg (mul_nonneg (sub_nonneg.mpr hf01.2) (hn _ _ hm0)) (pos hp0)
    linarith

theorem foldlM_nonneg {g : Nat → Res ℝ} : ∀ (l : List Nat) (s v : ℝ), (∀ i ∈ l, ∀ x, g i = .ok x → 0 ≤ x) → 0 ≤ s →
    l.foldlM (fun s i => do let x ← g i; return s + x : ℝ → Nat → Res ℝ) s = .ok v → 0 ≤ v := by
  intro l
  induction l with
  | nil => intro s v _ hs h; cases h; exact hs
  | cons i l ih =>
    intro s v hg hs h
    rw [List.foldlM_cons] at h
    obtain ⟨s', h1, h2⟩ := bind_ok h
    obtain ⟨x, hx, h1⟩ := bind_ok h1
    cases h1
    exact ih _ _ (fun j hj => hg j (by simp [hj])) (add_nonneg hs (hg i (by simp) x hx)) h2

theorem marginal_nonneg {energy pdf : List ℝ} {r : Interpolation} {node : Nat → Res ℝ} {v : ℝ} (hs : energy.Pairwise (· ≤ ·))
    (hn : ∀ l m, node l = .ok m → 0 ≤ m) (hp : ∀ p ∈ pdf, 0 ≤ p) (h : marginalPdf energy pdf r node = .ok v) : 0 ≤ v := by
  have pos : ∀ {l p}, getAt pdf l = .ok p → 0 ≤ p := fun h => hp _ (List.mem_of_getElem? (getAt_eq_ok.mp h))
  unfold marginalPdf at h
  obtain ⟨n, _, h⟩ := bind_ok h
  refine foldlM_nonneg _ _ _ ?_ le_rfl h
  intro i _ x hx
  unfold marginalTerm at hx
  obtain ⟨e1, h1, hx⟩ := bind_ok hx
  obtain ⟨e0, h0, hx⟩ := bind_ok hx
  obtain ⟨m0, hm0, hx⟩ := bind_ok hx
  obtain ⟨p0, hp0, hx⟩ := bind_ok hx
  have hd := step_nonneg hs h0 h1
  split at hx
  · cases hx
    exact mul_nonneg (mul_nonneg (hn _ _ hm0) (pos hp0)) hd
  · obtain ⟨m1, hm1, hx⟩ := bind_ok hx
    obtain ⟨p1, hp1, hx⟩ := bind_ok hx
    cases hx
    exact mul_nonneg (mul_nonneg (by norm_num) hd) (add_nonneg (mul_nonneg (hn _ _ hm0) (pos hp0)) (mul_nonneg (hn _ _ hm1) (pos hp1)))

theorem kalbachNode_nonneg {t : KalbachTable} (hR : ∀ r ∈ t.R, |r| ≤ 1) {mu : ℝ} (l : Nat) (m : ℝ) (h : t.node mu l = .ok m) : 0 ≤ m := by
  unfold KalbachTable.node at h
  obtain ⟨a, _, h⟩ := bind_ok h
  obtain ⟨r, hr, h⟩ := bind_ok h
  have hr1 := hR r (List.mem_of_getElem? (getAt_eq_ok.mp hr))
  by_cases ha : a = 0
  · rw [ha, C64_violation_zero_slope] at h; cases h
  · obtain ⟨p, hp, h0⟩ := C64_nonneg mu a r ha hr1
    rw [hp] at h; cases h; exact h0

theorem eaNode_nonneg {t : EATable} (hv : ValidEA t) {mu : ℝ} (l : Nat) (m : ℝ) (h : t.node mu l = .ok m) : 0 ≤ m := by
  unfold EATable.node at h
  obtain ⟨a, ha, h⟩ := bind_ok h
  exact pdfAt_nonneg (hv.angles a (List.mem_of_getElem? (getAt_eq_ok.mp ha))) h

theorem kalbachPdf_nonneg {d : Kalbach} (hw : WFLaw (.kalbach d)) {E mu x v : ℝ} (hp : PosLaw E (.kalbach d)) :
    (d.pdfAt E mu x = .ok v → 0 ≤ v) ∧ (d.anglePdf E mu = .ok v → 0 ≤ v) := by
  obtain ⟨_, hv, _⟩ := hw
  have tab : ∀ {l t}, getAt d.tables l = .ok t → t ∈ d.tables := fun h => List.mem_of_getElem? (getAt_eq_ok.mp h)
  constructor
  · intro h
    unfold Kalbach.pdfAt at h
    obtain ⟨⟨l, f⟩, hb, h⟩ := bind_ok h
    obtain ⟨f0, f1⟩ := bracketIn_unit hb
    dsimp only at h
    obtain ⟨t0, h0, h⟩ := bind_ok h
    obtain ⟨t1, h1, h⟩ := bind_ok h
    obtain ⟨p, _, h⟩ := bind_ok h
    obtain ⟨u, _, h⟩ := bind_ok h
    obtain ⟨p0, hp0, h⟩ := bind_ok h
    obtain ⟨p1, hp1, h⟩ := bind_ok h
    cases h
    exact mix_nonneg f0 f1 (joint_nonneg (kalbachNode_nonneg (hp t0 (tab h0))) (hv t0 (tab h0)).pc.pdf_nonneg hp0)
      (joint_nonneg (kalbachNode_nonneg (hp t1 (tab h1))) (hv t1 (tab h1)).pc.pdf_nonneg hp1)
  · intro h
    unfold Kalbach.anglePdf at h
    obtain ⟨⟨l, f⟩, hb, h⟩ := bind_ok h
    obtain ⟨f0, f1⟩ := bracketIn_unit hb
    dsimp only at h
    obtain ⟨t0, h0, h⟩ := bind_ok h
    obtain ⟨t1, h1, h⟩ := bind_ok h
    obtain ⟨p0, hp0, h⟩ := bind_ok h
    obtain ⟨p1, hp1, h⟩ := bind_ok h
    cases h
    exact mix_nonneg f0 f1 (marginal_nonneg (hv t0 (tab h0)).pc.values_sorted (kalbachNode_nonneg (hp t0 (tab h0))) (hv t0 (tab h0)).pc.pdf_nonneg hp0)
      (marginal_nonneg (hv t1 (tab h1)).pc.values_sorted (kalbachNode_nonneg (hp t1 (tab h1))) (hv t1 (tab h1)).pc.pdf_nonneg hp1)

theorem eaPdf_nonneg {d : TabEnergyAngle} (hw : WFLaw (.tabEnergyAngle d)) {E mu x v : ℝ} :
    (d.pdfAt E mu x = .ok v → 0 ≤ v) ∧ (d.anglePdf E mu = .ok v → 0 ≤ v) := by
  obtain ⟨_, hv, _⟩ := hw
  have tab : ∀ {l t}, getAt d.tables l = .ok t → t ∈ d.tables := fun h => List.mem_of_getElem? (getAt_eq_ok.mp h)
  constructor
  · intro h
    unfold TabEnergyAngle.pdfAt at h
    obtain ⟨⟨l, f⟩, hb, h⟩ := bind_ok h
    obtain ⟨f0, f1⟩ := bracketIn_unit hb
    dsimp only at h
    obtain ⟨t0, h0, h⟩ := bind_ok h
    obtain ⟨t1, h1, h⟩ := bind_ok h
    obtain ⟨p, _, h⟩ := bind_ok h
    obtain ⟨u, _, h⟩ := bind_ok h
    obtain ⟨p0, hp0, h⟩ := bind_ok h
    obtain ⟨p1, hp1, h⟩ := bind_ok h
    cases h
    exact mix_nonneg f0 f1 (joint_nonneg (eaNode_nonneg (hv t0 (tab h0))) (hv t0 (tab h0)).pc.pdf_nonneg hp0)
      (joint_nonneg (eaNode_nonneg (hv t1 (tab h1))) (hv t1 (tab h1)).pc.pdf_nonneg hp1)
  · intro h
    unfold TabEnergyAngle.anglePdf at h
    obtain ⟨⟨l, f⟩, hb, h⟩ := bind_ok h
    obtain ⟨f0, f1⟩ := bracketIn_unit hb
    dsimp only at h
    obtain ⟨t0, h0, h⟩ := bind_ok h
    obtain ⟨t1, h1, h⟩ := bind_ok h
    obtain ⟨p0, hp0, h⟩ := bind_ok h
    obtain ⟨p1, hp1, h⟩ := bind_ok h
    cases h
    exact mix_nonneg f0 f1 (marginal_nonneg (hv t0 (tab h0)).pc.values_sorted (eaNode_nonneg (hv t0 (tab h0))) (hv t0 (tab h0)).pc.pdf_nonneg hp0)
      (marginal_nonneg (hv t1 (tab h1)).pc.values_sorted (eaNode_nonneg (hv t1 (tab h1))) (hv t1 (tab h1)).pc.pdf_nonneg hp1)

/-- A power with the exponent 2 is not negative, also of a negative number. -/
theorem cpow_two {b c : ℝ} (h : cpow b 2 = .ok c) : 0 ≤ c := by
  unfold cpow at h
  by_cases hb : 0 < b
  · rw [if_pos hb] at h; cases h
    exact (Real.rpow_pos_of_pos hb _).le
  rw [if_neg hb] at h
  by_cases hb0 : b = 0
  · rw [if_pos hb0] at h
    split_ifs at h <;> cases h <;> norm_num
  · rw [if_neg hb0] at h
    have hf : ⌊(2 : ℝ)⌋ = 2 := by norm_num
    rw [hf, if_pos (by norm_num)] at h
    cases h
    exact (even_two (α := ℤ)).zpow_nonneg b

theorem cpow_ofNonneg {b e c : ℝ} (hb : 0 ≤ b) (h : cpow b e = .ok c) : 0 ≤ c := by
  unfold cpow at h
  by_cases hp : 0 < b
  · rw [if_pos hp] at h; cases h
    exact (Real.rpow_pos_of_pos hp _).le
  rw [if_neg hp, if_pos (le_antisymm (not_lt.mp hp) hb)] at h
  split_ifs at h <;> cases h <;> norm_num

theorem half_seven (k : ℤ) : (k : ℝ) ≠ 7 / 2 := by
  have := half_ne 3 k
  push_cast at this
  norm_num at this ⊢
  exact this

theorem nbodyPdf_nonneg {d : NBody} {E x v : ℝ} (h : d.pdf E x = .ok v) : 0 ≤ v := by
  unfold NBody.pdf at h
  dsimp only at h
  obtain ⟨C, hC, h⟩ := bind_ok h
  obtain ⟨s, hs, h⟩ := bind_ok h
  obtain ⟨p, hp, h⟩ := bind_ok h
  cases h
  obtain ⟨hs0, hx⟩ := csqrt_nonneg hs
  by_cases h3 : d.n = 3
  · rw [if_pos h3] at hC
    rw [h3] at hp
    have hC0 : 0 ≤ C := rdiv_nonneg (by norm_num) (by rw [mul_assoc]; exact mul_nonneg Real.pi_pos.le (mul_self_nonneg _)) hC
    have hp0 := (cpow_half (fun k => by have := half_ne 0 k; push_cast at this; norm_num at this ⊢; exact this) hp).2
    exact mul_nonneg (mul_nonneg hC0 hs0) hp0
  rw [if_neg h3] at hC
  by_cases h4 : d.n = 4
  · rw [if_pos h4] at hC
    rw [h4] at hp
    obtain ⟨q, hq, hC⟩ := bind_ok hC
    have hC0 : 0 ≤ C := rdiv_nonneg (by norm_num) (mul_nonneg (by norm_num) (cpow_half half_seven hq).2) hC
    have hp0 : 0 ≤ p := cpow_two (b := d.emax E - x) (by norm_num at hp; exact hp)
    exact mul_nonneg (mul_nonneg hC0 hs0) hp0
  rw [if_neg h4] at hC
  by_cases h5 : d.n = 5
  · rw [if_pos h5] at hC
    rw [h5] at hp
    obtain ⟨q, hq, hC⟩ := bind_ok hC
    obtain ⟨hd, hp0⟩ := cpow_half (fun k => by have := half_seven k; norm_num at this ⊢; exact this) hp
    have hC0 : 0 ≤ C := rdiv_nonneg (by norm_num) (mul_nonneg (mul_nonneg (by norm_num) Real.pi_pos.le) (cpow_ofNonneg (by linarith) hq)) hC
    exact mul_nonneg (mul_nonneg hC0 hs0) hp0
  rw [if_neg h5] at hC
  cases hC
  simp

/-! ### Laws, mixtures, reactions -/

theorem map_some {r : Res ℝ} {v : ℝ} (hr : r.map some = .ok (some v)) : r = .ok v := by
  cases r with
  | error e => cases hr
  | ok a => have := Option.some.inj (Except.ok.inj hr); rw [this]

theorem lawPdf_nonneg {l : Law} {fuel : Nat} {E mu x v : ℝ} (hw : WFLaw l) (hp : PosLaw E l) (h : (l.toAE fuel).pdf E mu x = .ok (some v)) : 0 ≤ v := by
  cases l with
  | uncorrelated u =>
    have h : u.pdf E mu x = .ok (some v) := h
    unfold Uncorr.pdf at h
    obtain ⟨o, ho, h⟩ := bind_ok h
    cases o with
    | none => cases h
    | some p =>
      dsimp only at h
      obtain ⟨a, ha, h⟩ := bind_ok h
      rw [← Option.some.inj (Except.ok.inj h)]
      exact mul_nonneg (elawPdf_nonneg hw.2 hp ho) (anglePdf_nonneg hw.1 ha)
  | kalbach d => exact (kalbachPdf_nonneg hw hp).1 (map_some h)
  | tabEnergyAngle d => exact (eaPdf_nonneg hw).1 (map_some h)
  | nbody d => exact nbodyPdf_nonneg (map_some h)

theorem lawAngle_nonneg {l : Law} {fuel : Nat} {E mu v : ℝ} (hw : WFLaw l) (hp : PosLaw E l) (h : (l.toAE fuel).anglePdf E mu = .ok (some v)) : 0 ≤ v := by
  cases l with
  | uncorrelated u => exact anglePdf_nonneg hw.1 (map_some h)
  | kalbach d => exact (kalbachPdf_nonneg (x := 0) hw hp).2 (map_some h)
  | tabEnergyAngle d => exact (eaPdf_nonneg (x := 0) hw).2 (map_some h)
  | nbody d =>
    rw [← Option.some.inj (Except.ok.inj h)]
    norm_num

theorem multiMix_nonneg {E : ℝ} {f : AE → Res (Option ℝ)} {fuel : Nat} : ∀ (ls : List (Law × Tab1D)) (acc v : ℝ),
    (∀ p ∈ ls, ∀ v, f (p.1.toAE fuel) = .ok (some v) → 0 ≤ v) → (∀ p ∈ ls, ∀ w, p.2.eval E = .ok w → 0 ≤ w) → 0 ≤ acc →
    Multi.mix E f (ls.map fun p => p.1.toAE fuel) (ls.map Prod.snd) acc = .ok (some v) → 0 ≤ v := by
  intro ls
  induction ls with
  | nil => intro acc v _ _ ha h; rw [← Option.some.inj (Except.ok.inj h)]; exact ha
  | cons p ls ih =>
    intro acc v hf hw ha h
    simp only [List.map_cons, Multi.mix] at h
    obtain ⟨o, ho, h⟩ := bind_ok h
    cases o with
    | none => cases h
    | some u =>
      dsimp only at h
      obtain ⟨w, hw', h⟩ := bind_ok h
      exact ih _ _ (fun q hq => hf q (by simp [hq])) (fun q hq => hw q (by simp [hq]))
        (add_nonneg ha (mul_nonneg (hw p (by simp) w hw') (hf p (by simp) u ho))) h

theorem angleJacobianQ_nonneg {E A Q mu x j : ℝ} (hg : ∀ g, frameG E A Q = .ok g → g ≤ 1) (h : angleJacobianQ E A Q mu x = .ok j) : 0 ≤ j := by
  unfold angleJacobianQ at h
  obtain ⟨g, h1, h⟩ := bind_ok h
  obtain ⟨s1, hs1, h⟩ := bind_ok h
  obtain ⟨s2, hs2, h⟩ := bind_ok h
  have g1 := hg g h1
  have g0 : 0 ≤ g := by
    unfold frameG at h1
    obtain ⟨_, _, h1⟩ := bind_ok h1
    obtain ⟨_, _, h1⟩ := bind_ok h1
    obtain ⟨_, _, h1⟩ := bind_ok h1
    exact (csqrt_nonneg h1).1
  obtain ⟨p1, q1⟩ := csqrt_nonneg hs1
  obtain ⟨p2, _⟩ := csqrt_nonneg hs2
  have hx : -1 ≤ x := by nlinarith
  refine rdiv_nonneg (mul_nonneg (sq_nonneg _) p1) (mul_nonneg (mul_nonneg (mul_self_nonneg _) ?_) p2) h
  nlinarith

/-- The joint density of a reaction. -/
theorem distPdf_nonneg {fuel : Nat} {E : ℝ} : ∀ (d : NDist), WFDist d → PosDist E d → ∀ mu x v, (d.toAE fuel).pdf E mu x = .ok (some v) → 0 ≤ v
  | .absorption _, _, _, _, _, _, h => by cases h
  | .one _, hw, hp, _, _, _, h => lawPdf_nonneg hw hp h
  | .several ls, hw, hp, _, _, _, h =>
    multiMix_nonneg ls 0 _ (fun p hpm _ hv => lawPdf_nonneg (hw.2 p hpm).1 (hp p hpm).1 hv) (fun p hpm => (hp p hpm).2) le_rfl h
  | .cm awr q d, hw, hp, mu, x, v, h => by
    have h : CMDist.pdf ⟨awr, q, d.toAE fuel⟩ E mu x = .ok (some v) := h
    unfold CMDist.pdf at h
    obtain ⟨⟨m, e⟩, _, h⟩ := bind_ok h
    dsimp only at h
    obtain ⟨o, ho, h⟩ := bind_ok h
    cases o with
    | none => cases h
    | some p =>
      dsimp only at h
      obtain ⟨j, hj, h⟩ := bind_ok h
      rw [← Option.some.inj (Except.ok.inj h)]
      unfold jointJacobian at hj
      obtain ⟨r, _, hj⟩ := bind_ok hj
      exact mul_nonneg (distPdf_nonneg d hw hp _ _ _ ho) (csqrt_nonneg hj).1

/-- The density of the cosine alone. -/
theorem distAngle_nonneg {fuel : Nat} {E : ℝ} : ∀ (d : NDist), WFDist d → PosDist E d → ForwardDist E d → ∀ mu v,
    (d.toAE fuel).anglePdf E mu = .ok (some v) → 0 ≤ v
  | .absorption _, _, _, _, _, _, h => by cases h
  | .one _, hw, hp, _, _, _, h => lawAngle_nonneg hw hp h
  | .several ls, hw, hp, _, _, _, h =>
    multiMix_nonneg ls 0 _ (fun p hpm _ hv => lawAngle_nonneg (hw.2 p hpm).1 (hp p hpm).1 hv) (fun p hpm => (hp p hpm).2) le_rfl h
  | .cm awr q d, hw, hp, hfw, mu, v, h => by
    have part : ∀ o p, CMDist.part ⟨awr, q, d.toAE fuel⟩ E mu o = .ok p → 0 ≤ p := by
      intro o p ho
      cases o with
      | none => cases ho; exact le_rfl
      | some c =>
        unfold CMDist.part at ho
        dsimp only at ho
        obtain ⟨o, ha, ho⟩ := bind_ok ho
        cases o with
        | none => cases ho; exact le_rfl
        | some a =>
          dsimp only at ho
          obtain ⟨j, hj, ho⟩ := bind_ok ho
          cases ho
          exact mul_nonneg (distAngle_nonneg d hw hp hfw.2 _ _ ha) (angleJacobianQ_nonneg hfw.1 hj)
    have h : CMDist.anglePdf ⟨awr, q, d.toAE fuel⟩ E mu = .ok (some v) := h
    unfold CMDist.anglePdf at h
    obtain ⟨⟨a1, a2⟩, _, h⟩ := bind_ok h
    dsimp only at h
    obtain ⟨p1, h1, h⟩ := bind_ok h
    obtain ⟨p2, h2, h⟩ := bind_ok h
    rw [← Option.some.inj (Except.ok.inj h)]
    exact add_nonneg (part _ _ h1) (part _ _ h2)

/-- **C147** For every file and every reaction read from it: the joint density it reports at any incident energy, cosine and outgoing energy is not
negative, provided the data satisfy `PosDist` at that energy. -/
theorem C147_reaction_partial (a : AceBlocks) (indx fuel : Nat) (r : RxnBase) (h : RxnBase.makeAce a indx fuel = .ok r) (E : ℝ) (hp : PosDist E r.dist)
    (fuel' : Nat) (mu x v : ℝ) (hv : (r.dist.toAE fuel').pdf E mu x = .ok (some v)) : 0 ≤ v :=
  distPdf_nonneg r.dist (RxnBase.makeAce_wf h) hp _ _ _ hv

/-- **C147** The same for the density of the cosine; in the centre-of-mass frame the factor `g` must not exceed 1. -/
theorem C147_angle_partial (a : AceBlocks) (indx fuel : Nat) (r : RxnBase) (h : RxnBase.makeAce a indx fuel = .ok r) (E : ℝ) (hp : PosDist E r.dist)
    (hf : ForwardDist E r.dist) (fuel' : Nat) (mu v : ℝ) (hv : (r.dist.toAE fuel').anglePdf E mu = .ok (some v)) : 0 ≤ v :=
  distAngle_nonneg r.dist (RxnBase.makeAce_wf h) hp hf _ _ hv

/-- **C147** Every reaction of a nuclide read from a file. -/
theorem C147_nuclide_partial (fuel : Nat) (f : AceFile) (a : AceIn ℝ) (n : Nuc) (hn : Read fuel f a n) (mt : Nat) (r : STRxn) (hr : n.reaction mt = .ok r)
    (E : ℝ) (hp : PosDist E r.base.dist) (fuel' : Nat) : (∀ mu x v, (r.base.dist.toAE fuel').pdf E mu x = .ok (some v) → 0 ≤ v) ∧
    (ForwardDist E r.base.dist → ∀ mu v, (r.base.dist.toAE fuel').anglePdf E mu = .ok (some v) → 0 ≤ v) := by
  obtain ⟨f', i, _, hb⟩ := hn.base_pos hr
  exact ⟨distPdf_nonneg _ (RxnBase.makeAce_wf hb) hp, distAngle_nonneg _ (RxnBase.makeAce_wf hb) hp⟩

/-- **C147** The angular distribution of elastic scattering and every angular distribution of a file: no condition. -/
theorem C147_cosine (xss : List ℝ) (b : Nat) (l : Int) (d : AngleDist) (h : AngleDist.makeAce xss b l = .ok d) (E mu v : ℝ) (hv : d.pdf E mu = .ok v) : 0 ≤ v :=
  anglePdf_nonneg (AngleDist.makeAce_wf h) hv

/-- **C147** The spectra of the delayed neutrons. -/
theorem C147_delayed_partial (f : AceFile) (fuel : Nat) (n : Nuc) (hn : Nuc.makeAce f fuel = .ok n) (F : Family ELaw) (hF : F ∈ n.fission.families)
    (E : ℝ) (hp : PosELaw E F.law) (x v : ℝ) (hv : F.law.pdf E x = .ok (some v)) : 0 ≤ v := by
  by_cases hf : f.fissile = true
  · obtain ⟨i, hi⟩ := List.getElem?_of_mem hF
    obtain ⟨_, _, _, _, _, _, h⟩ := (C99_delayed f fuel n hn hf).2 i F hi
    exact elawPdf_nonneg (familyLaw_wf h) hp hv
  · have := ((C99_fission f fuel n hn).2.2.1 (by simpa using hf)).1
    rw [this] at hF; cases hF

/-! ### The conditions are needed -/

namespace Example

/-- A file whose reaction has a Maxwell spectrum of temperature 2 and restriction energy 1, in the lab frame. -/
noncomputable def maxwellBlocks : AceBlocks :=
  { exBlocks with xss := [91, -2, 1, 0, 0, 1, 0, 7, 10, 0, 2, 1, 9, 1, 1, 0, 2, 1, 9, 2, 2, 1] }

theorem twoTab_eval (E : ℝ) (h1 : 1 < E) (h2 : E ≤ 3 / 2) : twoTab.eval E = .ok 2 := by
  have h9 : E < 9 := by linarith
  norm_num [twoTab, Tab1D.eval, Region.eval, seekRegion, front, back, getAt, bind, Except.bind, pure, Except.pure, lowerBound, lowerBoundRange, bisect, subIdx,
    Interpolation.interpolate, rdiv, h1, h9, h1.le, h9.le, not_le.mpr h1, not_le.mpr h9, not_lt.mpr h1.le, not_lt.mpr h9.le]

theorem maxwell_reaction : ∃ y, ∀ fuel, RxnBase.makeAce maxwellBlocks 0 (fuel + 1) =
    .ok ⟨91, -2, 10, y, .one (.uncorrelated ⟨⟨[1 / 10 ^ 5], [.isotropic]⟩, .maxwell twoTab 1⟩)⟩ := by
  obtain ⟨t, ht⟩ := probOne_make
  have hat : ReactionAt maxwellBlocks 0 91 (-2) 1 (some ⟨[1 / 10 ^ 5], [.isotropic]⟩) [(7, 10, ⟨[], [1, 9], [1, 1]⟩)] := by
    refine ⟨⟨maxwellBlocks.xss.take 0, maxwellBlocks.xss.drop 1, by simp [maxwellBlocks], by simp [maxwellBlocks, exBlocks]⟩,
      ⟨maxwellBlocks.xss.take 1, maxwellBlocks.xss.drop 2, by simp [maxwellBlocks], by simp [maxwellBlocks, exBlocks]⟩,
      ⟨maxwellBlocks.xss.take 2, maxwellBlocks.xss.drop 3, by simp [maxwellBlocks], by simp [maxwellBlocks, exBlocks]⟩, Or.inr ⟨0, _, rfl, ?_, rfl⟩, 1, le_refl _, ?_, ?_⟩
    · exact ⟨maxwellBlocks.xss.take 4, maxwellBlocks.xss.drop 5, by simp [maxwellBlocks], by simp [maxwellBlocks, exBlocks]⟩
    · exact ⟨maxwellBlocks.xss.take 5, maxwellBlocks.xss.drop 6, by simp [maxwellBlocks], by simp [maxwellBlocks, exBlocks]⟩
    · exact ⟨le_refl _, by norm_num, rfl, ⟨maxwellBlocks.xss.take 6, maxwellBlocks.xss.drop 15, by norm_num [maxwellBlocks, TabRecord.encode], by simp [maxwellBlocks, exBlocks]⟩⟩
  have htemp : tempAce maxwellBlocks.xss (maxwellBlocks.dlw + (10 - 1)) = .ok (twoTab, 1) := by
    have h := (C76_read_next maxwellBlocks.xss 15 ⟨[], [1, 9], [2, 2]⟩ ⟨maxwellBlocks.xss.take 15, maxwellBlocks.xss.drop 21, by norm_num [maxwellBlocks, TabRecord.encode], by simp [maxwellBlocks]⟩ rfl).1
    unfold tempAce
    rw [show maxwellBlocks.dlw + (10 - 1) = 15 from rfl, h]
    simp only [bind, Except.bind]
    rw [show getAt maxwellBlocks.xss (15 + (TabRecord.mk [] [1, 9] [2, 2]).encode.length) = .ok 1 from rfl]
    simp only []
    rw [twoTab_make]
    rfl
  refine ⟨.const |(1 : ℝ)|, fun fuel => ?_⟩
  have hm := C97_reaction maxwellBlocks 0 91 (-2) 1 _ _ hat (by norm_num) (.const |(1 : ℝ)|)
    (by unfold readYield; rw [if_pos (by norm_num)]) [(.uncorrelated ⟨⟨[1 / 10 ^ 5], [.isotropic]⟩, .maxwell twoTab 1⟩, t)]
    (.cons ⟨.maxwell _ _ _ rfl htemp, ht⟩ .nil) (fuel + 1) (by simp)
  rw [if_neg (by norm_num)] at hm
  exact hm

/-- The isotropic distribution of these files. -/
theorem iso_pdf (E mu : ℝ) (h1 : -1 ≤ mu) (h2 : mu ≤ 1) : AngleDist.pdf ⟨[1 / 10 ^ 5], [.isotropic]⟩ E mu = .ok (1 / 2) := by
  have hle : lowerBound [(1 / 10 ^ 5 : ℝ)] E ≤ 1 := lowerBound_le_length _ _
  have hi : AngleLaw.pdf .isotropic mu = .ok (1 / 2) := by
    unfold AngleLaw.pdf isoPdf
    rw [if_neg (by rintro (h | h) <;> linarith)]
    norm_num
  unfold AngleDist.pdf AngleDist.find
  dsimp only
  by_cases h0 : lowerBound [(1 / 10 ^ 5 : ℝ)] E = 0
  · rw [if_pos h0]; exact hi
  · rw [if_neg h0, if_pos (by simp only [List.length_singleton]; omega)]; exact hi

end Example

open Example in
/-- The full claim is false of the code: a file with a Maxwell spectrum is accepted, and just above its restriction energy the density reported for every
outgoing energy it can produce (except 0) and every cosine is negative. -/
theorem C147_violation : ∃ (a : AceBlocks) (r : RxnBase), 0 < a.awr ∧ (∀ fuel, RxnBase.makeAce a 0 (fuel + 1) = .ok r) ∧
    ∀ fuel E mu x, 1 < E → E ≤ 3 / 2 → -1 ≤ mu → mu ≤ 1 → 0 < x → x ≤ E - 1 → ∃ v, (r.dist.toAE fuel).pdf E mu x = .ok (some v) ∧ v < 0 := by
  obtain ⟨y, hy⟩ := maxwell_reaction
  refine ⟨maxwellBlocks, _, by norm_num [maxwellBlocks, exBlocks], hy, ?_⟩
  intro fuel E mu x h1 h2 m1 m2 x0 x1
  obtain ⟨p, hp, hneg⟩ := C69_violation_maxwell_negative twoTab 1 E 2 (twoTab_eval E h1 h2) (by norm_num) h1 (by linarith) x x0 x1
  refine ⟨p * (1 / 2), ?_, by linarith⟩
  show Uncorr.pdf ⟨⟨[1 / 10 ^ 5], [.isotropic]⟩, .maxwell twoTab 1⟩ E mu x = _
  unfold Uncorr.pdf
  simp only [ELaw.pdf, hp, Except.map, bind, Except.bind, iso_pdf E mu m1 m2, pure, Except.pure]

/-- Nor do the mixtures check their weights: a component with a positive density and a negative weight gives a negative density. -/
theorem C147_violation_weight (d : AE) (mu x v : ℝ) (hv : d.pdf 0 mu x = .ok (some v)) (h0 : 0 < v) :
    ∃ m, Multi.make [some d, some d] [some (constTab (-2)), some (constTab 1)] = .ok m ∧ m.pdf 0 mu x = .ok (some (-v)) ∧ -v < 0 := by
  refine ⟨⟨[d, d], [constTab (-2), constTab 1]⟩, rfl, ?_, by linarith⟩
  unfold Multi.pdf
  simp only [Multi.mix, hv, constTab_eval, bind, Except.bind]
  congr 2
  ring

open Example in
/-- The hypotheses are met by a reaction of a file, in the centre-of-mass frame, for every incident energy above its threshold. -/
theorem C147_hypotheses (E : ℝ) (hE : 3 < E) : ∃ r, (∀ fuel, RxnBase.makeAce evapFile.toAceBlocks 0 (fuel + 1) = .ok r) ∧ PosDist E r.dist ∧ ForwardDist E r.dist := by
  obtain ⟨y, hy⟩ := evap_reaction
  refine ⟨_, hy, trivial, fun g hg => ?_, trivial⟩
  unfold frameG at hg
  obtain ⟨ec, h1, hg⟩ := bind_ok hg
  obtain ⟨i, h2, hg⟩ := bind_ok hg
  obtain ⟨r, h3, hg⟩ := bind_ok hg
  rw [rdiv_ok (by norm_num)] at h1 h2
  have h1' := Except.ok.inj h1
  have h2' := Except.ok.inj h2
  have hec : 9 / 4 < ec := by rw [← h1']; linarith
  rw [rdiv_ok (by linarith)] at h3
  have h3' := Except.ok.inj h3
  have hi : i * r ≤ 1 := by
    rw [← h2', ← h3']
    have : ec / (ec + -2) ≤ 9 := by rw [div_le_iff₀ (by linarith)]; linarith
    linarith
  rw [csqrt_ok (csqrt_nonneg hg).2] at hg
  rw [← Except.ok.inj hg]
  exact Real.sqrt_le_one.mpr hi

end PNDL
