import Verif.Model.FloatJoint
import Verif.Props.FloatBase
import Verif.Props.EnergyAngle

/-! C169: tabulated energy-angle distributions in double arithmetic. -/
namespace PNDL
open Spec

/-- A well-formed energy-angle table of doubles: one angular table for each energy, energies that are not negative, densities 0 or at least `2^-500`. -/
structure Spec.FloatEA (t : EATable) : Prop where
  valid : ValidEA t
  energies : ∀ v ∈ t.energy, IsDouble v ∧ 0 ≤ v
  pdf : ∀ p ∈ t.pdf, IsDouble p ∧ (p = 0 ∨ (2 : ℝ) ^ (-500 : ℤ) ≤ p)

/-- **C169** The cosine drawn from a table is in `[-1, 1]` and two numbers are drawn, whatever the table and the rounding. -/
theorem C169_table_cosine (fl : ℝ → ℝ) (t : EATable) (ω : Tape) (k k' : Nat) (mu e : ℝ) (h : t.sampleFl fl ω k = .ok (mu, e, k')) :
    -1 ≤ mu ∧ mu ≤ 1 ∧ k' = k + 2 := by
  unfold EATable.sampleFl at h
  obtain ⟨l, _, h⟩ := bind_ok h
  obtain ⟨p0, _, h⟩ := bind_ok h
  obtain ⟨flat, _, h⟩ := bind_ok h
  obtain ⟨v0, _, h⟩ := bind_ok h
  obtain ⟨c0, _, h⟩ := bind_ok h
  cases flat with
  | true =>
    rw [if_pos rfl] at h
    obtain ⟨E, _, h⟩ := bind_ok h
    obtain ⟨a, _, h⟩ := bind_ok h
    obtain ⟨m, _, h⟩ := bind_ok h
    cases h
    exact ⟨(clampMu_mem _).1, (clampMu_mem _).2, rfl⟩
  | false =>
    rw [if_neg (by decide)] at h
    obtain ⟨p1, _, h⟩ := bind_ok h
    obtain ⟨v1, _, h⟩ := bind_ok h
    obtain ⟨E, _, h⟩ := bind_ok h
    obtain ⟨c1, _, h⟩ := bind_ok h
    obtain ⟨f, _, h⟩ := bind_ok h
    obtain ⟨a, _, h⟩ := bind_ok h
    obtain ⟨m, _, h⟩ := bind_ok h
    cases h
    exact ⟨(clampMu_mem _).1, (clampMu_mem _).2, rfl⟩

/-- **C169** The cosine drawn from a law of tables is in `[-1, 1]` and three numbers are drawn, whatever the tables and the rounding. -/
theorem C169_cosine (fl : ℝ → ℝ) (d : TabEnergyAngle) (E : ℝ) (ω : Tape) (k k' : Nat) (mu e : ℝ) (h : d.sampleFl fl E ω k = .ok (mu, e, k')) :
    -1 ≤ mu ∧ mu ≤ 1 ∧ k' = k + 3 := by
  unfold TabEnergyAngle.sampleFl at h
  obtain ⟨⟨l, f⟩, _, h⟩ := bind_ok h
  obtain ⟨t0, _, h⟩ := bind_ok h
  obtain ⟨t1, _, h⟩ := bind_ok h
  obtain ⟨a0, _, h⟩ := bind_ok h
  obtain ⟨b0, _, h⟩ := bind_ok h
  obtain ⟨a1, _, h⟩ := bind_ok h
  obtain ⟨b1, _, h⟩ := bind_ok h
  simp only [] at h
  split at h
  all_goals
    obtain ⟨⟨m, x, k1⟩, hx, h⟩ := bind_ok h
    obtain ⟨e', _, h⟩ := bind_ok h
    cases h
    exact C169_table_cosine fl _ ω (k + 1) _ _ _ hx

section
variable {fl : ℝ → ℝ} (hfl : IsRoundToNearest fl)
include hfl

/-- **C169** The energy drawn from a table is not below the lower end of the cell that the random number selects, so not below the table's
smallest energy. -/
theorem C169_table_lower (t : EATable) (ht : FloatEA t) (ω : Tape) (k k' : Nat) (h1 : ω k ≤ 1) (mu e : ℝ)
    (h : t.sampleFl fl ω k = .ok (mu, e, k')) : (∃ mn, t.minEnergy = .ok mn ∧ mn ≤ e) ∧
    ∃ (l : Nat) (v c c' : ℝ), t.energy[l]? = some v ∧ t.cdf[l]? = some c ∧ t.cdf[l + 1]? = some c' ∧ c < ω k ∧ ω k ≤ c' ∧ v ≤ e := by
  have hv := ht.valid.pc
  have hvs : t.energy.Pairwise (· ≤ ·) := hv.values_sorted
  have hne : t.energy ≠ [] := hv.ne
  obtain ⟨mn, hmn⟩ := getElem?_of_lt (l := t.energy) (i := 0) (List.length_pos_iff.mpr hne)
  have key : ∃ (l : Nat) (v c c' : ℝ), t.energy[l]? = some v ∧ t.cdf[l]? = some c ∧ t.cdf[l + 1]? = some c' ∧ c < ω k ∧ ω k ≤ c' ∧ v ≤ e := by
    obtain ⟨hle, hlb⟩ := lowerBound_partition (l := t.cdf) (x := ω k) (by
      intro i j a b hij ha hb hb2
      rcases min_le_iff.mp (hv.cdf_sorted i j a b hij ha hb) with h | h <;> linarith)
    unfold EATable.sampleFl at h
    obtain ⟨l, hl, h⟩ := bind_ok h
    obtain ⟨p0, q0, h⟩ := bind_ok h
    obtain ⟨flat, _, h⟩ := bind_ok h
    obtain ⟨v0, w0, h⟩ := bind_ok h
    obtain ⟨c0, g0, h⟩ := bind_ok h
    rw [getAt_eq_ok] at q0 w0 g0
    have hb1 : lowerBound t.cdf (ω k) = l + 1 := by
      unfold subIdx at hl
      split at hl
      · cases hl; omega
      · cases hl
    have hc0 : c0 < ω k := (hlb l c0 g0).mpr (by omega)
    have hlast : t.cdf[t.cdf.length - 1]? = some 1 := by rw [← List.getLast?_eq_getElem?]; exact hv.cdf_last
    have hlt : l + 1 < t.cdf.length := by
      have := mt (hlb _ _ hlast).mpr (not_lt.mpr h1)
      have := lt_length_of_some g0
      omega
    obtain ⟨c1, g1⟩ := getElem?_of_lt hlt
    have hc1 : ω k ≤ c1 := not_lt.mp (mt (hlb (l + 1) c1 g1).mp (by omega))
    have dv := ht.energies _ (List.mem_of_getElem? w0)
    have dp := ht.pdf _ (List.mem_of_getElem? q0)
    have hp0 : 0 ≤ p0 := hv.pdf_nonneg _ (List.mem_of_getElem? q0)
    refine ⟨l, v0, c0, c1, w0, g0, g1, hc0, hc1, ?_⟩
    cases flat with
    | true =>
      rw [if_pos rfl] at h
      obtain ⟨x, hx, h⟩ := bind_ok h
      obtain ⟨a, _, h⟩ := bind_ok h
      obtain ⟨m, _, h⟩ := bind_ok h
      cases h
      exact histInterpFl_ge hfl dv.1 hp0 hc0.le hx
    | false =>
      rw [if_neg (by decide)] at h
      obtain ⟨p1, q1, h⟩ := bind_ok h
      obtain ⟨v1, w1, h⟩ := bind_ok h
      obtain ⟨x, hx, h⟩ := bind_ok h
      obtain ⟨c1', _, h⟩ := bind_ok h
      obtain ⟨f, _, h⟩ := bind_ok h
      obtain ⟨a, _, h⟩ := bind_ok h
      obtain ⟨m, _, h⟩ := bind_ok h
      cases h
      rw [getAt_eq_ok] at q1 w1
      exact linInterpFl_ge hfl dv.1 dp.1 (pairwise_le_getElem? hvs (by omega) w0 w1) hp0 (hv.pdf_nonneg _ (List.mem_of_getElem? q1)) dp.2 hc0.le hx
  refine ⟨⟨mn, front_eq_ok.mpr hmn, ?_⟩, key⟩
  obtain ⟨l, v, _, _, e1, _, _, _, _, e5⟩ := key
  exact (pairwise_le_getElem? hvs (Nat.zero_le _) hmn e1).trans e5

/-- **C169** (partial: see `C169_violation` for the largest energy) A law of tables gives no negative energy if every table starts at energy 0, or if
the energy drawn from the selected table does not exceed the table's largest energy. -/
theorem C169_nonneg_partial (d : TabEnergyAngle) (hs : d.energy.Pairwise (· ≤ ·)) (dg : ∀ g ∈ d.energy, IsDouble g) (ht : ∀ t ∈ d.tables, FloatEA t)
    (E : ℝ) (dE : IsDouble E) (ω : Tape) (k k' : Nat) (h1 : ω (k + 1) ≤ 1) (mu e : ℝ)
    (hz : (∀ t ∈ d.tables, t.minEnergy = .ok 0) ∨ ∀ t ∈ d.tables, ∀ m x j b, t.sampleFl fl ω (k + 1) = .ok (m, x, j) → t.maxEnergy = .ok b → x ≤ b)
    (h : d.sampleFl fl E ω k = .ok (mu, e, k')) : 0 ≤ e := by
  unfold TabEnergyAngle.sampleFl at h
  obtain ⟨⟨l, f⟩, hf, h⟩ := bind_ok h
  obtain ⟨t0, g0, h⟩ := bind_ok h
  obtain ⟨t1, g1, h⟩ := bind_ok h
  obtain ⟨a0, ha0, h⟩ := bind_ok h
  obtain ⟨b0, hb0, h⟩ := bind_ok h
  obtain ⟨a1, ha1, h⟩ := bind_ok h
  obtain ⟨b1, hb1, h⟩ := bind_ok h
  rw [getAt_eq_ok] at g0 g1
  have M0 := List.mem_of_getElem? g0
  have M1 := List.mem_of_getElem? g1
  have F0 := ht _ M0
  have F1 := ht _ M1
  obtain ⟨u0, u1⟩ := bracketInFl_unit hfl hs dg dE hf
  have mem : ∀ {t : EATable} {a b : ℝ}, t.minEnergy = .ok a → t.maxEnergy = .ok b → a ∈ t.energy ∧ b ∈ t.energy := by
    intro t a b ha hb
    rw [EATable.minEnergy, front_eq_ok] at ha
    rw [EATable.maxEnergy, back_eq_ok] at hb
    exact ⟨List.mem_of_getElem? ha, List.mem_of_getLast? hb⟩
  have order : ∀ {t : EATable} {a b : ℝ}, FloatEA t → t.minEnergy = .ok a → t.maxEnergy = .ok b → a ≤ b := by
    intro t a b F ha hb
    rw [EATable.minEnergy, front_eq_ok] at ha
    rw [EATable.maxEnergy, back_eq_ok, List.getLast?_eq_getElem?] at hb
    have hvs : t.energy.Pairwise (· ≤ ·) := F.valid.pc.values_sorted
    exact pairwise_le_getElem? hvs (Nat.zero_le _) ha hb
  have low : ∀ {t : EATable} {a m x : ℝ} {j : Nat}, FloatEA t → t.minEnergy = .ok a → t.sampleFl fl ω (k + 1) = .ok (m, x, j) → a ≤ x := by
    intro t a m x j F ha hx
    obtain ⟨mn, hm, hle⟩ := (C169_table_lower hfl t F ω (k + 1) j h1 m x hx).1
    rw [ha] at hm
    rw [Except.ok.inj hm]
    exact hle
  have m0 := mem ha0 hb0
  have m1 := mem ha1 hb1
  have hlo := endFl_nonneg hfl (F0.energies _ m0.1).1 (F0.energies _ m0.1).2 (F1.energies _ m1.1).2 u0 u1
  have hhi := endFl_nonneg hfl (F0.energies _ m0.2).1 (F0.energies _ m0.2).2 (F1.energies _ m1.2).2 u0 u1
  have fin : ∀ {t : EATable} {a b m x e' : ℝ} {j : Nat}, t ∈ d.tables → FloatEA t → t.minEnergy = .ok a → t.maxEnergy = .ok b →
      t.sampleFl fl ω (k + 1) = .ok (m, x, j) → scaleFl fl (endFl fl f a0 a1) (endFl fl f b0 b1) a b x = .ok e' → 0 ≤ e' := by
    intro t a b m x e' j M F ha hb hx hsc
    refine (scaleFl_nonneg hfl (endFl_double hfl _ _ _) hlo hhi (order F ha hb) (low F ha hx) ?_ hsc).1
    rcases hz with hz | hz
    · right
      have z0 : a0 = 0 := by
        have := hz _ M0
        rw [ha0] at this
        exact Except.ok.inj this
      have z1 : a1 = 0 := by
        have := hz _ M1
        rw [ha1] at this
        exact Except.ok.inj this
      have : endFl fl f a0 a1 = 0 := by
        have fz := fl_self hfl isDouble_zero
        rw [z0, z1, endFl, sub_zero, fz, mul_zero, fz, add_zero, fz]
      rw [this]
      exact hhi
    · exact Or.inl (hz t M m x j b hx hb)
  simp only [] at h
  by_cases hx : ω k > f
  · rw [if_pos hx] at h
    obtain ⟨⟨m, x, k1⟩, hx', h⟩ := bind_ok h
    obtain ⟨e', he', h⟩ := bind_ok h
    cases h
    exact fin M0 F0 ha0 hb0 hx' he'
  · rw [if_neg hx] at h
    obtain ⟨⟨m, x, k1⟩, hx', h⟩ := bind_ok h
    obtain ⟨e', he', h⟩ := bind_ok h
    cases h
    exact fin M1 F1 ha1 hb1 hx' he'

/-- The angular table of the examples: isotropic. -/
noncomputable def flatAngle : PCTable := ⟨[-1, 1], [1 / 2, 1 / 2], [0, 1], .histogram⟩

omit hfl in
private theorem flatAngle_valid : ValidPC flatAngle := by
  have hm : PCTable.make [-1, 1] [1 / 2, 1 / 2] [0, 1] .histogram = .ok flatAngle := by
    norm_num [PCTable.make, PCTable.check, isSorted, back, bind, Except.bind, flatAngle]
  exact (PCTable.make_valid hm).1

private theorem flatAngle_half : flatAngle.sampleFl fl (1 / 2) = .ok 0 := by
  have : flatAngle.sampleFl fl (1 / 2) = histInterpFl fl (1 / 2) (-1) (1 / 2) 0 := by
    norm_num [PCTable.sampleFl, PCTable.sampleWith, flatAngle, lowerBound, lowerBoundRange, bisect, getAt, bind, Except.bind, subIdx]
  have dh : IsDouble (1 / 2 : ℝ) := by simpa using isDouble_zpow (m := 1) (by norm_num) (z := -1) (by norm_num)
  rw [this, histInterpFl, sub_zero, fl_self hfl dh, rdivFl_ok (by norm_num)]
  simp only [bind, Except.bind, pure, Except.pure]
  rw [div_self (by norm_num), fl_self hfl isDouble_one, show (-1 : ℝ) + 1 = 0 by norm_num, fl_self hfl isDouble_zero]

/-- The table of the violation. -/
noncomputable def steepEA : EATable := ⟨steepTable.values, steepTable.pdf, steepTable.cdf, [flatAngle, flatAngle], .linLin⟩

/-- **C169** (the claim that no energy exceeds the tables is false of the code) A law whose two tables have the energies 0 and 1.25 and meet every
hypothesis of `C169_nonneg_partial`: the energy drawn is 2.5, in any rounding to nearest. -/
theorem C169_violation :
    EATable.make steepTable.values steepTable.pdf steepTable.cdf [flatAngle, flatAngle] .linLin = .ok steepEA ∧
    TabEnergyAngle.make [1, 2] [steepEA, steepEA] = .ok ⟨[1, 2], [steepEA, steepEA]⟩ ∧ FloatEA steepEA ∧ steepEA.maxEnergy = .ok (5 / 4) ∧
    (⟨[1, 2], [steepEA, steepEA]⟩ : TabEnergyAngle).sampleFl fl 1 (fun i => if i = 1 then 1 - (2 : ℝ) ^ (-53 : ℤ) else 1 / 2) 0 =
      .ok (0, 5 / 2, 3) := by
  have hv := C133_violation_range hfl
  have d : ∀ (m : ℤ) (z : ℤ) (r : ℝ), |m| ≤ 2 ^ 53 → -1074 ≤ z → r = m * (2 : ℝ) ^ z → fl r = r := fun m z r h1 h2 h => by
    rw [h]; exact fl_self hfl (isDouble_zpow h1 h2)
  have f0 : fl 0 = 0 := d 0 0 _ (by norm_num) (by norm_num) (by norm_num)
  have f1 : fl (5 / 4) = 5 / 4 := d 5 (-2) _ (by norm_num) (by norm_num) (by norm_num)
  have f2 : fl (5 / 2) = 5 / 2 := d 5 (-1) _ (by norm_num) (by norm_num) (by norm_num)
  have f3 : fl 2 = 2 := d 2 0 _ (by norm_num) (by norm_num) (by norm_num)
  have f4 : fl 1 = 1 := fl_self hfl isDouble_one
  have f5 : fl (1 - (2 : ℝ) ^ (-53 : ℤ)) = 1 - (2 : ℝ) ^ (-53 : ℤ) := fl_self hfl hv.2.2.2.2.1
  have hb : bracketInFl fl [1, 2] 1 = .ok (0, 0) := by
    norm_num [bracketInFl, lowerBound, lowerBoundRange, bisect]
  have hdb := hv.2.2.1
  have hmk : EATable.make steepTable.values steepTable.pdf steepTable.cdf [flatAngle, flatAngle] .linLin = .ok steepEA := by
    norm_num [EATable.make, checkJoint, isSorted, back, front, bind, Except.bind, steepTable, steepEA, pure, Except.pure, getAt]
  refine ⟨hmk, by norm_num [TabEnergyAngle.make, isSorted], ⟨?_, ?_, ?_⟩, hv.2.2.2.1, ?_⟩
  · exact (EATable.make_valid hmk rfl rfl rfl (by
      intro a ha
      simp only [List.mem_cons, List.not_mem_nil, or_false, or_self] at ha
      rw [ha]
      exact flatAngle_valid)).1
  · intro v hm
    refine ⟨hdb v (by simp only [List.mem_append]; exact Or.inl (Or.inl hm)), ?_⟩
    simp only [steepEA, steepTable, List.mem_cons, List.not_mem_nil, or_false] at hm
    rcases hm with rfl | rfl <;> norm_num
  · intro v hm
    refine ⟨hdb v (by simp only [List.mem_append]; exact Or.inl (Or.inr hm)), Or.inr ?_⟩
    have : (2 : ℝ) ^ (-500 : ℤ) ≤ (2 : ℝ) ^ (-1 : ℤ) := zpow_le_zpow_right₀ (by norm_num) (by norm_num)
    simp only [steepEA, steepTable, List.mem_cons, List.not_mem_nil, or_false] at hm
    rcases hm with rfl | rfl <;> · refine this.trans ?_; norm_num
  · have hl : steepTable.sampleFl fl (1 - (2 : ℝ) ^ (-53 : ℤ)) =
        linInterpFl fl (1 - (2 : ℝ) ^ (-53 : ℤ)) 0 (5 / 4) (7205759403792794 * (2 : ℝ) ^ (-53 : ℤ)) (7205759403792795 * (2 : ℝ) ^ (-53 : ℤ)) 0 := by
      norm_num [PCTable.sampleFl, PCTable.sampleWith, steepTable, lowerBound, lowerBoundRange, bisect, getAt, bind, Except.bind, subIdx]
      exact fun h => by cases h
    have hlin := hl.symm.trans hv.2.2.2.2.2
    have hs : steepEA.sampleFl fl (fun i => if i = 1 then 1 - (2 : ℝ) ^ (-53 : ℤ) else 1 / 2) (0 + 1) = .ok (0, 5 / 2, 3) := by
      have hlb : lowerBound steepEA.cdf (1 - (2 : ℝ) ^ (-53 : ℤ)) = 1 := by
        norm_num [steepEA, steepTable, lowerBound, lowerBoundRange, bisect]
      have hne : ¬ (7205759403792794 * (2 : ℝ) ^ (-53 : ℤ) = 7205759403792795 * (2 : ℝ) ^ (-53 : ℤ)) := by norm_num
      have hcl : clampMu 0 = 0 := by norm_num [clampMu]
      unfold EATable.sampleFl
      simp only [zero_add, if_true, hlb]
      simp only [steepEA, steepTable, subIdx, getAt, bind, Except.bind, pure, Except.pure, List.getElem?_cons_zero, List.getElem?_cons_succ,
        if_neg (show ¬ Interpolation.linLin = Interpolation.histogram by decide), le_refl, if_true, Nat.sub_self, zero_add, hne, decide_false,
        hlin, sub_zero, f4, f5, div_one, rdivFl_ok (one_ne_zero)]
      rw [if_neg (by norm_num)]
      simp only [if_neg (show ¬ (1 - (2 : ℝ) ^ (-53 : ℤ) < 1 / 2) by norm_num), if_neg (show ¬ ((1 : ℕ) + 1 = 1) by decide),
        flatAngle_half hfl, hcl]
    unfold TabEnergyAngle.sampleFl
    simp only [hb, bind, Except.bind, getAt, List.getElem?_cons_zero, List.getElem?_cons_succ]
    have hmn : steepEA.minEnergy = .ok 0 := rfl
    have hmx : steepEA.maxEnergy = .ok (5 / 4) := hv.2.2.2.1
    rw [hmn, hmx]
    simp only []
    rw [if_pos (by norm_num), hs]
    simp only [endFl, scaleFl, sub_zero, sub_self, f0, mul_zero, add_zero, f1, f2, zero_add]
    rw [rdivFl_ok (by norm_num)]
    simp only [bind, Except.bind, pure, Except.pure]
    rw [show (5 / 2 / (5 / 4) : ℝ) = 2 by norm_num, f3, show (2 * (5 / 4) : ℝ) = 5 / 2 by norm_num, f2, f2]

end

/-- **C169** (the model) Without rounding the models are those of C63. -/
theorem C169_exact (t : EATable) (d : TabEnergyAngle) (E : ℝ) (ω : Tape) (k : Nat) :
    t.sampleFl (fun r => r) ω k = t.sample ω k ∧ d.sampleFl (fun r => r) E ω k = d.sample E ω k := by
  have ht : ∀ (t : EATable) (k : Nat), t.sampleFl (fun r => r) ω k = t.sample ω k := by
    intro t k
    have hh : ∀ xi v0 p0 c0 : ℝ, histInterpFl (fun r => r) xi v0 p0 c0 = histInterp xi v0 p0 c0 := by
      intro xi v0 p0 c0
      unfold histInterpFl histInterp
      simp only [rdivFl_id]
    have hl : ∀ xi v0 v1 p0 p1 c0 : ℝ, linInterpFl (fun r => r) xi v0 v1 p0 p1 c0 = linInterp xi v0 v1 p0 p1 c0 := by
      intro xi v0 v1 p0 p1 c0
      unfold linInterpFl linInterp
      simp only [rdivFl_id]
    unfold EATable.sampleFl EATable.sample
    simp only [hh, hl, rdivFl_id, sampleFl_id]
  refine ⟨ht t k, ?_⟩
  unfold TabEnergyAngle.sampleFl TabEnergyAngle.sample unitBase
  simp only [ht, bracketInFl_id, endFl, scaleFl, rdivFl_id, bind_assoc, pure_bind]
  rcases bracketIn d.energy E with _ | ⟨l, f⟩
  · rfl
  simp only [bind, Except.bind]
  rcases getAt d.tables l with _ | t0
  · rfl
  rcases getAt d.tables (l + 1) with _ | t1
  · rfl
  simp only []
  rcases t0.minEnergy with _ | a0
  · rfl
  rcases t0.maxEnergy with _ | b0
  · rfl
  rcases t1.minEnergy with _ | a1
  · rfl
  rcases t1.maxEnergy with _ | b1
  · rfl
  simp only [pure, Except.pure]
  by_cases h : ω k > f
  · simp only [if_pos h]
    rcases t0.sample ω (k + 1) with _ | ⟨m, x, j⟩
    · rfl
    · rcases hq : rdiv (x - a0) (b0 - a0) with _ | q <;> simp only [hq]
  · simp only [if_neg h]
    rcases t1.sample ω (k + 1) with _ | ⟨m, x, j⟩
    · rfl
    · rcases hq : rdiv (x - a1) (b1 - a1) with _ | q <;> simp only [hq]

/-- The hypotheses of `C169_nonneg_partial` are met by the law of `C169_violation`. -/
example (fl : ℝ → ℝ) (hfl : IsRoundToNearest fl) (mu e : ℝ) (ω : Tape) (h1 : ω 1 ≤ 1) (k' : Nat)
    (h : (⟨[1, 2], [steepEA, steepEA]⟩ : TabEnergyAngle).sampleFl fl 1 ω 0 = .ok (mu, e, k')) : 0 ≤ e := by
  refine C169_nonneg_partial hfl ⟨[1, 2], [steepEA, steepEA]⟩ (by norm_num) ?_ ?_ 1 isDouble_one ω 0 k' h1 mu e (Or.inl ?_) h
  · intro g hg
    simp only [List.mem_cons, List.not_mem_nil, or_false] at hg
    rcases hg with rfl | rfl
    · exact isDouble_one
    · simpa using isDouble_nat (n := 2) (by norm_num)
  all_goals
    intro t ht
    simp only [List.mem_cons, List.not_mem_nil, or_false, or_self] at ht
    rw [ht]
  · exact (C169_violation hfl).2.2.1
  · rfl

end PNDL
