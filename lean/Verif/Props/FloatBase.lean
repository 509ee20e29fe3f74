import Verif.Model.FloatBase
import Verif.Props.FloatTab

/-! C150: the outgoing energies of the unit-base laws in binary64 arithmetic. -/
namespace PNDL

open Spec

/-- A table of binary64 numbers the constructor accepts, whose energies are not negative and whose densities are 0 or at least `2^-500`. -/
structure Spec.FloatTable (t : PCTable) (xi : ℝ) : Prop where
  valid : ValidPC t
  values : ∀ v ∈ t.values, IsDouble v
  pdf : ∀ p ∈ t.pdf, IsDouble p
  size : ∀ p ∈ t.pdf, p = 0 ∨ (2 : ℝ) ^ (-500 : ℤ) ≤ p
  nonneg : ∀ v ∈ t.values, 0 ≤ v
  first : ∀ c, t.cdf[0]? = some c → c ≤ xi

section
variable {fl : ℝ → ℝ} (hfl : IsRoundToNearest fl)
include hfl

theorem endFl_double (f a b : ℝ) : IsDouble (endFl fl f a b) := (hfl _).1

theorem endFl_nonneg {f a b : ℝ} (da : IsDouble a) (ha : 0 ≤ a) (hb : 0 ≤ b) (h0 : 0 ≤ f) (h1 : f ≤ 1) : 0 ≤ endFl fl f a b := by
  have hD : -a ≤ fl (b - a) := le_fl hfl da.neg (by linarith)
  refine fl_nonneg hfl ?_
  have : -a ≤ fl (f * fl (b - a)) := by
    refine le_fl hfl da.neg ?_
    rcases le_total 0 (fl (b - a)) with h | h
    · linarith [mul_nonneg h0 h]
    · nlinarith
  linarith

theorem scaleFl_nonneg {lo hi a b x e : ℝ} (dlo : IsDouble lo) (hlo : 0 ≤ lo) (hhi : 0 ≤ hi) (hab : a ≤ b) (hx : a ≤ x)
    (hq : x ≤ b ∨ lo ≤ hi) (h : scaleFl fl lo hi a b x = .ok e) : 0 ≤ e ∧ (lo = 0 → IsDouble hi → x ≤ b → e ≤ hi) := by
  unfold scaleFl at h
  obtain ⟨q, hq', h⟩ := bind_ok h
  simp only [pure, Except.pure, Except.ok.injEq] at h
  have hB : fl (b - a) ≠ 0 := by
    intro hz
    rw [rdivFl, hz, rdiv_zero] at hq'
    simp [bind, Except.bind] at hq'
  rw [rdivFl_ok hB] at hq'
  have hqe := Except.ok.inj hq'
  have hB0 : 0 < fl (b - a) := lt_of_le_of_ne (fl_nonneg hfl (by linarith)) (Ne.symm hB)
  have hq0 : 0 ≤ q := by rw [← hqe]; exact fl_nonneg hfl (div_nonneg (fl_nonneg hfl (by linarith)) hB0.le)
  have hq1 : x ≤ b → q ≤ 1 := fun hxb => by
    rw [← hqe]
    exact fl_le hfl isDouble_one ((div_le_one hB0).mpr (fl_mono hfl (by linarith)))
  have hD : -lo ≤ fl (hi - lo) := le_fl hfl dlo.neg (by linarith)
  rw [← h]
  constructor
  · refine fl_nonneg hfl ?_
    have : -lo ≤ fl (q * fl (hi - lo)) := by
      refine le_fl hfl dlo.neg ?_
      rcases hq with hq | hq
      · have := hq1 hq
        rcases le_total 0 (fl (hi - lo)) with h | h
        · linarith [mul_nonneg hq0 h]
        · nlinarith
      · have := fl_nonneg hfl (show 0 ≤ hi - lo by linarith)
        linarith [mul_nonneg hq0 this]
    linarith
  · rintro rfl dhi hxb
    rw [sub_zero, zero_add, fl_self hfl dhi]
    refine fl_le hfl dhi (fl_le hfl dhi ?_)
    nlinarith [hq1 hxb]

/-- The weight lies in `[0, 1]` and is a double. -/
theorem bracketInFl_unit {grid : List ℝ} {E f : ℝ} {l : Nat} (hs : grid.Pairwise (· ≤ ·)) (dg : ∀ g ∈ grid, IsDouble g) (dE : IsDouble E)
    (h : bracketInFl fl grid E = .ok (l, f)) : 0 ≤ f ∧ f ≤ 1 := by
  unfold bracketInFl at h
  simp only [] at h
  by_cases h0 : lowerBound grid E = 0
  · rw [if_pos h0] at h
    cases h
    exact ⟨le_rfl, zero_le_one⟩
  · rw [if_neg h0] at h
    by_cases h1 : lowerBound grid E = grid.length
    · rw [if_pos h1] at h
      obtain ⟨_, _, h⟩ := bind_ok h
      cases h
      exact ⟨zero_le_one, le_rfl⟩
    · rw [if_neg h1, subIdx_of_le (by omega)] at h
      obtain ⟨l', hl', h⟩ := bind_ok h
      cases hl'
      obtain ⟨e0, g0, h⟩ := bind_ok h
      obtain ⟨e1, g1, h⟩ := bind_ok h
      obtain ⟨f', hf', h⟩ := bind_ok h
      simp only [pure, Except.pure, Except.ok.injEq, Prod.mk.injEq] at h
      rw [← h.2]
      rw [getAt_eq_ok] at g0 g1
      have d0 := dg _ (List.mem_of_getElem? g0)
      have d1 := dg _ (List.mem_of_getElem? g1)
      have hB : fl (e1 - e0) ≠ 0 := by
        intro hz
        rw [rdivFl, hz, rdiv_zero] at hf'
        simp [bind, Except.bind] at hf'
      rw [rdivFl_ok hB] at hf'
      have lo : e0 ≤ E := ((lowerBound_iff hs E g0).mpr (by omega)).le
      have hi : E ≤ e1 := by
        by_contra hc
        have := (lowerBound_iff hs E g1).mp (not_le.mp hc)
        omega
      have hlt : e0 < e1 := by
        rcases (lo.trans hi).lt_or_eq with h | h
        · exact h
        · rw [h, sub_self, fl_self hfl isDouble_zero] at hB
          exact absurd rfl hB
      have := frac_fl hfl dE d0 d1 lo hi hlt
      rw [← Except.ok.inj hf']
      exact ⟨this.2.1, this.2.2.1⟩

/-- The parts of a sampled energy. -/
theorem unitEnergyFl_parts {grid : List ℝ} {tables : List PCTable} {E x1 x2 e : ℝ} (h : unitEnergyFl fl grid tables E x1 x2 = .ok e)
    (hs : grid.Pairwise (· ≤ ·)) (dg : ∀ g ∈ grid, IsDouble g) (dE : IsDouble E) (ht : ∀ t ∈ tables, FloatTable t x2) (h1 : x2 ≤ 1) :
    ∃ (l : Nat) (f : ℝ) (t0 t1 t : PCTable) (a0 b0 a1 b1 a b x : ℝ), 0 ≤ f ∧ f ≤ 1 ∧ tables[l]? = some t0 ∧ tables[l + 1]? = some t1 ∧
      t0.minValue = .ok a0 ∧ t0.maxValue = .ok b0 ∧ t1.minValue = .ok a1 ∧ t1.maxValue = .ok b1 ∧ (t = t0 ∨ t = t1) ∧ t.minValue = .ok a ∧
      t.maxValue = .ok b ∧ t.sampleFl fl x2 = .ok x ∧ a ≤ x ∧ a ≤ b ∧ 0 ≤ a0 ∧ 0 ≤ a1 ∧ 0 ≤ b0 ∧ 0 ≤ b1 ∧ IsDouble a0 ∧ IsDouble b0 ∧
      scaleFl fl (endFl fl f a0 a1) (endFl fl f b0 b1) a b x = .ok e := by
  unfold unitEnergyFl at h
  obtain ⟨⟨l, f⟩, hf, h⟩ := bind_ok h
  obtain ⟨t0, g0, h⟩ := bind_ok h
  obtain ⟨t1, g1, h⟩ := bind_ok h
  obtain ⟨a0, ha0, h⟩ := bind_ok h
  obtain ⟨b0, hb0, h⟩ := bind_ok h
  obtain ⟨a1, ha1, h⟩ := bind_ok h
  obtain ⟨b1, hb1, h⟩ := bind_ok h
  rw [getAt_eq_ok] at g0 g1
  have F0 := ht _ (List.mem_of_getElem? g0)
  have F1 := ht _ (List.mem_of_getElem? g1)
  obtain ⟨u0, u1⟩ := bracketInFl_unit hfl hs dg dE hf
  have mem : ∀ {t : PCTable} {a b : ℝ}, t.minValue = .ok a → t.maxValue = .ok b → a ∈ t.values ∧ b ∈ t.values := by
    intro t a b ha hb
    rw [PCTable.minValue, front_eq_ok] at ha
    rw [PCTable.maxValue, back_eq_ok] at hb
    exact ⟨List.mem_of_getElem? ha, List.mem_of_getLast? hb⟩
  have order : ∀ {t : PCTable} {a b : ℝ}, FloatTable t x2 → t.minValue = .ok a → t.maxValue = .ok b → a ≤ b := by
    intro t a b F ha hb
    rw [PCTable.minValue, front_eq_ok] at ha
    rw [PCTable.maxValue, back_eq_ok, List.getLast?_eq_getElem?] at hb
    exact pairwise_le_getElem? F.valid.values_sorted (Nat.zero_le _) ha hb
  have low : ∀ {t : PCTable} {a x : ℝ}, FloatTable t x2 → t.minValue = .ok a → t.sampleFl fl x2 = .ok x → a ≤ x := by
    intro t a x F ha hx
    obtain ⟨c, hc⟩ := getElem?_of_lt (l := t.cdf) (i := 0) (by rw [F.valid.lenC]; exact List.length_pos_iff.mpr F.valid.ne)
    obtain ⟨mn, h1, h2⟩ := (C133_lower hfl t F.valid F.values F.pdf F.size c x2 x hc (F.first c hc) h1 hx).1
    rw [ha] at h1
    rw [Except.ok.inj h1]
    exact h2
  have m0 := mem ha0 hb0
  have m1 := mem ha1 hb1
  simp only [] at h
  by_cases hx : x1 > f
  · rw [if_pos hx] at h
    obtain ⟨x, hx', h⟩ := bind_ok h
    exact ⟨l, f, t0, t1, t0, a0, b0, a1, b1, a0, b0, x, u0, u1, g0, g1, ha0, hb0, ha1, hb1, Or.inl rfl, ha0, hb0, hx', low F0 ha0 hx', order F0 ha0 hb0,
      F0.nonneg _ m0.1, F1.nonneg _ m1.1, F0.nonneg _ m0.2, F1.nonneg _ m1.2, F0.values _ m0.1, F0.values _ m0.2, h⟩
  · rw [if_neg hx] at h
    obtain ⟨x, hx', h⟩ := bind_ok h
    exact ⟨l, f, t0, t1, t1, a0, b0, a1, b1, a1, b1, x, u0, u1, g0, g1, ha0, hb0, ha1, hb1, Or.inr rfl, ha1, hb1, hx', low F1 ha1 hx', order F1 ha1 hb1,
      F0.nonneg _ m0.1, F1.nonneg _ m1.1, F0.nonneg _ m0.2, F1.nonneg _ m1.2, F0.values _ m0.1, F0.values _ m0.2, h⟩

/-- **C150** (partial: see `C150_violation`) Whatever the rounding, a unit-base law of binary64 tables of energies that are not negative samples no negative
energy, if the value drawn from the selected table does not exceed its largest energy. -/
theorem C150_nonneg_partial (grid : List ℝ) (tables : List PCTable) (E x1 x2 e : ℝ) (hs : grid.Pairwise (· ≤ ·)) (dg : ∀ g ∈ grid, IsDouble g)
    (dE : IsDouble E) (ht : ∀ t ∈ tables, FloatTable t x2) (h1 : x2 ≤ 1)
    (hr : ∀ t ∈ tables, ∀ x b, t.sampleFl fl x2 = .ok x → t.maxValue = .ok b → x ≤ b)
    (h : unitEnergyFl fl grid tables E x1 x2 = .ok e) : 0 ≤ e := by
  obtain ⟨l, f, t0, t1, t, a0, b0, a1, b1, a, b, x, u0, u1, g0, g1, ha0, hb0, ha1, hb1, ht', hma, hmb, hx, k1, k2, p1, p2, p3, p4, d1, d2, h⟩ :=
    unitEnergyFl_parts hfl h hs dg dE ht h1
  have hm : t ∈ tables := by
    rcases ht' with rfl | rfl
    · exact List.mem_of_getElem? g0
    · exact List.mem_of_getElem? g1
  exact (scaleFl_nonneg hfl (endFl_double hfl _ _ _) (endFl_nonneg hfl d1 p1 p2 u0 u1) (endFl_nonneg hfl d2 p3 p4 u0 u1) k2 k1
    (Or.inl (hr t hm x b hx hmb)) h).1

/-- **C150** (tables that start at 0) If every table starts at energy 0 no energy is negative, and one drawn inside its table is not above the largest energy
interpolated between those of the two tables. -/
theorem C150_from_zero (grid : List ℝ) (tables : List PCTable) (E x1 x2 e : ℝ) (hs : grid.Pairwise (· ≤ ·)) (dg : ∀ g ∈ grid, IsDouble g)
    (dE : IsDouble E) (ht : ∀ t ∈ tables, FloatTable t x2) (h1 : x2 ≤ 1) (hz : ∀ t ∈ tables, t.minValue = .ok 0)
    (h : unitEnergyFl fl grid tables E x1 x2 = .ok e) :
    0 ≤ e ∧ ((∀ t ∈ tables, ∀ x b, t.sampleFl fl x2 = .ok x → t.maxValue = .ok b → x ≤ b) →
      ∃ (l : Nat) (f : ℝ) (t0 t1 : PCTable) (b0 b1 : ℝ), 0 ≤ f ∧ f ≤ 1 ∧ tables[l]? = some t0 ∧ tables[l + 1]? = some t1 ∧ t0.maxValue = .ok b0 ∧
        t1.maxValue = .ok b1 ∧ e ≤ fl (b0 + fl (f * fl (b1 - b0)))) := by
  obtain ⟨l, f, t0, t1, t, a0, b0, a1, b1, a, b, x, u0, u1, g0, g1, ha0, hb0, ha1, hb1, ht', hma, hmb, hx, k1, k2, p1, p2, p3, p4, d1, d2, h⟩ :=
    unitEnergyFl_parts hfl h hs dg dE ht h1
  have hm : t ∈ tables := by
    rcases ht' with rfl | rfl
    · exact List.mem_of_getElem? g0
    · exact List.mem_of_getElem? g1
  have z0 : a0 = 0 := by
    have := hz _ (List.mem_of_getElem? g0)
    rw [ha0] at this
    exact Except.ok.inj this
  have z1 : a1 = 0 := by
    have := hz _ (List.mem_of_getElem? g1)
    rw [ha1] at this
    exact Except.ok.inj this
  have hlo : endFl fl f a0 a1 = 0 := by
    have fz := fl_self hfl isDouble_zero
    rw [z0, z1, endFl, sub_zero, fz, mul_zero, fz, add_zero, fz]
  have hhi := endFl_nonneg hfl (f := f) d2 p3 p4 u0 u1
  have key := scaleFl_nonneg hfl (endFl_double hfl _ _ _) (endFl_nonneg hfl d1 p1 p2 u0 u1) hhi k2 k1 (Or.inr (by rw [hlo]; exact hhi)) h
  exact ⟨key.1, fun hr => ⟨l, f, t0, t1, b0, b1, u0, u1, g0, g1, hb0, hb1, key.2 hlo (endFl_double hfl _ _ _) (hr t hm x b hx hmb)⟩⟩

/-- **C150** for the objects users hold. -/
theorem C150_tabular_energy (d : TabEnergy) (E x1 x2 e : ℝ) (hs : d.energy.Pairwise (· ≤ ·)) (dg : ∀ g ∈ d.energy, IsDouble g)
    (dE : IsDouble E) (ht : ∀ t ∈ d.tables, FloatTable t x2) (h1 : x2 ≤ 1) (hz : ∀ t ∈ d.tables, t.minValue = .ok 0)
    (h : d.sampleFl fl E x1 x2 = .ok e) : 0 ≤ e := (C150_from_zero hfl _ _ E x1 x2 e hs dg dE ht h1 hz h).1

theorem C150_kalbach (d : Kalbach) (E x1 x2 e : ℝ) (hs : d.energy.Pairwise (· ≤ ·)) (dg : ∀ g ∈ d.energy, IsDouble g)
    (dE : IsDouble E) (ht : ∀ t ∈ d.tables, FloatTable t.toPC x2) (h1 : x2 ≤ 1) (hz : ∀ t ∈ d.tables, t.toPC.minValue = .ok 0)
    (h : d.energyFl fl E x1 x2 = .ok e) : 0 ≤ e :=
  (C150_from_zero hfl _ _ E x1 x2 e hs dg dE (by
    intro t hm
    obtain ⟨k, hk, rfl⟩ := List.mem_map.mp hm
    exact ht k hk) h1 (by
    intro t hm
    obtain ⟨k, hk, rfl⟩ := List.mem_map.mp hm
    exact hz k hk) h).1

/-- **C150** (the claim that no energy exceeds the tables is false of the code) A law whose two tables are the table of `C133_violation_range`, with energies from 0
to 1.25: the energy sampled is 2.5, in any rounding to nearest. -/
theorem C150_violation :
    TabEnergy.make [1, 2] [steepTable, steepTable] = .ok ⟨[1, 2], [steepTable, steepTable]⟩ ∧ steepTable.maxValue = .ok (5 / 4) ∧
    (⟨[1, 2], [steepTable, steepTable]⟩ : TabEnergy).sampleFl fl 1 (1 / 2) (1 - (2 : ℝ) ^ (-53 : ℤ)) = .ok (5 / 2) := by
  have hv := C133_violation_range hfl
  have d : ∀ (m : ℤ) (z : ℤ) (r : ℝ), |m| ≤ 2 ^ 53 → -1074 ≤ z → r = m * (2 : ℝ) ^ z → fl r = r := fun m z r h1 h2 h => by
    rw [h]; exact fl_self hfl (isDouble_zpow h1 h2)
  have f0 : fl 0 = 0 := d 0 0 _ (by norm_num) (by norm_num) (by norm_num)
  have f1 : fl (5 / 4) = 5 / 4 := d 5 (-2) _ (by norm_num) (by norm_num) (by norm_num)
  have f2 : fl (5 / 2) = 5 / 2 := d 5 (-1) _ (by norm_num) (by norm_num) (by norm_num)
  have f3 : fl 2 = 2 := d 2 0 _ (by norm_num) (by norm_num) (by norm_num)
  have hb : bracketInFl fl [1, 2] 1 = .ok (0, 0) := by
    norm_num [bracketInFl, lowerBound, lowerBoundRange, bisect]
  refine ⟨by norm_num [TabEnergy.make, isSorted], hv.2.2.2.1, ?_⟩
  unfold TabEnergy.sampleFl unitEnergyFl
  simp only [hb, bind, Except.bind, getAt, List.getElem?_cons_zero, List.getElem?_cons_succ]
  have hmn : steepTable.minValue = .ok 0 := rfl
  rw [hmn, hv.2.2.2.1]
  simp only []
  rw [if_pos (by norm_num), hv.2.2.2.2.2]
  simp only [endFl, scaleFl, sub_zero, sub_self, f0, mul_zero, add_zero, f1, f2, zero_add]
  rw [rdivFl_ok (by norm_num)]
  simp only [bind, Except.bind, pure, Except.pure]
  rw [show (5 / 2 / (5 / 4) : ℝ) = 2 by norm_num, f3, show (2 * (5 / 4) : ℝ) = 5 / 2 by norm_num, f2, f2]

/-- **C150** (the hypotheses can be met) Two tables with the energies 0 and 2, histogram. -/
theorem C150_hypotheses :
    PCTable.make [0, 2] [1 / 2, 1 / 2] [0, 1] .histogram = .ok ⟨[0, 2], [1 / 2, 1 / 2], [0, 1], .histogram⟩ ∧
    FloatTable ⟨[0, 2], [1 / 2, 1 / 2], [0, 1], .histogram⟩ (1 / 2) ∧
    (⟨[0, 2], [1 / 2, 1 / 2], [0, 1], .histogram⟩ : PCTable).sampleFl fl (1 / 2) = .ok 1 ∧
    (⟨[1, 2], [⟨[0, 2], [1 / 2, 1 / 2], [0, 1], .histogram⟩, ⟨[0, 2], [1 / 2, 1 / 2], [0, 1], .histogram⟩]⟩ : TabEnergy).sampleFl fl 1 (1 / 2) (1 / 2) = .ok 1 := by
  have d : ∀ (m : ℤ) (z : ℤ) (r : ℝ), |m| ≤ 2 ^ 53 → -1074 ≤ z → r = m * (2 : ℝ) ^ z → IsDouble r := fun m z r h1 h2 h => by
    rw [h]; exact isDouble_zpow h1 h2
  have dh : IsDouble (1 / 2 : ℝ) := d 1 (-1) _ (by norm_num) (by norm_num) (by norm_num)
  have d2 : IsDouble (2 : ℝ) := d 2 0 _ (by norm_num) (by norm_num) (by norm_num)
  have f0 : fl 0 = 0 := fl_self hfl isDouble_zero
  have f1 : fl 1 = 1 := fl_self hfl isDouble_one
  have f2 : fl 2 = 2 := fl_self hfl d2
  have fh : fl (1 / 2) = 1 / 2 := fl_self hfl dh
  have hm : PCTable.make [0, 2] [1 / 2, 1 / 2] [0, 1] .histogram = .ok ⟨[0, 2], [1 / 2, 1 / 2], [0, 1], .histogram⟩ := by
    norm_num [PCTable.make, PCTable.check, isSorted, back, bind, Except.bind]
  have hs : (⟨[0, 2], [1 / 2, 1 / 2], [0, 1], .histogram⟩ : PCTable).sampleFl fl (1 / 2) = .ok 1 := by
    have : (⟨[0, 2], [1 / 2, 1 / 2], [0, 1], .histogram⟩ : PCTable).sampleFl fl (1 / 2) = histInterpFl fl (1 / 2) 0 (1 / 2) 0 := by
      norm_num [PCTable.sampleFl, PCTable.sampleWith, lowerBound, lowerBoundRange, bisect, getAt, bind, Except.bind, subIdx]
    rw [this, histInterpFl, sub_zero, fh, rdivFl_ok (by norm_num)]
    simp only [bind, Except.bind, pure, Except.pure]
    rw [div_self (by norm_num), f1, zero_add, f1]
  refine ⟨hm, ⟨(PCTable.make_valid hm).1, ?_, ?_, ?_, ?_, ?_⟩, hs, ?_⟩
  · intro v hv
    simp only [List.mem_cons, List.not_mem_nil, or_false] at hv
    rcases hv with rfl | rfl
    · exact isDouble_zero
    · exact d2
  · intro v hv
    simp only [List.mem_cons, List.not_mem_nil, or_false] at hv
    rcases hv with rfl | rfl <;> exact dh
  · intro v hv
    right
    have : (2 : ℝ) ^ (-500 : ℤ) ≤ (2 : ℝ) ^ (-1 : ℤ) := zpow_le_zpow_right₀ (by norm_num) (by norm_num)
    simp only [List.mem_cons, List.not_mem_nil, or_false] at hv
    rcases hv with rfl | rfl <;> · refine this.trans ?_; norm_num
  · intro v hv
    simp only [List.mem_cons, List.not_mem_nil, or_false] at hv
    rcases hv with rfl | rfl <;> norm_num
  · intro c hc
    simp only [List.getElem?_cons_zero, Option.some.injEq] at hc
    rw [← hc]
    norm_num
  · have hb : bracketInFl fl [1, 2] 1 = .ok (0, 0) := by
      norm_num [bracketInFl, lowerBound, lowerBoundRange, bisect]
    unfold TabEnergy.sampleFl unitEnergyFl
    simp only [hb, bind, Except.bind, getAt, List.getElem?_cons_zero, List.getElem?_cons_succ]
    simp only [PCTable.minValue, PCTable.maxValue, front, back, List.getLast?_cons_cons, List.getLast?_singleton, List.getElem?_cons_zero, getAt]
    rw [if_pos (by norm_num), hs]
    simp only [endFl, scaleFl, sub_zero, sub_self, f0, mul_zero, add_zero, f1, f2, zero_add]
    rw [rdivFl_ok (by norm_num)]
    simp only [bind, Except.bind, pure, Except.pure]
    rw [fh, show (1 / 2 * 2 : ℝ) = 1 by norm_num, f1, f1]

end

theorem rdivFl_id (x y : ℝ) : rdivFl (fun r => r) x y = rdiv x y := by
  unfold rdivFl
  cases rdiv x y <;> rfl

theorem bracketInFl_id (grid : List ℝ) (E : ℝ) : bracketInFl (fun r => r) grid E = bracketIn grid E := by
  simp only [bracketInFl, bracketIn, rdivFl_id]

theorem sampleFl_id (t : PCTable) (xi : ℝ) : t.sampleFl (fun r => r) xi = t.sample xi := by
  rw [sample_with, PCTable.sampleFl]
  congr 1
  · funext xi v0 p0 c0
    simp only [histInterpFl, histInterp, rdivFl_id]
  · funext xi v0 v1 p0 p1 c0
    simp only [linInterpFl, linInterp, rdivFl_id]

/-- **C150** (the model) Without rounding the two models of the function agree: this is the sampler of C82 and C110 with rounded operations. -/
theorem C150_exact (d : TabEnergy) (E : ℝ) (ω : Tape) (k : Nat) :
    d.sample E ω k = (d.sampleFl (fun r => r) E (ω k) (ω (k + 1))).map fun e => (e, k + 2) := by
  unfold TabEnergy.sample TabEnergy.sampleFl unitEnergyFl
  simp only [bracketInFl_id, sampleFl_id, endFl, scaleFl, rdivFl_id]
  rcases bracketIn d.energy E with _ | ⟨l, f⟩
  · rfl
  simp only [bind, Except.bind]
  rcases getAt d.tables l with _ | t0
  · rfl
  rcases getAt d.tables (l + 1) with _ | t1
  · rfl
  simp only []
  rcases t0.minValue with _ | a0
  · rfl
  rcases t0.maxValue with _ | b0
  · rfl
  rcases t1.minValue with _ | a1
  · rfl
  rcases t1.maxValue with _ | b1
  · rfl
  simp only []
  by_cases h : ω k > f
  · simp only [if_pos h]
    rcases t0.sample (ω (k + 1)) with _ | e
    · rfl
    · simp only [pure, Except.pure]
      rcases rdiv (e - a0) (b0 - a0) with _ | q <;> rfl
  · simp only [if_neg h]
    rcases t1.sample (ω (k + 1)) with _ | e
    · rfl
    · simp only [pure, Except.pure]
      rcases rdiv (e - a1) (b1 - a1) with _ | q <;> rfl

/-- **C150** (the model, Kalbach) The energy `Kalbach::sample_angle_energy` returns is that of `Kalbach.energyFl` without rounding. -/
theorem C150_exact_kalbach (d : Kalbach) (E mu e : ℝ) (ω : Tape) (k k' : Nat) (h : d.sample E ω k = .ok (mu, e, k')) :
    d.energyFl (fun r => r) E (ω k) (ω (k + 1)) = .ok e := by
  unfold Kalbach.sample at h
  unfold Kalbach.energyFl unitEnergyFl
  simp only [bracketInFl_id, sampleFl_id, endFl, scaleFl, rdivFl_id]
  obtain ⟨⟨l, f⟩, hf, h⟩ := bind_ok h
  obtain ⟨t0, g0, h⟩ := bind_ok h
  obtain ⟨t1, g1, h⟩ := bind_ok h
  obtain ⟨⟨a0, b0, a1, b1, Emin, Emax⟩, hu, h⟩ := bind_ok h
  obtain ⟨⟨Eh, a, b, R, A⟩, hx, h⟩ := bind_ok h
  obtain ⟨q, hq, h⟩ := bind_ok h
  obtain ⟨m, hm, h9⟩ := bind_ok h
  simp only [pure, Except.pure, Except.ok.injEq, Prod.mk.injEq] at h9
  unfold unitBase at hu
  obtain ⟨a0', w1, hu⟩ := bind_ok hu
  obtain ⟨b0', w2, hu⟩ := bind_ok hu
  obtain ⟨a1', w3, hu⟩ := bind_ok hu
  obtain ⟨b1', w4, hu⟩ := bind_ok hu
  simp only [pure, Except.pure, Except.ok.injEq, Prod.mk.injEq] at hu
  obtain ⟨rfl, rfl, rfl, rfl, rfl, rfl⟩ := hu
  have g0' : getAt (d.tables.map KalbachTable.toPC) l = .ok t0.toPC := by
    rw [getAt_eq_ok] at g0 ⊢
    rw [List.getElem?_map, g0]
    rfl
  have g1' : getAt (d.tables.map KalbachTable.toPC) (l + 1) = .ok t1.toPC := by
    rw [getAt_eq_ok] at g1 ⊢
    rw [List.getElem?_map, g1]
    rfl
  have v1 : t0.toPC.minValue = .ok a0' := w1
  have v2 : t0.toPC.maxValue = .ok b0' := w2
  have v3 : t1.toPC.minValue = .ok a1' := w3
  have v4 : t1.toPC.maxValue = .ok b1' := w4
  simp only [hf, g0', g1', v1, v2, v3, v4, bind, Except.bind]
  by_cases hxf : ω k > f
  · rw [if_pos hxf] at hx ⊢
    obtain ⟨x, hx1, hx⟩ := bind_ok hx
    obtain ⟨r, _, hx⟩ := bind_ok hx
    obtain ⟨s, _, hx⟩ := bind_ok hx
    simp only [pure, Except.pure, Except.ok.injEq, Prod.mk.injEq] at hx
    obtain ⟨rfl, rfl, rfl, _, _⟩ := hx
    rw [show t0.toPC.sample (ω (k + 1)) = .ok x from hx1]
    simp only [hq, pure, Except.pure]
    rw [h9.2.1]
  · rw [if_neg hxf] at hx ⊢
    obtain ⟨x, hx1, hx⟩ := bind_ok hx
    obtain ⟨r, _, hx⟩ := bind_ok hx
    obtain ⟨s, _, hx⟩ := bind_ok hx
    simp only [pure, Except.pure, Except.ok.injEq, Prod.mk.injEq] at hx
    obtain ⟨rfl, rfl, rfl, _, _⟩ := hx
    rw [show t1.toPC.sample (ω (k + 1)) = .ok x from hx1]
    simp only [hq, pure, Except.pure]
    rw [h9.2.1]

end PNDL
