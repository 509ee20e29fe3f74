import Verif.Props.Kalbach

/-! C63, C81, C82, C84 for `EnergyAngleTable`, and the laws `Kalbach` and `TabularEnergyAngle`. -/
namespace PNDL
open Spec MeasureTheory

/-- The energies, density and cumulative of the table as a `PCTable`. -/
def Spec.eaPC (t : EATable) : PCTable := ⟨t.energy, t.pdf, t.cdf, t.interp⟩

/-- A well-formed energy-angle table: one angular table for each energy.  The file constructor guarantees this; the constructors
from vectors do not compare any sizes (see `C63_violation_ea_sizes`). -/
structure Spec.ValidEA (t : EATable) : Prop where
  pc : ValidPC (eaPC t)
  start : t.cdf[0]? = some 0
  lenA : t.angles.length = t.energy.length
  angles : ∀ a ∈ t.angles, ValidPC a

/-! ## Constructors -/

/-- A table built from vectors of equal sizes is well-formed. -/
theorem EATable.make_valid {energy pdf cdf : List ℝ} {angles : List PCTable} {r : Interpolation} {t : EATable}
    (h : EATable.make energy pdf cdf angles r = .ok t) (h1 : energy.length = pdf.length) (h2 : pdf.length = cdf.length)
    (h3 : angles.length = energy.length) (ha : ∀ a ∈ angles, ValidPC a) :
    ValidEA t ∧ t.energy = energy ∧ t.pdf = pdf ∧ t.angles = angles ∧ t.interp = r := by
  unfold EATable.make at h
  split at h
  · cases h
  rename_i hr
  obtain ⟨cdf', hc, h⟩ := bind_ok h
  cases h
  obtain ⟨b1, b2, b3⟩ := checkJoint_check r hc
  have hpos := lt_length_of_some b2
  have hne : energy ≠ [] := by intro he; rw [he] at h1; simp at h1; omega
  exact ⟨⟨(PCTable.check_valid (by tauto) h1 h2 hne b1).1, checkJoint_start hc, h3, ha⟩, rfl, rfl, rfl, rfl⟩

theorem mapM_ok {α β : Type} {f : α → Res β} : ∀ {l : List α} {m : List β}, l.mapM f = .ok m →
    m.length = l.length ∧ ∀ b ∈ m, ∃ a ∈ l, f a = .ok b := by
  intro l
  induction l with
  | nil => intro m h; simp only [List.mapM_nil, pure, Except.pure] at h; cases h; simp
  | cons x xs ih =>
    intro m h
    rw [List.mapM_cons] at h
    obtain ⟨y, hy, h⟩ := bind_ok h
    obtain ⟨ys, hys, h⟩ := bind_ok h
    cases h
    obtain ⟨i1, i2⟩ := ih hys
    refine ⟨by simp [i1], ?_⟩
    intro b hb
    rcases List.mem_cons.mp hb with rfl | hb
    · exact ⟨x, by simp, hy⟩
    · obtain ⟨a, ha, hf⟩ := i2 b hb
      exact ⟨a, by simp [ha], hf⟩

/-- A table read from a file is well-formed. -/
theorem EATable.makeAce_valid {xss : List ℝ} {i JED : Nat} {t : EATable} (h : EATable.makeAce xss i JED = .ok t) : ValidEA t := by
  unfold EATable.makeAce at h
  obtain ⟨code, hcode, h⟩ := bind_ok h
  split at h
  · rename_i r hr
    split at h
    · cases h
    rename_i hrr
    obtain ⟨np, _, h⟩ := bind_ok h
    obtain ⟨es, h1, h⟩ := bind_ok h
    obtain ⟨ps, h2, h⟩ := bind_ok h
    obtain ⟨cs, h3, h⟩ := bind_ok h
    obtain ⟨cs', hc, h⟩ := bind_ok h
    obtain ⟨locs, h4, h⟩ := bind_ok h
    obtain ⟨as, h5, h⟩ := bind_ok h
    cases h
    have l1 := xssSlice_length h1
    have l2 := xssSlice_length h2
    have l3 := xssSlice_length h3
    have l4 := xssSlice_length h4
    obtain ⟨m1, m2⟩ := mapM_ok h5
    obtain ⟨b1, b2, b3⟩ := checkJoint_check r hc
    have hpos := lt_length_of_some b2
    have hne : es ≠ [] := by intro he; rw [he] at l1; simp at l1; omega
    refine ⟨(PCTable.check_valid (by tauto) (by omega) (by omega) hne b1).1, checkJoint_start hc, by simp only; omega, ?_⟩
    intro a ha
    obtain ⟨loc, _, hl⟩ := m2 a ha
    obtain ⟨j, _, hl⟩ := bind_ok hl
    exact PCTable.makeAce_valid hl
  · cases h

/-! ## C63 -/

theorem EATable.node_ok {t : EATable} (hv : ValidEA t) (mu : ℝ) (l : Nat) (hl : l < t.energy.length) :
    ∃ m, t.node mu l = .ok m ∧ 0 ≤ m := by
  obtain ⟨a, ha⟩ := getElem?_of_lt (l := t.angles) (i := l) (by rw [hv.lenA]; exact hl)
  obtain ⟨p, hp, hp0, _⟩ := C34_pdf a (hv.angles a (List.mem_of_getElem? ha)) mu
  exact ⟨p, by rw [EATable.node, getAt_eq_ok.mpr ha]; exact hp, hp0⟩

/-- C63 for well-formed energy-angle tables with strictly increasing energies: the joint density is defined, non-negative, and
zero outside the table, except at the highest energy of a linearly interpolated table.  Missing: that energy and tables with
mismatched sizes; see the violations. -/
theorem C63_ea_pdf_partial (t : EATable) (hv : ValidEA t) (hs : t.energy.Pairwise (· < ·)) (mn mx : ℝ)
    (hmn : t.minEnergy = .ok mn) (hmx : t.maxEnergy = .ok mx) (mu E : ℝ) (hE : E ≠ mx ∨ t.interp = .histogram) :
    ∃ p, t.pdfAt mu E = .ok p ∧ 0 ≤ p ∧ (E < mn ∨ mx < E → p = 0) := by
  obtain ⟨p, h1, h2, h3⟩ := jointPdf_defined (pdf := t.pdf) (r := t.interp) (node := t.node mu) hs hv.pc.lenP
    (front_eq_ok.mp hmn) (back_eq_ok.mp hmx) (fun l hl => ⟨_, (t.node_ok hv mu l hl).choose_spec.1⟩) E hE
  refine ⟨p, h1, h3 ?_ hv.pc.pdf_nonneg, h2⟩
  intro l m hm
  by_cases hl : l < t.energy.length
  · obtain ⟨m', e, h0⟩ := t.node_ok hv mu l hl
    rw [hm] at e; cases e; exact h0
  · rw [EATable.node, getAt_of_le (by rw [hv.lenA]; omega)] at hm; cases hm

/-- The full claim is false of the code: a linearly interpolated table reads beyond the end of its vectors at its highest
outgoing energy. -/
theorem C63_violation_ea (t : EATable) (hr : t.interp = .linLin) (hs : t.energy.Pairwise (· < ·)) (mx : ℝ)
    (hmx : t.maxEnergy = .ok mx) (mu : ℝ) : t.pdfAt mu mx = .error .ub := by
  rw [EATable.pdfAt, hr]
  exact jointPdf_last hs (back_eq_ok.mp hmx)

/-- The full claim is false of the code: the random number 0, which every generator of `[0, 1)` may produce, makes every table
whose cumulative starts at 0 (all that the constructors accept) read the element before the first. -/
theorem C63_violation_ea_zero (t : EATable) (hv : ValidEA t) (ω : Tape) (k : Nat) (h0 : ω k = 0) :
    t.sample ω k = .error .ub := by
  have hl : lowerBound t.cdf (ω k) = 0 := by
    obtain ⟨_, hlb⟩ := lowerBound_partition (l := t.cdf) (x := ω k) (by
      intro i j a b hij ha hb hb2
      rcases min_le_iff.mp (hv.pc.cdf_sorted i j a b hij ha hb) with h | h <;> linarith)
    have := mt (hlb 0 0 hv.start).mpr (by rw [h0]; exact lt_irrefl _)
    omega
  unfold EATable.sample
  simp only [hl, bind, Except.bind]
  rfl

/-- The full claim is false of the code: the constructor accepts a table with no angular tables at all, and both sampling and
the joint density read out of range. -/
theorem C63_violation_ea_sizes : ∃ t, EATable.make [0, 1] [1, 1] [0, 1] [] .histogram = .ok t ∧
    t.sample (fun _ => 1 / 2) 0 = .error .ub ∧ t.pdfAt 0 (1 / 2) = .error .ub := by
  refine ⟨⟨[0, 1], [1, 1], [0, 1], [], .histogram⟩, ?_, ?_, ?_⟩
  · norm_num [EATable.make, checkJoint, isSorted, getAt, back, bind, Except.bind, pure, Except.pure]
  · norm_num [EATable.sample, lowerBound, lowerBoundRange, bisect, getAt, bind, Except.bind, subIdx, histInterp, rdiv, pure,
      Except.pure]
  · norm_num [EATable.pdfAt, jointPdf, lowerBound, lowerBoundRange, bisect, getAt, front, EATable.node, bind, Except.bind, subIdx,
      pure, Except.pure]

/-- C63 for sampling, on well-formed tables whose densities cover their cumulatives and for a non-zero first random number: the
cosine is in `[-1, 1]` and the energy in the table. -/
theorem C63_ea_sample_partial (t : EATable) (hv : ValidEA t) (hc : CoveredPC (eaPC t)) (ha : ∀ a ∈ t.angles, CoveredPC a) (mn mx : ℝ)
    (hmn : t.minEnergy = .ok mn) (hmx : t.maxEnergy = .ok mx) (ω : Tape) (hω : UnitTape ω) (k : Nat) (h0 : 0 < ω k) :
    ∃ mu E, t.sample ω k = .ok (mu, E, k + 2) ∧ -1 ≤ mu ∧ mu ≤ 1 ∧ mn ≤ E ∧ E ≤ mx := by
  obtain ⟨hle, hlb⟩ := lowerBound_partition (l := t.cdf) (x := ω k) (by
    intro i j a b hij ha hb hb2
    have h1 := (hω k).2
    rcases min_le_iff.mp (hv.pc.cdf_sorted i j a b hij ha hb) with h | h <;> linarith)
  have hpos := (hlb 0 0 hv.start).mp h0
  have hlenC : t.cdf.length = t.energy.length := hv.pc.lenC
  have hlenP : t.pdf.length = t.energy.length := hv.pc.lenP
  have hlast : t.cdf[t.cdf.length - 1]? = some 1 := by rw [← List.getLast?_eq_getElem?]; exact hv.pc.cdf_last
  have hlt : lowerBound t.cdf (ω k) < t.cdf.length := by
    have := mt (hlb _ _ hlast).mpr (not_lt.mpr (hω k).2.le)
    omega
  obtain ⟨l, hl⟩ : ∃ l, lowerBound t.cdf (ω k) = l + 1 := ⟨lowerBound t.cdf (ω k) - 1, by omega⟩
  rw [hl] at hlb hlt
  have gc0 := getD_some (l := t.cdf) (i := l) (by omega)
  have gc1 := getD_some (l := t.cdf) (i := l + 1) (by omega)
  have ge0 := getD_some (l := t.energy) (i := l) (by omega)
  have ge1 := getD_some (l := t.energy) (i := l + 1) (by omega)
  have gp0 := getD_some (l := t.pdf) (i := l) (by omega)
  have gp1 := getD_some (l := t.pdf) (i := l + 1) (by omega)
  have hlA := hv.lenA
  obtain ⟨a0, ga0⟩ := getElem?_of_lt (l := t.angles) (i := l) (by omega)
  obtain ⟨a1, ga1⟩ := getElem?_of_lt (l := t.angles) (i := l + 1) (by omega)
  generalize t.cdf.getD l 0 = c0 at gc0
  generalize t.cdf.getD (l + 1) 0 = c1 at gc1
  generalize t.energy.getD l 0 = e0 at ge0
  generalize t.energy.getD (l + 1) 0 = e1 at ge1
  generalize t.pdf.getD l 0 = p0 at gp0
  generalize t.pdf.getD (l + 1) 0 = p1 at gp1
  have b0 : c0 < ω k := (hlb l c0 gc0).mpr (by omega)
  have b1 : ω k ≤ c1 := not_lt.mp (mt (hlb (l + 1) c1 gc1).mp (lt_irrefl _))
  have hs := hv.pc.values_sorted
  have hEE : e0 ≤ e1 := pairwise_le_getElem? (l := t.energy) hs (Nat.le_succ l) ge0 ge1
  have q0 := hv.pc.pdf_nonneg p0 (List.mem_of_getElem? gp0)
  have q1 := hv.pc.pdf_nonneg p1 (List.mem_of_getElem? gp1)
  obtain ⟨x, hx, g1, g2, _⟩ := cell_ok hEE q0 q1 b0 b1 (hc.step l e0 e1 p0 p1 c0 c1 ge0 ge1 gp0 gp1 gc0 gc1)
  have hmn' : mn ≤ e0 := pairwise_le_getElem? (l := t.energy) hs (Nat.zero_le _) (front_eq_ok.mp hmn) ge0
  have hmx' : e1 ≤ mx := pairwise_le_getElem? (l := t.energy) hs (show l + 1 ≤ t.energy.length - 1 by omega) ge1
    (by rw [← List.getLast?_eq_getElem?]; exact back_eq_ok.mp hmx)
  obtain ⟨m0, _, _, s0, _⟩ := C32_in_range_partial a0 (hv.angles a0 (List.mem_of_getElem? ga0)) (ha a0 (List.mem_of_getElem? ga0))
    (ω (k + 1)) (hω _).1 (hω _).2.le
  obtain ⟨m1, _, _, s1, _⟩ := C32_in_range_partial a1 (hv.angles a1 (List.mem_of_getElem? ga1)) (ha a1 (List.mem_of_getElem? ga1))
    (ω (k + 1)) (hω _).1 (hω _).2.le
  have hcc : c1 - c0 ≠ 0 := by intro h; linarith
  unfold EATable.sample
  simp only [hl, subIdx_of_le (show 1 ≤ l + 1 by omega), Nat.add_sub_cancel, bind, Except.bind, getAt_eq_ok.mpr gp0,
    getAt_eq_ok.mpr gp1, getAt_eq_ok.mpr ge0, getAt_eq_ok.mpr ge1, getAt_eq_ok.mpr gc0, getAt_eq_ok.mpr gc1,
    getAt_eq_ok.mpr ga0, getAt_eq_ok.mpr ga1, pure, Except.pure]
  unfold cellSample at hx
  change (if t.interp = .histogram ∨ p0 = p1 then _ else _) = _ at hx
  by_cases hr : t.interp = .histogram
  · rw [if_pos (Or.inl hr)] at hx
    rw [if_pos hr]
    simp only [if_true, hx, s0]
    exact ⟨_, _, rfl, (clampMu_mem _).1, (clampMu_mem _).2, by linarith, by linarith⟩
  · rw [if_neg hr]
    by_cases hp : p0 = p1
    · rw [if_pos (Or.inr hp)] at hx
      simp only [hp, decide_true, if_true]
      rw [← hp]
      simp only [hx, s0]
      exact ⟨_, _, rfl, (clampMu_mem _).1, (clampMu_mem _).2, by linarith, by linarith⟩
    · rw [if_neg (by tauto)] at hx
      simp only [hp, decide_false, Bool.false_eq_true, if_false, hx, rdiv_ok hcc]
      by_cases hf : (ω k - c0) / (c1 - c0) < 1 / 2
      · rw [if_pos hf]; simp only [s0]
        exact ⟨_, _, rfl, (clampMu_mem _).1, (clampMu_mem _).2, by linarith, by linarith⟩
      · rw [if_neg hf]; simp only [s1]
        exact ⟨_, _, rfl, (clampMu_mem _).1, (clampMu_mem _).2, by linarith, by linarith⟩

/-! ## C81 -/

/-- C81: the integral of the joint density of an energy-angle table over the outgoing energies is its angular density. -/
theorem C81_ea_marginal (t : EATable) (hv : ValidEA t) (mn mx mu : ℝ) (hmn : t.minEnergy = .ok mn) (hmx : t.maxEnergy = .ok mx)
    (G : ℝ → ℝ) (hG : ∀ E p, t.pdfAt mu E = .ok p → G E = p) :
    ∃ s, t.anglePdf mu = .ok s ∧ 0 ≤ s ∧ IntervalIntegrable G volume mn mx ∧ ∫ E in mn..mx, G E = s := by
  obtain ⟨g, hg⟩ : ∃ g : Nat → ℝ, ∀ l < t.energy.length, t.node mu l = .ok (g l) ∧ 0 ≤ g l := by
    classical
    refine ⟨fun l => if h : l < t.energy.length then (t.node_ok hv mu l h).choose else 0, fun l h => ?_⟩
    simp only [dif_pos h]
    exact (t.node_ok hv mu l h).choose_spec
  have hm := marginalPdf_eq (r := t.interp) (node := t.node mu) hv.pc.lenP hv.pc.ne (fun l hl => (hg l hl).1)
  refine ⟨_, hm, marginalPdf_nonneg hv.pc.values_sorted hv.pc.lenP hv.pc.ne (fun l hl => (hg l hl).1) (fun l hl => (hg l hl).2)
    hv.pc.pdf_nonneg hm, joint_integral hv.pc.values_sorted hv.pc.lenP (front_eq_ok.mp hmn) (back_eq_ok.mp hmx)
    (fun l hl => ⟨_, (hg l hl).1⟩) hm G hG⟩

/-- C81: with consistent tables on `[-1, 1]` the angular density integrates to 1. -/
theorem C81_ea_normalised (t : EATable) (hv : ValidEA t) (hc : ConsistentPC (eaPC t))
    (ha : ∀ a ∈ t.angles, ConsistentPC a ∧ a.minValue = .ok (-1) ∧ a.maxValue = .ok 1)
    (H : ℝ → ℝ) (hH : ∀ mu, t.anglePdf mu = .ok (H mu)) :
    IntervalIntegrable H volume (-1) 1 ∧ ∫ mu in (-1 : ℝ)..1, H mu = 1 := by
  have hlA := hv.lenA
  obtain ⟨g, hg⟩ : ∃ g : Nat → ℝ → ℝ, ∀ (l : Nat) (a : PCTable), t.angles[l]? = some a → ∀ mu, a.pdfAt mu = .ok (g l mu) := by
    classical
    have : ∀ (l : Nat), ∃ G : ℝ → ℝ, ∀ a : PCTable, t.angles[l]? = some a → ∀ mu, a.pdfAt mu = .ok (G mu) := by
      intro l
      cases hl : t.angles[l]? with
      | none => exact ⟨fun _ => 0, fun a h => by cases h⟩
      | some a =>
        obtain ⟨G, hG⟩ := C33_density_exists a (hv.angles a (List.mem_of_getElem? hl))
        exact ⟨G, fun a' h => by cases h; exact hG⟩
    exact ⟨fun l => (this l).choose, fun l => (this l).choose_spec⟩
  have key : ∀ l < t.energy.length, ∃ a, t.angles[l]? = some a ∧ ValidPC a ∧ ConsistentPC a ∧ a.minValue = .ok (-1) ∧ a.maxValue = .ok 1 := by
    intro l hl
    obtain ⟨a, h⟩ := getElem?_of_lt (l := t.angles) (i := l) (by omega)
    have hm := List.mem_of_getElem? h
    exact ⟨a, h, hv.angles a hm, ha a hm⟩
  refine marginal_normalised hv.pc hc t.node g ?_ (-1) 1 ?_ ?_ H hH
  · intro mu l hl
    obtain ⟨a, h, _⟩ := key l hl
    rw [EATable.node, getAt_eq_ok.mpr h]
    exact hg l a h mu
  · intro l hl
    obtain ⟨a, h, h1, h2, h3, h4⟩ := key l hl
    have hx := h1.lenC
    refine (a.integral_grid h1 h2 (g l) (hg l a h) (front_eq_ok.mp h3) (a.values.length - 1) 1 1 ?_ ?_).1
    · rw [← List.getLast?_eq_getElem?]; exact back_eq_ok.mp h4
    · rw [← hx, ← List.getLast?_eq_getElem?]; exact h1.cdf_last
  · intro l hl
    obtain ⟨a, h, h1, h2, h3, h4⟩ := key l hl
    exact C33_normalised a h1 h2 (g l) (hg l a h) (-1) 1 h3 h4

/-! ## C84: sampling and density disagree -/

/-- Two angular tables, backward and forward. -/
noncomputable def Spec.backward : PCTable := ⟨[-1, 0], [1, 1], [0, 1], .histogram⟩
/-- See `backward`. -/
noncomputable def Spec.forward : PCTable := ⟨[0, 1], [1, 1], [0, 1], .histogram⟩
/-- One cell, density rising linearly from 0 to 2, backward at the low end and forward at the high end. -/
noncomputable def Spec.skew : EATable := ⟨[0, 1], [0, 2], [0, 1], [backward, forward], .linLin⟩

theorem forward_pdf {mu : ℝ} (h : mu < 0) : forward.pdfAt mu = .ok 0 := by
  rw [PCTable.pdfAt]
  have h1 : forward.minValue = .ok 0 := rfl
  have h2 : forward.maxValue = .ok 1 := rfl
  rw [h1, h2]
  simp only [bind, Except.bind]
  rw [if_pos (Or.inl h)]

theorem backward_pdf_in {mu : ℝ} (h1 : -1 < mu) (h2 : mu < 0) : backward.pdfAt mu = .ok 1 := by
  have hm : PCTable.make [-1, 0] [1, 1] [0, 1] .histogram = .ok backward := by
    norm_num [PCTable.make, PCTable.check, isSorted, back, bind, Except.bind, backward]
  have := C34_between backward (PCTable.make_valid hm).1 0 (-1) 0 1 1 mu rfl rfl rfl rfl h1 h2
  rw [this]; rfl

theorem skew_parts : PCTable.make [-1, 0] [1, 1] [0, 1] .histogram = .ok backward ∧
    PCTable.make [0, 1] [1, 1] [0, 1] .histogram = .ok forward ∧
    EATable.make [0, 1] [0, 2] [0, 1] [backward, forward] .linLin = .ok skew := by
  refine ⟨?_, ?_, ?_⟩
  · norm_num [PCTable.make, PCTable.check, isSorted, back, bind, Except.bind, backward]
  · norm_num [PCTable.make, PCTable.check, isSorted, back, bind, Except.bind, forward]
  · norm_num [EATable.make, checkJoint, isSorted, getAt, back, bind, Except.bind, pure, Except.pure, skew]

/-- C84 is false of the code.  The sampler takes the angular table of the nearer end *in cumulative probability*, the density
weights the two tables with the tabulated densities: in `skew` the lower table has weight zero in `angle_pdf`, yet half of all
random numbers are sampled from it.  For every first random number in `(0, 1/2)` the sampled cosine is one whose angular density
is zero. -/
theorem C84_violation (ω : Tape) (k : Nat) (h0 : 0 < ω k) (h1 : ω k < 1 / 2) (h2 : 0 < ω (k + 1)) (h3 : ω (k + 1) < 1) :
    ∃ mu E, skew.sample ω k = .ok (mu, E, k + 2) ∧ -1 < mu ∧ mu < 0 ∧ skew.anglePdf mu = .ok 0 := by
  have hs : backward.sample (ω (k + 1)) = .ok (-1 + ω (k + 1)) := by
    have hl : lowerBound [(0 : ℝ), 1] (ω (k + 1)) = 1 := by
      norm_num [lowerBound, lowerBoundRange, bisect]
      rw [if_neg (by linarith), if_pos h2]
    rw [PCTable.sample]
    simp only [backward, hl, bind, Except.bind, getAt, subIdx]
    norm_num [histInterp, rdiv, bind, Except.bind, pure, Except.pure]
    intro h; linarith
  refine ⟨-1 + ω (k + 1), Real.sqrt (4 * ω k) / 2, ?_, by linarith, by linarith, ?_⟩
  · have hl : lowerBound [(0 : ℝ), 1] (ω k) = 1 := by
      norm_num [lowerBound, lowerBoundRange, bisect]
      rw [if_neg (by linarith), if_pos h0]
    unfold EATable.sample
    have hsub : subIdx 1 1 = .ok 0 := rfl
    simp only [skew, hl, bind, Except.bind, hsub, getAt, List.getElem?_cons_zero, List.getElem?_cons_succ, zero_add]
    have hli : linInterp (ω k) 0 1 0 2 0 = .ok (Real.sqrt (4 * ω k) / 2) := by
      rw [linInterp, rdiv_ok (by norm_num)]
      simp only [bind, Except.bind]
      rw [rdiv_ok (by norm_num)]
      simp only [pure, Except.pure]
      have e : (0 : ℝ) * 0 + 2 * ((2 - 0) / (1 - 0)) * (ω k - 0) = 4 * ω k := by ring
      rw [e, max_eq_left (by linarith)]
      congr 1; ring
    have hr : rdiv (ω k - 0) (1 - 0) = .ok (ω k) := by norm_num [rdiv]
    rw [if_neg (by decide)]
    have hd : decide ((0 : ℝ) = 2) = false := by norm_num
    simp only [hli, hr, hd, pure, Except.pure, Bool.false_eq_true, if_false]
    rw [if_pos h1]
    simp only [hs]
    have hcl : clampMu (-1 + ω (k + 1)) = -1 + ω (k + 1) := clampMu_of_mem (by linarith) (by linarith)
    rw [hcl]
  · have n0 : backward.pdfAt (-1 + ω (k + 1)) = .ok 1 := backward_pdf_in (by linarith) (by linarith)
    have n1 : forward.pdfAt (-1 + ω (k + 1)) = .ok 0 := forward_pdf (by linarith)
    have e0 : skew.node (-1 + ω (k + 1)) 0 = .ok 1 := by
      rw [EATable.node]; exact n0
    have e1 : skew.node (-1 + ω (k + 1)) 1 = .ok 0 := by
      rw [EATable.node]; exact n1
    rw [EATable.anglePdf, marginalPdf]
    have hsub : subIdx skew.pdf.length 1 = .ok 1 := rfl
    rw [hsub]
    simp only [bind, Except.bind]
    have ht : marginalTerm skew.energy skew.pdf skew.interp (skew.node (-1 + ω (k + 1))) 0 = .ok 0 := by
      rw [marginalTerm_eq (e0 := 0) (e1 := 1) (p0 := 0) (p1 := 2) (m0 := 1) (m1 := 0) rfl rfl rfl rfl e0 e1]
      norm_num [jointTerm]
    rw [show List.range 1 = [0] from rfl]
    simp only [List.foldlM_cons, List.foldlM_nil, ht, bind, Except.bind, pure, Except.pure]
    norm_num

/-- C84 for histogram tables: the energy `E` is drawn from the marginal density of its cell (`p (E - e0) = xi - c0`, `p > 0`), the
cosine from the angular table of that cell, and in that cell the joint density is the product of the two.  Missing: linearly
interpolated tables, where the claim is false, see `C84_violation`. -/
theorem C84_histogram_partial (t : EATable) (hv : ValidEA t) (hr : t.interp = .histogram) (hc : CoveredPC (eaPC t))
    (ha : ∀ a ∈ t.angles, CoveredPC a) (ω : Tape) (hω : UnitTape ω) (k : Nat) (h0 : 0 < ω k) :
    ∃ (l : Nat) (e0 e1 p c0 c1 E m : ℝ) (a : PCTable), t.energy[l]? = some e0 ∧ t.energy[l + 1]? = some e1 ∧ t.pdf[l]? = some p ∧
      t.cdf[l]? = some c0 ∧ t.cdf[l + 1]? = some c1 ∧ t.angles[l]? = some a ∧ c0 < ω k ∧ ω k ≤ c1 ∧
      t.sample ω k = .ok (clampMu m, E, k + 2) ∧ a.sample (ω (k + 1)) = .ok m ∧ 0 < p ∧ p * (E - e0) = ω k - c0 ∧ e0 < E ∧ E ≤ e1 ∧
      ∀ E' s q, e0 < E' → E' < e1 → a.pdfAt s = .ok q → t.pdfAt s E' = .ok (q * p) := by
  obtain ⟨hle, hlb⟩ := lowerBound_partition (l := t.cdf) (x := ω k) (by
    intro i j a b hij ha hb hb2
    have h1 := (hω k).2
    rcases min_le_iff.mp (hv.pc.cdf_sorted i j a b hij ha hb) with h | h <;> linarith)
  have hpos := (hlb 0 0 hv.start).mp h0
  have hlenC : t.cdf.length = t.energy.length := hv.pc.lenC
  have hlenP : t.pdf.length = t.energy.length := hv.pc.lenP
  have hlast : t.cdf[t.cdf.length - 1]? = some 1 := by rw [← List.getLast?_eq_getElem?]; exact hv.pc.cdf_last
  have hlt : lowerBound t.cdf (ω k) < t.cdf.length := by
    have := mt (hlb _ _ hlast).mpr (not_lt.mpr (hω k).2.le)
    omega
  obtain ⟨l, hl⟩ : ∃ l, lowerBound t.cdf (ω k) = l + 1 := ⟨lowerBound t.cdf (ω k) - 1, by omega⟩
  rw [hl] at hlb hlt
  have hlA := hv.lenA
  obtain ⟨c0, gc0⟩ := getElem?_of_lt (l := t.cdf) (i := l) (by omega)
  obtain ⟨c1, gc1⟩ := getElem?_of_lt (l := t.cdf) (i := l + 1) (by omega)
  obtain ⟨e0, ge0⟩ := getElem?_of_lt (l := t.energy) (i := l) (by omega)
  obtain ⟨e1, ge1⟩ := getElem?_of_lt (l := t.energy) (i := l + 1) (by omega)
  obtain ⟨p0, gp0⟩ := getElem?_of_lt (l := t.pdf) (i := l) (by omega)
  obtain ⟨p1, gp1⟩ := getElem?_of_lt (l := t.pdf) (i := l + 1) (by omega)
  obtain ⟨a0, ga0⟩ := getElem?_of_lt (l := t.angles) (i := l) (by omega)
  have b0 : c0 < ω k := (hlb l c0 gc0).mpr (by omega)
  have b1 : ω k ≤ c1 := not_lt.mp (mt (hlb (l + 1) c1 gc1).mp (lt_irrefl _))
  have hEE : e0 ≤ e1 := pairwise_le_getElem? (l := t.energy) hv.pc.values_sorted (Nat.le_succ l) ge0 ge1
  have q0 := hv.pc.pdf_nonneg p0 (List.mem_of_getElem? gp0)
  have hcell := hc.step l e0 e1 p0 p1 c0 c1 ge0 ge1 gp0 gp1 gc0 gc1
  unfold cellArea at hcell
  rw [if_pos (show (eaPC t).interp = .histogram from hr)] at hcell
  have hp : 0 < p0 := by
    rcases q0.eq_or_lt with h | h
    · rw [← h] at hcell; linarith
    · exact h
  obtain ⟨m0, _, _, s0, _⟩ := C32_in_range_partial a0 (hv.angles a0 (List.mem_of_getElem? ga0)) (ha a0 (List.mem_of_getElem? ga0))
    (ω (k + 1)) (hω _).1 (hω _).2.le
  have hx : histInterp (ω k) e0 p0 c0 = .ok (e0 + (ω k - c0) / p0) := by
    rw [histInterp, rdiv_ok hp.ne']; rfl
  refine ⟨l, e0, e1, p0, c0, c1, e0 + (ω k - c0) / p0, m0, a0, ge0, ge1, gp0, gc0, gc1, ga0, b0, b1, ?_, s0, hp, ?_, ?_, ?_, ?_⟩
  · unfold EATable.sample
    simp only [hl, subIdx_of_le (show 1 ≤ l + 1 by omega), Nat.add_sub_cancel, bind, Except.bind, getAt_eq_ok.mpr gp0,
      getAt_eq_ok.mpr ge0, getAt_eq_ok.mpr gc0, getAt_eq_ok.mpr ga0, hr, if_true, hx, s0, pure, Except.pure]
  · field_simp; ring
  · have : 0 < (ω k - c0) / p0 := div_pos (by linarith) hp
    linarith
  · have : (ω k - c0) / p0 ≤ e1 - e0 := by rw [div_le_iff₀ hp]; linarith
    linarith
  · intro E' s q h1 h2 hq
    obtain ⟨n1, hn1, _⟩ := t.node_ok hv s (l + 1) (by omega)
    rw [EATable.pdfAt, jointPdf_cell (energy := t.energy) (m0 := q) (m1 := n1) hv.pc.values_sorted ge0 ge1 gp0 gp1
      (by rw [EATable.node, getAt_eq_ok.mpr ga0]; exact hq) hn1 h1 h2, if_pos hr]

end PNDL
