import Verif.Props.EATableLaw

/-! C114: the law of the cosines and energies of `TabularEnergyAngle`. -/
namespace PNDL
open MeasureTheory Spec Set
open scoped ENNReal

/-- The sampler of the distribution, given the two tables. -/
theorem tabEA_run {d : TabEnergyAngle} {E f mn0 mx0 mn1 mx1 : ℝ} {l : Nat} {t0 t1 : EATable} (hb : bracketIn d.energy E = .ok (l, f))
    (g0 : d.tables[l]? = some t0) (g1 : d.tables[l + 1]? = some t1) (a1 : t0.minEnergy = .ok mn0) (a2 : t0.maxEnergy = .ok mx0)
    (b1 : t1.minEnergy = .ok mn1) (b2 : t1.maxEnergy = .ok mx1) (ω : Tape) (k : Nat) :
    asPair (d.sample E ω k) = if ω k > f then (eaStretch t0 mn0 mx0 ((1 - f) * mn0 + f * mn1) ((1 - f) * mx0 + f * mx1) (ω (k + 1)) (ω (k + 2))).map fun x => (x, k + 3)
      else (eaStretch t1 mn1 mx1 ((1 - f) * mn0 + f * mn1) ((1 - f) * mx0 + f * mx1) (ω (k + 1)) (ω (k + 2))).map fun x => (x, k + 3) := by
  have hw1 : mn0 + f * (mn1 - mn0) = (1 - f) * mn0 + f * mn1 := by ring
  have hw2 : mx0 + f * (mx1 - mx0) = (1 - f) * mx0 + f * mx1 := by ring
  unfold TabEnergyAngle.sample asPair eaStretch
  simp only [eaOne_eq]
  simp only [bind, Except.bind, hb, getAt_eq_ok.mpr g0, getAt_eq_ok.mpr g1, unitBase, a1, a2, b1, b2, pure, Except.pure, hw1, hw2]
  by_cases hf : ω k > f
  · rw [if_pos hf, if_pos hf]
    cases eaOne t0 (ω (k + 1)) (ω (k + 1 + 1)) with
    | error e => rfl
    | ok p =>
      simp only [Except.map]
      cases rdiv (p.2 - mn0) (mx0 - mn0) <;> rfl
  · rw [if_neg hf, if_neg hf]
    cases eaOne t1 (ω (k + 1)) (ω (k + 1 + 1)) with
    | error e => rfl
    | ok p =>
      simp only [Except.map]
      cases rdiv (p.2 - mn1) (mx1 - mn1) <;> rfl

/-- What is known of a table in the mixture: its density, its angular densities and the number of the angular table used. -/
structure Spec.EALaw (t : EATable) (G : ℝ → ℝ) (q : Nat → ℝ → ℝ) (j : ℝ → Nat) : Prop where
  density : ∀ x, (eaPC t).pdfAt x = .ok (G x)
  angles : ∀ (i : Nat) a, t.angles[i]? = some a → ∀ mu, a.pdfAt mu = .ok (q i mu)
  index : AngleIndex t G j

theorem tabEA_closed (energy : List ℝ) (tables : List EATable) (d : TabEnergyAngle) (hd : TabEnergyAngle.make energy tables = .ok d) (hn : 2 ≤ energy.length)
    (ht : ∀ t ∈ tables, SoundEA t) (E : ℝ) :
    ∃ (l : Nat) (f : ℝ) (t0 t1 : EATable) (mn0 mx0 mn1 mx1 : ℝ) (G0 G1 : ℝ → ℝ) (q0 q1 : Nat → ℝ → ℝ) (j0 j1 : ℝ → Nat),
      bracketIn energy E = .ok (l, f) ∧ 0 ≤ f ∧ f ≤ 1 ∧
      tables[l]? = some t0 ∧ tables[l + 1]? = some t1 ∧ t0.minEnergy = .ok mn0 ∧ t0.maxEnergy = .ok mx0 ∧ t1.minEnergy = .ok mn1 ∧ t1.maxEnergy = .ok mx1 ∧
      mn0 < mx0 ∧ mn1 < mx1 ∧ EALaw t0 G0 q0 j0 ∧ EALaw t1 G1 q1 j1 ∧
      (∀ lo hi, lo < hi → (AEMeasurable (fun x : ℝ × ℝ => (mx0 - mn0) / (hi - lo) * (G0 ((x.2 - lo) / (hi - lo) * (mx0 - mn0) + mn0) *
          q0 (j0 ((x.2 - lo) / (hi - lo) * (mx0 - mn0) + mn0)) x.1)) (volume.restrict (Icc (-1) 1 ×ˢ Icc lo hi)) ∧
        IsProbabilityMeasure (jointLaw lo hi fun mu e => (mx0 - mn0) / (hi - lo) * (G0 ((e - lo) / (hi - lo) * (mx0 - mn0) + mn0) *
          q0 (j0 ((e - lo) / (hi - lo) * (mx0 - mn0) + mn0)) mu)) ∧
        ∀ mu e, 0 ≤ G0 e * q0 (j0 e) mu) ∧
        (AEMeasurable (fun x : ℝ × ℝ => (mx1 - mn1) / (hi - lo) * (G1 ((x.2 - lo) / (hi - lo) * (mx1 - mn1) + mn1) *
          q1 (j1 ((x.2 - lo) / (hi - lo) * (mx1 - mn1) + mn1)) x.1)) (volume.restrict (Icc (-1) 1 ×ˢ Icc lo hi)) ∧
        IsProbabilityMeasure (jointLaw lo hi fun mu e => (mx1 - mn1) / (hi - lo) * (G1 ((e - lo) / (hi - lo) * (mx1 - mn1) + mn1) *
          q1 (j1 ((e - lo) / (hi - lo) * (mx1 - mn1) + mn1)) mu)) ∧
        ∀ mu e, 0 ≤ G1 e * q1 (j1 e) mu)) ∧
      Closed (fun _ ω k => asPair (d.sample E ω k)) (jointLaw ((1 - f) * mn0 + f * mn1) ((1 - f) * mx0 + f * mx1)
        fun mu => stretched f mn0 mx0 mn1 mx1 (fun e => G0 e * q0 (j0 e) mu) fun e => G1 e * q1 (j1 e) mu) := by
  have hd' : isSorted energy = true ∧ energy.length = tables.length ∧ d = ⟨energy, tables⟩ := by
    unfold TabEnergyAngle.make at hd
    split at hd
    · cases hd
    split at hd
    · cases hd
    rename_i h1 h2
    exact ⟨by simpa using h1, by simpa using h2, (Except.ok.inj hd).symm⟩
  obtain ⟨z1, z2, rfl⟩ := hd'
  have hs : energy.Pairwise (· ≤ ·) := isSorted_iff.mp z1
  obtain ⟨first, h0⟩ := getElem?_of_lt (l := energy) (i := 0) (by omega)
  obtain ⟨last, hlast⟩ := last_exists (l := energy) (by omega)
  obtain ⟨l, f, _, _, hb, hlt, _, _, f0, f1, _⟩ := C67_bracket energy E first last hs hn h0 hlast
  obtain ⟨t0, g0⟩ := getElem?_of_lt (l := tables) (i := l) (by omega)
  obtain ⟨t1, g1⟩ := getElem?_of_lt (l := tables) (i := l + 1) (by omega)
  obtain ⟨mn0, mx0, G0, q0, j0, a1, a2, a3, a4, a5, a6, a7, _, a8⟩ := ea_law (ht t0 (List.mem_of_getElem? g0))
  obtain ⟨mn1, mx1, G1, q1, j1, b1, b2, b3, b4, b5, b6, b7, _, b8⟩ := ea_law (ht t1 (List.mem_of_getElem? g1))
  obtain ⟨lo, hlo⟩ : ∃ lo, lo = (1 - f) * mn0 + f * mn1 := ⟨_, rfl⟩
  obtain ⟨hi, hhi⟩ : ∃ hi, hi = (1 - f) * mx0 + f * mx1 := ⟨_, rfl⟩
  have hlh : lo < hi := by
    rcases f1.eq_or_lt with rfl | hf
    · rw [hlo, hhi]; linarith
    · rw [hlo, hhi]; nlinarith [mul_pos (sub_pos.mpr hf) (sub_pos.mpr a3), mul_nonneg f0 (sub_pos.mpr b3).le]
  obtain ⟨c1, c2⟩ := a8 lo hi hlh
  obtain ⟨d1, d2⟩ := b8 lo hi hlh
  have n0 : ∀ mu e, 0 ≤ G0 e * q0 (j0 e) mu := fun mu e => mul_nonneg (a4 e).2 (a6 _ _)
  have n1 : ∀ mu e, 0 ≤ G1 e * q1 (j1 e) mu := fun mu e => mul_nonneg (b4 e).2 (b6 _ _)
  refine ⟨l, f, t0, t1, mn0, mx0, mn1, mx1, G0, G1, q0, q1, j0, j1, hb, f0, f1, g0, g1, a1, a2, b1, b2, a3, b3,
    ⟨fun x => (a4 x).1, a5, a7⟩, ⟨fun x => (b4 x).1, b5, b7⟩, fun lo hi h => ?_, ?_⟩
  · exact ⟨⟨(a8 lo hi h).1, (a8 lo hi h).2.prob, n0⟩, (b8 lo hi h).1, (b8 lo hi h).2.prob, n1⟩
  · have hst : (fun mu => stretched f mn0 mx0 mn1 mx1 (fun e => G0 e * q0 (j0 e) mu) fun e => G1 e * q1 (j1 e) mu) = fun mu e =>
        (1 - f) * ((mx0 - mn0) / (hi - lo) * (G0 ((e - lo) / (hi - lo) * (mx0 - mn0) + mn0) * q0 (j0 ((e - lo) / (hi - lo) * (mx0 - mn0) + mn0)) mu)) +
          f * ((mx1 - mn1) / (hi - lo) * (G1 ((e - lo) / (hi - lo) * (mx1 - mn1) + mn1) * q1 (j1 ((e - lo) / (hi - lo) * (mx1 - mn1) + mn1)) mu)) := by
      funext mu e
      unfold stretched
      dsimp only
      rw [← hlo, ← hhi]
    have hdiv : ∀ w : ℝ, 0 < w → 0 ≤ w / (hi - lo) := fun w hw => div_nonneg hw.le (by linarith)
    rw [hst, ← hlo, ← hhi, jointLaw_mix f0 f1 c1 d1 (fun mu e _ _ _ _ => mul_nonneg (hdiv _ (sub_pos.mpr a3)) (n0 mu _))
      fun mu e _ _ _ _ => mul_nonneg (hdiv _ (sub_pos.mpr b3)) (n1 mu _)]
    refine (closed_mix f0 f1 c2 d2).of_eq fun fuel ω k => ?_
    rw [tabEA_run (d := ⟨energy, tables⟩) hb g0 g1 a1 a2 b1 b2, ← hlo, ← hhi]

/-- **C114**, the law of what `TabularEnergyAngle::sample_angle_energy` returns: at every incident energy, with the two tables next
to it and their weight, the energy has the density of the tables carried to the interpolated window, and the cosine, given the
energy, the density of the angular table `AngleIndex` names. -/
theorem C114_law (energy : List ℝ) (tables : List EATable) (d : TabEnergyAngle) (hd : TabEnergyAngle.make energy tables = .ok d) (hn : 2 ≤ energy.length)
    (ht : ∀ t ∈ tables, SoundEA t) (E : ℝ) :
    ∃ (l : Nat) (f : ℝ) (t0 t1 : EATable) (mn0 mx0 mn1 mx1 : ℝ) (G0 G1 : ℝ → ℝ) (q0 q1 : Nat → ℝ → ℝ) (j0 j1 : ℝ → Nat),
      bracketIn energy E = .ok (l, f) ∧ 0 ≤ f ∧ f ≤ 1 ∧
      tables[l]? = some t0 ∧ tables[l + 1]? = some t1 ∧ t0.minEnergy = .ok mn0 ∧ t0.maxEnergy = .ok mx0 ∧ t1.minEnergy = .ok mn1 ∧ t1.maxEnergy = .ok mx1 ∧
      EALaw t0 G0 q0 j0 ∧ EALaw t1 G1 q1 j1 ∧
      ∀ k, Samples (fun (_ : Nat) ω => asPair (d.sample E ω k)) (jointLaw ((1 - f) * mn0 + f * mn1) ((1 - f) * mx0 + f * mx1)
        fun mu => stretched f mn0 mx0 mn1 mx1 (fun e => G0 e * q0 (j0 e) mu) fun e => G1 e * q1 (j1 e) mu) := by
  obtain ⟨l, f, t0, t1, mn0, mx0, mn1, mx1, G0, G1, q0, q1, j0, j1, h1, h2, h3, h4, h5, h6, h7, h8, h9, _, _, h10, h11, _, h12⟩ := tabEA_closed energy tables d hd hn ht E
  exact ⟨l, f, t0, t1, mn0, mx0, mn1, mx1, G0, G1, q0, q1, j0, j1, h1, h2, h3, h4, h5, h6, h7, h8, h9, h10, h11, h12.samples⟩

/-! ### Histogram tables -/

/-- Between the energies of a histogram table the reported joint density is the product. -/
theorem ea_hist {t : EATable} (hv : ValidEA t) (hh : t.interp = .histogram) {mn mx e mu : ℝ} {G : ℝ → ℝ} {q : Nat → ℝ → ℝ} {j : ℝ → Nat}
    (hmn : t.minEnergy = .ok mn) (hmx : t.maxEnergy = .ok mx) (h0 : mn ≤ e) (h1 : e ≤ mx) (he : e ∉ t.energy) (hl : EALaw t G q j) :
    t.pdfAt mu e = .ok (G e * q (j e) mu) := by
  have hsort : t.energy.Pairwise (· ≤ ·) := hv.pc.values_sorted
  have m0 := front_eq_ok.mp hmn
  have m1 := back_eq_ok.mp hmx
  have l0 : mn < e := lt_of_le_of_ne h0 fun h => he (h ▸ List.mem_of_getElem? m0)
  have l1 : e < mx := lt_of_le_of_ne h1 fun h => he (h ▸ List.mem_of_getLast? m1)
  obtain ⟨i, x1, x2, e3, e1, e2, e4, e5⟩ := bracket_index hsort m0 m1 l0 l1.le
  have e5' : e < x2 := lt_of_le_of_ne e5 fun h => he (h ▸ List.mem_of_getElem? e2)
  have hlt := lt_length_of_some e2
  have hlP : t.pdf.length = t.energy.length := hv.pc.lenP
  have hlA := hv.lenA
  obtain ⟨p0, hp0⟩ := getElem?_of_lt (l := t.pdf) (i := i) (by omega)
  obtain ⟨p1, hp1⟩ := getElem?_of_lt (l := t.pdf) (i := i + 1) (by omega)
  obtain ⟨a, ha⟩ := getElem?_of_lt (l := t.angles) (i := i) (by omega)
  obtain ⟨b, hb⟩ := getElem?_of_lt (l := t.angles) (i := i + 1) (by omega)
  have n0 : t.node mu i = .ok (q i mu) := by rw [EATable.node, getAt_eq_ok.mpr ha]; exact hl.angles i a ha mu
  have n1 : t.node mu (i + 1) = .ok (q (i + 1) mu) := by rw [EATable.node, getAt_eq_ok.mpr hb]; exact hl.angles (i + 1) b hb mu
  have hc := jointPdf_cell (r := t.interp) hsort e1 e2 hp0 hp1 n0 n1 e4 e5'
  have hg := PCTable.pdfAt_cell hv.pc (t := eaPC t) e1 e2 hp0 hp1 e4 e5'
  have hj := hl.index i x1 x2 p0 p1 e e1 e2 hp0 hp1 e4 e5
  rw [if_pos (Or.inl hh)] at hj
  rw [if_pos hh] at hc
  have hh' : (eaPC t).interp = .histogram := hh
  rw [hl.density e, if_pos hh'] at hg
  rw [EATable.pdfAt, hc, hj, Except.ok.inj hg, mul_comm]

/-- A tabulated energy-angle distribution of histogram tables. -/
structure Spec.HistTabEA (d : TabEnergyAngle) : Prop where
  two : 2 ≤ d.energy.length
  made : TabEnergyAngle.make d.energy d.tables = .ok d
  tables : ∀ t ∈ d.tables, SoundEA t ∧ t.energy.Pairwise (· < ·) ∧ t.interp = .histogram

theorem tabEA_faithful {d : TabEnergyAngle} (hd : HistTabEA d) (E : ℝ) :
    ∃ (l : Nat) (f : ℝ) (t0 t1 : EATable) (mn0 mx0 mn1 mx1 : ℝ), bracketIn d.energy E = .ok (l, f) ∧
      d.tables[l]? = some t0 ∧ d.tables[l + 1]? = some t1 ∧ t0.minEnergy = .ok mn0 ∧ t0.maxEnergy = .ok mx0 ∧ t1.minEnergy = .ok mn1 ∧ t1.maxEnergy = .ok mx1 ∧
      mn0 < mx0 ∧ mn1 < mx1 ∧
      ((∃ k, SamplesJoint (fun fuel ω => ((Law.tabEnergyAngle d).toAE fuel).sample E ω k) ((1 - f) * mn0 + f * mn1) ((1 - f) * mx0 + f * mx1) (((Law.tabEnergyAngle d).toAE 0).pdf E)) →
        f = 0 ∨ f = 1 ∨ mx0 - mn0 = mx1 - mn1) ∧
      ((f = 0 ∨ f = 1 ∨ mx0 - mn0 = mx1 - mn1) → FaithfulAE (fun fuel => (Law.tabEnergyAngle d).toAE fuel) E ((1 - f) * mn0 + f * mn1) ((1 - f) * mx0 + f * mx1)) := by
  obtain ⟨l, f, t0, t1, mn0, mx0, mn1, mx1, G0, G1, q0, q1, j0, j1, h1, f0, f1, g0, g1, a1, a2, b1, b2, w0, w1, v0, v1, hcomp, hcl⟩ :=
    tabEA_closed d.energy d.tables d hd.made hd.two (fun t ht => (hd.tables t ht).1) E
  refine ⟨l, f, t0, t1, mn0, mx0, mn1, mx1, h1, g0, g1, a1, a2, b1, b2, w0, w1, ?_⟩
  obtain ⟨lo, hlo⟩ : ∃ lo, lo = (1 - f) * mn0 + f * mn1 := ⟨_, rfl⟩
  obtain ⟨hi, hhi⟩ : ∃ hi, hi = (1 - f) * mx0 + f * mx1 := ⟨_, rfl⟩
  have hW : hi - lo = (1 - f) * (mx0 - mn0) + f * (mx1 - mn1) := by rw [hlo, hhi]; ring
  have hlh : lo < hi := by
    rcases f1.eq_or_lt with rfl | hf
    · rw [hlo, hhi]; linarith
    · rw [hlo, hhi]; nlinarith [mul_pos (sub_pos.mpr hf) (sub_pos.mpr w0), mul_nonneg f0 (sub_pos.mpr w1).le]
  have hpos : 0 < hi - lo := by linarith
  obtain ⟨⟨x1, x2, x3⟩, y1, y2, y3⟩ := hcomp lo hi hlh
  obtain ⟨T0, S0, H0⟩ := hd.tables t0 (List.mem_of_getElem? g0)
  obtain ⟨T1, S1, H1⟩ := hd.tables t1 (List.mem_of_getElem? g1)
  choose P0 hP0 using fun mu e => C63_ea_pdf_partial t0 T0.valid S0 mn0 mx0 a1 a2 mu e (Or.inr H0)
  choose P1 hP1 using fun mu e => C63_ea_pdf_partial t1 T1.valid S1 mn1 mx1 b1 b2 mu e (Or.inr H1)
  have hw1 : mn0 + f * (mn1 - mn0) = lo := by rw [hlo]; ring
  have hw2 : mx0 + f * (mx1 - mx0) = hi := by rw [hhi]; ring
  have hpdf : ∀ mu e, d.pdfAt E mu e = .ok ((1 - f) * P0 mu ((e - lo) / (hi - lo) * (mx0 - mn0) + mn0) + f * P1 mu ((e - lo) / (hi - lo) * (mx1 - mn1) + mn1)) := by
    intro mu e
    unfold TabEnergyAngle.pdfAt
    simp only [bind, Except.bind, h1, getAt_eq_ok.mpr g0, getAt_eq_ok.mpr g1, unitBase, a1, a2, b1, b2, pure, Except.pure, hw1, hw2, rdiv_ok hpos.ne', (hP0 _ _).1, (hP1 _ _).1]
  have hin : ∀ mn mx : ℝ, mn < mx → ∀ e, lo ≤ e → e ≤ hi → mn ≤ (e - lo) / (hi - lo) * (mx - mn) + mn ∧ (e - lo) / (hi - lo) * (mx - mn) + mn ≤ mx := by
    intro mn mx h e z0 z1
    have q0 : 0 ≤ (e - lo) / (hi - lo) := div_nonneg (by linarith) hpos.le
    have q1 : (e - lo) / (hi - lo) ≤ 1 := (div_le_one hpos).mpr (by linarith)
    constructor <;> nlinarith
  have hinj : ∀ mn mx : ℝ, mn < mx → Function.Injective fun e : ℝ => (e - lo) / (hi - lo) * (mx - mn) + mn := by
    intro mn mx h x y hxy
    have h' : (x - lo) / (hi - lo) * (mx - mn) + mn = (y - lo) / (hi - lo) * (mx - mn) + mn := hxy
    have h2 : (mx - mn) * (x - y) = 0 := by field_simp at h'; linear_combination h'
    rcases mul_eq_zero.mp h2 with h2 | h2
    · linarith
    · linarith
  obtain ⟨F, hFd⟩ : ∃ F : Set ℝ, F = (fun e : ℝ => (e - lo) / (hi - lo) * (mx0 - mn0) + mn0) ⁻¹' {x | x ∈ t0.energy} ∪
      (fun e : ℝ => (e - lo) / (hi - lo) * (mx1 - mn1) + mn1) ⁻¹' {x | x ∈ t1.energy} := ⟨_, rfl⟩
  have hF : F.Countable := by
    rw [hFd]
    exact ((List.finite_toSet t0.energy).countable.preimage (hinj _ _ w0)).union ((List.finite_toSet t1.energy).countable.preimage (hinj _ _ w1))
  have hcl' : Closed (fun _ ω k => asPair (d.sample E ω k)) (jointLaw lo hi fun mu e =>
      (1 - f) * ((mx0 - mn0) / (hi - lo) * (G0 ((e - lo) / (hi - lo) * (mx0 - mn0) + mn0) * q0 (j0 ((e - lo) / (hi - lo) * (mx0 - mn0) + mn0)) mu)) +
        f * ((mx1 - mn1) / (hi - lo) * (G1 ((e - lo) / (hi - lo) * (mx1 - mn1) + mn1) * q1 (j1 ((e - lo) / (hi - lo) * (mx1 - mn1) + mn1)) mu))) := by
    rw [hlo, hhi]
    exact hcl
  obtain ⟨k1, k2⟩ := unitbase_iff (p := fun mu e => (1 - f) * P0 mu ((e - lo) / (hi - lo) * (mx0 - mn0) + mn0) + f * P1 mu ((e - lo) / (hi - lo) * (mx1 - mn1) + mn1))
    (q0 := fun mu e => G0 ((e - lo) / (hi - lo) * (mx0 - mn0) + mn0) * q0 (j0 ((e - lo) / (hi - lo) * (mx0 - mn0) + mn0)) mu)
    (q1 := fun mu e => G1 ((e - lo) / (hi - lo) * (mx1 - mn1) + mn1) * q1 (j1 ((e - lo) / (hi - lo) * (mx1 - mn1) + mn1)) mu)
    f0 f1 (sub_pos.mpr w0) (sub_pos.mpr w1) hW hF (by
      intro mu e _ _ z0 z1 hn
      rw [hFd] at hn
      simp only [mem_union, mem_preimage, Set.mem_ofPred_eq, not_or] at hn
      have c0 := ea_hist (mu := mu) T0.valid H0 a1 a2 (hin _ _ w0 e z0 z1).1 (hin _ _ w0 e z0 z1).2 hn.1 v0
      have c1 := ea_hist (mu := mu) T1.valid H1 b1 b2 (hin _ _ w1 e z0 z1).1 (hin _ _ w1 e z0 z1).2 hn.2 v1
      rw [(hP0 _ _).1] at c0
      rw [(hP1 _ _).1] at c1
      rw [Except.ok.inj c0, Except.ok.inj c1]) x1 y1 x2 y2 (fun mu e => x3 _ _) (fun mu e => y3 _ _) hcl'
  rw [← hlo, ← hhi]
  refine ⟨?_, fun h => ⟨_, fun fuel mu e _ _ _ _ => ⟨?_, ?_⟩, k2, k1.mpr h⟩⟩
  · rintro ⟨k, p, hp, hs⟩
    refine k1.mp ?_
    rw [← jointLaw_congr (p := p) (F := ∅) countable_empty fun mu e z0 z1 z2 z3 _ => by
      have h := hp mu e z0 z1 z2 z3
      change (d.pdfAt E mu e).map some = _ at h
      rw [hpdf] at h
      exact (Option.some.inj (Except.ok.inj h)).symm]
    exact hcl'.congr (k := k) hs
  · show (d.pdfAt E mu e).map some = _
    rw [hpdf]; rfl
  · exact add_nonneg (mul_nonneg (by linarith) (hP0 _ _).2.1) (mul_nonneg f0 (hP1 _ _).2.1)

/-- **C114**, histogram tables: at every incident energy the sampled cosines and energies have the joint density
`TabularEnergyAngle::pdf` reports exactly when only one table counts or the two tables next to it have the same width. -/
theorem C114_iff (d : TabEnergyAngle) (hd : HistTabEA d) (E : ℝ) :
    ∃ (l : Nat) (f : ℝ) (t0 t1 : EATable) (mn0 mx0 mn1 mx1 : ℝ), bracketIn d.energy E = .ok (l, f) ∧
      d.tables[l]? = some t0 ∧ d.tables[l + 1]? = some t1 ∧ t0.minEnergy = .ok mn0 ∧ t0.maxEnergy = .ok mx0 ∧ t1.minEnergy = .ok mn1 ∧ t1.maxEnergy = .ok mx1 ∧
      mn0 < mx0 ∧ mn1 < mx1 ∧
      ∀ k, SamplesJoint (fun (_ : Nat) ω => d.sample E ω k) ((1 - f) * mn0 + f * mn1) ((1 - f) * mx0 + f * mx1) (fun mu e => (d.pdfAt E mu e).map some) ↔
        f = 0 ∨ f = 1 ∨ mx0 - mn0 = mx1 - mn1 := by
  obtain ⟨l, f, t0, t1, mn0, mx0, mn1, mx1, h1, g0, g1, a1, a2, b1, b2, w0, w1, k1, k2⟩ := tabEA_faithful hd E
  exact ⟨l, f, t0, t1, mn0, mx0, mn1, mx1, h1, g0, g1, a1, a2, b1, b2, w0, w1, fun k => ⟨fun h => k1 ⟨k, h⟩, fun h => (k2 h).samples k⟩⟩

/-- C114 for histogram tables that all have the same width: at every incident energy the samples have the density reported.
Missing: tables of different widths (`C114_iff`) and linearly interpolated tables (`C114_violation`). -/
theorem C114_samples_partial (d : TabEnergyAngle) (hd : HistTabEA d) (w : ℝ) (hw : ∀ t ∈ d.tables, ∀ mn mx, t.minEnergy = .ok mn → t.maxEnergy = .ok mx → mx - mn = w) (E : ℝ) :
    ∃ lo hi, lo < hi ∧ ∀ k, SamplesJoint (fun (_ : Nat) ω => d.sample E ω k) lo hi fun mu e => (d.pdfAt E mu e).map some := by
  obtain ⟨l, f, t0, t1, mn0, mx0, mn1, mx1, _, g0, g1, a0, b0, a1, b1, w0, _, hk⟩ := C114_iff d hd E
  have e1 := hw t0 (List.mem_of_getElem? g0) mn0 mx0 a0 b0
  have e2 := hw t1 (List.mem_of_getElem? g1) mn1 mx1 a1 b1
  refine ⟨_, _, ?_, fun k => (hk k).mpr (Or.inr (Or.inr (e1.trans e2.symm)))⟩
  have : (1 - f) * mx0 + f * mx1 = (1 - f) * mn0 + f * mn1 + w := by linear_combination (1 - f) * e1 + f * e2
  linarith

/-- A uniform histogram table on `[0, w]`, backward in the lower half and forward in the upper half. -/
noncomputable def Spec.histEA (w : ℝ) : EATable := ⟨[0, w / 2, w], [1 / w, 1 / w, 1 / w], [0, 1 / 2, 1], [backward, forward, forward], .histogram⟩

theorem histEA_sound {w : ℝ} (hw : 0 < w) : SoundEA (histEA w) ∧ (histEA w).energy.Pairwise (· < ·) ∧ (histEA w).interp = .histogram := by
  have h : ¬ (w⁻¹ < 0) := by simpa using hw.le
  have hh : 0 < w / 2 := by linarith
  have hh2 : w / 2 < w := by linarith
  have hm : EATable.make [0, w / 2, w] [1 / w, 1 / w, 1 / w] [0, 1 / 2, 1] [backward, forward, forward] .histogram = .ok (histEA w) := by
    norm_num [EATable.make, checkJoint, isSorted, back, getAt, bind, Except.bind, pure, Except.pure, histEA, hw.le, h, not_lt.mpr hw.le, hh.le, hh2.le, not_lt.mpr hh2.le, not_lt.mpr hh.le]
  obtain ⟨s1, s2, _⟩ := skew_parts
  have hb : ConsistentPC backward := two_consistent (t := backward) rfl rfl rfl (by norm_num [cellArea, backward])
  have hf : ConsistentPC forward := two_consistent (t := forward) rfl rfl rfl (by norm_num [cellArea, forward])
  refine ⟨⟨(EATable.make_valid hm rfl rfl rfl ?_).1, ⟨rfl, ?_⟩, ?_⟩, ?_, rfl⟩
  · intro a ha
    simp only [List.mem_cons, List.not_mem_nil, or_false, or_self] at ha
    rcases ha with rfl | rfl
    · exact (PCTable.make_valid s1).1
    · exact (PCTable.make_valid s2).1
  · intro i v0 v1 p0 p1 c0 c1 h1 h2 h3 h4 h5 h6
    have hi : i = 0 ∨ i = 1 := by
      have := lt_length_of_some h2
      simp [histEA, eaPC] at this
      omega
    rcases hi with rfl | rfl
    · simp [histEA, eaPC] at h1 h2 h3 h4 h5 h6
      subst h1 h2 h3 h4 h5 h6
      rw [cellArea, if_pos (by rfl)]
      field_simp
      ring
    · simp [histEA, eaPC] at h1 h2 h3 h4 h5 h6
      subst h1 h2 h3 h4 h5 h6
      rw [cellArea, if_pos (by rfl)]
      field_simp
  · intro a ha
    simp only [histEA, List.mem_cons, List.not_mem_nil, or_false, or_self] at ha
    rcases ha with rfl | rfl
    · exact ⟨hb, -1, 0, rfl, rfl, le_rfl, by norm_num⟩
    · exact ⟨hf, 0, 1, rfl, rfl, by norm_num, le_rfl⟩
  · simp [histEA, hw, hh2]

/-- The hypotheses of `C114_law`, `C114_iff` and `C114_samples_partial` are met. -/
theorem histTabEA_ok {w0 w1 : ℝ} (h0 : 0 < w0) (h1 : 0 < w1) : HistTabEA ⟨[1, 3], [histEA w0, histEA w1]⟩ := by
  refine ⟨by simp, by norm_num [TabEnergyAngle.make, isSorted], fun t ht => ?_⟩
  simp only [List.mem_cons, List.not_mem_nil, or_false] at ht
  rcases ht with rfl | rfl
  · exact histEA_sound h0
  · exact histEA_sound h1

/-- The full claim is false of the code: half-way between a table on `[0, 1]` and one on `[0, 2]`. -/
theorem C114_violation_widths : ∃ d, TabEnergyAngle.make [1, 3] [histEA 1, histEA 2] = .ok d ∧ ∀ k,
    ¬ SamplesJoint (fun (_ : Nat) ω => d.sample 2 ω k) 0 (3 / 2) fun mu e => (d.pdfAt 2 mu e).map some := by
  refine ⟨⟨[1, 3], [histEA 1, histEA 2]⟩, by norm_num [TabEnergyAngle.make, isSorted], fun k h => ?_⟩
  obtain ⟨l, f, t0, t1, mn0, mx0, mn1, mx1, hb, g0, g1, a0, b0, a1, b1, _, _, hk⟩ := C114_iff _ (histTabEA_ok one_pos two_pos) 2
  have hb' : bracketIn [(1 : ℝ), 3] 2 = .ok (0, 1 / 2) := by
    norm_num [bracketIn, lowerBound, lowerBoundRange, bisect, front, getAt, bind, Except.bind, pure, Except.pure, subIdx,
      rdiv]
  rw [show (⟨[1, 3], [histEA 1, histEA 2]⟩ : TabEnergyAngle).energy = [1, 3] from rfl, hb'] at hb
  cases hb
  cases g0
  cases g1
  cases a0
  cases b0
  cases a1
  cases b1
  have := hk k
  norm_num at this
  exact this h

theorem skew_sound : SoundEA skew := by
  obtain ⟨s1, s2, s3⟩ := skew_parts
  refine ⟨(EATable.make_valid s3 rfl rfl rfl ?_).1, triangle_ok.2, ?_⟩
  · intro a ha
    simp only [List.mem_cons, List.not_mem_nil, or_false] at ha
    rcases ha with rfl | rfl
    · exact (PCTable.make_valid s1).1
    · exact (PCTable.make_valid s2).1
  · intro a ha
    simp only [skew, List.mem_cons, List.not_mem_nil, or_false] at ha
    rcases ha with rfl | rfl
    · exact ⟨two_consistent (t := backward) rfl rfl rfl (by norm_num [cellArea, backward]), -1, 0, rfl, rfl, le_rfl, by norm_num⟩
    · exact ⟨two_consistent (t := forward) rfl rfl rfl (by norm_num [cellArea, forward]), 0, 1, rfl, rfl, by norm_num, le_rfl⟩

/-- The full claim is false of the code for linearly interpolated tables, even if the undefined value at the last energy is left
out (`C63_violation_ea`): in `skew` the density of the backward cosines is reported as zero, and half of the samples have one. -/
theorem C114_violation : SoundEA skew ∧ ∃ d, TabEnergyAngle.make [1, 3] [skew, skew] = .ok d ∧ ∀ (k : Nat) (p : ℝ → ℝ → ℝ),
    (∀ mu e, -1 ≤ mu → mu ≤ 1 → 0 < e → e < 1 → d.pdfAt 2 mu e = .ok (p mu e)) →
    ¬ Samples (fun (_ : Nat) ω => asPair (d.sample 2 ω k)) (jointLaw 0 1 p) := by
  have hm : TabEnergyAngle.make [1, 3] [skew, skew] = .ok ⟨[1, 3], [skew, skew]⟩ := by norm_num [TabEnergyAngle.make, isSorted]
  refine ⟨skew_sound, _, hm, fun k p hp hs => ?_⟩
  have hb : bracketIn [(1 : ℝ), 3] 2 = .ok (0, 1 / 2) := by
    norm_num [bracketIn, lowerBound, lowerBoundRange, bisect, front, getAt, bind, Except.bind, pure, Except.pure, subIdx,
      rdiv]
  have i1 : getAt [skew, skew] 0 = .ok skew := rfl
  have i2 : getAt [skew, skew] (0 + 1) = .ok skew := rfl
  have i3 : skew.minEnergy = .ok 0 := rfl
  have i4 : skew.maxEnergy = .ok 1 := rfl
  have hpz : ∀ mu e, -1 < mu → mu < 0 → 0 < e → e < 1 → p mu e = 0 := by
    intro mu e m0 m1 h0 h1
    have h := hp mu e m0.le (by linarith) h0 h1
    unfold TabEnergyAngle.pdfAt at h
    dsimp only at h
    rw [hb] at h
    simp only [bind, Except.bind, i1, i2, i3, i4, unitBase, pure, Except.pure] at h
    have n0 : skew.node mu 0 = .ok 1 := backward_pdf_in m0 m1
    have n1 : skew.node mu 1 = .ok 0 := forward_pdf m1
    have hc := jointPdf_cell (r := skew.interp) (pdf := skew.pdf) (energy := skew.energy) skew_sound.valid.pc.values_sorted (l := 0) (e0 := 0) (e1 := 1) (p0 := 0) (p1 := 2) rfl rfl rfl rfl n0 n1 h0 h1
    rw [if_neg (show ¬ skew.interp = .histogram by simp [skew])] at hc
    norm_num [rdiv] at h
    rw [EATable.pdfAt, hc] at h
    norm_num at h
    linarith
  have hlaw : jointLaw 0 1 p (Ioo (-1) 0 ×ˢ univ) = 0 := by
    have hS : MeasurableSet (Ioo (-1 : ℝ) 0 ×ˢ (univ : Set ℝ)) := measurableSet_Ioo.prod MeasurableSet.univ
    rw [jointLaw_congr (q := fun mu e => if -1 < mu ∧ mu < 0 then 0 else p mu e) (F := {0, 1}) (by simp) fun mu e z0 z1 z2 z3 hn => by
      simp only [mem_insert_iff, mem_singleton_iff, not_or] at hn
      by_cases h : -1 < mu ∧ mu < 0
      · rw [if_pos h]
        exact hpz mu e h.1 h.2 (lt_of_le_of_ne z2 (Ne.symm hn.1)) (lt_of_le_of_ne z3 hn.2)
      · rw [if_neg h]]
    unfold jointLaw
    rw [withDensity_apply _ hS]
    refine (setLIntegral_congr_fun (g := fun _ => 0) hS fun x hx => ?_).trans (by simp)
    show ENNReal.ofReal (if -1 < x.1 ∧ x.1 < 0 then 0 else p x.1 x.2) = 0
    rw [if_pos (show -1 < x.1 ∧ x.1 < 0 from hx.1), ENNReal.ofReal_zero]
  have hev := hs (Ioo (-1) 0 ×ˢ univ) (measurableSet_Ioo.prod MeasurableSet.univ)
  rw [hlaw] at hev
  have hsub : {ω : Tape | ω (k + 1) ∈ Ioo 0 (1 / 2)} ≤ᵐ[Spec.iid] {ω | ∃ (fuel : Nat) (x : ℝ × ℝ) (k' : Nat), asPair ((⟨[1, 3], [skew, skew]⟩ : TabEnergyAngle).sample 2 ω k) = .ok (x, k') ∧ x ∈ Ioo (-1) 0 ×ˢ univ} := by
    filter_upwards [iid_open] with ω hω h
    have h' : 0 < ω (k + 1) ∧ ω (k + 1) < 1 / 2 := h
    obtain ⟨mu, e, h1, h2, h3, _⟩ := C84_violation ω (k + 1) h'.1 h'.2 (hω (k + 1 + 1)).1 (hω (k + 1 + 1)).2
    rw [eaOne_eq] at h1
    cases hq : eaOne skew (ω (k + 1)) (ω (k + 1 + 1)) with
    | error e => rw [hq] at h1; cases h1
    | ok q =>
      rw [hq] at h1
      simp only [Except.map, Except.ok.injEq, Prod.mk.injEq] at h1
      have hst : ∀ lo hi, eaStretch skew 0 1 lo hi (ω (k + 1)) (ω (k + 2)) = .ok (q.1, lo + (q.2 - 0) / (1 - 0) * (hi - lo)) := by
        intro lo hi
        unfold eaStretch
        rw [hq]
        simp only [bind, Except.bind, rdiv_ok (show (1 : ℝ) - 0 ≠ 0 by norm_num)]
        rfl
      refine ⟨0, (q.1, ((1 - 1 / 2) * 0 + 1 / 2 * 0) + (q.2 - 0) / (1 - 0) * (((1 - 1 / 2) * 1 + 1 / 2 * 1) - ((1 - 1 / 2) * 0 + 1 / 2 * 0))), k + 3, ?_, ?_, trivial⟩
      · rw [tabEA_run (d := ⟨[1, 3], [skew, skew]⟩) hb rfl rfl i3 i4 i3 i4, hst]
        split_ifs <;> rfl
      · rw [h1.1]
        exact ⟨h2, h3⟩
  have hz := le_antisymm ((measure_mono_ae hsub).trans hev.le) bot_le
  rw [iid_draw (k + 1) measurableSet_Ioo, Spec.unif, Measure.restrict_apply measurableSet_Ioo, inter_eq_left.mpr
    (Ioo_subset_Icc_self.trans (Icc_subset_Icc le_rfl (by norm_num)))] at hz
  norm_num at hz

end PNDL
