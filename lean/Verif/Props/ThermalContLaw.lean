import Verif.Props.ThermalDist
import Verif.Props.ThermalCont
import Verif.Props.EATableLaw

/-! C126: the law of incoherent inelastic scattering with continuous outgoing energies. -/
namespace PNDL
open MeasureTheory Spec Set
open scoped ENNReal

/-- What a table of outgoing energies says: on `[a, b]`, from its first to its last energy, the density `G` is linear between the
tabulated values and has total one; and at an outgoing energy with cumulative probability `C`, strictly between the tabulated
cumulatives `c0` and `c1` of two neighbouring entries, the discrete cosines are those of the two entries mixed in the
proportion `(C - c0) / (c1 - c0)`. -/
structure Spec.Outgoing (t : CEDCTable) (a b : ℝ) (G : ℝ → ℝ) (cos : ℝ → Nat → ℝ) : Prop where
  first : t.energy[0]? = some a
  last : t.energy.getLast? = some b
  window : a < b
  nonneg : ∀ e, 0 ≤ G e
  density : ∀ (i : Nat) (e0 e1 p0 p1 e : ℝ), t.energy[i]? = some e0 → t.energy[i + 1]? = some e1 → t.pdf[i]? = some p0 → t.pdf[i + 1]? = some p1 →
    e0 < e → e < e1 → G e = p0 + (p1 - p0) / (e1 - e0) * (e - e0)
  integrable : IntervalIntegrable G volume a b
  total : ∫ s in a..b, G s = 1
  cosines : ∀ (i : Nat) (c0 c1 e : ℝ) (u v : List ℝ), t.cdf[i]? = some c0 → t.cdf[i + 1]? = some c1 → t.cosines[i]? = some u → t.cosines[i + 1]? = some v →
    c0 < ∫ s in a..e, G s → ∫ s in a..e, G s < c1 → ∀ j, cos e j = mixedCosine u v (((∫ s in a..e, G s) - c0) / (c1 - c0)) j
  measurable : ∀ j, Measurable fun e => cos e j

/-- The law of the pair of a cosine and an energy: an outgoing energy `e` drawn from `ν`, one of the `n` cosines that belong to it with
probability `1 / n`, smeared uniformly; the energy returned is `T e`. -/
noncomputable def Spec.smearedJoint (ν : Measure ℝ) (cos : ℝ → Nat → ℝ) (n : Nat) (T : ℝ → ℝ) : Measure (ℝ × ℝ) :=
  ∑ j ∈ Finset.range n, ENNReal.ofReal (1 / n) • (ν.prod Spec.unif).map fun q => (cos q.1 j + smearWidth (cos q.1) n j * (q.2 - 1 / 2), T q.1)

/-- The discrete cosines as a function of the cumulative probability. -/
noncomputable def cosAt (t : CEDCTable) (xi : ℝ) (j : Nat) : ℝ :=
  mixedCosine (t.cosines.getD (lowerBound t.cdf xi - 1) []) (t.cosines.getD (lowerBound t.cdf xi - 1 + 1) [])
    ((xi - t.cdf.getD (lowerBound t.cdf xi - 1) 0) / (t.cdf.getD (lowerBound t.cdf xi - 1 + 1) 0 - t.cdf.getD (lowerBound t.cdf xi - 1) 0)) j

theorem cosAt_measurable {t : CEDCTable} (hs : t.cdf.Pairwise (· ≤ ·)) (j : Nat) : Measurable fun xi => cosAt t xi j := by
  have h : Measurable fun p : Nat × ℝ => mixedCosine (t.cosines.getD (p.1 - 1) []) (t.cosines.getD (p.1 - 1 + 1) [])
      ((p.2 - t.cdf.getD (p.1 - 1) 0) / (t.cdf.getD (p.1 - 1 + 1) 0 - t.cdf.getD (p.1 - 1) 0)) j := by
    refine measurable_from_prod_countable_right fun n => ?_
    have : ∀ A B C D : ℝ, Measurable fun y : ℝ => (1 - (y - A) / B) * C + (y - A) / B * D := fun A B C D => by fun_prop
    exact this (t.cdf.getD (n - 1) 0) (t.cdf.getD (n - 1 + 1) 0 - t.cdf.getD (n - 1) 0) ((t.cosines.getD (n - 1) []).getD j 0)
      ((t.cosines.getD (n - 1 + 1) []).getD j 0)
  exact h.comp ((measurable_lowerBound hs).prodMk measurable_id)

theorem cosAt_eq {t : CEDCTable} (hs : t.cdf.Pairwise (· ≤ ·)) {i : Nat} {c0 c1 xi : ℝ} {u v : List ℝ} (h0 : t.cdf[i]? = some c0)
    (h1 : t.cdf[i + 1]? = some c1) (hu : t.cosines[i]? = some u) (hv : t.cosines[i + 1]? = some v) (a : c0 < xi) (b : xi < c1) (j : Nat) :
    cosAt t xi j = mixedCosine u v ((xi - c0) / (c1 - c0)) j := by
  have q1 := (lowerBound_iff hs xi h0).mp a
  have q2 := mt (lowerBound_iff hs xi h1).mpr (not_lt.mpr b.le)
  have hl : lowerBound t.cdf xi = i + 1 := by omega
  unfold cosAt
  rw [hl, Nat.add_sub_cancel, getD_val h0, getD_val h1, List.getD_eq_getElem?_getD, List.getD_eq_getElem?_getD, hu, hv]
  rfl

theorem smearWidth_measurable {cos : ℝ → Nat → ℝ} (h : ∀ j, Measurable fun e => cos e j) (n j : Nat) : Measurable fun e => smearWidth (cos e) n j := by
  have h0 := h j
  have h1 := h (j - 1)
  have h2 := h (j + 1)
  unfold smearWidth
  refine Measurable.min ?_ ?_
  · by_cases hj : j = 0
    · simp only [if_pos hj]; fun_prop
    · simp only [if_neg hj]; fun_prop
  · by_cases hj : j + 1 = n
    · simp only [if_pos hj]; fun_prop
    · simp only [if_neg hj]; fun_prop

theorem energyPart_valid {nmu : Nat} {t : CEDCTable} (hv : ValidCEDC nmu t) (hg : GoodCEDC t) : ValidPC (energyPart t) :=
  ⟨Or.inr rfl, hv.lenP, hv.lenC, hv.ne, hv.sortedE, fun _ _ _ _ hij ha hb => (min_le_left _ _).trans (pairwise_le_getElem? hv.sortedC hij ha hb), hg.last,
    hv.pdf_nonneg⟩

/-- One table: the energy and the cosine as functions of the random numbers. -/
theorem cedc_law {nmu : Nat} (hn : 0 < nmu) {t : CEDCTable} (hv : ValidCEDC nmu t) (hg : GoodCEDC t) (hc : ConsistentPC (energyPart t)) :
    ∃ (a b : ℝ) (G h : ℝ → ℝ) (cos : ℝ → Nat → ℝ), Outgoing t a b G cos ∧ Measurable h ∧ Spec.unif.map h = densityOn a b G ∧
      ∀ xi, 0 < xi → xi < 1 → xi ∉ t.cdf → a ≤ h xi ∧ h xi ≤ b ∧ ∃ i, t.sampleEnergy xi = .ok (h xi, i) ∧ ∀ r1 r2, 0 < r1 → r1 < 1 → 0 < r2 → r2 < 1 →
        t.sampleMu nmu i xi r1 r2 = .ok (cos (h xi) ⌊(nmu : ℝ) * r1⌋₊ + smearWidth (cos (h xi)) nmu ⌊(nmu : ℝ) * r1⌋₊ * (r2 - 1 / 2)) := by
  have hpv := energyPart_valid hv hg
  obtain ⟨a, b, G, h, ha, hb, hle, hG, hz, hi, htot, hm, hs, hlaw⟩ := pctable_law (energyPart t) hpv hc
  have hGi : Integrable G := by
    rw [← integrableOn_iff_integrable_of_support_subset (s := Icc a b)]
    · exact (intervalIntegrable_iff_integrableOn_Icc_of_le hle).mp hi
    · intro x hx
      by_contra hne
      apply hx
      apply hz
      by_contra hc
      rw [not_or, not_lt, not_lt] at hc
      exact hne hc
  have hC : Measurable fun e => ∫ s in a..e, G s :=
    (intervalIntegral.continuous_primitive (fun _ _ => hGi.intervalIntegrable) a).measurable
  have hab : a < b := by
    rcases hle.lt_or_eq with h | h
    · exact h
    · rw [h] at htot; simp at htot
  refine ⟨a, b, G, h, fun e => cosAt t (∫ s in a..e, G s), ⟨front_eq_ok.mp ha, back_eq_ok.mp hb, hab, fun e => (hG e).2, ?_, hi, htot, ?_, ?_⟩, hm, hlaw, ?_⟩
  · intro i e0 e1 p0 p1 e h0 h1 h2 h3 q0 q1
    have := C34_between (energyPart t) hpv i e0 e1 p0 p1 e h0 h1 h2 h3 q0 q1
    rw [(hG e).1] at this
    exact Except.ok.inj this
  · intro i c0 c1 e u v h0 h1 hu hv' q0 q1 j
    exact cosAt_eq hv.sortedC h0 h1 hu hv' q0 q1 j
  · intro j
    exact (cosAt_measurable hv.sortedC j).comp hC
  · intro xi x0 x1 hne
    obtain ⟨hsx, b0, b1⟩ := hs xi x0.le x1.le
    refine ⟨b0, b1, ?_⟩
    obtain ⟨x, mn, f1, f2, _, f4⟩ := C33_inverts_cdf (energyPart t) hpv hc G (fun x => (hG x).1) xi x0.le x1.le
    rw [ha] at f2; cases f2
    rw [hsx] at f1; cases f1
    rcases (energyPart t).sample_cases hpv hc.start x0.le x1.le with ⟨l, v, e1, _⟩ | ⟨l, v0, v1, p0, p1, c0, c1, e1, e2, e3, e4, e5, e6, z0, z1, e⟩
    · exact absurd (List.mem_of_getElem? e1) hne
    · simp only [energyPart] at e1 e2 e3 e4 e5 e6
      have q1 := (lowerBound_iff hv.sortedC xi e5).mp z0
      have q2 := mt (lowerBound_iff hv.sortedC xi e6).mpr (not_lt.mpr z1.le)
      have hl : lowerBound t.cdf xi = l + 1 := by omega
      have hlt := lt_length_of_some e6
      refine ⟨l, ?_, ?_⟩
      · have hE : (if p0 = p1 then histInterp xi v0 p0 c0 else linInterp xi v0 v1 p0 p1 c0 : Res ℝ) = .ok (h xi) := by
          rw [← hsx, e]
          unfold cellSample
          by_cases hp : p0 = p1
          · rw [if_pos hp, if_pos (Or.inr hp)]
          · rw [if_neg hp, if_neg (by simp [energyPart, hp])]
        unfold CEDCTable.sampleEnergy
        dsimp only
        rw [hl, if_neg (by omega), if_neg (by omega), subIdx_of_le (by omega), Nat.add_sub_cancel]
        simp only [bind, Except.bind, getAt_eq_ok.mpr e1, getAt_eq_ok.mpr e2, getAt_eq_ok.mpr e3, getAt_eq_ok.mpr e4, getAt_eq_ok.mpr e5, hE]
        rfl
      · intro r1 r2 a0 a1 b0 b1
        obtain ⟨mu, u, v, m1, _, _, hu, hv', m2⟩ := t.sampleMu_ok hv hn e5 e6 z0.le z1.le (z0.trans z1) a0.le a1 b0.le b1
        rw [m1, ← m2]
        show _ = Except.ok (cosAt t (∫ s in a..h xi, G s) _ + smearWidth (cosAt t (∫ s in a..h xi, G s)) _ _ * _)
        rw [f4]
        have hj := floor_lt_of_unit hn a0.le a1
        rw [smear_eq (hv.cosines u (List.mem_of_getElem? hu)).len (hv.cosines v (List.mem_of_getElem? hv')).len _ _ hj]
        have : cosAt t xi = mixedCosine u v ((xi - c0) / (c1 - c0)) := funext fun j => cosAt_eq hv.sortedC e5 e6 hu hv' z0 z1 j
        rw [this]

/-! ### The laws of the pairs -/

theorem pair_measurable {h : ℝ → ℝ} {cos : ℝ → Nat → ℝ} {T : ℝ → ℝ} (n : Nat) (hh : Measurable h) (hc : ∀ j, Measurable fun e => cos e j) (hT : Measurable T) :
    Measurable fun p : ℝ × ℝ × ℝ => (cos (h p.1) ⌊(n : ℝ) * p.2.1⌋₊ + smearWidth (cos (h p.1)) n ⌊(n : ℝ) * p.2.1⌋₊ * (p.2.2 - 1 / 2), T (h p.1)) := by
  have h1 : Measurable fun q : ℝ × Nat => cos q.1 q.2 := measurable_from_prod_countable_left fun j => hc j
  have h2 : Measurable fun q : ℝ × Nat => smearWidth (cos q.1) n q.2 := measurable_from_prod_countable_left fun j => smearWidth_measurable hc n j
  have h3 : Measurable fun p : ℝ × ℝ × ℝ => (h p.1, ⌊(n : ℝ) * p.2.1⌋₊) :=
    (hh.comp measurable_fst).prodMk ((measurable_floor_mul n).comp (measurable_fst.comp measurable_snd))
  have h4 : Measurable fun p : ℝ × ℝ × ℝ => p.2.2 - 1 / 2 := (measurable_snd.comp measurable_snd).sub_const _
  exact ((h1.comp h3).add ((h2.comp h3).mul h4)).prodMk (hT.comp (hh.comp measurable_fst))

theorem smeared_apply {h : ℝ → ℝ} {cos : ℝ → Nat → ℝ} {T : ℝ → ℝ} {n : Nat} (hn : 0 < n) (hh : Measurable h) (hc : ∀ j, Measurable fun e => cos e j)
    (hT : Measurable T) {S : Set (ℝ × ℝ)} (hS : MeasurableSet S) :
    ∫⁻ x, ∫⁻ y, ∫⁻ z, S.indicator 1 (cos (h x) ⌊(n : ℝ) * y⌋₊ + smearWidth (cos (h x)) n ⌊(n : ℝ) * y⌋₊ * (z - 1 / 2), T (h x)) ∂Spec.unif ∂Spec.unif ∂Spec.unif
      = smearedJoint (Spec.unif.map h) cos n T S := by
  have hind : Measurable (S.indicator (1 : ℝ × ℝ → ℝ≥0∞)) := measurable_one.indicator hS
  have hF : ∀ j, Measurable fun q : ℝ × ℝ => (cos q.1 j + smearWidth (cos q.1) n j * (q.2 - 1 / 2), T q.1) := by
    intro j
    have q1 : Measurable fun q : ℝ × ℝ => cos q.1 j := (hc j).comp measurable_fst
    have q2 : Measurable fun q : ℝ × ℝ => smearWidth (cos q.1) n j := (smearWidth_measurable hc n j).comp measurable_fst
    have q3 : Measurable fun q : ℝ × ℝ => q.2 - 1 / 2 := measurable_snd.sub_const _
    exact (q1.add (q2.mul q3)).prodMk (hT.comp measurable_fst)
  have hinner : ∀ x, ∫⁻ y, ∫⁻ z, S.indicator 1 (cos (h x) ⌊(n : ℝ) * y⌋₊ + smearWidth (cos (h x)) n ⌊(n : ℝ) * y⌋₊ * (z - 1 / 2), T (h x)) ∂Spec.unif ∂Spec.unif =
      ∑ j ∈ Finset.range n, ENNReal.ofReal (1 / n) * ∫⁻ z, S.indicator 1 (cos (h x) j + smearWidth (cos (h x)) n j * (z - 1 / 2), T (h x)) ∂Spec.unif := by
    intro x
    obtain ⟨Φ, hΦ⟩ : ∃ Φ : Nat → ℝ≥0∞, Φ = fun j => ∫⁻ z, S.indicator 1 (cos (h x) j + smearWidth (cos (h x)) n j * (z - 1 / 2), T (h x)) ∂Spec.unif := ⟨_, rfl⟩
    have hm : Measurable Φ := measurable_from_nat
    have hl := floor_law hn (v := fun j : Nat => j)
    have : ∫⁻ y, Φ ⌊(n : ℝ) * y⌋₊ ∂Spec.unif = ∫⁻ j, Φ j ∂(Spec.unif.map fun y : ℝ => ⌊(n : ℝ) * y⌋₊) := (lintegral_map hm (measurable_floor_mul n)).symm
    rw [hl, lintegral_finsetSum_measure] at this
    simp only [lintegral_smul_measure, lintegral_dirac, smul_eq_mul] at this
    rw [hΦ] at this
    exact this
  simp only [hinner]
  have hzm : ∀ j, Measurable fun x => ∫⁻ z, S.indicator (1 : ℝ × ℝ → ℝ≥0∞) (cos (h x) j + smearWidth (cos (h x)) n j * (z - 1 / 2), T (h x)) ∂Spec.unif := by
    intro j
    have : Measurable fun q : ℝ × ℝ => S.indicator (1 : ℝ × ℝ → ℝ≥0∞) (cos (h q.1) j + smearWidth (cos (h q.1)) n j * (q.2 - 1 / 2), T (h q.1)) :=
      hind.comp ((hF j).comp ((hh.comp measurable_fst).prodMk measurable_snd))
    exact this.lintegral_prod_right'
  rw [lintegral_finsetSum _ fun j _ => (hzm j).const_mul _, smearedJoint, Measure.finsetSum_apply]
  refine Finset.sum_congr rfl fun j _ => ?_
  rw [lintegral_const_mul _ (hzm j), Measure.smul_apply, smul_eq_mul, Measure.map_apply (hF j) hS, ← lintegral_indicator_one (hF j hS),
    lintegral_prod (f := fun q : ℝ × ℝ => ((fun q : ℝ × ℝ => (cos q.1 j + smearWidth (cos q.1) n j * (q.2 - 1 / 2), T q.1)) ⁻¹' S).indicator 1 q)
      (measurable_one.indicator (hF j hS)).aemeasurable]
  congr 1
  refine ((lintegral_map (f := fun e => ∫⁻ z, ((fun q : ℝ × ℝ => (cos q.1 j + smearWidth (cos q.1) n j * (q.2 - 1 / 2), T q.1)) ⁻¹' S).indicator 1 (e, z) ∂Spec.unif) ?_ hh).trans ?_).symm
  · exact (measurable_one.indicator (hF j hS)).lintegral_prod_right'
  · rfl

/-- Outside a countable set of random numbers the draws are as said, almost surely. -/
theorem iid_notMem (k : Nat) {F : Set ℝ} (hF : F.Countable) : ∀ᵐ ω ∂Spec.iid, ω k ∉ F := by
  rw [ae_iff]
  have := iid_draw k hF.measurableSet
  simp only [not_not]
  rw [this, Spec.unif]
  exact nonpos_iff_eq_zero.mp ((Measure.restrict_apply_le _ _).trans (hF.measure_zero volume).le)

/-- The outgoing energy without unit-based interpolation. -/
noncomputable def Spec.shifted (E Ei e : ℝ) : ℝ := if e < Ei / 2 then e * (2 * E / Ei - 1) else e + (E - Ei)

theorem shifted_measurable (E Ei : ℝ) : Measurable (shifted E Ei) := by
  unfold shifted
  exact Measurable.ite (show MeasurableSet {e : ℝ | e < Ei / 2} from measurableSet_Iio) (by fun_prop) (by fun_prop)

theorem cce_shifts (d : ContinuousCE) (E : ℝ) : Shifts fun (_ : Nat) ω k => asPair (d.sample E ω k) := by
  intro fuel ω k
  show asPair (d.sample E ω k) = (asPair (d.sample E (dropT k ω) 0)).map _
  unfold ContinuousCE.sample
  cases d.unitBased with
  | false =>
    rw [if_pos rfl, if_pos rfl]
    unfold ContinuousCE.samplePlain
    simp only [dropT_apply, Nat.add_zero, Nat.zero_add]
    cases bracketIn d.energy E with
    | error e => rfl
    | ok r =>
      simp only [bind, Except.bind]
      split
      · rfl
      split
      · rfl
      split
      · rfl
      split
      · rfl
      split
      · rfl
      · rfl
  | true =>
    rw [if_neg (by simp), if_neg (by simp)]
    unfold ContinuousCE.sampleUnit
    simp only [dropT_apply, Nat.add_zero, Nat.zero_add]
    cases bracketIn d.energy E with
    | error e => rfl
    | ok r =>
      simp only [bind, Except.bind]
      repeat' split
      all_goals rfl

theorem plain_closed (d : ContinuousCE) (hv : ValidCCE d) (hn : 2 ≤ d.energy.length) (hg : ∀ t ∈ d.tables, GoodCEDC t ∧ ConsistentPC (energyPart t))
    (hpos : ∀ e ∈ d.energy, 0 < e) (hu : d.unitBased = false) (E first last : ℝ) (h0 : d.energy[0]? = some first) (h1 : d.energy.getLast? = some last) :
    ∃ (l i : Nat) (f e0 e1 Ei a b : ℝ) (t : CEDCTable) (G : ℝ → ℝ) (cos : ℝ → Nat → ℝ), d.energy[l]? = some e0 ∧ d.energy[l + 1]? = some e1 ∧
      0 ≤ f ∧ f ≤ 1 ∧ e0 + f * (e1 - e0) = clip E first last ∧ (1 / 2 < f → i = l + 1) ∧ (f ≤ 1 / 2 → i = l) ∧ d.tables[i]? = some t ∧
      d.energy[i]? = some Ei ∧ Outgoing t a b G cos ∧
      Closed (fun (_ : Nat) ω k => asPair (d.sample E ω k)) (smearedJoint (densityOn a b G) cos d.nmu (shifted E Ei)) := by
  obtain ⟨l, f, e0, e1, hb, hlt, g0, g1, f0, f1, hclip, _⟩ := C67_bracket d.energy E first last hv.sorted hn h0 h1
  have hlen := hv.len
  obtain ⟨i, hi⟩ : ∃ i, i = (if f > 1 / 2 then l + 1 else l) := ⟨_, rfl⟩
  have hil : i < d.energy.length := by rw [hi]; split <;> omega
  obtain ⟨t, ht⟩ := getElem?_of_lt (l := d.tables) (i := i) (by omega)
  obtain ⟨Ei, hEi⟩ := getElem?_of_lt (l := d.energy) (i := i) hil
  have hEp := hpos Ei (List.mem_of_getElem? hEi)
  have hm := List.mem_of_getElem? ht
  obtain ⟨tv, hnm⟩ := hv.tables t hm
  obtain ⟨a, b, G, h, cos, hout, hh, hlaw, hrun⟩ := cedc_law hnm tv (hg t hm).1 (hg t hm).2
  refine ⟨l, i, f, e0, e1, Ei, a, b, t, G, cos, g0, g1, f0, f1, hclip, fun hf => by rw [hi, if_pos hf], fun hf => by rw [hi, if_neg (not_lt.mpr hf)], ht, hEi, hout, ?_⟩
  obtain ⟨X, hX⟩ : ∃ X : ℝ × ℝ × ℝ → ℝ × ℝ, X = fun p => (cos (h p.1) ⌊(d.nmu : ℝ) * p.2.1⌋₊ + smearWidth (cos (h p.1)) d.nmu ⌊(d.nmu : ℝ) * p.2.1⌋₊ * (p.2.2 - 1 / 2),
    shifted E Ei (h p.1)) := ⟨_, rfl⟩
  have hXm : Measurable X := by rw [hX]; exact pair_measurable d.nmu hh hout.measurable (shifted_measurable E Ei)
  have hω : Measurable fun ω : Tape => (ω 0, ω 1, ω 2) := (measurable_pi_apply 0).prodMk ((measurable_pi_apply 1).prodMk (measurable_pi_apply 2))
  have hXω : Measurable fun ω : Tape => X (ω 0, ω 1, ω 2) := hXm.comp hω
  have hcl := closed_fixed (run := fun (_ : Nat) ω k => asPair (d.sample E ω k)) (X := fun ω => X (ω 0, ω 1, ω 2)) (n := 3) (cce_shifts d E) hXω
    (fun ω ω' h => by rw [h 0 (by omega), h 1 (by omega), h 2 (by omega)]) ?_
  · have hmap : Spec.iid.map (fun ω => X (ω 0, ω 1, ω 2)) = smearedJoint (densityOn a b G) cos d.nmu (shifted E Ei) := by
      refine Measure.ext fun S hS => ?_
      rw [← hlaw, ← smeared_apply hnm hh hout.measurable (shifted_measurable E Ei) hS, Measure.map_apply hXω hS, ← lintegral_indicator_one (hXω hS)]
      refine (draw3 (F := fun p => S.indicator 1 (X p)) ((measurable_one.indicator hS).comp hXm)).trans ?_
      rw [hX]
    rw [hmap] at hcl
    exact hcl
  · filter_upwards [iid_open, iid_notMem 0 (List.finite_toSet t.cdf).countable] with ω ho hne fuel
    obtain ⟨_, _, j, hE, hmu⟩ := hrun (ω 0) (ho 0).1 (ho 0).2 hne
    have hmu := hmu (ω 1) (ω 2) (ho 1).1 (ho 1).2 (ho 2).1 (ho 2).2
    unfold ContinuousCE.sample ContinuousCE.samplePlain
    rw [if_pos hu]
    simp only [bind, Except.bind, hb, ← hi, getAt_eq_ok.mpr ht, hE, getAt_eq_ok.mpr hEi, rdiv_ok hEp.ne', hmu, Nat.zero_add]
    rw [hX]
    have e : (1 / 2 * Ei : ℝ) = Ei / 2 := by ring
    rw [e]
    by_cases hlt : h (ω 0) < Ei / 2
    · have : shifted E Ei (h (ω 0)) = h (ω 0) * (2 * E / Ei - 1) := if_pos hlt
      dsimp only
      rw [if_pos hlt, this]; rfl
    · have : shifted E Ei (h (ω 0)) = h (ω 0) + (E - Ei) := if_neg hlt
      dsimp only
      rw [if_neg hlt, this]; rfl

/-- **C126** Without unit-based interpolation, from usable tables whose cumulatives are those of their densities: the pairs of a cosine and an
energy follow the table of the nearer incoming energy `Ei`.  Its outgoing energy `e` is drawn from the tabulated density; each of the
discrete cosines that belong to `e` has the same probability and is smeared uniformly; and the energy returned is `e (2 E / Ei - 1)`
below `Ei / 2` and `e + E - Ei` above. -/
theorem C126_plain_partial (d : ContinuousCE) (hv : ValidCCE d) (hn : 2 ≤ d.energy.length) (hg : ∀ t ∈ d.tables, GoodCEDC t ∧ ConsistentPC (energyPart t))
    (hpos : ∀ e ∈ d.energy, 0 < e) (hu : d.unitBased = false) (E first last : ℝ) (h0 : d.energy[0]? = some first) (h1 : d.energy.getLast? = some last) :
    ∃ (l i : Nat) (f e0 e1 Ei a b : ℝ) (t : CEDCTable) (G : ℝ → ℝ) (cos : ℝ → Nat → ℝ), d.energy[l]? = some e0 ∧ d.energy[l + 1]? = some e1 ∧
      0 ≤ f ∧ f ≤ 1 ∧ e0 + f * (e1 - e0) = clip E first last ∧ (1 / 2 < f → i = l + 1) ∧ (f ≤ 1 / 2 → i = l) ∧ d.tables[i]? = some t ∧
      d.energy[i]? = some Ei ∧ Outgoing t a b G cos ∧
      ∀ k, Samples (fun (_ : Nat) ω => asPair (d.sample E ω k)) (smearedJoint (densityOn a b G) cos d.nmu (shifted E Ei)) := by
  obtain ⟨l, i, f, e0, e1, Ei, a, b, t, G, cos, a1, a2, a3, a4, a5, a6, a7, a8, a9, a10, hc⟩ := plain_closed d hv hn hg hpos hu E first last h0 h1
  exact ⟨l, i, f, e0, e1, Ei, a, b, t, G, cos, a1, a2, a3, a4, a5, a6, a7, a8, a9, a10, fun k => hc.samples k⟩

/-- The outgoing energy with unit-based interpolation: the place of `e` in the window `[a, b]` of its table, in the window `[lo, hi]`. -/
noncomputable def Spec.windowed (a b lo hi e : ℝ) : ℝ := lo + (e - a) / (b - a) * (hi - lo)

theorem windowed_measurable (a b lo hi : ℝ) : Measurable (windowed a b lo hi) := by
  unfold windowed
  fun_prop

theorem unit_closed (d : ContinuousCE) (hv : ValidCCE d) (hn : 2 ≤ d.energy.length) (hg : ∀ t ∈ d.tables, GoodCEDC t ∧ ConsistentPC (energyPart t))
    (hu : d.unitBased = true) (E first last : ℝ) (h0 : d.energy[0]? = some first) (h1 : d.energy.getLast? = some last) :
    ∃ (l : Nat) (f e0 e1 a0 b0 a1 b1 : ℝ) (t0 t1 : CEDCTable) (G0 G1 : ℝ → ℝ) (cos0 cos1 : ℝ → Nat → ℝ), d.energy[l]? = some e0 ∧ d.energy[l + 1]? = some e1 ∧
      0 ≤ f ∧ f ≤ 1 ∧ e0 + f * (e1 - e0) = clip E first last ∧ d.tables[l]? = some t0 ∧ d.tables[l + 1]? = some t1 ∧ Outgoing t0 a0 b0 G0 cos0 ∧ Outgoing t1 a1 b1 G1 cos1 ∧
      Closed (fun (_ : Nat) ω k => asPair (d.sample E ω k))
        (ENNReal.ofReal (1 - f) • smearedJoint (densityOn a0 b0 G0) cos0 d.nmu (windowed a0 b0 ((1 - f) * a0 + f * a1) ((1 - f) * b0 + f * b1)) +
          ENNReal.ofReal f • smearedJoint (densityOn a1 b1 G1) cos1 d.nmu (windowed a1 b1 ((1 - f) * a0 + f * a1) ((1 - f) * b0 + f * b1))) := by
  classical
  obtain ⟨l, f, e0, e1, hb, hlt, g0, g1, f0, f1, hclip, _⟩ := C67_bracket d.energy E first last hv.sorted hn h0 h1
  have hlen := hv.len
  obtain ⟨t0, ht0⟩ := getElem?_of_lt (l := d.tables) (i := l) (by omega)
  obtain ⟨t1, ht1⟩ := getElem?_of_lt (l := d.tables) (i := l + 1) (by omega)
  have hm0 := List.mem_of_getElem? ht0
  have hm1 := List.mem_of_getElem? ht1
  obtain ⟨tv0, hnm⟩ := hv.tables t0 hm0
  obtain ⟨tv1, _⟩ := hv.tables t1 hm1
  obtain ⟨a0, b0, G0, k0, cos0, hout0, hh0, hlaw0, hrun0⟩ := cedc_law hnm tv0 (hg t0 hm0).1 (hg t0 hm0).2
  obtain ⟨a1, b1, G1, k1, cos1, hout1, hh1, hlaw1, hrun1⟩ := cedc_law hnm tv1 (hg t1 hm1).1 (hg t1 hm1).2
  refine ⟨l, f, e0, e1, a0, b0, a1, b1, t0, t1, G0, G1, cos0, cos1, g0, g1, f0, f1, hclip, ht0, ht1, hout0, hout1, ?_⟩
  obtain ⟨lo, hlo⟩ : ∃ lo, lo = (1 - f) * a0 + f * a1 := ⟨_, rfl⟩
  obtain ⟨hi, hhi⟩ : ∃ hi, hi = (1 - f) * b0 + f * b1 := ⟨_, rfl⟩
  rw [← hlo, ← hhi]
  have hlo' : a0 + f * (a1 - a0) = lo := by rw [hlo]; ring
  have hhi' : b0 + f * (b1 - b0) = hi := by rw [hhi]; ring
  obtain ⟨X0, hX0⟩ : ∃ X : ℝ × ℝ × ℝ → ℝ × ℝ, X = fun p => (cos0 (k0 p.1) ⌊(d.nmu : ℝ) * p.2.1⌋₊ + smearWidth (cos0 (k0 p.1)) d.nmu ⌊(d.nmu : ℝ) * p.2.1⌋₊ * (p.2.2 - 1 / 2),
    windowed a0 b0 lo hi (k0 p.1)) := ⟨_, rfl⟩
  obtain ⟨X1, hX1⟩ : ∃ X : ℝ × ℝ × ℝ → ℝ × ℝ, X = fun p => (cos1 (k1 p.1) ⌊(d.nmu : ℝ) * p.2.1⌋₊ + smearWidth (cos1 (k1 p.1)) d.nmu ⌊(d.nmu : ℝ) * p.2.1⌋₊ * (p.2.2 - 1 / 2),
    windowed a1 b1 lo hi (k1 p.1)) := ⟨_, rfl⟩
  have hm0 : Measurable X0 := by rw [hX0]; exact pair_measurable d.nmu hh0 hout0.measurable (windowed_measurable a0 b0 lo hi)
  have hm1 : Measurable X1 := by rw [hX1]; exact pair_measurable d.nmu hh1 hout1.measurable (windowed_measurable a1 b1 lo hi)
  obtain ⟨X, hX⟩ : ∃ X : ℝ × ℝ × ℝ × ℝ → ℝ × ℝ, X = fun p => if p.2.1 > f then X0 (p.1, p.2.2) else X1 (p.1, p.2.2) := ⟨_, rfl⟩
  have hdrop : Measurable fun p : ℝ × ℝ × ℝ × ℝ => (p.1, p.2.2) := measurable_fst.prodMk (measurable_snd.comp measurable_snd)
  have hXm : Measurable X := by
    rw [hX]
    exact Measurable.ite ((show MeasurableSet {x : ℝ | x > f} from measurableSet_Ioi).preimage (measurable_fst.comp measurable_snd)) (hm0.comp hdrop) (hm1.comp hdrop)
  have hω : Measurable fun ω : Tape => (ω 0, ω 1, ω 2, ω 3) :=
    (measurable_pi_apply 0).prodMk ((measurable_pi_apply 1).prodMk ((measurable_pi_apply 2).prodMk (measurable_pi_apply 3)))
  have hXω : Measurable fun ω : Tape => X (ω 0, ω 1, ω 2, ω 3) := hXm.comp hω
  have hcl := closed_fixed (run := fun (_ : Nat) ω k => asPair (d.sample E ω k)) (X := fun ω => X (ω 0, ω 1, ω 2, ω 3)) (n := 4) (cce_shifts d E) hXω
    (fun ω ω' h => by rw [h 0 (by omega), h 1 (by omega), h 2 (by omega), h 3 (by omega)]) ?_
  · have hmap : Spec.iid.map (fun ω => X (ω 0, ω 1, ω 2, ω 3)) = ENNReal.ofReal (1 - f) • smearedJoint (densityOn a0 b0 G0) cos0 d.nmu (windowed a0 b0 lo hi) +
        ENNReal.ofReal f • smearedJoint (densityOn a1 b1 G1) cos1 d.nmu (windowed a1 b1 lo hi) := by
      refine Measure.ext fun S hS => ?_
      have hind : Measurable (S.indicator (1 : ℝ × ℝ → ℝ≥0∞)) := measurable_one.indicator hS
      rw [Measure.add_apply, Measure.smul_apply, Measure.smul_apply, smul_eq_mul, smul_eq_mul,
        ← hlaw0, ← smeared_apply hnm hh0 hout0.measurable (windowed_measurable a0 b0 lo hi) hS,
        ← hlaw1, ← smeared_apply hnm hh1 hout1.measurable (windowed_measurable a1 b1 lo hi) hS, Measure.map_apply hXω hS, ← lintegral_indicator_one (hXω hS)]
      refine (draw4 (F := fun p => S.indicator 1 (X p)) (hind.comp hXm)).trans ?_
      obtain ⟨A, hA⟩ : ∃ A : ℝ → ℝ≥0∞, A = fun x => ∫⁻ y, ∫⁻ z, S.indicator 1 (X0 (x, y, z)) ∂Spec.unif ∂Spec.unif := ⟨_, rfl⟩
      obtain ⟨B, hB⟩ : ∃ B : ℝ → ℝ≥0∞, B = fun x => ∫⁻ y, ∫⁻ z, S.indicator 1 (X1 (x, y, z)) ∂Spec.unif ∂Spec.unif := ⟨_, rfl⟩
      have hmeas : ∀ Y : ℝ × ℝ × ℝ → ℝ × ℝ, Measurable Y → Measurable fun x => ∫⁻ y, ∫⁻ z, S.indicator (1 : ℝ × ℝ → ℝ≥0∞) (Y (x, y, z)) ∂Spec.unif ∂Spec.unif := by
        intro Y hY
        have q1 : Measurable fun p : (ℝ × ℝ) × ℝ => S.indicator (1 : ℝ × ℝ → ℝ≥0∞) (Y (p.1.1, p.1.2, p.2)) :=
          hind.comp (hY.comp ((measurable_fst.comp measurable_fst).prodMk ((measurable_snd.comp measurable_fst).prodMk measurable_snd)))
        have q2 : Measurable fun p : ℝ × ℝ => ∫⁻ z, S.indicator (1 : ℝ × ℝ → ℝ≥0∞) (Y (p.1, p.2, z)) ∂Spec.unif := q1.lintegral_prod_right'
        exact q2.lintegral_prod_right'
      have hAm : Measurable A := by rw [hA]; exact hmeas X0 hm0
      have hBm : Measurable B := by rw [hB]; exact hmeas X1 hm1
      have hin : ∀ x y, ∫⁻ z, ∫⁻ v, S.indicator 1 (X (x, y, z, v)) ∂Spec.unif ∂Spec.unif = if y ∈ {y : ℝ | y > f} then A x else B x := by
        intro x y
        rw [hX, hA, hB]
        by_cases hy : y > f
        · rw [if_pos (show y ∈ {y : ℝ | y > f} from hy)]
          simp only [if_pos hy]
        · rw [if_neg (show ¬ y ∈ {y : ℝ | y > f} from hy)]
          simp only [if_neg hy]
      simp only [hin]
      have hmid : ∀ x, ∫⁻ y, (if y ∈ {y : ℝ | y > f} then A x else B x) ∂Spec.unif = ENNReal.ofReal (1 - f) * A x + ENNReal.ofReal f * B x := by
        intro x
        have hset : MeasurableSet {y : ℝ | y > f} := measurableSet_Ioi
        rw [← lintegral_add_compl _ hset, setLIntegral_congr_fun (g := fun _ => A x) hset (fun y hy => if_pos hy),
          setLIntegral_congr_fun (g := fun _ => B x) hset.compl (fun y hy => if_neg hy), setLIntegral_const, setLIntegral_const, unif_Ioi f0 f1, unif_Iic f0 f1,
          mul_comm, mul_comm (B x)]
      simp only [hmid]
      rw [lintegral_add_left (hAm.const_mul _), lintegral_const_mul _ hAm, lintegral_const_mul _ hBm, hA, hB, hX0, hX1]
    rw [hmap] at hcl
    exact hcl
  · filter_upwards [iid_open, iid_notMem 0 (List.finite_toSet t0.cdf).countable, iid_notMem 0 (List.finite_toSet t1.cdf).countable] with ω ho hne0 hne1 fuel
    unfold ContinuousCE.sample ContinuousCE.sampleUnit
    rw [if_neg (by simp [hu])]
    simp only [bind, Except.bind, hb, getAt_eq_ok.mpr ht0, getAt_eq_ok.mpr ht1, front_eq_ok.mpr hout0.first, front_eq_ok.mpr hout1.first,
      back_eq_ok.mpr hout0.last, back_eq_ok.mpr hout1.last, Nat.zero_add, hlo', hhi']
    rw [hX]
    by_cases hx : ω 1 > f
    · obtain ⟨_, _, j, hE, hmu⟩ := hrun0 (ω 0) (ho 0).1 (ho 0).2 hne0
      have hmu := hmu (ω 2) (ω 3) (ho 2).1 (ho 2).2 (ho 3).1 (ho 3).2
      have hw := hout0.window
      simp only [if_pos hx, hE, hmu, rdiv_ok (show b0 - a0 ≠ 0 by intro h; linarith)]
      rw [hX0]; rfl
    · obtain ⟨_, _, j, hE, hmu⟩ := hrun1 (ω 0) (ho 0).1 (ho 0).2 hne1
      have hmu := hmu (ω 2) (ω 3) (ho 2).1 (ho 2).2 (ho 3).1 (ho 3).2
      have hw := hout1.window
      simp only [if_neg hx, hE, hmu, rdiv_ok (show b1 - a1 ≠ 0 by intro h; linarith)]
      rw [hX1]; rfl

/-- **C126** With unit-based interpolation, from usable tables whose cumulatives are those of their densities: the pairs follow the mixture, in the
proportions `1 - f` and `f`, of the laws of the two tables around the incoming energy.  In each the outgoing energy `e` is drawn from the
tabulated density; each of the discrete cosines that belong to `e` has the same probability and is smeared uniformly; and the energy
returned has the place of `e` in the window interpolated between those of the two tables. -/
theorem C126_unit_partial (d : ContinuousCE) (hv : ValidCCE d) (hn : 2 ≤ d.energy.length) (hg : ∀ t ∈ d.tables, GoodCEDC t ∧ ConsistentPC (energyPart t))
    (hu : d.unitBased = true) (E first last : ℝ) (h0 : d.energy[0]? = some first) (h1 : d.energy.getLast? = some last) :
    ∃ (l : Nat) (f e0 e1 a0 b0 a1 b1 : ℝ) (t0 t1 : CEDCTable) (G0 G1 : ℝ → ℝ) (cos0 cos1 : ℝ → Nat → ℝ), d.energy[l]? = some e0 ∧ d.energy[l + 1]? = some e1 ∧
      0 ≤ f ∧ f ≤ 1 ∧ e0 + f * (e1 - e0) = clip E first last ∧ d.tables[l]? = some t0 ∧ d.tables[l + 1]? = some t1 ∧ Outgoing t0 a0 b0 G0 cos0 ∧ Outgoing t1 a1 b1 G1 cos1 ∧
      ∀ k, Samples (fun (_ : Nat) ω => asPair (d.sample E ω k))
        (ENNReal.ofReal (1 - f) • smearedJoint (densityOn a0 b0 G0) cos0 d.nmu (windowed a0 b0 ((1 - f) * a0 + f * a1) ((1 - f) * b0 + f * b1)) +
          ENNReal.ofReal f • smearedJoint (densityOn a1 b1 G1) cos1 d.nmu (windowed a1 b1 ((1 - f) * a0 + f * a1) ((1 - f) * b0 + f * b1))) := by
  obtain ⟨l, f, e0, e1, a0, b0, a1, b1, t0, t1, G0, G1, cos0, cos1, q1, q2, q3, q4, q5, q6, q7, q8, q9, hc⟩ := unit_closed d hv hn hg hu E first last h0 h1
  exact ⟨l, f, e0, e1, a0, b0, a1, b1, t0, t1, G0, G1, cos0, cos1, q1, q2, q3, q4, q5, q6, q7, q8, q9, fun k => hc.samples k⟩

/-- The uniform law of C86 meets the hypotheses, with and without unit-based interpolation. -/
theorem flatCCE_tables (u : Bool) : ∀ t ∈ (flatCCE u).tables, GoodCEDC t ∧ ConsistentPC (energyPart t) := by
  have hc : ConsistentPC (energyPart flatCEDC) := by
    refine ⟨rfl, ?_⟩
    intro i v0 v1 p0 p1 c0 c1 h0 h1 h2 h3 h4 h5
    simp only [energyPart, flatCEDC] at h0 h1 h2 h3 h4 h5
    have hi : i = 0 := by have := lt_length_of_some h1; simp at this; exact this
    subst hi
    simp at h0 h1 h2 h3 h4 h5
    subst h0 h1 h2 h3 h4 h5
    simp only [cellArea, energyPart]
    norm_num
  intro t ht
  simp only [flatCCE, List.mem_cons, List.not_mem_nil, or_false] at ht
  rcases ht with rfl | rfl <;> exact ⟨flatCEDC_good, hc⟩

example (E : ℝ) : ∃ (Ei a b : ℝ) (G : ℝ → ℝ) (cos : ℝ → Nat → ℝ), Outgoing flatCEDC a b G cos ∧
    ∀ k, Samples (fun (_ : Nat) ω => asPair ((flatCCE false).sample E ω k)) (smearedJoint (densityOn a b G) cos 1 (shifted E Ei)) := by
  obtain ⟨l, i, f, e0, e1, Ei, a, b, t, G, cos, _, _, _, _, _, _, _, ht, _, ho, hs⟩ :=
    C126_plain_partial (flatCCE false) (flatCCE_valid _) (by simp [flatCCE]) (flatCCE_tables _) (by
      intro e he
      simp only [flatCCE, List.mem_cons, List.not_mem_nil, or_false] at he
      rcases he with rfl | rfl <;> norm_num) rfl E 1 2 rfl rfl
  have : t = flatCEDC := by
    have := List.mem_of_getElem? ht
    simp only [flatCCE, List.mem_cons, List.not_mem_nil, or_false] at this
    rcases this with h | h <;> exact h
  subst this
  exact ⟨Ei, a, b, G, cos, ho, hs⟩

/-- The full claim is false of the code: a file whose cumulative starts above zero gets an entry of energy and density zero in front, so
that the density no longer belongs to the cumulative.  With outgoing energies 1 and 2 in the file, cumulatives 1/2 and 1 and densities
1/100 and 99/100, the incoming energy 1 of the table itself gives energies above 2 for every first random number between 1/50 and 1/2. -/
theorem C126_violation_added : ∃ d, ContinuousCE.makeAce ⟨fun _ => 2, fun n => if n = 0 then 1 else 4,
      [2, 1, 2, 7, 7, 2, 2, 1, 1 / 100, 1 / 2, 0, 2, 99 / 100, 1, 0]⟩ false = .ok d ∧
    ∀ (ω : Tape), UnitTape ω → ∀ k, 1 / 50 < ω k → ω k < 1 / 2 → ∃ mu v, d.sample 1 ω k = .ok (mu, v, k + 3) ∧ 2 < v := by
  have h1 : ⌊(1 : ℝ)⌋.toNat = 1 := by norm_num
  have h2 : Int.toNat 2 = 2 := rfl
  have h3 : Int.toNat 3 = 3 := rfl
  have h7 : Int.toNat 7 = 7 := rfl
  obtain ⟨t, ht⟩ : ∃ t : CEDCTable, t = ⟨[0, 1, 2], [0, 1 / 100, 99 / 100], [0, 1 / 2, 1], [[0], [0], [0]]⟩ := ⟨_, rfl⟩
  refine ⟨⟨[1, 2], [t, t], 1, false⟩, ?_, ?_⟩
  · subst ht
    norm_num [ContinuousCE.makeAce, locator, natAt, getAt, bind, Except.bind, pure, Except.pure, h1, h2, h3, h7, xssSlice, natSlice, isSorted, asU32,
      readCEDCs, CEDCTable.read, readEntries, readEntry, addZero, front, back, sortIfNeeded, isoCosine]
  · intro ω hω k x0 x1
    obtain ⟨l, f, _, _, hb, hlt, _, _, _, _, _, _, hlo, _⟩ := C67_bracket [1, 2] 1 1 2 (by norm_num) (by simp) rfl rfl
    obtain ⟨rfl, rfl⟩ := hlo le_rfl
    have hsC : t.cdf.Pairwise (· ≤ ·) := by rw [ht]; norm_num
    have hlb : lowerBound t.cdf (ω k) = 1 := by
      have q1 := (lowerBound_iff hsC (ω k) (i := 0) (a := 0) (by rw [ht]; rfl)).mp (by linarith)
      have q2 := mt (lowerBound_iff hsC (ω k) (i := 1) (a := 1 / 2) (by rw [ht]; rfl)).mpr (not_lt.mpr x1.le)
      omega
    have hE : t.sampleEnergy (ω k) = .ok (100 * Real.sqrt (1 / 50 * ω k), 0) := by
      have hi : linInterp (ω k) 0 1 0 (1 / 100) 0 = .ok (100 * Real.sqrt (1 / 50 * ω k)) := by
        rw [linInterp, rdiv_ok (by norm_num)]
        simp only [bind, Except.bind]
        rw [rdiv_ok (by norm_num)]
        simp only [pure, Except.pure]
        have e : (0 * 0 + 2 * ((1 / 100 - 0) / (1 - 0)) * (ω k - 0) : ℝ) = 1 / 50 * ω k := by ring
        rw [e, max_eq_left (by linarith)]
        congr 1
        ring
      unfold CEDCTable.sampleEnergy
      dsimp only
      rw [hlb, if_neg one_ne_zero, if_neg (by rw [ht]; decide), subIdx_of_le le_rfl]
      have g1 : getAt t.pdf 0 = .ok 0 := by rw [ht]; rfl
      have g2 : getAt t.pdf 1 = .ok (1 / 100) := by rw [ht]; rfl
      have g3 : getAt t.energy 0 = .ok 0 := by rw [ht]; rfl
      have g4 : getAt t.energy 1 = .ok 1 := by rw [ht]; rfl
      have g5 : getAt t.cdf 0 = .ok 0 := by rw [ht]; rfl
      simp only [Nat.sub_self, Nat.zero_add, bind, Except.bind, g1, g2, g3, g4, g5]
      rw [if_neg (by norm_num), hi]
      rfl
    have hmu : ∃ mu, t.sampleMu 1 0 (ω k) (ω (k + 1)) (ω (k + 2)) = .ok mu := by
      have hc : Cosines 1 [0] := ⟨rfl, by simp, by intro m hm; simp at hm; rw [hm]; norm_num⟩
      obtain ⟨m, mu, _, hs, m0, m1, _⟩ := C66_smear [0] [0] ((ω k - 0) / (1 / 2 - 0)) (ω (k + 2)) 1 ⌊((1 : Nat) : ℝ) * ω (k + 1)⌋₊ hc hc (by apply div_nonneg <;> linarith)
        (by rw [div_le_one (by norm_num)]; linarith) (floor_lt_of_unit one_pos (hω (k + 1)).1 (hω (k + 1)).2) (hω (k + 2)).1 (hω (k + 2)).2.le
      refine ⟨clampMu mu, ?_⟩
      have g1 : getAt t.cdf 0 = .ok 0 := by rw [ht]; rfl
      have g2 : getAt t.cdf (0 + 1) = .ok (1 / 2) := by rw [ht]; rfl
      have g3 : getAt t.cosines 0 = .ok [0] := by rw [ht]; rfl
      have g4 : getAt t.cosines (0 + 1) = .ok [0] := by rw [ht]; rfl
      unfold CEDCTable.sampleMu
      simp only [bind, Except.bind, g1, g2, g3, g4, rdiv_ok (show (1 / 2 - 0 : ℝ) ≠ 0 by norm_num), hs]
      rfl
    obtain ⟨mu, hmu⟩ := hmu
    have hbig : 2 < 100 * Real.sqrt (1 / 50 * ω k) := by
      have : (1 / 50 : ℝ) < Real.sqrt (1 / 50 * ω k) := by
        rw [Real.lt_sqrt (by norm_num)]
        nlinarith
      linarith
    refine ⟨mu, 100 * Real.sqrt (1 / 50 * ω k), ?_, hbig⟩
    unfold ContinuousCE.sample ContinuousCE.samplePlain
    rw [if_pos rfl]
    simp only [bind, Except.bind, hb]
    rw [if_neg (by norm_num)]
    simp only [show getAt [t, t] 0 = .ok t from rfl, hE, show getAt [(1 : ℝ), 2] 0 = .ok 1 from rfl, hmu]
    rw [if_neg (by linarith), sub_self, add_zero]
    rfl

end PNDL
