import Verif.Lemmas.Compose
import Verif.Props.LegendreLaw
import Verif.Props.Angle

/-! C108: tabulated distributions draw from the density they report.  C109: so do angular distributions. -/
namespace PNDL
open MeasureTheory Spec Set
open scoped ENNReal

/-- A draw is uniform. -/
theorem iid_draw (k : Nat) {S : Set ℝ} (hS : MeasurableSet S) : Spec.iid {ω : Tape | ω k ∈ S} = Spec.unif S := by
  have hm : MeasurableSet {ω : Tape | ω k ∈ S} := measurable_pi_apply (X := fun _ : Nat => ℝ) k hS
  have hm0 : MeasurableSet {ω : Tape | ω 0 ∈ S} := measurable_pi_apply (X := fun _ : Nat => ℝ) 0 hS
  have hd : Spec.iid {ω : Tape | ω k ∈ S} = Spec.iid (dropT k ⁻¹' {ω | ω 0 ∈ S}) := rfl
  rw [hd, (mp_drop k).measure_preimage hm0.nullMeasurableSet, ← lintegral_indicator_one hm0]
  refine Eq.trans ?_ ((draw1 (F := Set.indicator S 1) (measurable_one.indicator hS)).trans (lintegral_indicator_one hS))
  rfl

/-! ### C108 -/

theorem pctable_law (t : PCTable) (hv : ValidPC t) (hc : ConsistentPC t) : ∃ (mn mx : ℝ) (G h : ℝ → ℝ), t.minValue = .ok mn ∧ t.maxValue = .ok mx ∧ mn ≤ mx ∧
    (∀ x, t.pdfAt x = .ok (G x) ∧ 0 ≤ G x) ∧ (∀ x, x < mn ∨ mx < x → G x = 0) ∧ IntervalIntegrable G volume mn mx ∧ ∫ s in mn..mx, G s = 1 ∧ Measurable h ∧
    (∀ xi, 0 ≤ xi → xi ≤ 1 → t.sample xi = .ok (h xi) ∧ mn ≤ h xi ∧ h xi ≤ mx) ∧ Spec.unif.map h = densityOn mn mx G := by
  obtain ⟨G, hG⟩ := C33_density_exists t hv
  have hpos : 0 < t.values.length := List.length_pos_iff.mpr hv.ne
  obtain ⟨mn, hmn⟩ := getElem?_of_lt (l := t.values) (i := 0) (by omega)
  obtain ⟨mx, hmx⟩ := last_exists hpos
  have emn : t.minValue = .ok mn := front_eq_ok.mpr hmn
  have emx : t.maxValue = .ok mx := back_eq_ok.mpr hmx
  have hlast : t.values[t.values.length - 1]? = some mx := by rw [← List.getLast?_eq_getElem?]; exact hmx
  have hle : mn ≤ mx := pairwise_le_getElem? hv.values_sorted (Nat.zero_le _) hmn hlast
  have hG0 : ∀ x, 0 ≤ G x ∧ (x < mn ∨ mx < x → G x = 0) := by
    intro x
    obtain ⟨p, hp, hp0, hz⟩ := C34_pdf t hv x
    rw [hG x] at hp
    cases hp
    exact ⟨hp0, fun h => hz mn mx emn emx h⟩
  have hGi := t.integral_grid hv hc G hG hmn (t.values.length - 1) mx 1 hlast (by rw [← hv.lenC, ← List.getLast?_eq_getElem?]; exact hv.cdf_last)
  have hcov : CoveredPC t := ⟨hc.start, fun i v0 v1 p0 p1 c0 c1 a b c d e f => (hc.step i v0 v1 p0 p1 c0 c1 a b c d e f).le⟩
  have hs : ∀ xi : ℝ, ∃ x, 0 ≤ xi → xi ≤ 1 → t.sample xi = .ok x ∧ mn ≤ x ∧ x ≤ mx ∧ ∫ s in mn..x, G s = xi := by
    intro xi
    by_cases h : 0 ≤ xi ∧ xi ≤ 1
    · obtain ⟨x, mn', mx', e1, e2, e3, e4, e5⟩ := C32_in_range_partial t hv hcov xi h.1 h.2
      obtain ⟨y, mn'', f1, f2, f3, f4⟩ := C33_inverts_cdf t hv hc G hG xi h.1 h.2
      rw [emn] at e2 f2; cases e2; cases f2
      rw [emx] at e3; cases e3
      rw [e1] at f1; cases f1
      exact ⟨x, fun _ _ => ⟨e1, e4, e5, f4⟩⟩
    · exact ⟨0, fun a b => absurd ⟨a, b⟩ h⟩
  choose f hf using hs
  -- the sampling function, extended to all numbers so as to be monotone
  have hclip : ∀ x : ℝ, 0 ≤ max 0 (min x 1) ∧ max 0 (min x 1) ≤ 1 := fun x => ⟨le_max_left _ _, max_le zero_le_one (min_le_right _ _)⟩
  have hmono : Monotone fun x : ℝ => f (max 0 (min x 1)) := by
    intro x y hxy
    have h1 : max 0 (min x 1) ≤ max 0 (min y 1) := max_le_max le_rfl (min_le_min hxy le_rfl)
    rcases h1.lt_or_eq with h1 | h1
    · exact (C33_monotone t hv hc _ _ _ _ (hclip x).1 h1 (hclip y).2 (hf _ (hclip x).1 (hclip x).2).1 (hf _ (hclip y).1 (hclip y).2).1).le
    · show f (max 0 (min x 1)) ≤ f (max 0 (min y 1))
      rw [h1]
  have heq : ∀ xi, 0 ≤ xi → xi ≤ 1 → f (max 0 (min xi 1)) = f xi := fun xi h0 h1 => by rw [min_eq_left h1, max_eq_right h0]
  refine ⟨mn, mx, G, fun x => f (max 0 (min x 1)), emn, emx, hle, fun x => ⟨hG x, (hG0 x).1⟩, fun x => (hG0 x).2, hGi.1, hGi.2, hmono.measurable, ?_, ?_⟩
  · intro xi h0 h1
    show t.sample xi = .ok (f (max 0 (min xi 1))) ∧ mn ≤ f (max 0 (min xi 1)) ∧ f (max 0 (min xi 1)) ≤ mx
    rw [heq xi h0 h1]
    obtain ⟨a, b, c, _⟩ := hf xi h0 h1
    exact ⟨a, b, c⟩
  · refine unif_inverse hle hmono.measurable (fun x => (hG0 x).1) hGi.1 hGi.2 ?_
    intro x h0 h1
    show mn ≤ f (max 0 (min x 1)) ∧ f (max 0 (min x 1)) ≤ mx ∧ ∫ s in mn..f (max 0 (min x 1)), G s = x
    rw [heq x h0 h1]
    obtain ⟨_, b, c, d⟩ := hf x h0 h1
    exact ⟨b, c, d⟩

/-- **C108** `sample_value` of a uniform number: on every table whose cumulative values are those of its density, the values have
the density `pdf` reports, on `[min_value, max_value]`. -/
theorem C108_samples_partial (t : PCTable) (hv : ValidPC t) (hc : ConsistentPC t) (k : Nat) : ∃ mn mx, t.minValue = .ok mn ∧ t.maxValue = .ok mx ∧
    SamplesReported (fun (_ : Nat) ω => (t.sample (ω k)).map fun x => (x, k + 1)) mn mx t.pdfAt := by
  obtain ⟨mn, mx, G, h, e1, e2, hle, hG, _, _, _, hm, hh, hlaw⟩ := pctable_law t hv hc
  refine ⟨mn, mx, e1, e2, G, fun x _ _ => (hG x).1, ?_⟩
  have := (closed_one (g := t.sample) hm fun x a b => (hh x a b).1).samples k
  rw [hlaw] at this
  exact this

/-- The hypotheses are met by a triangular density. -/
theorem triangle_ok : ValidPC ⟨[0, 1], [0, 2], [0, 1], .linLin⟩ ∧ ConsistentPC ⟨[0, 1], [0, 2], [0, 1], .linLin⟩ := by
  have hm : PCTable.make [0, 1] [0, 2] [0, 1] .linLin = .ok ⟨[0, 1], [0, 2], [0, 1], .linLin⟩ := by
    norm_num [PCTable.make, PCTable.check, isSorted, back, bind, Except.bind]
  refine ⟨(PCTable.make_valid hm).1, rfl, ?_⟩
  intro i v0 v1 p0 p1 c0 c1 h1 h2 h3 h4 h5 h6
  have hi : i = 0 := by
    have := lt_length_of_some h2
    simp at this
    omega
  subst hi
  simp at h1 h2 h3 h4 h5 h6
  subst h1 h2 h3 h4 h5 h6
  rw [cellArea, if_neg (by decide)]
  norm_num

example : ∃ t, PCTable.make [0, 1] [0, 2] [0, 1] .linLin = .ok t ∧ ValidPC t ∧ ConsistentPC t :=
  ⟨_, by norm_num [PCTable.make, PCTable.check, isSorted, back, bind, Except.bind], triangle_ok⟩

/-- C108 fails for tables the constructor accepts whose density does not belong to their cumulative values: a constant density
1/4 on `[0, 1]` is sampled uniformly on `[0, 4]`. -/
theorem C108_violation : ∃ t, PCTable.make [0, 1] [1 / 4, 1 / 4] [0, 1] .histogram = .ok t ∧ t.minValue = .ok 0 ∧ t.maxValue = .ok 1 ∧ ∀ k,
    ¬ SamplesReported (fun (_ : Nat) ω => (t.sample (ω k)).map fun x => (x, k + 1)) 0 1 t.pdfAt := by
  have hm : PCTable.make [0, 1] [1 / 4, 1 / 4] [0, 1] .histogram = .ok ⟨[0, 1], [1 / 4, 1 / 4], [0, 1], .histogram⟩ := by
    norm_num [PCTable.make, PCTable.check, isSorted, back, bind, Except.bind]
  refine ⟨_, hm, rfl, rfl, fun k hs => ?_⟩
  obtain ⟨p, hp, hs⟩ := hs
  have hv := (PCTable.make_valid hm).1
  -- a value above one has probability zero under any density on `[0, 1]`
  have h1 := hs (Ioi 1) measurableSet_Ioi
  rw [withDensity_apply _ measurableSet_Ioi, Measure.restrict_restrict measurableSet_Ioi] at h1
  have he : Ioi (1 : ℝ) ∩ Icc 0 1 = ∅ := by
    rw [Set.eq_empty_iff_forall_notMem]
    rintro x ⟨a, b, c⟩
    have : (1 : ℝ) < x := a
    linarith
  rw [he] at h1
  simp only [Measure.restrict_empty, lintegral_zero_measure] at h1
  -- but half of the stream gives one
  have h2 : Spec.iid {ω : Tape | 1 / 2 < ω k ∧ ω k < 3 / 4} = ENNReal.ofReal (1 / 4) := by
    have hset : MeasurableSet {x : ℝ | 1 / 2 < x ∧ x < 3 / 4} := measurableSet_Ioo
    refine (iid_draw k hset).trans ?_
    rw [Spec.unif, Measure.restrict_apply hset]
    have : {x : ℝ | 1 / 2 < x ∧ x < 3 / 4} ∩ Icc 0 1 = Ioo (1 / 2) (3 / 4) := by
      ext x
      simp only [mem_inter_iff, mem_ofPred_eq, mem_Icc, mem_Ioo]
      constructor
      · exact fun h => h.1
      · exact fun h => ⟨h, by linarith [h.1], by linarith [h.2]⟩
    rw [this, Real.volume_Ioo]
    norm_num
  have h3 : Spec.iid {ω : Tape | 1 / 2 < ω k ∧ ω k < 3 / 4} ≤ Spec.iid {ω : Tape | ∃ (fuel : Nat) (x : ℝ) (k' : Nat),
      (((⟨[0, 1], [1 / 4, 1 / 4], [0, 1], .histogram⟩ : PCTable).sample (ω k)).map fun x => (x, k + 1)) = .ok (x, k') ∧ x ∈ Ioi 1} := by
    refine measure_mono ?_
    rintro ω ⟨a, b⟩
    refine ⟨0, 4 * ω k, k + 1, ?_, by show (1 : ℝ) < 4 * ω k; linarith⟩
    have hl : lowerBound [0, 1] (ω k) = 1 := by
      have h1 : (0 : ℝ) < ω k := by linarith
      have h2 : ¬ (1 : ℝ) < ω k := by linarith
      simp [lowerBound, lowerBoundRange, bisect, h1, h2]
    have hne : ω k ≠ 1 := by intro hh; linarith
    simp only [PCTable.sample, hl, getAt, bind, Except.bind, subIdx, histInterp, rdiv, pure, Except.pure]
    simp [hne, Except.map]
    ring
  rw [h1, h2] at h3
  simp at h3

/-! ### C109 -/

/-- A law whose samples have the density it reports. -/
def FaithfulLaw (law : AngleLaw) : Prop :=
  ∃ p : ℝ → ℝ, (∀ mu, -1 ≤ mu → mu ≤ 1 → law.pdf mu = .ok (p mu) ∧ 0 ≤ p mu) ∧ AEMeasurable p (volume.restrict (Icc (-1) 1)) ∧
    Closed (fun fuel ω k => law.sample fuel ω k) (densityOn (-1) 1 p)

theorem iso_faithful : FaithfulLaw .isotropic := by
  refine ⟨fun _ => 1 / 2, fun mu h0 h1 => ⟨?_, by norm_num⟩, aemeasurable_const, ?_⟩
  · show Except.ok (isoPdf mu) = _
    unfold isoPdf
    rw [if_neg (by push Not; exact ⟨h0, h1⟩)]
    norm_num
  · have hm : Measurable fun x : ℝ => 2 * x - 1 := by fun_prop
    have hc : ∀ x : ℝ, 0 ≤ x → x ≤ 1 → (Except.ok (clampMu (2 * x - 1)) : Res ℝ) = .ok (2 * x - 1) := by
      intro x h0 h1
      rw [clampMu_of_mem (by linarith) (by linarith)]
    have h := closed_one (g := fun x => .ok (clampMu (2 * x - 1))) hm hc
    have hl : Spec.unif.map (fun x : ℝ => 2 * x - 1) = densityOn (-1) 1 fun _ => 1 / 2 := by
      refine unif_inverse (by norm_num) hm (fun _ => by norm_num) (by simp) (by norm_num) ?_
      intro x h0 h1
      refine ⟨by linarith, by linarith, ?_⟩
      rw [intervalIntegral.integral_const]
      simp only [smul_eq_mul]
      ring
    rw [hl] at h
    exact h.of_eq fun fuel ω k => rfl

theorem table_faithful (t : PCTable) (hv : ValidPC t) (hc : ConsistentPC t) (hm : angleTableMake t = .ok t) : FaithfulLaw (.table t) := by
  obtain ⟨mn, mx, G, h, e1, e2, hle, hG, hz, hi, hone, hmh, hh, hlaw⟩ := pctable_law t hv hc
  have hb : -1 ≤ mn ∧ mx ≤ 1 := by
    unfold angleTableMake at hm
    rw [e1, e2] at hm
    simp only [bind, Except.bind] at hm
    by_cases h1 : mn < -1
    · rw [if_pos h1] at hm; cases hm
    · rw [if_neg h1] at hm
      by_cases h2 : mx > 1
      · rw [if_pos h2] at hm; cases hm
      · exact ⟨not_lt.mp h1, not_lt.mp h2⟩
  refine ⟨G, fun mu _ _ => ⟨(hG mu).1, (hG mu).2⟩, ?_, ?_⟩
  · have h1 : AEMeasurable G (volume.restrict (Icc mn mx)) := ((intervalIntegrable_iff_integrableOn_Icc_of_le hle).mp hi).aemeasurable
    have h2 : AEMeasurable (Set.indicator (Icc mn mx) G) volume := (aemeasurable_indicator_iff measurableSet_Icc).mpr h1
    have h3 : Set.indicator (Icc mn mx) G = G := by
      funext x
      by_cases hx : x ∈ Icc mn mx
      · rw [Set.indicator_of_mem hx]
      · rw [Set.indicator_of_notMem hx, hz x]
        by_contra hc
        push Not at hc
        exact hx hc
    rw [h3] at h2
    exact h2.restrict
  · rw [← densityOn_extend hb.1 hb.2 hz, ← hlaw]
    refine (closed_one (g := fun x => (t.sample x).map clampMu) hmh fun x a b => ?_).of_eq fun fuel ω k => ?_
    · obtain ⟨q1, q2, q3⟩ := hh x a b
      rw [q1]
      show Except.ok (clampMu (h x)) = _
      rw [clampMu_of_mem (hb.1.trans q2) (q3.trans hb.2)]
    · show angleTableSample t ω k = _
      unfold angleTableSample
      cases t.sample (ω k) <;> rfl

theorem legendre_faithful (s : Legendre) (hs : LegBuilt s) (hb : ∀ mu, -1 ≤ mu → mu ≤ 1 → 0 ≤ legPdf s.a mu ∧ legPdf s.a mu ≤ s.pdfMax) :
    FaithfulLaw (.legendre s) := by
  refine ⟨legPdf s.a, fun mu h0 h1 => ⟨rfl, (hb mu h0 h1).1⟩, (continuous_legPdf s.a).measurable.aemeasurable, ?_⟩
  obtain ⟨h0, hM⟩ := legBuilt_inv hs
  have hint := C37_normalised s.a h0
  have hii : IntervalIntegrable (legPdf s.a) volume (-1) 1 := (continuous_legPdf s.a).intervalIntegrable _ _
  have hMp : 0 < s.pdfMax := by
    by_contra hM
    have : ∫ x in (-1 : ℝ)..1, legPdf s.a x ≤ ∫ x in (-1 : ℝ)..1, (0 : ℝ) :=
      intervalIntegral.integral_mono_on (by norm_num) hii (by simp) fun x hx => (hb x hx.1 hx.2).2.trans (not_lt.mp hM)
    rw [hint] at this
    simp at this
    linarith
  obtain ⟨mA, pA⟩ := legAccept_prob s univ .univ
  simp only [mem_univ, ofPred_true, inter_univ, univ_inter] at mA pA
  have hpos : Spec.iid (legAccept s) ≠ 0 := by
    rw [pA]
    refine mul_ne_zero (by simp) ?_
    have e : ∫⁻ mu in Icc (-1 : ℝ) 1, ENNReal.ofReal (min (legPdf s.a mu / s.pdfMax) 1) = ∫⁻ mu in Icc (-1 : ℝ) 1, ENNReal.ofReal (1 / s.pdfMax) * ENNReal.ofReal (legPdf s.a mu) := by
      refine setLIntegral_congr_fun measurableSet_Icc fun x hx => ?_
      have := hb x hx.1 hx.2
      show ENNReal.ofReal (min (legPdf s.a x / s.pdfMax) 1) = _
      rw [← ENNReal.ofReal_mul (by positivity), min_eq_left ((div_le_one hMp).mpr this.2)]
      congr 1
      ring
    rw [e, lintegral_const_mul' _ _ ENNReal.ofReal_ne_top, lintegral_of_integral (by norm_num) hii fun x hx => (hb x hx.1 hx.2).1, hint]
    simp [hMp]
  have wA : Within 2 (legAccept s) := by
    intro ω ω' h ha
    show ω' 1 < legPdf s.a (2 * ω' 0 - 1) / s.pdfMax
    rw [← h 0 (by norm_num), ← h 1 (by norm_num)]
    exact ha
  have hcl := closed_reject (run := fun fuel ω k => s.sample ω fuel k) (n := 2) (v := fun ω : Tape => 2 * ω 0 - 1) mA wA
    (by have := measurable_pi_apply (X := fun _ : Nat => ℝ) 0; exact (this.const_mul 2).sub_const 1)
    (fun ω ω' h => by rw [h 0 (by norm_num)]) hpos ⟨.diverge, fun ω k => rfl⟩ ?_ ?_
  · obtain ⟨p, hp, hs'⟩ := (C105_iff s hs 0).mpr hb
    have he : densityOn (-1) 1 (legPdf s.a) = densityOn (-1) 1 p := densityOn_congr fun x a b => by
      have := hp x a b
      exact Except.ok.inj this
    rw [he]
    exact hcl.congr (k := 0) hs'
  · intro fuel ω k h
    have h' : ω (k + 1) < legPdf s.a (2 * ω k - 1) / s.pdfMax := h
    simp only [Legendre.sample, rdiv_ok hMp.ne', bind, Except.bind]
    rw [if_pos h']
    simp
  · intro fuel ω k h
    have h' : ¬ ω (k + 1) < legPdf s.a (2 * ω k - 1) / s.pdfMax := h
    simp only [Legendre.sample, rdiv_ok hMp.ne', bind, Except.bind]
    rw [if_neg h']

/-- The laws for which sampling and density agree: isotropic; tables whose cumulative values are those of their density; Legendre
expansions that are nowhere negative and nowhere above the bound used for sampling. -/
def Spec.SoundLaw : AngleLaw → Prop
  | .isotropic => True
  | .bins _ => False
  | .table t => ValidPC t ∧ ConsistentPC t ∧ angleTableMake t = .ok t
  | .legendre s => LegBuilt s ∧ ∀ mu, -1 ≤ mu → mu ≤ 1 → 0 ≤ legPdf s.a mu ∧ legPdf s.a mu ≤ s.pdfMax

theorem sound_faithful {law : AngleLaw} (h : SoundLaw law) : FaithfulLaw law := by
  cases law with
  | isotropic => exact iso_faithful
  | bins b => exact absurd h (by simp [SoundLaw])
  | table t => exact table_faithful t h.1 h.2.1 h.2.2
  | legendre s => exact legendre_faithful s h.1 h.2

/-- An angular distribution of faithful laws is faithful at every energy. -/
theorem dist_faithful (d : AngleDist) (hv : ValidDist d) (hl : ∀ law ∈ d.laws, FaithfulLaw law) (E : ℝ) :
    ∃ p : ℝ → ℝ, (∀ mu, -1 ≤ mu → mu ≤ 1 → d.pdf E mu = .ok (p mu) ∧ 0 ≤ p mu) ∧ AEMeasurable p (volume.restrict (Icc (-1) 1)) ∧
      Closed (fun fuel ω k => d.sample fuel E ω k) (densityOn (-1) 1 p) := by
  have hpos : 0 < d.energy.length := List.length_pos_iff.mpr hv.ne
  obtain ⟨mn, hmn⟩ := getElem?_of_lt (l := d.energy) (i := 0) (by omega)
  obtain ⟨mx, hmx⟩ := last_exists hpos
  have single : ∀ law, law ∈ d.laws → d.find E = .ok (.inl law) → ∃ p : ℝ → ℝ, (∀ mu, -1 ≤ mu → mu ≤ 1 → d.pdf E mu = .ok (p mu) ∧ 0 ≤ p mu) ∧
      AEMeasurable p (volume.restrict (Icc (-1) 1)) ∧ Closed (fun fuel ω k => d.sample fuel E ω k) (densityOn (-1) 1 p) := by
    intro law hm hf
    obtain ⟨p, h1, h2, h3⟩ := hl law hm
    refine ⟨p, fun mu a b => ⟨?_, (h1 mu a b).2⟩, h2, h3.of_eq fun fuel ω k => ?_⟩
    · unfold AngleDist.pdf
      rw [hf]
      exact (h1 mu a b).1
    · unfold AngleDist.sample
      rw [hf]
      rfl
  rcases AngleDist.find_cases hv E mn mx hmn hmx with ⟨law, h1, h2, h3⟩ | ⟨law, h1, h2, h3⟩ |
    ⟨i, e0, e1, a, b, h1, h2, he0, he1, ha, hb, b0, b1, h3⟩
  · exact single law (List.mem_of_getElem? h2) h3
  · exact single law (List.mem_of_getLast? h2) h3
  · obtain ⟨pa, pa1, pa2, pa3⟩ := hl a (List.mem_of_getElem? ha)
    obtain ⟨pb, pb1, pb2, pb3⟩ := hl b (List.mem_of_getElem? hb)
    have hd : 0 < e1 - e0 := by linarith
    obtain ⟨f, hf⟩ : ∃ f, f = (E - e0) / (e1 - e0) := ⟨_, rfl⟩
    rw [← hf] at h3
    have f0 : 0 ≤ f := hf ▸ div_nonneg (by linarith) hd.le
    have f1 : f ≤ 1 := hf ▸ (div_le_one hd).mpr (by linarith)
    refine ⟨fun mu => (1 - f) * pa mu + f * pb mu, fun mu a' b' => ⟨?_, ?_⟩, (pa2.const_mul _).add (pb2.const_mul _), ?_⟩
    · unfold AngleDist.pdf
      rw [h3]
      simp only [bind, Except.bind, (pa1 mu a' b').1, (pb1 mu a' b').1]
      rfl
    · exact add_nonneg (mul_nonneg (by linarith) (pa1 mu a' b').2) (mul_nonneg f0 (pb1 mu a' b').2)
    · rw [densityOn_mix f0 f1 pa2 (fun x a b => (pa1 x a b).2) fun x a b => (pb1 x a b).2]
      have hc := closed_mix f0 f1 pa3 pb3
      have hcl : Measurable clampMu := by
        unfold clampMu
        refine Measurable.ite (measurableSet_lt measurable_const measurable_norm) ?_ measurable_id
        exact Measurable.ite measurableSet_Iio measurable_const measurable_const
      have hm := closed_map hc (F := fun x => .ok (clampMu x)) hcl (Filter.Eventually.of_forall fun _ => rfl)
      have hid : (ENNReal.ofReal (1 - f) • densityOn (-1) 1 pa + ENNReal.ofReal f • densityOn (-1) 1 pb).map clampMu =
          ENNReal.ofReal (1 - f) • densityOn (-1) 1 pa + ENNReal.ofReal f • densityOn (-1) 1 pb := by
        rw [← densityOn_mix f0 f1 pa2 (fun x a b => (pa1 x a b).2) fun x a b => (pb1 x a b).2]
        conv_rhs => rw [← Measure.map_id (μ := densityOn (-1) 1 fun x => (1 - f) * pa x + f * pb x)]
        refine Measure.map_congr ?_
        refine (withDensity_absolutelyContinuous _ _).ae_le ?_
        filter_upwards [ae_restrict_mem measurableSet_Icc] with x hx
        exact clampMu_of_mem hx.1 hx.2
      rw [hid] at hm
      refine hm.of_eq fun fuel ω k => ?_
      unfold AngleDist.sample
      rw [h3]
      simp only [bind, Except.bind]

/-- **C109** `AngleDistribution::sample_angle` draws from the density `AngleDistribution::pdf` reports, at every energy (within the
grid, between two laws, and outside it), whenever its laws are sound. -/
theorem C109_samples_partial (d : AngleDist) (hv : ValidDist d) (hl : ∀ law ∈ d.laws, SoundLaw law) (E : ℝ) (k : Nat) :
    SamplesReported (fun fuel ω => d.sample fuel E ω k) (-1) 1 (d.pdf E) := by
  obtain ⟨p, h1, _, h3⟩ := dist_faithful d hv (fun law h => sound_faithful (hl law h)) E
  exact ⟨p, fun mu a b => (h1 mu a b).1, h3.samples k⟩

/-- Equally likely bins: what is sampled below `-15/16` from 32 bins of the same width. -/
theorem evenBins_low (ω : Tape) (k : Nat) (h0 : 0 ≤ ω k) (h1 : ω k ≤ 1) (mu : ℝ) (k' : Nat) (h : binsSample evenBins ω k = .ok (mu, k')) (hm : mu ≤ -15 / 16) :
    ω k ∈ Icc (0 : ℝ) (1 / 512) ∪ Icc (1 / 33) (1 / 17) := by
  obtain ⟨i, hi⟩ : ∃ i : Nat, i = if ⌊33 * ω k⌋₊ = 33 then ⌊33 * ω k⌋₊ - 1 else ⌊33 * ω k⌋₊ := ⟨_, rfl⟩
  have hfl : ((⌊33 * ω k⌋₊ : ℕ) : ℝ) ≤ 33 * ω k := Nat.floor_le (by linarith)
  have hle : (i : ℝ) ≤ 33 * ω k := by
    refine le_trans ?_ hfl
    rw [hi]
    split
    · exact_mod_cast Nat.sub_le _ _
    · exact le_rfl
  have hi33 : i < 33 := by
    have : (⌊33 * ω k⌋₊ : ℕ) ≤ 33 := by
      have : ((⌊33 * ω k⌋₊ : ℕ) : ℝ) ≤ ((33 : ℕ) : ℝ) := hfl.trans (by push_cast; linarith)
      exact_mod_cast this
    rw [hi]
    split
    · omega
    · omega
  have hval : mu = clampMu (32 * ω k - 15 / 16 * i - 1) := by
    unfold binsSample at h
    dsimp only at h
    rw [← hi, getAt_eq_ok.mpr (evenBins_get hi33)] at h
    simp only [bind, Except.bind, pure, Except.pure] at h
    have := congrArg (fun r : Res (ℝ × Nat) => match r with | .ok x => x.1 | .error _ => 0) h
    dsimp only at this
    rw [← this]
    congr 1
    ring
  have hlow : 32 * ω k - 15 / 16 * i - 1 ≤ -15 / 16 := by
    by_contra hc
    push Not at hc
    rw [hval] at hm
    unfold clampMu at hm
    split at hm
    · split at hm
      · rename_i h2 h3
        rw [abs_of_neg h3] at h2
        linarith
      · linarith
    · linarith
  by_cases hi0 : i = 0
  · left
    rw [hi0] at hlow
    push_cast at hlow
    exact ⟨h0, by linarith⟩
  · right
    refine ⟨?_, by linarith⟩
    have : (1 : ℝ) ≤ i := by exact_mod_cast Nat.one_le_iff_ne_zero.mpr hi0
    linarith

theorem evenBins_make : binsMake evenBins = .ok evenBins := by
  have hlen : evenBins.length = 33 := by simp [evenBins]
  have hs : isSorted evenBins = true := by
    rw [isSorted_iff, evenBins, List.pairwise_map]
    refine List.pairwise_lt_range.imp fun {a b} h => ?_
    have : (a : ℝ) ≤ b := by exact_mod_cast h.le
    linarith
  unfold binsMake
  rw [if_neg (by rw [hlen]; simp), if_neg (by rw [hs]; simp), getAt_eq_ok.mpr (evenBins_get (by norm_num : 0 < 33)),
    getAt_eq_ok.mpr (evenBins_get (by norm_num : 32 < 33))]
  norm_num [bind, Except.bind]

/-- C109 fails for equiprobable bins: 32 bins of the same width, reported as the isotropic density, give the first bin with a
probability below 1/32. -/
theorem C109_violation_bins : binsMake evenBins = .ok evenBins ∧ ∀ k,
    ¬ SamplesReported (fun (_ : Nat) ω => binsSample evenBins ω k) (-1) 1 (binsPdf evenBins) := by
  constructor
  · exact evenBins_make
  rintro k ⟨p, hp, hs⟩
  have h1 := hs (Iic (-15 / 16)) measurableSet_Iic
  -- reported
  have hI : Iic (-15 / 16 : ℝ) ∩ Icc (-1) 1 = Icc (-1) (-15 / 16) := by
    ext x
    simp only [mem_inter_iff, mem_Iic, mem_Icc]
    constructor
    · rintro ⟨a, b, _⟩; exact ⟨b, a⟩
    · rintro ⟨a, b⟩; exact ⟨b, a, by linarith⟩
  have hpe : ∀ x ∈ Icc (-1 : ℝ) (-15 / 16), ENNReal.ofReal (p x) = ENNReal.ofReal (1 / 2) := by
    rintro x ⟨a, b⟩
    have := hp x a (by linarith)
    have g0 : evenBins[0]? = some (-1 + ((0 : ℕ) : ℝ) / 16) := evenBins_get (by norm_num)
    have g1 : evenBins[0 + 1]? = some (-1 + ((0 + 1 : ℕ) : ℝ) / 16) := evenBins_get (by norm_num)
    have g32 : evenBins.getLast? = some (-1 + ((32 : ℕ) : ℝ) / 16) := by
      rw [List.getLast?_eq_getElem?, show evenBins.length - 1 = 32 by simp [evenBins]]
      exact evenBins_get (by norm_num)
    unfold binsPdf at this
    rw [front_eq_ok.mpr g0, back_eq_ok.mpr g32] at this
    simp only [bind, Except.bind] at this
    rw [if_neg (by push_cast; push Not; constructor <;> linarith)] at this
    unfold binSearch at this
    rw [getAt_eq_ok.mpr g0, getAt_eq_ok.mpr g1] at this
    simp only [bind, Except.bind] at this
    rw [if_pos (by push_cast; constructor <;> linarith)] at this
    dsimp only at this
    rw [getAt_eq_ok.mpr g0, getAt_eq_ok.mpr g1] at this
    dsimp only at this
    rw [rdiv_ok (by norm_num)] at this
    have := Except.ok.inj this
    rw [← this]
    norm_num
  rw [withDensity_apply _ measurableSet_Iic, Measure.restrict_restrict measurableSet_Iic, hI, setLIntegral_congr_fun measurableSet_Icc hpe,
    setLIntegral_const, Real.volume_Icc, ← ENNReal.ofReal_mul (by norm_num)] at h1
  -- sampled
  have hmeas : MeasurableSet (Icc (0 : ℝ) (1 / 512) ∪ Icc (1 / 33) (1 / 17)) := measurableSet_Icc.union measurableSet_Icc
  have h2 : Spec.iid {ω : Tape | ∃ (fuel : Nat) (x : ℝ) (k' : Nat), binsSample evenBins ω k = .ok (x, k') ∧ x ∈ Iic (-15 / 16 : ℝ)} ≤
      Spec.iid {ω : Tape | ω k ∈ Icc (0 : ℝ) (1 / 512) ∪ Icc (1 / 33) (1 / 17)} := by
    have hunit : ∀ᵐ ω ∂Spec.iid, ω k ∈ Icc (0 : ℝ) 1 := by
      have : Spec.iid {ω : Tape | ω k ∈ (Icc (0 : ℝ) 1)ᶜ} = 0 := by
        rw [iid_draw k measurableSet_Icc.compl, Spec.unif, Measure.restrict_apply measurableSet_Icc.compl]
        simp
      exact this
    refine measure_mono_ae ?_
    filter_upwards [hunit] with ω hω
    rintro ⟨fuel, x, k', e, hx⟩
    exact evenBins_low ω k hω.1 hω.2 x k' e hx
  have h3 : Spec.iid {ω : Tape | ω k ∈ Icc (0 : ℝ) (1 / 512) ∪ Icc (1 / 33) (1 / 17)} ≤ ENNReal.ofReal (1 / 512) + ENNReal.ofReal (1 / 17 - 1 / 33) := by
    rw [iid_draw k hmeas, Spec.unif]
    refine (Measure.restrict_apply_le _ _).trans ((measure_union_le _ _).trans ?_)
    rw [Real.volume_Icc, Real.volume_Icc, sub_zero]
  have h4 := h1.symm.le.trans (h2.trans h3)
  rw [← ENNReal.ofReal_add (by norm_num) (by norm_num), ENNReal.ofReal_le_ofReal_iff (by norm_num)] at h4
  norm_num at h4

/-- The hypotheses of `C109_samples_partial` are met by a distribution with an isotropic law, a table and a Legendre expansion. -/
example : ∃ d, AngleDist.make [1, 2, 3] [.isotropic, .table ⟨[0, 1], [0, 2], [0, 1], .linLin⟩, .legendre (Legendre.make [1 / 4]).1] = .ok d ∧ ValidDist d ∧
    ∀ law ∈ d.laws, SoundLaw law := by
  refine ⟨⟨[1, 2, 3], [.isotropic, .table ⟨[0, 1], [0, 2], [0, 1], .linLin⟩, .legendre (Legendre.make [1 / 4]).1]⟩, by norm_num [AngleDist.make, isSorted], ⟨rfl, by simp, by norm_num⟩, ?_⟩
  intro law h
  simp only [List.mem_cons, List.not_mem_nil, or_false] at h
  rcases h with rfl | rfl | rfl
  · trivial
  · refine ⟨triangle_ok.1, triangle_ok.2, ?_⟩
    norm_num [angleTableMake, PCTable.minValue, PCTable.maxValue, front, back, getAt, bind, Except.bind]
  · have hb : LegBuilt (Legendre.make [1 / 4]).1 := ⟨[], Or.inr ⟨[1 / 4], rfl⟩⟩
    refine ⟨hb, ?_⟩
    exact (C105_iff _ hb 0).mp (C105_linear (1 / 4) quarter_ok 0)

end PNDL
