import Verif.Lemmas.WattLaw
import Verif.Props.Law
import Verif.Props.Legendre
import Verif.Lemmas.LegBound

/-! C105: the Legendre sampler. -/
namespace PNDL
open MeasureTheory Spec Set
open scoped ENNReal

/-! ### The loop -/

/-- The attempt on the first two draws is accepted. -/
def legAccept (s : Legendre) : Set Tape := {ω | ω 1 < legPdf s.a (2 * ω 0 - 1) / s.pdfMax}

theorem legSample_succ (s : Legendre) (hM : s.pdfMax ≠ 0) (ω : Tape) (fuel k : Nat) :
    (dropT k ω ∈ legAccept s → s.sample ω (fuel + 1) k = .ok (2 * ω k - 1, k + 2)) ∧
    (dropT k ω ∉ legAccept s → s.sample ω (fuel + 1) k = s.sample ω fuel (k + 2)) := by
  have hs : s.sample ω (fuel + 1) k = if ω (k + 1) < legPdf s.a (2 * ω k - 1) / s.pdfMax then .ok (2 * ω k - 1, k + 2) else s.sample ω fuel (k + 2) := by
    rw [Legendre.sample]
    simp only [rdiv_ok hM, bind, Except.bind]
  have ha : dropT k ω ∈ legAccept s ↔ ω (k + 1) < legPdf s.a (2 * ω k - 1) / s.pdfMax := by
    simp only [legAccept, mem_ofPred_eq, dropT_apply, Nat.add_zero]
  exact ⟨fun h => by rw [hs, if_pos (ha.mp h)], fun h => by rw [hs, if_neg (fun h' => h (ha.mpr h'))]⟩

theorem legSample_skip (s : Legendre) (hM : s.pdfMax ≠ 0) (ω : Tape) : ∀ (m fuel k : Nat), (∀ j < m, dropT (k + j * 2) ω ∉ legAccept s) →
    s.sample ω (fuel + m) k = s.sample ω fuel (k + m * 2) := by
  intro m
  induction m with
  | zero => intro fuel k _; simp
  | succ m ih =>
    intro fuel k h
    rw [show fuel + (m + 1) = (fuel + m) + 1 by omega, ((legSample_succ s hM ω (fuel + m) k).2 (by simpa using h 0 (by omega))), ih fuel (k + 2)]
    · congr 1; omega
    · intro j hj
      have := h (j + 1) (by omega)
      rwa [show k + (j + 1) * 2 = k + 2 + j * 2 by omega] at this

/-- The call returns what the first accepted attempt proposes. -/
theorem legSample_event (s : Legendre) (hM : s.pdfMax ≠ 0) (ω : Tape) (k : Nat) (S : Set ℝ) :
    (∃ fuel x k', s.sample ω fuel k = .ok (x, k') ∧ x ∈ S) ↔
      ∃ m, dropT (k + m * 2) ω ∈ legAccept s ∩ {ω | 2 * ω 0 - 1 ∈ S} ∧ ∀ j < m, dropT (k + j * 2) ω ∉ legAccept s := by
  constructor
  · rintro ⟨fuel, x, k', h, hS⟩
    induction fuel generalizing k with
    | zero => cases h
    | succ fuel ih =>
      by_cases ha : dropT k ω ∈ legAccept s
      · rw [(legSample_succ s hM ω fuel k).1 ha] at h
        cases h
        exact ⟨0, ⟨by simpa using ha, by simpa using hS⟩, fun j hj => absurd hj (by omega)⟩
      · rw [(legSample_succ s hM ω fuel k).2 ha] at h
        obtain ⟨m, h1, h2⟩ := ih (k + 2) h
        refine ⟨m + 1, by rwa [show k + (m + 1) * 2 = k + 2 + m * 2 by omega], fun j hj => ?_⟩
        cases j with
        | zero => simpa using ha
        | succ j => rw [show k + (j + 1) * 2 = k + 2 + j * 2 by omega]; exact h2 j (by omega)
  · rintro ⟨m, ⟨h1, h2⟩, hj⟩
    refine ⟨1 + m, 2 * ω (k + m * 2) - 1, k + m * 2 + 2, ?_, by simpa using h2⟩
    rw [legSample_skip s hM ω m 1 k hj]
    exact (legSample_succ s hM ω 0 _).1 h1

theorem continuous_legPdf (a : List ℝ) : Continuous (legPdf a) := by
  have : legPdf a = fun mu => (legSeries 0 a).eval mu := funext fun mu => legPdf_eval a mu
  rw [this]
  exact (legSeries 0 a).continuous

/-- The probability that a uniform number is below `c`. -/
theorem unif_lt (c : ℝ) : Spec.unif {v | v < c} = ENNReal.ofReal (min c 1) := by
  rw [unif_eq_Ioo, Measure.restrict_apply (show MeasurableSet {v : ℝ | v < c} from measurableSet_Iio)]
  have : {v : ℝ | v < c} ∩ Ioo 0 1 = Ioo 0 (min c 1) := by
    ext v
    simp only [mem_inter_iff, mem_ofPred_eq, mem_Ioo, lt_min_iff]
    tauto
  rw [this, Real.volume_Ioo, sub_zero]

/-- The probability of accepting a cosine in `S` at one attempt. -/
theorem legAccept_prob (s : Legendre) (S : Set ℝ) (hS : MeasurableSet S) :
    MeasurableSet (legAccept s ∩ {ω | 2 * ω 0 - 1 ∈ S}) ∧
    Spec.iid (legAccept s ∩ {ω | 2 * ω 0 - 1 ∈ S}) =
      ENNReal.ofReal (1 / 2) * ∫⁻ mu in S ∩ Icc (-1) 1, ENNReal.ofReal (min (legPdf s.a mu / s.pdfMax) 1) := by
  have hc := (continuous_legPdf s.a).measurable
  let D : Set (ℝ × ℝ) := {p | p.2 < legPdf s.a (2 * p.1 - 1) / s.pdfMax ∧ 2 * p.1 - 1 ∈ S}
  have hD : MeasurableSet D := by
    have m1 : Measurable fun p : ℝ × ℝ => legPdf s.a (2 * p.1 - 1) / s.pdfMax := (hc.comp (by fun_prop)).div_const _
    have m2 : Measurable fun p : ℝ × ℝ => 2 * p.1 - 1 := by fun_prop
    exact (measurableSet_lt measurable_snd m1).inter (m2 hS)
  have hset : legAccept s ∩ {ω : Tape | 2 * ω 0 - 1 ∈ S} = (fun ω : Tape => (ω 0, ω 1)) ⁻¹' D := rfl
  have hmd : Measurable fun ω : Tape => (ω 0, ω 1) := (measurable_pi_apply 0).prodMk (measurable_pi_apply 1)
  rw [hset]
  refine ⟨hmd hD, ?_⟩
  have e1 : Spec.iid ((fun ω : Tape => (ω 0, ω 1)) ⁻¹' D) = ∫⁻ x, ∫⁻ y, D.indicator 1 (x, y) ∂Spec.unif ∂Spec.unif := by
    rw [← lintegral_indicator_one (hmd hD), ← draw2 (measurable_one.indicator hD)]
    rfl
  let f : ℝ → ℝ≥0∞ := fun mu => S.indicator (fun mu => ENNReal.ofReal (min (legPdf s.a mu / s.pdfMax) 1)) mu
  have e2 : ∀ x, ∫⁻ y, D.indicator 1 (x, y) ∂Spec.unif = f (0 + (2 * x - 1) * 1) := by
    intro x
    simp only [zero_add, mul_one]
    by_cases h : 2 * x - 1 ∈ S
    · have : ∀ y, D.indicator (1 : ℝ × ℝ → ℝ≥0∞) (x, y) = {y | y < legPdf s.a (2 * x - 1) / s.pdfMax}.indicator 1 y := by
        intro y
        by_cases hy : y < legPdf s.a (2 * x - 1) / s.pdfMax
        · rw [indicator_of_mem (show (x, y) ∈ D from ⟨hy, h⟩), indicator_of_mem (show y ∈ {y | y < legPdf s.a (2 * x - 1) / s.pdfMax} from hy)]; rfl
        · rw [indicator_of_notMem (show (x, y) ∉ D from fun hd => hy hd.1), indicator_of_notMem (show y ∉ {y | y < legPdf s.a (2 * x - 1) / s.pdfMax} from hy)]
      simp only [this]
      rw [lintegral_indicator_one (show MeasurableSet {y : ℝ | y < legPdf s.a (2 * x - 1) / s.pdfMax} from measurableSet_Iio)]
      refine (unif_lt _).trans ?_
      exact (indicator_of_mem h (fun mu => ENNReal.ofReal (min (legPdf s.a mu / s.pdfMax) 1))).symm
    · have : ∀ y, D.indicator (1 : ℝ × ℝ → ℝ≥0∞) (x, y) = 0 := fun y => indicator_of_notMem (fun hd => h hd.2) _
      simp only [this, lintegral_zero]
      exact (indicator_of_notMem h (fun mu => ENNReal.ofReal (min (legPdf s.a mu / s.pdfMax) 1))).symm
  rw [e1]
  simp only [e2]
  rw [unif_affine one_pos f, show (0 : ℝ) - 1 = -1 by norm_num, show (0 : ℝ) + 1 = 1 by norm_num, mul_one, Measure.restrict_congr_set Ioo_ae_eq_Icc,
    lintegral_indicator hS, Measure.restrict_restrict hS]

/-- What `sample_mu` does with independent uniform random numbers, for every object: cosines are drawn in proportion to the
density cut off below zero and above the bound. -/
theorem legendre_law (s : Legendre) (hM : s.pdfMax ≠ 0) (k : Nat) (S : Set ℝ) (hS : MeasurableSet S)
    (hpos : ∫⁻ mu in Icc (-1 : ℝ) 1, ENNReal.ofReal (min (legPdf s.a mu / s.pdfMax) 1) ≠ 0) :
    Spec.iid {ω | ∃ fuel x k', s.sample ω fuel k = .ok (x, k') ∧ x ∈ S} =
      (∫⁻ mu in S ∩ Icc (-1) 1, ENNReal.ofReal (min (legPdf s.a mu / s.pdfMax) 1)) /
        ∫⁻ mu in Icc (-1 : ℝ) 1, ENNReal.ofReal (min (legPdf s.a mu / s.pdfMax) 1) := by
  obtain ⟨mA, pA⟩ := legAccept_prob s univ .univ
  obtain ⟨mB, pB⟩ := legAccept_prob s S hS
  simp only [mem_univ, ofPred_true, inter_univ, univ_inter] at mA pA
  have half : ENNReal.ofReal (1 / 2) ≠ 0 := by simp
  have pA0 : Spec.iid (legAccept s) ≠ 0 := by rw [pA]; exact mul_ne_zero half hpos
  have wA : Within 2 (legAccept s) := by
    intro ω ω' h ha
    show ω' 1 < legPdf s.a (2 * ω' 0 - 1) / s.pdfMax
    rw [← h 0 (by omega), ← h 1 (by omega)]
    exact ha
  have heq : {ω : Tape | ∃ fuel x k', s.sample ω fuel k = .ok (x, k') ∧ x ∈ S} =
      {ω | ∃ m, dropT (k + m * 2) ω ∈ legAccept s ∩ {ω | 2 * ω 0 - 1 ∈ S} ∧ ∀ j < m, dropT (k + j * 2) ω ∉ legAccept s} :=
    Set.ext fun ω => legSample_event s hM ω k S
  rw [heq, iid_reject 2 k _ _ mA mB inter_subset_left wA pA0, pA, pB]
  exact ENNReal.mul_div_mul_left _ _ half ENNReal.ofReal_ne_top

/-- **C105** `Legendre::sample_mu`: wherever the density is not negative and not above the object's bound, the cosines are
distributed, with independent uniform random numbers, with the density `pdf` reports. -/
theorem C105_samples_partial (s : Legendre) (h0 : s.a[0]? = some (1 / 2)) (hmin : ∀ mu, -1 ≤ mu → mu ≤ 1 → 0 ≤ legPdf s.a mu)
    (hmax : ∀ mu, -1 ≤ mu → mu ≤ 1 → legPdf s.a mu ≤ s.pdfMax) (k : Nat) :
    SamplesReported (fun fuel ω => s.sample ω fuel k) (-1) 1 (fun mu => .ok (legPdf s.a mu)) := by
  refine ⟨legPdf s.a, fun _ _ _ => rfl, ?_⟩
  have hint := C37_normalised s.a h0
  have hii : IntervalIntegrable (legPdf s.a) volume (-1) 1 := (continuous_legPdf s.a).intervalIntegrable _ _
  have hone : ∫⁻ mu in Icc (-1 : ℝ) 1, ENNReal.ofReal (legPdf s.a mu) = 1 := by
    rw [lintegral_of_integral (by norm_num) hii fun x hx => hmin x hx.1 hx.2, hint, ENNReal.ofReal_one]
  have hM : 0 < s.pdfMax := by
    by_contra hM
    have : ∫ x in (-1 : ℝ)..1, legPdf s.a x ≤ ∫ x in (-1 : ℝ)..1, (0 : ℝ) :=
      intervalIntegral.integral_mono_on (by norm_num) hii (by simp) fun x hx => (hmax x hx.1 hx.2).trans (not_lt.mp hM)
    rw [hint] at this
    simp at this
    linarith
  have hg : ∀ T : Set ℝ, MeasurableSet T → T ⊆ Icc (-1) 1 → ∫⁻ mu in T, ENNReal.ofReal (min (legPdf s.a mu / s.pdfMax) 1) =
      ENNReal.ofReal (1 / s.pdfMax) * ∫⁻ mu in T, ENNReal.ofReal (legPdf s.a mu) := by
    intro T hT hsub
    rw [← lintegral_const_mul' _ _ ENNReal.ofReal_ne_top]
    refine setLIntegral_congr_fun hT fun mu hmu => ?_
    have hm := hsub hmu
    show ENNReal.ofReal (min _ _) = ENNReal.ofReal _ * ENNReal.ofReal _
    rw [← ENNReal.ofReal_mul (by positivity), min_eq_left ((div_le_one hM).mpr (hmax mu hm.1 hm.2))]
    congr 1
    ring
  have hc : ENNReal.ofReal (1 / s.pdfMax) ≠ 0 := by
    rw [Ne, ENNReal.ofReal_eq_zero, not_le]
    positivity
  have hG := hg _ measurableSet_Icc subset_rfl
  rw [hone, mul_one] at hG
  intro S hS
  rw [legendre_law s hM.ne' k S hS (by rw [hG]; exact hc), hG, hg _ (hS.inter measurableSet_Icc) inter_subset_right, mul_comm,
    ENNReal.mul_div_cancel_right hc ENNReal.ofReal_ne_top, withDensity_apply _ hS, Measure.restrict_restrict hS]

/-! ### Every object -/

/-- An object built by a constructor and any history of `set_moment` calls, failed ones included. -/
def Spec.LegBuilt (s : Legendre) : Prop :=
  ∃ calls, s = Legendre.default.1.run calls ∨ ∃ ms, s = (Legendre.make ms).1.run calls

theorem legRun_keeps {s : Legendre} (h : s.a[0]? = some (1 / 2) ∧ s.pdfMax = findMax s.a) (calls : List (Nat × ℝ)) :
    (s.run calls).a[0]? = some (1 / 2) ∧ (s.run calls).pdfMax = findMax (s.run calls).a := by
  unfold Legendre.run
  induction calls generalizing s with
  | nil => exact h
  | cons c cs ih =>
    rw [List.foldl_cons]
    apply ih
    obtain ⟨l, v⟩ := c
    by_cases hl : l = 0
    · subst hl; exact h
    · rw [setMoment_eq _ _ _ hl]
      refine ⟨?_, rfl⟩
      show (newCoeffs s.a l v)[0]? = _
      have hlen := lt_length_of_some h.1
      unfold newCoeffs resizeUp
      by_cases hge : l ≥ s.a.length
      · rw [if_pos hge, List.getElem?_set, if_neg hl, List.getElem?_append_left hlen, h.1]
      · rw [if_neg hge, List.getElem?_set, if_neg hl, h.1]

theorem legBuilt_inv {s : Legendre} (h : LegBuilt s) : s.a[0]? = some (1 / 2) ∧ s.pdfMax = findMax s.a := by
  obtain ⟨calls, rfl | ⟨ms, rfl⟩⟩ := h
  · exact legRun_keeps ⟨by show [(0.5 : ℝ)][0]? = _; norm_num, rfl⟩ calls
  · refine legRun_keeps ⟨?_, rfl⟩ calls
    show (scaleMoments 0 (1 :: ms))[0]? = _
    rw [scaleMoments_get]; simp

/-- The bound is 1.001 times the largest density at the 2001 cosines `-1, -0.999, …, 1`. -/
theorem findMax_grid (a : List ℝ) : (∀ i : Nat, i ≤ 2000 → 1.001 * legPdf a (-1 + i * 0.001) ≤ findMax a) ∧
    ∃ i : Nat, i ≤ 2000 ∧ findMax a = 1.001 * legPdf a (-1 + i * 0.001) := by
  obtain ⟨h1, h2, h3⟩ := maxLoop_spec (legPdf a) 2000 (-1) (legPdf a (-1))
  unfold findMax
  constructor
  · intro i hi
    cases i with
    | zero =>
      have : legPdf a (-1 + ((0 : ℕ) : ℝ) * 0.001) = legPdf a (-1) := by norm_num
      rw [this]; linarith
    | succ i =>
      have := h2 i (by omega)
      push_cast
      linarith
  · rcases h3 with h | ⟨i, hi, h⟩
    · refine ⟨0, by omega, ?_⟩
      rw [h]; norm_num
    · refine ⟨i + 1, by omega, ?_⟩
      rw [h]; push_cast; rfl

theorem grid_mem (i : Nat) (hi : i ≤ 2000) : -1 ≤ -1 + (i : ℝ) * 0.001 ∧ -1 + (i : ℝ) * 0.001 ≤ 1 := by
  have h : (i : ℝ) ≤ 2000 := by exact_mod_cast hi
  have h' : (0 : ℝ) ≤ i := Nat.cast_nonneg i
  constructor <;> linarith

/-- A continuous function that is `≥ c` almost everywhere on an interval is so everywhere on it. -/
theorem ae_eq_everywhere {f g : ℝ → ℝ} (hf : Continuous f) (hg : Continuous g) (h : ∀ᵐ x ∂volume.restrict (Icc (-1 : ℝ) 1), f x = g x) :
    ∀ x, -1 ≤ x → x ≤ 1 → f x = g x := by
  have := Measure.eqOn_Icc_of_ae_eq volume (by norm_num : (-1 : ℝ) ≠ 1) h hf.continuousOn hg.continuousOn
  exact fun x h0 h1 => this ⟨h0, h1⟩

/-- **C105** For every object that can be built (by either constructor and any history of `set_moment` calls): `sample_mu` draws
from the density `pdf` reports if and only if that density is nowhere negative and nowhere above the bound found on the 2001 cosines. -/
theorem C105_iff (s : Legendre) (hs : LegBuilt s) (k : Nat) :
    SamplesReported (fun fuel ω => s.sample ω fuel k) (-1) 1 (fun mu => .ok (legPdf s.a mu)) ↔
      ∀ mu, -1 ≤ mu → mu ≤ 1 → 0 ≤ legPdf s.a mu ∧ legPdf s.a mu ≤ s.pdfMax := by
  obtain ⟨h0, hM⟩ := legBuilt_inv hs
  constructor
  swap
  · intro h
    exact C105_samples_partial s h0 (fun mu a b => (h mu a b).1) (fun mu a b => (h mu a b).2) k
  rintro ⟨p, hp, hsam⟩
  have hcont := continuous_legPdf s.a
  have hint := C37_normalised s.a h0
  have hii : IntervalIntegrable (legPdf s.a) volume (-1) 1 := hcont.intervalIntegrable _ _
  have hpe : ∀ S, MeasurableSet S → ((volume.restrict (Icc (-1 : ℝ) 1)).withDensity fun x => ENNReal.ofReal (p x)) S = ∫⁻ mu in S ∩ Icc (-1) 1, ENNReal.ofReal (legPdf s.a mu) := by
    intro S hS
    rw [withDensity_apply _ hS, Measure.restrict_restrict hS]
    refine setLIntegral_congr_fun (hS.inter measurableSet_Icc) fun mu hmu => ?_
    have := hp mu hmu.2.1 hmu.2.2
    simp only [Except.ok.injEq] at this
    simp only [this]
  have hsam' : ∀ S, MeasurableSet S → Spec.iid {ω | ∃ fuel x k', s.sample ω fuel k = .ok (x, k') ∧ x ∈ S} = ∫⁻ mu in S ∩ Icc (-1) 1, ENNReal.ofReal (legPdf s.a mu) :=
    fun S hS => (hsam S hS).trans (hpe S hS)
  -- not negative
  have htot : ∫⁻ mu in Icc (-1 : ℝ) 1, ENNReal.ofReal (legPdf s.a mu) ≤ 1 := by
    have := hsam' univ .univ
    rw [univ_inter] at this
    rw [← this]
    exact prob_le_one
  have hmaxint : ∫⁻ mu in Icc (-1 : ℝ) 1, ENNReal.ofReal (legPdf s.a mu) = ENNReal.ofReal (∫ x in (-1 : ℝ)..1, max (legPdf s.a x) 0) := by
    rw [← lintegral_of_integral (by norm_num) ((hcont.max continuous_const).intervalIntegrable _ _) fun _ _ => le_max_right _ _]
    refine lintegral_congr fun x => ?_
    rw [ENNReal.ofReal_max, ENNReal.ofReal_zero, max_eq_left zero_le]
  have hnonneg : ∀ mu, -1 ≤ mu → mu ≤ 1 → 0 ≤ legPdf s.a mu := by
    by_contra hneg
    push Not at hneg
    obtain ⟨mu, a, b, hlt⟩ := hneg
    have : ∫ x in (-1 : ℝ)..1, legPdf s.a x < ∫ x in (-1 : ℝ)..1, max (legPdf s.a x) 0 :=
      intervalIntegral.integral_lt_integral_of_continuousOn_of_le_of_exists_lt (by norm_num) hcont.continuousOn (hcont.max continuous_const).continuousOn
        (fun x _ => le_max_left _ _) ⟨mu, ⟨a, b⟩, by rw [max_eq_right hlt.le]; exact hlt⟩
    rw [hint] at this
    rw [hmaxint] at htot
    have h2 := ENNReal.ofReal_le_one.mp htot
    linarith
  -- the bound is positive
  have htot1 : ∫⁻ mu in Icc (-1 : ℝ) 1, ENNReal.ofReal (legPdf s.a mu) = 1 := by
    rw [lintegral_of_integral (by norm_num) hii fun x hx => hnonneg x hx.1 hx.2, hint, ENNReal.ofReal_one]
  obtain ⟨hgrid, i, hi, hmax⟩ := findMax_grid s.a
  obtain ⟨g0, g1⟩ := grid_mem i hi
  have hMne : s.pdfMax ≠ 0 := by
    intro hz
    have hall : ∀ ω fuel j, ∀ x k', s.sample ω fuel j ≠ .ok (x, k') := by
      intro ω fuel
      cases fuel with
      | zero => intro j x k' h; cases h
      | succ fuel =>
        intro j x k' h
        rw [Legendre.sample, hz] at h
        simp only [rdiv_zero, bind, Except.bind] at h
        cases h
    have := hsam' univ .univ
    rw [univ_inter, htot1] at this
    have hem : {ω : Tape | ∃ fuel x k', s.sample ω fuel k = .ok (x, k') ∧ x ∈ univ} = ∅ := by
      ext ω
      simp only [mem_ofPred_eq, mem_empty_iff_false, iff_false]
      rintro ⟨fuel, x, k', h, _⟩
      exact hall ω fuel k x k' h
    rw [hem, measure_empty] at this
    exact zero_ne_one this
  have hg := hnonneg _ g0 g1
  have hMpos : 0 < s.pdfMax := by
    refine lt_of_le_of_ne ?_ hMne.symm
    rw [hM, hmax]
    exact mul_nonneg (by norm_num) hg
  -- a cosine with a density strictly between zero and the bound
  have hgpos : 0 < legPdf s.a (-1 + i * 0.001) := by
    rw [hM, hmax] at hMpos
    linarith
  have hgM : legPdf s.a (-1 + i * 0.001) < s.pdfMax := by rw [hM, hmax]; linarith
  refine fun mu a b => ⟨hnonneg mu a b, ?_⟩
  -- the law of the sampler and the reported density agree everywhere
  obtain ⟨q, hq⟩ : ∃ q : ℝ → ℝ, q = fun mu => min (legPdf s.a mu / s.pdfMax) 1 := ⟨_, rfl⟩
  have hqc : Continuous q := by rw [hq]; exact (hcont.div_const _).min continuous_const
  have hq0 : ∀ mu ∈ Icc (-1 : ℝ) 1, 0 ≤ q mu := fun mu hmu => by
    rw [hq]
    exact le_min (div_nonneg (hnonneg mu hmu.1 hmu.2) hMpos.le) zero_le_one
  obtain ⟨G, hG⟩ : ∃ G : ℝ, G = ∫ x in (-1 : ℝ)..1, q x := ⟨_, rfl⟩
  have hGl : ∫⁻ mu in Icc (-1 : ℝ) 1, ENNReal.ofReal (q mu) = ENNReal.ofReal G := by
    rw [lintegral_of_integral (by norm_num) (hqc.intervalIntegrable _ _) hq0, hG]
  have hG0 : 0 < G := by
    rw [hG]
    have := intervalIntegral.integral_lt_integral_of_continuousOn_of_le_of_exists_lt (f := fun _ => 0) (by norm_num : (-1 : ℝ) < 1) continuousOn_const
      hqc.continuousOn (fun x hx => hq0 x ⟨hx.1.le, hx.2⟩) ⟨_, ⟨g0, g1⟩, by rw [hq]; exact lt_min (div_pos hgpos hMpos) one_pos⟩
    simpa using this
  have hGe : ENNReal.ofReal G ≠ 0 := by rw [Ne, ENNReal.ofReal_eq_zero, not_le]; exact hG0
  have hae : (fun x => ENNReal.ofReal (legPdf s.a x)) =ᵐ[volume.restrict (Icc (-1 : ℝ) 1)] fun x => ENNReal.ofReal (q x / G) := by
    refine ae_eq_of_forall_setLIntegral_eq_of_sigmaFinite (by fun_prop) (by fun_prop) fun S hS _ => ?_
    rw [Measure.restrict_restrict hS, ← hsam' S hS]
    have hlaw := legendre_law s hMne k S hS
    rw [show (fun mu => ENNReal.ofReal (min (legPdf s.a mu / s.pdfMax) 1)) = fun mu => ENNReal.ofReal (q mu) by rw [hq], hGl] at hlaw
    rw [hlaw hGe, div_eq_mul_inv, mul_comm, ← ENNReal.ofReal_inv_of_pos hG0, ← lintegral_const_mul' _ _ ENNReal.ofReal_ne_top]
    refine lintegral_congr fun x => ?_
    rw [← ENNReal.ofReal_mul (by positivity)]
    congr 1
    ring
  have hev : ∀ x, -1 ≤ x → x ≤ 1 → legPdf s.a x = q x / G := by
    refine ae_eq_everywhere hcont (hqc.div_const _) ?_
    have hmem : ∀ᵐ x ∂volume.restrict (Icc (-1 : ℝ) 1), x ∈ Icc (-1 : ℝ) 1 := ae_restrict_mem measurableSet_Icc
    filter_upwards [hae, hmem] with x hx hxm
    exact (ENNReal.ofReal_eq_ofReal_iff (hnonneg x hxm.1 hxm.2) (div_nonneg (hq0 x hxm) hG0.le)).mp hx
  have hMG : s.pdfMax * G = 1 := by
    have h1 := hev _ g0 g1
    rw [hq] at h1
    simp only at h1
    rw [min_eq_left ((div_le_one hMpos).mpr hgM.le), div_div, eq_div_iff (mul_pos hMpos hG0).ne'] at h1
    exact mul_left_cancel₀ hgpos.ne' (h1.trans (mul_one _).symm)
  rw [hev mu a b, div_le_iff₀ hG0, hMG, hq]
  exact min_le_right _ _

/-! ### Which densities are sampled exactly -/

/-- The bound is above the density wherever the second derivative is moderate. -/
theorem bound_of_smooth (a : List ℝ) (h0 : a[0]? = some (1 / 2)) {B : ℝ} (hB : B ≤ 1990)
    (hd : ∀ t, -1 ≤ t → t ≤ 1 → |(Polynomial.derivative (Polynomial.derivative (legSeries 0 a))).eval t| ≤ B) :
    ∀ mu, -1 ≤ mu → mu ≤ 1 → legPdf a mu ≤ findMax a := by
  have hcont := continuous_legPdf a
  have hint := C37_normalised a h0
  have hii : IntervalIntegrable (legPdf a) volume (-1) 1 := hcont.intervalIntegrable _ _
  obtain ⟨x, ⟨x0, x1⟩, hx⟩ := isCompact_Icc.exists_isMaxOn (nonempty_Icc.mpr (by norm_num : (-1 : ℝ) ≤ 1)) hcont.continuousOn
  have hxm : ∀ mu, -1 ≤ mu → mu ≤ 1 → legPdf a mu ≤ legPdf a x := fun mu a b => hx ⟨a, b⟩
  have hhalf : 1 / 2 ≤ legPdf a x := by
    have : ∫ t in (-1 : ℝ)..1, legPdf a t ≤ ∫ t in (-1 : ℝ)..1, legPdf a x :=
      intervalIntegral.integral_mono_on (by norm_num) hii (by simp) fun t ht => hxm t ht.1 ht.2
    rw [hint, intervalIntegral.integral_const, smul_eq_mul] at this
    linarith
  obtain ⟨hg, -⟩ := findMax_grid a
  suffices h : legPdf a x ≤ findMax a from fun mu a b => (hxm mu a b).trans h
  -- the nearest of the 2001 cosines
  obtain ⟨i, hi, hnear⟩ : ∃ i : Nat, i ≤ 2000 ∧ |(-1 + (i : ℝ) * 0.001) - x| ≤ 0.0005 := by
    obtain ⟨j, hj⟩ : ∃ j : Nat, j = ⌊(x + 1) * 1000 + 1 / 2⌋₊ := ⟨_, rfl⟩
    have hp : 0 ≤ (x + 1) * 1000 + 1 / 2 := by linarith
    have l1 := Nat.floor_le hp
    have l2 := Nat.lt_floor_add_one ((x + 1) * 1000 + 1 / 2)
    rw [← hj] at l1 l2
    refine ⟨j, ?_, abs_le.mpr ⟨by linarith, by linarith⟩⟩
    have : (j : ℝ) < 2001 := by linarith
    have : j < 2001 := by exact_mod_cast this
    omega
  obtain ⟨g0, g1⟩ := grid_mem i hi
  have hgi := hg i hi
  rcases eq_or_lt_of_le x0 with e | l
  · have := hg 0 (by omega)
    rw [← e] at hhalf ⊢
    simp only [Nat.cast_zero, zero_mul, add_zero] at this
    linarith
  rcases eq_or_lt_of_le x1 with e | r
  · have := hg 2000 (by omega)
    have e2 : (-1 + ((2000 : ℕ) : ℝ) * 0.001) = 1 := by norm_num
    rw [e2] at this
    rw [e] at hhalf ⊢
    linarith
  have hstat : (Polynomial.derivative (legSeries 0 a)).eval x = 0 := by
    have hloc : IsLocalMax (legPdf a) x := hx.isLocalMax (Icc_mem_nhds l r)
    have h1 := hloc.deriv_eq_zero
    have h2 : deriv (legPdf a) x = (Polynomial.derivative (legSeries 0 a)).eval x := by
      have : legPdf a = fun mu => (legSeries 0 a).eval mu := funext fun mu => legPdf_eval a mu
      rw [this]
      exact ((legSeries 0 a).hasDerivAt x).deriv
    rw [← h2, h1]
  have hn := poly_near ⟨x0, x1⟩ ⟨g0, g1⟩ hd hstat
  rw [← legPdf_eval, ← legPdf_eval] at hn
  have hB0 : 0 ≤ B := (abs_nonneg _).trans (hd 0 (by norm_num) (by norm_num))
  have hsq : |(-1 + (i : ℝ) * 0.001) - x| * |(-1 + (i : ℝ) * 0.001) - x| ≤ 0.0005 * 0.0005 :=
    mul_le_mul hnear hnear (abs_nonneg _) (by norm_num)
  have hle : B * |(-1 + (i : ℝ) * 0.001) - x| * |(-1 + (i : ℝ) * 0.001) - x| ≤ 1990 * (0.0005 * 0.0005) := by
    rw [mul_assoc]
    exact mul_le_mul hB hsq (mul_nonneg (abs_nonneg _) (abs_nonneg _)) (by norm_num)
  have h3 := (abs_le.mp (hn.trans hle)).1
  nlinarith

/-- The second derivative of a series. -/
theorem series_deriv2_le : ∀ (as : List ℝ) (l : Nat) (t : ℝ), -1 ≤ t → t ≤ 1 →
    |(Polynomial.derivative (Polynomial.derivative (legSeries l as))).eval t| ≤
      ∑ i ∈ Finset.range as.length, |as[i]?.getD 0| * ((((l + i : ℕ) : ℝ) - 1) * (l + i : ℕ) * ((l + i : ℕ) + 1) * ((l + i : ℕ) + 2) / 8) := by
  intro as
  induction as with
  | nil => intro l t _ _; simp [legSeries]
  | cons a as ih =>
    intro l t h0 h1
    rw [legSeries]
    simp only [Polynomial.derivative_add, Polynomial.derivative_C_mul, Polynomial.eval_add, Polynomial.eval_mul, Polynomial.eval_C, List.length_cons]
    rw [Finset.sum_range_succ']
    refine (abs_add_le _ _).trans ?_
    rw [add_comm]
    refine add_le_add ?_ ?_
    · refine (ih (l + 1) t h0 h1).trans (le_of_eq (Finset.sum_congr rfl fun i _ => ?_))
      rw [List.getElem?_cons_succ, show l + 1 + i = l + (i + 1) by omega]
    · rw [abs_mul]
      simpa using mul_le_mul_of_nonneg_left (legPoly_deriv2_le l t h0 h1) (abs_nonneg a)

/-- **C105** Every density of at most five moments that is nowhere negative on `[-1, 1]`, built by the constructor or by any history of
`set_moment` calls, is sampled exactly. -/
theorem C105_low_order (s : Legendre) (hs : LegBuilt s) (hlen : s.a.length ≤ 6) (hmin : ∀ mu, -1 ≤ mu → mu ≤ 1 → 0 ≤ legPdf s.a mu) (k : Nat) :
    SamplesReported (fun fuel ω => s.sample ω fuel k) (-1) 1 (fun mu => .ok (legPdf s.a mu)) := by
  obtain ⟨h0, hM⟩ := legBuilt_inv hs
  rw [C105_iff s hs]
  suffices h : ∀ mu, -1 ≤ mu → mu ≤ 1 → legPdf s.a mu ≤ findMax s.a from fun mu a b => ⟨hmin mu a b, hM ▸ h mu a b⟩
  -- the moments are at most one in size
  have hcoef : ∀ n : Nat, |s.a[n]?.getD 0| ≤ (2 * (n : ℝ) + 1) / 2 := by
    intro n
    have hm := moment_of_series s.a n
    have hcont := continuous_legPdf s.a
    have hlc : Continuous (legendre n) := by
      have : legendre n = fun x => (legPoly n).eval x := funext fun x => legendre_eval n x
      rw [this]; exact (legPoly n).continuous
    have h1 : |∫ x in (-1 : ℝ)..1, legPdf s.a x * legendre n x| ≤ ∫ x in (-1 : ℝ)..1, legPdf s.a x := by
      refine (intervalIntegral.abs_integral_le_integral_abs (by norm_num)).trans ?_
      refine intervalIntegral.integral_mono_on (by norm_num) ((hcont.mul hlc).abs.intervalIntegrable _ _) (hcont.intervalIntegrable _ _) fun x hx => ?_
      rw [abs_mul, abs_of_nonneg (hmin x hx.1 hx.2), legendre_eval]
      exact mul_le_of_le_one_right (hmin x hx.1 hx.2) (legPoly_abs_le n x hx.1 hx.2)
    rw [C37_normalised s.a h0, hm, abs_mul, abs_of_pos (by positivity : (0 : ℝ) < 2 / (2 * (n : ℝ) + 1)), ← le_div_iff₀ (by positivity)] at h1
    refine h1.trans (le_of_eq ?_)
    field_simp
  refine bound_of_smooth s.a h0 (B := 840) (by norm_num) fun t t0 t1 => (series_deriv2_le s.a 0 t t0 t1).trans ?_
  have hterm : ∀ i : Nat, |s.a[i]?.getD 0| * ((((0 + i : ℕ) : ℝ) - 1) * (0 + i : ℕ) * ((0 + i : ℕ) + 1) * ((0 + i : ℕ) + 2) / 8) ≤
      (2 * (i : ℝ) + 1) / 2 * (((i : ℝ) - 1) * i * (i + 1) * (i + 2) / 8) := by
    intro i
    rw [Nat.zero_add]
    refine mul_le_mul_of_nonneg_right (hcoef i) ?_
    rcases i with _ | i
    · simp
    · have : (0 : ℝ) ≤ i := Nat.cast_nonneg i
      push_cast
      have e : (i : ℝ) + 1 - 1 = i := by ring
      rw [e]
      positivity
  have hnn : ∀ i : Nat, 0 ≤ (2 * (i : ℝ) + 1) / 2 * (((i : ℝ) - 1) * i * (i + 1) * (i + 2) / 8) := by
    intro i
    rcases i with _ | i
    · simp
    · have : (0 : ℝ) ≤ i := Nat.cast_nonneg i
      push_cast
      have e : (i : ℝ) + 1 - 1 = i := by ring
      rw [e]
      positivity
  calc _ ≤ ∑ i ∈ Finset.range s.a.length, (2 * (i : ℝ) + 1) / 2 * (((i : ℝ) - 1) * i * (i + 1) * (i + 2) / 8) := Finset.sum_le_sum fun i _ => hterm i
    _ ≤ ∑ i ∈ Finset.range 6, (2 * (i : ℝ) + 1) / 2 * (((i : ℝ) - 1) * i * (i + 1) * (i + 2) / 8) :=
      Finset.sum_le_sum_of_subset_of_nonneg (Finset.range_subset_range.mpr hlen) fun i _ _ => hnn i
    _ ≤ 840 := by
      simp only [Finset.sum_range_succ, Finset.sum_range_zero]
      norm_num

/-- **C105** Every linearly anisotropic density the constructor accepts is sampled exactly. -/
theorem C105_linear (m : ℝ) (h : (Legendre.make [m]).2 = .ok ()) (k : Nat) :
    SamplesReported (fun fuel ω => (Legendre.make [m]).1.sample ω fuel k) (-1) 1 (fun mu => .ok (legPdf (Legendre.make [m]).1.a mu)) := by
  have ha : (Legendre.make [m]).1.a = [1 / 2, 3 / 2 * m] := by
    show scaleMoments 0 [1, m] = _
    norm_num [scaleMoments]
    ring
  have hpos : positive [1 / 2, 3 / 2 * m] = true := by
    rw [← ha]
    by_contra hc
    have : positive (scaleMoments 0 [1, m]) = false := Bool.eq_false_iff.mpr hc
    have h' : (Legendre.finish (scaleMoments 0 [1, m])).2 = .ok () := h
    unfold Legendre.finish at h'
    simp only [if_pos this] at h'
    cases h'
  rw [positive_iff] at hpos
  have hv : ∀ mu, legPdf [1 / 2, 3 / 2 * m] mu = 1 / 2 + 3 / 2 * m * mu := by
    intro mu
    norm_num [legPdf, legSum, legendre]
  refine C105_low_order (Legendre.make [m]).1 ⟨[], Or.inr ⟨[m], rfl⟩⟩ (by rw [ha]; simp) (fun mu a b => ?_) k
  rw [ha, hv]
  have h1 := hpos 0 (by omega)
  have h2 := hpos 2000 (by omega)
  rw [hv] at h1 h2
  push_cast at h1 h2
  nlinarith

/-- The full claim is false of the code: the constructor accepts moments whose density is negative between two of the 2001
cosines, and then the cosines are not drawn from the density. -/
theorem C105_violation_negative : ∃ s, LegBuilt s ∧ (Legendre.finish s.a) = (s, .ok ()) ∧ ∀ k,
    ¬ SamplesReported (fun fuel ω => s.sample ω fuel k) (-1) 1 (fun mu => .ok (legPdf s.a mu)) := by
  obtain ⟨m1, m2, mu, hok, h0, h1, hneg⟩ := C38_violation_negative
  have hb : LegBuilt ((Legendre.default.1.setMoment 1 m1).1.setMoment 2 m2).1 := ⟨[(1, m1), (2, m2)], Or.inl rfl⟩
  refine ⟨_, hb, ?_, fun k hs => ?_⟩
  · rw [setMoment_eq _ _ _ (by norm_num)] at hok ⊢
    exact Prod.ext rfl hok
  · rw [C105_iff _ hb] at hs
    exact absurd (hs mu h0 h1).1 (not_le.mpr hneg)

-- the hypotheses are met by a density that is not isotropic
theorem quarter_ok : (Legendre.make [1 / 4]).2 = .ok () := by
  have hp : positive (scaleMoments 0 [1, 1 / 4]) = true := by
    rw [positive_iff]
    intro i hi
    obtain ⟨h0, h1⟩ := grid_mem i hi
    have e : legPdf (scaleMoments 0 [1, 1 / 4]) (-1 + (i : ℝ) * 0.001) = 1 / 2 + 3 / 8 * (-1 + (i : ℝ) * 0.001) := by
      norm_num [legPdf, legSum, legendre, scaleMoments]
    rw [e]
    linarith
  show (if positive (scaleMoments 0 [1, 1 / 4]) = false then _ else _) = _
  rw [if_neg (by rw [hp]; simp)]

example (k : Nat) := C105_linear (1 / 4) quarter_ok k

end PNDL
