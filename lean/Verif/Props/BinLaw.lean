import Verif.Lemmas.Discrete
import Verif.Props.BinDensity
import Verif.Props.EnergyLaw
import Verif.Props.Energy

/-! C127: what equiprobable bins of outgoing energies are sampled from. -/
namespace PNDL
open MeasureTheory Spec Set
open scoped ENNReal

/-- The draws that give a value in `S`. -/
def binEvent (b : List ℝ) (S : Set ℝ) : Set (ℝ × ℝ) := {p | ∃ v, sampleBins p.1 p.2 b = .ok v ∧ v ∈ S}

theorem binEvent_eq (b : List ℝ) (S : Set ℝ) : binEvent b S = ⋃ j ∈ Finset.range (b.length - 1),
    ((fun x : ℝ => ⌊(b.length : ℝ) * x⌋₊) ⁻¹' {j}) ×ˢ {y : ℝ | (b.getD (j + 1) 0 - b.getD j 0) * y + b.getD j 0 ∈ S} := by
  ext p
  simp only [binEvent, mem_ofPred_eq, mem_iUnion, Finset.mem_range, mem_prod, mem_preimage, mem_singleton_iff, exists_prop]
  have hd : ∀ {j : Nat} {x : ℝ}, b[j]? = some x → b.getD j 0 = x := by
    intro j x h; rw [List.getD_eq_getElem?_getD, h]; rfl
  constructor
  · rintro ⟨v, hv, hS⟩
    unfold sampleBins at hv
    obtain ⟨hi, h1, hv⟩ := bind_ok hv
    obtain ⟨lo, h2, hv⟩ := bind_ok hv
    cases hv
    have g1 := getAt_eq_ok.mp h1
    have g2 := getAt_eq_ok.mp h2
    exact ⟨_, by have := lt_length_of_some g1; omega, rfl, by rw [hd g1, hd g2]; exact hS⟩
  · rintro ⟨j, hj, hf, hS⟩
    obtain ⟨hi, g1⟩ := getElem?_of_lt (l := b) (i := j + 1) (by omega)
    obtain ⟨lo, g2⟩ := getElem?_of_lt (l := b) (i := j) (by omega)
    rw [hd g1, hd g2] at hS
    refine ⟨_, ?_, hS⟩
    unfold sampleBins
    simp only [hf, bind, Except.bind, getAt_eq_ok.mpr g1, getAt_eq_ok.mpr g2]
    rfl

theorem binEvent_measurable (b : List ℝ) {S : Set ℝ} (hS : MeasurableSet S) : MeasurableSet (binEvent b S) := by
  rw [binEvent_eq]
  refine Finset.measurableSet_biUnion _ fun j _ => ?_
  refine MeasurableSet.prod (measurable_floor_mul b.length (measurableSet_singleton j)) ?_
  have : Measurable fun y : ℝ => (b.getD (j + 1) 0 - b.getD j 0) * y + b.getD j 0 := by
    have : ∀ A B : ℝ, Measurable fun y : ℝ => A * y + B := fun A B => by fun_prop
    exact this _ _
  exact this hS

/-- A uniform point of a bin. -/
theorem unif_bin {lo hi : ℝ} (h : lo < hi) {S : Set ℝ} (hS : MeasurableSet S) :
    Spec.unif {y : ℝ | (hi - lo) * y + lo ∈ S} = ENNReal.ofReal (1 / (hi - lo)) * volume (S ∩ Ioc lo hi) := by
  have h1 := densityOn_affine (a := 0) (b := 1) zero_lt_one h fun _ => 1
  have hm : Measurable fun x : ℝ => lo + (x - 0) / (1 - 0) * (hi - lo) := by fun_prop
  have h2 : densityOn 0 1 (fun _ => 1) = Spec.unif := by
    unfold densityOn Spec.unif
    simp
  have h3 := congrArg (fun μ : Measure ℝ => μ S) h1
  rw [h2, Measure.map_apply hm hS] at h3
  have h4 : (fun x : ℝ => lo + (x - 0) / (1 - 0) * (hi - lo)) ⁻¹' S = {y : ℝ | (hi - lo) * y + lo ∈ S} := by
    ext y
    simp only [mem_preimage, mem_ofPred_eq]
    rw [show lo + (y - 0) / (1 - 0) * (hi - lo) = (hi - lo) * y + lo by ring]
  rw [h4] at h3
  rw [h3, densityOn, withDensity_apply _ hS, Measure.restrict_restrict hS, Measure.restrict_congr_set (Filter.EventuallyEq.inter (Filter.EventuallyEq.refl _ S) Ioc_ae_eq_Icc.symm),
    setLIntegral_const]
  congr 2
  ring

theorem pdfBins_aemeasurable {b : List ℝ} (hb : ProperBins b) {g : ℝ → ℝ} (hg : ∀ x, pdfBins b x = .ok (g x)) : AEMeasurable g volume := by
  have hlen := hb.1
  obtain ⟨mn, h0⟩ := getElem?_of_lt (l := b) (i := 0) (by omega)
  obtain ⟨mx, hl⟩ := last_exists (l := b) (by omega)
  have hlast : b[b.length - 1]? = some mx := by rw [← List.getLast?_eq_getElem?]; exact hl
  obtain ⟨g', e1, _, e3⟩ := bins_densityOn hb
  have : g' = g := funext fun x => Except.ok.inj ((e1 x).symm.trans (hg x))
  subst this
  have hi := (e3 mn mx fun v hv => by
    obtain ⟨i, hi, rfl⟩ := List.mem_iff_getElem.mp hv
    exact ⟨pairwise_le_getElem? hb.sorted (Nat.zero_le i) h0 (List.getElem?_eq_getElem hi),
      pairwise_le_getElem? hb.sorted (show i ≤ b.length - 1 by omega) (List.getElem?_eq_getElem hi) hlast⟩).1.1.aemeasurable
  have h2 : AEMeasurable ((Ioc mn mx).indicator g') volume := (aemeasurable_indicator_iff measurableSet_Ioc).mpr hi
  refine h2.congr ?_
  have : ∀ᵐ x : ℝ, x ≠ mn := by
    rw [ae_iff]; simp
  filter_upwards [this] with x hx
  by_cases hin : x ∈ Ioc mn mx
  · rw [indicator_of_mem hin]
  · rw [indicator_of_notMem hin]
    have h := hg x
    rcases pdfBins_eq hb h0 hl x with ⟨_, e⟩ | ⟨hc, _⟩
    · rw [e] at h; exact Except.ok.inj h
    · rw [not_or, not_lt, not_lt] at hc
      exact absurd ⟨lt_of_le_of_ne hc.1 (Ne.symm hx), hc.2⟩ hin

/-- The integral over consecutive cells. -/
theorem lintegral_cells {b : List ℝ} (hs : b.Pairwise (· ≤ ·)) {mn : ℝ} (h0 : b[0]? = some mn) (F : ℝ → ℝ≥0∞) : ∀ (k : Nat) (v : ℝ), b[k]? = some v →
    ∫⁻ x in Ioc mn v, F x = ∑ j ∈ Finset.range k, ∫⁻ x in Ioc (b.getD j 0) (b.getD (j + 1) 0), F x := by
  have hd : ∀ {j : Nat} {x : ℝ}, b[j]? = some x → b.getD j 0 = x := by
    intro j x h; rw [List.getD_eq_getElem?_getD, h]; rfl
  intro k
  induction k with
  | zero => intro v hv; rw [h0] at hv; cases hv; simp
  | succ k ih =>
    intro v hv
    obtain ⟨u, hu⟩ := getElem?_of_lt (l := b) (i := k) (by have := lt_length_of_some hv; omega)
    have q1 := pairwise_le_getElem? hs (Nat.zero_le k) h0 hu
    have q2 := pairwise_le_getElem? hs (Nat.le_succ k) hu hv
    rw [Finset.sum_range_succ, ← ih u hu, hd hu, hd hv, ← Ioc_union_Ioc_eq_Ioc q1 q2, lintegral_union measurableSet_Ioc]
    rw [Set.disjoint_left]
    rintro x ⟨_, a⟩ ⟨c, _⟩
    exact absurd a (not_le.mpr c)

/-- One set of bins: the probability that the value returned is in `S` is the share of the draws that do not read past the bounds, times
the probability the reported density gives `S`. -/
theorem bins_prob {b : List ℝ} (hb : ProperBins b) {g : ℝ → ℝ} (hg : ∀ x, pdfBins b x = .ok (g x)) {S : Set ℝ} (hS : MeasurableSet S) :
    (Spec.unif.prod Spec.unif) (binEvent b S) = ENNReal.ofReal (1 - 1 / b.length) * ∫⁻ x in S, ENNReal.ofReal (g x) := by
  have hlen := hb.1
  obtain ⟨mn, h0⟩ := getElem?_of_lt (l := b) (i := 0) (by omega)
  obtain ⟨mx, hl⟩ := last_exists (l := b) (by omega)
  have hlast : b[b.length - 1]? = some mx := by rw [← List.getLast?_eq_getElem?]; exact hl
  have hd : ∀ {j : Nat} {x : ℝ}, b[j]? = some x → b.getD j 0 = x := by
    intro j x h; rw [List.getD_eq_getElem?_getD, h]; rfl
  have hn : (0 : ℝ) < ((b.length - 1 : ℕ) : ℝ) := by
    have : 0 < b.length - 1 := by omega
    exact_mod_cast this
  have hN : (0 : ℝ) < (b.length : ℝ) := by exact_mod_cast (show 0 < b.length by omega)
  have hw : (b.length : ℝ) = ((b.length - 1 : ℕ) : ℝ) + 1 := by
    rw [Nat.cast_sub (by omega)]; push_cast; ring
  -- the draws
  have hleft : (Spec.unif.prod Spec.unif) (binEvent b S) = ∑ j ∈ Finset.range (b.length - 1),
      ENNReal.ofReal (1 / b.length) * (ENNReal.ofReal (1 / (b.getD (j + 1) 0 - b.getD j 0)) * volume (S ∩ Ioc (b.getD j 0) (b.getD (j + 1) 0))) := by
    rw [binEvent_eq, measure_biUnion_finset]
    · refine Finset.sum_congr rfl fun j hj => ?_
      have hj' := Finset.mem_range.mp hj
      obtain ⟨hi, g1⟩ := getElem?_of_lt (l := b) (i := j + 1) (by omega)
      obtain ⟨lo, g2⟩ := getElem?_of_lt (l := b) (i := j) (by omega)
      rw [Measure.prod_prod, unif_floor (by omega) (by omega), hd g1, hd g2, unif_bin (strict_get hb (Nat.lt_succ_self j) g2 g1) hS]
    · intro i _ j _ hij
      rw [Function.onFun, Set.disjoint_left]
      rintro p ⟨a, _⟩ ⟨c, _⟩
      exact hij ((show _ = i from a).symm.trans c)
    · intro j _
      refine MeasurableSet.prod (measurable_floor_mul b.length (measurableSet_singleton j)) ?_
      have : Measurable fun y : ℝ => (b.getD (j + 1) 0 - b.getD j 0) * y + b.getD j 0 := by
        have : ∀ A B : ℝ, Measurable fun y : ℝ => A * y + B := fun A B => by fun_prop
        exact this _ _
      exact this hS
  -- the density
  have hright : ∫⁻ x in S, ENNReal.ofReal (g x) = ∑ j ∈ Finset.range (b.length - 1),
      ENNReal.ofReal (1 / ((b.length - 1 : ℕ) : ℝ) / (b.getD (j + 1) 0 - b.getD j 0)) * volume (S ∩ Ioc (b.getD j 0) (b.getD (j + 1) 0)) := by
    have e1 : ∫⁻ x in S, ENNReal.ofReal (g x) = ∫⁻ x in Ioc mn mx, S.indicator (fun x => ENNReal.ofReal (g x)) x := by
      rw [← lintegral_indicator hS, ← lintegral_indicator measurableSet_Ioc]
      refine lintegral_congr_ae ?_
      have : ∀ᵐ x : ℝ, x ≠ mn := by
        rw [ae_iff]; simp
      filter_upwards [this] with x hx
      by_cases hin : x ∈ Ioc mn mx
      · rw [indicator_of_mem hin]
      · rw [indicator_of_notMem hin]
        have : g x = 0 := by
          have h := hg x
          rcases pdfBins_eq hb h0 hl x with ⟨_, e⟩ | ⟨hc, _⟩
          · rw [e] at h; exact (Except.ok.inj h).symm
          · rw [not_or, not_lt, not_lt] at hc
            exact absurd ⟨lt_of_le_of_ne hc.1 (Ne.symm hx), hc.2⟩ hin
        by_cases hxS : x ∈ S
        · rw [indicator_of_mem hxS, this, ENNReal.ofReal_zero]
        · rw [indicator_of_notMem hxS]
    rw [e1, lintegral_cells hb.sorted h0 _ _ mx hlast]
    refine Finset.sum_congr rfl fun j hj => ?_
    have hj' := Finset.mem_range.mp hj
    obtain ⟨hi, g1⟩ := getElem?_of_lt (l := b) (i := j + 1) (by omega)
    obtain ⟨lo, g2⟩ := getElem?_of_lt (l := b) (i := j) (by omega)
    rw [hd g1, hd g2, lintegral_indicator hS, Measure.restrict_restrict hS]
    rw [← setLIntegral_const]
    refine setLIntegral_congr_fun_ae (hS.inter measurableSet_Ioc) ?_
    have : ∀ᵐ x : ℝ, x ≠ hi := by
      rw [ae_iff]; simp
    filter_upwards [this] with x hx hin
    obtain ⟨_, q1, q2⟩ := hin
    have q2 := lt_of_le_of_ne q2 hx
    have h := hg x
    have a1 := pairwise_le_getElem? hb.sorted (Nat.zero_le j) h0 g2
    have a2 := pairwise_le_getElem? hb.sorted (show j + 1 ≤ b.length - 1 by omega) g1 hlast
    rcases pdfBins_eq hb h0 hl x with ⟨hc, _⟩ | ⟨_, i', lo', hi', hs', e1, e2, _, e⟩
    · rcases hc with hc | hc <;> linarith
    · rw [energyBinSearch_inside hb g2 g1 q1 q2] at hs'
      cases hs'
      rw [g2] at e1; rw [g1] at e2
      cases e1; cases e2
      rw [e] at h
      rw [← Except.ok.inj h]
  rw [hleft, hright, Finset.mul_sum]
  refine Finset.sum_congr rfl fun j hj => ?_
  have hj' := Finset.mem_range.mp hj
  obtain ⟨hi, g1⟩ := getElem?_of_lt (l := b) (i := j + 1) (by omega)
  obtain ⟨lo, g2⟩ := getElem?_of_lt (l := b) (i := j) (by omega)
  have hlt := strict_get hb (Nat.lt_succ_self j) g2 g1
  rw [hd g1, hd g2, ← mul_assoc, ← mul_assoc, ← ENNReal.ofReal_mul (by positivity), ← ENNReal.ofReal_mul (by rw [hw]; rw [sub_nonneg, div_le_one (by linarith)]; linarith)]
  congr 2
  rw [hw]
  have : hi - lo ≠ 0 := by intro h; linarith
  field_simp
  ring

/-! ### From the stream -/

theorem iid_pair (k : Nat) {A : Set (ℝ × ℝ)} (hA : MeasurableSet A) : Spec.iid {ω : Tape | (ω k, ω (k + 1)) ∈ A} = (Spec.unif.prod Spec.unif) A := by
  have hm : Measurable fun ω : Tape => (ω 0, ω 1) := (measurable_pi_apply 0).prodMk (measurable_pi_apply 1)
  have hd : Spec.iid {ω : Tape | (ω k, ω (k + 1)) ∈ A} = Spec.iid (dropT k ⁻¹' {ω | (ω 0, ω 1) ∈ A}) := rfl
  have hm0 : MeasurableSet {ω : Tape | (ω 0, ω 1) ∈ A} := hm hA
  rw [hd, (mp_drop k).measure_preimage hm0.nullMeasurableSet, ← lintegral_indicator_one hm0]
  refine ((draw2 (F := Set.indicator A 1) (measurable_one.indicator hA)).trans ?_)
  rw [← lintegral_prod (f := Set.indicator A 1) (measurable_one.indicator hA).aemeasurable, lintegral_indicator_one hA]

open Classical in
theorem iid_choice (k : Nat) {f : ℝ} (f0 : 0 ≤ f) (f1 : f ≤ 1) {A B : Set (ℝ × ℝ)} (hA : MeasurableSet A) (hB : MeasurableSet B) :
    Spec.iid {ω : Tape | (ω k > f ∧ (ω (k + 1), ω (k + 2)) ∈ A) ∨ (¬ ω k > f ∧ (ω (k + 1), ω (k + 2)) ∈ B)} =
      ENNReal.ofReal (1 - f) * (Spec.unif.prod Spec.unif) A + ENNReal.ofReal f * (Spec.unif.prod Spec.unif) B := by
  obtain ⟨C, hC⟩ : ∃ C : Set (ℝ × ℝ × ℝ), C = {p | (p.1 > f ∧ p.2 ∈ A) ∨ (¬ p.1 > f ∧ p.2 ∈ B)} := ⟨_, rfl⟩
  have hgt : MeasurableSet {p : ℝ × ℝ × ℝ | p.1 > f} := (show MeasurableSet {x : ℝ | x > f} from measurableSet_Ioi).preimage measurable_fst
  have hCm : MeasurableSet C := by
    rw [hC]
    exact (hgt.inter (measurable_snd hA)).union (hgt.compl.inter (measurable_snd hB))
  have hm : Measurable fun ω : Tape => (ω 0, ω 1, ω 2) := (measurable_pi_apply 0).prodMk ((measurable_pi_apply 1).prodMk (measurable_pi_apply 2))
  have hd : Spec.iid {ω : Tape | (ω k > f ∧ (ω (k + 1), ω (k + 2)) ∈ A) ∨ (¬ ω k > f ∧ (ω (k + 1), ω (k + 2)) ∈ B)} =
      Spec.iid (dropT k ⁻¹' {ω | (ω 0, ω 1, ω 2) ∈ C}) := by rw [hC]; rfl
  have hm0 : MeasurableSet {ω : Tape | (ω 0, ω 1, ω 2) ∈ C} := hm hCm
  rw [hd, (mp_drop k).measure_preimage hm0.nullMeasurableSet, ← lintegral_indicator_one hm0]
  refine ((draw3 (F := Set.indicator C 1) (measurable_one.indicator hCm)).trans ?_)
  have hin : ∀ x, ∫⁻ y, ∫⁻ z, C.indicator 1 (x, y, z) ∂Spec.unif ∂Spec.unif =
      if x ∈ {x : ℝ | x > f} then (Spec.unif.prod Spec.unif) A else (Spec.unif.prod Spec.unif) B := by
    intro x
    have two : ∀ D : Set (ℝ × ℝ), MeasurableSet D → ∫⁻ y, ∫⁻ z, D.indicator 1 (y, z) ∂Spec.unif ∂Spec.unif = (Spec.unif.prod Spec.unif) D := by
      intro D hD
      rw [← lintegral_prod (f := Set.indicator D 1) (measurable_one.indicator hD).aemeasurable, lintegral_indicator_one hD]
    by_cases hx : x > f
    · rw [if_pos (show x ∈ {x : ℝ | x > f} from hx), ← two A hA]
      refine lintegral_congr fun y => lintegral_congr fun z => ?_
      by_cases hyz : (y, z) ∈ A
      · rw [indicator_of_mem hyz, indicator_of_mem (show (x, y, z) ∈ C by rw [hC]; exact Or.inl ⟨hx, hyz⟩)]; rfl
      · rw [indicator_of_notMem hyz, indicator_of_notMem (show (x, y, z) ∉ C by
          rw [hC]; rintro (⟨_, h⟩ | ⟨h, _⟩); exacts [hyz h, h hx])]
    · rw [if_neg (show ¬ x ∈ {x : ℝ | x > f} from hx), ← two B hB]
      refine lintegral_congr fun y => lintegral_congr fun z => ?_
      by_cases hyz : (y, z) ∈ B
      · rw [indicator_of_mem hyz, indicator_of_mem (show (x, y, z) ∈ C by rw [hC]; exact Or.inr ⟨hx, hyz⟩)]; rfl
      · rw [indicator_of_notMem hyz, indicator_of_notMem (show (x, y, z) ∉ C by
          rw [hC]; rintro (⟨h, _⟩ | ⟨_, h⟩); exacts [hx h, hyz h])]
  simp only [hin]
  have hset : MeasurableSet {y : ℝ | y > f} := measurableSet_Ioi
  rw [← lintegral_add_compl _ hset, setLIntegral_congr_fun (g := fun _ => (Spec.unif.prod Spec.unif) A) hset (fun y hy => if_pos hy),
    setLIntegral_congr_fun (g := fun _ => (Spec.unif.prod Spec.unif) B) hset.compl (fun y hy => if_neg hy), setLIntegral_const, setLIntegral_const, unif_Ioi f0 f1, unif_Iic f0 f1,
    mul_comm, mul_comm ((Spec.unif.prod Spec.unif) B)]

/-- The draws in either order. -/
theorem swapped_prob (swap : Bool) {A : Set (ℝ × ℝ)} (hA : MeasurableSet A) :
    MeasurableSet {p : ℝ × ℝ | (if swap then (p.2, p.1) else p) ∈ A} ∧ (Spec.unif.prod Spec.unif) {p | (if swap then (p.2, p.1) else p) ∈ A} = (Spec.unif.prod Spec.unif) A := by
  cases swap with
  | false => exact ⟨by simpa using hA, by simp⟩
  | true =>
    have hp : {p : ℝ × ℝ | (if true then (p.2, p.1) else p) ∈ A} = Prod.swap ⁻¹' A := rfl
    rw [hp]
    refine ⟨measurable_swap hA, ?_⟩
    rw [← Measure.map_apply measurable_swap hA, Measure.prod_swap]

/-- **C127** Equiprobable bins of outgoing energies, with proper bounds and the same number `n` of them in every table: for every event, the
probability that `sample_energy` returns an energy in it is `1 - 1 / n` times the probability that the density reported by
`pdf` gives it.  So the energies that are returned follow the reported density.  Missing: the share `1 / n` of the calls that read past
the end of the bounds (`C127_violation`). -/
theorem C127_bins_partial (energy : List ℝ) (bins : List (List ℝ)) (d : EnergyBins) (hd : EnergyBins.make energy bins = .ok d) (hne : energy ≠ [])
    (n : Nat) (hb : ∀ b ∈ bins, ProperBins b ∧ b.length = n) (swap : Bool) (E : ℝ) (k : Nat) :
    ∃ p : ℝ → ℝ, (∀ x, d.pdfAt E x = .ok (p x) ∧ 0 ≤ p x) ∧ ∀ S, MeasurableSet S →
      Spec.iid {ω : Tape | ∃ v k', d.sample swap E ω k = .ok (v, k') ∧ v ∈ S} = ENNReal.ofReal (1 - 1 / n) * ∫⁻ x in S, ENNReal.ofReal (p x) := by
  obtain ⟨q1, q2, hs, hl, _⟩ := EnergyBins.make_valid hd
  have hpos : 0 < energy.length := List.length_pos_iff.mpr hne
  have hle := lowerBound_le hs E
  have one : ∀ (b : List ℝ) (ω : Tape) (k : Nat) (v : ℝ) (k' : Nat),
      ((do let v ← (if swap then sampleBins (ω (k + 1)) (ω k) b else sampleBins (ω k) (ω (k + 1)) b : Res ℝ); return (v, k + 2) : Res (ℝ × Nat)) = .ok (v, k') ↔
        (sampleBins (if swap then (ω (k + 1), ω k) else (ω k, ω (k + 1))).1 (if swap then (ω (k + 1), ω k) else (ω k, ω (k + 1))).2 b = .ok v ∧ k' = k + 2)) := by
    intro b ω k v k'
    cases swap
    · simp only [Bool.false_eq_true, if_false]
      cases sampleBins (ω k) (ω (k + 1)) b with
      | error e => simp [bind, Except.bind]
      | ok w => simp [bind, Except.bind, pure, Except.pure, eq_comm]
    · simp only [if_true]
      cases sampleBins (ω (k + 1)) (ω k) b with
      | error e => simp [bind, Except.bind]
      | ok w => simp [bind, Except.bind, pure, Except.pure, eq_comm]
  -- one table
  have single : ∀ b ∈ bins, (∀ x, d.pdfAt E x = pdfBins b x) →
      (∀ ω, d.sample swap E ω k = (do let v ← (if swap then sampleBins (ω (k + 1)) (ω k) b else sampleBins (ω k) (ω (k + 1)) b : Res ℝ); return (v, k + 2))) →
      ∃ p : ℝ → ℝ, (∀ x, d.pdfAt E x = .ok (p x) ∧ 0 ≤ p x) ∧ ∀ S, MeasurableSet S →
      Spec.iid {ω : Tape | ∃ v k', d.sample swap E ω k = .ok (v, k') ∧ v ∈ S} = ENNReal.ofReal (1 - 1 / n) * ∫⁻ x in S, ENNReal.ofReal (p x) := by
    intro b hbm hpdf hrun
    obtain ⟨hpb, hbl⟩ := hb b hbm
    obtain ⟨g, g1, g2, _⟩ := bins_densityOn hpb
    refine ⟨g, fun x => ⟨by rw [hpdf, g1], g2 x⟩, fun S hS => ?_⟩
    obtain ⟨m1, m2⟩ := swapped_prob swap (binEvent_measurable b hS)
    rw [← hbl, ← bins_prob hpb g1 hS, ← m2, ← iid_pair k m1]
    congr 1
    ext ω
    simp only [mem_ofPred_eq, hrun, one, binEvent]
    constructor
    · rintro ⟨v, k', ⟨h, _⟩, hv⟩; exact ⟨v, h, hv⟩
    · rintro ⟨v, h, hv⟩; exact ⟨v, k + 2, ⟨h, rfl⟩, hv⟩
  by_cases h0 : lowerBound energy E = 0
  · obtain ⟨b, hb0⟩ := getElem?_of_lt (l := bins) (i := 0) (by omega)
    refine single b (List.mem_of_getElem? hb0) (fun x => ?_) fun ω => ?_
    · unfold EnergyBins.pdfAt
      simp only [q1, q2, h0, if_true, front_eq_ok.mpr hb0, bind, Except.bind]
    · unfold EnergyBins.sample
      simp only [q1, q2, h0, if_true, front_eq_ok.mpr hb0]
      rfl
  · by_cases h1 : lowerBound energy E = energy.length
    · obtain ⟨b, hb1⟩ := last_exists (l := bins) (by omega)
      refine single b (List.mem_of_mem_getLast? hb1) (fun x => ?_) fun ω => ?_
      · unfold EnergyBins.pdfAt
        simp only [q1, q2]
        rw [if_neg h0, if_pos h1, back_eq_ok.mpr hb1]
        rfl
      · unfold EnergyBins.sample
        simp only [q1, q2]
        rw [if_neg h0, if_pos h1, back_eq_ok.mpr hb1]
        rfl
    · obtain ⟨j, hj⟩ : ∃ j, j = lowerBound energy E - 1 := ⟨_, rfl⟩
      obtain ⟨e0, he0⟩ := getElem?_of_lt (l := energy) (i := j) (by omega)
      obtain ⟨e1, he1⟩ := getElem?_of_lt (l := energy) (i := j + 1) (by omega)
      obtain ⟨s0, hs0⟩ := getElem?_of_lt (l := bins) (i := j) (by omega)
      obtain ⟨s1, hs1⟩ := getElem?_of_lt (l := bins) (i := j + 1) (by omega)
      have a0 : e0 < E := (lowerBound_iff hs E he0).mpr (by omega)
      have a1 : E ≤ e1 := by
        by_contra h
        have := (lowerBound_iff hs E he1).mp (not_le.mp h)
        omega
      obtain ⟨hp0, hl0⟩ := hb s0 (List.mem_of_getElem? hs0)
      obtain ⟨hp1, hl1⟩ := hb s1 (List.mem_of_getElem? hs1)
      obtain ⟨g, g1, g2, _⟩ := bins_densityOn hp0
      obtain ⟨h, k1, k2, _⟩ := bins_densityOn hp1
      obtain ⟨f, hf⟩ : ∃ f, f = (E - e0) / (e1 - e0) := ⟨_, rfl⟩
      have f0 : 0 ≤ f := by rw [hf]; exact div_nonneg (by linarith) (by linarith)
      have f1 : f ≤ 1 := by rw [hf, div_le_one (by linarith)]; linarith
      refine ⟨fun x => (1 - f) * g x + f * h x, fun x => ⟨?_, add_nonneg (mul_nonneg (by linarith) (g2 x)) (mul_nonneg f0 (k2 x))⟩, fun S hS => ?_⟩
      · unfold EnergyBins.pdfAt
        simp only [q1, q2]
        rw [if_neg h0, if_neg h1, subIdx_of_le (by omega), ← hj]
        simp only [bind, Except.bind, getAt_eq_ok.mpr he0, getAt_eq_ok.mpr he1, rdiv_ok (show e1 - e0 ≠ 0 by intro h; linarith),
          getAt_eq_ok.mpr hs0, getAt_eq_ok.mpr hs1, g1, k1, pure, Except.pure, hf]
      · obtain ⟨m1, m2⟩ := swapped_prob swap (binEvent_measurable s0 hS)
        obtain ⟨m3, m4⟩ := swapped_prob swap (binEvent_measurable s1 hS)
        have hch := iid_choice k f0 f1 m1 m3
        rw [m2, m4, bins_prob hp0 g1 hS, bins_prob hp1 k1 hS, hl0, hl1] at hch
        have hset : {ω : Tape | ∃ v k', d.sample swap E ω k = .ok (v, k') ∧ v ∈ S} =
            {ω : Tape | (ω k > f ∧ (ω (k + 1), ω (k + 2)) ∈ {p : ℝ × ℝ | (if swap then (p.2, p.1) else p) ∈ binEvent s0 S}) ∨
              (¬ ω k > f ∧ (ω (k + 1), ω (k + 2)) ∈ {p : ℝ × ℝ | (if swap then (p.2, p.1) else p) ∈ binEvent s1 S})} := by
          ext ω
          have hrun : d.sample swap E ω k = if ω k > f then
              (do let v ← (if swap then sampleBins (ω (k + 1 + 1)) (ω (k + 1)) s0 else sampleBins (ω (k + 1)) (ω (k + 1 + 1)) s0 : Res ℝ); return (v, k + 1 + 2))
              else (do let v ← (if swap then sampleBins (ω (k + 1 + 1)) (ω (k + 1)) s1 else sampleBins (ω (k + 1)) (ω (k + 1 + 1)) s1 : Res ℝ); return (v, k + 1 + 2)) := by
            unfold EnergyBins.sample
            simp only [q1, q2]
            rw [if_neg h0, if_neg h1, subIdx_of_le (by omega), ← hj]
            simp only [bind, Except.bind, getAt_eq_ok.mpr he0, getAt_eq_ok.mpr he1, rdiv_ok (show e1 - e0 ≠ 0 by intro h; linarith), ← hf,
              getAt_eq_ok.mpr hs0, getAt_eq_ok.mpr hs1]
          by_cases hx : ω k > f
          · rw [if_pos hx] at hrun
            simp only [mem_ofPred_eq, hrun, one, hx, true_and, not_true_eq_false, false_and, or_false, binEvent]
            constructor
            · rintro ⟨v, k', ⟨h, _⟩, hv⟩; exact ⟨v, h, hv⟩
            · rintro ⟨v, h, hv⟩; exact ⟨v, _, ⟨h, rfl⟩, hv⟩
          · rw [if_neg hx] at hrun
            simp only [mem_ofPred_eq, hrun, one, hx, true_and, not_false_eq_true, false_and, false_or, binEvent]
            constructor
            · rintro ⟨v, k', ⟨h, _⟩, hv⟩; exact ⟨v, h, hv⟩
            · rintro ⟨v, h, hv⟩; exact ⟨v, _, ⟨h, rfl⟩, hv⟩
        rw [hset, hch]
        have hgm : AEMeasurable (fun x => ENNReal.ofReal (1 - f) * ENNReal.ofReal (g x)) (volume.restrict S) := by
          exact ((pdfBins_aemeasurable hp0 g1).ennreal_ofReal.const_mul _).mono_measure Measure.restrict_le_self
        have : ∫⁻ x in S, ENNReal.ofReal ((1 - f) * g x + f * h x) =
            (ENNReal.ofReal (1 - f) * ∫⁻ x in S, ENNReal.ofReal (g x)) + ENNReal.ofReal f * ∫⁻ x in S, ENNReal.ofReal (h x) := by
          rw [← lintegral_const_mul' _ _ ENNReal.ofReal_ne_top, ← lintegral_const_mul' _ _ ENNReal.ofReal_ne_top, ← lintegral_add_left' hgm]
          refine lintegral_congr fun x => ?_
          rw [← ENNReal.ofReal_mul (by linarith), ← ENNReal.ofReal_mul f0, ← ENNReal.ofReal_add (mul_nonneg (by linarith) (g2 x)) (mul_nonneg f0 (k2 x))]
        rw [this]
        ring

/-- **C127** General evaporation with proper bounds and a positive temperature at the incident energy: likewise. -/
theorem C127_evaporation_partial (t : Tab1D) (b : List ℝ) (hb : ProperBins b) (E T : ℝ) (hT : t.eval E = .ok T) (hpos : 0 < T) (k : Nat) :
    ∃ p : ℝ → ℝ, (∀ x, genEvapPdf t b E x = .ok (p x) ∧ 0 ≤ p x) ∧ ∀ S, MeasurableSet S →
      Spec.iid {ω : Tape | ∃ v k', genEvapSample t b E ω k = .ok (v, k') ∧ v ∈ S} = ENNReal.ofReal (1 - 1 / b.length) * ∫⁻ x in S, ENNReal.ofReal (p x) := by
  have hlen := hb.1
  obtain ⟨p, p1, p2, _⟩ := C95_evaporation_partial t b hb E T hT hpos
  obtain ⟨g, g1, g2, _⟩ := bins_densityOn hb
  obtain ⟨mn, h0⟩ := getElem?_of_lt (l := b) (i := 0) (by omega)
  obtain ⟨mx, hl⟩ := last_exists (l := b) (by omega)
  have hn : ((b.length - 1 : ℕ) : ℝ) ≠ 0 := by
    have : b.length - 1 ≠ 0 := by omega
    exact_mod_cast this
  have hpg : ∀ x, p x = g (x / T) / T := by
    intro x
    have hg := g1 (x / T)
    have hp := p1 x
    unfold genEvapPdf at hp
    simp only [hT, bind, Except.bind, rdiv_ok hpos.ne', front_eq_ok.mpr h0, back_eq_ok.mpr hl] at hp
    rcases pdfBins_eq hb h0 hl (x / T) with ⟨hx, e⟩ | ⟨hx, i, lo, hi, hs, e1, e2, hlt, e⟩
    · rw [if_pos hx] at hp
      rw [e] at hg
      rw [← Except.ok.inj hg, zero_div, ← Except.ok.inj hp]
    · rw [if_neg hx, hs] at hp
      rw [e] at hg
      simp only [getAt_eq_ok.mpr e1, getAt_eq_ok.mpr e2, rdiv_ok hn] at hp
      rw [rdiv_ok (mul_ne_zero (by linarith) hpos.ne')] at hp
      rw [← Except.ok.inj hg, ← Except.ok.inj hp, div_div (1 / _)]
  refine ⟨p, fun x => ⟨p1 x, p2 x⟩, fun S hS => ?_⟩
  have hmul : Measurable fun x : ℝ => x * T := by fun_prop
  have hS' : MeasurableSet ((fun x : ℝ => x * T) ⁻¹' S) := hmul hS
  have hint : ∫⁻ x in S, ENNReal.ofReal (p x) = ∫⁻ y in (fun x : ℝ => x * T) ⁻¹' S, ENNReal.ofReal (g y) := by
    have hv := Real.smul_map_volume_mul_right hpos.ne'
    rw [abs_of_pos hpos] at hv
    rw [← lintegral_indicator hS, ← lintegral_indicator hS']
    conv_lhs => rw [← hv]
    have he : MeasurableEmbedding fun x : ℝ => x * T := (Homeomorph.mulRight₀ T hpos.ne').measurableEmbedding
    rw [lintegral_smul_measure, he.lintegral_map, smul_eq_mul, ← lintegral_const_mul' _ _ ENNReal.ofReal_ne_top]
    refine lintegral_congr fun y => ?_
    by_cases hy : y * T ∈ S
    · rw [indicator_of_mem hy, indicator_of_mem (show y ∈ (fun x : ℝ => x * T) ⁻¹' S from hy), hpg, mul_div_cancel_right₀ _ hpos.ne', ← ENNReal.ofReal_mul hpos.le,
        mul_div_cancel₀ _ hpos.ne']
    · rw [indicator_of_notMem hy, indicator_of_notMem (show y ∉ (fun x : ℝ => x * T) ⁻¹' S from hy), mul_zero]
  rw [hint, ← bins_prob hb g1 hS', ← iid_pair k (binEvent_measurable b hS')]
  congr 1
  ext ω
  simp only [mem_ofPred_eq, binEvent, mem_preimage]
  have hrun : ∀ v k', genEvapSample t b E ω k = .ok (v, k') ↔ ∃ c, sampleBins (ω k) (ω (k + 1)) b = .ok c ∧ v = c * T ∧ k' = k + 2 := by
    intro v k'
    unfold genEvapSample
    simp only [hT, bind, Except.bind]
    cases sampleBins (ω k) (ω (k + 1)) b with
    | error e => simp
    | ok c => simp [pure, Except.pure, eq_comm]
  constructor
  · rintro ⟨v, k', h, hv⟩
    obtain ⟨c, hc, rfl, _⟩ := (hrun v k').mp h
    exact ⟨c, hc, hv⟩
  · rintro ⟨c, hc, hv⟩
    exact ⟨c * T, k + 2, (hrun _ _).mpr ⟨c, hc, rfl, rfl⟩, hv⟩

/-- A density has total mass one. -/
theorem density_total {f : ℝ → Res ℝ} {P : ℝ → Prop} (h : DensityOn f P) {M : ℝ} (hM : ∀ v, P v → |v| ≤ M) {p : ℝ → ℝ} (hp : ∀ x, f x = .ok (p x)) :
    ∫⁻ x, ENNReal.ofReal (p x) = 1 := by
  obtain ⟨p', e1, e2, e3⟩ := h
  have : p' = p := funext fun x => Except.ok.inj ((e1 x).symm.trans (hp x))
  subst this
  have hcov : AECover (volume : Measure ℝ) Filter.atTop fun n : ℕ => Ioc (-(|M| + n)) (|M| + n) := by
    refine aecover_Ioc ?_ ?_
    · exact Filter.tendsto_neg_atTop_atBot.comp (Filter.tendsto_atTop_add_const_left _ _ tendsto_natCast_atTop_atTop)
    · exact Filter.tendsto_atTop_add_const_left _ _ tendsto_natCast_atTop_atTop
  have hn : ∀ n : ℕ, IntervalIntegrable p' volume (-(|M| + n)) (|M| + n) ∧ ∫ x in (-(|M| + n))..(|M| + n), p' x = 1 := fun n => e3 _ _ fun v hv => by
    have h1 := hM v hv
    have h2 := le_abs_self M
    have h3 := (abs_le.mp h1)
    have h4 : (0 : ℝ) ≤ n := Nat.cast_nonneg n
    constructor <;> linarith [h3.1, h3.2]
  have hle : ∀ n : ℕ, -(|M| + (n : ℝ)) ≤ |M| + n := fun n => by
    have h4 : (0 : ℝ) ≤ n := Nat.cast_nonneg n
    have := abs_nonneg M
    linarith
  have hm : AEMeasurable p' volume := hcov.aemeasurable fun n => (hn n).1.1.aemeasurable
  have ht := hcov.lintegral_tendsto_of_countably_generated hm.ennreal_ofReal
  have hc : ∀ n : ℕ, ∫⁻ x in Ioc (-(|M| + n)) (|M| + n), ENNReal.ofReal (p' x) = 1 := fun n => by
    rw [← ofReal_integral_eq_lintegral_ofReal (hn n).1.1 (Filter.Eventually.of_forall e2), ← intervalIntegral.integral_of_le (hle n), (hn n).2, ENNReal.ofReal_one]
  simp only [hc] at ht
  exact (tendsto_nhds_unique tendsto_const_nhds ht).symm

/-- **C127** violation: for every distribution of equiprobable bins with `n` proper bounds per table, at every incident energy, the
probability that `sample_energy` returns an energy at all is `1 - 1 / n`, less than one. -/
theorem C127_violation (energy : List ℝ) (bins : List (List ℝ)) (d : EnergyBins) (hd : EnergyBins.make energy bins = .ok d) (hne : energy ≠ [])
    (n : Nat) (hb : ∀ b ∈ bins, ProperBins b ∧ b.length = n) (swap : Bool) (E : ℝ) (k : Nat) :
    Spec.iid {ω : Tape | ∃ v k', d.sample swap E ω k = .ok (v, k')} = ENNReal.ofReal (1 - 1 / n) ∧ ENNReal.ofReal (1 - 1 / (n : ℝ)) < 1 := by
  obtain ⟨p, hp, hS⟩ := C127_bins_partial energy bins d hd hne n hb swap E k
  obtain ⟨q1, q2, hs, hl, _⟩ := EnergyBins.make_valid hd
  have hpos : 0 < energy.length := List.length_pos_iff.mpr hne
  obtain ⟨b, hb0⟩ := getElem?_of_lt (l := bins) (i := 0) (by omega)
  obtain ⟨hpb, hbl⟩ := hb b (List.mem_of_getElem? hb0)
  have hn : (0 : ℝ) < n := by rw [← hbl]; exact_mod_cast (show 0 < b.length by have := hpb.1; omega)
  have h1 := hS univ MeasurableSet.univ
  simp only [mem_univ, and_true] at h1
  have hden := C95_bins_partial d (by rw [q1]; exact hne) (by rw [q1]; exact hs) (by rw [q1, q2]; exact hl) (by rw [q2]; exact fun s hs => (hb s hs).1) E
  have hmass : ∫⁻ x in univ, ENNReal.ofReal (p x) = 1 := by
    obtain ⟨M, hM⟩ := ((List.finite_toSet d.bins.flatten).image (fun v => |v|)).bddAbove
    rw [Measure.restrict_univ]
    exact density_total hden (M := M) (fun v ⟨s, hs, hv⟩ => hM ⟨v, List.mem_flatten.mpr ⟨s, hs, hv⟩, rfl⟩) fun x => (hp x).1
  rw [hmass, mul_one] at h1
  refine ⟨h1, ?_⟩
  rw [ENNReal.ofReal_lt_one]
  have : 0 < 1 / (n : ℝ) := by positivity
  linarith

/-- **C127** violation: general evaporation with `n` proper bounds returns an energy with probability `1 - 1 / n`. -/
theorem C127_violation_evaporation (t : Tab1D) (b : List ℝ) (hb : ProperBins b) (E T : ℝ) (hT : t.eval E = .ok T) (hpos : 0 < T) (k : Nat) :
    Spec.iid {ω : Tape | ∃ v k', genEvapSample t b E ω k = .ok (v, k')} = ENNReal.ofReal (1 - 1 / b.length) ∧ ENNReal.ofReal (1 - 1 / (b.length : ℝ)) < 1 := by
  obtain ⟨p, hp, hS⟩ := C127_evaporation_partial t b hb E T hT hpos k
  have hn : (0 : ℝ) < b.length := by exact_mod_cast (show 0 < b.length by have := hb.1; omega)
  have h1 := hS univ MeasurableSet.univ
  simp only [mem_univ, and_true] at h1
  have hmass : ∫⁻ x in univ, ENNReal.ofReal (p x) = 1 := by
    obtain ⟨M, hM⟩ := ((List.finite_toSet b).image (fun v => |v * T|)).bddAbove
    rw [Measure.restrict_univ]
    exact density_total (C95_evaporation_partial t b hb E T hT hpos) (M := M) (fun v ⟨c, hc, hv⟩ => hM ⟨c, hc, by rw [hv]⟩) fun x => (hp x).1
  rw [hmass, mul_one] at h1
  refine ⟨h1, ?_⟩
  rw [ENNReal.ofReal_lt_one]
  have : 0 < 1 / (b.length : ℝ) := by positivity
  linarith

/-- Two tables of two bins: an energy is returned with probability two thirds. -/
example : ∃ d, EnergyBins.make [1, 2] [[0, 1, 2], [0, 2, 4]] = .ok d ∧
    Spec.iid {ω : Tape | ∃ v k', d.sample false (3 / 2) ω 0 = .ok (v, k')} = ENNReal.ofReal (2 / 3) := by
  have hm : EnergyBins.make [1, 2] [[0, 1, 2], [0, 2, 4]] = .ok ⟨[1, 2], [[0, 1, 2], [0, 2, 4]]⟩ := by norm_num [EnergyBins.make, isSorted]
  refine ⟨_, hm, ?_⟩
  have := (C127_violation _ _ _ hm (by simp) 3 (by
    intro b hb
    fin_cases hb
    · exact ⟨⟨by simp, by norm_num⟩, rfl⟩
    · exact ⟨⟨by simp, by norm_num⟩, rfl⟩) false (3 / 2) 0).1
  rw [this]
  norm_num

end PNDL
