import Verif.Lemmas.Discrete
import Verif.Props.Thermal
import Verif.Props.DbrcLaw

/-! C125: the laws of the cosines and energies the thermal scattering laws sample. -/
namespace PNDL
open MeasureTheory Spec Set
open scoped ENNReal

/-! ### Coherent elastic -/

/-- The part of the structure factor that comes from edge `m`: its (cumulated) factor less the one of the edge before. -/
noncomputable def Spec.braggStep (c : CohElastic) (m : Nat) : ℝ := c.sf.getD m 0 - if m = 0 then 0 else c.sf.getD (m - 1) 0

theorem getD_val {l : List ℝ} {i : Nat} {x : ℝ} (h : l[i]? = some x) : l.getD i 0 = x := by
  rw [List.getD_eq_getElem?_getD, h]; rfl

/-- The law of the cosine and energy of coherent elastic scattering at energy `E`, the edges `0, …, l` being those below: the cosine of
each with the share its edge has of the structure factor. -/
noncomputable def Spec.braggLaw (c : CohElastic) (l : Nat) (E : ℝ) : Measure (ℝ × ℝ) :=
  ∑ m ∈ Finset.range (l + 1), ENNReal.ofReal (braggStep c m / c.sf.getD l 0) • Measure.dirac (1 - 2 * c.edges.getD m 0 / E, E)

theorem coherent_closed (c : CohElastic) (hv : ValidCoh c) (hsf : c.sf.Pairwise (· ≤ ·)) (h0 : ∀ s ∈ c.sf, 0 ≤ s) (l : Nat) (el E sl : ℝ)
    (hl : c.edges[l]? = some el) (hsl : c.sf[l]? = some sl) (hp : 0 < sl) (b0 : el < E) (b1 : ∀ e, c.edges[l + 1]? = some e → E ≤ e) :
    Closed (fun (_ : Nat) ω k => asPair (c.sample E ω k)) (braggLaw c l E) := by
  obtain ⟨first, last, s0, g0, g1, g2⟩ := coh_ends hv
  have hlen := hv.len
  have hll := lt_length_of_some hl
  have hlsf := lt_length_of_some hsl
  have hfE : first < E := lt_of_le_of_lt (pairwise_le_getElem? hv.sorted (Nat.zero_le _) g0 hl) b0
  obtain ⟨J, hJ⟩ : ∃ J : ℝ → Nat, J = fun x => lowerBoundRange c.sf 0 l (x * sl) := ⟨_, rfl⟩
  have spec : ∀ x, J x ≤ l ∧ ∀ i a, c.sf[i]? = some a → i < l → (a < x * sl ↔ i < J x) := by
    intro x
    obtain ⟨r1, r2, r3⟩ := lowerBoundRange_spec hsf (lo := 0) (hi := l) (x * sl) (Nat.zero_le _) (by omega)
    rw [hJ]
    exact ⟨r2, fun i a ha hi => r3 i a ha (Nat.zero_le _) hi⟩
  have hmono : Monotone J := by
    intro x y hxy
    by_contra hc
    have hlt := not_le.mp hc
    have hjl : J y < l := lt_of_lt_of_le hlt (spec x).1
    obtain ⟨a, ha⟩ := getElem?_of_lt (l := c.sf) (i := J y) (by omega)
    have q1 := ((spec x).2 _ a ha hjl).mpr hlt
    have q2 := mt ((spec y).2 _ a ha hjl).mp (lt_irrefl _)
    exact q2 (lt_of_lt_of_le q1 (mul_le_mul_of_nonneg_right hxy hp.le))
  have hJm : Measurable J := hmono.measurable
  have hstep : ∀ x, 0 ≤ x → x ≤ 1 → (∀ s, 0 < J x → c.sf[J x - 1]? = some s → s < x * sl) ∧ ∀ s, c.sf[J x]? = some s → x * sl ≤ s := by
    intro x x0 x1
    refine ⟨fun s hj hs => ((spec x).2 _ s hs (by have := (spec x).1; omega)).mpr (by omega), fun s hs => ?_⟩
    rcases (spec x).1.lt_or_eq with h | h
    · exact not_lt.mp (mt ((spec x).2 _ s hs h).mp (lt_irrefl _))
    · rw [h, hsl] at hs
      cases hs
      nlinarith
  have hEp : 0 < E := lt_of_le_of_lt (hv.nonneg first (List.mem_of_getElem? g0)) hfE
  have hpos : c.edges.length ≠ 0 := by omega
  have hlb : lowerBound c.edges E = l + 1 := by
    have q1 := (lowerBound_iff hv.sorted E hl).mp b0
    have q3 := lowerBound_le hv.sorted E
    by_cases h : l + 1 < c.edges.length
    · obtain ⟨e, he⟩ := getElem?_of_lt (l := c.edges) (i := l + 1) h
      have q2 := mt (lowerBound_iff hv.sorted E he).mpr (not_lt.mpr (b1 e he))
      omega
    · omega
  have hrun : ∀ (ω : Tape) (k : Nat), asPair (c.sample E ω k) = .ok ((1 - 2 * c.edges.getD (J (ω k)) 0 / E, E), k + 1) := by
    intro ω k
    obtain ⟨e, he⟩ := getElem?_of_lt (l := c.edges) (i := J (ω k)) (by have := (spec (ω k)).1; omega)
    have hJk : lowerBoundRange c.sf 0 l (ω k * sl) = J (ω k) := by rw [hJ]
    unfold CohElastic.sample
    rw [if_neg hpos]
    simp only [bind, Except.bind, front_eq_ok.mpr g0]
    rw [if_pos hfE, hlb, subIdx_of_le (by omega)]
    simp only [Nat.add_sub_cancel, getAt_eq_ok.mpr hsl, hJk, getAt_eq_ok.mpr he, rdiv_ok hEp.ne', getD_val he]
    rfl
  have hval : Measurable fun x => ((1 - 2 * c.edges.getD (J x) 0 / E, E) : ℝ × ℝ) :=
    (measurable_from_nat (f := fun j : Nat => ((1 - 2 * c.edges.getD j 0 / E, E) : ℝ × ℝ))).comp hJm
  have hcl : Closed (fun (_ : Nat) ω k => asPair (c.sample E ω k)) (Spec.unif.map fun x => (1 - 2 * c.edges.getD (J x) 0 / E, E)) := by
    refine Closed.of_eq (run' := fun (_ : Nat) ω k => asPair (c.sample E ω k))
      (closed_one_ae (g := fun x => .ok (1 - 2 * c.edges.getD (J x) 0 / E, E)) hval (Filter.Eventually.of_forall fun x => rfl)) ?_
    intro fuel ω k
    rw [hrun]; rfl
  have hlaw := finite_law hJm (n := l + 1) (Filter.Eventually.of_forall fun x => by have := (spec x).1; omega)
    (v := fun j => ((1 - 2 * c.edges.getD j 0 / E, E) : ℝ × ℝ))
  rw [hlaw] at hcl
  have : (∑ m ∈ Finset.range (l + 1), Spec.unif (J ⁻¹' {m}) • Measure.dirac ((1 - 2 * c.edges.getD m 0 / E, E) : ℝ × ℝ)) = braggLaw c l E := by
    refine Finset.sum_congr rfl fun m hm => ?_
    congr 1
    have hm' : m ≤ l := by have := Finset.mem_range.mp hm; omega
    obtain ⟨sm, hsm⟩ := getElem?_of_lt (l := c.sf) (i := m) (by omega)
    have hsml : sm ≤ sl := pairwise_le_getElem? hsf hm' hsm hsl
    rw [braggStep, getD_val hsl, getD_val hsm, sub_div]
    by_cases hz : m = 0
    · rw [if_pos hz, zero_div]
      refine unif_interval le_rfl ((div_le_one hp).mpr hsml) fun x x0 x1 _ hb => ?_
      rw [mem_preimage, mem_singleton_iff, lt_div_iff₀ hp]
      refine ⟨fun h => ⟨x0, ?_⟩, fun h => ?_⟩
      · have := (hstep x x0.le x1.le).2 sm (by rw [h]; exact hsm)
        exact lt_of_le_of_ne this fun e => hb (by rw [← e]; field_simp)
      · subst hz
        by_contra hc
        have := ((spec x).2 0 sm hsm (by have := (spec x).1; omega)).mpr (by omega)
        linarith [h.2]
    · rw [if_neg hz]
      obtain ⟨sp, hsp⟩ := getElem?_of_lt (l := c.sf) (i := m - 1) (by omega)
      rw [getD_val hsp]
      refine unif_interval (div_nonneg (h0 sp (List.mem_of_getElem? hsp)) hp.le) ((div_le_one hp).mpr hsml) fun x x0 x1 _ hb => ?_
      rw [mem_preimage, mem_singleton_iff, lt_div_iff₀ hp, div_lt_iff₀ hp]
      refine ⟨fun h => ⟨(hstep x x0.le x1.le).1 sp (by omega) (by rw [h]; exact hsp), ?_⟩, fun h => ?_⟩
      · have := (hstep x x0.le x1.le).2 sm (by rw [h]; exact hsm)
        exact lt_of_le_of_ne this fun e => hb (by rw [← e]; field_simp)
      · have q1 := ((spec x).2 (m - 1) sp hsp (by omega)).mp h.1
        have q2 : J x ≤ m := by
          by_contra hc
          have := ((spec x).2 m sm hsm (by have := (spec x).1; omega)).mpr (by omega)
          linarith [h.2]
        omega
  rwa [this] at hcl

/-- **C125** Coherent elastic scattering at an energy above the first Bragg edge, from a file whose cumulated structure factors are
not negative and do not decrease: the outgoing energy is the incoming one, and the cosine is `1 - 2 E_m / E` for each edge `E_m` below
`E`, with the probability `(S_m - S_(m-1)) / S_l`. -/
theorem C125_coherent (c : CohElastic) (hv : ValidCoh c) (hsf : c.sf.Pairwise (· ≤ ·)) (h0 : ∀ s ∈ c.sf, 0 ≤ s) (l : Nat) (el E sl : ℝ)
    (hl : c.edges[l]? = some el) (hsl : c.sf[l]? = some sl) (hp : 0 < sl) (b0 : el < E) (b1 : ∀ e, c.edges[l + 1]? = some e → E ≤ e) (k : Nat) :
    Samples (fun (_ : Nat) ω => asPair (c.sample E ω k)) (braggLaw c l E) :=
  (coherent_closed c hv hsf h0 l el E sl hl hsl hp b0 b1).samples k

/-- The example of C65 meets the hypotheses: at 5/2 the edges 1 and 2 are below, with probabilities 1/3 and 2/3. -/
example (k : Nat) : Samples (fun (_ : Nat) ω => asPair (bragg.sample (5 / 2) ω k)) (braggLaw bragg 1 (5 / 2)) := by
  refine C125_coherent bragg bragg_valid (by norm_num [bragg]) ?_ 1 2 (5 / 2) 3 rfl rfl (by norm_num) (by norm_num) ?_ k
  · intro s hs
    simp only [bragg, List.mem_cons, List.not_mem_nil, or_false] at hs
    rcases hs with rfl | rfl | rfl <;> norm_num
  · intro e he; simp [bragg] at he; rw [← he]; norm_num

/-! ### Smeared cosines -/

/-- The discrete cosine between two vectors of cosines. -/
noncomputable def Spec.mixedCosine (u v : List ℝ) (f : ℝ) (j : Nat) : ℝ := (1 - f) * u.getD j 0 + f * v.getD j 0

/-- The width over which cosine `j` of `n` is smeared: the distance to the nearer neighbour, the first and the last cosine having a
neighbour at their mirror image behind `-1` and `1`. -/
noncomputable def Spec.smearWidth (m : Nat → ℝ) (n j : Nat) : ℝ :=
  min (if j = 0 then 2 * (m j + 1) else m j - m (j - 1)) (if j + 1 = n then 2 * (1 - m j) else m (j + 1) - m j)

/-- The uniform distribution on the interval of width `w` around `m`. -/
noncomputable def Spec.around (m w : ℝ) : Measure ℝ := Spec.unif.map fun x => m + w * (x - 1 / 2)

/-- Each of the `n` discrete cosines with probability `1 / n`, smeared. -/
noncomputable def Spec.smearedLaw (m : Nat → ℝ) (n : Nat) : Measure ℝ :=
  ∑ j ∈ Finset.range n, ENNReal.ofReal (1 / n) • around (m j) (smearWidth m n j)

theorem mixAt_eq {n : Nat} {u v : List ℝ} (hu : u.length = n) (hv : v.length = n) (f : ℝ) {j : Nat} (hj : j < n) :
    mixAt u v f j = .ok (mixedCosine u v f j) := by
  obtain ⟨a, ha⟩ := getElem?_of_lt (l := u) (i := j) (by omega)
  obtain ⟨b, hb⟩ := getElem?_of_lt (l := v) (i := j) (by omega)
  rw [mixAt, getAt_eq_ok.mpr ha, getAt_eq_ok.mpr hb, mixedCosine, getD_val ha, getD_val hb]
  show Except.ok _ = _
  congr 1
  ring

theorem smear_eq {n : Nat} {u v : List ℝ} (hu : u.length = n) (hv : v.length = n) (f xi : ℝ) {j : Nat} (hj : j < n) :
    smear u v f n j xi = .ok (mixedCosine u v f j + smearWidth (mixedCosine u v f) n j * (xi - 1 / 2)) := by
  unfold smear
  rw [mixAt_eq hu hv f hj]
  simp only [bind, Except.bind]
  have e1 : (if j ≠ 0 then mixAt u v f (j - 1) else .ok (-1 - (mixedCosine u v f j + 1)) : Res ℝ) =
      .ok (mixedCosine u v f j - if j = 0 then 2 * (mixedCosine u v f j + 1) else mixedCosine u v f j - mixedCosine u v f (j - 1)) := by
    by_cases h : j = 0
    · rw [if_neg (not_not.mpr h), if_pos h]; congr 1; ring
    · rw [if_pos h, if_neg h, mixAt_eq hu hv f (by omega)]; congr 1; ring
  have e2 : (if j ≠ n - 1 then mixAt u v f (j + 1) else .ok (1 - (mixedCosine u v f j - 1)) : Res ℝ) =
      .ok (mixedCosine u v f j + if j + 1 = n then 2 * (1 - mixedCosine u v f j) else mixedCosine u v f (j + 1) - mixedCosine u v f j) := by
    by_cases h : j + 1 = n
    · rw [if_neg (by omega), if_pos h]; congr 1; ring
    · rw [if_pos (by omega), if_neg h, mixAt_eq hu hv f (by omega)]; congr 1; ring
  rw [e1, e2]
  simp only [pure, Except.pure]
  rw [smearWidth, sub_sub_cancel, add_sub_cancel_left]

/-- Choosing one of `n` indices with one random number. -/
theorem floor_closed {n : Nat} (hn : 0 < n) : Closed (fun (_ : Nat) (ω : Tape) k => (.ok (⌊(n : ℝ) * ω k⌋₊, k + 1) : Res (Nat × Nat)))
    (∑ j ∈ Finset.range n, ENNReal.ofReal (1 / n) • Measure.dirac j) := by
  have h := closed_one_ae (g := fun x => (.ok ⌊(n : ℝ) * x⌋₊ : Res Nat)) (measurable_floor_mul n) (Filter.Eventually.of_forall fun x => rfl)
  have e := floor_law hn (v := fun j : Nat => j)
  rw [e] at h
  exact h

/-- The cosine of a smeared law, by its two random numbers. -/
theorem smear_closed {n : Nat} (hn : 0 < n) {u v : List ℝ} (hu : u.length = n) (hv : v.length = n) (f : ℝ) :
    Closed (fun (_ : Nat) (ω : Tape) k => (smear u v f n ⌊(n : ℝ) * ω k⌋₊ (ω (k + 1))).map fun mu => (mu, k + 2)) (smearedLaw (mixedCosine u v f) n) := by
  have h := closed_finite (floor_closed hn) (run := fun j _ ω k => (smear u v f n j (ω k)).map fun mu => (mu, k + 1))
    (μ := fun j => around (mixedCosine u v f j) (smearWidth (mixedCosine u v f) n j)) ?_ ?_
  · refine Closed.of_eq (run' := fun (_ : Nat) (ω : Tape) k => (smear u v f n ⌊(n : ℝ) * ω k⌋₊ (ω (k + 1))).map fun mu => (mu, k + 2)) h ?_
    intro fuel ω k
    rfl
  · intro j fuel ω k
    simp only [dropT_apply, Nat.add_zero]
    cases smear u v f n j (ω k) <;> rfl
  · intro j hj
    exact closed_one_ae (by fun_prop) (Filter.Eventually.of_forall fun x => smear_eq hu hv f x hj)

/-- Smearing does not change the mean cosine. -/
theorem smeared_mean (m : Nat → ℝ) {n : Nat} (hn : 0 < n) : ∫ mu, mu ∂smearedLaw m n = (∑ j ∈ Finset.range n, m j) / n := by
  have hp : (0 : ℝ) < n := by exact_mod_cast hn
  have hm : ∀ j, Measurable fun x : ℝ => m j + smearWidth m n j * (x - 1 / 2) := fun j => by fun_prop
  have hone : ∀ c w : ℝ, Integrable (fun x : ℝ => c + w * (x - 1 / 2)) Spec.unif := by
    intro c w
    rw [Spec.unif]
    exact (Continuous.integrableOn_Icc (by fun_prop))
  have hval : ∀ j, ∫ mu, mu ∂around (m j) (smearWidth m n j) = m j := by
    intro j
    rw [around, integral_map (f := fun mu : ℝ => mu) (hm j).aemeasurable measurable_id.aestronglyMeasurable, Spec.unif, integral_Icc_eq_integral_Ioc, ← intervalIntegral.integral_of_le zero_le_one]
    rw [intervalIntegral.integral_add (by simp) (Continuous.intervalIntegrable (by fun_prop) 0 1), intervalIntegral.integral_const_mul,
      intervalIntegral.integral_sub (by simp) (by simp)]
    simp
  rw [smearedLaw, integral_finsetSum_measure]
  · simp only [integral_smul_measure, hval]
    rw [Finset.sum_div]
    refine Finset.sum_congr rfl fun j _ => ?_
    rw [ENNReal.toReal_ofReal (by positivity), smul_eq_mul]
    ring
  · intro j _
    refine Integrable.smul_measure ?_ ENNReal.ofReal_ne_top
    rw [around, integrable_map_measure (g := fun mu : ℝ => mu) measurable_id.aestronglyMeasurable (hm j).aemeasurable]
    exact hone _ _

theorem incoherent_closed (d : IncElastic) (hv : ValidInc d) (hn : 2 ≤ d.energy.length) (E first last : ℝ) (h0 : d.energy[0]? = some first)
    (h1 : d.energy.getLast? = some last) : ∃ (l : Nat) (f e0 e1 : ℝ) (u v : List ℝ), d.energy[l]? = some e0 ∧ d.energy[l + 1]? = some e1 ∧
      d.cosines[l]? = some u ∧ d.cosines[l + 1]? = some v ∧ 0 ≤ f ∧ f ≤ 1 ∧ e0 + f * (e1 - e0) = clip E first last ∧
      (Closed (fun (_ : Nat) ω k => asPair (d.sample E ω k)) ((smearedLaw (mixedCosine u v f) d.nmu).map fun mu => (mu, E))) ∧
      ∫ mu, mu ∂smearedLaw (mixedCosine u v f) d.nmu = (∑ j ∈ Finset.range d.nmu, mixedCosine u v f j) / d.nmu := by
  have hlen := hv.len
  have hpos := hv.pos (by intro h; rw [h] at hn; simp at hn)
  obtain ⟨l, f, e0, e1, hb, hlt, g0, g1, f0, f1, hclip, _⟩ := C67_bracket d.energy E first last hv.sorted hn h0 h1
  obtain ⟨u, hu⟩ := getElem?_of_lt (l := d.cosines) (i := l) (by omega)
  obtain ⟨v, hv'⟩ := getElem?_of_lt (l := d.cosines) (i := l + 1) (by omega)
  refine ⟨l, f, e0, e1, u, v, g0, g1, hu, hv', f0, f1, hclip, ?_, smeared_mean _ hpos⟩
  have hc := closed_map (smear_closed hpos (hv.cosines u (List.mem_of_getElem? hu)).len (hv.cosines v (List.mem_of_getElem? hv')).len f)
    (F := fun mu => (.ok (mu, E) : Res (ℝ × ℝ))) (f := fun mu => (mu, E)) (by fun_prop) (Filter.Eventually.of_forall fun _ => rfl)
  refine (Closed.of_eq (run' := fun (_ : Nat) ω k => asPair (d.sample E ω k)) hc ?_)
  intro fuel ω k
  unfold IncElastic.sample
  rw [if_neg (by omega)]
  simp only [bind, Except.bind, hb, getAt_eq_ok.mpr hu, getAt_eq_ok.mpr hv']
  cases smear u v f d.nmu ⌊(d.nmu : ℝ) * ω k⌋₊ (ω (k + 1)) <;> rfl

/-- **C125** Incoherent elastic scattering from a file with at least two energies: the energy is kept, and the cosine is each of the
discrete cosines interpolated at `E` with the same probability, smeared uniformly; so the mean cosine is the average of the
interpolated discrete cosines.  Missing: files with a single energy, see `C66_violation_single`. -/
theorem C125_incoherent_partial (d : IncElastic) (hv : ValidInc d) (hn : 2 ≤ d.energy.length) (E first last : ℝ) (h0 : d.energy[0]? = some first)
    (h1 : d.energy.getLast? = some last) : ∃ (l : Nat) (f e0 e1 : ℝ) (u v : List ℝ), d.energy[l]? = some e0 ∧ d.energy[l + 1]? = some e1 ∧
      d.cosines[l]? = some u ∧ d.cosines[l + 1]? = some v ∧ 0 ≤ f ∧ f ≤ 1 ∧ e0 + f * (e1 - e0) = clip E first last ∧
      (∀ k, Samples (fun (_ : Nat) ω => asPair (d.sample E ω k)) ((smearedLaw (mixedCosine u v f) d.nmu).map fun mu => (mu, E))) ∧
      ∫ mu, mu ∂smearedLaw (mixedCosine u v f) d.nmu = (∑ j ∈ Finset.range d.nmu, mixedCosine u v f j) / d.nmu := by
  obtain ⟨l, f, e0, e1, u, v, a1, a2, a3, a4, a5, a6, a7, hc, hm⟩ := incoherent_closed d hv hn E first last h0 h1
  exact ⟨l, f, e0, e1, u, v, a1, a2, a3, a4, a5, a6, a7, fun k => hc.samples k, hm⟩

/-! ### Discrete energies -/

/-- The probability of outgoing energy `j` out of `n`: the same for all, or in the proportions 1 : 4 : 10 : … : 10 : 4 : 1. -/
noncomputable def Spec.energyWeight (skewed : Bool) (n j : Nat) : ℝ :=
  if skewed = false then 1 / n
  else (if j = 0 ∨ j + 1 = n then 1 else if j = 1 ∨ j + 2 = n then 4 else 10) / (10 * ((n : ℝ) - 3))

open Classical in
/-- Which of the five parts of `[0, 1]` a number is in, for skewed energies. -/
noncomputable def skewPart (c x : ℝ) : Nat :=
  if 5 * c ≤ x ∧ x < 1 - 5 * c then 0 else if x < c then 1 else if c ≤ x ∧ x < 5 * c then 2 else if 1 - 5 * c ≤ x ∧ x < 1 - c then 3 else 4

theorem measurable_skewPart (c : ℝ) : Measurable (skewPart c) := by
  classical
  unfold skewPart
  have m1 : MeasurableSet {x : ℝ | 5 * c ≤ x ∧ x < 1 - 5 * c} := measurableSet_Ico
  have m2 : MeasurableSet {x : ℝ | x < c} := measurableSet_Iio
  have m3 : MeasurableSet {x : ℝ | c ≤ x ∧ x < 5 * c} := measurableSet_Ico
  have m4 : MeasurableSet {x : ℝ | 1 - 5 * c ≤ x ∧ x < 1 - c} := measurableSet_Ico
  exact Measurable.ite m1 measurable_const (Measurable.ite m2 measurable_const (Measurable.ite m3 measurable_const (Measurable.ite m4 measurable_const measurable_const)))

/-- What is done in each part. -/
noncomputable def skewRun (n s : Nat) : Nat → Tape → Nat → Res (Nat × Nat) := fun _ ω k =>
  if s = 0 then .ok (⌊((n - 4 : Nat) : ℝ) * ω k + 2⌋₊, k + 1) else .ok (if s = 1 then 0 else if s = 2 then 1 else if s = 3 then n - 2 else n - 1, k)

theorem pick_closed (d : DiscreteCE) (hn : 0 < d.noe) (hs : d.skewed = true → 6 ≤ d.noe) :
    Closed (fun (_ : Nat) ω k => d.pick ω k) (∑ j ∈ Finset.range d.noe, ENNReal.ofReal (energyWeight d.skewed d.noe j) • Measure.dirac j) := by
  cases hsk : d.skewed with
  | false =>
    refine Closed.of_eq (run' := fun (_ : Nat) ω k => d.pick ω k) (floor_closed hn) ?_
    intro fuel ω k
    unfold DiscreteCE.pick
    rw [if_pos hsk]; rfl
  | true =>
    have h6 := hs hsk
    obtain ⟨n, hnn⟩ : ∃ n, d.noe = n + 4 := ⟨d.noe - 4, by omega⟩
    rw [hnn]
    have hn2 : 2 ≤ n := by omega
    have hnr : (2 : ℝ) ≤ n := by exact_mod_cast hn2
    obtain ⟨c, hc⟩ : ∃ c : ℝ, c = 1 / (10 * (((n + 4 : Nat) : ℝ) - 3)) := ⟨_, rfl⟩
    have hd : (10 * (((n + 4 : Nat) : ℝ) - 3)) = 10 * (n + 1) := by push_cast; ring
    have hd0 : (10 * (((n + 4 : Nat) : ℝ) - 3)) ≠ 0 := by rw [hd]; positivity
    rw [hd] at hc
    have hcpos : 0 < c := by rw [hc]; positivity
    have hcn : c * (n + 1) = 1 / 10 := by rw [hc]; field_simp
    have h10 : 10 * c < 1 := by nlinarith
    -- the five parts
    have hpart : Closed (fun (_ : Nat) (ω : Tape) k => (.ok (skewPart c (ω k), k + 1) : Res (Nat × Nat)))
        (∑ s ∈ Finset.range 5, Spec.unif (skewPart c ⁻¹' {s}) • Measure.dirac s) := by
      have h := closed_one_ae (g := fun x => (.ok (skewPart c x) : Res Nat)) (measurable_skewPart c) (Filter.Eventually.of_forall fun x => rfl)
      have e := finite_law (measurable_skewPart c) (n := 5) (v := fun j : Nat => j) (Filter.Eventually.of_forall fun x => by
        unfold skewPart; split_ifs <;> omega)
      rw [e] at h
      exact h
    have h := closed_finite hpart (run := skewRun (n + 4))
      (μ := fun s => if s = 0 then ∑ i ∈ Finset.range n, ENNReal.ofReal (1 / n) • Measure.dirac (i + 2)
        else Measure.dirac (if s = 1 then 0 else if s = 2 then 1 else if s = 3 then n + 4 - 2 else n + 4 - 1)) ?_ ?_
    · have hrun : Closed (fun (_ : Nat) ω k => d.pick ω k) _ := Closed.of_eq (run' := fun (_ : Nat) ω k => d.pick ω k) h (by
        intro fuel ω k
        unfold DiscreteCE.pick
        rw [if_neg (by simp [hsk]), hnn, rdiv_ok hd0, hd, ← hc, subIdx_of_le (by omega), subIdx_of_le (by omega), subIdx_of_le (by omega)]
        show (if 5 * c ≤ ω k ∧ ω k < 1 - 5 * c then _ else _) = skewRun (n + 4) (skewPart c (ω k)) fuel ω (k + 1)
        by_cases h1 : 5 * c ≤ ω k ∧ ω k < 1 - 5 * c
        · rw [if_pos h1, show skewPart c (ω k) = 0 by unfold skewPart; rw [if_pos h1]]; rfl
        rw [if_neg h1]
        by_cases h2 : ω k < c
        · rw [if_pos h2, show skewPart c (ω k) = 1 by unfold skewPart; rw [if_neg h1, if_pos h2]]; rfl
        rw [if_neg h2]
        by_cases h3 : c ≤ ω k ∧ ω k < 5 * c
        · rw [if_pos h3, show skewPart c (ω k) = 2 by unfold skewPart; rw [if_neg h1, if_neg h2, if_pos h3]]; rfl
        rw [if_neg h3]
        by_cases h4 : 1 - 5 * c ≤ ω k ∧ ω k < 1 - c
        · rw [if_pos h4, show skewPart c (ω k) = 3 by unfold skewPart; rw [if_neg h1, if_neg h2, if_neg h3, if_pos h4]]; rfl
        rw [if_neg h4, show skewPart c (ω k) = 4 by unfold skewPart; rw [if_neg h1, if_neg h2, if_neg h3, if_neg h4]]; rfl)
      have hsum : (∑ s ∈ Finset.range 5, Spec.unif (skewPart c ⁻¹' {s}) • (if s = 0 then ∑ i ∈ Finset.range n, ENNReal.ofReal (1 / n) • Measure.dirac (i + 2)
          else Measure.dirac (if s = 1 then 0 else if s = 2 then 1 else if s = 3 then n + 4 - 2 else n + 4 - 1)) : Measure Nat) =
          ∑ j ∈ Finset.range (n + 4), ENNReal.ofReal (energyWeight true (n + 4) j) • Measure.dirac j := by
        have p0 : Spec.unif (skewPart c ⁻¹' {0}) = ENNReal.ofReal (1 - 5 * c - 5 * c) := by
          refine unif_interval (by linarith) (by linarith) fun x x0 x1 ha hb => ?_
          rw [mem_preimage, mem_singleton_iff]
          unfold skewPart
          constructor
          · intro h
            split_ifs at h with h1
            exact ⟨lt_of_le_of_ne h1.1 (Ne.symm ha), h1.2⟩
          · intro h
            rw [if_pos ⟨h.1.le, h.2⟩]
        have p1 : Spec.unif (skewPart c ⁻¹' {1}) = ENNReal.ofReal (c - 0) := by
          refine unif_interval (by linarith) (by linarith) fun x x0 x1 ha hb => ?_
          rw [mem_preimage, mem_singleton_iff]
          unfold skewPart
          constructor
          · intro h
            split_ifs at h with h1 h2 <;> first | omega | skip
            exact ⟨x0, h2⟩
          · intro h
            rw [if_neg (by intro q; linarith [q.1]), if_pos h.2]
        have p2 : Spec.unif (skewPart c ⁻¹' {2}) = ENNReal.ofReal (5 * c - c) := by
          refine unif_interval (by linarith) (by linarith) fun x x0 x1 ha hb => ?_
          rw [mem_preimage, mem_singleton_iff]
          unfold skewPart
          constructor
          · intro h
            split_ifs at h with h1 h2 h3 <;> first | omega | skip
            exact ⟨lt_of_le_of_ne h3.1 (Ne.symm ha), h3.2⟩
          · intro h
            rw [if_neg (by intro q; linarith [q.1]), if_neg (by linarith), if_pos ⟨h.1.le, h.2⟩]
        have p3 : Spec.unif (skewPart c ⁻¹' {3}) = ENNReal.ofReal (1 - c - (1 - 5 * c)) := by
          refine unif_interval (by linarith) (by linarith) fun x x0 x1 ha hb => ?_
          rw [mem_preimage, mem_singleton_iff]
          unfold skewPart
          constructor
          · intro h
            split_ifs at h with h1 h2 h3 h4 <;> first | omega | skip
            exact ⟨lt_of_le_of_ne h4.1 (Ne.symm ha), h4.2⟩
          · intro h
            rw [if_neg (by intro q; linarith [q.2]), if_neg (by linarith), if_neg (by intro q; linarith [q.2]), if_pos ⟨h.1.le, h.2⟩]
        have p4 : Spec.unif (skewPart c ⁻¹' {4}) = ENNReal.ofReal (1 - (1 - c)) := by
          refine unif_interval (by linarith) (by linarith) fun x x0 x1 ha hb => ?_
          rw [mem_preimage, mem_singleton_iff]
          unfold skewPart
          constructor
          · intro h
            split_ifs at h with h1 h2 h3 h4 <;> first | omega | skip
            refine ⟨?_, x1⟩
            by_contra hcc
            have hlt : x < 1 - c := lt_of_le_of_ne (not_lt.mp hcc) ha
            have g4 : x < 1 - 5 * c := by by_contra q; exact h4 ⟨not_lt.mp q, hlt⟩
            have g1 : x < 5 * c := by by_contra q; exact h1 ⟨not_lt.mp q, g4⟩
            exact h3 ⟨not_lt.mp h2, g1⟩
          · intro h
            rw [if_neg (by intro q; linarith [q.2]), if_neg (by linarith [h.1]), if_neg (by intro q; linarith [q.2]), if_neg (by intro q; linarith [q.2])]
        have w : ∀ j, energyWeight true (n + 4) j = (if j = 0 ∨ j + 1 = n + 4 then 1 else if j = 1 ∨ j + 2 = n + 4 then 4 else 10) * c := by
          intro j
          rw [energyWeight, if_neg (by simp), hd, hc]
          ring
        have w0 : energyWeight true (n + 4) 0 = c := by rw [w, if_pos (Or.inl rfl), one_mul]
        have w1 : energyWeight true (n + 4) (0 + 1) = 4 * c := by rw [w, if_neg (by omega), if_pos (Or.inl rfl)]
        have w2 : energyWeight true (n + 4) (n + 2) = 4 * c := by rw [w, if_neg (by omega), if_pos (Or.inr rfl)]
        have w3 : energyWeight true (n + 4) (n + 3) = c := by rw [w, if_pos (Or.inr rfl), one_mul]
        have hmid : ∀ i ∈ Finset.range n, (ENNReal.ofReal (energyWeight true (n + 4) (i + 1 + 1)) •
            Measure.dirac (i + 1 + 1) : Measure Nat) = ENNReal.ofReal (1 - 5 * c - 5 * c) • ENNReal.ofReal (1 / n) • Measure.dirac (i + 2) := by
          intro i hi
          have := Finset.mem_range.mp hi
          rw [w, if_neg (by omega), if_neg (by omega), smul_smul, ← ENNReal.ofReal_mul (by linarith)]
          congr 2
          field_simp
          nlinarith
        rw [Finset.sum_range_succ _ (n + 3), Finset.sum_range_succ _ (n + 2), Finset.sum_range_succ' _ (n + 1), Finset.sum_range_succ' _ n, w0, w1, w2, w3,
          Finset.sum_congr rfl hmid,
          show (∑ i ∈ Finset.range n, ENNReal.ofReal (1 - 5 * c - 5 * c) • ENNReal.ofReal (1 / (n : ℝ)) • (Measure.dirac (i + 2) : Measure Nat)) =
            ENNReal.ofReal (1 - 5 * c - 5 * c) • ∑ i ∈ Finset.range n, ENNReal.ofReal (1 / (n : ℝ)) • (Measure.dirac (i + 2) : Measure Nat) from Finset.smul_sum.symm]
        rw [Finset.sum_range_succ, Finset.sum_range_succ, Finset.sum_range_succ, Finset.sum_range_succ, Finset.sum_range_one, p0, p1, p2, p3, p4]
        rw [show 5 * c - c = 4 * c by ring, show 1 - c - (1 - 5 * c) = 4 * c by ring, show 1 - (1 - c) = c by ring, sub_zero]
        generalize ENNReal.ofReal (1 - 5 * c - 5 * c) = q
        show q • (∑ i ∈ Finset.range n, ENNReal.ofReal (1 / n) • Measure.dirac (i + 2)) + ENNReal.ofReal c • Measure.dirac 0 + ENNReal.ofReal (4 * c) • Measure.dirac 1 +
          ENNReal.ofReal (4 * c) • Measure.dirac (n + 2) + ENNReal.ofReal c • Measure.dirac (n + 3) = _
        generalize q • (∑ i ∈ Finset.range n, ENNReal.ofReal (1 / n) • Measure.dirac (i + 2)) = A
        rw [zero_add, add_right_comm A]
      rwa [hsum] at hrun
    · intro s fuel ω k
      unfold skewRun
      simp only [dropT_apply, Nat.add_zero, Nat.zero_add]
      by_cases h : s = 0
      · simp only [if_pos h]; rfl
      · simp only [if_neg h]; rfl
    · intro s hs
      by_cases h : s = 0
      · simp only [if_pos h]
        have hf := closed_one_ae (g := fun x : ℝ => (.ok ⌊((n + 4 - 4 : Nat) : ℝ) * x + 2⌋₊ : Res Nat)) (h := fun x : ℝ => ⌊(n : ℝ) * x⌋₊ + 2)
          ((measurable_from_nat (f := fun i : Nat => i + 2)).comp (measurable_floor_mul n)) (by
            filter_upwards [unif_lt_one] with x hx
            rw [Nat.add_sub_cancel]
            congr 1
            have : (0 : ℝ) ≤ n * x := mul_nonneg (by positivity) hx.1.le
            exact_mod_cast Nat.floor_add_natCast this 2)
        rw [floor_law (show 0 < n by omega) (v := fun i => i + 2)] at hf
        refine Closed.of_eq (run' := skewRun (n + 4) s) hf ?_
        intro fuel ω k
        unfold skewRun
        rw [if_pos h]; rfl
      · simp only [if_neg h]
        refine Closed.of_eq (run' := skewRun (n + 4) s) (closed_pure _) ?_
        intro fuel ω k
        unfold skewRun
        rw [if_neg h]

/-- What is returned for outgoing energy `j` and cosine `m` (the second part of `sample_angle_energy`). -/
noncomputable def dceValue (d : DiscreteCE) (E : ℝ) (j m : Nat) : Res (ℝ × ℝ) := do
  let it := lowerBound d.energy E
  if it = 0 then do
    let t ← front d.out
    discreteAt t j m
  else if it = d.energy.length then do
    let t ← back d.out
    discreteAt t j m
  else do
    let i ← subIdx it 1
    let e0 ← getAt d.energy i
    let e1 ← getAt d.energy (i + 1)
    let f ← rdiv (E - e0) (e1 - e0)
    let t0 ← getAt d.out i
    let t1 ← getAt d.out (i + 1)
    let (mu0, x0) ← discreteAt t0 j m
    let (mu1, x1) ← discreteAt t1 j m
    return (clampMu (mu0 + f * (mu1 - mu0)), x0 + f * (x1 - x0))

theorem dce_sample_eq (d : DiscreteCE) (E : ℝ) (ω : Tape) (k : Nat) : asPair (d.sample E ω k) =
    (do let r ← (.ok (⌊(d.nmu : ℝ) * ω k⌋₊, k + 1) : Res (Nat × Nat)); let s ← d.pick ω r.2; (dceValue d E s.1 r.1).map fun x => (x, s.2)) := by
  unfold DiscreteCE.sample dceValue
  simp only [bind, Except.bind]
  cases hp : d.pick ω (k + 1) with
  | error e => rfl
  | ok s =>
    simp only
    by_cases h0 : lowerBound d.energy E = 0
    · rw [if_pos h0, if_pos h0]
      cases front d.out with
      | error e => rfl
      | ok t => cases hd : discreteAt t s.1 ⌊(d.nmu : ℝ) * ω k⌋₊ <;> simp only [hd] <;> rfl
    · rw [if_neg h0, if_neg h0]
      by_cases h1 : lowerBound d.energy E = d.energy.length
      · rw [if_pos h1, if_pos h1]
        cases back d.out with
        | error e => rfl
        | ok t => cases hd : discreteAt t s.1 ⌊(d.nmu : ℝ) * ω k⌋₊ <;> simp only [hd] <;> rfl
      · rw [if_neg h1, if_neg h1]
        cases subIdx (lowerBound d.energy E) 1 with
        | error e => rfl
        | ok i =>
          simp only
          cases getAt d.energy i with
          | error e => rfl
          | ok e0 =>
            simp only
            cases getAt d.energy (i + 1) with
            | error e => rfl
            | ok e1 =>
              simp only
              cases rdiv (E - e0) (e1 - e0) with
              | error e => rfl
              | ok f =>
                simp only
                cases getAt d.out i with
                | error e => rfl
                | ok t0 =>
                  simp only
                  cases getAt d.out (i + 1) with
                  | error e => rfl
                  | ok t1 =>
                    simp only
                    cases discreteAt t0 s.1 ⌊(d.nmu : ℝ) * ω k⌋₊ with
                    | error e => rfl
                    | ok a =>
                      simp only
                      cases discreteAt t1 s.1 ⌊(d.nmu : ℝ) * ω k⌋₊ <;> rfl

/-- The discrete laws of the two neighbouring incoming energies, interpolated: the tables `t` and `t'` with the weight `f`, the same
outgoing energy and cosine of both. -/
def Spec.Interpolates (d : DiscreteCE) (E : ℝ) (value : Nat → Nat → ℝ × ℝ) : Prop :=
  ∃ (i i' : Nat) (t t' : List DiscreteEnergy) (f e0 e1 first last : ℝ), (i' = i ∨ i' = i + 1) ∧ d.energy[i]? = some e0 ∧ d.energy[i']? = some e1 ∧
    d.energy[0]? = some first ∧ d.energy.getLast? = some last ∧ 0 ≤ f ∧ f ≤ 1 ∧ e0 + f * (e1 - e0) = clip E first last ∧
    d.out[i]? = some t ∧ d.out[i']? = some t' ∧
    ∀ j m, j < d.noe → m < d.nmu → ∃ x x' mu mu', t[j]? = some x ∧ t'[j]? = some x' ∧ x.cosines[m]? = some mu ∧ x'.cosines[m]? = some mu' ∧
      value j m = ((1 - f) * mu + f * mu', (1 - f) * x.energy + f * x'.energy)

theorem discreteAt_get {d : DiscreteCE} (hv : ValidDCE d) {t : List DiscreteEnergy} (ht : t ∈ d.out) {j m : Nat} (hj : j < d.noe)
    (hm : m < d.nmu) : ∃ x mu, t[j]? = some x ∧ x.cosines[m]? = some mu ∧ discreteAt t j m = .ok (mu, x.energy) ∧ -1 ≤ mu ∧ mu ≤ 1 := by
  obtain ⟨x, hx⟩ := getElem?_of_lt (l := t) (i := j) (by rw [hv.lenOut t ht]; exact hj)
  obtain ⟨h1, h2, h3⟩ := hv.entry t ht x (List.mem_of_getElem? hx)
  obtain ⟨mu, hmu⟩ := getElem?_of_lt (l := x.cosines) (i := m) (by omega)
  obtain ⟨q1, q2⟩ := h3 mu (List.mem_of_getElem? hmu)
  refine ⟨x, mu, hx, hmu, ?_, q1, q2⟩
  rw [discreteAt, getAt_eq_ok.mpr hx]
  simp only [bind, Except.bind, getAt_eq_ok.mpr hmu]
  rfl

theorem dceValue_ok (d : DiscreteCE) (hv : ValidDCE d) (hne : d.energy ≠ []) (E : ℝ) :
    ∃ value, Interpolates d E value ∧ ∀ j m, j < d.noe → m < d.nmu → dceValue d E j m = .ok (value j m) := by
  have hpos := List.length_pos_iff.mpr hne
  have hlen := hv.len
  have hle := lowerBound_le hv.sorted E
  obtain ⟨first, h0⟩ := getElem?_of_lt (l := d.energy) (i := 0) hpos
  obtain ⟨last, h1⟩ := last_exists (l := d.energy) hpos
  have hlast : d.energy[d.energy.length - 1]? = some last := by rw [← List.getLast?_eq_getElem?]; exact h1
  have hfl : first ≤ last := pairwise_le_getElem? hv.sorted (Nat.zero_le _) h0 hlast
  have key : ∀ (i i' : Nat) (t t' : List DiscreteEnergy) (f e0 e1 : ℝ), (i' = i ∨ i' = i + 1) → d.energy[i]? = some e0 → d.energy[i']? = some e1 → 0 ≤ f → f ≤ 1 →
      e0 + f * (e1 - e0) = clip E first last → d.out[i]? = some t → d.out[i']? = some t' →
      (∀ j m x x' mu mu', t[j]? = some x → t'[j]? = some x' → x.cosines[m]? = some mu → x'.cosines[m]? = some mu' → discreteAt t j m = .ok (mu, x.energy) →
        discreteAt t' j m = .ok (mu', x'.energy) → -1 ≤ mu → mu ≤ 1 → -1 ≤ mu' → mu' ≤ 1 →
        dceValue d E j m = .ok ((1 - f) * mu + f * mu', (1 - f) * x.energy + f * x'.energy)) →
      ∃ value, Interpolates d E value ∧ ∀ j m, j < d.noe → m < d.nmu → dceValue d E j m = .ok (value j m) := by
    intro i i' t t' f e0 e1 hi g0 g1 f0 f1 hc ht ht' hval
    have hex : ∀ j m, ∃ q : ℝ × ℝ, j < d.noe → m < d.nmu → dceValue d E j m = .ok q ∧ ∃ x x' mu mu', t[j]? = some x ∧ t'[j]? = some x' ∧ x.cosines[m]? = some mu ∧
        x'.cosines[m]? = some mu' ∧ q = ((1 - f) * mu + f * mu', (1 - f) * x.energy + f * x'.energy) := by
      intro j m
      by_cases hjm : j < d.noe ∧ m < d.nmu
      · obtain ⟨x, mu, a1, a2, a3, a4, a5⟩ := discreteAt_get hv (List.mem_of_getElem? ht) hjm.1 hjm.2
        obtain ⟨x', mu', b1, b2, b3, b4, b5⟩ := discreteAt_get hv (List.mem_of_getElem? ht') hjm.1 hjm.2
        exact ⟨_, fun _ _ => ⟨hval j m x x' mu mu' a1 b1 a2 b2 a3 b3 a4 a5 b4 b5, x, x', mu, mu', a1, b1, a2, b2, rfl⟩⟩
      · exact ⟨(0, 0), fun a b => absurd ⟨a, b⟩ hjm⟩
    choose value hvalue using hex
    exact ⟨value, ⟨i, i', t, t', f, e0, e1, first, last, hi, g0, g1, h0, h1, f0, f1, hc, ht, ht', fun j m hj hm => (hvalue j m hj hm).2⟩,
      fun j m hj hm => (hvalue j m hj hm).1⟩
  by_cases hz : lowerBound d.energy E = 0
  · obtain ⟨t, ht⟩ := getElem?_of_lt (l := d.out) (i := 0) (by omega)
    have hA : E ≤ first := not_lt.mp (mt (lowerBound_iff hv.sorted E h0).mp (by omega))
    refine key 0 0 t t 0 first first (Or.inl rfl) h0 h0 le_rfl zero_le_one ?_ ht ht ?_
    · rw [clip, min_eq_left (hA.trans hfl), max_eq_left hA]; ring
    · intro j m x x' mu mu' a1 b1 a2 b2 a3 b3 _ _ _ _
      unfold dceValue
      simp only [bind, Except.bind]
      rw [if_pos hz]
      simp only [front_eq_ok.mpr ht, a3, sub_zero, one_mul, zero_mul, add_zero]
  · by_cases hl : lowerBound d.energy E = d.energy.length
    · obtain ⟨t, ht⟩ := last_exists (l := d.out) (by omega)
      have ht' : d.out[d.out.length - 1]? = some t := by rw [← List.getLast?_eq_getElem?]; exact ht
      have hB : last < E := (lowerBound_iff hv.sorted E hlast).mpr (by omega)
      refine key (d.out.length - 1) (d.out.length - 1) t t 0 last last (Or.inl rfl) (by rw [hlen]; exact hlast) (by rw [hlen]; exact hlast) le_rfl zero_le_one ?_ ht' ht' ?_
      · rw [clip, min_eq_right hB.le, max_eq_right hfl]; ring
      · intro j m x x' mu mu' a1 b1 a2 b2 a3 b3 _ _ _ _
        unfold dceValue
        simp only [bind, Except.bind]
        rw [if_neg hz, if_pos hl]
        simp only [back_eq_ok.mpr ht, a3, sub_zero, one_mul, zero_mul, add_zero]
    · obtain ⟨i, hi⟩ : ∃ i, lowerBound d.energy E = i + 1 := ⟨lowerBound d.energy E - 1, by omega⟩
      obtain ⟨e0, g0⟩ := getElem?_of_lt (l := d.energy) (i := i) (by omega)
      obtain ⟨e1, g1⟩ := getElem?_of_lt (l := d.energy) (i := i + 1) (by omega)
      have b0 : e0 < E := (lowerBound_iff hv.sorted E g0).mpr (by omega)
      have b1 : E ≤ e1 := not_lt.mp (mt (lowerBound_iff hv.sorted E g1).mp (by omega))
      have hd : 0 < e1 - e0 := by linarith
      obtain ⟨t, ht⟩ := getElem?_of_lt (l := d.out) (i := i) (by omega)
      obtain ⟨t', ht'⟩ := getElem?_of_lt (l := d.out) (i := i + 1) (by omega)
      obtain ⟨f, hf⟩ : ∃ f, f = (E - e0) / (e1 - e0) := ⟨_, rfl⟩
      have f0 : 0 ≤ f := by rw [hf]; apply div_nonneg <;> linarith
      have f1 : f ≤ 1 := by rw [hf, div_le_one hd]; linarith
      refine key i (i + 1) t t' f e0 e1 (Or.inr rfl) g0 g1 f0 f1 ?_ ht ht' ?_
      · have z1 := pairwise_le_getElem? hv.sorted (Nat.zero_le _) h0 g0
        have z2 := pairwise_le_getElem? hv.sorted (show i + 1 ≤ d.energy.length - 1 by omega) g1 hlast
        rw [clip, min_eq_left (by linarith), max_eq_right (by linarith), hf]; field_simp; ring
      · intro j m x x' mu mu' a1 b1' a2 b2 a3 b3 q1 q2 r1 r2
        have m1 : -1 ≤ mu + f * (mu' - mu) := by nlinarith
        have m2 : mu + f * (mu' - mu) ≤ 1 := by nlinarith
        unfold dceValue
        simp only [bind, Except.bind]
        rw [if_neg hz, if_neg hl, hi, subIdx_of_le (by omega)]
        simp only [Nat.add_sub_cancel, getAt_eq_ok.mpr g0, getAt_eq_ok.mpr g1, rdiv_ok hd.ne', getAt_eq_ok.mpr ht, getAt_eq_ok.mpr ht',
          a3, b3, ← hf, clampMu_of_mem m1 m2]
        show Except.ok _ = _
        congr 2 <;> ring

theorem discrete_closed (d : DiscreteCE) (hv : ValidDCE d) (hne : d.energy ≠ []) (hn : 0 < d.noe) (hm : 0 < d.nmu) (E : ℝ) :
    ∃ value, Interpolates d E value ∧ Closed (fun (_ : Nat) ω k => asPair (d.sample E ω k))
      (∑ m ∈ Finset.range d.nmu, ENNReal.ofReal (1 / d.nmu) • ∑ j ∈ Finset.range d.noe, ENNReal.ofReal (energyWeight d.skewed d.noe j) • Measure.dirac (value j m)) := by
  obtain ⟨value, hval, hv'⟩ := dceValue_ok d hv hne E
  refine ⟨value, hval, ?_⟩
  have hin : ∀ m j, Shifts fun (_ : Nat) (_ : Tape) k => (dceValue d E j m).map fun x => (x, k) := by
    intro m j fuel ω k
    cases dceValue d E j m <;> rfl
  have hp := pick_closed d hn hv.skew
  have hone : ∀ m, m < d.nmu → Closed (fun (_ : Nat) ω k => do let s ← d.pick ω k; (dceValue d E s.1 m).map fun x => (x, s.2))
      (∑ j ∈ Finset.range d.noe, ENNReal.ofReal (energyWeight d.skewed d.noe j) • Measure.dirac (value j m)) := by
    intro m hmm
    refine closed_finite hp (run := fun j _ _ k => (dceValue d E j m).map fun x => (x, k)) (hin m) fun j hj => ?_
    refine Closed.of_eq (run' := fun (_ : Nat) (_ : Tape) k => (dceValue d E j m).map fun x => (x, k)) (closed_pure (value j m)) ?_
    intro fuel ω k
    rw [hv' j m hj hmm]; rfl
  have hall := closed_finite (floor_closed hm) (run := fun m _ ω k => do let s ← d.pick ω k; (dceValue d E s.1 m).map fun x => (x, s.2)) ?_ hone
  · refine (Closed.of_eq (run' := fun (_ : Nat) ω k => asPair (d.sample E ω k)) hall ?_)
    intro fuel ω k
    exact dce_sample_eq d E ω k
  · intro m fuel ω k
    show (do let s ← d.pick ω k; (dceValue d E s.1 m).map fun x => (x, s.2)) = Except.map _ (do let s ← d.pick (dropT k ω) 0; (dceValue d E s.1 m).map fun x => (x, s.2))
    rw [show d.pick ω k = _ from hp.shift fuel ω k]
    cases d.pick (dropT k ω) 0 with
    | error e => rfl
    | ok s =>
      show (dceValue d E s.1 m).map _ = Except.map _ ((dceValue d E s.1 m).map _)
      cases dceValue d E s.1 m <;> rfl

/-- **C125** Incoherent inelastic scattering with discrete energies, from a file with at least one incoming energy, outgoing energy
and cosine: every pair of an outgoing energy and a cosine index is chosen with the product of the weight of the energy (equal, or
1 : 4 : 10 : … : 10 : 4 : 1) and `1 / Nmu`, and gives the tabulated cosine and energy interpolated at the incoming energy.  Missing:
empty tables, see `C85_violation_empty`. -/
theorem C125_discrete_partial (d : DiscreteCE) (hv : ValidDCE d) (hne : d.energy ≠ []) (hn : 0 < d.noe) (hm : 0 < d.nmu) (E : ℝ) :
    ∃ value, Interpolates d E value ∧ ∀ k, Samples (fun (_ : Nat) ω => asPair (d.sample E ω k))
      (∑ m ∈ Finset.range d.nmu, ENNReal.ofReal (1 / d.nmu) • ∑ j ∈ Finset.range d.noe, ENNReal.ofReal (energyWeight d.skewed d.noe j) • Measure.dirac (value j m)) := by
  obtain ⟨value, h1, h2⟩ := discrete_closed d hv hne hn hm E
  exact ⟨value, h1, fun k => h2.samples k⟩

/-- The weights of the energies add up to one, so that the law is a probability. -/
theorem C125_weights (skewed : Bool) (n : Nat) (hn : 0 < n) (hs : skewed = true → 6 ≤ n) :
    (∀ j, 0 ≤ energyWeight skewed n j) ∧ ∑ j ∈ Finset.range n, energyWeight skewed n j = 1 := by
  cases skewed with
  | false =>
    have hp : (0 : ℝ) < n := by exact_mod_cast hn
    simp only [energyWeight, if_true]
    refine ⟨fun _ => by positivity, ?_⟩
    rw [Finset.sum_const, Finset.card_range, nsmul_eq_mul]
    field_simp
  | true =>
    obtain ⟨N, rfl⟩ : ∃ N, n = N + 4 := ⟨n - 4, by have := hs rfl; omega⟩
    have hd : (10 * (((N + 4 : Nat) : ℝ) - 3)) = 10 * (N + 1) := by push_cast; ring
    have w : ∀ j, energyWeight true (N + 4) j = (if j = 0 ∨ j + 1 = N + 4 then 1 else if j = 1 ∨ j + 2 = N + 4 then 4 else 10) / (10 * (N + 1)) := by
      intro j
      rw [energyWeight, if_neg (by simp), hd]
    refine ⟨fun j => ?_, ?_⟩
    · rw [w]
      apply div_nonneg
      · split_ifs <;> norm_num
      · positivity
    · have hmid : ∀ i ∈ Finset.range N, energyWeight true (N + 4) (i + 1 + 1) = 10 / (10 * (N + 1)) := by
        intro i hi
        have := Finset.mem_range.mp hi
        rw [w, if_neg (by omega), if_neg (by have := hs rfl; omega)]
      rw [Finset.sum_range_succ _ (N + 3), Finset.sum_range_succ _ (N + 2), Finset.sum_range_succ' _ (N + 1), Finset.sum_range_succ' _ N,
        Finset.sum_congr rfl hmid, w, w, w, w, if_neg (by omega), if_pos (Or.inl rfl), if_pos (Or.inl rfl), if_neg (by omega), if_pos (Or.inr rfl),
        if_pos (Or.inr rfl), Finset.sum_const, Finset.card_range, nsmul_eq_mul]
      field_simp
      ring

/-- The example of C85 meets the hypotheses. -/
example (hv : ValidDCE dceExample) (E : ℝ) : ∃ value, Interpolates dceExample E value ∧ ∀ k, Samples (fun (_ : Nat) ω => asPair (dceExample.sample E ω k))
    (∑ m ∈ Finset.range 1, ENNReal.ofReal (1 / (1 : Nat)) • ∑ j ∈ Finset.range 2, ENNReal.ofReal (energyWeight false 2 j) • Measure.dirac (value j m)) :=
  C125_discrete_partial dceExample hv (by simp [dceExample]) (by decide) (by decide) E

end PNDL
