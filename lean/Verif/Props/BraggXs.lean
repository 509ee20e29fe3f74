import Verif.Props.ThermalDist

/-! C170: the cross section and the sampling of coherent elastic scattering, taken together, are the sum over the Bragg edges
`(1/E) Σ_m (S_m - S_(m-1)) δ(mu - (1 - 2 E_m/E))`. -/
namespace PNDL
open MeasureTheory Spec Set
open scoped ENNReal

/-- What a quantity `g` of the outgoing cosine and energy contributes per unit of incident flux according to the Bragg formula, the edges
`0, …, l` being those below `E`: the sum over these edges of the step of the structure factor times `g` at the cosine of the edge, over `E`. -/
noncomputable def Spec.braggSum (c : CohElastic) (l : Nat) (E : ℝ) (g : ℝ × ℝ → ℝ) : ℝ :=
  (∑ m ∈ Finset.range (l + 1), braggStep c m * g (1 - 2 * c.edges.getD m 0 / E, E)) / E

private theorem step_nonneg (c : CohElastic) (hv : ValidCoh c) (hsf : c.sf.Pairwise (· ≤ ·)) (h0 : ∀ s ∈ c.sf, 0 ≤ s) (m : Nat)
    (hm : m < c.edges.length) : 0 ≤ braggStep c m := by
  have hlen := hv.len
  obtain ⟨s, hs⟩ := getElem?_of_lt (l := c.sf) (i := m) (by omega)
  unfold braggStep
  rw [getD_val hs]
  by_cases hz : m = 0
  · rw [if_pos hz, sub_zero]; exact h0 s (List.mem_of_getElem? hs)
  · rw [if_neg hz]
    obtain ⟨p, hp⟩ := getElem?_of_lt (l := c.sf) (i := m - 1) (by omega)
    rw [getD_val hp]
    exact sub_nonneg.mpr (pairwise_le_getElem? hsf (by omega) hp hs)

private theorem bragg_integral (c : CohElastic) (hv : ValidCoh c) (hsf : c.sf.Pairwise (· ≤ ·)) (h0 : ∀ s ∈ c.sf, 0 ≤ s) (l : Nat) (E sl : ℝ)
    (hl : l < c.edges.length) (hsl : c.sf[l]? = some sl) (hp : 0 < sl) (g : ℝ × ℝ → ℝ) :
    sl / E * ∫ q, g q ∂braggLaw c l E = braggSum c l E g := by
  have hs0 : sl ≠ 0 := hp.ne'
  unfold braggLaw braggSum
  rw [integral_finsetSum_measure]
  · have : ∀ m ∈ Finset.range (l + 1), ∫ q, g q ∂(ENNReal.ofReal (braggStep c m / c.sf.getD l 0) • Measure.dirac ((1 - 2 * c.edges.getD m 0 / E, E) : ℝ × ℝ)) =
        braggStep c m / sl * g (1 - 2 * c.edges.getD m 0 / E, E) := by
      intro m hm
      have := step_nonneg c hv hsf h0 m (by have := Finset.mem_range.mp hm; omega)
      rw [integral_smul_measure, integral_dirac, getD_val hsl, ENNReal.toReal_ofReal (by positivity), smul_eq_mul]
    rw [Finset.sum_congr rfl this, Finset.mul_sum, Finset.sum_div]
    refine Finset.sum_congr rfl fun m _ => ?_
    by_cases hE : E = 0
    · subst hE; simp
    · field_simp
  · intro m _
    exact (integrable_dirac (by simp)).smul_measure ENNReal.ofReal_ne_top

/-- **C170** Take an energy between two Bragg edges (or at an inner edge, or above the last one), the structure factors being
non-negative and non-decreasing with a positive value at the highest edge below. For every quantity `g` of the outgoing cosine and
energy, the cross section times the mean of `g` over the samples is the Bragg sum. Missing: the first and the last edge themselves, where
the cross section the library gives is that of other edges than the sampling uses, see `C170_violation_last_edge` and
`C65_violation_first_edge`. -/
theorem C170_bragg_partial (c : CohElastic) (hv : ValidCoh c) (hsf : c.sf.Pairwise (· ≤ ·)) (h0 : ∀ s ∈ c.sf, 0 ≤ s) (l : Nat) (el E sl : ℝ)
    (hl : c.edges[l]? = some el) (hsl : c.sf[l]? = some sl) (hp : 0 < sl) (b0 : el < E) (b1 : ∀ e, c.edges[l + 1]? = some e → E ≤ e)
    (hlast : c.edges.getLast? ≠ some E) : ∃ (sigma : ℝ) (law : Measure (ℝ × ℝ)), c.xs E = .ok sigma ∧
      (∀ k, Samples (fun (_ : Nat) ω => asPair (c.sample E ω k)) law) ∧
      ∀ g : ℝ × ℝ → ℝ, sigma * ∫ q, g q ∂law = braggSum c l E g := by
  have hll := lt_length_of_some hl
  have hlen := hv.len
  refine ⟨sl / E, braggLaw c l E, ?_, fun k => C125_coherent c hv hsf h0 l el E sl hl hsl hp b0 b1 k, fun g =>
    bragg_integral c hv hsf h0 l E sl hll hsl hp g⟩
  obtain ⟨first, last, s0, g0, g1, g2⟩ := coh_ends hv
  have hlast' : c.edges[c.edges.length - 1]? = some last := by rw [← List.getLast?_eq_getElem?]; exact g1
  have hne : E ≠ last := fun h => hlast (by rw [h]; exact g1)
  by_cases h : l + 1 < c.edges.length
  · obtain ⟨e, he⟩ := getElem?_of_lt (l := c.edges) (i := l + 1) h
    have hle := pairwise_le_getElem? hv.sorted (show l + 1 ≤ c.edges.length - 1 by omega) he hlast'
    refine C65_xs_between c hv l el e sl E hl he hsl b0 ?_
    rcases (b1 e he).lt_or_eq with q | q
    · exact .inl q
    · exact .inr ⟨q, last, g1, lt_of_le_of_ne hle fun w => hne (by rw [q, w])⟩
  · have e1 : l = c.edges.length - 1 := by omega
    have e2 : last = el := by rw [e1, hlast'] at hl; exact Option.some.inj hl
    have e3 : c.sf.getLast? = some sl := by rw [List.getLast?_eq_getElem?, hlen, ← e1]; exact hsl
    have := hv.nonneg el (List.mem_of_getElem? hl)
    exact C65_xs_above c hv first last sl E g0 g1 e3 (by rw [e2]; exact b0.le) (by linarith)

/-- **C170** The contribution of one edge: under the same conditions, with strictly increasing edges, the cross section times the
probability of the cosine of edge `m` is the step of the structure factor at that edge over the energy. -/
theorem C170_edge_partial (c : CohElastic) (hv : ValidCoh c) (hst : c.edges.Pairwise (· < ·)) (hsf : c.sf.Pairwise (· ≤ ·)) (h0 : ∀ s ∈ c.sf, 0 ≤ s)
    (l : Nat) (el E sl : ℝ) (hl : c.edges[l]? = some el) (hsl : c.sf[l]? = some sl) (hp : 0 < sl) (b0 : el < E)
    (b1 : ∀ e, c.edges[l + 1]? = some e → E ≤ e) (hlast : c.edges.getLast? ≠ some E) (m : Nat) (hm : m ≤ l) (em : ℝ)
    (hem : c.edges[m]? = some em) : ∃ (sigma : ℝ) (law : Measure (ℝ × ℝ)), c.xs E = .ok sigma ∧
      (∀ k, Samples (fun (_ : Nat) ω => asPair (c.sample E ω k)) law) ∧
      sigma * (law {(1 - 2 * em / E, E)}).toReal = braggStep c m / E := by
  obtain ⟨sigma, law, a1, a2, a3⟩ := C170_bragg_partial c hv hsf h0 l el E sl hl hsl hp b0 b1 hlast
  refine ⟨sigma, law, a1, a2, ?_⟩
  have hE : 0 < E := lt_of_le_of_lt (hv.nonneg el (List.mem_of_getElem? hl)) b0
  have := a3 (Set.indicator {(1 - 2 * em / E, E)} 1)
  rw [integral_indicator_one (measurableSet_singleton _)] at this
  rw [show (law {(1 - 2 * em / E, E)}).toReal = law.real {(1 - 2 * em / E, E)} from rfl, this, braggSum]
  congr 1
  rw [Finset.sum_eq_single m]
  · rw [getD_val hem]; simp
  · intro j hj hjm
    have hjl : j < c.edges.length := by have := Finset.mem_range.mp hj; have := lt_length_of_some hl; omega
    obtain ⟨ej, hej⟩ := getElem?_of_lt (l := c.edges) (i := j) hjl
    rw [getD_val hej, indicator_of_notMem, mul_zero]
    intro h
    have h' := (Prod.mk.injEq _ _ _ _ ▸ (mem_singleton_iff.mp h)).1
    have hee : ej = em := by
      field_simp at h'
      linarith
    rcases Nat.lt_or_gt_of_ne hjm with q | q
    · have := List.pairwise_iff_getElem.mp hst j m hjl (lt_length_of_some hem) q
      rw [List.getElem?_eq_getElem hjl] at hej
      rw [List.getElem?_eq_getElem (lt_length_of_some hem)] at hem
      have w1 := Option.some.inj hej; have w2 := Option.some.inj hem; linarith
    · have := List.pairwise_iff_getElem.mp hst m j (lt_length_of_some hem) hjl q
      rw [List.getElem?_eq_getElem hjl] at hej
      rw [List.getElem?_eq_getElem (lt_length_of_some hem)] at hem
      have w1 := Option.some.inj hej; have w2 := Option.some.inj hem; linarith
  · intro h; exact absurd (Finset.mem_range.mpr (by omega)) h

/-- **C170** The transport (momentum transfer) cross section: the cross section times the mean of `1 - mu` is twice the sum of the steps
times their edges, over the square of the energy. -/
theorem C170_transport_partial (c : CohElastic) (hv : ValidCoh c) (hsf : c.sf.Pairwise (· ≤ ·)) (h0 : ∀ s ∈ c.sf, 0 ≤ s) (l : Nat) (el E sl : ℝ)
    (hl : c.edges[l]? = some el) (hsl : c.sf[l]? = some sl) (hp : 0 < sl) (b0 : el < E) (b1 : ∀ e, c.edges[l + 1]? = some e → E ≤ e)
    (hlast : c.edges.getLast? ≠ some E) : ∃ (sigma : ℝ) (law : Measure (ℝ × ℝ)), c.xs E = .ok sigma ∧
      (∀ k, Samples (fun (_ : Nat) ω => asPair (c.sample E ω k)) law) ∧
      sigma * ∫ q, (1 - q.1) ∂law = 2 * (∑ m ∈ Finset.range (l + 1), braggStep c m * c.edges.getD m 0) / E ^ 2 := by
  obtain ⟨sigma, law, a1, a2, a3⟩ := C170_bragg_partial c hv hsf h0 l el E sl hl hsl hp b0 b1 hlast
  refine ⟨sigma, law, a1, a2, ?_⟩
  have hE : 0 < E := lt_of_le_of_lt (hv.nonneg el (List.mem_of_getElem? hl)) b0
  rw [a3, braggSum, Finset.mul_sum, Finset.sum_div, Finset.sum_div]
  refine Finset.sum_congr rfl fun m _ => ?_
  field_simp
  ring

/-- **C170** At the last edge, if the structure factor steps up there, the full formula fails: the cross section already contains the step of
the last edge, but no sample has the cosine `-1` that belongs to it, so that the mean of `1` comes out too large by the last step over
the energy (at the inner edges neither the cross section nor the samples contain the step of the edge itself). -/
theorem C170_violation_last_edge (c : CohElastic) (hv : ValidCoh c) (hsf : c.sf.Pairwise (· ≤ ·)) (h0 : ∀ s ∈ c.sf, 0 ≤ s) (l : Nat) (el E sl s1 : ℝ)
    (hl : c.edges[l]? = some el) (hsl : c.sf[l]? = some sl) (hp : 0 < sl) (b0 : el < E) (hn : c.edges.length = l + 2)
    (h1 : c.edges[l + 1]? = some E) (hs1 : c.sf[l + 1]? = some s1) (hstep : sl < s1) : c.xs E = .ok (s1 / E) ∧
      (∀ k, Samples (fun (_ : Nat) ω => asPair (c.sample E ω k)) (braggLaw c l E)) ∧
      s1 / E * ∫ _, (1 : ℝ) ∂braggLaw c l E = braggSum c l E (fun _ => 1) + braggStep c (l + 1) / E ∧ 0 < braggStep c (l + 1) / E := by
  have hE : 0 < E := lt_of_le_of_lt (hv.nonneg el (List.mem_of_getElem? hl)) b0
  obtain ⟨first, last, s0, g0, g1, g2⟩ := coh_ends hv
  have hlen := hv.len
  have e1 : c.edges.getLast? = some E := by rw [List.getLast?_eq_getElem?, hn]; exact h1
  have e2 : c.sf.getLast? = some s1 := by rw [List.getLast?_eq_getElem?, hlen, hn]; exact hs1
  have hb : braggStep c (l + 1) = s1 - sl := by
    rw [braggStep, getD_val hs1, if_neg (by omega), Nat.add_sub_cancel, getD_val hsl]
  have hlaw := fun k => C125_coherent c hv hsf h0 l el E sl hl hsl hp b0 (fun e he => by rw [h1] at he; exact (Option.some.inj he).le) k
  have hint := bragg_integral c hv hsf h0 l E sl (by omega) hsl hp (fun _ => 1)
  have htot : braggSum c l E (fun _ => 1) = sl / E := by
    unfold braggSum
    congr 1
    have : ∀ n, n < c.edges.length → ∑ m ∈ Finset.range (n + 1), braggStep c m * 1 = c.sf.getD n 0 := by
      intro n
      induction n with
      | zero => intro _; simp [braggStep]
      | succ n ih =>
        intro hn'
        rw [Finset.sum_range_succ, ih (by omega), braggStep, if_neg (by omega), Nat.add_sub_cancel]; ring
    rw [this l (by omega), getD_val hsl]
  refine ⟨C65_xs_above c hv first E s1 E g0 e1 e2 le_rfl hE, hlaw, ?_, ?_⟩
  · have hone : ∫ _, (1 : ℝ) ∂braggLaw c l E = 1 := by
      rw [htot] at hint
      have : sl / E ≠ 0 := by positivity
      exact mul_left_cancel₀ this (by rw [hint, mul_one])
    rw [hone, htot, hb]; ring
  · rw [hb]; exact div_pos (by linarith) hE

private theorem bragg_sf_nonneg : ∀ s ∈ bragg.sf, 0 ≤ s := by
  intro s hs
  simp only [bragg, List.mem_cons, List.not_mem_nil, or_false] at hs
  rcases hs with rfl | rfl | rfl <;> norm_num

/-- The example of C65 at 5/2: the edges 1 and 2 are below, with the steps 1 and 2. -/
example : ∃ (sigma : ℝ) (law : Measure (ℝ × ℝ)), bragg.xs (5 / 2) = .ok sigma ∧
    (∀ k, Samples (fun (_ : Nat) ω => asPair (bragg.sample (5 / 2) ω k)) law) ∧
    sigma * ∫ q, (1 - q.1) ∂law = 2 * (∑ m ∈ Finset.range (1 + 1), braggStep bragg m * bragg.edges.getD m 0) / (5 / 2) ^ 2 := by
  refine C170_transport_partial bragg bragg_valid (by norm_num [bragg]) bragg_sf_nonneg 1 2 (5 / 2) 3 rfl rfl (by norm_num) (by norm_num) ?_ ?_
  · intro e he; simp [bragg] at he; rw [← he]; norm_num
  · norm_num [bragg]

/-- The example of C65 at its last edge, 3: the cross section is 7/3, of which the samples account for 1. -/
theorem C170_violation_last_edge_witness : bragg.xs 3 = .ok (7 / 3) ∧ braggSum bragg 1 3 (fun _ => 1) = 1 ∧
    (∀ k, Samples (fun (_ : Nat) ω => asPair (bragg.sample 3 ω k)) (braggLaw bragg 1 3)) := by
  obtain ⟨a1, a2, _, _⟩ := C170_violation_last_edge bragg bragg_valid (by norm_num [bragg]) bragg_sf_nonneg 1 2 3 3 7 rfl rfl (by norm_num)
    (by norm_num) rfl rfl rfl (by norm_num)
  refine ⟨a1, ?_, a2⟩
  norm_num [braggSum, braggStep, bragg, Finset.sum_range_succ]

end PNDL
