import Verif.Lemmas.Many
import Verif.Props.ReactionLaw
import Verif.Props.GasLaw
import Verif.Props.ThermalContLaw

/-! C144 — successive samples are independent and identically distributed. -/
namespace PNDL
open MeasureTheory Spec Set

theorem Closed.independent {α : Type} [MeasurableSpace α] {run : Nat → Tape → Nat → Res (α × Nat)} {μ : Measure α} (h : Closed run μ) : Independent run :=
  ⟨μ, h.prob, fun n k => h.many n k⟩

/-- One call is a sample of the law. -/
theorem samplesMany_one {α : Type} [MeasurableSpace α] {run : Nat → Tape → Nat → Res (α × Nat)} {k : Nat} {μ : Measure α} (h : SamplesMany run 1 k μ) :
    Samples (fun fuel ω => run fuel ω k) μ := by
  intro S hS
  have := h (fun _ => S) fun _ => hS
  rw [Finset.prod_range_one] at this
  rw [← this]
  congr 1
  ext ω
  constructor
  · rintro ⟨fuel, x, k', h1, h2⟩
    refine ⟨fuel, [x], k', ?_, rfl, fun i y hy => ?_⟩
    · dsimp only at h1
      simp only [collect]
      rw [h1]; rfl
    · have := List.mem_of_getElem? hy
      rw [List.mem_singleton] at this
      rwa [this]
  · rintro ⟨fuel, xs, k', h1, _, h3⟩
    simp only [collect] at h1
    cases hr : run fuel ω k with
    | error e => rw [hr] at h1; cases h1
    | ok r =>
      rw [hr] at h1
      cases h1
      exact ⟨fuel, r.1, r.2, hr, h3 0 _ rfl⟩

/-- **C144** The law of the successive calls is the law of one: whatever law one call is known to follow, from any position, is that of every one of `n`
independent successive calls. -/
theorem C144_law {α : Type} [MeasurableSpace α] (run : Nat → Tape → Nat → Res (α × Nat)) (h : Independent run) (ν : Measure α) (k0 : Nat)
    (hν : Samples (fun fuel ω => run fuel ω k0) ν) (n k : Nat) : SamplesMany run n k ν := by
  obtain ⟨μ, _, hm⟩ := h
  have h1 := samplesMany_one (hm 1 k0)
  have : μ = ν := Measure.ext fun S hS => (h1 S hS).symm.trans (hν S hS)
  rw [← this]
  exact hm n k

/-- **C144** An angular distribution whose tables are consistent and whose Legendre series are densities: successive cosines are independent and have the
density the distribution reports.  Missing: equiprobable bins, which do not sample the density they report (C109). -/
theorem C144_angle (d : AngleDist) (hv : ValidDist d) (hl : ∀ law ∈ d.laws, SoundLaw law) (E : ℝ) (n k : Nat) :
    ∃ p : ℝ → ℝ, (∀ mu, -1 ≤ mu → mu ≤ 1 → d.pdf E mu = .ok (p mu)) ∧
      SamplesMany (fun fuel ω k => d.sample fuel E ω k) n k ((volume.restrict (Icc (-1) 1)).withDensity fun x => ENNReal.ofReal (p x)) := by
  obtain ⟨p, h1, _, h3⟩ := dist_faithful d hv (fun law h => sound_faithful (hl law h)) E
  exact ⟨p, fun mu a b => (h1 mu a b).1, h3.many n k⟩

/-- **C144** Outgoing energies of an evaporation, Watt or tabulated law. -/
theorem C144_energy (l : ELaw) (E a b : ℝ) (h : SoundEnergy l E a b) (n k : Nat) :
    ∃ p : ℝ → ℝ, (∀ x, a ≤ x → x ≤ b → l.pdf E x = .ok (some (p x))) ∧
      SamplesMany (fun fuel ω k => l.sample fuel E ω k) n k ((volume.restrict (Icc a b)).withDensity fun x => ENNReal.ofReal (p x)) := by
  obtain ⟨p, h1, _, h3⟩ := soundE_faithful h
  exact ⟨p, fun mu a b => (h1 mu a b).1, h3.many n k⟩

/-- **C144** A reaction given in the laboratory frame: successive pairs of a cosine and an energy are independent and have the joint density the
distribution of the reaction reports. -/
theorem C144_lab (r : RxnBase) (threshold E a b : ℝ) (hE : threshold ≤ E) (h : SoundMix r.dist E a b) (n k : Nat) :
    SamplesManyJoint (fun fuel ω k => r.sample threshold fuel E ω k) n k a b ((r.dist.toAE 0).pdf E) := by
  obtain ⟨p, h1, _, h3⟩ := mix_faithful h
  refine ⟨p, fun mu e a1 a2 a3 a4 => (h1 0 mu e a1 a2 a3 a4).1, Closed.many (h3.of_eq fun fuel ω k => ?_) n k⟩
  dsimp only
  rw [show r.sample threshold fuel E ω k = _ from congrFun (congrFun (reaction_run r hE k) fuel) ω]

/-- **C144** A reaction given in the centre of mass, with the laboratory density. -/
theorem C144_cm (r : RxnBase) (A q : ℝ) (d : NDist) (hr : r.dist = .cm A q d) (threshold E a b : ℝ) (hE : threshold ≤ E) (h0 : 0 ≤ E) (hA : -1 < A) (ha : 0 ≤ a)
    (h : SoundMix d E a b) (n k : Nat) :
    SamplesManyRegion (fun fuel ω k => r.sample threshold fuel E ω k) n k (labRegion (Real.sqrt E / (A + 1)) a b) ((r.dist.toAE 0).pdf E) := by
  obtain ⟨p, h1, h3⟩ := frame_closed (fun fuel => d.toAE fuel) A q E a b h0 hA ha (mix_faithful h)
  refine ⟨p, fun mu e hm => ?_, Closed.many (h3.of_eq fun fuel ω k => ?_) n k⟩
  · rw [hr]; exact h1 mu e hm
  · dsimp only
    rw [show r.sample threshold fuel E ω k = _ from congrFun (congrFun (reaction_run r hE k) fuel) ω, hr]
    rfl

/-- **C144** Elastic scattering off a target at rest. -/
theorem C144_rest (d : AngleDist) (hv : ValidDist d) (hl : ∀ law ∈ d.laws, SoundLaw law) (A kT tar E : ℝ) (hA : 0 < A) (hE : 0 < E)
    (ht : tar * kT ≤ E) (b : Option Broadener) : Independent fun fuel ω k => asPair ((Elastic.ofDist d A kT true tar b fuel).sample E ω k) := by
  obtain ⟨p, h1, _, h3⟩ := dist_faithful d hv (fun law h => sound_faithful (hl law h)) E
  exact (rest_closed hA hE ht h3 densityOn_inside).independent

/-- **C144** Elastic scattering off a free gas. -/
theorem C144_free_gas (d : AngleDist) (hv : ValidDist d) (hl : ∀ law ∈ d.laws, SoundLaw law) (A kT tar E : ℝ) (useTar : Bool) (hA : 0 < A) (hkT : 0 < kT)
    (hE : 0 ≤ E) (ht : useTar = true → E < tar * kT) :
    Independent fun fuel ω k => asPair ((Elastic.ofDist d A kT useTar tar (some (svtSample fuel)) fuel).sample E ω k) := by
  obtain ⟨p, h1, _, h3⟩ := dist_faithful d hv (fun law h => sound_faithful (hl law h)) E
  exact (gas_closed (bf := svtSample) hA hE (fun hc => absurd (ht hc.1) (not_lt.mpr hc.2)) (svt_closed hE hkT hA) (freeGas_ae E kT A) h3).independent

/-- **C144** Elastic scattering with the Doppler broadening rejection correction. -/
theorem C144_dbrc (d : AngleDist) (hv : ValidDist d) (hl : ∀ law ∈ d.laws, SoundLaw law) (tar : ℝ) (useTar : Bool)
    (s : XS ℝ) (σ : ℝ → ℝ) (hσ : ∀ e, s.eval e = .ok (σ e)) (hg : GoodXS s) (h0 : s.index = 0) (hs : s.grid.Pairwise (· < ·))
    (e0 : ℝ) (he0 : s.grid[0]? = some e0) (hpos : 0 < e0) (h32 : s.grid.length < 2 ^ 32) (nbins : Nat) (hn : 1 ≤ nbins) (hn2 : nbins < 2 ^ 32 - 1)
    (g : EGrid) (hgrid : EGrid.make s.grid nbins = .ok g) (E kT A lo hi : ℝ) (hE : 0 ≤ E) (hkT : 0 < kT) (hA : 0 < A) (ht : useTar = true → E < tar * kT)
    (hlo : lo = max 0 (Real.sqrt (A * E / kT) - 4) ^ 2 * kT / A) (hhi : hi = (Real.sqrt (A * E / kT) + 4) ^ 2 * kT / A)
    (hcover : e0 ≤ lo) (E1 E2 : ℝ) (h1 : lo ≤ E1) (h12 : E1 < E2) (h2 : E2 ≤ hi) (hx : ∀ e, E1 < e → e < E2 → 0 < σ e) :
    Independent fun fuel ω k => asPair ((Elastic.ofDist d A kT useTar tar (some (dbrcSample g s fuel fuel)) fuel).sample E ω k) := by
  obtain ⟨p, a, b, q1, q2, hc⟩ := dbrc_gas_closed d hv hl tar useTar s σ hσ hg h0 hs e0 he0 hpos h32 nbins hn hn2 g hgrid E kT A lo hi hE hkT hA ht hlo hhi hcover E1 E2 h1 h12 h2 hx
  exact hc.independent

/-- **C144** Target velocities. -/
theorem C144_velocity (E kT awr : ℝ) (hE : 0 ≤ E) (hkT : 0 < kT) (hA : 0 < awr) (n k : Nat) :
    SamplesMany (fun fuel ω k => svtSample fuel E kT awr ω k) n k (velocityLaw (freeGas E kT awr)) := (svt_closed hE hkT hA).many n k

/-- **C144** Coherent elastic scattering. -/
theorem C144_coherent (c : CohElastic) (hv : ValidCoh c) (hsf : c.sf.Pairwise (· ≤ ·)) (h0 : ∀ s ∈ c.sf, 0 ≤ s) (l : Nat) (el E sl : ℝ)
    (hl : c.edges[l]? = some el) (hsl : c.sf[l]? = some sl) (hp : 0 < sl) (b0 : el < E) (b1 : ∀ e, c.edges[l + 1]? = some e → E ≤ e) :
    Independent fun (_ : Nat) ω k => asPair (c.sample E ω k) := (coherent_closed c hv hsf h0 l el E sl hl hsl hp b0 b1).independent

/-- **C144** Incoherent elastic scattering. -/
theorem C144_incoherent (d : IncElastic) (hv : ValidInc d) (hn : 2 ≤ d.energy.length) (E : ℝ) :
    Independent fun (_ : Nat) ω k => asPair (d.sample E ω k) := by
  obtain ⟨first, h0⟩ := getElem?_of_lt (l := d.energy) (i := 0) (by omega)
  obtain ⟨last, h1⟩ := last_exists (l := d.energy) (by omega)
  obtain ⟨l, f, e0, e1, u, v, a1, a2, a3, a4, a5, a6, a7, hc, hm⟩ := incoherent_closed d hv hn E first last h0 h1
  exact hc.independent

/-- **C144** Incoherent inelastic scattering with discrete energies. -/
theorem C144_discrete (d : DiscreteCE) (hv : ValidDCE d) (hne : d.energy ≠ []) (hn : 0 < d.noe) (hm : 0 < d.nmu) (E : ℝ) :
    Independent fun (_ : Nat) ω k => asPair (d.sample E ω k) := by
  obtain ⟨value, h1, h2⟩ := discrete_closed d hv hne hn hm E
  exact h2.independent

/-- **C144** Incoherent inelastic scattering with continuous energies. -/
theorem C144_continuous (d : ContinuousCE) (hv : ValidCCE d) (hn : 2 ≤ d.energy.length) (hg : ∀ t ∈ d.tables, GoodCEDC t ∧ ConsistentPC (energyPart t))
    (hpos : ∀ e ∈ d.energy, 0 < e) (E : ℝ) : Independent fun (_ : Nat) ω k => asPair (d.sample E ω k) := by
  obtain ⟨first, h0⟩ := getElem?_of_lt (l := d.energy) (i := 0) (by omega)
  obtain ⟨last, h1⟩ := last_exists (l := d.energy) (by omega)
  cases hu : d.unitBased with
  | false =>
    obtain ⟨l, i, f, e0, e1, Ei, a, b, t, G, cos, a1, a2, a3, a4, a5, a6, a7, a8, a9, a10, hc⟩ := plain_closed d hv hn hg hpos hu E first last h0 h1
    exact hc.independent
  | true =>
    obtain ⟨l, f, e0, e1, a0, b0, a1, b1, t0, t1, G0, G1, cos0, cos1, q1, q2, q3, q4, q5, q6, q7, q8, q9, hc⟩ := unit_closed d hv hn hg hu E first last h0 h1
    exact hc.independent

/-- Non-vacuity: three successive samples of the reaction of C118, one law of which is Kalbach's and one tabulated, in the centre of mass. -/
example (y : Fn1D) : SamplesManyRegion (fun fuel ω k => (⟨91, -1, 3, y, .cm 3 (-1) twoLaws⟩ : RxnBase).sample 1 fuel 2 ω k) 3 0
    (labRegion (Real.sqrt 2 / (3 + 1)) 0 1) (((NDist.cm 3 (-1) twoLaws).toAE 0).pdf 2) :=
  C144_cm ⟨91, -1, 3, y, .cm 3 (-1) twoLaws⟩ 3 (-1) twoLaws rfl 1 2 0 1 (by norm_num) (by norm_num) (by norm_num) le_rfl twoLaws_sound 3 0

end PNDL
