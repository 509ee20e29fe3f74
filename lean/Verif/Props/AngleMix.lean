import Verif.Props.AngleBins
import Verif.Props.GasLaw

/-! C161: the laws of angular distributions and of elastic scattering for any angular data, equiprobable bins included. -/
namespace PNDL
open MeasureTheory Spec Set
open scoped ENNReal Real

/-- What cosines drawn from one angular law are distributed as: the windows of equiprobable bins, the reported density of any other law. -/
def Spec.CosineLaw : AngleLaw → Measure ℝ → Prop
  | .bins b, μ => binsMake b = .ok b ∧ μ = (windows b).map clipMu
  | law, μ => SoundLaw law ∧ ∃ p : ℝ → ℝ, (∀ mu, -1 ≤ mu → mu ≤ 1 → law.pdf mu = .ok (p mu)) ∧ μ = (volume.restrict (Icc (-1) 1)).withDensity fun m => ENNReal.ofReal (p m)

/-- The mixture, at the energy `E`, of laws given at the points of a grid: those at the two neighbours of `E` with the weights of linear interpolation, the first or the
last one outside the grid. -/
def Spec.MixAt (grid : List ℝ) (μ : Nat → Measure ℝ) (E : ℝ) (ν : Measure ℝ) : Prop :=
  (∃ e, grid[0]? = some e ∧ E ≤ e ∧ ν = μ 0) ∨ (∃ e, grid.getLast? = some e ∧ e < E ∧ ν = μ (grid.length - 1)) ∨
    ∃ i e0 e1, grid[i]? = some e0 ∧ grid[i + 1]? = some e1 ∧ e0 < E ∧ E ≤ e1 ∧
      ν = ENNReal.ofReal ((e1 - E) / (e1 - e0)) • μ i + ENNReal.ofReal ((E - e0) / (e1 - e0)) • μ (i + 1)

/-- Such a law is one of cosines. -/
theorem cosineLaw_closed {law : AngleLaw} {μ : Measure ℝ} (h : CosineLaw law μ) : Closed (fun fuel ω k => law.sample fuel ω k) μ ∧ ∀ᵐ m ∂μ, -1 ≤ m ∧ m ≤ 1 := by
  have hsound : ∀ law : AngleLaw, SoundLaw law → (∃ p : ℝ → ℝ, (∀ mu, -1 ≤ mu → mu ≤ 1 → law.pdf mu = .ok (p mu)) ∧
      μ = (volume.restrict (Icc (-1) 1)).withDensity fun m => ENNReal.ofReal (p m)) → Closed (fun fuel ω k => law.sample fuel ω k) μ ∧ ∀ᵐ m ∂μ, -1 ≤ m ∧ m ≤ 1 := by
    rintro law hs ⟨p, hp, rfl⟩
    obtain ⟨p', h1, _, h3⟩ := sound_faithful hs
    have : densityOn (-1) 1 p' = densityOn (-1) 1 p := densityOn_congr fun x a b => Except.ok.inj ((h1 x a b).1.symm.trans (hp x a b))
    rw [this] at h3
    exact ⟨h3, densityOn_inside.mono fun _ h => ⟨h.1.le, h.2⟩⟩
  cases law with
  | bins b =>
    obtain ⟨hb, rfl⟩ := h
    refine ⟨bins_closed (binsMake_ok hb).2.1, ?_⟩
    rw [ae_map_iff measurable_clipMu.aemeasurable measurableSet_Icc]
    exact Filter.Eventually.of_forall fun x => ⟨le_max_left _ _, max_le (by norm_num) (min_le_left _ _)⟩
  | isotropic => exact hsound _ h.1 h.2
  | table t => exact hsound _ h.1 h.2
  | legendre s => exact hsound _ h.1 h.2

theorem mix_closed (d : AngleDist) (hv : ValidDist d) (μ : Nat → Measure ℝ) (hμ : ∀ i law, d.laws[i]? = some law → CosineLaw law (μ i)) (E : ℝ) :
    ∃ ν, MixAt d.energy μ E ν ∧ Closed (fun fuel ω k => d.sample fuel E ω k) ν ∧ ∀ᵐ m ∂ν, -1 ≤ m ∧ m ≤ 1 := by
  have hpos : 0 < d.energy.length := List.length_pos_iff.mpr hv.ne
  obtain ⟨mn, hmn⟩ := getElem?_of_lt (l := d.energy) (i := 0) (by omega)
  obtain ⟨mx, hmx⟩ := last_exists hpos
  have single : ∀ i law, d.laws[i]? = some law → d.find E = .ok (.inl law) → Closed (fun fuel ω k => d.sample fuel E ω k) (μ i) ∧ ∀ᵐ m ∂μ i, -1 ≤ m ∧ m ≤ 1 := by
    intro i law hm hf
    obtain ⟨c, a⟩ := cosineLaw_closed (hμ i law hm)
    refine ⟨c.of_eq fun fuel ω k => ?_, a⟩
    unfold AngleDist.sample
    rw [hf]
    rfl
  rcases AngleDist.find_cases hv E mn mx hmn hmx with ⟨law, h1, h2, h3⟩ | ⟨law, h1, h2, h3⟩ | ⟨i, e0, e1, a, b, h1, h2, he0, he1, ha, hb, b0, b1, h3⟩
  · exact ⟨μ 0, Or.inl ⟨mn, hmn, h1, rfl⟩, single 0 law h2 h3⟩
  · refine ⟨_, Or.inr (Or.inl ⟨mx, hmx, h1, rfl⟩), single _ law ?_ h3⟩
    rw [← hv.len, ← List.getLast?_eq_getElem?]
    exact h2
  · obtain ⟨ca, ia⟩ := cosineLaw_closed (hμ i a ha)
    obtain ⟨cb, ib⟩ := cosineLaw_closed (hμ (i + 1) b hb)
    have hd : 0 < e1 - e0 := by linarith
    obtain ⟨f, hf⟩ : ∃ f, f = (E - e0) / (e1 - e0) := ⟨_, rfl⟩
    have hf' : (e1 - E) / (e1 - e0) = 1 - f := by rw [hf]; field_simp; ring
    rw [← hf] at h3
    have f0 : 0 ≤ f := hf ▸ div_nonneg (by linarith) hd.le
    have f1 : f ≤ 1 := hf ▸ (div_le_one hd).mpr (by linarith)
    have hin : ∀ᵐ m ∂(ENNReal.ofReal (1 - f) • μ i + ENNReal.ofReal f • μ (i + 1)), -1 ≤ m ∧ m ≤ 1 :=
      ae_add_measure_iff.mpr ⟨Measure.ae_smul_measure ia _, Measure.ae_smul_measure ib _⟩
    refine ⟨ENNReal.ofReal (1 - f) • μ i + ENNReal.ofReal f • μ (i + 1), Or.inr (Or.inr ⟨i, e0, e1, he0, he1, b0, b1, by rw [hf', ← hf]⟩), ?_, hin⟩
    have hm := closed_map (closed_mix f0 f1 ca cb) (F := fun x => .ok (clampMu x)) measurable_clampMu (Filter.Eventually.of_forall fun _ => rfl)
    have hid : (ENNReal.ofReal (1 - f) • μ i + ENNReal.ofReal f • μ (i + 1)).map clampMu = ENNReal.ofReal (1 - f) • μ i + ENNReal.ofReal f • μ (i + 1) := by
      conv_rhs => rw [← Measure.map_id (μ := ENNReal.ofReal (1 - f) • μ i + ENNReal.ofReal f • μ (i + 1))]
      refine Measure.map_congr ?_
      filter_upwards [hin] with x hx
      exact clampMu_of_mem hx.1 hx.2
    rw [hid] at hm
    refine hm.of_eq fun fuel ω k => ?_
    unfold AngleDist.sample
    rw [h3]
    simp only [bind, Except.bind]

/-- **C161** `AngleDistribution::sample_angle` at every energy: the mixture of the laws of the cosines at the neighbouring grid points. -/
theorem C161_distribution_partial (d : AngleDist) (hv : ValidDist d) (μ : Nat → Measure ℝ) (hμ : ∀ i law, d.laws[i]? = some law → CosineLaw law (μ i)) (E : ℝ) (k : Nat) :
    ∃ ν, MixAt d.energy μ E ν ∧ Samples (fun fuel ω => d.sample fuel E ω k) ν := by
  obtain ⟨ν, h1, h2, _⟩ := mix_closed d hv μ hμ E
  exact ⟨ν, h1, h2.samples k⟩

/-- **C161** Elastic scattering off a target at rest, of another mass than the neutron: two-body kinematics applied to a cosine with that mixture law. -/
theorem C161_elastic_rest_partial (d : AngleDist) (hv : ValidDist d) (μ : Nat → Measure ℝ) (hμ : ∀ i law, d.laws[i]? = some law → CosineLaw law (μ i)) (A kT tar E : ℝ) (hA : 0 < A)
    (hA1 : A ≠ 1) (hE : 0 < E) (ht : tar * kT ≤ E) (b : Option Broadener) (k : Nat) :
    ∃ ν, MixAt d.energy μ E ν ∧ Samples (fun fuel ω => asPair ((Elastic.ofDist d A kT true tar b fuel).sample E ω k)) (ν.map fun m => (restCosine A m, restEnergy A E m)) := by
  obtain ⟨ν, h1, h2, h3⟩ := mix_closed d hv μ hμ E
  exact ⟨ν, h1, (rest_closed_any hA hE ht h2 (h3.mono fun _ h => ⟨h.1, h.2, fun e => absurd e hA1⟩)).samples k⟩

/-! ### A moving target -/

theorem vec_plane (c : ℝ) : ∀ᵐ v ∂vecVolume, v.z ≠ c := by
  have hm : MeasurableSet {v : Vec | v.z = c} := measurable_z (measurableSet_singleton c)
  have ht : Measurable toVec := fun s hs => hs
  rw [ae_iff]
  simp only [ne_eq, not_not]
  rw [vecVolume, Measure.map_apply ht hm]
  have : toVec ⁻¹' {v : Vec | v.z = c} = (univ : Set (ℝ × ℝ)) ×ˢ ({c} : Set ℝ) := by
    ext q
    simp [toVec]
  rw [this, Measure.volume_eq_prod, Measure.prod_prod, Real.volume_singleton, mul_zero]

theorem velocityLaw_plane (w : Vec → ℝ) (c : ℝ) : ∀ᵐ v ∂velocityLaw w, v.z ≠ c := by
  unfold velocityLaw
  refine Measure.ae_smul_measure ?_ _
  exact (withDensity_absolutelyContinuous _ _).ae_le (vec_plane c)

/-- A collision stops the neutron only if the target moves with one velocity along the flight direction. -/
theorem stopped_plane {A E : ℝ} (hA : 0 < A) (hE : 0 < E) {v : Vec} {m x : ℝ} (h1 : -1 ≤ m) (h2 : m ≤ 1) (hrel : 0 < relEnergy E v) (h : outEnergy A E ((v, m), x) = 0) :
    v.z = (A - 1) * Real.sqrt E / (2 * A) := by
  have hA1 : 0 < A + 1 := by linarith
  have hs := Real.sqrt_pos.mpr hE
  obtain ⟨V, hV⟩ : ∃ V, V = (Vec.mk 0 0 (Real.sqrt E)).sub (cmVelocity A ⟨0, 0, Real.sqrt E⟩ v) := ⟨_, rfl⟩
  have hmag : V.mag = A / (A + 1) * Real.sqrt (relEnergy E v) := by rw [hV, cm_rel hA, mag_smul (by positivity), rel_eq]
  have hmp : 0 < V.mag := by rw [hmag]; have := Real.sqrt_pos.mpr hrel; positivity
  have hu : IsUnit3 ⟨V.x / V.mag, V.y / V.mag, V.z / V.mag⟩ := sdiv_unit hmp.ne'
  have ht := frame_turned (axes_frame hu) h1 h2 x
  unfold outEnergy scattered at h
  simp only [← hV] at h
  obtain ⟨t, hte⟩ : ∃ t, t = turned ⟨V.x / V.mag, V.y / V.mag, V.z / V.mag⟩ (axisA ⟨V.x / V.mag, V.y / V.mag, V.z / V.mag⟩) (axisB ⟨V.x / V.mag, V.y / V.mag, V.z / V.mag⟩) m x := ⟨_, rfl⟩
  rw [← hte] at h ht
  have hsq : V.mag ^ 2 = (A / (A + 1)) ^ 2 * relEnergy E v := by rw [hmag, mul_pow, Real.sq_sqrt hrel.le]
  unfold Vec.dot Vec.add Vec.smul cmVelocity at h
  unfold Vec.dot at ht
  simp only at h
  have zx : (0 + A * v.x) / (A + 1) + t.x * V.mag = 0 := by
    nlinarith [mul_self_nonneg ((0 + A * v.x) / (A + 1) + t.x * V.mag), mul_self_nonneg ((0 + A * v.y) / (A + 1) + t.y * V.mag), mul_self_nonneg ((Real.sqrt E + A * v.z) / (A + 1) + t.z * V.mag)]
  have zy : (0 + A * v.y) / (A + 1) + t.y * V.mag = 0 := by
    nlinarith [mul_self_nonneg ((0 + A * v.x) / (A + 1) + t.x * V.mag), mul_self_nonneg ((0 + A * v.y) / (A + 1) + t.y * V.mag), mul_self_nonneg ((Real.sqrt E + A * v.z) / (A + 1) + t.z * V.mag)]
  have zz : (Real.sqrt E + A * v.z) / (A + 1) + t.z * V.mag = 0 := by
    nlinarith [mul_self_nonneg ((0 + A * v.x) / (A + 1) + t.x * V.mag), mul_self_nonneg ((0 + A * v.y) / (A + 1) + t.y * V.mag), mul_self_nonneg ((Real.sqrt E + A * v.z) / (A + 1) + t.z * V.mag)]
  have hW : ((0 + A * v.x) / (A + 1)) ^ 2 + ((0 + A * v.y) / (A + 1)) ^ 2 + ((Real.sqrt E + A * v.z) / (A + 1)) ^ 2 = V.mag ^ 2 := by
    rw [eq_neg_of_add_eq_zero_left zx, eq_neg_of_add_eq_zero_left zy, eq_neg_of_add_eq_zero_left zz]
    linear_combination V.mag ^ 2 * ht
  rw [hsq] at hW
  unfold relEnergy at hW
  field_simp at hW
  have : (A + 1) * Real.sqrt E * (2 * A * v.z - (A - 1) * Real.sqrt E) = 0 := by linear_combination hW
  rw [eq_div_iff (by positivity)]
  rcases mul_eq_zero.mp this with h | h
  · exact absurd h (by positivity)
  · linarith

theorem moving_any {A E : ℝ} (hA : 0 < A) (hE : 0 < E) {μ : Measure Vec} [SFinite μ] {ν : Measure ℝ} [SFinite ν] (hμ : ∀ᵐ v ∂μ, 0 < relEnergy E v)
    (hp : ∀ᵐ v ∂μ, v.z ≠ (A - 1) * Real.sqrt E / (2 * A)) (hν : ∀ᵐ m ∂ν, -1 ≤ m ∧ m ≤ 1) : ∀ᵐ q ∂(μ.prod ν).prod Spec.unif, outEnergy A E q ≠ 0 := by
  have a1 : ∀ᵐ q ∂(μ.prod ν).prod Spec.unif, 0 < relEnergy E q.1.1 := Measure.quasiMeasurePreserving_fst.ae (Measure.quasiMeasurePreserving_fst.ae hμ)
  have a2 : ∀ᵐ q ∂(μ.prod ν).prod Spec.unif, q.1.1.z ≠ (A - 1) * Real.sqrt E / (2 * A) := Measure.quasiMeasurePreserving_fst.ae (Measure.quasiMeasurePreserving_fst.ae hp)
  have a3 : ∀ᵐ q ∂(μ.prod ν).prod Spec.unif, -1 ≤ q.1.2 ∧ q.1.2 ≤ 1 := Measure.quasiMeasurePreserving_fst.ae (Measure.quasiMeasurePreserving_snd.ae hν)
  filter_upwards [a1, a2, a3] with q b1 b2 b3 hc
  exact b2 (stopped_plane hA hE b3.1 b3.2 b1 hc)

/-- **C161** Elastic scattering off a free gas: the velocity after the collision for a target velocity of the free gas, a cosine with that mixture law and a uniform azimuth,
all independent. -/
theorem C161_elastic_gas_partial (d : AngleDist) (hv : ValidDist d) (μ : Nat → Measure ℝ) (hμ : ∀ i law, d.laws[i]? = some law → CosineLaw law (μ i)) (A kT tar E : ℝ) (useTar : Bool)
    (hA : 0 < A) (hkT : 0 < kT) (hE : 0 < E) (ht : useTar = true → E < tar * kT) (k : Nat) :
    ∃ (ν : Measure ℝ) (a b : Vec → Vec), MixAt d.energy μ E ν ∧ (∀ u : Vec, u.dot u = 1 → Frame3 u (a u) (b u)) ∧
      Samples (fun fuel ω => asPair ((Elastic.ofDist d A kT useTar tar (some (svtSample fuel)) fuel).sample E ω k))
        ((((velocityLaw (freeGas E kT A)).prod ν).prod Spec.unif).map fun q => cosEnergy (scattered a b A E q.1.1 q.1.2 q.2)) := by
  obtain ⟨ν, h1, h2, h3⟩ := mix_closed d hv μ hμ E
  have hc := svt_closed hE.le hkT hA
  have hp1 := hc.prob
  have hp2 := h2.prob
  refine ⟨ν, axisA, axisB, h1, fun u hu => axes_frame ?_, ?_⟩
  · unfold IsUnit3
    unfold Vec.dot at hu
    linarith
  · exact (gas_closed_any (bf := svtSample) hA hE.le (fun hc => absurd (ht hc.1) (not_lt.mpr hc.2)) hc (freeGas_ae E kT A) h2 h3
      (moving_any hA hE (freeGas_ae E kT A) (velocityLaw_plane _ _) h3)).samples k

/-- Non-vacuity: bins over all cosines below 1, an isotropic law above 2. -/
example : ∃ (d : AngleDist) (μ : Nat → Measure ℝ), AngleDist.make [1, 2] [.bins evenBins, .isotropic] = .ok d ∧ ValidDist d ∧
    ∀ i law, d.laws[i]? = some law → CosineLaw law (μ i) := by
  refine ⟨⟨[1, 2], [.bins evenBins, .isotropic]⟩, fun i => if i = 0 then (windows evenBins).map clipMu else (volume.restrict (Icc (-1) 1)).withDensity fun _ => ENNReal.ofReal (1 / 2),
    by norm_num [AngleDist.make, isSorted], ⟨rfl, by simp, by norm_num⟩, ?_⟩
  intro i law h
  match i, h with
  | 0, h => cases h; exact ⟨evenBins_make, rfl⟩
  | 1, h =>
    cases h
    refine ⟨trivial, fun _ => 1 / 2, fun mu a b => ?_, rfl⟩
    show Except.ok (isoPdf mu) = _
    unfold isoPdf
    rw [if_neg (by rintro (h | h) <;> linarith)]
    norm_num

/-- Bins of the width 1/33 are accepted. -/
example : binsMake ((List.range 33).map fun j : Nat => (-1 / 2 : ℝ) + (j : ℝ) / 33) = .ok ((List.range 33).map fun j : Nat => (-1 / 2 : ℝ) + (j : ℝ) / 33) ∧
    Spaced ((List.range 33).map fun j : Nat => (-1 / 2 : ℝ) + (j : ℝ) / 33) := by
  have hs : isSorted ((List.range 33).map fun j : Nat => (-1 / 2 : ℝ) + (j : ℝ) / 33) = true := by
    rw [isSorted_iff, List.pairwise_map]
    refine List.pairwise_lt_range.imp fun {a b} h => ?_
    have : (a : ℝ) ≤ b := by exact_mod_cast h.le
    linarith
  have hget : ∀ j : Nat, j < 33 → ((List.range 33).map fun j : Nat => (-1 / 2 : ℝ) + (j : ℝ) / 33)[j]? = some (-1 / 2 + (j : ℝ) / 33) := by
    intro j hj
    simp [hj]
  refine ⟨?_, -1 / 2, hget⟩
  unfold binsMake
  rw [if_neg (by simp), if_neg (by rw [hs]; simp), getAt_eq_ok.mpr (hget 0 (by norm_num)), getAt_eq_ok.mpr (hget 32 (by norm_num))]
  norm_num [bind, Except.bind]

/-- C121 fails for equiprobable bins: for every set of bins over all cosines the energies after elastic scattering do not have the density that follows from the reported
angular density. -/
theorem C121_violation_bins (b : List ℝ) (hb : binsMake b = .ok b) (h0 : b[0]? = some (-1 : ℝ)) (h1 : b[32]? = some (1 : ℝ)) (e A kT tar E : ℝ) (hA : 0 < A) (hA1 : A ≠ 1)
    (hE : 0 < E) (ht : tar * kT ≤ E) (br : Option Broadener) (k : Nat) :
    ¬ ∃ p : ℝ → ℝ, (∀ mu, -1 ≤ mu → mu ≤ 1 → (AngleDist.mk [e] [.bins b]).pdf E mu = .ok (p mu)) ∧
      SamplesDensity (fun fuel ω => ((Elastic.ofDist (AngleDist.mk [e] [.bins b]) A kT true tar br fuel).sample E ω k).map fun r => (r.2.1, r.2.2)) (((A - 1) / (A + 1)) ^ 2 * E) E
        fun x => p (((A + 1) ^ 2 * x / E - A ^ 2 - 1) / (2 * A)) * ((A + 1) ^ 2 / (2 * A * E)) := by
  rintro ⟨p, hp, hs⟩
  have hf : (AngleDist.mk [e] [.bins b]).find E = .ok (.inl (.bins b)) := by
    by_cases h : e < E <;> simp [AngleDist.find, lowerBound, lowerBoundRange, bisect, h, front, back] <;> rfl
  have hpdf : ∀ mu, -1 ≤ mu → mu ≤ 1 → binsPdf b mu = .ok (p mu) := by
    intro mu a c
    have := hp mu a c
    unfold AngleDist.pdf at this
    rw [hf] at this
    exact this
  have hd : Closed (fun fuel ω k => (AngleDist.mk [e] [.bins b]).sample fuel E ω k) ((windows b).map clipMu) := by
    refine (bins_closed (binsMake_ok hb).2.1).of_eq fun fuel ω k => ?_
    unfold AngleDist.sample
    rw [hf]
    rfl
  have hin : ∀ᵐ m ∂(windows b).map clipMu, -1 ≤ m ∧ m ≤ 1 := (cosineLaw_closed (law := .bins b) ⟨hb, rfl⟩).2
  have h2 := closed_map (rest_closed_any (b := br) (kT := kT) hA hE ht hd (hin.mono fun _ h => ⟨h.1, h.2, fun e => absurd e hA1⟩)) (F := fun q => .ok q.2) measurable_snd
    (Filter.Eventually.of_forall fun _ => rfl)
  have h3 : Closed (fun fuel ω k => ((Elastic.ofDist (AngleDist.mk [e] [.bins b]) A kT true tar br fuel).sample E ω k).map fun r => (r.2.1, r.2.2)) _ :=
    h2.of_eq fun fuel ω k => by
      unfold asPair
      cases (Elastic.ofDist (AngleDist.mk [e] [.bins b]) A kT true tar br fuel).sample E ω k <;> rfl
  have hmm : Measurable fun m => (restCosine A m, restEnergy A E m) := (measurable_restCosine A).prodMk (measurable_restEnergy A E)
  rw [Measure.map_map measurable_snd hmm] at h3
  have hcmp : (Prod.snd ∘ fun m => (restCosine A m, restEnergy A E m)) = restEnergy A E := rfl
  rw [hcmp] at h3
  have hA1' : 0 < A + 1 := by linarith
  have hlt : ((A - 1) / (A + 1)) ^ 2 * E < E := by
    have : ((A - 1) / (A + 1)) ^ 2 < 1 := by
      rw [div_pow, div_lt_one (by positivity)]; nlinarith
    nlinarith
  -- the image of the reported density
  have himg : (densityOn (-1) 1 p).map (restEnergy A E) = densityOn (((A - 1) / (A + 1)) ^ 2 * E) E fun x => p (((A + 1) ^ 2 * x / E - A ^ 2 - 1) / (2 * A)) * ((A + 1) ^ 2 / (2 * A * E)) := by
    have e1 : restEnergy A E = fun m => ((A - 1) / (A + 1)) ^ 2 * E + (m - (-1)) / (1 - (-1)) * (E - ((A - 1) / (A + 1)) ^ 2 * E) := by
      funext m
      exact restEnergy_affine hA m
    rw [e1, densityOn_affine (by norm_num) hlt]
    congr 1
    funext y
    have hw : E - ((A - 1) / (A + 1)) ^ 2 * E = 4 * A * E / (A + 1) ^ 2 := by field_simp; ring
    rw [hw, mul_comm]
    congr 1
    · congr 1
      field_simp
      ring
    · field_simp
      norm_num
  have heq : ((windows b).map clipMu).map (restEnergy A E) = (densityOn (-1) 1 p).map (restEnergy A E) := by
    rw [himg]
    ext S hS
    rw [← h3.samples k S hS, hs S hS]
    rfl
  -- energies determine cosines
  have hinv : Measurable fun x : ℝ => ((A + 1) ^ 2 * x / E - A ^ 2 - 1) / (2 * A) := by fun_prop
  have hback : ∀ μ : Measure ℝ, (μ.map (restEnergy A E)).map (fun x : ℝ => ((A + 1) ^ 2 * x / E - A ^ 2 - 1) / (2 * A)) = μ := by
    intro μ
    rw [Measure.map_map hinv (measurable_restEnergy A E)]
    have : ((fun x : ℝ => ((A + 1) ^ 2 * x / E - A ^ 2 - 1) / (2 * A)) ∘ restEnergy A E) = id := by
      funext m
      simp only [Function.comp, restEnergy, id]
      field_simp
      ring
    rw [this, Measure.map_id]
  have hfin : (windows b).map clipMu = densityOn (-1) 1 p := by
    rw [← hback ((windows b).map clipMu), heq, hback]
  refine C161_violation_full b hb h0 h1 k ⟨p, hpdf, ?_⟩
  have := C161_law_partial b hb k
  rw [hfin] at this
  exact this

end PNDL
