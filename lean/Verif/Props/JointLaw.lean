import Verif.Props.EnergyLaw
import Verif.Props.NBodyLaw
import Verif.Props.Reaction
import Verif.Props.Mixture
import Verif.Spec.Joint

/-! C111: uncorrelated distributions draw from the joint density they report.  C112: so do mixtures of distributions. -/
namespace PNDL
open MeasureTheory Spec Set
open scoped ENNReal

/-! ### Energy laws -/

/-- An energy law whose samples have, at incident energy `E`, the density it reports, on `[a, b]`. -/
def FaithfulE (l : ELaw) (E a b : ℝ) : Prop :=
  ∃ p : ℝ → ℝ, (∀ x, a ≤ x → x ≤ b → l.pdf E x = .ok (some (p x)) ∧ 0 ≤ p x) ∧ AEMeasurable p (volume.restrict (Icc a b)) ∧
    Closed (fun fuel ω k => l.sample fuel E ω k) (densityOn a b p)

/-- From a window to a larger one, outside of which the density is reported as zero. -/
theorem faithfulE_extend {l : ELaw} {E lo hi a b : ℝ} (ha : a ≤ lo) (hb : hi ≤ b) {p : ℝ → ℝ}
    (hp : ∀ x, lo ≤ x → x ≤ hi → l.pdf E x = .ok (some (p x)) ∧ 0 ≤ p x) (hz : ∀ x, x < lo ∨ hi < x → l.pdf E x = .ok (some 0))
    (hm : AEMeasurable p (volume.restrict (Icc lo hi))) (hc : Closed (fun fuel ω k => l.sample fuel E ω k) (densityOn lo hi p)) :
    FaithfulE l E a b := by
  refine ⟨(Icc lo hi).indicator p, ?_, ?_, ?_⟩
  · intro x _ _
    by_cases hx : x ∈ Icc lo hi
    · rw [indicator_of_mem hx]; exact hp x hx.1 hx.2
    · rw [indicator_of_notMem hx]
      refine ⟨hz x ?_, le_rfl⟩
      by_contra hc
      push Not at hc
      exact hx hc
  · exact ((aemeasurable_indicator_iff measurableSet_Icc).mpr hm).restrict
  · rw [← densityOn_extend (p := (Icc lo hi).indicator p) ha hb fun x hx => indicator_of_notMem (fun h => by
      rcases hx with hx | hx
      · exact absurd h.1 (not_le.mpr hx)
      · exact absurd h.2 (not_le.mpr hx)) _]
    rw [densityOn_congr (q := p) fun x h0 h1 => indicator_of_mem (show x ∈ Icc lo hi from ⟨h0, h1⟩) _]
    exact hc

/-- Energy laws that are sampled as reported: evaporation and Watt spectra above their restriction energy with positive parameters;
tables that are consistent and of the same width.  `[a, b]` contains the energies they give. -/
def Spec.SoundEnergy (l : ELaw) (E a b : ℝ) : Prop :=
  match l with
  | .evap t u => ∃ T, t.eval E = .ok T ∧ 0 < T ∧ u < E ∧ a ≤ 0 ∧ E - u ≤ b
  | .watt ta tb u => ∃ A B, ta.eval E = .ok A ∧ tb.eval E = .ok B ∧ 0 < A ∧ 0 < B ∧ u < E ∧ a ≤ 0 ∧ E - u ≤ b
  | .tabular d => TabEnergy.make d.energy d.tables = .ok d ∧ 2 ≤ d.energy.length ∧ (∀ t ∈ d.tables, ValidPC t ∧ ConsistentPC t) ∧
      ∃ w, ∀ t ∈ d.tables, ∀ mn mx, t.minValue = .ok mn → t.maxValue = .ok mx → mx - mn = w ∧ a ≤ mn ∧ mx ≤ b
  | _ => False

theorem tab_faithful {d : TabEnergy} {E a b : ℝ} (h : SoundEnergy (.tabular d) E a b) : FaithfulE (.tabular d) E a b := by
  obtain ⟨hd, hn, ht, w, hw⟩ := h
  obtain ⟨l, f, t0, t1, mn0, mx0, mn1, mx1, p0, p1, hb, f0, f1, g0, g1, a0, b0, a1, b1, hp0, hp1, _⟩ := C110_law d.energy d.tables d hd hn ht E
  have m0 := List.mem_of_getElem? g0
  have m1 := List.mem_of_getElem? g1
  obtain ⟨v0, c0⟩ := ht t0 m0
  obtain ⟨v1, c1⟩ := ht t1 m1
  obtain ⟨w0, w1, hcl⟩ := tabEnergy_closed d.energy d.tables d hd E l f mn0 mx0 mn1 mx1 t0 t1 hb f0 f1 g0 g1 v0 c0 v1 c1 a0 b0 a1 b1 p0 p1 hp0 hp1
  obtain ⟨q0, q1, q2⟩ := hw t0 m0 mn0 mx0 a0 b0
  obtain ⟨r0, r1, r2⟩ := hw t1 m1 mn1 mx1 a1 b1
  obtain ⟨lo, hlo⟩ : ∃ lo, lo = (1 - f) * mn0 + f * mn1 := ⟨_, rfl⟩
  obtain ⟨hi, hhi⟩ : ∃ hi, hi = (1 - f) * mx0 + f * mx1 := ⟨_, rfl⟩
  have hW : hi - lo = w := by rw [hlo, hhi]; linear_combination (1 - f) * q0 + f * r0
  have hw0 : 0 < w := by rw [← q0]; linarith
  have hlh : lo < hi := by linarith
  have hw1 : mn0 + f * (mn1 - mn0) = lo := by rw [hlo]; ring
  have hw2 : mx0 + f * (mx1 - mx0) = hi := by rw [hhi]; ring
  have hG : ∀ x, d.pdfAt E x = .ok ((1 - f) * p0 ((x - lo) / (hi - lo) * (mx0 - mn0) + mn0) + f * p1 ((x - lo) / (hi - lo) * (mx1 - mn1) + mn1)) := by
    intro x
    unfold TabEnergy.pdfAt
    simp only [bind, Except.bind, hb, getAt_eq_ok.mpr g0, getAt_eq_ok.mpr g1, a0, b0, a1, b1, hw1, hw2,
        rdiv_ok (show hi - lo ≠ 0 by intro h; linarith), hp0, hp1, pure, Except.pure]
  have he : stretched f mn0 mx0 mn1 mx1 p0 p1 = fun x => (1 - f) * p0 ((x - lo) / (hi - lo) * (mx0 - mn0) + mn0) + f * p1 ((x - lo) / (hi - lo) * (mx1 - mn1) + mn1) := by
    funext x
    unfold stretched
    dsimp only
    rw [← hlo, ← hhi, hW, q0, r0, div_self hw0.ne']
    ring
  have fact : ∀ t, ValidPC t → ConsistentPC t → ∀ p : ℝ → ℝ, (∀ x, t.pdfAt x = .ok (p x)) → ∀ mn mx, t.minValue = .ok mn → t.maxValue = .ok mx → mn < mx →
      (∀ x, 0 ≤ p x) ∧ (∀ x, x < mn ∨ mx < x → p x = 0) ∧ IntervalIntegrable (fun x => p ((x - lo) / (hi - lo) * (mx - mn) + mn)) volume lo hi := by
    intro t v c p hp mn mx h1 h2 hw
    obtain ⟨mn', mx', G, h, i1, i2, i3, i4, i5, i6, i7, i8, i9, i10⟩ := pctable_law t v c
    rw [h1] at i1; cases i1
    rw [h2] at i2; cases i2
    have hGp : G = p := funext fun x => by
      have := (i4 x).1
      rw [hp x] at this
      exact (Except.ok.inj this).symm
    subst hGp
    exact ⟨fun x => (i4 x).2, i5, stretch_integrable hw hlh i6⟩
  obtain ⟨n0, z0, i0⟩ := fact t0 v0 c0 p0 hp0 mn0 mx0 a0 b0 w0
  obtain ⟨n1, z1, i1⟩ := fact t1 v1 c1 p1 hp1 mn1 mx1 a1 b1 w1
  rw [he, ← hlo, ← hhi] at hcl
  refine faithfulE_extend (lo := lo) (hi := hi) ?_ ?_ (p := fun x => (1 - f) * p0 ((x - lo) / (hi - lo) * (mx0 - mn0) + mn0) + f * p1 ((x - lo) / (hi - lo) * (mx1 - mn1) + mn1))
    (fun x _ _ => ⟨?_, ?_⟩) (fun x hx => ?_) ?_ hcl
  · rw [hlo]; nlinarith
  · rw [hhi]; nlinarith
  · show (d.pdfAt E x).map some = _
    rw [hG x]
    rfl
  · exact add_nonneg (mul_nonneg (by linarith) (n0 _)) (mul_nonneg f0 (n1 _))
  · show (d.pdfAt E x).map some = _
    rw [hG x, hW, q0, r0, div_mul_cancel₀ _ hw0.ne']
    have e0 : p0 (x - lo + mn0) = 0 := z0 _ (by rcases hx with hx | hx; exacts [Or.inl (by linarith), Or.inr (by linarith)])
    have e1 : p1 (x - lo + mn1) = 0 := z1 _ (by rcases hx with hx | hx; exacts [Or.inl (by linarith), Or.inr (by linarith)])
    rw [e0, e1]
    simp [Except.map]
  · exact ((intervalIntegrable_iff_integrableOn_Icc_of_le hlh.le).mp ((i0.const_mul (1 - f)).add (i1.const_mul f))).aemeasurable

theorem soundE_faithful {l : ELaw} {E a b : ℝ} (h : SoundEnergy l E a b) : FaithfulE l E a b := by
  cases l with
  | evap t u =>
    obtain ⟨T, hT, hpos, hu, ha, hb⟩ := h
    obtain ⟨p, h1, h2, h3⟩ := evap_closed t u E T hT hpos hu
    refine faithfulE_extend ha hb (p := p) (fun x h0 h1' => ⟨?_, (h1 x h0 h1').2⟩) (fun x hx => ?_) h2.aemeasurable h3
    · show (evapPdf t u E x).map some = _
      rw [(h1 x h0 h1').1]; rfl
    · show (evapPdf t u E x).map some = _
      unfold evapPdf
      rw [if_pos hx]; rfl
  | watt ta tb u =>
    obtain ⟨A, B, hA, hB, hA0, hB0, hu, ha, hb⟩ := h
    obtain ⟨p, h1, h2, h3⟩ := watt_closed ta tb u E A B hA hB hA0 hB0 hu
    refine faithfulE_extend ha hb (p := p) (fun x h0 h1' => ⟨?_, (h1 x h0 h1').2⟩) (fun x hx => ?_) h2.aemeasurable h3
    · show (wattPdf ta tb u E x).map some = _
      rw [(h1 x h0 h1').1]; rfl
    · show (wattPdf ta tb u E x).map some = _
      unfold wattPdf
      rw [if_pos hx]; rfl
  | tabular d => exact tab_faithful h
  | _ => exact absurd h (by simp [SoundEnergy])

/-! ### C111 -/

/-- A distribution (its loops bounded by `fuel`) whose samples have, at incident energy `E`, the joint density it reports on
`[-1, 1] × [a, b]`, what remains of the stream being independent of them. -/
def Spec.FaithfulAE (d : Nat → AE) (E a b : ℝ) : Prop :=
  ∃ p : ℝ → ℝ → ℝ, (∀ fuel mu e, -1 ≤ mu → mu ≤ 1 → a ≤ e → e ≤ b → (d fuel).pdf E mu e = .ok (some (p mu e)) ∧ 0 ≤ p mu e) ∧
    AEMeasurable (fun q : ℝ × ℝ => p q.1 q.2) (volume.restrict (Icc (-1) 1 ×ˢ Icc a b)) ∧
    Closed (fun fuel ω k => asPair ((d fuel).sample E ω k)) (jointLaw a b p)

theorem Spec.FaithfulAE.samples {d : Nat → AE} {E a b : ℝ} (h : FaithfulAE d E a b) (k : Nat) :
    SamplesJoint (fun fuel ω => (d fuel).sample E ω k) a b ((d 0).pdf E) := by
  obtain ⟨p, h1, _, h3⟩ := h
  exact ⟨p, fun mu e a1 a2 a3 a4 => (h1 0 mu e a1 a2 a3 a4).1, h3.samples k⟩

theorem joint_prod {a b : ℝ} {p q : ℝ → ℝ} (hp : AEMeasurable p (volume.restrict (Icc (-1) 1))) (hq : AEMeasurable q (volume.restrict (Icc a b)))
    (hq0 : ∀ x, a ≤ x → x ≤ b → 0 ≤ q x) : (densityOn (-1) 1 p).prod (densityOn a b q) = jointLaw a b fun mu e => q e * p mu := by
  unfold densityOn jointLaw
  rw [prod_withDensity₀ hp.ennreal_ofReal hq.ennreal_ofReal, Measure.prod_restrict]
  refine withDensity_congr_ae ?_
  rw [← Measure.volume_eq_prod]
  filter_upwards [ae_restrict_mem (measurableSet_Icc.prod measurableSet_Icc)] with x hx
  rw [ENNReal.ofReal_mul (hq0 _ hx.2.1 hx.2.2), mul_comm]

theorem uncorr_faithful (u : Uncorr) (hv : ValidDist u.angle) (hl : ∀ law ∈ u.angle.laws, SoundLaw law) {E a b : ℝ} (he : FaithfulE u.energy E a b) :
    FaithfulAE (fun fuel => ⟨u.sample fuel, u.anglePdf, u.pdf⟩) E a b := by
  obtain ⟨p, p1, p2, p3⟩ := dist_faithful u.angle hv (fun law h => sound_faithful (hl law h)) E
  obtain ⟨q, q1, q2, q3⟩ := he
  refine ⟨fun mu e => q e * p mu, fun fuel mu e h0 h1 h2 h3 => ⟨?_, mul_nonneg (q1 e h2 h3).2 (p1 mu h0 h1).2⟩, ?_, ?_⟩
  · show u.pdf E mu e = _
    unfold Uncorr.pdf
    rw [(q1 e h2 h3).1]
    simp only [bind, Except.bind]
    rw [(p1 mu h0 h1).1]
    rfl
  · rw [Measure.volume_eq_prod, ← Measure.prod_restrict]
    have h1 : AEMeasurable (fun x : ℝ × ℝ => p x.1) ((volume.restrict (Icc (-1) 1)).prod (volume.restrict (Icc a b))) :=
      p2.comp_quasiMeasurePreserving Measure.quasiMeasurePreserving_fst
    have h2 : AEMeasurable (fun x : ℝ × ℝ => q x.2) ((volume.restrict (Icc (-1) 1)).prod (volume.restrict (Icc a b))) :=
      q2.comp_quasiMeasurePreserving Measure.quasiMeasurePreserving_snd
    exact h2.mul h1
  · have := p3.prob
    rw [← joint_prod p2 q2 fun x h0 h1 => (q1 x h0 h1).2]
    refine (closed_bind p3 (q3.lift (densityOn (-1) 1 p))).of_eq fun fuel ω k => ?_
    show asPair (u.sample fuel E ω k) = _
    unfold Uncorr.sample asPair
    simp only [bind, Except.bind]
    cases u.angle.sample fuel E ω k with
    | error e => rfl
    | ok r =>
      dsimp only
      cases u.energy.sample fuel E ω r.2 <;> rfl

/-- **C111** `Uncorrelated`: if the laws of the angular distribution and the energy law are sound, the cosines and energies of
`sample_angle_energy` have the joint density `pdf` reports. -/
theorem C111_samples_partial (u : Uncorr) (hv : ValidDist u.angle) (hl : ∀ law ∈ u.angle.laws, SoundLaw law) (E a b : ℝ)
    (he : SoundEnergy u.energy E a b) (k : Nat) :
    SamplesJoint (fun fuel ω => u.sample fuel E ω k) a b (u.pdf E) :=
  (uncorr_faithful u hv hl (soundE_faithful he)).samples k

/-! ### C112 -/

variable {α : Type} [MeasurableSpace α]

open Classical in
/-- The component a number falls to, as the loops over cumulative weights find it. -/
noncomputable def pickRun (last : Nat → Tape → Nat → Res (α × Nat)) : List (ℝ × (Nat → Tape → Nat → Res (α × Nat))) → ℝ → ℝ → Nat → Tape → Nat → Res (α × Nat)
  | [], _, _ => last
  | (w, r) :: rest, sum, xi => if xi < sum + w then r else pickRun last rest (sum + w) xi

theorem unif_Ico {a w : ℝ} (h0 : 0 ≤ a) (h1 : a + w ≤ 1) : Spec.unif (Ici a ∩ Iio (a + w)) = ENNReal.ofReal w := by
  rw [Spec.unif, Measure.restrict_apply (measurableSet_Ici.inter measurableSet_Iio)]
  have : Ici a ∩ Iio (a + w) ∩ Icc 0 1 = Ico a (a + w) := by
    ext x
    simp only [mem_inter_iff, mem_Ici, mem_Iio, mem_Icc, mem_Ico]
    constructor
    · rintro ⟨⟨a, b⟩, _⟩; exact ⟨a, b⟩
    · rintro ⟨a, b⟩; exact ⟨⟨a, b⟩, by linarith, by linarith⟩
  rw [this, Real.volume_Ico]
  congr 1
  ring

/-- The sum of measures with weights. -/
noncomputable def mixLaw : List (ℝ × Measure α) → Measure α
  | [] => 0
  | (w, μ) :: rest => ENNReal.ofReal w • μ + mixLaw rest

theorem draws_pick {last : Nat → Tape → Nat → Res (α × Nat)} {μl : Measure α} (hlast : Closed last μl) :
    ∀ (L : List (ℝ × (Nat → Tape → Nat → Res (α × Nat)) × Measure α)) (sum : ℝ), (∀ x ∈ L, 0 ≤ x.1 ∧ Closed x.2.1 x.2.2) → 0 ≤ sum →
      sum + (L.map (·.1)).sum ≤ 1 →
      ∃ ν : Measure (ℝ × α), Draws (Spec.unif.restrict (Ici sum)) (pickRun last (L.map fun x => (x.1, x.2.1)) sum) ν ∧
        ν.map Prod.snd = mixLaw (L.map fun x => (x.1, x.2.2)) + ENNReal.ofReal (1 - (sum + (L.map (·.1)).sum)) • μl
  | [], sum, _, h0, hs => by
    have := hlast.prob
    refine ⟨_, hlast.lift _, ?_⟩
    rw [Measure.map_snd_prod]
    simp only [List.map_nil, List.sum_nil, add_zero] at hs ⊢
    have h0 : (Spec.unif.restrict (Ici sum)) univ = ENNReal.ofReal (1 - sum) := by
      rw [Measure.restrict_apply_univ, Spec.unif, Measure.restrict_apply measurableSet_Ici]
      have : Ici sum ∩ Icc 0 1 = Icc sum 1 := by
        ext x
        simp only [mem_inter_iff, mem_Ici, mem_Icc]
        constructor
        · rintro ⟨a, _, b⟩; exact ⟨a, b⟩
        · rintro ⟨a, b⟩; exact ⟨a, h0.trans a, b⟩
      rw [this, Real.volume_Icc]
    rw [h0]
    exact (zero_add _).symm
  | (w, r, μ) :: L, sum, hL, h0, hs => by
    obtain ⟨hw, hr⟩ := hL _ (List.mem_cons_self ..)
    dsimp only at hw hr
    have hrest : ∀ x ∈ L, 0 ≤ x.1 ∧ Closed x.2.1 x.2.2 := fun x hx => hL x (List.mem_cons_of_mem _ hx)
    simp only [List.map_cons, List.sum_cons] at hs
    obtain ⟨ν, hν, hm⟩ := draws_pick hlast L (sum + w) hrest (by linarith) (by linarith)
    have := hr.prob
    have := hν.finite
    have hsum : 0 ≤ (L.map (·.1)).sum := List.sum_nonneg fun x hx => by
      obtain ⟨y, hy, rfl⟩ := List.mem_map.mp hx
      exact (hrest y hy).1
    have hA : MeasurableSet (Iio (sum + w)) := measurableSet_Iio
    have hc : (Spec.unif.restrict (Ici sum)).restrict (Iio (sum + w))ᶜ = Spec.unif.restrict (Ici (sum + w)) := by
      rw [Measure.restrict_restrict hA.compl, compl_Iio, Ici_inter_Ici, sup_eq_left.mpr (by linarith)]
    have h2 : Draws ((Spec.unif.restrict (Ici sum)).restrict (Iio (sum + w))ᶜ) (pickRun last (L.map fun x => (x.1, x.2.1)) (sum + w)) ν := by rw [hc]; exact hν
    classical
    have hd := Draws.ite hA (hr.lift ((Spec.unif.restrict (Ici sum)).restrict (Iio (sum + w)))) h2
    refine ⟨((Spec.unif.restrict (Ici sum)).restrict (Iio (sum + w))).prod μ + ν, ?_, ?_⟩
    · have he : (fun c => if c ∈ Iio (sum + w) then r else pickRun last (L.map fun x => (x.1, x.2.1)) (sum + w) c) =
          pickRun last (((w, r, μ) :: L).map fun x => (x.1, x.2.1)) sum := by
        funext c
        simp only [List.map_cons, pickRun, mem_Iio]
      rw [← he]
      exact hd
    · rw [Measure.map_add _ _ measurable_snd, hm, Measure.map_snd_prod, Measure.restrict_apply_univ, Measure.restrict_apply hA, inter_comm, unif_Ico h0 (by linarith),
        ← add_assoc, add_assoc sum w]
      rfl

/-- Choosing a component with one number; the last has what the weights leave. -/
theorem closed_pick {last : Nat → Tape → Nat → Res (α × Nat)} {μl : Measure α} (hlast : Closed last μl)
    (L : List (ℝ × (Nat → Tape → Nat → Res (α × Nat)) × Measure α)) (hL : ∀ x ∈ L, 0 ≤ x.1 ∧ Closed x.2.1 x.2.2) (hs : (L.map (·.1)).sum ≤ 1) :
    Closed (fun fuel ω k => pickRun last (L.map fun x => (x.1, x.2.1)) 0 (ω k) fuel ω (k + 1))
      (mixLaw (L.map fun x => (x.1, x.2.2)) + ENNReal.ofReal (1 - (L.map (·.1)).sum) • μl) := by
  obtain ⟨ν, hν, hm⟩ := draws_pick hlast L 0 hL le_rfl (by rw [zero_add]; exact hs)
  rw [zero_add] at hm
  have hu : Spec.unif.restrict (Ici 0) = Spec.unif := by
    rw [Spec.unif, Measure.restrict_restrict measurableSet_Ici, inter_eq_right.mpr fun x hx => hx.1]
  rw [hu] at hν
  have hc : Closed (fun (_ : Nat) (ω : Tape) (k : Nat) => ((Except.ok (ω k) : Res ℝ)).map fun x => (x, k + 1)) (Spec.unif.map id) :=
    closed_one (g := fun x => .ok x) measurable_id fun _ _ _ => rfl
  rw [Measure.map_id] at hc
  have he := closed_map (closed_bind hc hν) (F := fun p => .ok p.2) measurable_snd (Filter.Eventually.of_forall fun _ => rfl)
  rw [hm] at he
  refine he.of_eq fun fuel ω k => ?_
  simp only [Except.map, bind, Except.bind]
  cases pickRun last (L.map fun x => (x.1, x.2.1)) 0 (ω k) fuel ω (k + 1) <;> rfl

/-- The component the loop of `sample_angle_energy` finds is the one `pickRun` uses. -/
theorem select_pick (E : ℝ) (fuel : Nat) (last : Nat → Tape → Nat → Res ((ℝ × ℝ) × Nat)) (xi : ℝ) :
    ∀ (ds : List (Nat → AE)) (ps : List Tab1D) (w : List ℝ) (sum : ℝ), List.Forall₂ (fun p v => p.eval E = .ok v) ps w → ds.length = w.length →
      (Multi.select E xi (ds.map (· fuel)) ps sum = .ok none ∧
        pickRun last ((w.zip ds).map fun x => (x.1, fun fuel ω k => asPair ((x.2 fuel).sample E ω k))) sum xi = last) ∨
      ∃ d : Nat → AE, Multi.select E xi (ds.map (· fuel)) ps sum = .ok (some (d fuel)) ∧
        pickRun last ((w.zip ds).map fun x => (x.1, fun fuel ω k => asPair ((x.2 fuel).sample E ω k))) sum xi = fun fuel ω k => asPair ((d fuel).sample E ω k)
  | [], ps, w, sum, hps, hl => by
    left
    have : w = [] := List.length_eq_zero_iff.mp (by simpa using hl.symm)
    subst this
    exact ⟨by simp [Multi.select], rfl⟩
  | d :: ds, ps, w, sum, hps, hl => by
    cases hps with
    | nil => simp at hl
    | @cons p v ps w hp hps =>
      have hstep : Multi.select E xi ((d :: ds).map (· fuel)) (p :: ps) sum =
          if xi < sum + v then .ok (some (d fuel)) else Multi.select E xi (ds.map (· fuel)) ps (sum + v) := by
        simp only [List.map_cons, Multi.select, hp, bind, Except.bind]; rfl
      rw [hstep]
      simp only [List.zip_cons_cons, List.map_cons, pickRun]
      by_cases h : xi < sum + v
      · right
        refine ⟨d, by rw [if_pos h], by rw [if_pos h]⟩
      · rw [if_neg h, if_neg h]
        exact select_pick E fuel last xi ds ps w (sum + v) hps (by simpa using hl)

theorem mixLaw_joint {a b : ℝ} : ∀ L : List (ℝ × (ℝ → ℝ → ℝ)), (∀ x ∈ L, 0 ≤ x.1 ∧
      AEMeasurable (fun q : ℝ × ℝ => x.2 q.1 q.2) (volume.restrict (Icc (-1) 1 ×ˢ Icc a b)) ∧
      ∀ mu e, -1 ≤ mu → mu ≤ 1 → a ≤ e → e ≤ b → 0 ≤ x.2 mu e) →
    mixLaw (L.map fun x => (x.1, jointLaw a b x.2)) = jointLaw a b fun mu e => (L.map fun x => x.1 * x.2 mu e).sum
  | [], _ => by
    unfold jointLaw
    simp [mixLaw]
  | (w, p) :: L, h => by
    obtain ⟨h1, h2, h3⟩ := h _ (List.mem_cons_self ..)
    dsimp only at h1 h2 h3
    have hL := mixLaw_joint L fun x hx => h x (List.mem_cons_of_mem _ hx)
    simp only [List.map_cons, mixLaw, List.sum_cons]
    rw [hL]
    refine Measure.ext fun S hS => ?_
    rw [Measure.add_apply, Measure.smul_apply, smul_eq_mul]
    unfold jointLaw
    rw [withDensity_apply _ hS, withDensity_apply _ hS, withDensity_apply _ hS, ← lintegral_const_mul' _ _ ENNReal.ofReal_ne_top, ← lintegral_add_left']
    · refine lintegral_congr_ae ?_
      filter_upwards [ae_restrict_of_ae (ae_restrict_mem (measurableSet_Icc.prod measurableSet_Icc))] with q hq
      rw [← ENNReal.ofReal_mul h1, ← ENNReal.ofReal_add]
      · exact mul_nonneg h1 (h3 _ _ hq.1.1 hq.1.2 hq.2.1 hq.2.2)
      · refine List.sum_nonneg fun y hy => ?_
        obtain ⟨x, hx, rfl⟩ := List.mem_map.mp hy
        obtain ⟨g1, _, g3⟩ := h x (List.mem_cons_of_mem _ hx)
        exact mul_nonneg g1 (g3 _ _ hq.1.1 hq.1.2 hq.2.1 hq.2.2)
    · exact (h2.ennreal_ofReal.const_mul _).restrict

theorem aem_sum {μ : Measure (ℝ × ℝ)} : ∀ L : List (ℝ × (ℝ → ℝ → ℝ)), (∀ x ∈ L, AEMeasurable (fun q : ℝ × ℝ => x.2 q.1 q.2) μ) →
    AEMeasurable (fun q : ℝ × ℝ => (L.map fun x => x.1 * x.2 q.1 q.2).sum) μ
  | [], _ => by simp
  | (w, p) :: L, h => by
    simp only [List.map_cons, List.sum_cons]
    exact ((h _ (List.mem_cons_self ..)).const_mul w).add (aem_sum L fun x hx => h x (List.mem_cons_of_mem _ hx))

theorem mixLaw_mass : ∀ L : List (ℝ × Measure α), (∀ x ∈ L, 0 ≤ x.1 ∧ IsProbabilityMeasure x.2) → mixLaw L univ = ENNReal.ofReal (L.map (·.1)).sum
  | [], _ => by simp [mixLaw]
  | (w, μ) :: L, h => by
    obtain ⟨h1, h2⟩ := h _ (List.mem_cons_self ..)
    dsimp only at h1 h2
    have hL := mixLaw_mass L fun x hx => h x (List.mem_cons_of_mem _ hx)
    simp only [mixLaw, List.map_cons, List.sum_cons]
    rw [Measure.add_apply, Measure.smul_apply, smul_eq_mul, measure_univ, mul_one, hL, ENNReal.ofReal_add h1]
    exact List.sum_nonneg fun y hy => by
      obtain ⟨x, hx, rfl⟩ := List.mem_map.mp hy
      exact (h x (List.mem_cons_of_mem _ hx)).1

/-- What a mixture samples, and what it reports: they differ by what the weights leave, which the last component has. -/
theorem multi_law (ds : List (Nat → AE)) (ps : List Tab1D) (E a b : ℝ) (w : List ℝ) (hps : List.Forall₂ (fun p v => p.eval E = .ok v) ps w)
    (hl : ds.length = w.length) (hne : ds ≠ []) (hw : ∀ v ∈ w, 0 ≤ v) (hf : ∀ d ∈ ds, FaithfulAE d E a b) :
    ∃ p : ℝ → ℝ → ℝ,
      (∀ fuel mu e, -1 ≤ mu → mu ≤ 1 → a ≤ e → e ≤ b → Multi.pdf ⟨ds.map (· fuel), ps⟩ E mu e = .ok (some (p mu e)) ∧ 0 ≤ p mu e) ∧
      AEMeasurable (fun q : ℝ × ℝ => p q.1 q.2) (volume.restrict (Icc (-1) 1 ×ˢ Icc a b)) ∧
      jointLaw a b p univ = ENNReal.ofReal w.sum ∧
      (w.sum ≤ 1 → ∃ μl : Measure (ℝ × ℝ), Closed (fun fuel ω k => asPair (Multi.sample ⟨ds.map (· fuel), ps⟩ E ω k))
        (jointLaw a b p + ENNReal.ofReal (1 - w.sum) • μl)) := by
  choose! P h1 h2 h3 using hf
  have hmem : ∀ x ∈ w.zip ds, x.1 ∈ w ∧ x.2 ∈ ds := fun x hx => List.of_mem_zip hx
  have hz : ∀ mu e, (List.zipWith (· * ·) w (ds.map fun d => P d mu e)).sum = (((w.zip ds).map fun x => (x.1, P x.2)).map fun x => x.1 * x.2 mu e).sum := by
    intro mu e
    rw [List.map_map, List.zipWith_map_right, List.zip, List.map_zipWith]
    rfl
  have hwt : ((w.zip ds).map fun x => x.1) = w := List.map_fst_zip (by omega)
  have hL : ∀ x ∈ (w.zip ds).map fun x => (x.1, P x.2), 0 ≤ x.1 ∧
      AEMeasurable (fun q : ℝ × ℝ => x.2 q.1 q.2) (volume.restrict (Icc (-1) 1 ×ˢ Icc a b)) ∧
      ∀ mu e, -1 ≤ mu → mu ≤ 1 → a ≤ e → e ≤ b → 0 ≤ x.2 mu e := by
    intro x hx
    obtain ⟨y, hy, rfl⟩ := List.mem_map.mp hx
    obtain ⟨g1, g2⟩ := hmem y hy
    exact ⟨hw _ g1, h2 _ g2, fun mu e a1 a2 a3 a4 => (h1 _ g2 0 mu e a1 a2 a3 a4).2⟩
  refine ⟨fun mu e => (((w.zip ds).map fun x => (x.1, P x.2)).map fun x => x.1 * x.2 mu e).sum, fun fuel mu e a1 a2 a3 a4 => ⟨?_, ?_⟩, ?_, ?_, fun hs => ?_⟩
  · have hwts : Weights ⟨ds.map (· fuel), ps⟩ E w := by
      refine ⟨by simpa using hl, hps.length_eq, fun d p v hp hv => ?_⟩
      rw [List.forall₂_iff_get] at hps
      obtain ⟨i1, e1⟩ := List.getElem?_eq_some_iff.mp hp
      obtain ⟨i2, e2⟩ := List.getElem?_eq_some_iff.mp hv
      have := hps.2 d i1 i2
      simp only [List.get_eq_getElem] at this
      rw [← e1, ← e2]
      exact this
    have := (mix_spec E (fun d => d.pdf E mu e) (ds.map (· fuel)) ps w 0 hwts).1 (ds.map fun d => P d mu e) (by simp) fun i d x hd hx => by
      rw [List.getElem?_map] at hd hx
      cases hg : ds[i]? with
      | none => rw [hg] at hd; cases hd
      | some g =>
        rw [hg] at hd hx
        cases hd
        cases hx
        exact (h1 g (List.mem_of_getElem? hg) fuel mu e a1 a2 a3 a4).1
    unfold Multi.pdf
    rw [this, zero_add, hz]
  · refine List.sum_nonneg fun y hy => ?_
    obtain ⟨x, hx, rfl⟩ := List.mem_map.mp hy
    obtain ⟨g1, _, g3⟩ := hL x hx
    exact mul_nonneg g1 (g3 mu e a1 a2 a3 a4)
  · exact aem_sum _ fun x hx => (hL x hx).2.1
  · rw [← mixLaw_joint _ hL, List.map_map, mixLaw_mass]
    · rw [List.map_map]
      exact congrArg ENNReal.ofReal (congrArg List.sum hwt)
    · intro x hx
      obtain ⟨y, hy, rfl⟩ := List.mem_map.mp hx
      obtain ⟨g1, g2⟩ := hmem y hy
      exact ⟨hw _ g1, (h3 _ g2).prob⟩
  · obtain ⟨dl, hdl⟩ : ∃ dl, ds.getLast? = some dl := ⟨_, List.getLast?_eq_some_getLast hne⟩
    have hlm : dl ∈ ds := List.mem_of_getLast? hdl
    refine ⟨jointLaw a b (P dl), ?_⟩
    have hc := closed_pick (h3 dl hlm) ((w.zip ds).map fun x => (x.1, (fun fuel ω k => asPair ((x.2 fuel).sample E ω k)), jointLaw a b (P x.2))) (by
      intro x hx
      obtain ⟨y, hy, rfl⟩ := List.mem_map.mp hx
      obtain ⟨g1, g2⟩ := hmem y hy
      exact ⟨hw _ g1, h3 _ g2⟩) (by
      rw [List.map_map]
      exact (congrArg List.sum hwt).trans_le hs)
    have e1 : ((w.zip ds).map fun x => (x.1, (fun fuel ω k => asPair ((x.2 fuel).sample E ω k)), jointLaw a b (P x.2))).map (fun x => (x.1, x.2.2)) =
        ((w.zip ds).map fun x => (x.1, P x.2)).map fun x => (x.1, jointLaw a b x.2) := by
      rw [List.map_map, List.map_map]; rfl
    have e2 : ((w.zip ds).map fun x => (x.1, (fun fuel ω k => asPair ((x.2 fuel).sample E ω k)), jointLaw a b (P x.2))).map (fun x => x.1) = w := by
      rw [List.map_map]; exact hwt
    have e3 : ((w.zip ds).map fun x => (x.1, (fun fuel ω k => asPair ((x.2 fuel).sample E ω k)), jointLaw a b (P x.2))).map (fun x => (x.1, x.2.1)) =
        (w.zip ds).map fun x => (x.1, fun fuel ω k => asPair ((x.2 fuel).sample E ω k)) := by
      rw [List.map_map]; rfl
    rw [e1, e2, mixLaw_joint _ hL] at hc
    refine hc.of_eq fun fuel ω k => ?_
    rw [e3]
    rcases select_pick E fuel (fun fuel ω k => asPair ((dl fuel).sample E ω k)) (ω k) ds ps w 0 hps hl with ⟨s1, s2⟩ | ⟨d, s1, s2⟩
    · rw [s2]
      unfold Multi.sample
      simp only [s1, bind, Except.bind]
      rw [back_eq_ok.mpr (show (ds.map (· fuel)).getLast? = some (dl fuel) by rw [List.getLast?_map, hdl]; rfl)]
    · rw [s2]
      unfold Multi.sample
      simp only [s1, bind, Except.bind]

/-! ### The N-body law -/

/-- A method that always draws the same number of random numbers. -/
theorem closed_fixed {run : Nat → Tape → Nat → Res (α × Nat)} {X : Tape → α} {n : Nat} (hs : Shifts run) (hX : Measurable X)
    (hw : ∀ ω ω' : Tape, (∀ i < n, ω i = ω' i) → X ω = X ω') (hr : ∀ᵐ ω ∂Spec.iid, ∀ fuel, run fuel ω 0 = .ok (X ω, n)) :
    Closed run (Spec.iid.map X) := by
  refine ⟨hs, X, fun _ => n, hX, measurable_const, ?_, hX.prodMk (measurable_dropT n), ?_⟩
  · filter_upwards [hr] with ω h
    exact ⟨⟨0, fun fuel _ => h fuel⟩, fun fuel y hy => by
      dsimp only at hy
      rw [h fuel] at hy; cases hy; rfl⟩
  · have : IsProbabilityMeasure (Spec.iid.map X) := Measure.isProbabilityMeasure_map hX.aemeasurable
    refine (Measure.prod_eq fun S T hS hT => ?_).symm
    rw [Measure.map_apply (hX.prodMk (measurable_dropT n)) (hS.prod hT), Measure.map_apply hX hS]
    exact iid_indep T hT n (X ⁻¹' S) (hX hS) fun ω ω' h hω => by
      show X ω' ∈ S
      rw [← hw ω ω' h]; exact hω

theorem nbody_shifts (d : NBody) (E : ℝ) : Shifts fun _ ω k => asPair (d.sample E ω k) := by
  intro fuel ω k
  have hm : ∀ j, maxwellianSpectrum (dropT k ω) j = maxwellianSpectrum ω (k + j) := by
    intro j
    unfold maxwellianSpectrum
    simp only [dropT_apply, Nat.add_assoc]
  unfold asPair NBody.sample
  simp only [hm, dropT_apply, Nat.add_zero, Nat.zero_add, Nat.reduceAdd, Nat.add_assoc, bind, Except.bind, pure, Except.pure]
  cases maxwellianSpectrum ω k with
  | error e => rfl
  | ok x =>
    dsimp only
    by_cases h3 : d.n = 3
    · simp only [if_pos h3]
      cases maxwellianSpectrum ω (k + 3) with
      | error e => rfl
      | ok y => dsimp only; cases rdiv x (x + y) <;> rfl
    · simp only [if_neg h3]
      by_cases h4 : d.n = 4
      · simp only [if_pos h4]
        cases clog (ω (k + 3) * (ω (k + 4)) * ω (k + 5)) with
        | error e => rfl
        | ok y => dsimp only; cases rdiv x (x + -y) <;> rfl
      · simp only [if_neg h4]
        by_cases h5 : d.n = 5
        · simp only [if_pos h5]
          cases clog (ω (k + 3) * (ω (k + 4)) * ω (k + 5) * ω (k + 6)) with
          | error e => rfl
          | ok y =>
            dsimp only
            cases clog (ω (k + 7)) with
            | error e => rfl
            | ok z => dsimp only; cases rdiv x (x + (-y - z * Real.cos (0.5 * Real.pi * ω (k + 8)) ^ 2)) <;> rfl
        · simp only [if_neg h5]
          cases rdiv x (x + 0) <;> rfl

theorem nbody_faithful (n : Nat) (Ap A Q : ℝ) (d : NBody) (hd : NBody.make n Ap A Q = .ok d) (E : ℝ)
    (hE : 0 < (Ap - 1) / Ap * (A / (A + 1) * E + Q)) :
    FaithfulAE (fun fuel => (Law.nbody d).toAE fuel) E 0 ((Ap - 1) / Ap * (A / (A + 1) * E + Q)) := by
  obtain ⟨p, hp, hone⟩ := C70_normalised n Ap A Q d hd E hE
  obtain ⟨p', hp', hs⟩ := C104_nbody n Ap A Q d hd E hE 0
  have hpp : ∀ x, 0 ≤ x → x ≤ (Ap - 1) / Ap * (A / (A + 1) * E + Q) → p' x = p x := fun x h0 h1 => by
    have := (hp x h0 h1).1
    rw [hp' x h0 h1] at this
    exact Except.ok.inj this
  have hn := ((C43_accepts n Ap A Q).mp ⟨d, hd⟩).1
  have hd' : d = ⟨n, Ap, A, Q⟩ := by
    rcases C43_make n Ap A Q with h | h <;> rw [h] at hd <;> cases hd; rfl
  have hemax : d.emax E = (Ap - 1) / Ap * (A / (A + 1) * E + Q) := by rw [hd']; rfl
  obtain ⟨C, hC⟩ := nbody_shape hn (by rw [← hd']; exact hemax) hE fun x h0 h1 => by rw [← hd']; exact (hp x h0 h1).1
  refine ⟨fun _ e => p' e, fun fuel mu e _ _ h2 h3 => ⟨?_, ?_⟩, ?_, ?_⟩
  · show (d.pdf E e).map some = _
    rw [hp' e h2 h3]; rfl
  · show 0 ≤ p' e
    rw [hpp e h2 h3]; exact (hp e h2 h3).2
  · have hcm : Measurable fun q : ℝ × ℝ => C * (Real.sqrt q.2 * ((Ap - 1) / Ap * (A / (A + 1) * E + Q) - q.2) ^ (3 * (n : ℝ) / 2 - 4)) := by fun_prop
    refine hcm.aemeasurable.congr ?_
    filter_upwards [ae_restrict_mem (measurableSet_Icc.prod measurableSet_Icc)] with q hq
    rw [hpp _ hq.2.1 hq.2.2, hC _ hq.2.1 hq.2.2]
  · obtain ⟨m, Y, hY, hw, hval⟩ := nbody_value (Ap := Ap) (A := A) (Q := Q) (E := E) hn
    have mX := isGamma_maxwell.1
    have hXm : Measurable fun ω : Tape => ((2 * ω (3 + m) - 1, (-(Real.log (ω 1) + Real.log (ω 2) * Real.cos (Real.pi * ω 0 / 2) * Real.cos (Real.pi * ω 0 / 2))) /
        (-(Real.log (ω 1) + Real.log (ω 2) * Real.cos (Real.pi * ω 0 / 2) * Real.cos (Real.pi * ω 0 / 2)) + Y (dropT 3 ω)) * d.emax E) : ℝ × ℝ) :=
      ((((measurable_pi_apply (X := fun _ : Nat => ℝ) (3 + m)).const_mul 2).sub_const 1)).prodMk ((mX.div (mX.add (measurable_of_dropT hY.1 3))).mul_const _)
    have hc : Closed (fun (_ : Nat) ω k => asPair (d.sample E ω k)) (Spec.iid.map _) := closed_fixed (n := 3 + m + 1) (nbody_shifts d E) hXm (fun ω ω' h => by
      simp only [h 0 (by omega), h 1 (by omega), h 2 (by omega), h (3 + m) (by omega), hw (dropT 3 ω) (dropT 3 ω') fun i hi => h (3 + i) (by omega)]) (by
      filter_upwards [iid_open] with ω hω
      intro fuel
      have := hval ω 0 hω
      rw [← hd'] at this
      rw [this]
      simp only [asPair, Except.map, dropT_zero, Nat.zero_add])
    exact hc.congr (k := 0) hs

/-! ### C112 -/

/-- **C112** `MultipleDistribution`: if the components draw from the densities they report, the cosines and energies of
`sample_angle_energy` have the joint density `pdf` reports exactly when the weights at this energy add up to one. -/
theorem C112_iff (ds : List (Nat → AE)) (ps : List Tab1D) (E a b : ℝ) (w : List ℝ) (hps : List.Forall₂ (fun p v => p.eval E = .ok v) ps w)
    (hl : ds.length = w.length) (hne : ds ≠ []) (hw : ∀ v ∈ w, 0 ≤ v) (hf : ∀ d ∈ ds, FaithfulAE d E a b) (k : Nat) :
    SamplesJoint (fun fuel ω => Multi.sample ⟨ds.map (· fuel), ps⟩ E ω k) a b (Multi.pdf ⟨ds.map (· 0), ps⟩ E) ↔ w.sum = 1 := by
  obtain ⟨p, h1, h2, h3, h4⟩ := multi_law ds ps E a b w hps hl hne hw hf
  have hw0 : 0 ≤ w.sum := List.sum_nonneg hw
  constructor
  · rintro ⟨p', hp', hs⟩
    have hj : jointLaw a b p' = jointLaw a b p := by
      unfold jointLaw
      refine withDensity_congr_ae ?_
      filter_upwards [ae_restrict_mem (measurableSet_Icc.prod measurableSet_Icc)] with q hq
      have := hp' _ _ hq.1.1 hq.1.2 hq.2.1 hq.2.2
      rw [(h1 0 _ _ hq.1.1 hq.1.2 hq.2.1 hq.2.2).1] at this
      rw [Option.some.inj (Except.ok.inj this)]
    have hu := hs univ .univ
    rw [hj, h3] at hu
    have hle : w.sum ≤ 1 := by
      have : ENNReal.ofReal w.sum ≤ 1 := hu ▸ prob_le_one
      exact ENNReal.ofReal_le_one.mp this
    obtain ⟨μl, hc⟩ := h4 hle
    have := (hc.samples k) univ .univ
    have hp1 := hc.prob
    rw [measure_univ] at this
    have h5 := hu.symm.trans this
    rwa [ENNReal.ofReal_eq_one] at h5
  · intro hs
    obtain ⟨μl, hc⟩ := h4 hs.le
    rw [hs, sub_self, ENNReal.ofReal_zero, zero_smul, add_zero] at hc
    exact ⟨p, fun mu e a1 a2 a3 a4 => (h1 0 mu e a1 a2 a3 a4).1, hc.samples k⟩

theorem multi_faithful (ds : List (Nat → AE)) (ps : List Tab1D) (E a b : ℝ) (w : List ℝ) (hps : List.Forall₂ (fun p v => p.eval E = .ok v) ps w)
    (hl : ds.length = w.length) (hw : ∀ v ∈ w, 0 ≤ v) (hs : w.sum = 1) (hf : ∀ d ∈ ds, FaithfulAE d E a b) :
    FaithfulAE (fun fuel => ⟨Multi.sample ⟨ds.map (· fuel), ps⟩, Multi.anglePdf ⟨ds.map (· fuel), ps⟩, Multi.pdf ⟨ds.map (· fuel), ps⟩⟩) E a b := by
  have hne : ds ≠ [] := by
    rintro rfl
    have : w = [] := List.length_eq_zero_iff.mp (by simpa using hl.symm)
    subst this
    norm_num at hs
  obtain ⟨p, h1, h2, h3, h4⟩ := multi_law ds ps E a b w hps hl hne hw hf
  obtain ⟨μl, hc⟩ := h4 hs.le
  rw [hs, sub_self, ENNReal.ofReal_zero, zero_smul, add_zero] at hc
  exact ⟨p, h1, h2, hc⟩

/-- One law of a reaction that draws from the density it reports, on `[-1, 1] × [a, b]`. -/
def Spec.SoundOne (l : Law) (E a b : ℝ) : Prop :=
  match l with
  | .uncorrelated u => ValidDist u.angle ∧ (∀ law ∈ u.angle.laws, SoundLaw law) ∧ SoundEnergy u.energy E a b
  | .nbody d => ∃ n Ap A Q, NBody.make n Ap A Q = .ok d ∧ a = 0 ∧ b = (Ap - 1) / Ap * (A / (A + 1) * E + Q) ∧ 0 < b
  | _ => False

/-- The same of the distribution of a reaction in the laboratory frame. -/
def Spec.SoundDist (d : NDist) (E a b : ℝ) : Prop :=
  match d with
  | .one l => SoundOne l E a b
  | .several ls => (∀ l ∈ ls, SoundOne l.1 E a b) ∧
      ∃ w : List ℝ, List.Forall₂ (fun p v => p.eval E = .ok v) (ls.map Prod.snd) w ∧ (∀ v ∈ w, 0 ≤ v) ∧ w.sum = 1
  | _ => False

theorem one_faithful {l : Law} {E a b : ℝ} (h : SoundOne l E a b) : FaithfulAE (fun fuel => l.toAE fuel) E a b := by
  cases l with
  | uncorrelated u => exact uncorr_faithful u h.1 h.2.1 (soundE_faithful h.2.2)
  | nbody d =>
    obtain ⟨n, Ap, A, Q, hd, rfl, rfl, hb⟩ := h
    exact nbody_faithful n Ap A Q d hd E hb
  | kalbach d => exact absurd h (by simp [SoundOne])
  | tabEnergyAngle d => exact absurd h (by simp [SoundOne])

theorem ndist_faithful {d : NDist} {E a b : ℝ} (h : SoundDist d E a b) : FaithfulAE (fun fuel => d.toAE fuel) E a b := by
  cases d with
  | absorption mt => exact absurd h (by simp [SoundDist])
  | one l => exact one_faithful h
  | several ls =>
    obtain ⟨h1, w, h2, h3, h4⟩ := h
    have := multi_faithful (ls.map fun p fuel => p.1.toAE fuel) (ls.map Prod.snd) E a b w h2 (by simpa using h2.length_eq) h3 h4 (by
      intro d hd
      obtain ⟨l, hl, rfl⟩ := List.mem_map.mp hd
      exact one_faithful (h1 l hl))
    simp only [List.map_map] at this
    exact this
  | cm awr q d => exact absurd h (by simp [SoundDist])

/-- **C112** A reaction of several laws: at energies from its threshold on, `sample_neutron_angle_energy` returns cosines and
energies with the joint density its distribution reports. -/
theorem C112_reaction_partial (r : RxnBase) (threshold E a b : ℝ) (hE : threshold ≤ E) (h : SoundDist r.dist E a b) (k : Nat) :
    SamplesJoint (fun fuel ω => r.sample threshold fuel E ω k) a b ((r.dist.toAE 0).pdf E) := by
  have := (ndist_faithful h).samples k
  have e : (fun fuel ω => r.sample threshold fuel E ω k) = fun fuel ω => (r.dist.toAE fuel).sample E ω k := by
    funext fuel ω
    unfold RxnBase.sample
    rw [if_neg (not_lt.mpr hE)]
  rw [e]
  exact this

/-- An isotropic evaporation spectrum. -/
noncomputable def evapU : Uncorr := ⟨⟨[1], [.isotropic]⟩, .evap (constTab 2) (-1)⟩

theorem evapU_sound : SoundOne (.uncorrelated evapU) 0 0 1 := by
  refine ⟨⟨rfl, by simp [evapU], by simp [evapU]⟩, ?_, 2, constTab_eval 2, by norm_num, by norm_num, le_rfl, by norm_num⟩
  intro law hl
  simp only [evapU, List.mem_cons, List.not_mem_nil, or_false] at hl
  subst hl
  trivial

/-- A reaction of two laws, one an evaporation spectrum and one a three body law, is sound. -/
example : ∃ d, NBody.make 3 3 2 (3 / 2) = .ok d ∧
    SoundDist (.several [(.uncorrelated evapU, constTab (1 / 4)), (.nbody d, constTab (3 / 4))]) 0 0 1 := by
  obtain ⟨d, hd⟩ := (C43_accepts 3 3 2 (3 / 2)).mpr ⟨Or.inl rfl, by norm_num, by norm_num⟩
  refine ⟨d, hd, ?_, [1 / 4, 3 / 4], ?_, ?_, by norm_num⟩
  · intro l hl
    simp only [List.mem_cons, List.not_mem_nil, or_false] at hl
    rcases hl with rfl | rfl
    · exact evapU_sound
    · exact ⟨3, 3, 2, 3 / 2, hd, rfl, by norm_num, by norm_num⟩
  · exact .cons (constTab_eval _) (.cons (constTab_eval _) .nil)
  · intro v hv
    simp only [List.mem_cons, List.not_mem_nil, or_false] at hv
    rcases hv with rfl | rfl <;> norm_num

/-- **C112** A mixture whose weights leave something is accepted, gives it to the last component when sampling, and does not report it. -/
theorem C112_violation : ∃ (m : Multi), Multi.make [some ((Law.uncorrelated evapU).toAE 0), some ((Law.uncorrelated evapU).toAE 0)]
      [some (constTab (1 / 4)), some (constTab (1 / 4))] = .ok m ∧
    ∀ k, ¬ SamplesJoint (fun fuel ω => Multi.sample ⟨[(Law.uncorrelated evapU).toAE fuel, (Law.uncorrelated evapU).toAE fuel],
      [constTab (1 / 4), constTab (1 / 4)]⟩ 0 ω k) 0 1 (m.pdf 0) := by
  refine ⟨⟨[(Law.uncorrelated evapU).toAE 0, (Law.uncorrelated evapU).toAE 0], [constTab (1 / 4), constTab (1 / 4)]⟩, ?_, fun k h => ?_⟩
  · exact (C62_construction _ _ _).mpr ⟨rfl, rfl, rfl, le_rfl⟩
  · have hi := C112_iff [fun fuel => (Law.uncorrelated evapU).toAE fuel, fun fuel => (Law.uncorrelated evapU).toAE fuel]
      [constTab (1 / 4), constTab (1 / 4)] 0 0 1 [1 / 4, 1 / 4] (.cons (constTab_eval _) (.cons (constTab_eval _) .nil)) rfl (by simp) (by
        intro v hv
        simp only [List.mem_cons, List.not_mem_nil, or_false, or_self] at hv
        subst hv; norm_num) (by
        intro d hd
        simp only [List.mem_cons, List.not_mem_nil, or_false, or_self] at hd
        subst hd
        exact one_faithful evapU_sound) k
    have := hi.mp h
    norm_num at this

/-- **C111** With a Maxwellian energy law the joint density reported is not the one sampled: at incident energies near the restriction
energy it is negative everywhere (C69). -/
theorem C111_violation_maxwell (g : AngleDist) (hv : ValidDist g) (hl : ∀ law ∈ g.laws, SoundLaw law) (temp : Tab1D) (U E T : ℝ)
    (hT : temp.eval E = .ok T) (hpos : 0 < T) (hdu : U < E) (hsmall : (E - U) / T ≤ 1 / 4) (k : Nat) :
    ¬ SamplesJoint (fun fuel ω => (⟨g, .maxwell temp U⟩ : Uncorr).sample fuel E ω k) 0 (E - U) (Uncorr.pdf ⟨g, .maxwell temp U⟩ E) := by
  rintro ⟨p', hp', hs⟩
  obtain ⟨p, p1, p2, p3⟩ := dist_faithful g hv (fun law h => sound_faithful (hl law h)) E
  have hu := hs univ .univ
  have hz : jointLaw 0 (E - U) p' univ = 0 := by
    unfold jointLaw
    rw [withDensity_apply _ .univ, Measure.restrict_univ, ← lintegral_zero (μ := volume.restrict (Icc (-1 : ℝ) 1 ×ˢ Icc (0 : ℝ) (E - U)))]
    refine lintegral_congr_ae ?_
    have hne : ∀ᵐ q : ℝ × ℝ ∂volume, q.2 ≠ 0 := by
      rw [Measure.volume_eq_prod]
      exact Measure.quasiMeasurePreserving_snd.ae (by simp [ae_iff] : ∀ᵐ x : ℝ ∂volume, x ≠ 0)
    filter_upwards [ae_restrict_mem (measurableSet_Icc.prod measurableSet_Icc), ae_restrict_of_ae hne] with q hq h0
    obtain ⟨v, hv, hneg⟩ := C69_violation_maxwell_negative temp U E T hT hpos hdu hsmall q.2 (lt_of_le_of_ne hq.2.1 (Ne.symm h0)) hq.2.2
    have := hp' _ _ hq.1.1 hq.1.2 hq.2.1 hq.2.2
    obtain ⟨g1, g2⟩ := p1 q.1 hq.1.1 hq.1.2
    have he : Uncorr.pdf ⟨g, .maxwell temp U⟩ E q.1 q.2 = .ok (some (v * p q.1)) := by
      unfold Uncorr.pdf
      simp only [ELaw.pdf, hv, Except.map, bind, Except.bind, g1, pure, Except.pure]
    rw [he] at this
    rw [← Option.some.inj (Except.ok.inj this)]
    exact ENNReal.ofReal_of_nonpos (mul_nonpos_of_nonpos_of_nonneg hneg.le g2)
  have := p3.prob
  have hc : Closed (fun fuel ω k => asPair ((⟨g, .maxwell temp U⟩ : Uncorr).sample fuel E ω k)) _ :=
    (closed_bind p3 ((maxwell_closed temp U E T hT hpos hdu).lift (densityOn (-1) 1 p))).of_eq fun fuel ω k => by
      unfold Uncorr.sample asPair
      simp only [bind, Except.bind]
      cases g.sample fuel E ω k with
      | error e => rfl
      | ok r =>
        simp only [ELaw.sample]
        cases maxwellSample temp U fuel E ω r.2 <;> rfl
  have h1 := hc.prob
  have h2 := (hc.samples k) univ .univ
  rw [measure_univ] at h2
  have h3 : (1 : ℝ≥0∞) = 0 := h2.symm.trans (hu.trans hz)
  exact one_ne_zero h3

-- the hypotheses of `C111_samples_partial` and of the violation are met
example : (0 - -1) / 4 ≤ (1 / 4 : ℝ) ∧ (constTab 4).eval 0 = .ok 4 := ⟨by norm_num, constTab_eval 4⟩

example (k : Nat) : SamplesJoint (fun fuel ω => evapU.sample fuel 0 ω k) 0 1 (evapU.pdf 0) :=
  C111_samples_partial evapU evapU_sound.1 evapU_sound.2.1 0 0 1 evapU_sound.2.2 k

/-! ### Partial fission reactions -/

theorem sfs_closed (s : Nat → SFS) (E a b : ℝ) (x : Fin 4 → ℝ) (h : ∀ fuel, PartialXS (s fuel) E x) (hn : ∀ j, 0 ≤ x j) (ht : 0 < ∑ j, x j)
    (hf : ∀ j, FaithfulAE (fun fuel => distOf (s fuel) j) E a b) :
    ∃ f : Fin 4 → ℝ → ℝ → ℝ,
      (∀ j mu e, -1 ≤ mu → mu ≤ 1 → a ≤ e → e ≤ b → (distOf (s 0) j).pdf E mu e = .ok (some (f j mu e)) ∧ 0 ≤ f j mu e) ∧
      (∀ j, IsProbabilityMeasure (jointLaw a b (f j))) ∧
      Closed (fun fuel ω k => asPair ((s fuel).sample E ω k)) (jointLaw a b fun mu e => ∑ j, x j / (∑ i, x i) * f j mu e) := by
  choose f h1 h2 h3 using hf
  refine ⟨f, fun j mu e a1 a2 a3 a4 => h1 j 0 mu e a1 a2 a3 a4, fun j => (h3 j).prob, ?_⟩
  have hT : 0 < x 0 + x 1 + x 2 + x 3 := by rw [← sum4]; exact ht
  have hp := fun fuel => SFS.probs_eq (h fuel) hT.ne'
  obtain ⟨T, hT'⟩ : ∃ T, T = x 0 + x 1 + x 2 + x 3 := ⟨_, rfl⟩
  rw [sum4, ← hT']
  simp only [← hT'] at hp
  rw [← hT'] at hT
  have q : ∀ j, 0 ≤ x j / T := fun j => div_nonneg (hn j) hT.le
  have hs : x 0 / T + (x 1 / T + (x 2 / T + x 3 / T)) = 1 := by
    rw [← add_div, ← add_div, ← add_div, div_eq_one_iff_eq hT.ne', hT']; ring
  have hc := closed_pick (h3 3) [(x 0 / T, (fun fuel ω k => asPair ((distOf (s fuel) 0).sample E ω k)), jointLaw a b (f 0)),
    (x 1 / T, (fun fuel ω k => asPair ((distOf (s fuel) 1).sample E ω k)), jointLaw a b (f 1)),
    (x 2 / T, (fun fuel ω k => asPair ((distOf (s fuel) 2).sample E ω k)), jointLaw a b (f 2))] (by
      intro y hy
      simp only [List.mem_cons, List.not_mem_nil, or_false] at hy
      rcases hy with rfl | rfl | rfl
      exacts [⟨q 0, h3 0⟩, ⟨q 1, h3 1⟩, ⟨q 2, h3 2⟩]) (by
      simp only [List.map_cons, List.map_nil, List.sum_cons, List.sum_nil, add_zero]
      linarith [q 3])
  have hm := mixLaw_joint (a := a) (b := b) [(x 0 / T, f 0), (x 1 / T, f 1), (x 2 / T, f 2), (x 3 / T, f 3)] (by
    have g : ∀ j, 0 ≤ x j / T ∧ AEMeasurable (fun q : ℝ × ℝ => f j q.1 q.2) (volume.restrict (Icc (-1) 1 ×ˢ Icc a b)) ∧
        ∀ mu e, -1 ≤ mu → mu ≤ 1 → a ≤ e → e ≤ b → 0 ≤ f j mu e := fun j => ⟨q j, h2 j, fun mu e a1 a2 a3 a4 => (h1 j 0 mu e a1 a2 a3 a4).2⟩
    intro y hy
    simp only [List.mem_cons, List.not_mem_nil, or_false] at hy
    rcases hy with rfl | rfl | rfl | rfl
    exacts [g 0, g 1, g 2, g 3])
  have he : (jointLaw a b fun mu e => ∑ j, x j / T * f j mu e) =
      mixLaw [(x 0 / T, jointLaw a b (f 0)), (x 1 / T, jointLaw a b (f 1)), (x 2 / T, jointLaw a b (f 2))] +
        ENNReal.ofReal (1 - ([(x 0 / T), (x 1 / T), (x 2 / T)] : List ℝ).sum) • jointLaw a b (f 3) := by
    have h4 : 1 - ([(x 0 / T), (x 1 / T), (x 2 / T)] : List ℝ).sum = x 3 / T := by
      simp only [List.sum_cons, List.sum_nil, add_zero]; linarith
    have h5 : (fun mu e => ∑ j, x j / T * f j mu e) =
        fun mu e => (([(x 0 / T, f 0), (x 1 / T, f 1), (x 2 / T, f 2), (x 3 / T, f 3)] : List (ℝ × (ℝ → ℝ → ℝ))).map fun y => y.1 * y.2 mu e).sum := by
      funext mu e
      rw [Fin.sum_univ_four]
      simp only [List.map_cons, List.map_nil, List.sum_cons, List.sum_nil, add_zero]
      ring
    rw [h4, h5, ← hm]
    simp only [List.map_cons, List.map_nil, mixLaw, add_zero, add_assoc]
  rw [he]
  refine hc.of_eq fun fuel ω k => ?_
  show asPair ((s fuel).sample E ω k) = _
  unfold SFS.sample
  rw [hp fuel]
  simp only [bind, Except.bind, List.map_cons, List.map_nil, pickRun, zero_add]
  by_cases c0 : ω k < x 0 / T
  · rw [if_pos c0, if_pos c0]; rfl
  · rw [if_neg c0, if_neg c0]
    by_cases c1 : ω k < x 0 / T + x 1 / T
    · rw [if_pos c1, if_pos c1]; rfl
    · rw [if_neg c1, if_neg c1]
      by_cases c2 : ω k < x 0 / T + x 1 / T + x 2 / T
      · rw [if_pos c2, if_pos c2]; rfl
      · rw [if_neg c2, if_neg c2]; rfl

/-- **C112** `SummedFissionSpectrum`: if the partial fission distributions draw from the densities they report, `sample_angle_energy`
draws from their mean, weighted by the partial cross sections. -/
theorem C112_fission (s : Nat → SFS) (E a b : ℝ) (x : Fin 4 → ℝ) (h : ∀ fuel, PartialXS (s fuel) E x) (hn : ∀ j, 0 ≤ x j) (ht : 0 < ∑ j, x j)
    (hf : ∀ j, FaithfulAE (fun fuel => distOf (s fuel) j) E a b) (k : Nat) :
    ∃ f : Fin 4 → ℝ → ℝ → ℝ,
      (∀ j mu e, -1 ≤ mu → mu ≤ 1 → a ≤ e → e ≤ b → (distOf (s 0) j).pdf E mu e = .ok (some (f j mu e))) ∧
      Samples (fun fuel ω => asPair ((s fuel).sample E ω k)) (jointLaw a b fun mu e => ∑ j, x j / (∑ i, x i) * f j mu e) := by
  obtain ⟨f, h1, _, h2⟩ := sfs_closed s E a b x h hn ht hf
  exact ⟨f, fun j mu e a1 a2 a3 a4 => (h1 j mu e a1 a2 a3 a4).1, h2.samples k⟩

/-- **C112** It does not report that density: with two open partial reactions, the first of them the total one of the list, what
`pdf` reports is not what is sampled. -/
theorem C112_violation_fission (s : Nat → SFS) (E a b : ℝ) (x : Fin 4 → ℝ) (h : ∀ fuel, PartialXS (s fuel) E x) (hn : ∀ j, 0 ≤ x j)
    (h0 : 0 < x 0) (j : Fin 4) (hj0 : j ≠ 0) (hj : 0 < x j) (hf : ∀ j, FaithfulAE (fun fuel => distOf (s fuel) j) E a b) (k : Nat) :
    ¬ SamplesJoint (fun fuel ω => (s fuel).sample E ω k) a b (fun mu e => (s 0).density E fun d => d.pdf E mu e) := by
  rintro ⟨p', hp', hs⟩
  have hlt : x 0 < ∑ i, x i := by
    have : x 0 + x j ≤ ∑ i, x i := by
      rw [← Finset.sum_pair (Ne.symm hj0) (f := x)]
      exact Finset.sum_le_sum_of_subset_of_nonneg (Finset.subset_univ _) fun i _ _ => hn i
    linarith
  have ht : 0 < ∑ i, x i := h0.trans hlt
  obtain ⟨f, h1, h2, h3⟩ := sfs_closed s E a b x h hn ht hf
  have hq : jointLaw a b p' = ENNReal.ofReal (x 0 / ∑ i, x i) • jointLaw a b (f 0) := by
    unfold jointLaw
    rw [← withDensity_smul' _ _ ENNReal.ofReal_ne_top]
    refine withDensity_congr_ae ?_
    filter_upwards [ae_restrict_mem (measurableSet_Icc.prod measurableSet_Icc)] with q hq
    have : (s 0).density E (fun d => d.pdf E q.1 q.2) = _ := hp' _ _ hq.1.1 hq.1.2 hq.2.1 hq.2.2
    rw [(C61_violation (s 0) E x (h 0) hn h0 (fun d => d.pdf E q.1 q.2) (fun j => f j q.1 q.2) fun j => (h1 j _ _ hq.1.1 hq.1.2 hq.2.1 hq.2.2).1).1] at this
    rw [← Option.some.inj (Except.ok.inj this), ENNReal.ofReal_mul (div_nonneg h0.le ht.le)]
    rfl
  have hu := hs univ .univ
  have := h2 0
  have hp := h3.prob
  have hv := (h3.samples k) univ .univ
  rw [measure_univ] at hv
  have h5 := hv.symm.trans hu
  rw [hq, Measure.smul_apply, smul_eq_mul, measure_univ, mul_one] at h5
  have h6 := ENNReal.ofReal_eq_one.mp h5.symm
  rw [div_eq_one_iff_eq ht.ne'] at h6
  exact absurd h6 hlt.ne

/-- The hypotheses on partial reactions are met: four reactions with a three body law, the first two open. -/
example : ∃ (s : Nat → SFS) (b : ℝ), (∀ fuel, PartialXS (s fuel) 1 ![1, 1, 0, 0]) ∧ ∀ j, FaithfulAE (fun fuel => distOf (s fuel) j) 1 0 b := by
  obtain ⟨d, hd⟩ := (C43_accepts 3 3 2 1).mpr ⟨Or.inl rfl, by norm_num, by norm_num⟩
  have hf := nbody_faithful 3 3 2 1 d hd 1 (by norm_num)
  refine ⟨fun fuel => ⟨⟨[1, 2], [0, 0], 0, 1⟩, ⟨0, ⟨[1, 2], [1], 0, true⟩, (Law.nbody d).toAE fuel⟩, ⟨0, ⟨[1, 2], [1], 0, true⟩, (Law.nbody d).toAE fuel⟩,
    ⟨3, ⟨[1, 2], [1], 0, true⟩, (Law.nbody d).toAE fuel⟩, ⟨3, ⟨[1, 2], [1], 0, true⟩, (Law.nbody d).toAE fuel⟩⟩, (3 - 1) / 3 * (2 / (2 + 1) * 1 + 1), fun fuel => ?_, fun j => ?_⟩
  rotate_left
  · fin_cases j <;> exact hf
  · refine ⟨0, ?_, ?_, ?_, ?_, ?_⟩
    · simp [EGrid.lowerIndex, front, getAt, bind, Except.bind]
    all_goals simp [FisPart.at, XS.evalIdx, XS.evalSingle, front, getAt, bind, Except.bind]

end PNDL
