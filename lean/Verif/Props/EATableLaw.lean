import Verif.Props.KalbachLaw

/-! C114: the law of the cosines and energies of tabulated energy-angle distributions. -/
namespace PNDL
open MeasureTheory Spec Set
open scoped ENNReal

open Classical in
/-- The density of a table is a measurable function. -/
theorem pdfAt_measurable {t : PCTable} (hv : ValidPC t) {G : ℝ → ℝ} (hG : ∀ x, t.pdfAt x = .ok (G x)) : Measurable G := by
  have hne : 0 < t.values.length := List.length_pos_iff.mpr hv.ne
  have hs := hv.values_sorted
  obtain ⟨mn, hmn⟩ := getElem?_of_lt (l := t.values) (i := 0) hne
  obtain ⟨mx, hmx⟩ := last_exists (l := t.values) hne
  have hlP := hv.lenP
  obtain ⟨D, hD⟩ : ∃ D : Nat × ℝ → ℝ, D = fun p => if p.2 = t.values.getD p.1 0 then t.pdf.getD p.1 0 else if t.interp = .histogram then t.pdf.getD (p.1 - 1) 0 else
      t.pdf.getD (p.1 - 1) 0 + (t.pdf.getD p.1 0 - t.pdf.getD (p.1 - 1) 0) / (t.values.getD p.1 0 - t.values.getD (p.1 - 1) 0) * (p.2 - t.values.getD (p.1 - 1) 0) := ⟨_, rfl⟩
  have hDm : Measurable D := by
    rw [hD]
    refine measurable_from_prod_countable_right fun n => ?_
    dsimp only
    refine Measurable.ite (measurableSet_singleton _) measurable_const ?_
    split_ifs
    · exact measurable_const
    · fun_prop
  have he : G = fun x => if x < mn ∨ mx < x then 0 else D (lowerBound t.values x, x) := by
    funext x
    rcases t.locate hv hmn hmx x with h | ⟨l, hl, hf⟩ | ⟨l, v0, v1, h0, h1, h2, h3⟩
    · obtain ⟨p, hp, _, hz⟩ := C34_pdf t hv x
      rw [hG x] at hp
      cases hp
      rw [if_pos h]
      exact hz mn mx (front_eq_ok.mpr hmn) (back_eq_ok.mpr hmx) h
    · have hlt := lt_length_of_some hl
      obtain ⟨p, hp⟩ := getElem?_of_lt (l := t.pdf) (i := l) (by omega)
      have := t.pdfAt_grid hv hl hp hf
      rw [hG x] at this
      have hlast : t.values[t.values.length - 1]? = some mx := by rw [← List.getLast?_eq_getElem?]; exact hmx
      have a1 := pairwise_le_getElem? hs (Nat.zero_le _) hmn hl
      have a2 := pairwise_le_getElem? hs (by omega) hl hlast
      have hlb : lowerBound t.values x = l := by
        have b1 := mt (lowerBound_iff hs x hl).mpr (lt_irrefl _)
        by_contra hc
        obtain ⟨v, hv'⟩ := getElem?_of_lt (l := t.values) (i := lowerBound t.values x) (by omega)
        have b2 := (lowerBound_iff hs x hv').mp (hf _ (by omega) v hv')
        omega
      rw [if_neg (by rw [not_or, not_lt, not_lt]; exact ⟨a1, a2⟩), hlb, hD]
      dsimp only
      rw [List.getD_eq_getElem?_getD, hl, Option.getD_some, if_pos rfl, List.getD_eq_getElem?_getD, hp]
      exact Except.ok.inj this
    · have hlt := lt_length_of_some h1
      obtain ⟨p0, hp0⟩ := getElem?_of_lt (l := t.pdf) (i := l) (by omega)
      obtain ⟨p1, hp1⟩ := getElem?_of_lt (l := t.pdf) (i := l + 1) (by omega)
      have := t.pdfAt_cell hv h0 h1 hp0 hp1 h2 h3
      rw [hG x] at this
      have hlast : t.values[t.values.length - 1]? = some mx := by rw [← List.getLast?_eq_getElem?]; exact hmx
      have a1 := pairwise_le_getElem? hs (Nat.zero_le _) hmn h0
      have a2 := pairwise_le_getElem? hs (by omega) h1 hlast
      have hlb : lowerBound t.values x = l + 1 := by
        have b1 := (lowerBound_iff hs x h0).mp h2
        have b2 := mt (lowerBound_iff hs x h1).mpr (not_lt.mpr h3.le)
        omega
      rw [if_neg (by rw [not_or, not_lt, not_lt]; constructor <;> linarith), hlb, hD]
      dsimp only
      simp only [List.getD_eq_getElem?_getD, h1, h0, hp0, hp1, Option.getD_some, Nat.add_sub_cancel]
      rw [if_neg h3.ne]
      exact Except.ok.inj this
  rw [he]
  refine Measurable.ite ?_ measurable_const (hDm.comp ((measurable_lowerBound hs).prodMk measurable_id))
  exact (show MeasurableSet {x : ℝ | x < mn} from measurableSet_Iio).union (show MeasurableSet {x : ℝ | mx < x} from measurableSet_Ioi)

theorem iid_first {α : Type} [MeasurableSpace α] {g : ℝ → α} (hg : Measurable g) : Spec.iid.map (fun ω => g (ω 0)) = Spec.unif.map g := by
  refine Measure.ext fun S hS => ?_
  have hm : Measurable fun ω : Tape => g (ω 0) := hg.comp (measurable_pi_apply (X := fun _ : Nat => ℝ) 0)
  rw [Measure.map_apply hm hS, Measure.map_apply hg hS]
  exact iid_draw 0 (hg hS)

/-- Two draws, the first one outside a null set. -/
theorem closed_two {α : Type} [MeasurableSpace α] {body : ℝ → ℝ → Res α} {g : ℝ → ℝ → α} {F : Set ℝ} (hF : F.Countable) (hg : Measurable fun ω : Tape => g (ω 0) (ω 1))
    (hb : ∀ x y, 0 < x → x < 1 → x ∉ F → 0 < y → y < 1 → body x y = .ok (g x y)) :
    Closed (fun _ ω k => (body (ω k) (ω (k + 1))).map fun x => (x, k + 2)) (Spec.iid.map fun ω => g (ω 0) (ω 1)) := by
  refine closed_fixed (n := 2) (X := fun ω => g (ω 0) (ω 1)) ?_ hg (fun ω ω' h => by rw [h 0 (by omega), h 1 (by omega)]) ?_
  · intro fuel ω k
    simp only [dropT_apply, Nat.add_zero, Nat.zero_add]
    cases body (ω k) (ω (k + 1)) <;> rfl
  · have hne : ∀ᵐ ω ∂Spec.iid, ω 0 ∉ F := by
      rw [ae_iff]
      have := iid_draw 0 hF.measurableSet
      simp only [not_not]
      rw [this, Spec.unif]
      exact nonpos_iff_eq_zero.mp ((Measure.restrict_apply_le _ _).trans (hF.measure_zero volume).le)
    filter_upwards [iid_open, hne] with ω hω hn
    intro fuel
    simp only [Nat.zero_add]
    rw [hb _ _ (hω 0).1 (hω 0).2 hn (hω 1).1 (hω 1).2]
    rfl

/-! ### One table -/

open Classical in
/-- What `EnergyAngleTable::sample_angle_energy` makes of its two random numbers. -/
noncomputable def eaOne (t : EATable) (xi y : ℝ) : Res (ℝ × ℝ) := do
  let l ← subIdx (lowerBound t.cdf xi) 1
  let p0 ← getAt t.pdf l
  let flat ← (if t.interp = .histogram then .ok true else do
    let p1 ← getAt t.pdf (l + 1)
    return decide (p0 = p1) : Res Bool)
  let v0 ← getAt t.energy l
  let c0 ← getAt t.cdf l
  if flat then do
    let E ← histInterp xi v0 p0 c0
    let a ← getAt t.angles l
    let mu ← a.sample y
    return (clampMu mu, E)
  else do
    let p1 ← getAt t.pdf (l + 1)
    let v1 ← getAt t.energy (l + 1)
    let E ← linInterp xi v0 v1 p0 p1 c0
    let c1 ← getAt t.cdf (l + 1)
    let f ← rdiv (xi - c0) (c1 - c0)
    let a ← (if f < 1 / 2 then getAt t.angles l else getAt t.angles (l + 1) : Res PCTable)
    let mu ← a.sample y
    return (clampMu mu, E)

theorem res_map_bind {α β γ : Type} (x : Res α) (f : α → Res β) (g : β → γ) : (x >>= f).map g = x >>= fun a => (f a).map g := by
  cases x <;> rfl

theorem res_map_ite {α β : Type} {c : Prop} [Decidable c] (x y : Res α) (g : α → β) : (if c then x else y).map g = if c then x.map g else y.map g := by
  split_ifs <;> rfl

theorem res_map_pure {α β : Type} (x : α) (g : α → β) : (pure x : Res α).map g = pure (g x) := rfl

theorem eaOne_eq (t : EATable) (ω : Tape) (k : Nat) : t.sample ω k = (eaOne t (ω k) (ω (k + 1))).map fun q => (q.1, q.2, k + 2) := by
  unfold EATable.sample eaOne
  simp only [res_map_bind, res_map_ite, res_map_pure]

/-- An energy-angle table that describes a distribution: the cumulative values are the integrals of the densities, and the cosines
are between -1 and 1. -/
structure Spec.SoundEA (t : EATable) : Prop where
  valid : ValidEA t
  consistent : ConsistentPC (eaPC t)
  angles : ∀ a ∈ t.angles, ConsistentPC a ∧ ∃ mn mx, a.minValue = .ok mn ∧ a.maxValue = .ok mx ∧ -1 ≤ mn ∧ mx ≤ 1

open Classical in
/-- The number of the angular table used at energy `e`, given the density `G` of the energies: between two tabulated energies the lower one; if the densities there are interpolated
and differ, the upper one for the upper half of the probability of the cell. -/
def Spec.AngleIndex (t : EATable) (G : ℝ → ℝ) (j : ℝ → Nat) : Prop :=
  ∀ (l : Nat) (e0 e1 p0 p1 e : ℝ), t.energy[l]? = some e0 → t.energy[l + 1]? = some e1 → t.pdf[l]? = some p0 → t.pdf[l + 1]? = some p1 → e0 < e → e ≤ e1 →
    j e = if t.interp = .histogram ∨ p0 = p1 ∨ (∫ s in e0..e, G s) < 1 / 2 * (∫ s in e0..e1, G s) then l else l + 1

open Classical in
theorem ea_cell {t : EATable} (ht : SoundEA t) {G : ℝ → ℝ} (hG : ∀ x, (eaPC t).pdfAt x = .ok (G x)) {xi : ℝ} (h0 : 0 < xi) (h1 : xi < 1) (hn : xi ∉ t.cdf) :
    ∃ (l : Nat) (v0 v1 p0 p1 x : ℝ), t.energy[l]? = some v0 ∧ t.energy[l + 1]? = some v1 ∧ t.pdf[l]? = some p0 ∧ t.pdf[l + 1]? = some p1 ∧
      v0 < x ∧ x ≤ v1 ∧ (eaPC t).sample xi = .ok x ∧ ∀ y, eaOne t xi y = (do
        let a ← getAt t.angles (if t.interp = .histogram ∨ p0 = p1 ∨ (∫ s in v0..x, G s) < 1 / 2 * (∫ s in v0..v1, G s) then l else l + 1)
        let mu ← a.sample y
        return (clampMu mu, x)) := by
  have hv := ht.valid
  rcases PCTable.sample_cases hv.pc hv.start h0.le h1.le with ⟨l, v, hc, _, _⟩ | ⟨l, v0, v1, p0, p1, c0, c1, a1, a2, a3, a4, a5, a6, a7, a8, a9⟩
  · exact absurd (List.mem_of_getElem? hc) hn
  have hle : v0 ≤ v1 := pairwise_le_getElem? hv.pc.values_sorted (Nat.le_succ l) a1 a2
  have n0 := hv.pc.pdf_nonneg p0 (List.mem_of_getElem? a3)
  have n1 := hv.pc.pdf_nonneg p1 (List.mem_of_getElem? a4)
  have hstep := ht.consistent.step l v0 v1 p0 p1 c0 c1 a1 a2 a3 a4 a5 a6
  obtain ⟨x, b1, b2, b3, b4⟩ := cell_ok (r := (eaPC t).interp) hle n0 n1 a7 a8.le hstep.le
  have i1 := (PCTable.integral_cell hv.pc G hG a1 a2 a3 a4 b2 b3).2
  have i2 := (PCTable.integral_cell hv.pc G hG a1 a2 a3 a4 hle le_rfl).2
  rw [b4] at i1
  rw [cellInt_right, ← hstep] at i2
  have hx : v0 < x := by
    refine lt_of_le_of_ne b2 fun h => ?_
    rw [← h, intervalIntegral.integral_same] at i1
    linarith
  refine ⟨l, v0, v1, p0, p1, x, a1, a2, a3, a4, hx, b3, a9.trans b1, fun y => ?_⟩
  obtain ⟨_, hlb⟩ := lowerBound_partition (l := t.cdf) (x := xi) (by
    intro i j a b hij ha hb hb2
    rcases min_le_iff.mp (hv.pc.cdf_sorted i j a b hij ha hb) with h | h <;> linarith)
  have hl : lowerBound t.cdf xi = l + 1 := by
    have q1 := (hlb l c0 a5).mp a7
    have q2 := mt (hlb (l + 1) c1 a6).mpr (not_lt.mpr a8.le)
    omega
  have a1' : t.energy[l]? = some v0 := a1
  have a2' : t.energy[l + 1]? = some v1 := a2
  have a3' : t.pdf[l]? = some p0 := a3
  have a4' : t.pdf[l + 1]? = some p1 := a4
  have a5' : t.cdf[l]? = some c0 := a5
  have a6' : t.cdf[l + 1]? = some c1 := a6
  have b1' : cellSample t.interp xi v0 v1 p0 p1 c0 = .ok x := b1
  rw [i1, i2]
  unfold eaOne
  rw [hl, subIdx_of_le (by omega)]
  unfold cellSample at b1'
  simp only [bind, Except.bind, Nat.add_sub_cancel, getAt_eq_ok.mpr a3', getAt_eq_ok.mpr a4', getAt_eq_ok.mpr a1', getAt_eq_ok.mpr a2', getAt_eq_ok.mpr a5', getAt_eq_ok.mpr a6']
  by_cases hh : t.interp = .histogram
  · rw [if_pos hh, if_pos (Or.inl hh)]
    rw [if_pos (Or.inl hh)] at b1'
    simp only [if_true, b1']
  rw [if_neg hh]
  simp only [pure, Except.pure]
  by_cases hp : p0 = p1
  · rw [if_pos (Or.inr hp)] at b1'
    rw [if_pos (Or.inr (Or.inl hp)), if_pos (by simp [hp])]
    simp only [b1']
  · rw [if_neg (by rw [not_or]; exact ⟨hh, hp⟩)] at b1'
    rw [if_neg (by simp [hp])]
    have hd : 0 < c1 - c0 := by linarith
    simp only [b1', rdiv_ok hd.ne']
    by_cases hf : (xi - c0) / (c1 - c0) < 1 / 2
    · rw [if_pos hf, if_pos (Or.inr (Or.inr ((div_lt_iff₀ hd).mp hf)))]
    · rw [if_neg hf, if_neg (by rw [not_or, not_or]; exact ⟨hh, hp, fun h => hf ((div_lt_iff₀ hd).mpr h)⟩)]

open Classical in
/-- There is such a numbering, and it is measurable. -/
theorem angleIndex_exists {t : EATable} (hv : ValidEA t) {G : ℝ → ℝ} (hG : ∀ x, (eaPC t).pdfAt x = .ok (G x)) (hi : ∀ a b, IntervalIntegrable G volume a b) :
    ∃ j : ℝ → Nat, Measurable j ∧ AngleIndex t G j := by
  have hs : t.energy.Pairwise (· ≤ ·) := hv.pc.values_sorted
  obtain ⟨J, hJ⟩ : ∃ J : Nat × ℝ → Nat, J = fun p => if t.interp = .histogram ∨ t.pdf.getD (p.1 - 1) 0 = t.pdf.getD p.1 0 ∨
      p.2 < (∫ s in (0)..(t.energy.getD (p.1 - 1) 0), G s) + 1 / 2 * (∫ s in (t.energy.getD (p.1 - 1) 0)..(t.energy.getD p.1 0), G s) then p.1 - 1 else p.1 := ⟨_, rfl⟩
  have hJm : Measurable J := by
    rw [hJ]
    refine measurable_from_prod_countable_right fun n => ?_
    dsimp only
    refine Measurable.ite ?_ measurable_const measurable_const
    by_cases h1 : t.interp = .histogram
    · simp [h1]
    by_cases h2 : t.pdf.getD (n - 1) 0 = t.pdf.getD n 0
    · simp only [h2, true_or, or_true]
      exact MeasurableSet.univ
    · simp only [h1, h2, false_or]
      exact measurableSet_Iio
  have hC : Measurable fun e : ℝ => ∫ s in (0)..e, G s := (intervalIntegral.continuous_primitive hi 0).measurable
  refine ⟨fun e => J (lowerBound t.energy e, ∫ s in (0)..e, G s), hJm.comp ((measurable_lowerBound hs).prodMk hC), ?_⟩
  intro l e0 e1 p0 p1 e h0 h1 h2 h3 h4 h5
  have hl : lowerBound t.energy e = l + 1 := by
    have b1 := (lowerBound_iff hs e h0).mp h4
    have b2 := mt (lowerBound_iff hs e h1).mpr (not_lt.mpr h5)
    omega
  dsimp only
  rw [hl, hJ]
  simp only [List.getD_eq_getElem?_getD, h1, h0, h2, h3, Option.getD_some, Nat.add_sub_cancel]
  have e3 : ∫ s in (0)..e, G s = (∫ s in (0)..e0, G s) + ∫ s in e0..e, G s := (intervalIntegral.integral_add_adjacent_intervals (hi _ _) (hi _ _)).symm
  rw [e3]
  have : ((∫ s in (0)..e0, G s) + (∫ s in e0..e, G s) < (∫ s in (0)..e0, G s) + 1 / 2 * ∫ s in e0..e1, G s) ↔ (∫ s in e0..e, G s) < 1 / 2 * ∫ s in e0..e1, G s :=
    add_lt_add_iff_left _
  simp only [this]

/-- A density that vanishes outside its interval is integrable everywhere. -/
theorem integrable_all {G : ℝ → ℝ} {mn mx : ℝ} (hle : mn ≤ mx) (hG : IntervalIntegrable G volume mn mx) (hz : ∀ x, x < mn ∨ mx < x → G x = 0) (a b : ℝ) :
    IntervalIntegrable G volume a b := by
  have h1 : IntegrableOn G (Icc mn mx) volume := (intervalIntegrable_iff_integrableOn_Icc_of_le hle).mp hG
  have h2 : Integrable G volume := by
    have := (integrable_indicator_iff measurableSet_Icc).mpr h1
    refine this.congr (Filter.Eventually.of_forall fun x => ?_)
    by_cases hx : x ∈ Icc mn mx
    · rw [indicator_of_mem hx]
    · rw [indicator_of_notMem hx]
      rw [mem_Icc, not_and_or, not_le, not_le] at hx
      exact (hz x hx).symm
  exact h2.intervalIntegrable

theorem measurable_index {q : Nat → ℝ → ℝ} (hq : ∀ i, Measurable (q i)) {j : ℝ → Nat} (hj : Measurable j) : Measurable fun p : ℝ × ℝ => q (j p.2) p.1 :=
  (measurable_from_prod_countable_right (f := fun p : Nat × ℝ => q p.1 p.2) hq).comp ((hj.comp measurable_snd).prodMk measurable_fst)

/-- What `TabularEnergyAngle::sample_angle_energy` does with the table it has chosen. -/
noncomputable def eaStretch (t : EATable) (mn mx lo hi x y : ℝ) : Res (ℝ × ℝ) := do
  let p ← eaOne t x y
  let u ← rdiv (p.2 - mn) (mx - mn)
  return (p.1, lo + u * (hi - lo))

theorem ea_law {t : EATable} (ht : SoundEA t) : ∃ (mn mx : ℝ) (G : ℝ → ℝ) (q : Nat → ℝ → ℝ) (j : ℝ → Nat), t.minEnergy = .ok mn ∧ t.maxEnergy = .ok mx ∧ mn < mx ∧
    (∀ x, (eaPC t).pdfAt x = .ok (G x) ∧ 0 ≤ G x) ∧ (∀ (i : Nat) a, t.angles[i]? = some a → ∀ mu, a.pdfAt mu = .ok (q i mu)) ∧ (∀ i mu, 0 ≤ q i mu) ∧ AngleIndex t G j ∧
    Closed (fun _ ω k => (eaOne t (ω k) (ω (k + 1))).map fun x => (x, k + 2)) (jointLaw mn mx fun mu e => G e * q (j e) mu) ∧
    ∀ lo hi, lo < hi →
      AEMeasurable (fun x : ℝ × ℝ => (mx - mn) / (hi - lo) * (G ((x.2 - lo) / (hi - lo) * (mx - mn) + mn) *
        q (j ((x.2 - lo) / (hi - lo) * (mx - mn) + mn)) x.1)) (volume.restrict (Icc (-1) 1 ×ˢ Icc lo hi)) ∧
      Closed (fun _ ω k => (eaStretch t mn mx lo hi (ω k) (ω (k + 1))).map fun x => (x, k + 2))
        (jointLaw lo hi fun mu e => (mx - mn) / (hi - lo) * (G ((e - lo) / (hi - lo) * (mx - mn) + mn) * q (j ((e - lo) / (hi - lo) * (mx - mn) + mn)) mu)) := by
  obtain ⟨mn, mx, G, h, i1, i2, i3, i4, i5, i6, i7, i8, i9, i10⟩ := pctable_law (eaPC t) ht.valid.pc ht.consistent
  have hw : mn < mx := ht.consistent.toCovered.min_lt_max ht.valid.pc (front_eq_ok.mp i1) (back_eq_ok.mp i2)
  have hall := integrable_all i3 i6 i5
  obtain ⟨j, mj, hj⟩ := angleIndex_exists ht.valid (fun x => (i4 x).1) hall
  -- the angular tables
  have hang : ∀ i : Nat, ∃ (q s : ℝ → ℝ), Measurable q ∧ Measurable s ∧ (∀ mu, 0 ≤ q mu) ∧ ∀ a, t.angles[i]? = some a →
      (∀ mu, a.pdfAt mu = .ok (q mu)) ∧ (∀ y, 0 ≤ y → y ≤ 1 → a.sample y = .ok (s y) ∧ -1 ≤ s y ∧ s y ≤ 1) ∧ Spec.unif.map s = densityOn (-1) 1 q := by
    intro i
    by_cases hi : i < t.angles.length
    · obtain ⟨a, ha⟩ := getElem?_of_lt hi
      have hm := List.mem_of_getElem? ha
      obtain ⟨hc, mn', mx', b1, b2, b3, b4⟩ := ht.angles a hm
      have hva := ht.valid.angles a hm
      obtain ⟨mn'', mx'', q, s, k1, k2, k3, k4, k5, k6, k7, k8, k9, k10⟩ := pctable_law a hva hc
      rw [b1] at k1
      rw [b2] at k2
      cases k1
      cases k2
      refine ⟨q, s, pdfAt_measurable hva fun x => (k4 x).1, k8, fun mu => (k4 mu).2, fun a' ha' => ?_⟩
      rw [ha] at ha'
      cases ha'
      refine ⟨fun mu => (k4 mu).1, fun y y0 y1 => ⟨(k9 y y0 y1).1, by linarith [(k9 y y0 y1).2.1], by linarith [(k9 y y0 y1).2.2]⟩, ?_⟩
      rw [k10, densityOn_extend b3 b4 k5]
    · exact ⟨fun _ => 0, fun _ => 0, measurable_const, measurable_const, fun _ => le_rfl, fun a ha => absurd (lt_length_of_some ha) hi⟩
  choose q s mq ms nq hqs using hang
  have hcm : Measurable fun p : ℝ × Tape => s (j (h p.1)) (p.2 0) :=
    (measurable_from_prod_countable_right (f := fun p : Nat × ℝ => s p.1 p.2) ms).comp
      (((mj.comp i8).comp measurable_fst).prodMk ((measurable_pi_apply (X := fun _ : Nat => ℝ) 0).comp measurable_snd))
  have hfin : {x | x ∈ t.cdf}.Countable := (List.finite_toSet t.cdf).countable
  -- the chosen table
  have hpick : ∀ xi, 0 < xi → xi < 1 → xi ∉ t.cdf → ∃ a, t.angles[j (h xi)]? = some a ∧ ∀ y, eaOne t xi y = (do let mu ← a.sample y; return (clampMu mu, h xi)) := by
    intro xi x0 x1 hn
    obtain ⟨l, v0, v1, p0, p1, x, a1, a2, a3, a4, a5, a6, a7, a8⟩ := ea_cell ht (fun x => (i4 x).1) x0 x1 hn
    have hx : h xi = x := by
      have := (i9 xi x0.le x1.le).1
      rw [a7] at this
      exact (Except.ok.inj this).symm
    rw [hx, hj l v0 v1 p0 p1 x a1 a2 a3 a4 a5 a6]
    have hlt := lt_length_of_some a2
    have hlA := ht.valid.lenA
    obtain ⟨a, ha⟩ := getElem?_of_lt (l := t.angles) (i := if t.interp = .histogram ∨ p0 = p1 ∨ (∫ s in v0..x, G s) < 1 / 2 * (∫ s in v0..v1, G s) then l else l + 1)
      (by split_ifs <;> omega)
    refine ⟨a, ha, fun y => ?_⟩
    rw [a8 y, getAt_eq_ok.mpr ha]
    rfl
  have hcond : ∀ᵐ xi ∂Spec.unif, Spec.iid.map (fun ω => (fun p : ℝ × Tape => s (j (h p.1)) (p.2 0)) (xi, ω)) = densityOn (-1) 1 ((fun e => q (j e)) (h xi)) := by
    have hae : ∀ᵐ xi ∂Spec.unif, 0 < xi ∧ xi < 1 ∧ xi ∉ t.cdf := by
      rw [Spec.unif]
      have e0 : ∀ᵐ x : ℝ ∂volume, x ∉ ({0, 1} : Set ℝ) ∪ {x | x ∈ t.cdf} := ((Set.toFinite {0, 1}).countable.union hfin).ae_notMem volume
      filter_upwards [ae_restrict_mem measurableSet_Icc, ae_restrict_of_ae e0] with x hx hn
      simp only [mem_union, mem_insert_iff, mem_singleton_iff, Set.mem_ofPred_eq, not_or] at hn
      exact ⟨lt_of_le_of_ne hx.1 (Ne.symm hn.1.1), lt_of_le_of_ne hx.2 hn.1.2, hn.2⟩
    filter_upwards [hae] with xi hx
    obtain ⟨a, ha, _⟩ := hpick xi hx.1 hx.2.1 hx.2.2
    exact (iid_first (ms (j (h xi)))).trans (hqs _ a ha).2.2
  have hbody : ∀ x y, 0 < x → x < 1 → x ∉ {x | x ∈ t.cdf} → 0 < y → y < 1 → eaOne t x y = .ok (s (j (h x)) y, h x) := by
    intro x y x0 x1 hn y0 y1
    obtain ⟨a, ha, he⟩ := hpick x x0 x1 hn
    obtain ⟨c1, c2, c3⟩ := (hqs _ a ha).2.1 y y0.le y1.le
    rw [he y, c1]
    simp only [bind, Except.bind, clampMu_of_mem c2 c3]
    rfl
  have hm1 : Measurable fun ω : Tape => s (j (h (ω 0))) (ω 1) := (measurable_from_prod_countable_right (f := fun p : Nat × ℝ => s p.1 p.2) ms).comp
      (((mj.comp i8).comp (measurable_pi_apply (X := fun _ : Nat => ℝ) 0)).prodMk (measurable_pi_apply (X := fun _ : Nat => ℝ) 1))
  have hm2 : Measurable fun ω : Tape => h (ω 0) := i8.comp (measurable_pi_apply (X := fun _ : Nat => ℝ) 0)
  refine ⟨mn, mx, G, q, j, i1, i2, hw, i4, fun i a ha => (hqs i a ha).1, nq, hj, ?_, fun lo hi hlh => ?_⟩
  · have hd := joint_draw (c := fun p : ℝ × Tape => s (j (h p.1)) (p.2 0)) (K := fun e => q (j e)) i8 (pdfAt_measurable ht.valid.pc fun x => (i4 x).1).aemeasurable
      (fun x _ _ => (i4 x).2) i10 hcm (measurable_index mq mj) hcond
    simp only [dropT_apply, Nat.add_zero] at hd
    rw [← hd]
    exact closed_two (body := eaOne t) (g := fun x y => (s (j (h x)) y, h x)) hfin (hm1.prodMk hm2) hbody
  · obtain ⟨k1, k2⟩ := joint_stretch (c := fun p : ℝ × Tape => s (j (h p.1)) (p.2 0)) (K := fun e => q (j e)) hw hlh i8 i6
      (fun x => (i4 x).2) i10 hcm (measurable_index mq mj) hcond
    simp only [dropT_apply, Nat.add_zero, mul_assoc] at k1 k2
    refine ⟨k2, ?_⟩
    rw [← k1]
    refine closed_two (body := eaStretch t mn mx lo hi) (g := fun x y => (s (j (h x)) y, lo + (h x - mn) / (mx - mn) * (hi - lo))) hfin
      (hm1.prodMk ((show Measurable fun x : ℝ => lo + (x - mn) / (mx - mn) * (hi - lo) by fun_prop).comp hm2)) fun x y x0 x1 hn y0 y1 => ?_
    unfold eaStretch
    rw [hbody x y x0 x1 hn y0 y1]
    simp only [bind, Except.bind, rdiv_ok (show mx - mn ≠ 0 by linarith)]
    rfl

/-- **C114**, one table: the energies of `EnergyAngleTable::sample_angle_energy` have the tabulated density, and the cosine, given
the energy, the density of the angular table chosen: the one of the lower end of the cell, and for an interpolated density that is
not constant in it the one of the upper end for the upper half of the probability of the cell. -/
theorem C114_table (t : EATable) (ht : SoundEA t) : ∃ (mn mx : ℝ) (G : ℝ → ℝ) (q : Nat → ℝ → ℝ) (j : ℝ → Nat), t.minEnergy = .ok mn ∧ t.maxEnergy = .ok mx ∧ mn < mx ∧
    (∀ x, (eaPC t).pdfAt x = .ok (G x)) ∧ (∀ (i : Nat) a, t.angles[i]? = some a → ∀ mu, a.pdfAt mu = .ok (q i mu)) ∧ AngleIndex t G j ∧
    ∀ k, Samples (fun (_ : Nat) ω => asPair (t.sample ω k)) (jointLaw mn mx fun mu e => G e * q (j e) mu) := by
  obtain ⟨mn, mx, G, q, j, h1, h2, h3, h4, h5, _, h6, h7, _⟩ := ea_law ht
  refine ⟨mn, mx, G, q, j, h1, h2, h3, fun x => (h4 x).1, h5, h6, fun k => ?_⟩
  have := (h7.of_eq (run' := fun _ ω k => asPair (t.sample ω k)) fun fuel ω k => by
    rw [eaOne_eq]
    unfold asPair
    cases eaOne t (ω k) (ω (k + 1)) <;> rfl).samples k
  exact this

end PNDL
