import Verif.Props.SvtLaw

/-! C120: the law of the target velocities kept by the Doppler broadening rejection correction (src/elastic_dbrc.cpp). -/
namespace PNDL
open MeasureTheory Spec Set
open scoped ENNReal Real

/-! ### The cross section as a function of the energy is measurable -/

theorem measurable_bisect (l : List ℝ) : ∀ (fuel lo len : Nat), Measurable fun x : ℝ => bisect (fun a => decide (a < x)) l fuel lo len := by
  intro fuel
  induction fuel with
  | zero => intro lo len; exact measurable_const
  | succ fuel ih =>
    intro lo len
    by_cases h0 : len = 0
    · simp only [bisect, if_pos h0]; exact measurable_const
    · simp only [bisect, if_neg h0]
      cases h : l[lo + len / 2]? with
      | none => exact measurable_const
      | some a =>
        simp only [decide_eq_true_eq]
        exact Measurable.ite measurableSet_Ioi (ih _ _) (ih _ _)

/-- The number a call returns, zero if it returns none. -/
def okVal (r : Res ℝ) : ℝ := match r with | .ok v => v | .error _ => 0

/-- The linear formula with the result of the search fixed. -/
noncomputable def xsCell (s : XS ℝ) (l : Nat) (E : ℝ) : Res ℝ := do
    let i ← subIdx (l - s.index) 1
    let El ← getAt s.grid (s.index + i)
    let Eh ← getAt s.grid (s.index + i + 1)
    let sl ← getAt s.values i
    let sh ← getAt s.values (i + 1)
    xsLin E El Eh sl sh

/-- What is returned for a given result of the search. -/
noncomputable def xsAt (s : XS ℝ) (l : Nat) (E : ℝ) : Res ℝ := do
  let v ← getAt s.grid l
  if E = v then getAt s.values (l - s.index) else xsCell s l E

theorem measurable_xsCell (s : XS ℝ) (l : Nat) : Measurable fun E => okVal (xsCell s l E) := by
  unfold xsCell
  cases subIdx (l - s.index) 1 with
  | error e => exact measurable_const
  | ok i =>
    simp only [bind, Except.bind]
    cases getAt s.grid (s.index + i) with
    | error e => exact measurable_const
    | ok El =>
      cases getAt s.grid (s.index + i + 1) with
      | error e => exact measurable_const
      | ok Eh =>
        cases getAt s.values i with
        | error e => exact measurable_const
        | ok sl =>
          cases getAt s.values (i + 1) with
          | error e => exact measurable_const
          | ok sh =>
            by_cases hd : Eh - El = 0
            · have : ∀ E : ℝ, okVal (xsLin E El Eh sl sh) = 0 := by
                intro E
                unfold xsLin
                rw [show cdiv (E - El) (Eh - El) = .error .nonfinite by unfold cdiv; rw [if_pos hd]]
                rfl
              simp only [this]
              exact measurable_const
            · have : ∀ E : ℝ, okVal (xsLin E El Eh sl sh) = (E - El) / (Eh - El) * (sh - sl) + sl := by
                intro E
                unfold xsLin
                rw [cdiv_of_ne hd]
                rfl
              simp only [this]
              fun_prop

theorem measurable_xsAt (s : XS ℝ) (l : Nat) : Measurable fun E => okVal (xsAt s l E) := by
  unfold xsAt
  cases getAt s.grid l with
  | error e => exact measurable_const
  | ok v =>
    have : ∀ E : ℝ, okVal (do let v ← (Except.ok v : Res ℝ); if E = v then getAt s.values (l - s.index) else xsCell s l E) =
        if E = v then okVal (getAt s.values (l - s.index)) else okVal (xsCell s l E) := by
      intro E
      simp only [bind, Except.bind]
      by_cases h : E = v
      · rw [if_pos h, if_pos h]
      · rw [if_neg h, if_neg h]
    simp only [this]
    exact Measurable.ite (measurableSet_singleton v) measurable_const (measurable_xsCell s l)

theorem measurable_eval (s : XS ℝ) : Measurable fun E => okVal (s.eval E) := by
  cases hsg : s.single with
  | true =>
    simp only [XS.eval, hsg, if_true, XS.evalSingle]
    cases front s.grid with
    | error e => exact measurable_const
    | ok e0 =>
      have : (fun E : ℝ => okVal (do let e0 ← (Except.ok e0 : Res ℝ); if E < e0 then .ok 0 else front s.values)) =
          fun E : ℝ => if E < e0 then (0 : ℝ) else okVal (front s.values) := by
        funext E
        simp only [bind, Except.bind]
        by_cases h : E < e0
        · rw [if_pos h, if_pos h]; rfl
        · rw [if_neg h, if_neg h]
      rw [this]
      exact Measurable.ite measurableSet_Iio measurable_const measurable_const
  | false =>
    cases h1 : getAt s.grid s.index with
    | error e =>
      have : (fun E : ℝ => okVal (s.eval E)) = fun _ => 0 := by
        funext E
        simp only [XS.eval, hsg, h1, bind, Except.bind]
        rfl
      rw [this]; exact measurable_const
    | ok et =>
      cases h2 : back s.grid with
      | error e =>
        have : (fun E : ℝ => okVal (s.eval E)) = fun _ => 0 := by
          funext E
          simp only [XS.eval, hsg, h1, h2, bind, Except.bind]
          by_cases h : E < et
          · simp only [if_pos h]; rfl
          · simp only [if_neg h]; rfl
        rw [this]; exact measurable_const
      | ok mx =>
        have hsel : Measurable fun p : Nat × ℝ => okVal (xsAt s p.1 p.2) := measurable_from_prod_countable_right (measurable_xsAt s)
        have hidx : Measurable fun E : ℝ => lowerBoundRange s.grid s.index s.grid.length E := measurable_bisect s.grid _ _ _
        have : (fun E : ℝ => okVal (s.eval E)) = fun E => if E < et then 0 else if E ≥ mx then okVal (back s.values) else
            okVal (xsAt s (lowerBoundRange s.grid s.index s.grid.length E) E) := by
          funext E
          simp only [XS.eval, hsg, h1, h2, bind, Except.bind, Bool.false_eq_true, if_false]
          by_cases h : E < et
          · simp only [if_pos h]; rfl
          · simp only [if_neg h]
            by_cases h' : E ≥ mx
            · simp only [if_pos h']
            · simp only [if_neg h']
              rfl
        rw [this]
        exact Measurable.ite measurableSet_Iio measurable_const (Measurable.ite measurableSet_Ici measurable_const (hsel.comp (hidx.prodMk measurable_id)))

/-! ### The loop -/

/-- The energy of the relative motion. -/
noncomputable def Spec.relEnergy (E : ℝ) (v : Vec) : ℝ := v.x ^ 2 + v.y ^ 2 + (v.z - Real.sqrt E) ^ 2

theorem measurable_relEnergy (E : ℝ) : Measurable (relEnergy E) := by
  unfold relEnergy
  have hx := measurable_x
  have hy := measurable_y
  have hz := measurable_z
  fun_prop

theorem rel_dot (E : ℝ) (v : Vec) : ((Vec.mk 0 0 (Real.sqrt E)).sub v).dot ((Vec.mk 0 0 (Real.sqrt E)).sub v) = relEnergy E v := by
  unfold Vec.dot Vec.sub relEnergy; simp only; ring

/-- A sampler that draws nothing. -/
theorem closed_pure {α : Type} [MeasurableSpace α] (a : α) : Closed (fun (_ : Nat) (_ : Tape) (k : Nat) => (.ok (a, k) : Res (α × Nat))) (Measure.dirac a) := by
  refine ⟨fun fuel ω k => rfl, fun _ => a, fun _ => 0, measurable_const, measurable_const, Filter.Eventually.of_forall fun ω => Returns.const rfl, ?_⟩
  simp only [dropT_zero]
  exact ⟨measurable_const.prodMk measurable_id, by rw [Measure.dirac_prod]⟩

theorem lintegral_velocityLaw {w : Vec → ℝ} (hw : Measurable w) {f : Vec → ℝ≥0∞} (hf : Measurable f) :
    ∫⁻ v, f v ∂velocityLaw w = (∫⁻ v, ENNReal.ofReal (w v) ∂vecVolume)⁻¹ * ∫⁻ v, ENNReal.ofReal (w v) * f v ∂vecVolume := by
  rw [velocityLaw, lintegral_smul_measure, smul_eq_mul, lintegral_withDensity_eq_lintegral_mul _ hw.ennreal_ofReal hf]
  simp only [Pi.mul_apply]

/-- The law of the rejection loop around any sampler of velocities: with `σ` the looked-up cross section and `M` the constant it is compared with,
the velocities kept have the law of the sampler weighted by the smaller of `σ` and `M` at the relative energy, within the window. -/
theorem dbrc_loop {g : EGrid} {s : XS ℝ} {E kT awr lo hi M : ℝ} {σ : ℝ → ℝ} {w : Vec → ℝ} (hw : Measurable w) (hw0 : ∀ v, 0 ≤ w v)
    (hsvt : Closed (fun fuel ω k => svtSample fuel E kT awr ω k) (velocityLaw w)) (hσ : Measurable σ)
    (hev : ∀ e, lo ≤ e → e ≤ hi → ∃ i, g.lowerIndex e = .ok i ∧ s.evalIdx e i = .ok (σ e)) (hM0 : 0 < M)
    (hpos : ∫⁻ v in {v | lo ≤ relEnergy E v ∧ relEnergy E v ≤ hi}, ENNReal.ofReal (min (σ (relEnergy E v)) M / M) ∂velocityLaw w ≠ 0) :
    Closed (fun fuel ω k => dbrcLoop g s E kT awr (Real.sqrt E) lo hi M fuel ω fuel k)
      (velocityLaw fun v => if lo ≤ relEnergy E v ∧ relEnergy E v ≤ hi then w v * min (σ (relEnergy E v)) M else 0) := by
  classical
  have hκ := hsvt.prob
  obtain ⟨κ, hκd⟩ : ∃ κ, κ = velocityLaw w := ⟨_, rfl⟩
  rw [← hκd] at hsvt hpos hκ
  obtain ⟨B, hB⟩ : ∃ B : Set Vec, B = {v | lo ≤ relEnergy E v ∧ relEnergy E v ≤ hi} := ⟨_, rfl⟩
  have hBi : ∀ v, v ∈ B ↔ lo ≤ relEnergy E v ∧ relEnergy E v ≤ hi := fun v => by rw [hB]; exact Iff.rfl
  have mB : MeasurableSet B := by
    rw [hB]
    exact (measurableSet_le measurable_const (measurable_relEnergy E)).inter (measurableSet_le (measurable_relEnergy E) measurable_const)
  rw [← hB] at hpos
  -- one attempt
  have c2 : Closed (fun (_ : Nat) (ω : Tape) (k : Nat) => ((Except.ok (ω k) : Res ℝ)).map fun x => (x, k + 1)) (Spec.unif.map id) :=
    closed_one (g := fun x => .ok x) measurable_id fun _ _ _ => rfl
  rw [Measure.map_id] at c2
  have hatt := closed_bind hsvt (Draws.ite mB (c2.lift (κ.restrict B)) ((closed_pure (0 : ℝ)).lift (κ.restrict Bᶜ)))
  obtain ⟨att, hattd⟩ : ∃ att : Nat → Tape → Nat → Res ((Vec × ℝ) × Nat), att = fun fuel ω k => (do
    let r ← svtSample fuel E kT awr ω k
    let s ← (if r.1 ∈ B then (fun (_ : Nat) (ω : Tape) (k : Nat) => ((Except.ok (ω k) : Res ℝ)).map fun x => (x, k + 1)) else
      (fun (_ : Nat) (_ : Tape) (k : Nat) => (.ok ((0 : ℝ), k) : Res (ℝ × Nat)))) fuel ω r.2
    return ((r.1, s.1), s.2)) := ⟨_, rfl⟩
  have hatt' : Closed att ((κ.restrict B).prod Spec.unif + (κ.restrict Bᶜ).prod (Measure.dirac 0)) := by
    refine hatt.of_eq (run' := att) fun fuel ω k => ?_
    rw [hattd]
  obtain ⟨μ, hμ⟩ : ∃ μ, μ = (κ.restrict B).prod Spec.unif + (κ.restrict Bᶜ).prod (Measure.dirac (0 : ℝ)) := ⟨_, rfl⟩
  rw [← hμ] at hatt'
  obtain ⟨A, hA⟩ : ∃ A : Set (Vec × ℝ), A = {q | q.1 ∈ B ∧ q.2 * M < σ (relEnergy E q.1)} := ⟨_, rfl⟩
  have mA : MeasurableSet A := by
    rw [hA]
    exact (measurable_fst mB).inter (measurableSet_lt (measurable_snd.mul_const M) ((hσ.comp (measurable_relEnergy E)).comp measurable_fst))
  have hsec : ∀ p : ℝ, Spec.unif {x | x * M < p} = ENNReal.ofReal (min p M / M) := by
    intro p
    have e : {x : ℝ | x * M < p} = {x | x < p / M} := by
      ext x
      simp only [mem_ofPred_eq]
      rw [lt_div_iff₀ hM0]
    rw [e, Spec.unif, Measure.restrict_apply (show MeasurableSet {x : ℝ | x < p / M} from measurableSet_Iio)]
    by_cases hp : p ≤ M
    · have q1 : p / M ≤ 1 := by rwa [div_le_one hM0]
      have : {x : ℝ | x < p / M} ∩ Icc 0 1 = Ico 0 (p / M) := by
        ext x
        simp only [mem_inter_iff, mem_ofPred_eq, mem_Icc, mem_Ico]
        constructor
        · rintro ⟨a, b, _⟩; exact ⟨b, a⟩
        · rintro ⟨a, b⟩; exact ⟨b, a, by linarith⟩
      rw [this, Real.volume_Ico, sub_zero, min_eq_left hp]
    · have hp : M < p := not_le.mp hp
      have q1 : 1 < p / M := by rwa [one_lt_div hM0]
      have : {x : ℝ | x < p / M} ∩ Icc 0 1 = Icc 0 1 := by
        ext x
        simp only [mem_inter_iff, mem_ofPred_eq, mem_Icc]
        exact ⟨fun h => h.2, fun h => ⟨by linarith, h⟩⟩
      rw [this, Real.volume_Icc, sub_zero, min_eq_right hp.le, div_self hM0.ne']
  have hAf : ∀ f : Vec → ℝ≥0∞, Measurable f → ∫⁻ v, f v ∂(μ.restrict A).map Prod.fst = ∫⁻ v in B, ENNReal.ofReal (min (σ (relEnergy E v)) M / M) * f v ∂κ := by
    intro f hf
    have hm : Measurable fun q : Vec × ℝ => A.indicator (fun a => f a.1) q := (hf.comp measurable_fst).indicator mA
    rw [lintegral_map hf measurable_fst, ← lintegral_indicator mA, hμ, lintegral_add_measure, lintegral_prod _ hm.aemeasurable, lintegral_prod _ hm.aemeasurable]
    have z2 : ∫⁻ v, ∫⁻ x, A.indicator (fun a => f a.1) (v, x) ∂Measure.dirac (0 : ℝ) ∂κ.restrict Bᶜ = 0 := by
      rw [← lintegral_zero (μ := κ.restrict Bᶜ)]
      refine setLIntegral_congr_fun mB.compl fun v hv => ?_
      have : ∀ x : ℝ, A.indicator (fun a => f a.1) (v, x) = 0 := fun x => indicator_of_notMem (by rw [hA]; exact fun h => hv h.1) _
      simp only [this]
      simp
    rw [z2, add_zero]
    refine setLIntegral_congr_fun mB fun v hv => ?_
    have : ∀ x : ℝ, A.indicator (fun a => f a.1) (v, x) = {x : ℝ | x * M < σ (relEnergy E v)}.indicator (fun _ => f v) x := by
      intro x
      rw [hA]
      by_cases h : x * M < σ (relEnergy E v)
      · rw [indicator_of_mem (show (v, x) ∈ {q : Vec × ℝ | q.1 ∈ B ∧ q.2 * M < σ (relEnergy E q.1)} from ⟨hv, h⟩),
          indicator_of_mem (show x ∈ {x : ℝ | x * M < σ (relEnergy E v)} from h)]
      · rw [indicator_of_notMem (show (v, x) ∉ {q : Vec × ℝ | q.1 ∈ B ∧ q.2 * M < σ (relEnergy E q.1)} from fun hh => h hh.2),
          indicator_of_notMem (show x ∉ {x : ℝ | x * M < σ (relEnergy E v)} from h)]
    simp only [this]
    rw [lintegral_indicator (show MeasurableSet {x : ℝ | x * M < σ (relEnergy E v)} from measurableSet_lt (measurable_id.mul_const M) measurable_const),
      setLIntegral_const, mul_comm, hsec]
  have hpos' : μ A ≠ 0 := by
    intro h0
    have h1 := hAf (fun _ => 1) measurable_const
    rw [lintegral_const, one_mul, Measure.map_apply measurable_fst .univ, preimage_univ, Measure.restrict_apply_univ, h0] at h1
    simp only [mul_one] at h1
    exact hpos h1.symm
  -- what the loop does
  have hstep : ∀ (f fuel : Nat) (ω : Tape) (k : Nat), dbrcLoop g s E kT awr (Real.sqrt E) lo hi M f ω (fuel + 1) k = (do
      let r ← svtSample f E kT awr ω k
      if r.1 ∈ B then (if ω r.2 * M < σ (relEnergy E r.1) then .ok (r.1, r.2 + 1) else dbrcLoop g s E kT awr (Real.sqrt E) lo hi M f ω fuel (r.2 + 1))
      else dbrcLoop g s E kT awr (Real.sqrt E) lo hi M f ω fuel r.2) := by
    intro f fuel ω k
    simp only [dbrcLoop, bind, Except.bind]
    cases svtSample f E kT awr ω k with
    | error e => rfl
    | ok r =>
      simp only [rel_dot]
      by_cases h : r.1 ∈ B
      · have hb := (hBi r.1).mp h
        rw [if_pos h, if_neg (by rw [not_or, not_lt, not_lt]; exact hb)]
        obtain ⟨i, a, b⟩ := hev _ hb.1 hb.2
        simp only [a, b]
        rfl
      · rw [if_neg h, if_pos]
        by_contra hc
        rw [not_or, not_lt, not_lt] at hc
        exact h ((hBi r.1).mpr hc)
  have hshift : ∀ f, Shifts fun fuel ω k => dbrcLoop g s E kT awr (Real.sqrt E) lo hi M f ω fuel k := by
    intro f fuel
    induction fuel with
    | zero => intro ω k; rfl
    | succ fuel ih =>
      intro ω k
      dsimp only at ih ⊢
      have hsh : svtSample f E kT awr ω k = (svtSample f E kT awr (dropT k ω) 0).map fun q => (q.1, k + q.2) := hsvt.shift f ω k
      rw [hstep, hstep, hsh]
      cases svtSample f E kT awr (dropT k ω) 0 with
      | error e => rfl
      | ok r =>
        simp only [Except.map, bind, Except.bind]
        by_cases h : r.1 ∈ B
        · simp only [if_pos h]
          by_cases h' : ω (k + r.2) * M < σ (relEnergy E r.1)
          · have h'' : dropT k ω r.2 * M < σ (relEnergy E r.1) := h'
            simp only [if_pos h', if_pos h'', Nat.add_assoc]
          · have h'' : ¬ dropT k ω r.2 * M < σ (relEnergy E r.1) := h'
            simp only [if_neg h', if_neg h'']
            rw [ih ω (k + r.2 + 1), ih (dropT k ω) (r.2 + 1), dropT_dropT, Nat.add_assoc]
            cases dbrcLoop g s E kT awr (Real.sqrt E) lo hi M f (dropT (k + (r.2 + 1)) ω) fuel 0 with
            | error e => rfl
            | ok q => simp only [Except.map, Nat.add_assoc]
        · simp only [if_neg h]
          rw [ih ω (k + r.2), ih (dropT k ω) r.2, dropT_dropT]
          cases dbrcLoop g s E kT awr (Real.sqrt E) lo hi M f (dropT (k + r.2) ω) fuel 0 with
          | error e => rfl
          | ok q => simp only [Except.map, Nat.add_assoc]
  have hattv : ∀ f ω x n, att f ω 0 = .ok (x, n) → ∃ r, svtSample f E kT awr ω 0 = .ok r ∧ x.1 = r.1 ∧
      (r.1 ∈ B ∧ x.2 = ω r.2 ∧ n = r.2 + 1 ∨ r.1 ∉ B ∧ n = r.2) := by
    intro f ω x n h
    rw [hattd] at h
    simp only [bind, Except.bind] at h
    cases hc : svtSample f E kT awr ω 0 with
    | error e => rw [hc] at h; cases h
    | ok r =>
      rw [hc] at h
      refine ⟨r, rfl, ?_⟩
      by_cases hb : r.1 ∈ B
      · simp only [if_pos hb, Except.map, pure, Except.pure, Except.ok.injEq, Prod.mk.injEq] at h
        obtain ⟨rfl, rfl⟩ := h
        exact ⟨rfl, .inl ⟨hb, rfl, rfl⟩⟩
      · simp only [if_neg hb, pure, Except.pure, Except.ok.injEq, Prod.mk.injEq] at h
        obtain ⟨rfl, rfl⟩ := h
        exact ⟨rfl, .inr ⟨hb, rfl⟩⟩
  have hcl := closed_loop hatt' mA hpos' (v := Prod.fst) measurable_fst (loop := fun f fuel ω k => dbrcLoop g s E kT awr (Real.sqrt E) lo hi M f ω fuel k) hshift
    (fun f ω z h => by cases h)
    (Filter.Eventually.of_forall fun ω f x n h hx fuel => by
      obtain ⟨r, h1, h2, h3⟩ := hattv f ω x n h
      rw [hA] at hx
      have hxB : r.1 ∈ B := by rw [← h2]; exact hx.1
      rcases h3 with ⟨b, c, d⟩ | ⟨b, _⟩
      · have hx2 : ω r.2 * M < σ (relEnergy E r.1) := by rw [← h2, ← c]; exact hx.2
        rw [hstep, h1]
        simp only [bind, Except.bind]
        rw [if_pos b, if_pos hx2, h2, d]
      · exact absurd hxB b)
    (Filter.Eventually.of_forall fun ω f x n h hx fuel => by
      obtain ⟨r, h1, h2, h3⟩ := hattv f ω x n h
      rw [hA] at hx
      rw [hstep, h1]
      simp only [bind, Except.bind]
      rcases h3 with ⟨b, c, d⟩ | ⟨b, d⟩
      · have hx2 : ¬ ω r.2 * M < σ (relEnergy E r.1) := by
          rw [← h2, ← c]
          exact fun hc => hx ⟨h2 ▸ b, hc⟩
        rw [if_pos b, if_neg hx2, d]
      · rw [if_neg b, d])
    (Filter.Eventually.of_forall fun ω f e h fuel z hz => by
      rw [hattd] at h
      simp only [bind, Except.bind] at h
      cases hc : svtSample f E kT awr ω 0 with
      | error e' =>
        cases fuel with
        | zero => cases hz
        | succ fuel =>
          rw [hstep, hc] at hz
          cases hz
      | ok r =>
        rw [hc] at h
        by_cases hb : r.1 ∈ B
        · simp only [if_pos hb] at h; cases h
        · simp only [if_neg hb] at h; cases h)
  have hprob := hcl.prob
  obtain ⟨w', hw'⟩ : ∃ w' : Vec → ℝ, w' = fun v => if lo ≤ relEnergy E v ∧ relEnergy E v ≤ hi then w v * min (σ (relEnergy E v)) M else 0 := ⟨_, rfl⟩
  have mw' : Measurable w' := by
    rw [hw']
    refine Measurable.ite ?_ (hw.mul ((hσ.comp (measurable_relEnergy E)).min measurable_const)) measurable_const
    rw [← hB]; exact mB
  rw [← hw']
  have hlaw : (μ A)⁻¹ • (μ.restrict A).map Prod.fst = velocityLaw w' := by
    refine velocityLaw_of (K := (μ A)⁻¹ * ((∫⁻ v, ENNReal.ofReal (w v) ∂vecVolume)⁻¹ * ENNReal.ofReal (1 / M))) mw' fun f hf => ?_
    have hm : Measurable fun v => ENNReal.ofReal (min (σ (relEnergy E v)) M / M) * f v :=
      (((hσ.comp (measurable_relEnergy E)).min measurable_const).div_const M).ennreal_ofReal.mul hf
    rw [lintegral_smul_measure, hAf f hf, smul_eq_mul, ← lintegral_indicator mB, hκd, lintegral_velocityLaw hw (hm.indicator mB), mul_assoc]
    congr 1
    rw [mul_assoc]
    congr 1
    rw [← lintegral_const_mul' _ _ ENNReal.ofReal_ne_top]
    refine lintegral_congr fun v => ?_
    rw [hw']
    by_cases h : v ∈ B
    · have hb := (hBi v).mp h
      rw [indicator_of_mem h]
      dsimp only
      rw [if_pos hb, ← mul_assoc, ← ENNReal.ofReal_mul (hw0 v), ofReal_assoc (by positivity : (0 : ℝ) ≤ 1 / M)]
      congr 2
      ring
    · rw [indicator_of_notMem h]
      dsimp only
      rw [if_neg (fun hc => h ((hBi v).mpr hc))]
      simp
  rw [← hlaw]
  exact hcl

theorem freeGas_pos {E kT awr : ℝ} {v : Vec} (h : 0 < relEnergy E v) : 0 < freeGas E kT awr v := mul_pos (Real.exp_pos _) (Real.sqrt_pos.mpr h)

theorem freeGas_nonneg (E kT awr : ℝ) (v : Vec) : 0 ≤ freeGas E kT awr v := mul_nonneg (Real.exp_pos _).le (Real.sqrt_nonneg _)

/-- A weight that is positive on a shell of relative energies gives that shell a positive integral. -/
theorem shell_pos {E kT awr : ℝ} (hE : 0 ≤ E) (hkT : 0 < kT) (hA : 0 < awr) {f : Vec → ℝ≥0∞} (hf : Measurable f) {E1 E2 : ℝ} (h0 : 0 ≤ E1) (h12 : E1 < E2)
    (hx : ∀ v, E1 < relEnergy E v → relEnergy E v < E2 → f v ≠ 0) : ∫⁻ v, f v ∂velocityLaw (freeGas E kT awr) ≠ 0 := by
  intro hz
  have hprob := (svt_closed hE hkT hA).prob
  rw [lintegral_velocityLaw (measurable_freeGas E kT awr) hf, mul_eq_zero] at hz
  rcases hz with hz | hz
  · have : velocityLaw (freeGas E kT awr) univ = 0 := by
      rw [velocityLaw, hz, zero_smul]; rfl
    rw [measure_univ] at this
    exact one_ne_zero this
  · have hmm : Measurable fun v => ENNReal.ofReal (freeGas E kT awr v) * f v := (measurable_freeGas E kT awr).ennreal_ofReal.mul hf
    rw [vecVolume, lintegral_map hmm measurable_toVec,
      lintegral_eq_zero_iff (show Measurable fun p => ENNReal.ofReal (freeGas E kT awr (toVec p)) * f (toVec p) from hmm.comp measurable_toVec)] at hz
    obtain ⟨U, hU⟩ : ∃ U : Set ((ℝ × ℝ) × ℝ), U = {p | E1 < p.1.1 ^ 2 + p.1.2 ^ 2 + (p.2 - Real.sqrt E) ^ 2 ∧
      p.1.1 ^ 2 + p.1.2 ^ 2 + (p.2 - Real.sqrt E) ^ 2 < E2} := ⟨_, rfl⟩
    have oU : IsOpen U := by
      have hc : Continuous fun p : (ℝ × ℝ) × ℝ => p.1.1 ^ 2 + p.1.2 ^ 2 + (p.2 - Real.sqrt E) ^ 2 := by fun_prop
      rw [hU]
      exact (isOpen_lt continuous_const hc).inter (isOpen_lt hc continuous_const)
    have nU : U.Nonempty := by
      refine ⟨((Real.sqrt ((E1 + E2) / 2), 0), Real.sqrt E), ?_⟩
      rw [hU]
      have : Real.sqrt ((E1 + E2) / 2) ^ 2 = (E1 + E2) / 2 := Real.sq_sqrt (by linarith)
      constructor <;> simp only [this] <;> norm_num <;> linarith
    refine (oU.measure_pos volume nU).ne' ?_
    refine measure_mono_null (fun p hp => ?_) hz
    rw [hU] at hp
    have hp1 : E1 < relEnergy E (toVec p) := hp.1
    have hp2 : relEnergy E (toVec p) < E2 := hp.2
    intro hc
    have hc : ENNReal.ofReal (freeGas E kT awr (toVec p)) * f (toVec p) = 0 := hc
    rw [mul_eq_zero, ENNReal.ofReal_eq_zero] at hc
    have := freeGas_pos (E := E) (kT := kT) (awr := awr) (v := toVec p) (by linarith)
    rcases hc with hc | hc
    · linarith
    · exact hx _ hp1 hp2 hc

/-- The law in terms of what is looked up. -/
theorem dbrc_closed {g : EGrid} {s : XS ℝ} {E kT awr lo hi M : ℝ} {σ : ℝ → ℝ} (mσ : Measurable σ) (hE : 0 ≤ E) (hkT : 0 < kT) (hA : 0 < awr)
    (hlo : lo = max 0 (Real.sqrt (awr * E / kT) - 4) ^ 2 * kT / awr) (hhi : hi = (Real.sqrt (awr * E / kT) + 4) ^ 2 * kT / awr)
    (hev : ∀ e, lo ≤ e → e ≤ hi → ∃ i, g.lowerIndex e = .ok i ∧ s.evalIdx e i = .ok (σ e)) (hM : maxXs g s lo hi = .ok M) (hM0 : 0 < M)
    {E1 E2 : ℝ} (h1 : lo ≤ E1) (h12 : E1 < E2) (h2 : E2 ≤ hi) (hx : ∀ e, E1 < e → e < E2 → 0 < σ e) :
    Closed (fun fuel ω k => dbrcSample g s fuel fuel E kT awr ω k)
      (velocityLaw fun v => if lo ≤ relEnergy E v ∧ relEnergy E v ≤ hi then freeGas E kT awr v * min (σ (relEnergy E v)) M else 0) := by
  have hq : 0 ≤ awr * E / kT := by positivity
  have hlo0 : 0 ≤ lo := by rw [hlo]; positivity
  have mB : MeasurableSet {v | lo ≤ relEnergy E v ∧ relEnergy E v ≤ hi} :=
    (measurableSet_le measurable_const (measurable_relEnergy E)).inter (measurableSet_le (measurable_relEnergy E) measurable_const)
  have hm : Measurable fun v => ENNReal.ofReal (min (σ (relEnergy E v)) M / M) :=
    (((mσ.comp (measurable_relEnergy E)).min measurable_const).div_const M).ennreal_ofReal
  have hloop := dbrc_loop (g := g) (s := s) (M := M) (measurable_freeGas E kT awr) (freeGas_nonneg E kT awr) (svt_closed hE hkT hA) mσ (lo := lo) (hi := hi) hev
    hM0 (by
      rw [← lintegral_indicator mB]
      refine shell_pos hE hkT hA (hm.indicator mB) (hlo0.trans h1) h12 fun v a b => ?_
      rw [indicator_of_mem (show v ∈ {v | lo ≤ relEnergy E v ∧ relEnergy E v ≤ hi} from ⟨by linarith, by linarith⟩)]
      have : 0 < min (σ (relEnergy E v)) M / M := div_pos (lt_min (hx _ a b) hM0) hM0
      rw [ne_eq, ENNReal.ofReal_eq_zero]
      linarith)
  refine hloop.of_eq (run' := fun fuel ω k => dbrcSample g s fuel fuel E kT awr ω k) fun fuel ω k => ?_
  have e1 : max 0 (Real.sqrt (awr * E / kT) - 4) * max 0 (Real.sqrt (awr * E / kT) - 4) * kT / awr = lo := by rw [hlo]; ring
  have e2 : (Real.sqrt (awr * E / kT) + 4) * (Real.sqrt (awr * E / kT) + 4) * kT / awr = hi := by rw [hhi]; ring
  unfold dbrcSample
  rw [csqrt_ok hE, rdiv_ok hkT.ne']
  simp only [bind, Except.bind, csqrt_ok hq, rdiv_ok hA.ne']
  rw [e1, e2, hM]

/-- The sampler, for a cross section that covers the window. -/
theorem dbrc_law (s : XS ℝ) (σ : ℝ → ℝ) (hσ : ∀ e, s.eval e = .ok (σ e)) (hg : GoodXS s) (h0 : s.index = 0) (hs : s.grid.Pairwise (· < ·))
    (e0 : ℝ) (he0 : s.grid[0]? = some e0) (hpos : 0 < e0) (h32 : s.grid.length < 2 ^ 32) (nbins : Nat) (hn : 1 ≤ nbins) (hn2 : nbins < 2 ^ 32 - 1)
    (g : EGrid) (hgrid : EGrid.make s.grid nbins = .ok g) (E kT awr lo hi : ℝ) (hE : 0 ≤ E) (hkT : 0 < kT) (hA : 0 < awr)
    (hlo : lo = max 0 (Real.sqrt (awr * E / kT) - 4) ^ 2 * kT / awr) (hhi : hi = (Real.sqrt (awr * E / kT) + 4) ^ 2 * kT / awr)
    (hcover : e0 ≤ lo) (E1 E2 : ℝ) (h1 : lo ≤ E1) (h12 : E1 < E2) (h2 : E2 ≤ hi) (hx : ∀ e, E1 < e → e < E2 → 0 < σ e) :
    Closed (fun fuel ω k => dbrcSample g s fuel fuel E kT awr ω k)
      (velocityLaw fun v => if lo ≤ relEnergy E v ∧ relEnergy E v ≤ hi then freeGas E kT awr v * σ (relEnergy E v) else 0) :=
  by
  have mσ : Measurable σ := by
    have := measurable_eval s
    simp only [hσ, okVal] at this
    exact this
  obtain ⟨g', hg1, hg2, hg3⟩ := C28_lower_index s.grid nbins e0 (hs.imp le_of_lt) he0 hpos h32 hn hn2
  rw [hgrid] at hg1
  cases hg1
  obtain ⟨M, c1, c2, _⟩ := C50_majorant_partial g s hg2 hg h0 (hs.imp le_of_lt)
    (fun E => by obtain ⟨i, u, v⟩ := hg3 E; exact ⟨i, u, by rw [hg2]; exact v⟩) lo hi e0 he0 hcover (h1.trans (h12.le.trans h2))
  have hM0 : 0 < M := lt_of_lt_of_le (hx ((E1 + E2) / 2) (by linarith) (by linarith)) (c2 _ _ (by linarith) (by linarith) (hσ _))
  have hcl := dbrc_closed mσ hE hkT hA hlo hhi (fun e a b => by
    obtain ⟨i, u, v⟩ := hg3 e
    exact ⟨i, u, by rw [C31_agree_partial s hg hs e e0 e0 i v (by rw [h0]; exact he0) he0 (fun _ => hcover.trans a) (fun hc => absurd h0 hc), hσ]⟩)
    c1 hM0 h1 h12 h2 hx
  have e : (fun v => if lo ≤ relEnergy E v ∧ relEnergy E v ≤ hi then freeGas E kT awr v * min (σ (relEnergy E v)) M else 0) =
      fun v => if lo ≤ relEnergy E v ∧ relEnergy E v ≤ hi then freeGas E kT awr v * σ (relEnergy E v) else 0 := by
    funext v
    by_cases h : lo ≤ relEnergy E v ∧ relEnergy E v ≤ hi
    · rw [if_pos h, if_pos h, min_eq_left (c2 _ _ h.1 h.2 (hσ _))]
    · rw [if_neg h, if_neg h]
  rw [e] at hcl
  exact hcl

/-- **C120** The velocities returned by the Doppler broadening rejection correction have the law of the free gas weighted by the cross section at
the relative energy, restricted to the window of relative energies it allows: for a cross section on a strictly increasing positive grid that
covers the window, looked up through the grid it was made with, and that is positive somewhere in it. -/
theorem C120_dbrc_partial (s : XS ℝ) (σ : ℝ → ℝ) (hσ : ∀ e, s.eval e = .ok (σ e)) (hg : GoodXS s) (h0 : s.index = 0) (hs : s.grid.Pairwise (· < ·))
    (e0 : ℝ) (he0 : s.grid[0]? = some e0) (hpos : 0 < e0) (h32 : s.grid.length < 2 ^ 32) (nbins : Nat) (hn : 1 ≤ nbins) (hn2 : nbins < 2 ^ 32 - 1)
    (g : EGrid) (hgrid : EGrid.make s.grid nbins = .ok g) (E kT awr lo hi : ℝ) (hE : 0 ≤ E) (hkT : 0 < kT) (hA : 0 < awr)
    (hlo : lo = max 0 (Real.sqrt (awr * E / kT) - 4) ^ 2 * kT / awr) (hhi : hi = (Real.sqrt (awr * E / kT) + 4) ^ 2 * kT / awr)
    (hcover : e0 ≤ lo) (E1 E2 : ℝ) (h1 : lo ≤ E1) (h12 : E1 < E2) (h2 : E2 ≤ hi) (hx : ∀ e, E1 < e → e < E2 → 0 < σ e) (k : Nat) :
    Samples (fun fuel ω => dbrcSample g s fuel fuel E kT awr ω k)
      (velocityLaw fun v => if lo ≤ relEnergy E v ∧ relEnergy E v ≤ hi then freeGas E kT awr v * σ (relEnergy E v) else 0) :=
  (dbrc_law s σ hσ hg h0 hs e0 he0 hpos h32 nbins hn hn2 g hgrid E kT awr lo hi hE hkT hA hlo hhi hcover E1 E2 h1 h12 h2 hx).samples k

/-- Where the cross section vanishes over the window nothing is ever returned: the call does not come back, whatever the draws. -/
theorem C120_zero (s : XS ℝ) (hg : GoodXS s) (h0 : s.index = 0) (hs : s.grid.Pairwise (· < ·))
    (e0 : ℝ) (he0 : s.grid[0]? = some e0) (hpos : 0 < e0) (h32 : s.grid.length < 2 ^ 32) (nbins : Nat) (hn : 1 ≤ nbins) (hn2 : nbins < 2 ^ 32 - 1)
    (g : EGrid) (hgrid : EGrid.make s.grid nbins = .ok g) (E kT awr : ℝ) (hE : 0 ≤ E) (hkT : 0 < kT) (hA : 0 < awr)
    (hcover : e0 ≤ max 0 (Real.sqrt (awr * E / kT) - 4) ^ 2 * kT / awr)
    (hzero : ∀ e, max 0 (Real.sqrt (awr * E / kT) - 4) ^ 2 * kT / awr ≤ e → e ≤ (Real.sqrt (awr * E / kT) + 4) ^ 2 * kT / awr → s.eval e = .ok 0)
    (sfuel fuel : Nat) (ω : Tape) (hω : ∀ i, 0 ≤ ω i) (k : Nat) (z : Vec × Nat) : dbrcSample g s sfuel fuel E kT awr ω k ≠ .ok z := by
  intro hz
  obtain ⟨vt, k'⟩ := z
  obtain ⟨lo, hi, Er, M, x, k0, k1, i, rfl, rfl, rfl, a1, a2, _⟩ := C73_dbrc g s sfuel fuel E kT awr hE hkT hA ω k k' vt hz
  obtain ⟨Er, M, x, k1, rfl, b1, b2, b3, _⟩ := C73_dbrc_probability s hg h0 hs e0 he0 hpos h32 nbins hn hn2 g hgrid sfuel fuel E kT awr hE hkT hA hcover ω k k' vt hz
  rw [hzero _ a1 a2] at b1
  cases b1
  exact absurd b2 (not_lt.mpr (mul_nonneg (hω _) b3))

/-- Non-vacuity: a neutron at 100 on a nuclide with a constant cross section tabulated from 1 to 1000. -/
example : ∃ (s : XS ℝ) (g : EGrid), XS.make [2, 2] [1, 1000] 0 = .ok s ∧ EGrid.make [1, 1000] 8192 = .ok g ∧
    Samples (fun fuel ω => dbrcSample g s fuel fuel 100 1 1 ω 0)
      (velocityLaw fun v => if 36 ≤ relEnergy 100 v ∧ relEnergy 100 v ≤ 196 then freeGas 100 1 1 v * okVal (s.eval (relEnergy 100 v)) else 0) := by
  obtain ⟨g, hg, _, _⟩ := C28_lower_index [1, 1000] 8192 1 (by norm_num) rfl (by norm_num) (by norm_num) (by norm_num) (by norm_num)
  obtain ⟨s, hs⟩ : ∃ s : XS ℝ, s = ⟨[1, 1000], [2, 2], 0, false⟩ := ⟨_, rfl⟩
  have hgood : GoodXS s := by
    rw [hs]; exact ⟨rfl, by norm_num, rfl, by norm_num⟩
  have hq : Real.sqrt (1 * 100 / 1) = 10 := by rw [show (1 * 100 / 1 : ℝ) = 10 ^ 2 by norm_num]; exact Real.sqrt_sq (by norm_num)
  refine ⟨s, g, by rw [hs]; norm_num [XS.make], hg, ?_⟩
  refine C120_dbrc_partial s (fun e => okVal (s.eval e)) (fun e => ?_) hgood (by rw [hs]) (by rw [hs]; norm_num) 1 (by rw [hs]; rfl) (by norm_num)
    (by rw [hs]; norm_num) 8192 (by norm_num) (by norm_num) g (by rw [hs]; exact hg) 100 1 1 36 196 (by norm_num) (by norm_num) (by norm_num)
    (by rw [hq]; norm_num) (by rw [hq]; norm_num) (by norm_num) 100 101 (by norm_num) (by norm_num) (by norm_num) (fun e h1 h2 => ?_) 0
  · obtain ⟨r, h, _⟩ := C30_total s hgood (by rw [hs]; norm_num) e
    rw [h]; rfl
  · have a : ¬ e < 1 := by linarith
    have b : ¬ (1000 : ℝ) ≤ e := by linarith
    have c : (1 : ℝ) < e := by linarith
    have d : ¬ (1000 : ℝ) < e := by linarith
    have f : ¬ e = 1000 := by linarith
    rw [hs]
    norm_num [XS.eval, getAt, bind, Except.bind, back, lowerBoundRange, bisect, subIdx, xsLin, cdiv, pure, Except.pure, okVal, a, b, c, d, f]

/-- The full claim is false of the code: where the window reaches below the grid, the lookup extrapolates the first line while the constant it is
compared with ignores the first value. With the cross section going from 5 at energy 3 to 1 at energy 4, and a neutron at energy 1, every target
velocity within the window is kept with the weight of the plain free gas, also where the cross section is zero; its law is not the one weighted by
the cross section. -/
theorem C120_violation_below : ∃ (s : XS ℝ) (g : EGrid), XS.make [5, 1] [3, 4] 0 = .ok s ∧ EGrid.make [3, 4] 8192 = .ok g ∧
    (∀ e, e < 3 → s.eval e = .ok 0) ∧
    Samples (fun fuel ω => dbrcSample g s fuel fuel 1 1 1 ω 0) (velocityLaw fun v => if relEnergy 1 v ≤ 25 then freeGas 1 1 1 v else 0) ∧
    ¬ Samples (fun fuel ω => dbrcSample g s fuel fuel 1 1 1 ω 0)
      (velocityLaw fun v => if relEnergy 1 v ≤ 25 then freeGas 1 1 1 v * okVal (s.eval (relEnergy 1 v)) else 0) := by
  obtain ⟨g, hg, hge, hgi⟩ := C28_lower_index [3, 4] 8192 3 (by norm_num) rfl (by norm_num) (by norm_num) (by norm_num) (by norm_num)
  obtain ⟨s, hs⟩ : ∃ s : XS ℝ, s = ⟨[3, 4], [5, 1], 0, false⟩ := ⟨_, rfl⟩
  have hlow : ∀ e, e < 3 → s.eval e = .ok 0 := by
    intro e he
    rw [hs]
    norm_num [XS.eval, getAt, bind, Except.bind, back, he, pure, Except.pure]
  have hq : Real.sqrt (1 * 1 / 1) = 1 := by norm_num
  obtain ⟨σ, hσ⟩ : ∃ σ : ℝ → ℝ, σ = fun e => if e < 4 then 17 - 4 * e else 1 := ⟨_, rfl⟩
  have hσ1 : ∀ e, 1 ≤ σ e := by
    intro e
    rw [hσ]
    dsimp only
    by_cases h : e < 4
    · rw [if_pos h]; linarith
    · rw [if_neg h]
  have mσ : Measurable σ := by
    rw [hσ]
    exact Measurable.ite measurableSet_Iio (by fun_prop) measurable_const
  have hM : maxXs g s 0 25 = .ok 1 := by
    obtain ⟨i, i1, i2⟩ := hgi 0
    obtain ⟨j, j1, j2⟩ := hgi 25
    have hi : i = 0 := i2.1 3 rfl (by norm_num)
    have hj : j = 1 := j2.2.1 3 4 rfl rfl (by norm_num) (by norm_num)
    subst hi hj
    unfold maxXs
    rw [i1, j1, hs]
    norm_num [XS.eval, getAt, bind, Except.bind, back, lowerBoundRange, bisect, subIdx, xsLin, cdiv, pure, Except.pure, maxXsLoop]
  have hev : ∀ e, (0 : ℝ) ≤ e → e ≤ 25 → ∃ i, g.lowerIndex e = .ok i ∧ s.evalIdx e i = .ok (σ e) := by
    intro e _ _
    obtain ⟨i, i1, i2⟩ := hgi e
    refine ⟨i, i1, ?_⟩
    rw [hσ]
    by_cases h4 : e < 4
    · have hi : i = 0 := by
        by_cases h3 : e ≤ 3
        · exact i2.1 3 rfl h3
        · obtain ⟨a, b, _, h2, _⟩ := i2.2.2 3 4 rfl rfl (not_le.mp h3) h4
          have := lt_length_of_some h2
          simp at this
          exact this
      subst hi
      rw [hs]
      dsimp only
      rw [if_pos h4]
      norm_num [XS.evalIdx, XS.pastEnd, getAt, bind, Except.bind, back, xsLin, cdiv, pure, Except.pure]
      ring
    · have hi : i = 1 := i2.2.1 3 4 rfl rfl (by linarith) (by linarith)
      subst hi
      rw [hs]
      dsimp only
      rw [if_neg h4]
      norm_num [XS.evalIdx, XS.pastEnd, back]
  have hcl := dbrc_closed (g := g) (s := s) (E := 1) (kT := 1) (awr := 1) (lo := 0) (hi := 25) (M := 1) mσ (by norm_num) (by norm_num) (by norm_num)
    (by rw [hq]; norm_num) (by rw [hq]; norm_num) hev hM (by norm_num) (E1 := 0) (E2 := 1) le_rfl (by norm_num) (by norm_num)
    (fun e _ _ => lt_of_lt_of_le one_pos (hσ1 e))
  have hr0 : ∀ v, 0 ≤ relEnergy 1 v := fun v => by unfold relEnergy; positivity
  have e : (fun v => if 0 ≤ relEnergy 1 v ∧ relEnergy 1 v ≤ 25 then freeGas 1 1 1 v * min (σ (relEnergy 1 v)) 1 else 0) =
      fun v => if relEnergy 1 v ≤ 25 then freeGas 1 1 1 v else 0 := by
    funext v
    rw [min_eq_right (hσ1 _), mul_one]
    by_cases h : relEnergy 1 v ≤ 25
    · rw [if_pos ⟨hr0 v, h⟩, if_pos h]
    · rw [if_neg (fun hc => h hc.2), if_neg h]
  rw [e] at hcl
  refine ⟨s, g, by rw [hs]; norm_num [XS.make], hg, hlow, hcl.samples 0, fun hbad => ?_⟩
  have hprob := hcl.prob
  have mL : MeasurableSet {v | relEnergy 1 v < 3} := measurableSet_lt (measurable_relEnergy 1) measurable_const
  have h1 := (hcl.samples 0 _ mL).symm.trans (hbad _ mL)
  have h2 : velocityLaw (fun v => if relEnergy 1 v ≤ 25 then freeGas 1 1 1 v * okVal (s.eval (relEnergy 1 v)) else 0) {v | relEnergy 1 v < 3} = 0 := by
    rw [velocityLaw, Measure.smul_apply, withDensity_apply _ mL, smul_eq_mul]
    have : ∫⁻ v in {v | relEnergy 1 v < 3}, ENNReal.ofReal (if relEnergy 1 v ≤ 25 then freeGas 1 1 1 v * okVal (s.eval (relEnergy 1 v)) else 0) ∂vecVolume = 0 := by
      rw [← lintegral_zero (μ := vecVolume.restrict {v | relEnergy 1 v < 3})]
      refine setLIntegral_congr_fun mL fun v hv => ?_
      have hv : relEnergy 1 v < 3 := hv
      rw [if_pos (by linarith), hlow _ hv]
      simp [okVal]
    rw [this, mul_zero]
  rw [h2] at h1
  have mw : Measurable fun v => if relEnergy 1 v ≤ 25 then freeGas 1 1 1 v else 0 :=
    Measurable.ite (measurableSet_le (measurable_relEnergy 1) measurable_const) (measurable_freeGas 1 1 1) measurable_const
  rw [← lintegral_indicator_one mL, lintegral_velocityLaw mw (measurable_one.indicator mL), mul_eq_zero] at h1
  rcases h1 with h1 | h1
  · have : velocityLaw (fun v => if relEnergy 1 v ≤ 25 then freeGas 1 1 1 v else 0) univ = 0 := by
      rw [velocityLaw, h1, zero_smul]; rfl
    rw [measure_univ] at this
    exact one_ne_zero this
  · refine shell_pos (E := 1) (kT := 1) (awr := 1) (by norm_num) (by norm_num) (by norm_num) (measurable_one.indicator mL) (E1 := 0) (E2 := 1) le_rfl one_pos
      (fun v a b => by
        rw [indicator_of_mem (show v ∈ {v | relEnergy 1 v < 3} from by show relEnergy 1 v < 3; linarith)]
        exact one_ne_zero) ?_
    rw [lintegral_velocityLaw (measurable_freeGas 1 1 1) (measurable_one.indicator mL), mul_eq_zero]
    right
    rw [← h1]
    refine lintegral_congr fun v => ?_
    by_cases hv : relEnergy 1 v < 3
    · rw [if_pos (by linarith)]
    · rw [indicator_of_notMem (show v ∉ {v | relEnergy 1 v < 3} from hv), mul_zero, mul_zero]

end PNDL
