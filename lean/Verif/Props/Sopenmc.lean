import Verif.Spec.Sopenmc
import Verif.Props.Spndl

/-! C156 — the comparison program, and the warnings of both programs. -/
namespace PNDL
open Spec

private theorem rdiv_scale {c a b : ℝ} (hc : c ≠ 0) : rdiv (c * a) (c * b) = rdiv a b := by
  unfold rdiv
  by_cases h : b = 0
  · rw [if_pos h, if_pos (by rw [h, mul_zero])]
  · rw [if_neg h, if_neg (mul_ne_zero hc h), mul_div_mul_left _ _ hc]

private theorem csqrt_scale {c x : ℝ} (hc : 0 < c) : csqrt (c * c * x) = (csqrt x).map fun y => c * y := by
  unfold csqrt
  by_cases h : 0 ≤ x
  · rw [if_pos h, if_pos (mul_nonneg (mul_pos hc hc).le h)]
    simp only [Except.map, Except.ok.injEq]
    rw [Real.sqrt_mul (mul_pos hc hc).le, Real.sqrt_mul_self hc.le]
  · rw [if_neg h, if_neg (by rw [not_le] at h ⊢; exact mul_neg_of_pos_of_neg (mul_pos hc hc) h)]
    rfl

private theorem rdiv_num {c a b : ℝ} : rdiv (c * a) b = (rdiv a b).map fun y => c * y := by
  unfold rdiv
  by_cases h : b = 0
  · rw [if_pos h, if_pos h]; rfl
  · rw [if_neg h, if_neg h]; simp only [Except.map, mul_div_assoc]

/-- **C156** The change of frame does not depend on the unit of energy: with both energies multiplied by a positive number the cosine is the same and
the energy is multiplied by it. -/
theorem C156_units (c E A mu e : ℝ) (hc : 0 < c) : cmToLab (c * E) A mu (c * e) = (cmToLab E A mu e).map fun x => (x.1, c * x.2) := by
  unfold cmToLab
  have h1 : c * E * (c * e) = c * c * (E * e) := by ring
  rw [h1, csqrt_scale hc]
  cases csqrt (E * e) with
  | error x => rfl
  | ok s =>
    simp only [Except.map, bind, Except.bind]
    have h2 : c * E + 2 * mu * (A + 1) * (c * s) = c * (E + 2 * mu * (A + 1) * s) := by ring
    rw [h2, rdiv_num]
    cases rdiv (E + 2 * mu * (A + 1) * s) ((A + 1) ^ 2) with
    | error x => rfl
    | ok q =>
      simp only [Except.map]
      rw [← mul_add, rdiv_scale hc.ne', rdiv_scale hc.ne']
      cases rdiv e (e + q) with
      | error x => rfl
      | ok r1 =>
        simp only
        cases csqrt r1 with
        | error x => rfl
        | ok s1 =>
          simp only
          cases rdiv 1 (A + 1) with
          | error x => rfl
          | ok i =>
            simp only
            cases rdiv E (e + q) with
            | error x => rfl
            | ok r2 =>
              simp only
              cases csqrt r2 <;> rfl

private theorem omcSample_cm (d : OmcProduct) (A E : ℝ) (ω : Tape) (k : Nat) : omcSample d true A E ω k = (do
    let r ← d.sample E ω k
    let l ← cmToLab E A r.1 r.2.1
    return (l.1, l.2 / 10 ^ 6, r.2.2)) := by
  unfold omcSample cmToLab
  cases d.sample E ω k with
  | error x => rfl
  | ok r =>
    obtain ⟨mu, e, k'⟩ := r
    simp only [bind, Except.bind, if_true, sq]
    cases csqrt (E * e) with
    | error x => rfl
    | ok s =>
      simp only
      cases rdiv (E + 2 * mu * (A + 1) * s) ((A + 1) * (A + 1)) with
      | error x => rfl
      | ok q =>
        simp only
        cases rdiv e (e + q) with
        | error x => rfl
        | ok r1 =>
          simp only
          cases csqrt r1 with
          | error x => rfl
          | ok s1 =>
            simp only
            cases rdiv 1 (A + 1) with
            | error x => rfl
            | ok i =>
              simp only
              cases rdiv E (e + q) with
              | error x => rfl
              | ok r2 =>
                simp only
                cases csqrt r2 <;> rfl

private theorem find_neutron {ps pre post : List OmcProduct} {d : OmcProduct} (h : ps = pre ++ d :: post) (h1 : ∀ p ∈ pre, p.neutron = false)
    (h2 : d.neutron = true) : ps.find? (·.neutron) = some d := by
  subst h
  induction pre with
  | nil => simp [h2]
  | cons p pre ih =>
    rw [List.cons_append, List.find?_cons_of_neg (by simp [h1 p (by simp)])]
    exact ih fun q hq => h1 q (by simp [hq])

private theorem saved_omc (run : Tape → Nat → Res (ℝ × ℝ × Nat)) (ω : Tape) (n : Nat) (cols : List (ℝ × ℝ)) :
    Saved (omcEnd (do let xs ← columns run ω n; return ⟨0, xs⟩)) cols ↔ Successive (run ω) n cols := by
  rw [← columns_iff]
  unfold Saved omcEnd
  cases columns run ω n with
  | error e => simp [bind, Except.bind]
  | ok xs => simp [bind, Except.bind, pure, Except.pure]

/-- **C156** When the comparison program saves an array, and which: the MT is in range and not elastic scattering, the energy is above the threshold, and
the columns are successive samples, in MeV, of the first neutron product. -/
theorem C156_saved (n : OmcNuclide) (mt nsamples : Nat) (E : ℝ) (ω : Tape) (cols : List (ℝ × ℝ)) :
    Saved (omcMain n mt nsamples E ω) cols ↔ mt ≤ 901 ∧ mt ≠ 2 ∧ ∃ r, n.reaction mt = some r ∧ r.threshold < E * 10 ^ 6 ∧
      ∃ d, r.products.find? (·.neutron) = some d ∧ Successive (fun k => omcSample d r.cm n.awr (E * 10 ^ 6) ω k) nsamples cols := by
  unfold omcMain
  by_cases h1 : mt > 901
  · rw [if_pos h1]
    refine ⟨fun h => by simp [Saved] at h, fun h => absurd h.1 (by omega)⟩
  rw [if_neg h1]
  by_cases h2 : mt = 2
  · rw [if_pos h2]
    exact ⟨fun h => by simp [Saved] at h, fun h => absurd h2 h.2.1⟩
  rw [if_neg h2]
  unfold omcReaction
  cases h3 : n.reaction mt with
  | none =>
    refine ⟨fun h => by simp [Saved, omcEnd, bind, Except.bind, pure, Except.pure] at h, ?_⟩
    rintro ⟨_, _, r, hr, _⟩; cases hr
  | some r =>
    simp only
    by_cases h4 : E * 10 ^ 6 ≤ r.threshold
    · rw [if_pos h4]
      refine ⟨fun h => by simp [Saved, omcEnd, bind, Except.bind, pure, Except.pure] at h, ?_⟩
      rintro ⟨_, _, r', hr, h, _⟩
      cases hr
      exact absurd h (not_lt.mpr h4)
    · rw [if_neg h4]
      cases h5 : r.products.find? (·.neutron) with
      | none =>
        refine ⟨fun h => by simp [Saved, omcEnd, bind, Except.bind, pure, Except.pure] at h, ?_⟩
        rintro ⟨_, _, r', hr, h, d, hd, _⟩
        cases hr
        rw [h5] at hd; cases hd
      | some d =>
        simp only
        rw [saved_omc (fun ω k => omcSample d r.cm n.awr (E * 10 ^ 6) ω k)]
        constructor
        · intro h
          exact ⟨by omega, h2, r, rfl, not_le.mp h4, d, h5, h⟩
        · rintro ⟨_, _, r', hr, _, d', hd, h⟩
          cases hr
          rw [h5] at hd; cases hd
          exact h

/-- **C156** Otherwise it refuses with status 1 and saves nothing. -/
theorem C156_refused (n : OmcNuclide) (mt nsamples : Nat) (E : ℝ) (ω : Tape)
    (h : mt > 901 ∨ mt = 2 ∨ n.reaction mt = none ∨ ∃ r, n.reaction mt = some r ∧ (E * 10 ^ 6 ≤ r.threshold ∨ ∀ p ∈ r.products, p.neutron = false)) :
    Refused (omcMain n mt nsamples E ω) := by
  unfold omcMain
  by_cases h1 : mt > 901
  · rw [if_pos h1]; rfl
  rw [if_neg h1]
  by_cases h2 : mt = 2
  · rw [if_pos h2]; rfl
  rw [if_neg h2]
  unfold omcReaction
  rcases h with h | h | h | ⟨r, hr, h⟩
  · exact absurd h h1
  · exact absurd h h2
  · rw [h]; rfl
  · rw [hr]
    simp only
    by_cases h4 : E * 10 ^ 6 ≤ r.threshold
    · rw [if_pos h4]; rfl
    · rw [if_neg h4]
      rcases h with h | h
      · exact absurd h h4
      · have : r.products.find? (·.neutron) = none := by
          rw [List.find?_eq_none]
          intro p hp
          simp [h p hp]
        rw [this]; rfl

private theorem successive_congr {f g : Nat → Res (ℝ × ℝ × Nat)} (h : ∀ k mu e k', f k = .ok (mu, e, k') ↔ g k = .ok (mu, e, k')) (n : Nat)
    (cols : List (ℝ × ℝ)) : Successive f n cols ↔ Successive g n cols := by
  unfold Successive
  simp only [h]

/-- **C156** The two programs can be compared: if OpenMC's reaction is the one the library samples, then sopenmc saves an array if and only if spndl
does, and it is the same one — for laws in the laboratory frame, and for laws in the centre of mass, where sopenmc changes the frame itself. -/
theorem C156_same (mt nsamples : Nat) (hmt : mt ≤ 901) (hm2 : mt ≠ 2) (E : ℝ) (f : AceFile) (rfuel fuel : Nat) (n : Nuc) (hn : Nuc.makeAce f rfuel = .ok n)
    (r : STRxn) (hr : n.reaction mt = .ok r) (hE : r.threshold < E) (o : OmcNuclide) (ro : OmcReaction) (ho : o.reaction mt = some ro) (ω : Tape)
    (h : (∃ A q d, r.base.dist = .cm A q d ∧ o.awr = A ∧ SameReaction ro r.threshold E true (fun k => (d.toAE fuel).sample E ω k) ω) ∨
      ((∀ m, r.base.dist ≠ .absorption m) ∧ SameReaction ro r.threshold E false (fun k => (r.base.dist.toAE fuel).sample E ω k) ω))
    (cols : List (ℝ × ℝ)) :
    Saved (omcMain o mt nsamples E ω) cols ↔ Saved (toolMain (toolReaction mt nsamples E f rfuel fuel ω)) cols := by
  have hna : ∀ m, r.base.dist ≠ .absorption m := by
    rcases h with ⟨A, q, d, hd, _⟩ | ⟨h, _⟩
    · intro m hm; rw [hd] at hm; cases hm
    · exact h
  have hu : (0 : ℝ) < 10 ^ 6 := by norm_num
  rw [C145_reaction_partial mt nsamples E f rfuel n hn r hr hE hna fuel ω cols, C156_saved]
  have hbase : ∀ k, r.base.sample r.threshold fuel E ω k = (r.base.dist.toAE fuel).sample E ω k := by
    intro k
    unfold RxnBase.sample
    rw [if_neg (not_lt.mpr hE.le)]
  simp only [hbase]
  rcases h with ⟨A, q, d, hd, hA, h1, h2, pre, p, post, h3, h4, h5, h6⟩ | ⟨_, h1, h2, pre, p, post, h3, h4, h5, h6⟩
  all_goals
    have hf := find_neutron h3 h4 h5
    have hthr : ro.threshold < E * 10 ^ 6 := by rw [h1]; exact mul_lt_mul_of_pos_right hE hu
  · have key : ∀ k mu e k', omcSample p ro.cm o.awr (E * 10 ^ 6) ω k = .ok (mu, e, k') ↔ (r.base.dist.toAE fuel).sample E ω k = .ok (mu, e, k') := by
      intro k mu e k'
      rw [h2, omcSample_cm, hA, hd]
      show _ ↔ (CMDist.mk A q (d.toAE fuel)).sample E ω k = _
      unfold CMDist.sample
      simp only
      constructor
      · intro h
        obtain ⟨⟨m1, e1, k1⟩, a, h⟩ := bind_ok h
        obtain ⟨⟨m2, e2⟩, b, h⟩ := bind_ok h
        have h' := Except.ok.inj h
        simp only [Prod.mk.injEq] at h'
        have a' : (d.toAE fuel).sample E ω k = .ok (m1, e1 / 10 ^ 6, k1) := by
          rw [h6, a, div_mul_cancel₀ _ hu.ne']
        simp only at b
        have hb : cmToLab (10 ^ 6 * E) A m1 (10 ^ 6 * (e1 / 10 ^ 6)) = .ok (m2, e2) := by
          rw [mul_comm (10 ^ 6) E, mul_div_cancel₀ _ hu.ne']; exact b
        rw [C156_units _ _ _ _ _ hu] at hb
        rw [a']
        simp only [bind, Except.bind]
        cases hc : cmToLab E A m1 (e1 / 10 ^ 6) with
        | error x => rw [hc] at hb; cases hb
        | ok y =>
          rw [hc] at hb
          have hb' := Except.ok.inj hb
          simp only [Prod.mk.injEq] at hb'
          simp only [pure, Except.pure, Except.ok.injEq, Prod.mk.injEq]
          refine ⟨hb'.1.trans h'.1, ?_, h'.2.2⟩
          rw [← h'.2.1, ← hb'.2, mul_div_cancel_left₀ _ hu.ne']
      · intro h
        obtain ⟨⟨m1, e1, k1⟩, a, h⟩ := bind_ok h
        simp only at h
        obtain ⟨⟨m2, e2⟩, b, h⟩ := bind_ok h
        have h' := Except.ok.inj h
        simp only [Prod.mk.injEq] at h'
        rw [(h6 k m1 e1 k1).mp a]
        simp only [bind, Except.bind]
        rw [mul_comm E, mul_comm e1, C156_units _ _ _ _ _ hu, b]
        simp only [Except.map, pure, Except.pure, Except.ok.injEq, Prod.mk.injEq]
        refine ⟨h'.1, ?_, h'.2.2⟩
        rw [mul_div_cancel_left₀ _ hu.ne']
        exact h'.2.1
    rw [← successive_congr key]
    constructor
    · rintro ⟨_, _, r', hr', _, d', hd', h⟩
      rw [ho] at hr'; cases hr'
      rw [hf] at hd'; cases hd'
      exact h
    · intro h
      exact ⟨hmt, hm2, ro, ho, hthr, p, hf, h⟩
  · have key : ∀ k mu e k', omcSample p ro.cm o.awr (E * 10 ^ 6) ω k = .ok (mu, e, k') ↔ (r.base.dist.toAE fuel).sample E ω k = .ok (mu, e, k') := by
      intro k mu e k'
      rw [h2]
      unfold omcSample
      constructor
      · intro h
        obtain ⟨⟨m1, e1, k1⟩, a, h⟩ := bind_ok h
        have h' := Except.ok.inj h
        simp only [Prod.mk.injEq] at h'
        rw [h6, a, ← h'.1, ← h'.2.1, ← h'.2.2, div_mul_cancel₀ _ hu.ne']
      · intro h
        rw [(h6 k mu e k').mp h]
        simp only [bind, Except.bind, pure, Except.pure, Bool.false_eq_true, if_false]
        rw [mul_div_cancel_right₀ _ hu.ne']
    rw [← successive_congr key]
    constructor
    · rintro ⟨_, _, r', hr', _, d', hd', h⟩
      rw [ho] at hr'; cases hr'
      rw [hf] at hd'; cases hd'
      exact h
    · intro h
      exact ⟨hmt, hm2, ro, ho, hthr, p, hf, h⟩

/-- **C156** Thermal modes: without the law asked for the program refuses; otherwise the columns are successive samples of it, in MeV. -/
theorem C156_thermal (d : Option (ℝ → Tape → Nat → Res (ℝ × ℝ × Nat))) (nsamples : Nat) (E : ℝ) (ω : Tape) :
    (d = none → Refused (omcEnd (omcThermal d nsamples E ω))) ∧
    ∀ f, d = some f → ∀ cols, Saved (omcEnd (omcThermal d nsamples E ω)) cols ↔
      Successive (fun k => (f E ω k).map fun r => (r.1, r.2.1 / 10 ^ 6, r.2.2)) nsamples cols := by
  constructor
  · rintro rfl; rfl
  · rintro f rfl cols
    exact saved_omc (fun ω k => (f E ω k).map fun r => (r.1, r.2.1 / 10 ^ 6, r.2.2)) ω nsamples cols

private theorem elasticLoop_iff (scatter : ℝ × Vec → Tape → Nat → Res ((ℝ × Vec) × Nat)) (E : ℝ) (ω : Tape) : ∀ (n k : Nat) (cols : List (ℝ × ℝ)),
    omcElasticLoop scatter E ω n (E, omcDirection) k = .ok cols ↔ ∃ k', collect (fun ω k => column
      ((scatter (E, omcDirection) ω k).map fun r => (omcDirection.dot r.1.2, r.1.1 / 10 ^ 6, r.2))) ω n k = .ok (cols, k') := by
  intro n
  induction n with
  | zero =>
    intro k cols
    constructor
    · intro h; cases h; exact ⟨k, rfl⟩
    · rintro ⟨k', h⟩; cases h; rfl
  | succ n ih =>
    intro k cols
    unfold omcElasticLoop collect
    cases hs : scatter (E, omcDirection) ω k with
    | error e =>
      simp only [column, Except.map, bind, Except.bind]
      constructor
      · intro h; cases h
      · rintro ⟨_, h⟩; cases h
    | ok r =>
      obtain ⟨⟨e', u'⟩, k1⟩ := r
      have hcol : column ((Except.ok ((e', u'), k1) : Res ((ℝ × Vec) × Nat)).map fun r => (omcDirection.dot r.1.2, r.1.1 / 10 ^ 6, r.2)) =
          .ok ((e' / 10 ^ 6, omcDirection.dot u'), k1) := rfl
      rw [hcol]
      simp only [bind, Except.bind]
      constructor
      · intro h
        cases hl : omcElasticLoop scatter E ω n (E, omcDirection) k1 with
        | error x => rw [hl] at h; cases h
        | ok xs =>
          rw [hl] at h
          obtain ⟨k', hk⟩ := (ih k1 xs).mp hl
          rw [hk]
          exact ⟨k', by cases h; rfl⟩
      · rintro ⟨k', h⟩
        generalize hc : collect _ ω n k1 = c at h
        cases c with
        | error x => cases h
        | ok y =>
          obtain ⟨xs, k2⟩ := y
          rw [(ih k1 xs).mpr ⟨k2, hc⟩]
          cases h; rfl

/-- **C156** Elastic modes: the rejection correction is refused without a cross section for it; otherwise every sample is a scattering of a neutron of the
energy asked for, in the direction `z`, whatever the samples before. -/
theorem C156_elastic (dbrc resonant : Bool) (scatter : ℝ × Vec → Tape → Nat → Res ((ℝ × Vec) × Nat)) (nsamples : Nat) (E : ℝ) (ω : Tape) :
    (dbrc = true → resonant = false → Refused (omcEnd (omcElastic dbrc resonant scatter nsamples E ω))) ∧
    ((dbrc = false ∨ resonant = true) → ∀ cols, Saved (omcEnd (omcElastic dbrc resonant scatter nsamples E ω)) cols ↔
      Successive (fun k => (scatter (E, ⟨0, 0, 1⟩) ω k).map fun r => (r.1.2.z, r.1.1 / 10 ^ 6, r.2)) nsamples cols) := by
  constructor
  · rintro rfl rfl; rfl
  · intro h cols
    have hb : (dbrc && !resonant) = false := by rcases h with rfl | rfl <;> simp
    have hz : ∀ v : Vec, omcDirection.dot v = v.z := by intro v; simp [omcDirection, Vec.dot]
    have hsucc : (fun k => (scatter (E, ⟨0, 0, 1⟩) ω k).map fun r => (r.1.2.z, r.1.1 / 10 ^ 6, r.2)) =
        fun k => (scatter (E, omcDirection) ω k).map fun r => (omcDirection.dot r.1.2, r.1.1 / 10 ^ 6, r.2) := by
      simp only [hz]; rfl
    rw [hsucc]
    unfold Successive
    rw [← collect_iff (fun ω k => (scatter (E, omcDirection) ω k).map fun r => (omcDirection.dot r.1.2, r.1.1 / 10 ^ 6, r.2)) ω nsamples 0 cols,
      ← elasticLoop_iff]
    unfold Saved omcEnd omcElastic
    rw [hb]
    cases omcElasticLoop scatter E ω nsamples (E, omcDirection) 0 with
    | error e => simp [bind, Except.bind]
    | ok xs => simp [bind, Except.bind, pure, Except.pure]

/-- **C156** The warnings that are right: sopenmc's about thermal laws, spndl's about the asymptotic approximation. -/
theorem C156_warnings_partial (m : ToolMode) (E T : ℝ) :
    (omcWarnsThermal m E = true ↔ ShouldWarnThermal m E) ∧ (spndlWarnsSvt m E T = true ↔ ShouldWarnSvt m E T) := by
  constructor
  · unfold omcWarnsThermal ShouldWarnThermal thermalMode
    have : E * 10 ^ 6 > 4 ↔ E > 4 / 10 ^ 6 := by
      rw [gt_iff_lt, gt_iff_lt, div_lt_iff₀ (by norm_num)]
    cases m <;> simp [this]
  · unfold spndlWarnsSvt ShouldWarnSvt
    have : (400 : ℝ) * 8.617333262e-5 * T * 1e-6 = 400 * (8.617333262e-5 / 10 ^ 6 * T) := by norm_num; ring
    rw [this]
    cases m <;> simp

/-- **C156** The full claim is false of the code: spndl compares MeV with 4, so it does not warn about a thermal law sampled at 1 MeV, and warns in the
elastic modes; sopenmc compares eV with MeV, and warns of the asymptotic approximation at 1 eV and 300 K, a tenth of 400 kT. -/
theorem C156_violation_warnings :
    (ShouldWarnThermal .coherent 1 ∧ spndlWarnsThermal .coherent 1 = false) ∧ (¬ ShouldWarnThermal .svt 5 ∧ spndlWarnsThermal .svt 5 = true) ∧
      (¬ ShouldWarnSvt .svt (1 / 10 ^ 6) 300 ∧ omcWarnsSvt .svt (1 / 10 ^ 6) 300 = true) := by
  refine ⟨⟨⟨Or.inl rfl, by norm_num⟩, ?_⟩, ⟨?_, ?_⟩, ?_, ?_⟩
  · simp [spndlWarnsThermal]
  · rintro ⟨h, _⟩
    rcases h with h | h | h <;> cases h
  · simp [spndlWarnsThermal]
    norm_num
  · rintro ⟨_, h⟩
    norm_num at h
  · simp only [omcWarnsSvt, decide_true, Bool.true_and, decide_eq_true_eq]
    norm_num

/-- The hypotheses of `C156_same` can be met: OpenMC's copy of any reaction of the library. -/
example (r : STRxn) (E : ℝ) (fuel : Nat) (ω : Tape) : ∃ ro : OmcReaction,
    SameReaction ro r.threshold E false (fun k => (r.base.dist.toAE fuel).sample E ω k) ω := by
  refine ⟨⟨r.threshold * 10 ^ 6, false, [⟨false, fun _ _ _ => .error .exc⟩,
    ⟨true, fun _ ω k => ((r.base.dist.toAE fuel).sample E ω k).map fun x => (x.1, x.2.1 * 10 ^ 6, x.2.2)⟩]⟩, rfl, rfl,
    [⟨false, fun _ _ _ => .error .exc⟩], _, [], rfl, by simp, rfl, ?_⟩
  intro k mu e k'
  simp only
  cases (r.base.dist.toAE fuel).sample E ω k with
  | error x => simp [Except.map]
  | ok x =>
    obtain ⟨a, b, c⟩ := x
    simp only [Except.map, Except.ok.injEq, Prod.mk.injEq]
    rw [mul_left_inj' (by norm_num : (10 : ℝ) ^ 6 ≠ 0)]

end PNDL
