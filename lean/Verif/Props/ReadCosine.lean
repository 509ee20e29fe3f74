import Verif.Props.ReadSample

/-! C137 — the cosine sampled from a reaction is a cosine. -/
namespace PNDL
open Spec

theorem kalbach_cosine {d : Kalbach} {E : ℝ} {ω : Tape} {k : Nat} {mu e : ℝ} {k' : Nat} (h : d.sample E ω k = .ok (mu, e, k')) : -1 ≤ mu ∧ mu ≤ 1 := by
  unfold Kalbach.sample at h
  obtain ⟨⟨l, f⟩, _, h⟩ := bind_ok h
  dsimp only at h
  obtain ⟨_, _, h⟩ := bind_ok h
  obtain ⟨_, _, h⟩ := bind_ok h
  obtain ⟨_, _, h⟩ := bind_ok h
  obtain ⟨_, _, h⟩ := bind_ok h
  obtain ⟨_, _, h⟩ := bind_ok h
  obtain ⟨_, _, h⟩ := bind_ok h
  cases h
  exact clampMu_mem _

theorem eaTable_cosine {t : EATable} {ω : Tape} {k : Nat} {mu e : ℝ} {k' : Nat} (h : t.sample ω k = .ok (mu, e, k')) : -1 ≤ mu ∧ mu ≤ 1 := by
  unfold EATable.sample at h
  dsimp only at h
  obtain ⟨_, _, h⟩ := bind_ok h
  obtain ⟨_, _, h⟩ := bind_ok h
  obtain ⟨_, _, h⟩ := bind_ok h
  obtain ⟨_, _, h⟩ := bind_ok h
  obtain ⟨_, _, h⟩ := bind_ok h
  split at h
  · obtain ⟨_, _, h⟩ := bind_ok h
    obtain ⟨_, _, h⟩ := bind_ok h
    obtain ⟨_, _, h⟩ := bind_ok h
    cases h
    exact clampMu_mem _
  · obtain ⟨_, _, h⟩ := bind_ok h
    obtain ⟨_, _, h⟩ := bind_ok h
    obtain ⟨_, _, h⟩ := bind_ok h
    obtain ⟨_, _, h⟩ := bind_ok h
    obtain ⟨_, _, h⟩ := bind_ok h
    obtain ⟨_, _, h⟩ := bind_ok h
    obtain ⟨_, _, h⟩ := bind_ok h
    cases h
    exact clampMu_mem _

theorem tabEnergyAngle_cosine {d : TabEnergyAngle} {E : ℝ} {ω : Tape} {k : Nat} {mu e : ℝ} {k' : Nat} (h : d.sample E ω k = .ok (mu, e, k')) :
    -1 ≤ mu ∧ mu ≤ 1 := by
  unfold TabEnergyAngle.sample at h
  obtain ⟨⟨l, f⟩, _, h⟩ := bind_ok h
  dsimp only at h
  obtain ⟨_, _, h⟩ := bind_ok h
  obtain ⟨_, _, h⟩ := bind_ok h
  obtain ⟨_, _, h⟩ := bind_ok h
  obtain ⟨⟨⟨mu', Eh, k''⟩, a, b⟩, hp, h⟩ := bind_ok h
  dsimp only at h
  obtain ⟨_, _, h⟩ := bind_ok h
  cases h
  split at hp
  · obtain ⟨p, hp1, hp⟩ := bind_ok hp
    cases hp
    exact eaTable_cosine hp1
  · obtain ⟨p, hp1, hp⟩ := bind_ok hp
    cases hp
    exact eaTable_cosine hp1

theorem nbody_cosine {d : NBody} {E : ℝ} {ω : Tape} (hω : UnitTape ω) {k : Nat} {mu e : ℝ} {k' : Nat} (h : d.sample E ω k = .ok (mu, e, k')) :
    -1 ≤ mu ∧ mu ≤ 1 := by
  unfold NBody.sample at h
  obtain ⟨x, _, h⟩ := bind_ok h
  dsimp only at h
  obtain ⟨⟨y, kk⟩, _, h⟩ := bind_ok h
  dsimp only at h
  obtain ⟨q, _, h⟩ := bind_ok h
  cases h
  have := hω kk
  exact ⟨by linarith, by linarith⟩

theorem law_cosine {l : Law} {fuel : Nat} {E : ℝ} {ω : Tape} (hω : UnitTape ω) {k : Nat} {mu e : ℝ} {k' : Nat}
    (h : (l.toAE fuel).sample E ω k = .ok (mu, e, k')) : -1 ≤ mu ∧ mu ≤ 1 := by
  cases l with
  | uncorrelated u =>
    have h : u.sample fuel E ω k = .ok (mu, e, k') := h
    unfold Uncorr.sample at h
    obtain ⟨⟨m, k1⟩, h1, h⟩ := bind_ok h
    dsimp only at h
    obtain ⟨⟨e', k2⟩, _, h⟩ := bind_ok h
    cases h
    exact C35_distribution_range _ _ _ hω _ _ _ _ h1
  | kalbach d => exact kalbach_cosine h
  | tabEnergyAngle d => exact tabEnergyAngle_cosine h
  | nbody d => exact nbody_cosine hω h

/-- In the lab the cosine is a cosine even for an emission at rest in the centre-of-mass frame. -/
theorem lab_cosine {E A mu Eo muL EL : ℝ} (hE : 0 < E) (hA : 0 < A) (h1 : -1 ≤ mu) (h2 : mu ≤ 1) (h : cmToLab E A mu Eo = .ok (muL, EL)) :
    -1 ≤ muL ∧ muL ≤ 1 := by
  have hEo : 0 ≤ Eo := by
    by_contra hc
    have h' := h
    unfold cmToLab at h'
    rw [csqrt_bad (mul_neg_of_pos_of_neg hE (not_le.mp hc))] at h'
    cases h'
  rcases lt_or_eq_of_le hEo with hp | hz
  · obtain ⟨a, b, _⟩ := C45_cosine E A mu Eo muL EL hE.le (by linarith) hp h1 h2 h
    exact ⟨a, b⟩
  · subst hz
    have hA1 : (0 : ℝ) < A + 1 := by linarith
    have hpos : 0 < E / (A + 1) ^ 2 := by positivity
    unfold cmToLab at h
    rw [csqrt_ok (by simp)] at h
    simp only [bind, Except.bind, mul_zero, Real.sqrt_zero, add_zero, zero_add, rdiv_ok hA1.ne', rdiv_ok (pow_pos hA1 2).ne',
      rdiv_ok hpos.ne', zero_div, csqrt_ok (le_refl (0 : ℝ))] at h
    rw [csqrt_ok (by positivity)] at h
    have e1 : E / (E / (A + 1) ^ 2) = (A + 1) ^ 2 := by field_simp
    simp only [e1, Real.sqrt_sq hA1.le, pure, Except.pure, mul_zero, zero_add] at h
    have := Except.ok.inj h
    have e2 : 1 / (A + 1) * (A + 1) = muL := congrArg Prod.fst this
    rw [← e2, one_div, inv_mul_cancel₀ hA1.ne']
    exact ⟨by norm_num, le_refl _⟩

/-- The weight ratios inside a distribution. -/
def ratioPos : NDist → Prop
  | .cm awr _ d => 0 < awr ∧ ratioPos d
  | _ => True

theorem dist_cosine {fuel : Nat} {E : ℝ} (hE : 0 < E) {ω : Tape} (hω : UnitTape ω) : ∀ (d : NDist), ratioPos d → ∀ {k : Nat} {mu e : ℝ} {k' : Nat},
    (d.toAE fuel).sample E ω k = .ok (mu, e, k') → -1 ≤ mu ∧ mu ≤ 1
  | .absorption _, _, _, _, _, _, h => by cases h
  | .one l, _, _, _, _, _, h => law_cosine hω h
  | .several ls, _, k, mu, e, k', h => by
    have h : Multi.sample ⟨ls.map (fun p => p.1.toAE fuel), ls.map Prod.snd⟩ E ω k = .ok (mu, e, k') := h
    have hd : ∀ d ∈ ls.map (fun p => p.1.toAE fuel), ∀ k, d.sample E ω k = .ok (mu, e, k') → -1 ≤ mu ∧ mu ≤ 1 := by
      intro d hd k h
      obtain ⟨p, hp, rfl⟩ := List.mem_map.mp hd
      exact law_cosine hω h
    unfold Multi.sample at h
    dsimp only at h
    obtain ⟨s, hsel, h⟩ := bind_ok h
    cases s with
    | some d => exact hd d (select_mem _ _ _ _ _ _ hsel) _ h
    | none =>
      obtain ⟨d, hb, h⟩ := bind_ok h
      exact hd d (List.mem_of_getLast? (back_eq_ok.mp hb)) _ h
  | .cm awr q d, hr, k, mu, e, k', h => by
    have h : CMDist.sample ⟨awr, q, d.toAE fuel⟩ E ω k = .ok (mu, e, k') := h
    unfold CMDist.sample at h
    obtain ⟨⟨m, eo, k1⟩, h1, h⟩ := bind_ok h
    dsimp only at h
    obtain ⟨⟨mL, eL⟩, h2, h⟩ := bind_ok h
    cases h
    obtain ⟨a, b⟩ := dist_cosine hE hω d hr.2 h1
    exact lab_cosine hE hr.1 a b h2

theorem makeAce_ratio {a : AceBlocks} {indx fuel : Nat} {r : RxnBase} (h : RxnBase.makeAce a indx fuel = .ok r) (ha : 0 < a.awr) : ratioPos r.dist := by
  unfold RxnBase.makeAce at h
  obtain ⟨mt, _, h⟩ := bind_ok h
  obtain ⟨q, _, h⟩ := bind_ok h
  obtain ⟨tyr, _, h⟩ := bind_ok h
  obtain ⟨y, _, h⟩ := bind_ok h
  split at h
  · obtain ⟨ls, hl, h⟩ := bind_ok h
    obtain ⟨d, hd, h⟩ := bind_ok h
    cases h
    have hd' : ratioPos d := by
      match ls, hd with
      | [l], hd => cases hd; trivial
      | l1 :: l2 :: ls, hd => cases hd; trivial
    show ratioPos (if tyr < 0 then .cm a.awr q d else d)
    by_cases ht : tyr < 0
    · rw [if_pos ht]; exact ⟨ha, hd'⟩
    · rw [if_neg ht]; exact hd'
  · cases h
    trivial

/-- **C137** For every file with a positive weight ratio, every reaction in it, every positive energy, every threshold and every stream of numbers in
`[0, 1)`: if sampling returns, the cosine is in `[-1, 1]` — whatever the law, its tables, and the frame they are given in. -/
theorem C137_reaction (a : AceBlocks) (ha : 0 < a.awr) (indx fuel : Nat) (r : RxnBase) (h : RxnBase.makeAce a indx fuel = .ok r) (threshold E : ℝ)
    (hE : 0 < E) (ω : Tape) (hω : UnitTape ω) (fuel' k : Nat) (mu e : ℝ) (k' : Nat) (hs : r.sample threshold fuel' E ω k = .ok (mu, e, k')) :
    -1 ≤ mu ∧ mu ≤ 1 := by
  unfold RxnBase.sample at hs
  by_cases ht : E < threshold
  · rw [if_pos ht] at hs; cases hs; norm_num
  · rw [if_neg ht] at hs
    exact dist_cosine hE hω r.dist (makeAce_ratio h ha) hs

theorem Spec.Read.base_pos {fuel : Nat} {f : AceFile} {a : AceIn ℝ} {n : Nuc} (h : Read fuel f a n) {mt : Nat} {r : STRxn} (hr : n.reaction mt = .ok r) :
    ∃ (f' : AceFile) (k : Nat), 0 < f'.awr ∧ RxnBase.makeAce f'.toAceBlocks k fuel = .ok r.base := by
  induction h generalizing r with
  | direct h hn =>
    obtain ⟨_, _, _, _, _, _, _, _, _, _, hp, _⟩ := C99_elastic _ _ _ hn
    rcases C99_reactions _ fuel _ hn _ h mt with ⟨_, _, r', k, e, h1, _, _, _, h5, _⟩ | ⟨_, _, h3⟩
    · rw [hr] at h1; cases h1
      exact ⟨_, k, hp, h5⟩
    · rw [hr] at h3; cases h3
  | shared _ h hn ih =>
    obtain ⟨r0, k, e, h1, h2, _⟩ := C100_reactions _ _ _ hn _ h mt r hr
    rw [h2]
    exact ih h1

/-- **C137** Every reaction of every nuclide a program can construct returns only cosines in `[-1, 1]`, at every positive energy. -/
theorem C137_nuclide (fuel : Nat) (f : AceFile) (a : AceIn ℝ) (n : Nuc) (hn : Read fuel f a n) (mt : Nat) (r : STRxn) (hr : n.reaction mt = .ok r)
    (E : ℝ) (hE : 0 < E) (ω : Tape) (hω : UnitTape ω) (fuel' k : Nat) (mu e : ℝ) (k' : Nat)
    (hs : r.base.sample r.threshold fuel' E ω k = .ok (mu, e, k')) : -1 ≤ mu ∧ mu ≤ 1 := by
  obtain ⟨f', i, hp, hb⟩ := hn.base_pos hr
  exact C137_reaction _ hp _ _ _ hb _ E hE ω hω fuel' k mu e k' hs

/-- **C137** The elastic scattering angle in the centre-of-mass frame of a nuclide made from one file. -/
theorem C137_elastic (f : AceFile) (fuel : Nat) (n : Nuc) (hn : Nuc.makeAce f fuel = .ok n) (ω : Tape) (hω : UnitTape ω) (E : ℝ) (k : Nat) (mu : ℝ)
    (k' : Nat) (hs : n.elastic.angle E ω k = .ok (mu, k')) : -1 ≤ mu ∧ mu ≤ 1 := by
  obtain ⟨l, d, h1, h2, h3, _⟩ := C99_elastic f fuel n hn
  rw [h3] at hs
  exact C35_distribution_range d E ω hω fuel k k' mu hs

/-- A concrete sample that meets the hypotheses: the level reaction of `C136_hypotheses` at energy 12, first number drawn 3/4. -/
example : ∃ r, RxnBase.makeAce exBlocks 0 1 = .ok r ∧ 0 < exBlocks.awr ∧ ∃ mu e, r.sample 5 0 12 (fun _ => 3 / 4) 0 = .ok (mu, e, 1) := by
  obtain ⟨r, h1, _, h3⟩ := C136_hypotheses
  refine ⟨r, h1 0, by norm_num [exBlocks], ?_⟩
  have hl : lowerBound [(1 / 10 ^ 5 : ℝ)] 12 = 1 := by
    apply lowerBound_unique (by norm_num) _ (by simp)
    intro i a hi
    match i, hi with
    | 0, hi => simp at hi; subst hi; norm_num
    | (i + 1), hi => simp at hi
  have hang : AngleDist.sample ⟨[1 / 10 ^ 5], [.isotropic]⟩ 0 12 (fun _ => 3 / 4) 0 = .ok (1 / 2, 1) := by
    unfold AngleDist.sample AngleDist.find
    simp only [hl, List.length_singleton, one_ne_zero, if_false, if_true, back, bind, Except.bind, List.getLast?_singleton, pure, Except.pure]
    show Except.ok (clampMu (2 * (3 / 4) - 1), 0 + 1) = _
    rw [clampMu_of_mem (by norm_num) (by norm_num)]
    norm_num
  have hu : Uncorr.sample 0 ⟨⟨[1 / 10 ^ 5], [.isotropic]⟩, .level ⟨3, 1/2⟩⟩ 12 (fun _ => 3 / 4) 0 = .ok (1 / 2, 9 / 2, 1) := by
    unfold Uncorr.sample
    rw [hang]
    simp only [bind, Except.bind, ELaw.sample, Level.sample, pure, Except.pure]
    norm_num
  unfold RxnBase.sample
  rw [if_neg (by norm_num), h3]
  show ∃ mu e, CMDist.sample ⟨10, -2, (NDist.one (.uncorrelated ⟨⟨[1 / 10 ^ 5], [.isotropic]⟩, .level ⟨3, 1/2⟩⟩)).toAE 0⟩ 12 (fun _ => 3 / 4) 0 = .ok (mu, e, 1)
  unfold CMDist.sample
  show ∃ mu e, (Uncorr.sample 0 ⟨⟨[1 / 10 ^ 5], [.isotropic]⟩, .level ⟨3, 1/2⟩⟩ 12 (fun _ => 3 / 4) 0 >>= _) = .ok (mu, e, 1)
  rw [hu]
  obtain ⟨mL, eL, hc⟩ := C44_defined 12 10 (1 / 2) (9 / 2) (by norm_num) (by norm_num) (by norm_num) (by norm_num) (by norm_num) (by norm_num)
  refine ⟨mL, eL, ?_⟩
  simp only [bind, Except.bind, hc, pure, Except.pure]

end PNDL
