import Verif.Props.DBRC
import Verif.Props.Elastic
import Verif.Props.Spectra
import Verif.Lemmas.STNeutron

/-! C73: sampling of the velocity of the target (src/elastic_svt.cpp, src/elastic_dbrc.cpp). -/
namespace PNDL
open Spec

/-- The relative speed of two velocities is at most the sum of the speeds, in the reduced units of the sampler. -/
theorem svt_rel_bounds {x2 y mu : ℝ} (hx : 0 ≤ x2) (hy : 0 ≤ y) (h1 : -1 ≤ mu) (h2 : mu ≤ 1) :
    0 ≤ y * y + x2 - 2 * y * Real.sqrt x2 * mu ∧ Real.sqrt (y * y + x2 - 2 * y * Real.sqrt x2 * mu) ≤ Real.sqrt x2 + y := by
  have hs : Real.sqrt x2 ^ 2 = x2 := Real.sq_sqrt hx
  have hp : 0 ≤ Real.sqrt x2 := Real.sqrt_nonneg _
  obtain ⟨x, hx'⟩ : ∃ x, x = Real.sqrt x2 := ⟨_, rfl⟩
  rw [← hx'] at hs hp ⊢
  have hyx : 0 ≤ y * x := mul_nonneg hy hp
  constructor
  · nlinarith [sq_nonneg (y - x)]
  · rw [Real.sqrt_le_left (by linarith)]
    nlinarith

/-- **C73** The acceptance probability is defined and in `[0, 1]`. -/
theorem C73_accept_range (x2 y mu : ℝ) (hx : 0 ≤ x2) (hy : 0 ≤ y) (hpos : 0 < Real.sqrt x2 + y) (h1 : -1 ≤ mu) (h2 : mu ≤ 1) :
    ∃ p, svtAccept x2 y mu = .ok p ∧ 0 ≤ p ∧ p ≤ 1 := by
  obtain ⟨a, b⟩ := svt_rel_bounds hx hy h1 h2
  refine ⟨Real.sqrt (y * y + x2 - 2 * y * Real.sqrt x2 * mu) / (Real.sqrt x2 + y), ?_, by positivity, by rwa [div_le_one hpos]⟩
  unfold svtAccept
  simp only [bind, Except.bind, csqrt_ok hx, csqrt_ok a, rdiv_ok hpos.ne']

/-- The outcome of one pass of the sampling loop, with the draws from position `j` on: `x2` is a value of the reduced speed squared drawn from
the first law with probability `P`, else from the second; `m` is the position of the next draw. -/
def Spec.SpeedDraw (P : ℝ) (ω : Tape) (j : Nat) (x2 : ℝ) (m : Nat) : Prop :=
  (ω j < P ∧ x2 = -Real.log (ω (j + 1) * ω (j + 2)) ∧ m = j + 3) ∨
  (P ≤ ω j ∧ x2 = -Real.log (ω (j + 2)) - Real.log (ω (j + 3)) * Real.cos (Real.pi / 2 * ω (j + 1)) ^ 2 ∧ m = j + 4)

theorem svtX_spec {P : ℝ} {ω : Tape} (hω : OpenTape ω) (j : Nat) :
    ∃ x2 m, svtX P ω j = (.ok x2, m) ∧ SpeedDraw P ω j x2 m ∧ 0 < x2 := by
  have neg : ∀ i, Real.log (ω i) < 0 := fun i => Real.log_neg (hω i).1 (hω i).2
  unfold svtX
  split
  · rename_i h
    have hm : 0 < ω (j + 1) * ω (j + 2) := mul_pos (hω _).1 (hω _).1
    rw [clog_ok hm]
    refine ⟨_, _, rfl, .inl ⟨h, rfl, rfl⟩, ?_⟩
    have : Real.log (ω (j + 1) * ω (j + 2)) < 0 := by
      apply Real.log_neg hm
      nlinarith [(hω (j + 1)).1, (hω (j + 1)).2, (hω (j + 2)).1, (hω (j + 2)).2]
    linarith
  · rename_i h
    rw [clog_ok (hω _).1, clog_ok (hω _).1]
    refine ⟨_, _, rfl, .inr ⟨not_lt.mp h, ?_, rfl⟩, ?_⟩
    · ring
    · have h1 := neg (j + 2)
      have h2 := neg (j + 3)
      nlinarith [mul_self_nonneg (Real.cos (Real.pi / 2 * ω (j + 1)))]

theorem svtLoop_spec {y P : ℝ} {ω : Tape} (hω : OpenTape ω) : ∀ (fuel k k' : Nat) (x2 mu : ℝ),
    svtLoop y P ω fuel k = .ok (x2, mu, k') →
    ∃ j m p, k ≤ j ∧ SpeedDraw P ω j x2 m ∧ 0 < x2 ∧ mu = 2 * ω m - 1 ∧ svtAccept x2 y mu = .ok p ∧ ω (m + 1) < p ∧ k' = m + 2 := by
  intro fuel
  induction fuel with
  | zero => intro k k' x2 mu h; cases h
  | succ fuel ih =>
    intro k k' x2 mu h
    unfold svtLoop at h
    obtain ⟨z, m, hz, hd, hp⟩ := svtX_spec (P := P) hω k
    have hm : k ≤ m := by rcases hd with ⟨_, _, h⟩ | ⟨_, _, h⟩ <;> omega
    rw [hz] at h
    simp only [Except.bind] at h
    obtain ⟨o, ho⟩ : ∃ o, o = svtAccept z y (2 * ω m - 1) := ⟨_, rfl⟩
    rw [← ho] at h
    cases o with
    | error e =>
      simp only at h
      obtain ⟨j, m', p, a, b⟩ := ih _ _ _ _ h
      exact ⟨j, m', p, by omega, b⟩
    | ok p =>
      simp only at h
      by_cases hlt : ω (m + 1) < p
      · rw [if_pos hlt] at h
        simp only [Except.ok.injEq, Prod.mk.injEq] at h
        obtain ⟨rfl, rfl, rfl⟩ := h
        exact ⟨k, m, p, le_rfl, hd, hp, rfl, ho.symm, hlt, rfl⟩
      · rw [if_neg hlt] at h
        simp only at h
        obtain ⟨j, m', p, a, b⟩ := ih _ _ _ _ h
        exact ⟨j, m', p, by omega, b⟩

/-- **C73** The sampled target velocity `vt`: its speed is `√(x² kT / A)` with `x²` drawn from the mixture of the two laws, its cosine to the
neutron direction is the next draw brought to `[-1, 1]`, and it was accepted with the probability (relative speed) / (sum of the speeds). -/
theorem C73_sample (fuel : Nat) (E kT awr : ℝ) (hE : 0 ≤ E) (hkT : 0 < kT) (hA : 0 < awr) (ω : Tape) (hω : OpenTape ω) (k k' : Nat) (vt : Vec)
    (h : svtSample fuel E kT awr ω k = .ok (vt, k')) :
    ∃ j x2 m, k ≤ j ∧ SpeedDraw (2 / (Real.sqrt Real.pi * Real.sqrt (awr * E / kT) + 2)) ω j x2 m ∧
      vt.mag ^ 2 = x2 * kT / awr ∧ vt.z = (2 * ω m - 1) * vt.mag ∧
      ω (m + 1) < ((Vec.mk 0 0 (Real.sqrt E)).sub vt).mag / (vt.mag + Real.sqrt E) ∧ k' = m + 3 := by
  unfold svtSample at h
  have hq : 0 ≤ awr * E / kT := by positivity
  obtain ⟨y, hy⟩ : ∃ y, y = Real.sqrt (awr * E / kT) := ⟨_, rfl⟩
  have hy0 : 0 ≤ y := by rw [hy]; exact Real.sqrt_nonneg _
  have hy2 : y ^ 2 = awr * E / kT := by rw [hy]; exact Real.sq_sqrt hq
  have hden : 0 < Real.sqrt Real.pi * y + 2 := by positivity
  rw [rdiv_ok hkT.ne'] at h
  simp only [Except.bind] at h
  rw [csqrt_ok hq, ← hy] at h
  simp only [bind, Except.bind] at h
  rw [rdiv_ok hden.ne'] at h
  simp only at h
  obtain ⟨o, ho⟩ : ∃ o, o = svtLoop y (2 / (Real.sqrt Real.pi * y + 2)) ω fuel k := ⟨_, rfl⟩
  rw [← ho] at h
  cases o with
  | error e => cases h
  | ok r =>
    obtain ⟨x2, mu, k1⟩ := r
    obtain ⟨j, m, p, hj, hd, hx2, hmu, hp, hlt, hk1⟩ := svtLoop_spec hω _ _ _ _ _ ho.symm
    simp only at h
    have hr : 0 < x2 * kT / awr := by positivity
    rw [rdiv_ok hA.ne'] at h
    simp only at h
    rw [csqrt_ok hr.le] at h
    simp only at h
    have hm1 : -1 ≤ mu := by rw [hmu]; linarith [(hω m).1]
    have hm2 : mu ≤ 1 := by rw [hmu]; linarith [(hω m).2]
    obtain ⟨u, hu, hunit, hdot⟩ := C47_cosine ⟨0, 0, 1⟩ (by unfold IsUnit3; norm_num) mu (2 * Real.pi * ω k1) hm1 hm2
    rw [hu] at h
    simp only [pure, Except.pure, Except.ok.injEq, Prod.mk.injEq] at h
    obtain ⟨rfl, rfl⟩ := h
    obtain ⟨st, hst⟩ : ∃ st, st = Real.sqrt (x2 * kT / awr) := ⟨_, rfl⟩
    have hst0 : 0 < st := by rw [hst]; exact Real.sqrt_pos.mpr hr
    have hst2 : st ^ 2 = x2 * kT / awr := by rw [hst]; exact Real.sq_sqrt hr.le
    have hz : u.z = mu := by rw [← hdot]; unfold Vec.dot; ring
    have hmag : (u.smul st).mag = st := by
      unfold Vec.mag Vec.smul
      simp only
      rw [Real.sqrt_eq_iff_mul_self_eq (by nlinarith [mul_self_nonneg (u.x * st), mul_self_nonneg (u.y * st), mul_self_nonneg (u.z * st)]) hst0.le]
      unfold IsUnit3 at hunit
      linear_combination (st ^ 2) * hunit
    rw [← hst, hmag]
    have hsE : Real.sqrt E ^ 2 = E := Real.sq_sqrt hE
    have hsE0 := Real.sqrt_nonneg E
    refine ⟨j, x2, m, hj, hy ▸ hd, hst2, ?_, ?_, by omega⟩
    · rw [← hmu, ← hz]; unfold Vec.smul; ring
    · -- the acceptance probability in terms of the velocities
      have hx0 : 0 < Real.sqrt x2 := Real.sqrt_pos.mpr hx2
      have hxx : Real.sqrt x2 ^ 2 = x2 := Real.sq_sqrt hx2.le
      obtain ⟨b1, b2⟩ := svt_rel_bounds hx2.le hy0 hm1 hm2
      have hp' : p = Real.sqrt (y * y + x2 - 2 * y * Real.sqrt x2 * mu) / (Real.sqrt x2 + y) := by
        unfold svtAccept at hp
        simp only [bind, Except.bind, csqrt_ok hx2.le, csqrt_ok b1, rdiv_ok (show Real.sqrt x2 + y ≠ 0 by positivity), Except.ok.injEq] at hp
        exact hp.symm
      obtain ⟨f, hf⟩ : ∃ f, f = Real.sqrt (kT / awr) := ⟨_, rfl⟩
      have hf0 : 0 < f := by rw [hf]; exact Real.sqrt_pos.mpr (by positivity)
      have hf2 : f ^ 2 = kT / awr := by rw [hf]; exact Real.sq_sqrt (by positivity)
      have e1 : st = f * Real.sqrt x2 := by
        rw [hst, Real.sqrt_eq_iff_mul_self_eq hr.le (by positivity)]
        have : f * Real.sqrt x2 * (f * Real.sqrt x2) = f ^ 2 * Real.sqrt x2 ^ 2 := by ring
        rw [this, hf2, hxx]; ring
      have e2 : Real.sqrt E = f * y := by
        rw [Real.sqrt_eq_iff_mul_self_eq hE (by positivity)]
        have : f * y * (f * y) = f ^ 2 * y ^ 2 := by ring
        rw [this, hf2, hy2]; field_simp
      have e3 : ((Vec.mk 0 0 (Real.sqrt E)).sub (u.smul st)).mag = f * Real.sqrt (y * y + x2 - 2 * y * Real.sqrt x2 * mu) := by
        unfold Vec.mag Vec.sub Vec.smul
        simp only
        rw [Real.sqrt_eq_iff_mul_self_eq (by
          nlinarith [mul_self_nonneg (0 - u.x * st), mul_self_nonneg (0 - u.y * st), mul_self_nonneg (Real.sqrt E - u.z * st)]) (by positivity)]
        have : f * Real.sqrt (y * y + x2 - 2 * y * Real.sqrt x2 * mu) * (f * Real.sqrt (y * y + x2 - 2 * y * Real.sqrt x2 * mu)) =
            f ^ 2 * Real.sqrt (y * y + x2 - 2 * y * Real.sqrt x2 * mu) ^ 2 := by ring
        rw [this, Real.sq_sqrt b1, e1, e2, ← hz]
        unfold IsUnit3 at hunit
        linear_combination (f ^ 2 * Real.sqrt x2 ^ 2) * hunit + f ^ 2 * hxx
      rw [e3, e1, e2, ← mul_add, mul_div_mul_left _ _ hf0.ne', ← hp']
      exact hlt

theorem dbrcLoop_spec {g : EGrid} {s : XS ℝ} {E kT awr sE lo hi M : ℝ} {sfuel : Nat} {ω : Tape} : ∀ (fuel k k' : Nat) (vt : Vec),
    dbrcLoop g s E kT awr sE lo hi M sfuel ω fuel k = .ok (vt, k') →
    ∃ k0 k1 i x, svtSample sfuel E kT awr ω k0 = .ok (vt, k1) ∧
      lo ≤ ((Vec.mk 0 0 sE).sub vt).dot ((Vec.mk 0 0 sE).sub vt) ∧ ((Vec.mk 0 0 sE).sub vt).dot ((Vec.mk 0 0 sE).sub vt) ≤ hi ∧
      g.lowerIndex (((Vec.mk 0 0 sE).sub vt).dot ((Vec.mk 0 0 sE).sub vt)) = .ok i ∧
      s.evalIdx (((Vec.mk 0 0 sE).sub vt).dot ((Vec.mk 0 0 sE).sub vt)) i = .ok x ∧ ω k1 * M < x ∧ k' = k1 + 1 := by
  intro fuel
  induction fuel with
  | zero => intro k k' vt h; cases h
  | succ fuel ih =>
    intro k k' vt h
    unfold dbrcLoop at h
    obtain ⟨⟨w, k1⟩, hw, h⟩ := bind_ok h
    simp only at h
    split at h
    · exact ih _ _ _ h
    · rename_i hr
      rw [not_or, not_lt, not_lt] at hr
      obtain ⟨i, hi, h⟩ := bind_ok h
      obtain ⟨x, hx, h⟩ := bind_ok h
      split at h
      · rename_i hacc
        simp only [pure, Except.pure, Except.ok.injEq, Prod.mk.injEq] at h
        obtain ⟨rfl, rfl⟩ := h
        exact ⟨k, k1, i, x, hw, hr.1, hr.2, hi, hx, hacc, rfl⟩
      · exact ih _ _ _ h

/-- **C73** A target velocity returned by the Doppler-broadening rejection: it was sampled by SVT; the energy of the relative motion is within
the window `[(max(0, y - 4))² kT/A, (y + 4)² kT/A]`; and it was accepted with the probability (cross section at that energy) / (value returned
by `max_xs_value` for that window). -/
theorem C73_dbrc (g : EGrid) (s : XS ℝ) (sfuel fuel : Nat) (E kT awr : ℝ) (hE : 0 ≤ E) (hkT : 0 < kT) (hA : 0 < awr) (ω : Tape) (k k' : Nat)
    (vt : Vec) (h : dbrcSample g s sfuel fuel E kT awr ω k = .ok (vt, k')) :
    ∃ lo hi Er M x k0 k1 i, lo = max 0 (Real.sqrt (awr * E / kT) - 4) ^ 2 * kT / awr ∧ hi = (Real.sqrt (awr * E / kT) + 4) ^ 2 * kT / awr ∧
      Er = vt.x ^ 2 + vt.y ^ 2 + (Real.sqrt E - vt.z) ^ 2 ∧ lo ≤ Er ∧ Er ≤ hi ∧
      svtSample sfuel E kT awr ω k0 = .ok (vt, k1) ∧ maxXs g s lo hi = .ok M ∧
      g.lowerIndex Er = .ok i ∧ s.evalIdx Er i = .ok x ∧ ω k1 * M < x ∧ k' = k1 + 1 := by
  unfold dbrcSample at h
  have hq : 0 ≤ awr * E / kT := by positivity
  rw [csqrt_ok hE, rdiv_ok hkT.ne'] at h
  simp only [bind, Except.bind] at h
  rw [csqrt_ok hq] at h
  simp only at h
  rw [rdiv_ok hA.ne', rdiv_ok hA.ne'] at h
  simp only at h
  obtain ⟨o, ho⟩ : ∃ o, o = maxXs g s (max 0 (Real.sqrt (awr * E / kT) - 4) * max 0 (Real.sqrt (awr * E / kT) - 4) * kT / awr)
    ((Real.sqrt (awr * E / kT) + 4) * (Real.sqrt (awr * E / kT) + 4) * kT / awr) := ⟨_, rfl⟩
  rw [← ho] at h
  cases o with
  | error e => cases h
  | ok M =>
    simp only at h
    obtain ⟨k0, k1, i, x, h1, h2, h3, h4, h5, h6, h7⟩ := dbrcLoop_spec _ _ _ _ h
    have e : ((Vec.mk 0 0 (Real.sqrt E)).sub vt).dot ((Vec.mk 0 0 (Real.sqrt E)).sub vt) =
        vt.x ^ 2 + vt.y ^ 2 + (Real.sqrt E - vt.z) ^ 2 := by
      unfold Vec.dot Vec.sub; simp only; ring
    rw [e] at h2 h3 h4 h5
    simp only [← sq] at ho h2 h3
    exact ⟨_, _, _, M, x, k0, k1, i, rfl, rfl, rfl, h2, h3, h1, ho.symm, h4, h5, h6, h7⟩

/-- **C73** The majorant dominates, so that the acceptance probability is at most one and is the cross section at the relative energy over the
largest one of the window: for a cross section on a strictly increasing positive grid that covers the window, looked up through the grid it
was made with. -/
theorem C73_dbrc_probability (s : XS ℝ) (hg : GoodXS s) (h0 : s.index = 0) (hs : s.grid.Pairwise (· < ·)) (e0 : ℝ) (he0 : s.grid[0]? = some e0)
    (hpos : 0 < e0) (h32 : s.grid.length < 2 ^ 32) (nbins : Nat) (hn : 1 ≤ nbins) (hn2 : nbins < 2 ^ 32 - 1) (g : EGrid)
    (hgrid : EGrid.make s.grid nbins = .ok g) (sfuel fuel : Nat) (E kT awr : ℝ) (hE : 0 ≤ E) (hkT : 0 < kT) (hA : 0 < awr)
    (hcover : e0 ≤ max 0 (Real.sqrt (awr * E / kT) - 4) ^ 2 * kT / awr) (ω : Tape) (k k' : Nat) (vt : Vec)
    (h : dbrcSample g s sfuel fuel E kT awr ω k = .ok (vt, k')) :
    ∃ Er M x k1, Er = vt.x ^ 2 + vt.y ^ 2 + (Real.sqrt E - vt.z) ^ 2 ∧ s.eval Er = .ok x ∧ ω k1 * M < x ∧ x ≤ M ∧ k' = k1 + 1 ∧
      ∀ E' v, max 0 (Real.sqrt (awr * E / kT) - 4) ^ 2 * kT / awr ≤ E' → E' ≤ (Real.sqrt (awr * E / kT) + 4) ^ 2 * kT / awr →
        s.eval E' = .ok v → v ≤ M := by
  obtain ⟨lo, hi, Er, M, x, k0, k1, i, rfl, rfl, rfl, h1, h2, h3, h4, h5, h6, h7, h8⟩ := C73_dbrc g s sfuel fuel E kT awr hE hkT hA ω k k' vt h
  obtain ⟨g', hg1, hg2, hg3⟩ := C28_lower_index s.grid nbins e0 (hs.imp le_of_lt) he0 hpos h32 hn hn2
  rw [hgrid] at hg1
  cases hg1
  obtain ⟨i', a, b⟩ := hg3 (vt.x ^ 2 + vt.y ^ 2 + (Real.sqrt E - vt.z) ^ 2)
  rw [h5] at a
  cases a
  have hev := C31_agree_partial s hg hs _ e0 e0 i b (by rw [h0]; exact he0) he0 (fun _ => hcover.trans h1) (fun hc => absurd h0 hc)
  rw [h6] at hev
  obtain ⟨M', c1, c2, _⟩ := C50_majorant_partial g s hg2 hg h0 (hs.imp le_of_lt)
    (fun E => by obtain ⟨i, u, v⟩ := hg3 E; exact ⟨i, u, by rw [hg2]; exact v⟩) _ _ e0 he0 hcover (h1.trans h2)
  rw [h4] at c1
  cases c1
  exact ⟨_, M, x, k1, rfl, hev.symm, h7, c2 _ x h1 h2 hev.symm, h8, c2⟩

/-- Non-vacuity of `C73_sample`: a stream of halves is accepted in the first pass. -/
example : ∃ vt k', svtSample 1 1 1 1 (fun _ => 1 / 2) 0 = .ok (vt, k') := by
  have hpi : 0 < Real.sqrt Real.pi := Real.sqrt_pos.mpr Real.pi_pos
  have hω : OpenTape (fun _ => (1 / 2 : ℝ)) := fun _ => ⟨by norm_num, by norm_num⟩
  obtain ⟨P, hP⟩ : ∃ P, P = 2 / (Real.sqrt Real.pi * 1 + 2) := ⟨_, rfl⟩
  obtain ⟨x2, m, hx, hd, hx0⟩ := svtX_spec (P := P) hω 0
  have hs : 0 < Real.sqrt x2 := Real.sqrt_pos.mpr hx0
  have hss : Real.sqrt x2 ^ 2 = x2 := Real.sq_sqrt hx0.le
  have hacc : svtAccept x2 1 (2 * (1 / 2) - 1) = .ok (Real.sqrt (1 * 1 + x2 - 2 * 1 * Real.sqrt x2 * (2 * (1 / 2) - 1)) / (Real.sqrt x2 + 1)) := by
    unfold svtAccept
    simp only [bind, Except.bind, csqrt_ok hx0.le]
    rw [csqrt_ok (by nlinarith)]
    simp only
    rw [rdiv_ok (by positivity)]
  have hlt : (1 / 2 : ℝ) < Real.sqrt (1 * 1 + x2 - 2 * 1 * Real.sqrt x2 * (2 * (1 / 2) - 1)) / (Real.sqrt x2 + 1) := by
    rw [lt_div_iff₀ (by positivity)]
    apply Real.lt_sqrt_of_sq_lt
    nlinarith [sq_nonneg (Real.sqrt x2 - 1)]
  unfold svtSample
  rw [rdiv_ok (by norm_num)]
  simp only [Except.bind]
  rw [csqrt_ok (by norm_num)]
  simp only [bind, Except.bind]
  rw [show Real.sqrt (1 * 1 / 1) = 1 by norm_num, rdiv_ok (by positivity), ← hP]
  have hl : svtLoop 1 P (fun _ => 1 / 2) 1 0 = .ok (x2, 2 * (1 / 2) - 1, m + 2) := by
    unfold svtLoop
    simp only [hx, Except.bind, hacc]
    rw [if_pos hlt]
  simp only [hl]
  rw [rdiv_ok (by norm_num)]
  simp only
  rw [csqrt_ok (by positivity)]
  obtain ⟨u, hu, _, _⟩ := C47_cosine ⟨0, 0, 1⟩ (by unfold IsUnit3; norm_num) (2 * (1 / 2) - 1) (2 * Real.pi * (1 / 2)) (by norm_num) (by norm_num)
  simp only [hu]
  exact ⟨_, _, rfl⟩

end PNDL
