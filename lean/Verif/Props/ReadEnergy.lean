import Verif.Props.ReadCosine

/-! C142 — the energy sampled from a reaction is not negative. -/
namespace PNDL
open Spec

/-- Inside a cell the formula never goes below the left end. -/
theorem cellSample_ge {r : Interpolation} {xi v0 v1 p0 p1 c0 x : ℝ} (hv : v0 ≤ v1) (h0 : 0 ≤ p0) (hx : c0 < xi)
    (h : cellSample r xi v0 v1 p0 p1 c0 = .ok x) : v0 ≤ x := by
  unfold cellSample at h
  by_cases hc : r = .histogram ∨ p0 = p1
  · rw [if_pos hc] at h
    unfold histInterp at h
    obtain ⟨q, hq, h⟩ := bind_ok h
    cases h
    rcases rdiv_cases (xi - c0) p0 with e | e <;> rw [e] at hq <;> cases hq
    have : 0 ≤ (xi - c0) / p0 := div_nonneg (by linarith) h0
    linarith
  · rw [if_neg hc] at h
    unfold linInterp at h
    obtain ⟨m, hm, h⟩ := bind_ok h
    obtain ⟨im, him, h⟩ := bind_ok h
    cases h
    rcases rdiv_cases 1 m with e | e <;> rw [e] at him <;> cases him
    have hs : Real.sqrt (p0 * p0) = p0 := Real.sqrt_mul_self h0
    rcases le_total 0 m with hm0 | hm0
    · have : p0 ≤ Real.sqrt (max (p0 * p0 + 2 * m * (xi - c0)) 0) := by
        rw [← hs]
        exact Real.sqrt_le_sqrt ((by have := mul_nonneg hm0 (sub_nonneg.mpr hx.le); rw [hs]; linarith : p0 * p0 ≤ _).trans (le_max_left _ _))
      have : 0 ≤ 1 / m * (Real.sqrt (max (p0 * p0 + 2 * m * (xi - c0)) 0) - p0) := mul_nonneg (by positivity) (by linarith)
      linarith
    · have : Real.sqrt (max (p0 * p0 + 2 * m * (xi - c0)) 0) ≤ p0 := by
        conv_rhs => rw [← hs]
        refine Real.sqrt_le_sqrt (max_le ?_ (mul_self_nonneg _))
        have := mul_nonpos_of_nonpos_of_nonneg hm0 (sub_nonneg.mpr hx.le)
        linarith
      have : 0 ≤ 1 / m * (Real.sqrt (max (p0 * p0 + 2 * m * (xi - c0)) 0) - p0) :=
        mul_nonneg_of_nonpos_of_nonpos (one_div_nonpos.mpr hm0) (by linarith)
      linarith

/-- A sample is never below the first tabulated value. -/
theorem PCTable.sample_ge {t : PCTable} (hv : ValidPC t) {xi a x : ℝ} (h1 : xi ≤ 1) (ha : t.values[0]? = some a) (h : t.sample xi = .ok x) : a ≤ x := by
  obtain ⟨c, hc⟩ := get_of_lenEq hv.lenC ha
  have hcx : c ≤ xi := by
    by_contra hn
    have := (C32_undefined_iff t hv xi c hc h1).mpr (not_le.mp hn)
    rw [this] at h; cases h
  rcases PCTable.sample_cases hv hc hcx h1 with ⟨l, v, _, hl, hs⟩ | ⟨l, v0, v1, p0, p1, c0, c1, g0, g1, q0, q1, _, _, hx0, _, hs⟩
  · rw [hs] at h; cases h
    exact pairwise_le_getElem? hv.values_sorted (Nat.zero_le _) ha hl
  · rw [hs] at h
    have h2 := cellSample_ge (pairwise_le_getElem? hv.values_sorted (Nat.le_succ _) g0 g1) (hv.pdf_nonneg _ (List.mem_of_getElem? q0)) hx0 h
    exact (pairwise_le_getElem? hv.values_sorted (Nat.zero_le _) ha g0).trans h2

theorem bracketIn_weight {grid : List ℝ} (hs : grid.Pairwise (· ≤ ·)) {E : ℝ} {l : Nat} {f : ℝ} (h : bracketIn grid E = .ok (l, f)) : 0 ≤ f ∧ f ≤ 1 := by
  by_cases h2 : 2 ≤ grid.length
  · obtain ⟨first, h0⟩ := getElem?_of_lt (l := grid) (i := 0) (by omega)
    obtain ⟨last, h1⟩ := last_exists (l := grid) (by omega)
    obtain ⟨l', f', _, _, hb, _, _, _, f0, f1, _⟩ := C67_bracket grid E first last hs h2 h0 h1
    rw [hb] at h; cases h
    exact ⟨f0, f1⟩
  · have hle := lowerBound_le_length grid E
    unfold bracketIn at h
    dsimp only at h
    by_cases h0 : lowerBound grid E = 0
    · rw [if_pos h0] at h; cases h; norm_num
    · rw [if_neg h0, if_pos (by omega)] at h
      unfold subIdx at h
      rw [if_neg (by omega)] at h
      cases h

/-- The scaled energy is not negative. -/
theorem scaled_nonneg {f a0 a1 b0 b1 a b x q : ℝ} (f0 : 0 ≤ f) (f1 : f ≤ 1) (h0 : 0 ≤ a0) (h1 : 0 ≤ a1) (hb0 : a0 ≤ b0) (hb1 : a1 ≤ b1)
    (hab : a ≤ b) (hx : a ≤ x) (hq : rdiv (x - a) (b - a) = .ok q) :
    0 ≤ a0 + f * (a1 - a0) + q * (b0 + f * (b1 - b0) - (a0 + f * (a1 - a0))) := by
  rcases rdiv_cases (x - a) (b - a) with e | e <;> rw [e] at hq <;> cases hq
  have hq0 : 0 ≤ (x - a) / (b - a) := div_nonneg (by linarith) (by linarith)
  have e1 : 0 ≤ a0 + f * (a1 - a0) := by nlinarith
  have e2 : 0 ≤ b0 + f * (b1 - b0) - (a0 + f * (a1 - a0)) := by nlinarith
  have := mul_nonneg hq0 e2
  linarith

theorem sampleBins_nonneg {b : List ℝ} (hb : ∀ x ∈ b, 0 ≤ x) {x1 x2 v : ℝ} (h0 : 0 ≤ x2) (h1 : x2 ≤ 1) (h : sampleBins x1 x2 b = .ok v) : 0 ≤ v := by
  unfold sampleBins at h
  dsimp only at h
  obtain ⟨hi, hhi, h⟩ := bind_ok h
  obtain ⟨lo, hlo, h⟩ := bind_ok h
  cases h
  have e1 := hb hi (List.mem_of_getElem? (getAt_eq_ok.mp hhi))
  have e2 := hb lo (List.mem_of_getElem? (getAt_eq_ok.mp hlo))
  nlinarith

theorem elaw_nonneg {l : ELaw} {fuel : Nat} {E : ℝ} (hE : 0 ≤ E) {ω : Tape} (hω : UnitTape ω) (hw : WFELaw l) (hn : NonnegELaw E l) {k : Nat} {e : ℝ}
    {k' : Nat} (h : l.sample fuel E ω k = .ok (e, k')) : 0 ≤ e := by
  cases l with
  | bins d =>
    have key : ∀ b ∈ d.bins, ∀ k, (do
        let v ← (if false = true then sampleBins (ω (k + 1)) (ω k) b else sampleBins (ω k) (ω (k + 1)) b : Res ℝ)
        return (v, k + 2) : Res (ℝ × Nat)) = .ok (e, k') → 0 ≤ e := by
      intro b hb k h
      obtain ⟨v, hv, h⟩ := bind_ok h
      cases h
      rw [if_neg (by simp)] at hv
      exact sampleBins_nonneg (hn b hb) (hω _).1 (hω _).2.le hv
    have h : d.sample false E ω k = .ok (e, k') := h
    unfold EnergyBins.sample at h
    dsimp only at h
    split at h
    · obtain ⟨b, hb, h⟩ := bind_ok h
      exact key b (List.mem_of_getElem? (front_eq_ok.mp hb)) _ h
    split at h
    · obtain ⟨b, hb, h⟩ := bind_ok h
      exact key b (List.mem_of_getLast? (back_eq_ok.mp hb)) _ h
    obtain ⟨_, _, h⟩ := bind_ok h
    obtain ⟨_, _, h⟩ := bind_ok h
    obtain ⟨_, _, h⟩ := bind_ok h
    obtain ⟨_, _, h⟩ := bind_ok h
    split at h
    · obtain ⟨b, hb, h⟩ := bind_ok h
      exact key b (List.mem_of_getElem? (getAt_eq_ok.mp hb)) _ h
    · obtain ⟨b, hb, h⟩ := bind_ok h
      exact key b (List.mem_of_getElem? (getAt_eq_ok.mp hb)) _ h
  | photon p =>
    obtain ⟨h1, h2⟩ := hw
    have h : p.sample E k = .ok (e, k') := h
    unfold Photon.sample at h
    split at h
    · cases h; exact h1.le
    · rw [rdiv_ok (by linarith)] at h
      have := congrArg Prod.fst (Except.ok.inj h)
      have this : p.Eg + p.A / (p.A + 1) * E = e := this
      rw [← this]
      positivity
  | level l =>
    have h : l.sample E k = .ok (e, k') := h
    unfold Level.sample at h
    cases h
    exact mul_nonneg hn.1 (by linarith [hn.2])
  | tabular d =>
    obtain ⟨hl, hv⟩ := hw
    obtain ⟨hso, hp⟩ := hn
    have h : d.sample E ω k = .ok (e, k') := h
    unfold TabEnergy.sample at h
    obtain ⟨⟨l, f⟩, hb, h⟩ := bind_ok h
    obtain ⟨f0, f1⟩ := bracketIn_weight hso hb
    dsimp only at h
    obtain ⟨t0, g0, h⟩ := bind_ok h
    obtain ⟨t1, g1, h⟩ := bind_ok h
    obtain ⟨a0, ha0, h⟩ := bind_ok h
    obtain ⟨b0, hb0, h⟩ := bind_ok h
    obtain ⟨a1, ha1, h⟩ := bind_ok h
    obtain ⟨b1, hb1, h⟩ := bind_ok h
    obtain ⟨⟨Eh, a, b⟩, hp', h⟩ := bind_ok h
    dsimp only at h
    obtain ⟨q, hq, h⟩ := bind_ok h
    cases h
    have m0 := List.mem_of_getElem? (getAt_eq_ok.mp g0)
    have m1 := List.mem_of_getElem? (getAt_eq_ok.mp g1)
    have v0 := hv t0 m0
    have v1 := hv t1 m1
    have ha0 := front_eq_ok.mp ha0
    have ha1 := front_eq_ok.mp ha1
    have hb0 := back_eq_ok.mp hb0
    have hb1 := back_eq_ok.mp hb1
    have o0 : a0 ≤ b0 := by
      rw [List.getLast?_eq_getElem?] at hb0
      exact pairwise_le_getElem? v0.values_sorted (Nat.zero_le _) ha0 hb0
    have o1 : a1 ≤ b1 := by
      rw [List.getLast?_eq_getElem?] at hb1
      exact pairwise_le_getElem? v1.values_sorted (Nat.zero_le _) ha1 hb1
    have n0 := hp t0 m0 a0 (List.mem_of_getElem? ha0)
    have n1 := hp t1 m1 a1 (List.mem_of_getElem? ha1)
    split at hp'
    · obtain ⟨x, hx, hp'⟩ := bind_ok hp'
      cases hp'
      exact scaled_nonneg f0 f1 n0 n1 o0 o1 o0 (PCTable.sample_ge v0 (hω _).2.le ha0 hx) hq
    · obtain ⟨x, hx, hp'⟩ := bind_ok hp'
      cases hp'
      exact scaled_nonneg f0 f1 n0 n1 o0 o1 o1 (PCTable.sample_ge v1 (hω _).2.le ha1 hx) hq
  | genEvap t b =>
    have h : genEvapSample t b E ω k = .ok (e, k') := h
    unfold genEvapSample at h
    obtain ⟨T, hT, h⟩ := bind_ok h
    obtain ⟨c, hc, h⟩ := bind_ok h
    cases h
    exact mul_nonneg (sampleBins_nonneg hn.2 (hω _).1 (hω _).2.le hc) (hn.1 T hT)
  | maxwell t u => exact (C42_maxwell _ _ _ _ _ _ _ _ h).1
  | evap t u => exact (C42_evaporation _ _ _ _ _ _ _ _ h).1
  | watt a b u => exact (C42_watt _ _ _ _ _ _ _ _ _ h).1

theorem unitBase_eq {mn0 mx0 mn1 mx1 : Res ℝ} {f : ℝ} {p : ℝ × ℝ × ℝ × ℝ × ℝ × ℝ} (h : unitBase mn0 mx0 mn1 mx1 f = .ok p) :
    ∃ a0 b0 a1 b1, mn0 = .ok a0 ∧ mx0 = .ok b0 ∧ mn1 = .ok a1 ∧ mx1 = .ok b1 ∧ p = (a0, b0, a1, b1, a0 + f * (a1 - a0), b0 + f * (b1 - b0)) := by
  unfold unitBase at h
  obtain ⟨a0, h0, h⟩ := bind_ok h
  obtain ⟨b0, h1, h⟩ := bind_ok h
  obtain ⟨a1, h2, h⟩ := bind_ok h
  obtain ⟨b1, h3, h⟩ := bind_ok h
  cases h
  exact ⟨a0, b0, a1, b1, h0, h1, h2, h3, rfl⟩

theorem sorted_ends {l : List ℝ} (hs : l.Pairwise (· ≤ ·)) {a b : ℝ} (ha : l[0]? = some a) (hb : l.getLast? = some b) : a ≤ b := by
  rw [List.getLast?_eq_getElem?] at hb
  exact pairwise_le_getElem? hs (Nat.zero_le _) ha hb

theorem kalbach_nonneg {d : Kalbach} {E : ℝ} {ω : Tape} (hω : UnitTape ω) (hw : WFLaw (.kalbach d)) (hn : NonnegLaw E (.kalbach d)) {k : Nat}
    {mu e : ℝ} {k' : Nat} (h : d.sample E ω k = .ok (mu, e, k')) : 0 ≤ e := by
  obtain ⟨hl, hv, hso⟩ := hw
  unfold Kalbach.sample at h
  obtain ⟨⟨l, f⟩, hb, h⟩ := bind_ok h
  obtain ⟨f0, f1⟩ := bracketIn_weight hso hb
  dsimp only at h
  obtain ⟨t0, g0, h⟩ := bind_ok h
  obtain ⟨t1, g1, h⟩ := bind_ok h
  obtain ⟨p, hp, h⟩ := bind_ok h
  obtain ⟨a0, b0, a1, b1, ha0, hb0, ha1, hb1, rfl⟩ := unitBase_eq hp
  dsimp only at h
  obtain ⟨⟨Eh, a, b, R, A⟩, hp', h⟩ := bind_ok h
  dsimp only at h
  obtain ⟨q, hq, h⟩ := bind_ok h
  obtain ⟨_, _, h⟩ := bind_ok h
  cases h
  have m0 := List.mem_of_getElem? (getAt_eq_ok.mp g0)
  have m1 := List.mem_of_getElem? (getAt_eq_ok.mp g1)
  have v0 := (hv t0 m0).pc
  have v1 := (hv t1 m1).pc
  have ha0 := front_eq_ok.mp ha0
  have ha1 := front_eq_ok.mp ha1
  have o0 : a0 ≤ b0 := sorted_ends v0.values_sorted ha0 (back_eq_ok.mp hb0)
  have o1 : a1 ≤ b1 := sorted_ends v1.values_sorted ha1 (back_eq_ok.mp hb1)
  have n0 := hn t0 m0 a0 (List.mem_of_getElem? ha0)
  have n1 := hn t1 m1 a1 (List.mem_of_getElem? ha1)
  split at hp'
  · obtain ⟨x, hx, hp'⟩ := bind_ok hp'
    obtain ⟨_, _, hp'⟩ := bind_ok hp'
    obtain ⟨_, _, hp'⟩ := bind_ok hp'
    cases hp'
    exact scaled_nonneg f0 f1 n0 n1 o0 o1 o0 (PCTable.sample_ge v0 (hω _).2.le ha0 hx) hq
  · obtain ⟨x, hx, hp'⟩ := bind_ok hp'
    obtain ⟨_, _, hp'⟩ := bind_ok hp'
    obtain ⟨_, _, hp'⟩ := bind_ok hp'
    cases hp'
    exact scaled_nonneg f0 f1 n0 n1 o0 o1 o1 (PCTable.sample_ge v1 (hω _).2.le ha1 hx) hq

theorem eaTable_ge {t : EATable} (hv : ValidEA t) {ω : Tape} (hω : UnitTape ω) {k : Nat} {a mu x : ℝ} {k' : Nat} (ha : t.energy[0]? = some a)
    (h : t.sample ω k = .ok (mu, x, k')) : a ≤ x := by
  obtain ⟨_, hlb⟩ := lowerBound_partition (l := t.cdf) (x := ω k) (by
    intro i j a b hij ha hb hb2
    rcases min_le_iff.mp (hv.pc.cdf_sorted i j a b hij ha hb) with h | h <;> linarith [(hω k).2])
  have hso : t.energy.Pairwise (· ≤ ·) := hv.pc.values_sorted
  unfold EATable.sample at h
  dsimp only at h
  obtain ⟨l, hl, h⟩ := bind_ok h
  have hl' : l < lowerBound t.cdf (ω k) := by
    unfold subIdx at hl
    split at hl
    · cases hl; omega
    · cases hl
  obtain ⟨p0, hp0, h⟩ := bind_ok h
  obtain ⟨flat, hfl, h⟩ := bind_ok h
  obtain ⟨v0, hv0, h⟩ := bind_ok h
  obtain ⟨c0, hc0, h⟩ := bind_ok h
  have hx0 : c0 < ω k := (hlb l c0 (getAt_eq_ok.mp hc0)).mpr hl'
  have hge : a ≤ v0 := pairwise_le_getElem? hso (Nat.zero_le _) ha (getAt_eq_ok.mp hv0)
  have hpn := hv.pc.pdf_nonneg p0 (List.mem_of_getElem? (getAt_eq_ok.mp hp0))
  split at h
  · obtain ⟨x', hx, h⟩ := bind_ok h
    obtain ⟨_, _, h⟩ := bind_ok h
    obtain ⟨_, _, h⟩ := bind_ok h
    cases h
    refine hge.trans (cellSample_ge (r := .histogram) (le_refl v0) hpn hx0 (p1 := p0) ?_)
    unfold cellSample
    rw [if_pos (Or.inl rfl)]
    exact hx
  · obtain ⟨p1, hp1, h⟩ := bind_ok h
    obtain ⟨v1, hv1, h⟩ := bind_ok h
    obtain ⟨x', hx, h⟩ := bind_ok h
    obtain ⟨_, _, h⟩ := bind_ok h
    obtain ⟨_, _, h⟩ := bind_ok h
    obtain ⟨_, _, h⟩ := bind_ok h
    obtain ⟨_, _, h⟩ := bind_ok h
    cases h
    have hne : ¬ p0 = p1 := by
      intro e
      subst e
      unfold linInterp at hx
      obtain ⟨m, hm, hx⟩ := bind_ok hx
      obtain ⟨im, him, hx⟩ := bind_ok hx
      rcases rdiv_cases (p0 - p0) (v1 - v0) with e | e <;> rw [e] at hm <;> cases hm
      rw [sub_self, zero_div, rdiv_zero] at him
      cases him
    refine hge.trans (cellSample_ge (r := .linLin) (pairwise_le_getElem? hso (Nat.le_succ _) (getAt_eq_ok.mp hv0) (getAt_eq_ok.mp hv1)) hpn hx0 (p1 := p1) ?_)
    unfold cellSample
    rw [if_neg (fun h' => h'.elim (fun e => nomatch e) hne)]
    exact hx

theorem tabEnergyAngle_nonneg {d : TabEnergyAngle} {E : ℝ} {ω : Tape} (hω : UnitTape ω) (hw : WFLaw (.tabEnergyAngle d))
    (hn : NonnegLaw E (.tabEnergyAngle d)) {k : Nat} {mu e : ℝ} {k' : Nat} (h : d.sample E ω k = .ok (mu, e, k')) : 0 ≤ e := by
  obtain ⟨hl, hv, hso⟩ := hw
  unfold TabEnergyAngle.sample at h
  obtain ⟨⟨l, f⟩, hb, h⟩ := bind_ok h
  obtain ⟨f0, f1⟩ := bracketIn_weight hso hb
  dsimp only at h
  obtain ⟨t0, g0, h⟩ := bind_ok h
  obtain ⟨t1, g1, h⟩ := bind_ok h
  obtain ⟨p, hp, h⟩ := bind_ok h
  obtain ⟨a0, b0, a1, b1, ha0, hb0, ha1, hb1, rfl⟩ := unitBase_eq hp
  dsimp only at h
  obtain ⟨⟨⟨mu', Eh, k1⟩, a, b⟩, hp', h⟩ := bind_ok h
  dsimp only at h
  obtain ⟨q, hq, h⟩ := bind_ok h
  cases h
  have m0 := List.mem_of_getElem? (getAt_eq_ok.mp g0)
  have m1 := List.mem_of_getElem? (getAt_eq_ok.mp g1)
  have v0 := hv t0 m0
  have v1 := hv t1 m1
  have ha0 := front_eq_ok.mp ha0
  have ha1 := front_eq_ok.mp ha1
  have o0 : a0 ≤ b0 := sorted_ends v0.pc.values_sorted ha0 (back_eq_ok.mp hb0)
  have o1 : a1 ≤ b1 := sorted_ends v1.pc.values_sorted ha1 (back_eq_ok.mp hb1)
  have n0 := hn t0 m0 a0 (List.mem_of_getElem? ha0)
  have n1 := hn t1 m1 a1 (List.mem_of_getElem? ha1)
  split at hp'
  · obtain ⟨x, hx, hp'⟩ := bind_ok hp'
    cases hp'
    exact scaled_nonneg f0 f1 n0 n1 o0 o1 o0 (eaTable_ge v0 hω ha0 hx) hq
  · obtain ⟨x, hx, hp'⟩ := bind_ok hp'
    cases hp'
    exact scaled_nonneg f0 f1 n0 n1 o0 o1 o1 (eaTable_ge v1 hω ha1 hx) hq

theorem clog_nonpos {x y : ℝ} (h1 : x ≤ 1) (h : clog x = .ok y) : y ≤ 0 := by
  by_cases hp : 0 < x
  · rw [clog_ok hp] at h; cases h
    exact Real.log_nonpos hp.le h1
  · unfold clog at h
    rw [if_neg hp] at h; cases h

theorem maxwellianSpectrum_nonneg {ω : Tape} (hω : UnitTape ω) {k : Nat} {x : ℝ} (h : maxwellianSpectrum ω k = .ok x) : 0 ≤ x := by
  unfold maxwellianSpectrum at h
  dsimp only at h
  obtain ⟨l1, h1, h⟩ := bind_ok h
  obtain ⟨l2, h2, h⟩ := bind_ok h
  cases h
  have e1 := clog_nonpos (hω _).2.le h1
  have e2 := clog_nonpos (hω _).2.le h2
  nlinarith [mul_self_nonneg (Real.cos (Real.pi * ω k / 2))]

theorem nbody_nonneg {d : NBody} {E : ℝ} {ω : Tape} (hω : UnitTape ω) (hn : NonnegLaw E (.nbody d)) {k : Nat} {mu e : ℝ} {k' : Nat}
    (h : d.sample E ω k = .ok (mu, e, k')) : 0 ≤ e := by
  unfold NBody.sample at h
  obtain ⟨x, hx, h⟩ := bind_ok h
  dsimp only at h
  obtain ⟨⟨y, kk⟩, hy, h⟩ := bind_ok h
  dsimp only at h
  obtain ⟨q, hq, h⟩ := bind_ok h
  cases h
  have hx0 := maxwellianSpectrum_nonneg hω hx
  have mul1 : ∀ a b : ℝ, 0 ≤ a → a ≤ 1 → 0 ≤ b → b ≤ 1 → 0 ≤ a * b ∧ a * b ≤ 1 := fun a b ha ha1 hb hb1 => ⟨mul_nonneg ha hb, by nlinarith⟩
  have hy0 : 0 ≤ y := by
    split at hy
    · obtain ⟨z, hz, hy⟩ := bind_ok hy
      cases hy
      exact maxwellianSpectrum_nonneg hω hz
    split at hy
    · obtain ⟨z, hz, hy⟩ := bind_ok hy
      cases hy
      have e1 := mul1 _ _ (hω (k + 3)).1 (hω (k + 3)).2.le (hω (k + 3 + 1)).1 (hω (k + 3 + 1)).2.le
      have e2 := mul1 _ _ e1.1 e1.2 (hω (k + 3 + 2)).1 (hω (k + 3 + 2)).2.le
      linarith [clog_nonpos e2.2 hz]
    split at hy
    · obtain ⟨z, hz, hy⟩ := bind_ok hy
      obtain ⟨z2, hz2, hy⟩ := bind_ok hy
      cases hy
      have e1 := mul1 _ _ (hω (k + 3)).1 (hω (k + 3)).2.le (hω (k + 3 + 1)).1 (hω (k + 3 + 1)).2.le
      have e2 := mul1 _ _ e1.1 e1.2 (hω (k + 3 + 2)).1 (hω (k + 3 + 2)).2.le
      have e3 := mul1 _ _ e2.1 e2.2 (hω (k + 3 + 3)).1 (hω (k + 3 + 3)).2.le
      have f1 := clog_nonpos e3.2 hz
      have f2 := clog_nonpos (hω _).2.le hz2
      nlinarith [sq_nonneg (Real.cos (0.5 * Real.pi * ω (k + 3 + 5)))]
    · cases hy; exact le_refl _
  rcases rdiv_cases x (x + y) with e | e <;> rw [e] at hq <;> cases hq
  exact mul_nonneg (div_nonneg hx0 (by linarith)) hn

theorem law_nonneg {l : Law} {fuel : Nat} {E : ℝ} (hE : 0 ≤ E) {ω : Tape} (hω : UnitTape ω) (hw : WFLaw l) (hn : NonnegLaw E l) {k : Nat} {mu e : ℝ}
    {k' : Nat} (h : (l.toAE fuel).sample E ω k = .ok (mu, e, k')) : 0 ≤ e := by
  cases l with
  | uncorrelated u =>
    have h : u.sample fuel E ω k = .ok (mu, e, k') := h
    unfold Uncorr.sample at h
    obtain ⟨⟨m, k1⟩, _, h⟩ := bind_ok h
    dsimp only at h
    obtain ⟨⟨e', k2⟩, h2, h⟩ := bind_ok h
    cases h
    exact elaw_nonneg hE hω hw.2 hn h2
  | kalbach d => exact kalbach_nonneg hω hw hn h
  | tabEnergyAngle d => exact tabEnergyAngle_nonneg hω hw hn h
  | nbody d => exact nbody_nonneg hω hn h

theorem lab_nonneg {E A mu Eo muL EL : ℝ} (hE : 0 < E) (hA : 0 < A) (h1 : -1 ≤ mu) (h2 : mu ≤ 1) (h : cmToLab E A mu Eo = .ok (muL, EL)) : 0 < EL := by
  have hEo : 0 ≤ Eo := by
    by_contra hc
    have h' := h
    unfold cmToLab at h'
    rw [csqrt_bad (mul_neg_of_pos_of_neg hE (not_le.mp hc))] at h'
    cases h'
  rcases lt_or_eq_of_le hEo with hp | hz
  · exact (C45_cosine E A mu Eo muL EL hE.le (by linarith) hp h1 h2 h).2.2
  · subst hz
    have hA1 : (0 : ℝ) < A + 1 := by linarith
    have hpos : 0 < E / (A + 1) ^ 2 := by positivity
    unfold cmToLab at h
    rw [csqrt_ok (by simp)] at h
    simp only [bind, Except.bind, mul_zero, Real.sqrt_zero, add_zero, zero_add, rdiv_ok hA1.ne', rdiv_ok (pow_pos hA1 2).ne',
      rdiv_ok hpos.ne', zero_div, csqrt_ok (le_refl (0 : ℝ))] at h
    rw [csqrt_ok (by positivity)] at h
    have := congrArg Prod.snd (Except.ok.inj h)
    have : E / (A + 1) ^ 2 = EL := this
    rw [← this]
    exact hpos

theorem dist_nonneg {fuel : Nat} {E : ℝ} (hE : 0 < E) {ω : Tape} (hω : UnitTape ω) : ∀ (d : NDist), WFDist d → ratioPos d → NonnegDist E d →
    ∀ {k : Nat} {mu e : ℝ} {k' : Nat}, (d.toAE fuel).sample E ω k = .ok (mu, e, k') → 0 ≤ e
  | .absorption _, _, _, _, _, _, _, _, h => by cases h
  | .one l, hw, _, hn, _, _, _, _, h => law_nonneg hE.le hω hw hn h
  | .several ls, hw, _, hn, k, mu, e, k', h => by
    have h : Multi.sample ⟨ls.map (fun p => p.1.toAE fuel), ls.map Prod.snd⟩ E ω k = .ok (mu, e, k') := h
    have hd : ∀ d ∈ ls.map (fun p => p.1.toAE fuel), ∀ k, d.sample E ω k = .ok (mu, e, k') → 0 ≤ e := by
      intro d hd k h
      obtain ⟨p, hp, rfl⟩ := List.mem_map.mp hd
      exact law_nonneg hE.le hω (hw.2 p hp).1 (hn p hp) h
    unfold Multi.sample at h
    dsimp only at h
    obtain ⟨s, hsel, h⟩ := bind_ok h
    cases s with
    | some d => exact hd d (select_mem _ _ _ _ _ _ hsel) _ h
    | none =>
      obtain ⟨d, hb, h⟩ := bind_ok h
      exact hd d (List.mem_of_getLast? (back_eq_ok.mp hb)) _ h
  | .cm awr q d, hw, hr, _, k, mu, e, k', h => by
    have h : CMDist.sample ⟨awr, q, d.toAE fuel⟩ E ω k = .ok (mu, e, k') := h
    unfold CMDist.sample at h
    obtain ⟨⟨m, eo, k1⟩, h1, h⟩ := bind_ok h
    dsimp only at h
    obtain ⟨⟨mL, eL⟩, h2, h⟩ := bind_ok h
    cases h
    obtain ⟨a, b⟩ := dist_cosine hE hω d hr.2 h1
    exact (lab_nonneg hE hr.1 a b h2).le

/-- **C142** For every file with a positive weight ratio, every reaction in it, every positive energy, every threshold and every stream of numbers in
`[0, 1)`: if sampling returns, the energy is not negative, provided that the laws given in the lab frame hold no negative energies.  Missing for the full
claim: that condition (`Spec.NonnegDist`), which the constructors do not check; see the violation. -/
theorem C142_reaction_partial (a : AceBlocks) (ha : 0 < a.awr) (indx fuel : Nat) (r : RxnBase) (h : RxnBase.makeAce a indx fuel = .ok r)
    (threshold E : ℝ) (hE : 0 < E) (hn : threshold ≤ E → NonnegDist E r.dist) (ω : Tape) (hω : UnitTape ω) (fuel' k : Nat) (mu e : ℝ) (k' : Nat)
    (hs : r.sample threshold fuel' E ω k = .ok (mu, e, k')) : 0 ≤ e := by
  unfold RxnBase.sample at hs
  by_cases ht : E < threshold
  · rw [if_pos ht] at hs; cases hs; norm_num
  · rw [if_neg ht] at hs
    exact dist_nonneg hE hω r.dist (RxnBase.makeAce_wf h) (makeAce_ratio h ha) (hn (not_lt.mp ht)) hs

/-- **C142** Reactions given in the centre-of-mass frame: without any condition on their data, an energy that is returned is not negative, and from the
threshold on it is positive. -/
theorem C142_cm (a : AceBlocks) (ha : 0 < a.awr) (indx fuel : Nat) (r : RxnBase) (h : RxnBase.makeAce a indx fuel = .ok r) (awr q : ℝ) (d : NDist)
    (hd : r.dist = .cm awr q d) (threshold E : ℝ) (hE : 0 < E) (ω : Tape) (hω : UnitTape ω) (fuel' k : Nat) (mu e : ℝ) (k' : Nat)
    (hs : r.sample threshold fuel' E ω k = .ok (mu, e, k')) : 0 ≤ e ∧ (threshold ≤ E → 0 < e) := by
  unfold RxnBase.sample at hs
  by_cases ht : E < threshold
  · rw [if_pos ht] at hs; cases hs; exact ⟨le_refl _, fun h => absurd ht (not_lt.mpr h)⟩
  · rw [if_neg ht] at hs
    have hr := makeAce_ratio h ha
    rw [hd] at hs hr
    have h : CMDist.sample ⟨awr, q, d.toAE fuel'⟩ E ω k = .ok (mu, e, k') := hs
    unfold CMDist.sample at h
    obtain ⟨⟨m, eo, k1⟩, h1, h⟩ := bind_ok h
    dsimp only at h
    obtain ⟨⟨mL, eL⟩, h2, h⟩ := bind_ok h
    cases h
    obtain ⟨a, b⟩ := dist_cosine hE hω d hr.2 h1
    have := lab_nonneg hE hr.1 a b h2
    exact ⟨this.le, fun _ => this⟩

/-- **C142** The same for every reaction of every nuclide a program can construct. -/
theorem C142_nuclide_partial (fuel : Nat) (f : AceFile) (a : AceIn ℝ) (n : Nuc) (hn : Read fuel f a n) (mt : Nat) (r : STRxn) (hr : n.reaction mt = .ok r)
    (E : ℝ) (hE : 0 < E) (hd : r.threshold ≤ E → NonnegDist E r.base.dist) (ω : Tape) (hω : UnitTape ω) (fuel' k : Nat) (mu e : ℝ) (k' : Nat)
    (hs : r.base.sample r.threshold fuel' E ω k = .ok (mu, e, k')) : 0 ≤ e := by
  obtain ⟨f', i, hp, hb⟩ := hn.base_pos hr
  exact C142_reaction_partial _ hp _ _ _ hb _ E hE hd ω hω fuel' k mu e k' hs

/-- **C142** The same for the energies of the delayed neutrons. -/
theorem C142_delayed_partial (f : AceFile) (fuel : Nat) (n : Nuc) (hn : Nuc.makeAce f fuel = .ok n) (F : Family ELaw) (hF : F ∈ n.fission.families)
    (ω : Tape) (hω : UnitTape ω) (E : ℝ) (hE : 0 ≤ E) (hd : NonnegELaw E F.law) (fuel' k : Nat) (e : ℝ) (k' : Nat)
    (hs : F.law.sample fuel' E ω k = .ok (e, k')) : 0 ≤ e := by
  by_cases hf : f.fissile = true
  · obtain ⟨i, hi⟩ := List.getElem?_of_mem hF
    obtain ⟨_, _, _, _, _, _, h⟩ := (C99_delayed f fuel n hn hf).2 i F hi
    exact elaw_nonneg hE hω (familyLaw_wf h) hd hs
  · have := ((C99_fission f fuel n hn).2.2.1 (by simpa using hf)).1
    rw [this] at hF; cases hF

/-- The full claim is false of the code: a file whose reaction gives a level law in the lab frame is accepted, and sampling it below the offset of the
level (with a threshold that allows it) returns a negative energy for every stream. -/
theorem C142_violation : ∃ (a : AceBlocks) (r : RxnBase), 0 < a.awr ∧ (∀ fuel, RxnBase.makeAce a 0 (fuel + 1) = .ok r) ∧
    ∀ threshold E fuel ω k, threshold ≤ E → E < 3 → UnitTape ω → ∃ mu e, r.sample threshold fuel E ω k = .ok (mu, e, k + 1) ∧ e < 0 := by
  refine ⟨{ exBlocks with xss := [51, -2, 1, 0, 0, 1, 0, 3, 10, 0, 2, 1, 9, 1, 1, 3, 1/2] }, ?_⟩
  obtain ⟨a, ha⟩ : ∃ a : AceBlocks, a = { exBlocks with xss := [51, -2, 1, 0, 0, 1, 0, 3, 10, 0, 2, 1, 9, 1, 1, 3, 1/2] } := ⟨_, rfl⟩
  have hx : a.xss = [51, -2, 1, 0, 0, 1, 0, 3, 10, 0, 2, 1, 9, 1, 1, 3, 1/2] := by rw [ha]
  rw [← ha]
  obtain ⟨t, ht⟩ := probOne_make
  have hat : ReactionAt a 0 51 (-2) 1 (some ⟨[1 / 10 ^ 5], [.isotropic]⟩) [(3, 10, ⟨[], [1, 9], [1, 1]⟩)] := by
    refine ⟨⟨[], [-2, 1, 0, 0, 1, 0, 3, 10, 0, 2, 1, 9, 1, 1, 3, 1/2], by rw [hx]; simp, by rw [ha]; rfl⟩,
      ⟨[51], [1, 0, 0, 1, 0, 3, 10, 0, 2, 1, 9, 1, 1, 3, 1/2], by rw [hx]; simp, by rw [ha]; rfl⟩,
      ⟨[51, -2], [0, 0, 1, 0, 3, 10, 0, 2, 1, 9, 1, 1, 3, 1/2], by rw [hx]; simp, by rw [ha]; rfl⟩, Or.inr ⟨0, _, rfl, ?_, rfl⟩, 1, le_refl _, ?_, ?_⟩
    · exact ⟨[51, -2, 1, 0], [1, 0, 3, 10, 0, 2, 1, 9, 1, 1, 3, 1/2], by rw [hx]; simp, by rw [ha]; rfl⟩
    · exact ⟨[51, -2, 1, 0, 0], [0, 3, 10, 0, 2, 1, 9, 1, 1, 3, 1/2], by rw [hx]; simp, by rw [ha]; rfl⟩
    · exact ⟨le_refl _, by norm_num, rfl, ⟨[51, -2, 1, 0, 0, 1], [3, 1/2], by rw [hx]; norm_num [TabRecord.encode], by rw [ha]; rfl⟩⟩
  have hlaw : LawIs a (-2) (some ⟨[1 / 10 ^ 5], [.isotropic]⟩) (a.dlw + (10 - 1)) 3 (.uncorrelated ⟨⟨[1 / 10 ^ 5], [.isotropic]⟩, .level ⟨3, 1/2⟩⟩) := by
    refine .level _ _ _ rfl ?_
    rw [ha]; rfl
  have hm := fun fuel => C97_reaction a 0 51 (-2) 1 _ _ hat (by norm_num) (.const |(1 : ℝ)|)
    (by unfold readYield; rw [if_pos (by norm_num)]) [(.uncorrelated ⟨⟨[1 / 10 ^ 5], [.isotropic]⟩, .level ⟨3, 1/2⟩⟩, t)]
    (.cons ⟨hlaw, ht⟩ .nil) (fuel + 1) (by simp)
  refine ⟨_, by rw [ha]; norm_num [exBlocks], hm, ?_⟩
  intro th E fuel ω k hE h3 hω
  have hang : ∃ mu, AngleDist.sample ⟨[1 / 10 ^ 5], [.isotropic]⟩ fuel E ω k = .ok (mu, k + 1) := by
    have hle : lowerBound [(1 / 10 ^ 5 : ℝ)] E ≤ 1 := lowerBound_le_length _ _
    refine ⟨clampMu (2 * ω k - 1), ?_⟩
    unfold AngleDist.sample AngleDist.find
    dsimp only
    by_cases h0 : lowerBound [(1 / 10 ^ 5 : ℝ)] E = 0
    · rw [if_pos h0]; rfl
    · rw [if_neg h0, if_pos (by simp only [List.length_singleton]; omega)]; rfl
  obtain ⟨mu, hmu⟩ := hang
  refine ⟨mu, 1 / 2 * (E - 3), ?_, by linarith⟩
  unfold RxnBase.sample
  rw [if_neg (not_lt.mpr hE), if_neg (by norm_num)]
  show Uncorr.sample fuel ⟨⟨[1 / 10 ^ 5], [.isotropic]⟩, .level ⟨3, 1/2⟩⟩ E ω k = _
  unfold Uncorr.sample
  dsimp only
  rw [hmu]
  rfl

/-- A file that meets the hypotheses at every energy: the level reaction of `C136_hypotheses`, given in the centre-of-mass frame. -/
example : ∃ r, RxnBase.makeAce exBlocks 0 1 = .ok r ∧ 0 < exBlocks.awr ∧ ∀ E, NonnegDist E r.dist := by
  obtain ⟨r, h1, _, h3⟩ := C136_hypotheses
  refine ⟨r, h1 0, by norm_num [exBlocks], fun E => ?_⟩
  rw [h3]
  trivial

/-- The conditions on lab-frame laws are met by concrete data of each kind. -/
example : NonnegELaw 4 (.level ⟨3, 1 / 2⟩) ∧ NonnegELaw 4 (.bins ⟨[1, 2], [[0, 1, 3], [0, 2, 3]]⟩) ∧
    NonnegELaw 4 (.tabular ⟨[1, 2], [⟨[0, 2], [1 / 2, 1 / 2], [0, 1], .linLin⟩, ⟨[0, 4], [1 / 4, 1 / 4], [0, 1], .linLin⟩]⟩) ∧
    NonnegLaw 14 (.nbody ⟨3, 3, 2, -2.2⟩) := by
  refine ⟨⟨by norm_num, by norm_num⟩, ?_, ⟨by norm_num, ?_⟩, ?_⟩
  · intro b hb x hx
    simp only [List.mem_cons, List.not_mem_nil, or_false] at hb
    rcases hb with rfl | rfl <;> simp only [List.mem_cons, List.not_mem_nil, or_false] at hx <;> rcases hx with rfl | rfl | rfl <;> norm_num
  · intro b hb x hx
    simp only [List.mem_cons, List.not_mem_nil, or_false] at hb
    rcases hb with rfl | rfl <;> simp only [List.mem_cons, List.not_mem_nil, or_false] at hx <;> rcases hx with rfl | rfl <;> norm_num
  · unfold NonnegLaw; norm_num

end PNDL
