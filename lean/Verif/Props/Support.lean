import Verif.Spec.Support
import Verif.Props.ReadDensity

/-! C149 — a reported density vanishes at the outgoing energies the law cannot give. -/
namespace PNDL
open Spec

theorem bracketIn_around {grid : List ℝ} {E : ℝ} {l : Nat} {f : ℝ} (h : bracketIn grid E = .ok (l, f)) (hl : l + 1 < grid.length) : Around grid E l f := by
  obtain ⟨k1, k2⟩ := lowerBound_edges grid E
  have hle := lowerBound_le_length grid E
  obtain ⟨e0, g0⟩ := getElem?_of_lt (l := grid) (i := l) (by omega)
  obtain ⟨e1, g1⟩ := getElem?_of_lt (l := grid) (i := l + 1) hl
  refine ⟨e0, e1, g0, g1, ?_⟩
  unfold bracketIn at h
  dsimp only at h
  by_cases h0 : lowerBound grid E = 0
  · rw [if_pos h0] at h; cases h
    exact Or.inl ⟨rfl, rfl, k2 e0 (by rw [h0]; exact g0)⟩
  rw [if_neg h0] at h
  by_cases h1 : lowerBound grid E = grid.length
  · rw [if_pos h1] at h
    obtain ⟨i, hi, h⟩ := bind_ok h
    cases h
    rw [subIdx_of_le (by omega)] at hi
    have hi := Except.ok.inj hi
    refine Or.inr (Or.inl ⟨by omega, rfl, k1 e1 (by omega) ?_⟩)
    rw [h1, ← g1]; congr 1; omega
  rw [if_neg h1, subIdx_of_le (by omega)] at h
  simp only [bind, Except.bind] at h
  obtain ⟨a0, ga, h⟩ := bind_ok h
  obtain ⟨a1, gb, h⟩ := bind_ok h
  obtain ⟨f', hf, h⟩ := bind_ok h
  cases h
  have ea := getAt_eq_ok.mp ga
  have eb := getAt_eq_ok.mp gb
  rw [g0] at ea; rw [g1] at eb
  cases ea; cases eb
  have p := k1 e0 (by omega) g0
  have q := k2 e1 (by rw [← g1]; congr 1; omega)
  rw [rdiv_ok (by linarith)] at hf
  exact Or.inr (Or.inr ⟨p, q, (Except.ok.inj hf).symm⟩)

/-- Outside the interpolated window the scaled energy is outside both tables. -/
theorem unit_outside {f x a0 b0 a1 b1 u : ℝ} (f0 : 0 ≤ f) (f1 : f ≤ 1) (w0 : a0 < b0) (w1 : a1 < b1)
    (hu : rdiv (x - (a0 + f * (a1 - a0))) (b0 + f * (b1 - b0) - (a0 + f * (a1 - a0))) = .ok u)
    (hx : ¬ ((1 - f) * a0 + f * a1 ≤ x ∧ x ≤ (1 - f) * b0 + f * b1)) :
    (u * (b0 - a0) + a0 < a0 ∧ u * (b1 - a1) + a1 < a1) ∨ (b0 < u * (b0 - a0) + a0 ∧ b1 < u * (b1 - a1) + a1) := by
  have hd : 0 < b0 + f * (b1 - b0) - (a0 + f * (a1 - a0)) := by
    have e : b0 + f * (b1 - b0) - (a0 + f * (a1 - a0)) = (1 - f) * (b0 - a0) + f * (b1 - a1) := by ring
    rw [e]
    rcases f0.lt_or_eq with hp | hz
    · exact add_pos_of_nonneg_of_pos (mul_nonneg (by linarith) (by linarith)) (mul_pos hp (by linarith))
    · rw [← hz]; linarith
  rw [rdiv_ok hd.ne'] at hu
  have hu := (Except.ok.inj hu).symm
  by_cases hlo : (1 - f) * a0 + f * a1 ≤ x
  · have hhi : (1 - f) * b0 + f * b1 < x := not_le.mp fun h => hx ⟨hlo, h⟩
    have h1 : 1 < u := by rw [hu, lt_div_iff₀ hd]; linarith
    right
    constructor <;> nlinarith
  · have h1 : u < 0 := by rw [hu]; exact div_neg_of_neg_of_pos (by linarith) hd
    left
    constructor <;> nlinarith

theorem pdfAt_outside {t : PCTable} {x a b v : ℝ} (ha : t.minValue = .ok a) (hb : t.maxValue = .ok b) (hx : x < a ∨ b < x) (h : t.pdfAt x = .ok v) : v = 0 := by
  unfold PCTable.pdfAt at h
  rw [ha, hb] at h
  simp only [bind, Except.bind] at h
  rw [if_pos hx] at h
  exact (Except.ok.inj h).symm

theorem jointPdf_outside {energy pdf : List ℝ} {r : Interpolation} {node : Nat → Res ℝ} {x a b v : ℝ} (hs : energy.Pairwise (· ≤ ·))
    (ha : front energy = .ok a) (hb : back energy = .ok b) (hx : x < a ∨ b < x) (h : jointPdf energy pdf r node x = .ok v) : v = 0 := by
  have ha' := front_eq_ok.mp ha
  have hb' := back_eq_ok.mp hb
  rw [List.getLast?_eq_getElem?] at hb'
  unfold jointPdf at h
  dsimp only at h
  by_cases hn : lowerBound energy x = energy.length
  · rw [if_pos hn] at h
    exact (Except.ok.inj h).symm
  rw [if_neg hn] at h
  rcases hx with hx | hx
  · have h0 : lowerBound energy x = 0 := by
      by_contra hc
      have := (lowerBound_iff hs x ha').mpr (by omega)
      linarith
    rw [ha] at h
    simp only [bind, Except.bind] at h
    rw [if_pos ⟨h0, hx⟩] at h
    exact (Except.ok.inj h).symm
  · exfalso
    have := (lowerBound_iff hs x hb').mp hx
    have := lowerBound_le_length energy x
    omega

theorem pdfBins_reach {b : List ℝ} {x v : ℝ} (h : pdfBins b x = .ok v) (hv : v ≠ 0) : Spans b x := by
  unfold pdfBins at h
  obtain ⟨b0, h0, h⟩ := bind_ok h
  obtain ⟨b1, h1, h⟩ := bind_ok h
  by_cases hx : x < b0 ∨ x > b1
  · rw [if_pos hx] at h
    exact absurd (Except.ok.inj h).symm hv
  · rw [not_or, not_lt, not_lt] at hx
    exact ⟨b0, b1, front_eq_ok.mp h0, back_eq_ok.mp h1, hx.1, hx.2⟩

/-- A sum that is not zero has a term that is not zero. -/
theorem mix_ne {f p q : ℝ} (h : (1 - f) * p + f * q ≠ 0) : (f ≠ 1 ∧ p ≠ 0) ∨ (f ≠ 0 ∧ q ≠ 0) := by
  by_contra hc
  rw [not_or, not_and_or, not_and_or, not_not, not_not, not_not, not_not] at hc
  apply h
  rcases hc with ⟨h1 | h1, h2 | h2⟩ <;> simp [h1, h2]
  · rw [h1] at h2; norm_num at h2

theorem binsPdf_reach {d : EnergyBins} (hl : d.bins.length = d.energy.length) {E x v : ℝ} (h : d.pdfAt E x = .ok v) (hv : v ≠ 0) : ReachE E (.bins d) x := by
  obtain ⟨k1, k2⟩ := lowerBound_edges d.energy E
  have hle := lowerBound_le_length d.energy E
  unfold EnergyBins.pdfAt at h
  dsimp only at h
  by_cases h0 : lowerBound d.energy E = 0
  · rw [if_pos h0] at h
    obtain ⟨b, hb, h⟩ := bind_ok h
    have hb := front_eq_ok.mp hb
    obtain ⟨e, he⟩ := getElem?_of_lt (l := d.energy) (i := 0) (by have := lt_length_of_some hb; omega)
    exact ⟨0, b, hb, pdfBins_reach h hv, Or.inl ⟨rfl, e, he, k2 e (by rw [h0]; exact he)⟩⟩
  rw [if_neg h0] at h
  by_cases h1 : lowerBound d.energy E = d.energy.length
  · rw [if_pos h1] at h
    obtain ⟨b, hb, h⟩ := bind_ok h
    have hb := back_eq_ok.mp hb
    rw [List.getLast?_eq_getElem?] at hb
    have hlt := lt_length_of_some hb
    obtain ⟨e, he⟩ := getElem?_of_lt (l := d.energy) (i := d.bins.length - 1) (by omega)
    exact ⟨_, b, hb, pdfBins_reach h hv, Or.inr (Or.inl ⟨by omega, e, he, k1 e (by omega) (by rw [h1, ← he, hl])⟩)⟩
  rw [if_neg h1, subIdx_of_le (by omega)] at h
  simp only [bind, Except.bind] at h
  obtain ⟨e0, g0, h⟩ := bind_ok h
  obtain ⟨e1, g1, h⟩ := bind_ok h
  obtain ⟨f, hf, h⟩ := bind_ok h
  obtain ⟨b0, hb0, h⟩ := bind_ok h
  obtain ⟨p0, hp0, h⟩ := bind_ok h
  obtain ⟨b1, hb1, h⟩ := bind_ok h
  obtain ⟨p1, hp1, h⟩ := bind_ok h
  cases h
  have g0 := getAt_eq_ok.mp g0
  have g1 := getAt_eq_ok.mp g1
  have l0 := k1 e0 (by omega) g0
  have l1 := k2 e1 (by rw [← g1]; congr 1; omega)
  rw [rdiv_ok (by linarith)] at hf
  have hf := (Except.ok.inj hf).symm
  rcases mix_ne hv with ⟨w, hp⟩ | ⟨_, hp⟩
  · refine ⟨_, b0, getAt_eq_ok.mp hb0, pdfBins_reach hp0 hp, Or.inr (Or.inr (Or.inl ⟨e0, e1, g0, g1, l0, lt_of_le_of_ne l1 ?_⟩))⟩
    rintro rfl
    exact w (by rw [hf, div_self (by linarith)])
  · exact ⟨_, b1, getAt_eq_ok.mp hb1, pdfBins_reach hp1 hp, Or.inr (Or.inr (Or.inr ⟨_, e0, e1, rfl, g0, g1, l0, l1⟩))⟩

theorem tabPdf_reach {d : TabEnergy} (hl : d.tables.length = d.energy.length) (hwd : ∀ t ∈ d.tables, Wide t.values) {E x v : ℝ}
    (h : d.pdfAt E x = .ok v) (hv : v ≠ 0) : ReachE E (.tabular d) x := by
  unfold TabEnergy.pdfAt at h
  obtain ⟨⟨l, f⟩, hb, h⟩ := bind_ok h
  obtain ⟨f0, f1⟩ := bracketIn_unit hb
  dsimp only at h
  obtain ⟨t0, h0, h⟩ := bind_ok h
  obtain ⟨t1, h1, h⟩ := bind_ok h
  obtain ⟨a0, ha0, h⟩ := bind_ok h
  obtain ⟨b0, hb0, h⟩ := bind_ok h
  obtain ⟨a1, ha1, h⟩ := bind_ok h
  obtain ⟨b1, hb1, h⟩ := bind_ok h
  obtain ⟨u, hu, h⟩ := bind_ok h
  obtain ⟨p0, hp0, h⟩ := bind_ok h
  obtain ⟨p1, hp1, h⟩ := bind_ok h
  cases h
  have g0 := getAt_eq_ok.mp h0
  have g1 := getAt_eq_ok.mp h1
  have har := bracketIn_around hb (by have := lt_length_of_some g1; omega)
  have w0 := hwd t0 (List.mem_of_getElem? g0) a0 b0 (front_eq_ok.mp ha0) (back_eq_ok.mp hb0)
  have w1 := hwd t1 (List.mem_of_getElem? g1) a1 b1 (front_eq_ok.mp ha1) (back_eq_ok.mp hb1)
  refine ⟨l, f, t0.values, t1.values, a0, b0, a1, b1, har, by simp [g0], by simp [g1], front_eq_ok.mp ha0, back_eq_ok.mp hb0,
    front_eq_ok.mp ha1, back_eq_ok.mp hb1, ?_⟩
  by_contra hc
  apply hv
  rcases unit_outside f0 f1 w0 w1 hu hc with ⟨k0, k1⟩ | ⟨k0, k1⟩
  · rw [pdfAt_outside ha0 hb0 (Or.inl k0) hp0, pdfAt_outside ha1 hb1 (Or.inl k1) hp1]; ring
  · rw [pdfAt_outside ha0 hb0 (Or.inr k0) hp0, pdfAt_outside ha1 hb1 (Or.inr k1) hp1]; ring

theorem genEvap_reach {t : Tab1D} {b : List ℝ} {E x v : ℝ} (h : genEvapPdf t b E x = .ok v) (hv : v ≠ 0) : ReachE E (.genEvap t b) x := by
  unfold genEvapPdf at h
  obtain ⟨T, ht, h⟩ := bind_ok h
  obtain ⟨c, hc, h⟩ := bind_ok h
  obtain ⟨b0, h0, h⟩ := bind_ok h
  obtain ⟨b1, h1, h⟩ := bind_ok h
  by_cases hx : c < b0 ∨ c > b1
  · rw [if_pos hx] at h
    exact absurd (Except.ok.inj h).symm hv
  · rw [not_or, not_lt, not_lt] at hx
    have hT : T ≠ 0 := by rintro rfl; rw [rdiv_zero] at hc; cases hc
    rw [rdiv_ok hT] at hc
    refine ⟨T, c, ht, ?_, b0, b1, front_eq_ok.mp h0, back_eq_ok.mp h1, hx.1, hx.2⟩
    rw [← Except.ok.inj hc]; field_simp

theorem window_reach {c : Prop} [Decidable c] {r : Res ℝ} {v : ℝ} (h : (if c then .ok 0 else r) = .ok v) (hv : v ≠ 0) : ¬ c := by
  intro hc
  rw [if_pos hc] at h
  exact hv (Except.ok.inj h).symm

theorem elaw_reach {l : ELaw} {E x v : ℝ} (hw : WFELaw l) (hwd : WideELaw l) (h : l.pdf E x = .ok (some v)) (hv : v ≠ 0) : ReachE E l x := by
  have some' : ∀ {r : Res ℝ}, r.map some = .ok (some v) → r = .ok v := by
    intro r hr
    cases r with
    | error e => cases hr
    | ok a => have := Option.some.inj (Except.ok.inj hr); rw [this]
  cases l with
  | bins d => exact binsPdf_reach hw.1 (some' h) hv
  | photon p => cases h
  | level l => cases h
  | tabular d => exact tabPdf_reach hw.1 hwd (some' h) hv
  | genEvap t b => exact genEvap_reach (some' h) hv
  | maxwell t u =>
    have h := some' h
    unfold maxwellPdf at h
    have := window_reach h hv
    rw [not_or, not_lt, not_lt] at this
    exact this
  | evap t u =>
    have h := some' h
    unfold evapPdf at h
    have := window_reach h hv
    rw [not_or, not_lt, not_lt] at this
    exact this
  | watt a b u =>
    have h := some' h
    unfold wattPdf at h
    have := window_reach h hv
    rw [not_or, not_lt, not_lt] at this
    exact this

theorem kalbachPdf_reach {d : Kalbach} (hw : WFLaw (.kalbach d)) (hwd : WideLaw (.kalbach d)) {E mu x v : ℝ} (h : d.pdfAt E mu x = .ok v) (hv : v ≠ 0) :
    ReachL E (.kalbach d) x := by
  obtain ⟨hl, hvt, _⟩ := hw
  unfold Kalbach.pdfAt at h
  obtain ⟨⟨l, f⟩, hb, h⟩ := bind_ok h
  obtain ⟨f0, f1⟩ := bracketIn_unit hb
  dsimp only at h
  obtain ⟨t0, h0, h⟩ := bind_ok h
  obtain ⟨t1, h1, h⟩ := bind_ok h
  obtain ⟨p, hp, h⟩ := bind_ok h
  obtain ⟨a0, b0, a1, b1, ha0, hb0, ha1, hb1, rfl⟩ := unitBase_eq hp
  dsimp only at h
  obtain ⟨u, hu, h⟩ := bind_ok h
  obtain ⟨p0, hp0, h⟩ := bind_ok h
  obtain ⟨p1, hp1, h⟩ := bind_ok h
  cases h
  have g0 := getAt_eq_ok.mp h0
  have g1 := getAt_eq_ok.mp h1
  have m0 := List.mem_of_getElem? g0
  have m1 := List.mem_of_getElem? g1
  have har := bracketIn_around hb (by have := lt_length_of_some g1; omega)
  have w0 := hwd t0 m0 a0 b0 (front_eq_ok.mp ha0) (back_eq_ok.mp hb0)
  have w1 := hwd t1 m1 a1 b1 (front_eq_ok.mp ha1) (back_eq_ok.mp hb1)
  have s0 : t0.energy.Pairwise (· ≤ ·) := (hvt t0 m0).pc.values_sorted
  have s1 : t1.energy.Pairwise (· ≤ ·) := (hvt t1 m1).pc.values_sorted
  refine ⟨l, f, t0.energy, t1.energy, a0, b0, a1, b1, har, by simp [g0], by simp [g1], front_eq_ok.mp ha0, back_eq_ok.mp hb0,
    front_eq_ok.mp ha1, back_eq_ok.mp hb1, ?_⟩
  by_contra hc
  apply hv
  rcases unit_outside f0 f1 w0 w1 hu hc with ⟨k0, k1⟩ | ⟨k0, k1⟩
  · rw [jointPdf_outside s0 ha0 hb0 (Or.inl k0) hp0, jointPdf_outside s1 ha1 hb1 (Or.inl k1) hp1]; ring
  · rw [jointPdf_outside s0 ha0 hb0 (Or.inr k0) hp0, jointPdf_outside s1 ha1 hb1 (Or.inr k1) hp1]; ring

theorem eaPdf_reach {d : TabEnergyAngle} (hw : WFLaw (.tabEnergyAngle d)) (hwd : WideLaw (.tabEnergyAngle d)) {E mu x v : ℝ}
    (h : d.pdfAt E mu x = .ok v) (hv : v ≠ 0) : ReachL E (.tabEnergyAngle d) x := by
  obtain ⟨hl, hvt, _⟩ := hw
  unfold TabEnergyAngle.pdfAt at h
  obtain ⟨⟨l, f⟩, hb, h⟩ := bind_ok h
  obtain ⟨f0, f1⟩ := bracketIn_unit hb
  dsimp only at h
  obtain ⟨t0, h0, h⟩ := bind_ok h
  obtain ⟨t1, h1, h⟩ := bind_ok h
  obtain ⟨p, hp, h⟩ := bind_ok h
  obtain ⟨a0, b0, a1, b1, ha0, hb0, ha1, hb1, rfl⟩ := unitBase_eq hp
  dsimp only at h
  obtain ⟨u, hu, h⟩ := bind_ok h
  obtain ⟨p0, hp0, h⟩ := bind_ok h
  obtain ⟨p1, hp1, h⟩ := bind_ok h
  cases h
  have g0 := getAt_eq_ok.mp h0
  have g1 := getAt_eq_ok.mp h1
  have m0 := List.mem_of_getElem? g0
  have m1 := List.mem_of_getElem? g1
  have har := bracketIn_around hb (by have := lt_length_of_some g1; omega)
  have w0 := hwd t0 m0 a0 b0 (front_eq_ok.mp ha0) (back_eq_ok.mp hb0)
  have w1 := hwd t1 m1 a1 b1 (front_eq_ok.mp ha1) (back_eq_ok.mp hb1)
  have s0 : t0.energy.Pairwise (· ≤ ·) := (hvt t0 m0).pc.values_sorted
  have s1 : t1.energy.Pairwise (· ≤ ·) := (hvt t1 m1).pc.values_sorted
  refine ⟨l, f, t0.energy, t1.energy, a0, b0, a1, b1, har, by simp [g0], by simp [g1], front_eq_ok.mp ha0, back_eq_ok.mp hb0,
    front_eq_ok.mp ha1, back_eq_ok.mp hb1, ?_⟩
  by_contra hc
  apply hv
  rcases unit_outside f0 f1 w0 w1 hu hc with ⟨k0, k1⟩ | ⟨k0, k1⟩
  · rw [jointPdf_outside s0 ha0 hb0 (Or.inl k0) hp0, jointPdf_outside s1 ha1 hb1 (Or.inl k1) hp1]; ring
  · rw [jointPdf_outside s0 ha0 hb0 (Or.inr k0) hp0, jointPdf_outside s1 ha1 hb1 (Or.inr k1) hp1]; ring

theorem nbody_reach {d : NBody} (hn : d.n ≠ 4) {E x v : ℝ} (h : d.pdf E x = .ok v) (hv : v ≠ 0) : ReachL E (.nbody d) x := by
  unfold NBody.pdf at h
  dsimp only at h
  obtain ⟨C, hC, h⟩ := bind_ok h
  obtain ⟨s, hs, h⟩ := bind_ok h
  obtain ⟨p, hp, h⟩ := bind_ok h
  obtain ⟨_, hx⟩ := csqrt_nonneg hs
  have fin : 0 ≤ d.emax E - x → ReachL E (.nbody d) x := fun h => ⟨hx, by unfold NBody.emax at h; linarith⟩
  by_cases h3 : d.n = 3
  · rw [h3] at hp
    exact fin (cpow_half (fun k => by have := half_ne 0 k; push_cast at this; norm_num at this ⊢; exact this) hp).1
  rw [if_neg h3, if_neg hn] at hC
  by_cases h5 : d.n = 5
  · rw [h5] at hp
    exact fin (cpow_half (fun k => by have := half_seven k; norm_num at this ⊢; exact this) hp).1
  rw [if_neg h5] at hC
  cases hC
  cases h
  simp at hv

theorem law_reach {l : Law} {fuel : Nat} {E mu x v : ℝ} (hw : WFLaw l) (hwd : WideLaw l) (h : (l.toAE fuel).pdf E mu x = .ok (some v)) (hv : v ≠ 0) :
    ReachL E l x := by
  cases l with
  | uncorrelated u =>
    have h : u.pdf E mu x = .ok (some v) := h
    unfold Uncorr.pdf at h
    obtain ⟨o, ho, h⟩ := bind_ok h
    cases o with
    | none => cases h
    | some p =>
      dsimp only at h
      obtain ⟨a, ha, h⟩ := bind_ok h
      have e := Option.some.inj (Except.ok.inj h)
      refine elaw_reach hw.2 hwd ho ?_
      rintro rfl
      exact hv (by rw [← e]; ring)
  | kalbach d => exact kalbachPdf_reach hw hwd (map_some h) hv
  | tabEnergyAngle d => exact eaPdf_reach hw hwd (map_some h) hv
  | nbody d => exact nbody_reach hwd (map_some h) hv

theorem multiMix_reach {E : ℝ} {f : AE → Res (Option ℝ)} {fuel : Nat} {R : Law → Prop} : ∀ (ls : List (Law × Tab1D)) (acc v : ℝ),
    (∀ p ∈ ls, ∀ v, f (p.1.toAE fuel) = .ok (some v) → v ≠ 0 → R p.1) →
    Multi.mix E f (ls.map fun p => p.1.toAE fuel) (ls.map Prod.snd) acc = .ok (some v) → v ≠ acc → ∃ p ∈ ls, ∃ w, p.2.eval E = .ok w ∧ w ≠ 0 ∧ R p.1 := by
  intro ls
  induction ls with
  | nil => intro acc v _ h ha; exact absurd (Option.some.inj (Except.ok.inj h)).symm ha
  | cons p ls ih =>
    intro acc v hf h ha
    simp only [List.map_cons, Multi.mix] at h
    obtain ⟨o, ho, h⟩ := bind_ok h
    cases o with
    | none => cases h
    | some u =>
      dsimp only at h
      obtain ⟨w, hw', h⟩ := bind_ok h
      by_cases hz : w * u = 0
      · rw [hz, add_zero] at h
        obtain ⟨q, hq, r⟩ := ih _ _ (fun q hq => hf q (by simp [hq])) h ha
        exact ⟨q, by simp [hq], r⟩
      · obtain ⟨hw0, hu0⟩ := mul_ne_zero_iff.mp hz
        exact ⟨p, by simp, w, hw', hw0, hf p (by simp) u ho hu0⟩

/-- The energy in the centre-of-mass frame, when the change of frame is defined. -/
theorem labToCm_energy {E A mu x m e : ℝ} (hE : 0 < E) (h : labToCm E A mu x = .ok (m, e)) : e = x - 2 * mu * Real.sqrt (E * x) / (A + 1) + E / (A + 1) ^ 2 := by
  unfold labToCm at h
  obtain ⟨s, hs, h⟩ := bind_ok h
  obtain ⟨i, hi, h⟩ := bind_ok h
  obtain ⟨r, hr, h⟩ := bind_ok h
  obtain ⟨s2, hs2, h⟩ := bind_ok h
  dsimp only at h
  obtain ⟨q, hq, h⟩ := bind_ok h
  obtain ⟨r3, _, h⟩ := bind_ok h
  obtain ⟨s3, _, h⟩ := bind_ok h
  have he := (congrArg Prod.snd (Except.ok.inj h)).symm
  dsimp only at he
  have hx0 : x ≠ 0 := by rintro rfl; rw [rdiv_zero] at hr; cases hr
  have hA0 : A + 1 ≠ 0 := by intro hA; rw [hA, rdiv_zero] at hi; cases hi
  have hEx := (csqrt_nonneg hs).2
  have hx : 0 < x := lt_of_le_of_ne (by by_contra hc; exact absurd hEx (not_le.mpr (mul_neg_of_pos_of_neg hE (not_le.mp hc)))) hx0.symm
  rw [csqrt_ok hEx] at hs
  rw [rdiv_ok hA0] at hi
  rw [rdiv_ok hx0] at hr
  have hr := (Except.ok.inj hr).symm
  rw [hr, csqrt_ok (by positivity)] at hs2
  rw [rdiv_ok (mul_ne_zero hA0 hA0)] at hq
  have hs := (Except.ok.inj hs).symm
  have hi := (Except.ok.inj hi).symm
  have hs2 := (Except.ok.inj hs2).symm
  have hq := (Except.ok.inj hq).symm
  have hss : s * s2 = E := by
    rw [hs, hs2, ← Real.sqrt_mul hEx, show E * x * (E / x) = E * E by field_simp]
    exact Real.sqrt_mul_self hE.le
  rw [he, hq, hi, ← hs]
  have e1 : E + 2 * (A + 1) * s * (mu - 1 / (A + 1) * s2) = E + 2 * (A + 1) * s * mu - 2 * (s * s2) := by field_simp; ring
  rw [e1, hss]
  field_simp
  ring

theorem dist_reach {fuel : Nat} {E : ℝ} (hE : 0 < E) : ∀ (d : NDist), WFDist d → WideDist d → ∀ mu x v, (d.toAE fuel).pdf E mu x = .ok (some v) → v ≠ 0 →
    Reach E d mu x
  | .absorption _, _, _, _, _, _, h, _ => by cases h
  | .one _, hw, hp, _, _, _, h, hv => law_reach hw hp h hv
  | .several ls, hw, hp, mu, x, v, h, hv =>
    multiMix_reach (R := fun l => ReachL E l x) ls 0 _ (fun p hpm _ hv h0 => law_reach (hw.2 p hpm).1 (hp p hpm) hv h0) h hv
  | .cm awr q d, hw, hp, mu, x, v, h, hv => by
    have h : CMDist.pdf ⟨awr, q, d.toAE fuel⟩ E mu x = .ok (some v) := h
    unfold CMDist.pdf at h
    obtain ⟨⟨m, e⟩, hf, h⟩ := bind_ok h
    dsimp only at h
    obtain ⟨o, ho, h⟩ := bind_ok h
    cases o with
    | none => cases h
    | some p =>
      dsimp only at h
      obtain ⟨j, hj, h⟩ := bind_ok h
      have e1 := Option.some.inj (Except.ok.inj h)
      have hp0 : p ≠ 0 := by rintro rfl; exact hv (by rw [← e1]; ring)
      refine ⟨m, ?_⟩
      rw [← labToCm_energy hE hf]
      exact dist_reach hE d hw hp _ _ _ ho hp0

/-- **C149** For every file and every reaction read from it, every positive incident energy, cosine and outgoing energy: if the density the reaction reports
there is not zero, one of its laws can give that energy (`Spec.Reach`).  Missing for the full claim: tables that hold a single outgoing energy and N-body
laws with four bodies (`Spec.WideDist`), for which it is false, see the violations. -/
theorem C149_reaction_partial (a : AceBlocks) (indx fuel : Nat) (r : RxnBase) (h : RxnBase.makeAce a indx fuel = .ok r) (hw : WideDist r.dist) (E : ℝ)
    (hE : 0 < E) (fuel' : Nat) (mu x v : ℝ) (hv : (r.dist.toAE fuel').pdf E mu x = .ok (some v)) (h0 : v ≠ 0) : Reach E r.dist mu x :=
  dist_reach hE r.dist (RxnBase.makeAce_wf h) hw _ _ _ hv h0

/-- **C149** Every reaction of a nuclide read from a file. -/
theorem C149_nuclide_partial (fuel : Nat) (f : AceFile) (a : AceIn ℝ) (n : Nuc) (hn : Read fuel f a n) (mt : Nat) (r : STRxn) (hr : n.reaction mt = .ok r)
    (hw : WideDist r.base.dist) (E : ℝ) (hE : 0 < E) (fuel' : Nat) (mu x v : ℝ) (hv : (r.base.dist.toAE fuel').pdf E mu x = .ok (some v)) (h0 : v ≠ 0) :
    Reach E r.base.dist mu x := by
  obtain ⟨f', i, _, hb⟩ := hn.base_pos hr
  exact dist_reach hE _ (RxnBase.makeAce_wf hb) hw _ _ _ hv h0

/-- **C149** The spectra of the delayed neutrons. -/
theorem C149_delayed_partial (f : AceFile) (fuel : Nat) (n : Nuc) (hn : Nuc.makeAce f fuel = .ok n) (F : Family ELaw) (hF : F ∈ n.fission.families)
    (hw : WideELaw F.law) (E x v : ℝ) (hv : F.law.pdf E x = .ok (some v)) (h0 : v ≠ 0) : ReachE E F.law x := by
  by_cases hf : f.fissile = true
  · obtain ⟨i, hi⟩ := List.getElem?_of_mem hF
    obtain ⟨_, _, _, _, _, _, h⟩ := (C99_delayed f fuel n hn hf).2 i F hi
    exact elaw_reach (familyLaw_wf h) hw hv h0
  · have := ((C99_fission f fuel n hn).2.2.1 (by simpa using hf)).1
    rw [this] at hF; cases hF

/-! ### The conditions are needed -/

namespace Example

/-- A file whose reaction has an N-body law with four bodies of total mass 3, in the lab frame. -/
noncomputable def nbodyBlocks : AceBlocks :=
  { exBlocks with xss := [37, -2, 1, 0, -1, 1, 0, 66, 10, 0, 2, 1, 9, 1, 1, 4, 3] }

theorem nbody_reaction : ∃ y, ∀ fuel, RxnBase.makeAce nbodyBlocks 0 (fuel + 1) = .ok ⟨37, -2, 10, y, .one (.nbody ⟨4, 3, 10, -2⟩)⟩ := by
  obtain ⟨t, ht⟩ := probOne_make
  have hat : ReactionAt nbodyBlocks 0 37 (-2) 1 none [(66, 10, ⟨[], [1, 9], [1, 1]⟩)] := by
    refine ⟨⟨nbodyBlocks.xss.take 0, nbodyBlocks.xss.drop 1, by simp [nbodyBlocks], by simp [nbodyBlocks, exBlocks]⟩,
      ⟨nbodyBlocks.xss.take 1, nbodyBlocks.xss.drop 2, by simp [nbodyBlocks], by simp [nbodyBlocks, exBlocks]⟩,
      ⟨nbodyBlocks.xss.take 2, nbodyBlocks.xss.drop 3, by simp [nbodyBlocks], by simp [nbodyBlocks, exBlocks]⟩, Or.inl ⟨rfl, ?_⟩, 1, le_refl _, ?_, ?_⟩
    · exact ⟨nbodyBlocks.xss.take 4, nbodyBlocks.xss.drop 5, by simp [nbodyBlocks], by simp [nbodyBlocks, exBlocks]⟩
    · exact ⟨nbodyBlocks.xss.take 5, nbodyBlocks.xss.drop 6, by simp [nbodyBlocks], by simp [nbodyBlocks, exBlocks]⟩
    · exact ⟨le_refl _, by norm_num, rfl, ⟨nbodyBlocks.xss.take 6, nbodyBlocks.xss.drop 15, by norm_num [nbodyBlocks, TabRecord.encode], by simp [nbodyBlocks, exBlocks]⟩⟩
  have hn : NBody.makeAce nbodyBlocks.xss nbodyBlocks.awr (nbodyBlocks.dlw + (10 - 1)) (-2) = .ok ⟨4, 3, 10, -2⟩ := by
    unfold NBody.makeAce natAt
    rw [show nbodyBlocks.dlw + (10 - 1) = 15 from rfl, show getAt nbodyBlocks.xss 15 = .ok 4 from rfl, show getAt nbodyBlocks.xss (15 + 1) = .ok 3 from rfl,
      show nbodyBlocks.awr = 10 from rfl]
    simp only [bind, Except.bind, pure, Except.pure]
    have h4 : ⌊(4 : ℝ)⌋.toNat = 4 := by
      have : ⌊(4 : ℝ)⌋ = 4 := by norm_num
      rw [this]; rfl
    rw [h4]
    unfold NBody.make
    rw [if_neg (by norm_num), if_neg (by norm_num), if_neg (by norm_num)]
  refine ⟨.const |(1 : ℝ)|, fun fuel => ?_⟩
  have hm := C97_reaction nbodyBlocks 0 37 (-2) 1 _ _ hat (by norm_num) (.const |(1 : ℝ)|)
    (by unfold readYield; rw [if_pos (by norm_num)]) [(.nbody ⟨4, 3, 10, -2⟩, t)]
    (.cons ⟨.nbody _ hn, ht⟩ .nil) (fuel + 1) (by simp)
  rw [if_neg (by norm_num)] at hm
  exact hm

end Example

theorem cpow_square {b : ℝ} (hb : b < 0) : cpow b 2 = .ok (b ^ 2) := by
  unfold cpow
  have hf : ⌊(2 : ℝ)⌋ = 2 := by norm_num
  rw [if_neg (not_lt.mpr hb.le), if_neg hb.ne, hf, if_pos (by norm_num)]
  norm_cast

open Example in
/-- The full claim is false of the code: with four bodies the exponent is 2, and the density is positive at every energy above the kinematic maximum.  A file
with such a reaction is accepted. -/
theorem C149_violation : ∃ (a : AceBlocks) (r : RxnBase), 0 < a.awr ∧ (∀ fuel, RxnBase.makeAce a 0 (fuel + 1) = .ok r) ∧
    ∀ fuel E mu x, 11 / 5 < E → 2 / 3 * (10 / 11 * E - 2) < x → ¬ Reach E r.dist mu x ∧ ∃ v, (r.dist.toAE fuel).pdf E mu x = .ok (some v) ∧ 0 < v := by
  obtain ⟨y, hy⟩ := nbody_reaction
  refine ⟨nbodyBlocks, _, by norm_num [nbodyBlocks, exBlocks], hy, ?_⟩
  intro fuel E mu x hE hx
  have he : NBody.emax ⟨4, 3, 10, -2⟩ E = 2 / 3 * (10 / 11 * E - 2) := by unfold NBody.emax; norm_num; ring
  have hm : 0 < 2 / 3 * (10 / 11 * E - 2) := by linarith
  refine ⟨fun h => ?_, ?_⟩
  · have h : 0 ≤ x ∧ x ≤ ((3 : ℝ) - 1) / 3 * (10 / (10 + 1) * E + -2) := h
    norm_num at h
    linarith [h.2]
  · obtain ⟨m, hmm⟩ : ∃ m, m = 2 / 3 * (10 / 11 * E - 2) := ⟨_, rfl⟩
    rw [← hmm] at he hm hx
    have hp : 0 < m ^ ((7 : ℝ) / 2) := Real.rpow_pos_of_pos hm _
    have hx0 : 0 < x := by linarith
    have hv : NBody.pdf ⟨4, 3, 10, -2⟩ E x = .ok (105 / (32 * m ^ ((7 : ℝ) / 2)) * Real.sqrt x * (m - x) ^ 2) := by
      unfold NBody.pdf
      dsimp only
      rw [he, if_neg (by norm_num), if_pos rfl]
      have e1 : cpow m (7 / 2) = .ok (m ^ ((7 : ℝ) / 2)) := by unfold cpow; rw [if_pos hm]
      have e2 : (3 * ((4 : ℕ) : ℝ) / 2 - 4) = 2 := by norm_num
      rw [e1, e2, csqrt_ok hx0.le, cpow_square (by linarith)]
      simp only [bind, Except.bind, rdiv_ok (mul_pos (by norm_num : (0 : ℝ) < 32) hp).ne', pure, Except.pure]
    refine ⟨105 / (32 * m ^ ((7 : ℝ) / 2)) * Real.sqrt x * (m - x) ^ 2, ?_, ?_⟩
    · show (NBody.pdf ⟨4, 3, 10, -2⟩ E x).map some = _
      rw [hv]; rfl
    · have : 0 < (m - x) ^ 2 := by have : m - x ≠ 0 := by linarith
                                   positivity
      positivity

/-- Nor is it true when one of the two tables around the incident energy holds a single outgoing energy (a discrete line): every outgoing energy is mapped
to that line, and the density is positive everywhere. -/
theorem C149_violation_line (d : TabEnergy) (E : ℝ) (l : Nat) (f : ℝ) (hb : bracketIn d.energy E = .ok (l, f)) (t0 t1 : PCTable) (g0 : d.tables[l]? = some t0)
    (g1 : d.tables[l + 1]? = some t1) (v1 : ValidPC t1) (a p a1 b1 : ℝ) (ha : t0.minValue = .ok a) (hb0 : t0.maxValue = .ok a)
    (hp : t0.pdfAt a = .ok p) (hp0 : 0 < p) (ha1 : t1.minValue = .ok a1) (hb1 : t1.maxValue = .ok b1) (hw : a1 < b1) (f0 : 0 < f) (f1 : f < 1) (x : ℝ) :
    ∃ v, d.pdfAt E x = .ok v ∧ 0 < v := by
  have hd : 0 < a + f * (b1 - a) - (a + f * (a1 - a)) := by
    have : a + f * (b1 - a) - (a + f * (a1 - a)) = f * (b1 - a1) := by ring
    rw [this]; exact mul_pos f0 (by linarith)
  obtain ⟨q, hq, hq0, _⟩ := C34_pdf t1 v1 ((x - (a + f * (a1 - a))) / (a + f * (b1 - a) - (a + f * (a1 - a))) * (b1 - a1) + a1)
  refine ⟨(1 - f) * p + f * q, ?_, add_pos_of_pos_of_nonneg (mul_pos (by linarith) hp0) (mul_nonneg f0.le hq0)⟩
  unfold TabEnergy.pdfAt
  simp only [hb, bind, Except.bind, getAt_eq_ok.mpr g0, getAt_eq_ok.mpr g1, ha, hb0, ha1, hb1, rdiv_ok hd.ne', sub_self, mul_zero, zero_add, hp, hq, pure, Except.pure]

/-- Such tables are accepted, for instance by the following law, which can give the energies from 1/2 to 3/2 at the incident energy 2. -/
theorem C149_violation_line_exists : ∃ (t0 t1 : PCTable) (d : TabEnergy), PCTable.make [1, 1] [1, 1] [0, 1] .histogram = .ok t0 ∧
    PCTable.make [0, 2] [1 / 2, 1 / 2] [0, 1] .histogram = .ok t1 ∧ TabEnergy.make [1, 3] [t0, t1] = .ok d ∧
    (∀ x, ReachE 2 (.tabular d) x → 1 / 2 ≤ x ∧ x ≤ 3 / 2) ∧ ∀ x, ∃ v, d.pdfAt 2 x = .ok v ∧ 0 < v := by
  have m0 : PCTable.make [1, 1] [1, 1] [0, 1] .histogram = .ok ⟨[1, 1], [1, 1], [0, 1], .histogram⟩ := by
    norm_num [PCTable.make, PCTable.check, isSorted, setLast, back, bind, Except.bind, pure, Except.pure]
  have m1 : PCTable.make [0, 2] [1 / 2, 1 / 2] [0, 1] .histogram = .ok ⟨[0, 2], [1 / 2, 1 / 2], [0, 1], .histogram⟩ := by
    norm_num [PCTable.make, PCTable.check, isSorted, setLast, back, bind, Except.bind, pure, Except.pure]
  refine ⟨_, _, ⟨[1, 3], [⟨[1, 1], [1, 1], [0, 1], .histogram⟩, ⟨[0, 2], [1 / 2, 1 / 2], [0, 1], .histogram⟩]⟩, m0, m1, ?_, ?_, ?_⟩
  · norm_num [TabEnergy.make, isSorted]
  · rintro x ⟨i, f, l0, l1, a0, b0, a1, b1, ⟨e0, e1, h0, h1, hc⟩, k0, k1, k2, k3, k4, k5, hx⟩
    match i with
    | 0 =>
      simp at h0 h1 k0 k1
      subst h0 h1 k0 k1
      simp at k2 k3 k4 k5
      subst k2 k3 k4 k5
      rcases hc with ⟨_, _, h⟩ | ⟨_, _, h⟩ | ⟨_, _, h⟩
      · norm_num at h
      · norm_num at h
      · rw [h] at hx; norm_num at hx ⊢; exact hx
    | i + 1 => simp at h1
  · intro x
    have hb : bracketIn [1, 3] (2 : ℝ) = .ok (0, 1 / 2) := by
      norm_num [bracketIn, lowerBound, lowerBoundRange, bisect, subIdx, getAt, bind, Except.bind, pure, Except.pure, rdiv]
    refine C149_violation_line _ 2 0 (1 / 2) hb _ _ rfl rfl (PCTable.make_valid m1).1 1 1 0 2 rfl rfl ?_ one_pos rfl rfl (by norm_num)
      (by norm_num) (by norm_num) x
    norm_num [PCTable.pdfAt, PCTable.minValue, PCTable.maxValue, front, back, getAt, lowerBound, lowerBoundRange, bisect, bind, Except.bind, pure, Except.pure]

open Example in
/-- The hypotheses are met by the reaction of a file in the centre-of-mass frame, and by one in the lab frame together with a density that is not zero. -/
theorem C149_hypotheses : (∃ r, (∀ fuel, RxnBase.makeAce evapFile.toAceBlocks 0 (fuel + 1) = .ok r) ∧ WideDist r.dist) ∧
    ∃ r, (∀ fuel, RxnBase.makeAce maxwellBlocks 0 (fuel + 1) = .ok r) ∧ WideDist r.dist ∧
      ∀ fuel, ∃ v, (r.dist.toAE fuel).pdf (5 / 4) 0 (1 / 8) = .ok (some v) ∧ v ≠ 0 := by
  refine ⟨?_, ?_⟩
  · obtain ⟨y, hy⟩ := evap_reaction
    exact ⟨_, hy, trivial⟩
  · obtain ⟨y, hy⟩ := maxwell_reaction
    refine ⟨_, hy, trivial, fun fuel => ?_⟩
    obtain ⟨p, hp, hneg⟩ := C69_violation_maxwell_negative twoTab 1 (5 / 4) 2 (twoTab_eval _ (by norm_num) (by norm_num)) (by norm_num) (by norm_num) (by norm_num)
      (1 / 8) (by norm_num) (by norm_num)
    refine ⟨p * (1 / 2), ?_, by linarith⟩
    show Uncorr.pdf ⟨⟨[1 / 10 ^ 5], [.isotropic]⟩, .maxwell twoTab 1⟩ (5 / 4) 0 (1 / 8) = _
    unfold Uncorr.pdf
    simp only [ELaw.pdf, hp, Except.map, bind, Except.bind, iso_pdf (5 / 4) 0 (by norm_num) (by norm_num), pure, Except.pure]

end PNDL
