import Verif.Lemmas.NoUB
import Verif.Props.ThermalRead
import Verif.Props.ThermalDist

/-! C138, C139: sampling a thermal scattering law that was read from a file. -/
namespace PNDL
open Spec

/-- What sampling the inelastic part relies on and the constructor does not check: an incoming energy (two, with continuous outgoing energies), an
outgoing energy (two), a cosine. -/
def Spec.SafeInel : InelDist → Prop
  | .discrete d => d.energy ≠ [] ∧ 0 < d.noe ∧ 0 < d.nmu
  | .continuous d => 2 ≤ d.energy.length ∧ ∀ t ∈ d.tables, 2 ≤ t.energy.length

theorem noUB_mixAt {u v : List ℝ} {j : Nat} (hu : j < u.length) (hv : j < v.length) (f : ℝ) : NoUB (mixAt u v f j) :=
  (noUB_getAt hu).bind fun _ _ => (noUB_getAt hv).bind fun _ _ => .ok _

theorem noUB_smear {u v : List ℝ} {n j : Nat} (hu : u.length = n) (hv : v.length = n) (hj : j < n) (f xi : ℝ) : NoUB (smear u v f n j xi) := by
  unfold smear
  refine (noUB_mixAt (by omega) (by omega) f).bind fun m _ => ?_
  refine NoUB.bind (.ite (fun h => noUB_mixAt (by omega) (by omega) f) fun _ => .ok _) fun lo _ => ?_
  exact NoUB.bind (.ite (fun h => noUB_mixAt (by omega) (by omega) f) fun _ => .ok _) fun hi _ => .ok _

theorem noUB_sampleEnergy {nmu : Nat} {t : CEDCTable} (hv : ValidCEDC nmu t) (h2 : 2 ≤ t.energy.length) (xi : ℝ) :
    NoUB (t.sampleEnergy xi) ∧ ∀ e j, t.sampleEnergy xi = .ok (e, j) → j + 1 < t.energy.length := by
  have hle := lowerBound_le_length t.cdf xi
  have hC := hv.lenC
  have hP := hv.lenP
  obtain ⟨l, hl, hlt⟩ : ∃ l, (if lowerBound t.cdf xi = 0 then .ok 0 else if lowerBound t.cdf xi = t.cdf.length then subIdx t.energy.length 2
      else subIdx (lowerBound t.cdf xi) 1 : Res Nat) = .ok l ∧ l + 1 < t.energy.length := by
    by_cases h0 : lowerBound t.cdf xi = 0
    · rw [if_pos h0]; exact ⟨0, rfl, by omega⟩
    · rw [if_neg h0]
      by_cases h1 : lowerBound t.cdf xi = t.cdf.length
      · rw [if_pos h1, subIdx_of_le h2]; exact ⟨_, rfl, by omega⟩
      · rw [if_neg h1, subIdx_of_le (by omega)]; exact ⟨_, rfl, by omega⟩
  unfold CEDCTable.sampleEnergy
  dsimp only
  rw [hl]
  refine ⟨?_, ?_⟩
  · refine NoUB.bind (.ok l) fun l' e => ?_
    cases e
    refine (noUB_getAt (by omega)).bind fun p0 _ => (noUB_getAt (by omega)).bind fun p1 _ => (noUB_getAt (by omega)).bind fun v0 _ =>
      (noUB_getAt (by omega)).bind fun c0 _ => (noUB_getAt hlt).bind fun v1 _ => NoUB.bind (.ite (fun _ => ?_) fun _ => ?_) fun _ _ => .ok _
    · exact (noUB_rdiv _ _).bind fun _ _ => .ok _
    · exact (noUB_rdiv _ _).bind fun _ _ => (noUB_rdiv _ _).bind fun _ _ => .ok _
  · intro e j h
    obtain ⟨l', e', h⟩ := bind_ok h
    cases e'
    obtain ⟨_, _, h⟩ := bind_ok h
    obtain ⟨_, _, h⟩ := bind_ok h
    obtain ⟨_, _, h⟩ := bind_ok h
    obtain ⟨_, _, h⟩ := bind_ok h
    obtain ⟨_, _, h⟩ := bind_ok h
    obtain ⟨_, _, h⟩ := bind_ok h
    have := congrArg Prod.snd (Except.ok.inj h)
    have : l = j := this
    omega

theorem noUB_sampleMu {nmu : Nat} {t : CEDCTable} (hv : ValidCEDC nmu t) (hn : 0 < nmu) {j : Nat} (hj : j + 1 < t.energy.length) (xi r2 : ℝ) {r1 : ℝ}
    (h0 : 0 ≤ r1) (h1 : r1 < 1) : NoUB (t.sampleMu nmu j xi r1 r2) := by
  have hC := hv.lenC
  have hM := hv.lenM
  unfold CEDCTable.sampleMu
  refine (noUB_getAt (by omega)).bind fun c0 _ => (noUB_getAt (by omega)).bind fun c1 _ => (noUB_rdiv _ _).bind fun f _ =>
    (noUB_getAt (by omega)).bind fun u hu => (noUB_getAt (by omega)).bind fun v hv' => NoUB.bind ?_ fun _ _ => .ok _
  exact noUB_smear (hv.cosines u (List.mem_of_getElem? (getAt_eq_ok.mp hu))).len (hv.cosines v (List.mem_of_getElem? (getAt_eq_ok.mp hv'))).len
    (floor_lt_of_unit hn h0 h1) f r2

theorem noUB_continuous {d : ContinuousCE} (hv : ValidCCE d) (h2 : 2 ≤ d.energy.length) (ht : ∀ t ∈ d.tables, 2 ≤ t.energy.length) (E : ℝ) {ω : Tape}
    (hω : UnitTape ω) (k : Nat) : NoUB (d.sample E ω k) := by
  have hlen := hv.len
  unfold ContinuousCE.sample
  refine .ite (fun _ => ?_) fun _ => ?_
  · unfold ContinuousCE.samplePlain
    refine (noUB_bracketIn h2 E).bind fun p hp => ?_
    obtain ⟨l, f⟩ := p
    have hl := bracketIn_lt h2 hp
    have hi : (if f > 1 / 2 then l + 1 else l) < d.energy.length := by split_ifs <;> omega
    dsimp only
    refine (noUB_getAt (by omega)).bind fun t htt => ?_
    have htm := List.mem_of_getElem? (getAt_eq_ok.mp htt)
    obtain ⟨s1, s2⟩ := noUB_sampleEnergy (hv.tables t htm).1 (ht t htm) (ω k)
    refine s1.bind fun q hq => ?_
    obtain ⟨Eo, j⟩ := q
    dsimp only
    refine (noUB_getAt hi).bind fun Ei _ => NoUB.bind (.ite (fun _ => (noUB_rdiv _ _).bind fun _ _ => .ok _) fun _ => .ok _) fun Eout _ => ?_
    exact (noUB_sampleMu (hv.tables t htm).1 (hv.tables t htm).2 (s2 _ _ hq) _ _ (hω _).1 (hω _).2).bind fun _ _ => .ok _
  · unfold ContinuousCE.sampleUnit
    refine (noUB_bracketIn h2 E).bind fun p hp => ?_
    obtain ⟨l, f⟩ := p
    have hl := bracketIn_lt h2 hp
    dsimp only
    refine (noUB_getAt (by omega)).bind fun t0 h0 => (noUB_getAt (by omega)).bind fun t1 h1 => ?_
    have m0 := List.mem_of_getElem? (getAt_eq_ok.mp h0)
    have m1 := List.mem_of_getElem? (getAt_eq_ok.mp h1)
    have q0 := ht t0 m0
    have q1 := ht t1 m1
    refine (noUB_front (by omega)).bind fun a0 _ => (noUB_back (by omega)).bind fun b0 _ => (noUB_front (by omega)).bind fun a1 _ =>
      (noUB_back (by omega)).bind fun b1 _ => ?_
    by_cases hc : ω (k + 1) > f
    · simp only [if_pos hc]
      obtain ⟨s1, s2⟩ := noUB_sampleEnergy (hv.tables t0 m0).1 q0 (ω k)
      refine s1.bind fun q hq => ?_
      obtain ⟨Eo, j⟩ := q
      exact (noUB_rdiv _ _).bind fun _ _ => (noUB_sampleMu (hv.tables t0 m0).1 (hv.tables t0 m0).2 (s2 _ _ hq) _ _ (hω _).1 (hω _).2).bind fun _ _ => .ok _
    · simp only [if_neg hc]
      obtain ⟨s1, s2⟩ := noUB_sampleEnergy (hv.tables t1 m1).1 q1 (ω k)
      refine s1.bind fun q hq => ?_
      obtain ⟨Eo, j⟩ := q
      exact (noUB_rdiv _ _).bind fun _ _ => (noUB_sampleMu (hv.tables t1 m1).1 (hv.tables t1 m1).2 (s2 _ _ hq) _ _ (hω _).1 (hω _).2).bind fun _ _ => .ok _

theorem noUB_coherent {a : TslAce} {c : CohElastic} (h : CohElastic.makeAce a = .ok c) (E : ℝ) (ω : Tape) (k : Nat) : NoUB (c.sample E ω k) := by
  obtain ⟨h1, h2⟩ := C65_read a c h
  by_cases h4 : a.nxs 4 = 4
  · have hv := (h1 h4).1
    obtain ⟨first, h0⟩ := getElem?_of_lt (l := c.edges) (i := 0) (List.length_pos_of_ne_nil hv.ne)
    by_cases hE : first < E
    · obtain ⟨_, _, _, _, _, _, _, _, e⟩ := C65_sample c hv first E h0 hE ω k
      rw [e]; exact .ok _
    · rw [C65_sample_below c hv first E h0 (not_lt.mp hE) ω k]; exact .ok _
  · have : c.edges = [] := by
      unfold CohElastic.makeAce at h
      rw [if_neg h4] at h
      have := Except.ok.inj h
      rw [← this]
    unfold CohElastic.sample
    rw [this]; exact .exc

theorem noUB_incoherent {d : IncElastic} (hv : ValidInc d) (hn : d.energy.length ≠ 1) (E : ℝ) {ω : Tape} (hω : UnitTape ω) (k : Nat) :
    NoUB (d.sample E ω k) := by
  by_cases h0 : d.energy.length = 0
  · unfold IncElastic.sample
    rw [if_pos h0]; exact .exc
  · obtain ⟨mu, e, _⟩ := C66_sample_partial d hv (by omega) E ω hω k
    rw [e]; exact .ok _

/-- **C138** Reading memory: whatever the file, sampling a law read from it accesses nothing outside its tables: neither the inelastic part, nor the
coherent elastic, nor the incoherent elastic part.  Missing for the full claim: the conditions of `SafeInel` and the second energy of the incoherent
elastic part, which the constructor does not check (`C138_violation_single`, `C66_violation_single`, `C86_violation_single`). -/
theorem C138_safe_partial (a : TslAce) (u : Bool) (t : ThermalLaw) (h : ThermalLaw.makeAce a u = .ok t) (hs : SafeInel t.inelastic.dist)
    (hi : t.incoherent.energy.length ≠ 1) (E : ℝ) (ω : Tape) (hω : UnitTape ω) (k : Nat) :
    t.inelastic.dist.sample E ω k ≠ .error .ub ∧ t.coherent.sample E ω k ≠ .error .ub ∧ t.incoherent.sample E ω k ≠ .error .ub := by
  obtain ⟨_, hc, _⟩ := ThermalLaw.parts h
  obtain ⟨_, v2, v3, v4⟩ := C87_parts_valid a u t h
  refine ⟨?_, noUB_coherent hc E ω k, noUB_incoherent v2 hi E hω k⟩
  unfold InelDist.sample
  cases hd : t.inelastic.dist with
  | discrete d =>
    rw [hd] at hs
    obtain ⟨s1, s2, s3⟩ := hs
    obtain ⟨_, _, _, _, _, e, _⟩ := C85_sample_partial d (v3 d hd) s1 s2 s3 E ω hω k
    simp only [e]; exact NoUB.ok _
  | continuous d =>
    rw [hd] at hs
    exact noUB_continuous (v4 d hd).1 hs.1 hs.2 E hω k

/-- **C139** The coherent elastic part keeps the energy and returns a cosine. -/
theorem C139_coherent (a : TslAce) (u : Bool) (t : ThermalLaw) (h : ThermalLaw.makeAce a u = .ok t) (E : ℝ) (ω : Tape) (k : Nat) (mu e : ℝ) (k' : Nat)
    (hs : t.coherent.sample E ω k = .ok (mu, e, k')) : -1 ≤ mu ∧ mu ≤ 1 ∧ e = E := by
  obtain ⟨_, hc, _⟩ := ThermalLaw.parts h
  obtain ⟨h1, _⟩ := C65_read a t.coherent hc
  by_cases h4 : a.nxs 4 = 4
  · have hv := (h1 h4).1
    obtain ⟨first, h0⟩ := getElem?_of_lt (l := t.coherent.edges) (i := 0) (List.length_pos_of_ne_nil hv.ne)
    by_cases hE : first < E
    · obtain ⟨_, _, _, _, _, _, q1, q2, e⟩ := C65_sample t.coherent hv first E h0 hE ω k
      rw [e] at hs; cases hs; exact ⟨q1.le, q2, rfl⟩
    · rw [C65_sample_below t.coherent hv first E h0 (not_lt.mp hE) ω k] at hs
      cases hs; norm_num
  · have : t.coherent.edges = [] := by
      unfold CohElastic.makeAce at hc
      rw [if_neg h4] at hc
      have := Except.ok.inj hc
      rw [← this]
    unfold CohElastic.sample at hs
    rw [this] at hs; cases hs

/-- **C139** The incoherent elastic part keeps the energy and returns a cosine. -/
theorem C139_incoherent (a : TslAce) (u : Bool) (t : ThermalLaw) (h : ThermalLaw.makeAce a u = .ok t) (E : ℝ) (ω : Tape) (hω : UnitTape ω) (k : Nat)
    (mu e : ℝ) (k' : Nat) (hs : t.incoherent.sample E ω k = .ok (mu, e, k')) : -1 ≤ mu ∧ mu ≤ 1 ∧ e = E := by
  obtain ⟨_, hv, _, _⟩ := C87_parts_valid a u t h
  by_cases h0 : t.incoherent.energy.length = 0
  · unfold IncElastic.sample at hs
    rw [if_pos h0] at hs; cases hs
  · by_cases h1 : t.incoherent.energy.length = 1
    · rw [C66_violation_single _ hv h1] at hs; cases hs
    · obtain ⟨mu', e, q⟩ := C66_sample_partial t.incoherent hv (by omega) E ω hω k
      rw [e] at hs; cases hs; exact ⟨q.1, q.2, rfl⟩

theorem discreteAt_range {d : DiscreteCE} (hv : ValidDCE d) {t : List DiscreteEnergy} (ht : t ∈ d.out) {j m : Nat} {mu e : ℝ}
    (h : discreteAt t j m = .ok (mu, e)) : -1 ≤ mu ∧ mu ≤ 1 ∧ 0 < e ∧ j < d.noe ∧ m < d.nmu := by
  unfold discreteAt at h
  obtain ⟨x, hx, h⟩ := bind_ok h
  obtain ⟨y, hy, h⟩ := bind_ok h
  cases h
  have hx' := getAt_eq_ok.mp hx
  have hy' := getAt_eq_ok.mp hy
  obtain ⟨q1, q2, q3⟩ := hv.entry t ht x (List.mem_of_getElem? hx')
  have hl := hv.lenOut t ht
  have b1 := lt_length_of_some hx'
  have b2 := lt_length_of_some hy'
  exact ⟨(q3 _ (List.mem_of_getElem? hy')).1, (q3 _ (List.mem_of_getElem? hy')).2, q1, by omega, by omega⟩

theorem discrete_range {d : DiscreteCE} (hv : ValidDCE d) {E : ℝ} {ω : Tape} (hω : UnitTape ω) {k : Nat} {mu e : ℝ} {k' : Nat}
    (hs : d.sample E ω k = .ok (mu, e, k')) : -1 ≤ mu ∧ mu ≤ 1 ∧ 0 < e := by
  have hne : d.energy ≠ [] ∧ 0 < d.noe ∧ 0 < d.nmu := by
    have hs' := hs
    have hlen := hv.len
    unfold DiscreteCE.sample at hs'
    dsimp only at hs'
    obtain ⟨⟨j, kk⟩, _, hs'⟩ := bind_ok hs'
    dsimp only at hs'
    have key : ∀ (t : List DiscreteEnergy) (i : Nat), d.out[i]? = some t → ∀ x, discreteAt t j ⌊(d.nmu : ℝ) * ω k⌋₊ = .ok x →
        d.energy ≠ [] ∧ 0 < d.noe ∧ 0 < d.nmu := by
      intro t i hi x hx
      obtain ⟨x1, x2⟩ := x
      obtain ⟨_, _, _, b1, b2⟩ := discreteAt_range hv (List.mem_of_getElem? hi) hx
      have := lt_length_of_some hi
      exact ⟨by intro hc; rw [hc] at hlen; simp at hlen; rw [hlen] at this; simp at this, by omega, by omega⟩
    by_cases h0 : lowerBound d.energy E = 0
    · rw [if_pos h0] at hs'
      obtain ⟨t, ht, hs'⟩ := bind_ok hs'
      obtain ⟨x, hx, hs'⟩ := bind_ok hs'
      exact key t 0 (front_eq_ok.mp ht) x hx
    · rw [if_neg h0] at hs'
      by_cases h1 : lowerBound d.energy E = d.energy.length
      · rw [if_pos h1] at hs'
        obtain ⟨t, ht, hs'⟩ := bind_ok hs'
        obtain ⟨x, hx, hs'⟩ := bind_ok hs'
        exact key t (d.out.length - 1) (by rw [← List.getLast?_eq_getElem?]; exact back_eq_ok.mp ht) x hx
      · rw [if_neg h1] at hs'
        obtain ⟨i, _, hs'⟩ := bind_ok hs'
        obtain ⟨_, _, hs'⟩ := bind_ok hs'
        obtain ⟨_, _, hs'⟩ := bind_ok hs'
        obtain ⟨_, _, hs'⟩ := bind_ok hs'
        obtain ⟨t, ht, hs'⟩ := bind_ok hs'
        obtain ⟨_, _, hs'⟩ := bind_ok hs'
        obtain ⟨x, hx, hs'⟩ := bind_ok hs'
        exact key t i (getAt_eq_ok.mp ht) x hx
  obtain ⟨_, _, _, _, _, e', q1, q2, q3, _⟩ := C85_sample_partial d hv hne.1 hne.2.1 hne.2.2 E ω hω k
  rw [e'] at hs; cases hs; exact ⟨q1, q2, q3⟩

theorem sampleMu_range {t : CEDCTable} {nmu j : Nat} {xi r1 r2 mu : ℝ} (h : t.sampleMu nmu j xi r1 r2 = .ok mu) : -1 ≤ mu ∧ mu ≤ 1 := by
  unfold CEDCTable.sampleMu at h
  dsimp only at h
  obtain ⟨_, _, h⟩ := bind_ok h
  obtain ⟨_, _, h⟩ := bind_ok h
  obtain ⟨_, _, h⟩ := bind_ok h
  obtain ⟨_, _, h⟩ := bind_ok h
  obtain ⟨_, _, h⟩ := bind_ok h
  obtain ⟨m, _, h⟩ := bind_ok h
  cases h
  exact clampMu_mem m

theorem continuous_range {d : ContinuousCE} {E : ℝ} {ω : Tape} {k : Nat} {mu e : ℝ} {k' : Nat}
    (hs : d.sample E ω k = .ok (mu, e, k')) : -1 ≤ mu ∧ mu ≤ 1 := by
  unfold ContinuousCE.sample at hs
  by_cases hu : d.unitBased = false
  · rw [if_pos hu] at hs
    unfold ContinuousCE.samplePlain at hs
    obtain ⟨⟨l, f⟩, _, hs⟩ := bind_ok hs
    dsimp only at hs
    obtain ⟨_, _, hs⟩ := bind_ok hs
    obtain ⟨⟨_, _⟩, _, hs⟩ := bind_ok hs
    obtain ⟨_, _, hs⟩ := bind_ok hs
    obtain ⟨_, _, hs⟩ := bind_ok hs
    obtain ⟨m, hm, hs⟩ := bind_ok hs
    cases hs
    exact sampleMu_range hm
  · rw [if_neg hu] at hs
    unfold ContinuousCE.sampleUnit at hs
    obtain ⟨⟨l, f⟩, _, hs⟩ := bind_ok hs
    dsimp only at hs
    obtain ⟨_, _, hs⟩ := bind_ok hs
    obtain ⟨_, _, hs⟩ := bind_ok hs
    obtain ⟨_, _, hs⟩ := bind_ok hs
    obtain ⟨_, _, hs⟩ := bind_ok hs
    obtain ⟨_, _, hs⟩ := bind_ok hs
    obtain ⟨_, _, hs⟩ := bind_ok hs
    obtain ⟨⟨_, _⟩, _, hs⟩ := bind_ok hs
    obtain ⟨_, _, hs⟩ := bind_ok hs
    obtain ⟨m, hm, hs⟩ := bind_ok hs
    cases hs
    exact sampleMu_range hm

/-- **C139** The inelastic part returns a cosine; with discrete outgoing energies a positive energy as well.  (Continuous ones can give a negative
energy, see C86.) -/
theorem C139_inelastic (a : TslAce) (u : Bool) (t : ThermalLaw) (h : ThermalLaw.makeAce a u = .ok t) (E : ℝ) (ω : Tape) (hω : UnitTape ω) (k : Nat)
    (mu e : ℝ) (k' : Nat) (hs : t.inelastic.dist.sample E ω k = .ok (mu, e, k')) : -1 ≤ mu ∧ mu ≤ 1 ∧ (a.nxs 6 ≠ 2 → 0 < e) := by
  obtain ⟨_, _, v3, _⟩ := C87_parts_valid a u t h
  obtain ⟨_, _, _, _, _, _, _, _, _, hd1, hd2⟩ := C87_inelastic a u t h
  unfold InelDist.sample at hs
  cases hd : t.inelastic.dist with
  | discrete d =>
    simp only [hd] at hs
    obtain ⟨q1, q2, q3⟩ := discrete_range (v3 d hd) hω hs
    exact ⟨q1, q2, fun _ => q3⟩
  | continuous d =>
    simp only [hd] at hs
    exact ⟨(continuous_range hs).1, (continuous_range hs).2, fun hc => absurd (hd2.mp ⟨d, hd⟩) hc⟩

/-- The full claim of C138 is false of the code: a law is accepted although its tables have a single outgoing energy, and sampling it reads out of range at
every energy and with every stream. -/
theorem C138_violation_single (u : Bool) : ∃ (a : TslAce) (t : ThermalLaw), ThermalLaw.makeAce a u = .ok t ∧
    ∀ E ω k, t.inelastic.dist.sample E ω k = .error .ub := by
  obtain ⟨d, hd, hub⟩ := C86_violation_single u
  obtain ⟨a, ha⟩ : ∃ a : TslAce, a = ⟨fun _ => 2, fun n => if n = 0 then 1 else if n = 3 then 0 else 4, [2, 1, 2, 7, 7, 1, 1, 1, 0, 0, 0]⟩ := ⟨_, rfl⟩
  have hd' : ContinuousCE.makeAce a u = .ok d := by rw [← hd, ha]; rfl
  have hx : Tab1D.make1 .linLin [1, 2] [7, 7] = .ok ⟨[2], [.linLin], [1, 2], [7, 7], [⟨.linLin, [1, 2], [7, 7]⟩]⟩ := by
    norm_num [Tab1D.make1, isSorted, slice, Region.make, bind, Except.bind, pure, Except.pure, Interpolation.verifyX, Interpolation.verifyY]
  refine ⟨a, ⟨false, false, ⟨[], []⟩, ⟨zeroTab, 0, [], []⟩, ⟨⟨[2], [.linLin], [1, 2], [7, 7], [⟨.linLin, [1, 2], [7, 7]⟩]⟩, .continuous d⟩⟩, ?_, hub⟩
  have hii : IncInelastic.makeAce a u = .ok ⟨⟨[2], [.linLin], [1, 2], [7, 7], [⟨.linLin, [1, 2], [7, 7]⟩]⟩, .continuous d⟩ := by
    unfold IncInelastic.makeAce
    rw [hd']
    have h2 : Int.toNat 2 = 2 := rfl
    rw [ha]
    norm_num [locator, natAt, getAt, h2, xssSlice, bind, Except.bind, pure, Except.pure, hx]
  unfold ThermalLaw.makeAce IncElastic.makeAce CohElastic.makeAce
  rw [hii, zeroTab_make, ha]
  simp [bind, Except.bind, pure, Except.pure]

/-- A law that meets the hypotheses of `C138_safe_partial` and returns a sample, so that `C139_inelastic` applies to it: that of `C87_example`. -/
theorem C138_hypotheses : ∃ (a : TslAce) (t : ThermalLaw), ThermalLaw.makeAce a false = .ok t ∧ SafeInel t.inelastic.dist ∧ t.incoherent.energy.length ≠ 1 ∧
    ∀ ω, UnitTape ω → t.inelastic.dist.sample 1 ω 0 = .ok (1 / 2, 3, 2) := by
  have h1 : ⌊(1 : ℝ)⌋.toNat = 1 := by norm_num
  have h3 : Int.toNat 3 = 3 := rfl
  refine ⟨⟨fun n => if n = 3 then 1 else 0, fun n => if n = 0 then 1 else if n = 2 then 4 else 0, [1, 2, 5, 3, 1 / 2]⟩,
    ⟨false, false, ⟨[], []⟩, ⟨zeroTab, 0, [], []⟩, ⟨⟨[1], [.linLin], [2], [5], [⟨.linLin, [2], [5]⟩]⟩, .discrete ⟨[2], [[⟨3, [1 / 2]⟩]], 1, 1, false⟩⟩⟩, ?_, ?_, by simp, ?_⟩
  · unfold ThermalLaw.makeAce IncElastic.makeAce CohElastic.makeAce
    rw [zeroTab_make]
    norm_num [IncInelastic.makeAce, DiscreteCE.makeAce, locator, natAt, getAt, bind, Except.bind, pure, Except.pure, h1, h3, xssSlice, isSorted, asU32,
      readDiscreteTables, readDiscretes, readDiscrete, Tab1D.make1, slice, Region.make, Interpolation.verifyX, Interpolation.verifyY, Interpolation.hasAdjacentEqual]
  · exact ⟨by simp, by norm_num, by norm_num⟩
  · intro ω hω
    have f0 : ∀ i, ⌊ω i⌋₊ = 0 := fun i => Nat.floor_eq_zero.mpr (hω i).2
    have hlb : lowerBound [(2 : ℝ)] 1 = 0 := by
      apply lowerBound_unique (by norm_num) _ (by simp)
      intro i a hi
      match i, hi with
      | 0, hi => simp at hi; subst hi; norm_num
    simp [InelDist.sample, DiscreteCE.sample, DiscreteCE.pick, hlb, f0, front, getAt, discreteAt, bind, Except.bind, pure, Except.pure]

end PNDL
