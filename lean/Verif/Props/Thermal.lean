import Verif.Props.Coherent
import Verif.Props.Energy

/-! C85: incoherent inelastic scattering with discrete energies.  C86: with continuous energies.  C87: the thermal law as a whole. -/
namespace PNDL
open Spec

/-! ## C85 -/

/-- Discrete data as the file constructor leaves it. -/
structure Spec.ValidDCE (d : DiscreteCE) : Prop where
  sorted : d.energy.Pairwise (· ≤ ·)
  len : d.out.length = d.energy.length
  lenOut : ∀ t ∈ d.out, t.length = d.noe
  entry : ∀ t ∈ d.out, ∀ x ∈ t, 0 < x.energy ∧ x.cosines.length = d.nmu ∧ ∀ m ∈ x.cosines, -1 ≤ m ∧ m ≤ 1
  skew : d.skewed = true → 6 ≤ d.noe

theorem readDiscrete_ok {xss : List ℝ} {nmu i : Nat} {x : DiscreteEnergy} (h : readDiscrete xss nmu i = .ok x) :
    (0 < x.energy ∧ x.cosines.length = nmu ∧ ∀ m ∈ x.cosines, -1 ≤ m ∧ m ≤ 1) ∧
    xss[i]? = some x.energy ∧ ∀ j < nmu, x.cosines[j]? = xss[i + 1 + j]? := by
  unfold readDiscrete at h
  obtain ⟨e, he, h⟩ := bind_ok h
  split at h
  · cases h
  rename_i h0
  obtain ⟨mu, hmu, h⟩ := bind_ok h
  split at h
  · cases h
  rename_i h1
  cases h
  refine ⟨⟨not_le.mp h0, slice_length hmu, ?_⟩, getAt_eq_ok.mp he, fun j hj => slice_get hmu j hj⟩
  intro m hm
  push Not at h1
  exact h1 m hm

theorem readDiscretes_ok {xss : List ℝ} {nmu : Nat} : ∀ {n i : Nat} {xs : List DiscreteEnergy}, readDiscretes xss nmu n i = .ok xs →
    xs.length = n ∧ ∀ (k : Nat) (x : DiscreteEnergy), xs[k]? = some x → readDiscrete xss nmu (i + k * (1 + nmu)) = .ok x := by
  intro n
  induction n with
  | zero =>
    intro i xs h
    rw [readDiscretes] at h
    cases h
    exact ⟨rfl, by intro k x hk; simp at hk⟩
  | succ n ih =>
    intro i xs h
    rw [readDiscretes] at h
    obtain ⟨d, hd, h⟩ := bind_ok h
    obtain ⟨ds, hds, h⟩ := bind_ok h
    cases h
    obtain ⟨q1, q2⟩ := ih hds
    refine ⟨by simp [q1], ?_⟩
    intro k x hk
    cases k with
    | zero => simp at hk; subst hk; simpa using hd
    | succ k =>
      have := q2 k x (by simpa using hk)
      rwa [show i + 1 + nmu + k * (1 + nmu) = i + (k + 1) * (1 + nmu) by rw [Nat.succ_mul]; omega] at this

theorem readDiscreteTables_ok {xss : List ℝ} {nmu noe : Nat} : ∀ {n i : Nat} {ts : List (List DiscreteEnergy)},
    readDiscreteTables xss nmu noe n i = .ok ts →
    ts.length = n ∧ ∀ (k : Nat) (t : List DiscreteEnergy), ts[k]? = some t →
      readDiscretes xss nmu noe (i + k * (noe * (1 + nmu))) = .ok t := by
  intro n
  induction n with
  | zero =>
    intro i ts h
    rw [readDiscreteTables] at h
    cases h
    exact ⟨rfl, by intro k x hk; simp at hk⟩
  | succ n ih =>
    intro i ts h
    rw [readDiscreteTables] at h
    obtain ⟨d, hd, h⟩ := bind_ok h
    obtain ⟨ds, hds, h⟩ := bind_ok h
    cases h
    obtain ⟨q1, q2⟩ := ih hds
    refine ⟨by simp [q1], ?_⟩
    intro k x hk
    cases k with
    | zero => simp at hk; subst hk; simpa using hd
    | succ k =>
      have := q2 k x (by simpa using hk)
      rwa [show i + noe * (1 + nmu) + k * (noe * (1 + nmu)) = i + (k + 1) * (noe * (1 + nmu)) by rw [Nat.succ_mul]; omega] at this

theorem locator_ok {z : Int} {n : Nat} (hz : locator z = .ok n) : z = (n : Int) + 1 := by
  unfold locator at hz
  split at hz
  · cases hz; omega
  · cases hz

/-- C85: what the constructor accepts is well-formed, and the entry of incoming energy `ie`, outgoing energy `oe` is the record of the
file at place `(ie * Noe + oe) * (1 + Nmu)` of the block. -/
theorem C85_read (a : TslAce) (d : DiscreteCE) (h : DiscreteCE.makeAce a = .ok d) : ValidDCE d ∧
    ∃ s i : Nat, a.jxs 0 = (s : Int) + 1 ∧ a.jxs 2 = (i : Int) + 1 ∧ (d.skewed = true ↔ a.nxs 6 = 1) ∧
      (∀ n < d.energy.length, d.energy[n]? = a.xss[s + 1 + n]?) ∧
      ∀ (ie oe : Nat) (t : List DiscreteEnergy) (x : DiscreteEnergy), d.out[ie]? = some t → t[oe]? = some x →
        a.xss[i + (ie * d.noe + oe) * (1 + d.nmu)]? = some x.energy ∧
        ∀ j < d.nmu, x.cosines[j]? = a.xss[i + (ie * d.noe + oe) * (1 + d.nmu) + 1 + j]? := by
  unfold DiscreteCE.makeAce at h
  split at h
  · cases h
  obtain ⟨s, hs, h⟩ := bind_ok h
  obtain ⟨ne, hne, h⟩ := bind_ok h
  obtain ⟨es, hes, h⟩ := bind_ok h
  split at h
  · cases h
  rename_i hsort
  dsimp only at h
  split at h
  · cases h
  rename_i hsk
  obtain ⟨i, hi, h⟩ := bind_ok h
  obtain ⟨out, hout, h⟩ := bind_ok h
  cases h
  obtain ⟨q1, q2⟩ := readDiscreteTables_ok hout
  have hlen := slice_length hes
  refine ⟨⟨isSorted_iff.mp (by simpa using hsort), by simp only; omega, ?_, ?_, ?_⟩, s, i, locator_ok hs, locator_ok hi, by simp, ?_, ?_⟩
  · intro t ht
    obtain ⟨k, hk⟩ := List.mem_iff_getElem?.mp ht
    exact (readDiscretes_ok (q2 k t hk)).1
  · intro t ht x hx
    obtain ⟨k, hk⟩ := List.mem_iff_getElem?.mp ht
    obtain ⟨k', hk'⟩ := List.mem_iff_getElem?.mp hx
    exact (readDiscrete_ok ((readDiscretes_ok (q2 k t hk)).2 k' x hk')).1
  · intro hk
    simp only at hk ⊢
    by_contra hc
    exact hsk ⟨hk, by omega⟩
  · intro n hn
    exact slice_get hes n (by simp only at hn; omega)
  · intro ie oe t x ht hx
    have := (readDiscrete_ok ((readDiscretes_ok (q2 ie t ht)).2 oe x hx)).2
    simp only
    rw [show i + ie * (asU32 (a.nxs 3) * (1 + asU32 (a.nxs 2 + 1))) + oe * (1 + asU32 (a.nxs 2 + 1)) =
      i + (ie * asU32 (a.nxs 3) + oe) * (1 + asU32 (a.nxs 2 + 1)) by ring] at this
    exact this

/-- C85: without skewing the outgoing energy `m` is chosen exactly for `xi` in `[m / Noe, (m+1) / Noe)`: all have probability
`1 / Noe`. -/
theorem C85_pick_uniform (d : DiscreteCE) (hs : d.skewed = false) (hn : 0 < d.noe) (ω : Tape) (hω : UnitTape ω) (k m : Nat) :
    d.pick ω k = .ok (m, k + 1) ↔ (m : ℝ) / d.noe ≤ ω k ∧ ω k < ((m : ℝ) + 1) / d.noe := by
  have hp : (0 : ℝ) < d.noe := by exact_mod_cast hn
  unfold DiscreteCE.pick
  rw [if_pos hs]
  have : (pure (⌊(d.noe : ℝ) * ω k⌋₊, k + 1) : Res (Nat × Nat)) = .ok (m, k + 1) ↔ ⌊(d.noe : ℝ) * ω k⌋₊ = m := by
    constructor
    · intro h; injection h with h; injection h
    · intro h; rw [h]; rfl
  rw [this, Nat.floor_eq_iff (by have := (hω k).1; positivity), div_le_iff₀ hp, lt_div_iff₀ hp, mul_comm (d.noe : ℝ)]

/-- C85: with skewing the probabilities of the energies are 1 : 4 : 10 : … : 10 : 4 : 1.  With the unit `c = 1 / (10 (Noe - 3))`
(so that they add up to 1) the first two energies take the intervals `[0, c)`, `[c, 5c)`, the last two `[1 - 5c, 1 - c)`,
`[1 - c, 1)`; the middle interval, `10 c` for each of the other `Noe - 4` energies, is shared equally by a second number. -/
theorem C85_pick_skewed (d : DiscreteCE) (hs : d.skewed = true) (hn : 6 ≤ d.noe) (ω : Tape) (hω : UnitTape ω) (k : Nat) (c : ℝ)
    (hc : c = 1 / (10 * ((d.noe : ℝ) - 3))) :
    2 * (c + 4 * c) + ((d.noe : ℝ) - 4) * (10 * c) = 1 ∧
    (ω k < c → d.pick ω k = .ok (0, k + 1)) ∧
    (c ≤ ω k → ω k < 5 * c → d.pick ω k = .ok (1, k + 1)) ∧
    (1 - 5 * c ≤ ω k → ω k < 1 - c → d.pick ω k = .ok (d.noe - 2, k + 1)) ∧
    (1 - c ≤ ω k → d.pick ω k = .ok (d.noe - 1, k + 1)) ∧
    (5 * c ≤ ω k → ω k < 1 - 5 * c → ∀ m : Nat, (m : ℝ) / ((d.noe : ℝ) - 4) ≤ ω (k + 1) → ω (k + 1) < ((m : ℝ) + 1) / ((d.noe : ℝ) - 4) →
      d.pick ω k = .ok (m + 2, k + 2)) := by
  have hN : (6 : ℝ) ≤ d.noe := by exact_mod_cast hn
  have hd : (10 * ((d.noe : ℝ) - 3)) ≠ 0 := by intro h; linarith
  have hcpos : 0 < c := by rw [hc]; apply div_pos <;> linarith
  have hcb : c ≤ 1 / 30 := by
    rw [hc]; apply one_div_le_one_div_of_le <;> linarith
  have hsum : c * (10 * ((d.noe : ℝ) - 3)) = 1 := by rw [hc, one_div, inv_mul_cancel₀ hd]
  have hnf : ¬ (d.skewed = false) := by rw [hs]; simp
  refine ⟨by nlinarith, ?_, ?_, ?_, ?_, ?_⟩
  · intro h
    unfold DiscreteCE.pick
    rw [if_neg hnf, rdiv_ok hd, ← hc]
    simp only [bind, Except.bind]
    rw [if_neg (by intro hx; linarith [hx.1]), if_pos h]; rfl
  · intro h1 h2
    unfold DiscreteCE.pick
    rw [if_neg hnf, rdiv_ok hd, ← hc]
    simp only [bind, Except.bind]
    rw [if_neg (by intro hx; linarith [hx.1]), if_neg (by linarith), if_pos ⟨h1, h2⟩]; rfl
  · intro h1 h2
    unfold DiscreteCE.pick
    rw [if_neg hnf, rdiv_ok hd, ← hc]
    simp only [bind, Except.bind]
    rw [if_neg (by intro hx; linarith [hx.2]), if_neg (by linarith), if_neg (by intro hx; linarith [hx.2]), if_pos ⟨h1, h2⟩,
      subIdx_of_le (by omega)]
    rfl
  · intro h1
    unfold DiscreteCE.pick
    rw [if_neg hnf, rdiv_ok hd, ← hc]
    simp only [bind, Except.bind]
    rw [if_neg (by intro hx; linarith [hx.2]), if_neg (by linarith), if_neg (by intro hx; linarith [hx.2]),
      if_neg (by intro hx; linarith [hx.2]), subIdx_of_le (by omega)]
    rfl
  · intro h1 h2 m g1 g2
    have hp : (0 : ℝ) < (d.noe : ℝ) - 4 := by linarith
    unfold DiscreteCE.pick
    rw [if_neg hnf, rdiv_ok hd, ← hc]
    simp only [bind, Except.bind]
    rw [if_pos ⟨h1, h2⟩, subIdx_of_le (by omega)]
    rw [div_le_iff₀ hp] at g1
    rw [lt_div_iff₀ hp] at g2
    have hcast : ((d.noe - 4 : Nat) : ℝ) = (d.noe : ℝ) - 4 := by rw [Nat.cast_sub (by omega)]; norm_num
    have : ⌊((d.noe - 4 : Nat) : ℝ) * ω (k + 1) + 2⌋₊ = m + 2 := by
      have h0 := (hω (k + 1)).1
      rw [hcast, Nat.floor_eq_iff (by nlinarith)]
      push_cast
      constructor <;> nlinarith
    simp only [this]
    rfl

theorem DiscreteCE.pick_lt {d : DiscreteCE} (hv : ValidDCE d) (hn : 0 < d.noe) {ω : Tape} (hω : UnitTape ω) (k : Nat) :
    ∃ j k', d.pick ω k = .ok (j, k') ∧ j < d.noe := by
  unfold DiscreteCE.pick
  by_cases hs : d.skewed = false
  · rw [if_pos hs]
    exact ⟨_, _, rfl, floor_lt_of_unit hn (hω k).1 (hω k).2⟩
  · have hs' : d.skewed = true := by simpa using hs
    have h6 := hv.skew hs'
    have hN : (6 : ℝ) ≤ d.noe := by exact_mod_cast h6
    rw [if_neg hs, rdiv_ok (by intro h; linarith)]
    simp only [bind, Except.bind]
    split_ifs
    · rw [subIdx_of_le (by omega)]
      refine ⟨_, _, rfl, ?_⟩
      have h0 := (hω (k + 1)).1
      have h1 := (hω (k + 1)).2
      have hcast : ((d.noe - 4 : Nat) : ℝ) = (d.noe : ℝ) - 4 := by rw [Nat.cast_sub (by omega)]; norm_num
      rw [hcast, Nat.floor_lt (by nlinarith)]
      nlinarith
    · exact ⟨_, _, rfl, by omega⟩
    · exact ⟨_, _, rfl, by omega⟩
    · rw [subIdx_of_le (by omega)]
      exact ⟨_, _, rfl, by omega⟩
    · rw [subIdx_of_le (by omega)]
      exact ⟨_, _, rfl, by omega⟩

theorem discreteAt_ok {d : DiscreteCE} (hv : ValidDCE d) {t : List DiscreteEnergy} (ht : t ∈ d.out) {j m : Nat} (hj : j < d.noe)
    (hm : m < d.nmu) : ∃ mu e, discreteAt t j m = .ok (mu, e) ∧ -1 ≤ mu ∧ mu ≤ 1 ∧ 0 < e := by
  obtain ⟨x, hx⟩ := getElem?_of_lt (l := t) (i := j) (by rw [hv.lenOut t ht]; exact hj)
  obtain ⟨h1, h2, h3⟩ := hv.entry t ht x (List.mem_of_getElem? hx)
  obtain ⟨mu, hmu⟩ := getElem?_of_lt (l := x.cosines) (i := m) (by omega)
  obtain ⟨q1, q2⟩ := h3 mu (List.mem_of_getElem? hmu)
  refine ⟨mu, x.energy, ?_, q1, q2, h1⟩
  rw [discreteAt, getAt_eq_ok.mpr hx]
  simp only [bind, Except.bind, getAt_eq_ok.mpr hmu]
  rfl

/-- C85: with at least one incoming energy, outgoing energy and cosine, every draw succeeds, uses the chosen energy index `j` and cosine
index `m` in both neighbouring tables, and gives a cosine in `[-1, 1]` and a positive energy: the interpolation of the
tabulated values.  Missing: empty tables, which the constructor accepts, see `C85_violation_empty`. -/
theorem C85_sample_partial (d : DiscreteCE) (hv : ValidDCE d) (hne : d.energy ≠ []) (hn : 0 < d.noe) (hm : 0 < d.nmu) (E : ℝ) (ω : Tape)
    (hω : UnitTape ω) (k : Nat) : ∃ (j k' : Nat) (mu e : ℝ), d.pick ω (k + 1) = .ok (j, k') ∧ d.sample E ω k = .ok (mu, e, k') ∧
      -1 ≤ mu ∧ mu ≤ 1 ∧ 0 < e ∧
      ∃ (i i' : Nat) (t t' : List DiscreteEnergy) (f mu0 mu1 x0 x1 : ℝ), d.out[i]? = some t ∧ d.out[i']? = some t' ∧ 0 ≤ f ∧ f ≤ 1 ∧
        discreteAt t j ⌊(d.nmu : ℝ) * ω k⌋₊ = .ok (mu0, x0) ∧ discreteAt t' j ⌊(d.nmu : ℝ) * ω k⌋₊ = .ok (mu1, x1) ∧
        mu = mu0 + f * (mu1 - mu0) ∧ e = x0 + f * (x1 - x0) ∧
        (i' = i ∨ i' = i + 1) ∧ (∀ e0 e1 first last, d.energy[i]? = some e0 → d.energy[i']? = some e1 → d.energy[0]? = some first →
          d.energy.getLast? = some last → e0 + f * (e1 - e0) = clip E first last) := by
  obtain ⟨j, k', hp, hj⟩ := d.pick_lt hv hn hω (k + 1)
  have hmm := floor_lt_of_unit hm (hω k).1 (hω k).2
  have hpos := List.length_pos_iff.mpr hne
  have hlen := hv.len
  have hle := lowerBound_le hv.sorted E
  obtain ⟨first, h0⟩ := getElem?_of_lt (l := d.energy) (i := 0) hpos
  obtain ⟨last, h1⟩ := last_exists (l := d.energy) hpos
  have hlast : d.energy[d.energy.length - 1]? = some last := by rw [← List.getLast?_eq_getElem?]; exact h1
  have hfl : first ≤ last := pairwise_le_getElem? hv.sorted (Nat.zero_le _) h0 hlast
  by_cases hz : lowerBound d.energy E = 0
  · obtain ⟨t, ht⟩ := getElem?_of_lt (l := d.out) (i := 0) (by omega)
    obtain ⟨mu, e, he, q1, q2, q3⟩ := discreteAt_ok hv (List.mem_of_getElem? ht) hj hmm
    refine ⟨j, k', mu, e, hp, ?_, q1, q2, q3, 0, 0, t, t, 0, mu, mu, e, e, ht, ht, le_rfl, zero_le_one, he, he, by ring, by ring, Or.inl rfl, ?_⟩
    · unfold DiscreteCE.sample
      simp only [bind, Except.bind, hp]
      rw [if_pos hz]
      simp only [front_eq_ok.mpr ht, he]
      rfl
    · intro e0 e1 fi la g0 g1 g2 g3
      rw [h0] at g0 g1 g2; cases g0; cases g1; cases g2
      rw [h1] at g3; cases g3
      have hA : E ≤ first := not_lt.mp (mt (lowerBound_iff hv.sorted E h0).mp (by omega))
      rw [clip, min_eq_left (hA.trans hfl), max_eq_left hA]; ring
  · by_cases hl : lowerBound d.energy E = d.energy.length
    · obtain ⟨t, ht⟩ := last_exists (l := d.out) (by omega)
      have ht' : d.out[d.out.length - 1]? = some t := by rw [← List.getLast?_eq_getElem?]; exact ht
      obtain ⟨mu, e, he, q1, q2, q3⟩ := discreteAt_ok hv (List.mem_of_getElem? ht') hj hmm
      refine ⟨j, k', mu, e, hp, ?_, q1, q2, q3, _, _, t, t, 0, mu, mu, e, e, ht', ht', le_rfl, zero_le_one, he, he, by ring, by ring, Or.inl rfl, ?_⟩
      · unfold DiscreteCE.sample
        simp only [bind, Except.bind, hp]
        rw [if_neg hz, if_pos hl]
        simp only [back_eq_ok.mpr ht, he]
        rfl
      · intro e0 e1 fi la g0 g1 g2 g3
        rw [hlen, hlast] at g0 g1; cases g0; cases g1
        rw [h0] at g2; cases g2
        rw [h1] at g3; cases g3
        have hB : last < E := (lowerBound_iff hv.sorted E hlast).mpr (by omega)
        rw [clip, min_eq_right hB.le, max_eq_right hfl]; ring
    · obtain ⟨i, hi⟩ : ∃ i, lowerBound d.energy E = i + 1 := ⟨lowerBound d.energy E - 1, by omega⟩
      obtain ⟨e0, g0⟩ := getElem?_of_lt (l := d.energy) (i := i) (by omega)
      obtain ⟨e1, g1⟩ := getElem?_of_lt (l := d.energy) (i := i + 1) (by omega)
      have b0 : e0 < E := (lowerBound_iff hv.sorted E g0).mpr (by omega)
      have b1 : E ≤ e1 := not_lt.mp (mt (lowerBound_iff hv.sorted E g1).mp (by omega))
      have hd : 0 < e1 - e0 := by linarith
      obtain ⟨t, ht⟩ := getElem?_of_lt (l := d.out) (i := i) (by omega)
      obtain ⟨t', ht'⟩ := getElem?_of_lt (l := d.out) (i := i + 1) (by omega)
      obtain ⟨mu0, x0, he, q1, q2, q3⟩ := discreteAt_ok hv (List.mem_of_getElem? ht) hj hmm
      obtain ⟨mu1, x1, he', r1, r2, r3⟩ := discreteAt_ok hv (List.mem_of_getElem? ht') hj hmm
      obtain ⟨f, hf⟩ : ∃ f, f = (E - e0) / (e1 - e0) := ⟨_, rfl⟩
      have f0 : 0 ≤ f := by rw [hf]; apply div_nonneg <;> linarith
      have f1 : f ≤ 1 := by rw [hf, div_le_one hd]; linarith
      have m1 : -1 ≤ mu0 + f * (mu1 - mu0) := by nlinarith
      have m2 : mu0 + f * (mu1 - mu0) ≤ 1 := by nlinarith
      refine ⟨j, k', mu0 + f * (mu1 - mu0), x0 + f * (x1 - x0), hp, ?_, m1, m2, ?_, i, i + 1, t, t', f, mu0, mu1, x0, x1, ht, ht', f0, f1,
        he, he', rfl, rfl, Or.inr rfl, ?_⟩
      · unfold DiscreteCE.sample
        simp only [bind, Except.bind, hp]
        rw [if_neg hz, if_neg hl, hi, subIdx_of_le (by omega)]
        simp only [Nat.add_sub_cancel, getAt_eq_ok.mpr g0, getAt_eq_ok.mpr g1, rdiv_ok hd.ne', getAt_eq_ok.mpr ht, getAt_eq_ok.mpr ht',
          he, he', ← hf, clampMu_of_mem m1 m2]
        rfl
      · rcases f1.lt_or_eq with h | h
        · nlinarith [mul_pos (sub_pos.mpr h) q3, mul_nonneg f0 r3.le]
        · rw [h]; linarith
      · intro e0' e1' fi la h0' h1' g2 g3
        rw [g0] at h0'; cases h0'
        rw [g1] at h1'; cases h1'
        rw [h0] at g2; cases g2
        rw [h1] at g3; cases g3
        have z1 := pairwise_le_getElem? hv.sorted (Nat.zero_le _) h0 g0
        have z2 := pairwise_le_getElem? hv.sorted (show i + 1 ≤ d.energy.length - 1 by omega) g1 hlast
        rw [clip, min_eq_left (by linarith), max_eq_right (by linarith), hf]; field_simp; ring

/-- The full claim is false of the code: a file that declares no outgoing energies is accepted, and sampling reads out of range. -/
theorem C85_violation_empty : ∃ d, DiscreteCE.makeAce ⟨fun _ => 0, fun _ => 1, [1, 1]⟩ = .ok d ∧
    ∀ E ω k, d.sample E ω k = .error .ub := by
  have h1 : ⌊(1 : ℝ)⌋.toNat = 1 := by norm_num
  refine ⟨⟨[1], [[]], 0, 1, false⟩, ?_, ?_⟩
  · norm_num [DiscreteCE.makeAce, locator, natAt, getAt, bind, Except.bind, pure, Except.pure, h1, xssSlice, isSorted, asU32,
      readDiscreteTables, readDiscretes]
  · intro E ω k
    have : ∀ l : List DiscreteEnergy, l = [] → ∀ j m, discreteAt l j m = .error .ub := by
      rintro _ rfl j m; rfl
    have hle := lowerBound_le (l := [(1 : ℝ)]) (by simp) E
    unfold DiscreteCE.sample DiscreteCE.pick
    simp only [if_true, bind, Except.bind, pure, Except.pure]
    by_cases h : lowerBound [(1 : ℝ)] E = 0
    · rw [if_pos h]; rfl
    · simp only [List.length_cons, List.length_nil] at hle
      rw [if_neg h, if_pos (by simp only [List.length_cons, List.length_nil]; omega)]; rfl

/-- A well-formed example: two incoming energies, two outgoing energies, one cosine. -/
noncomputable def Spec.dceExample : DiscreteCE :=
  ⟨[1, 2], [[⟨1, [0]⟩, ⟨2, [1 / 2]⟩], [⟨2, [1]⟩, ⟨3, [-1]⟩]], 2, 1, false⟩

example : ValidDCE dceExample := by
  refine ⟨by norm_num [dceExample], rfl, ?_, ?_, by simp [dceExample]⟩
  · intro t ht
    simp only [dceExample, List.mem_cons, List.not_mem_nil, or_false] at ht
    rcases ht with rfl | rfl <;> rfl
  · intro t ht x hx
    simp only [dceExample, List.mem_cons, List.not_mem_nil, or_false] at ht
    rcases ht with rfl | rfl <;>
    · simp only [List.mem_cons, List.not_mem_nil, or_false] at hx
      rcases hx with rfl | rfl <;> norm_num [dceExample]

end PNDL
