import Verif.Model.FloatInelastic
import Verif.Props.FloatThermal
import Verif.Props.FloatTab
import Verif.Props.ThermalCont

/-! C166: inelastic thermal scattering in double arithmetic. -/
namespace PNDL
open Spec

section
variable {fl : ℝ → ℝ} (hfl : IsRoundToNearest fl)
include hfl

/-! ### Discrete energies -/

omit hfl in
private theorem rdivFl_denom {x y q : ℝ} (h : rdivFl fl x y = .ok q) : y ≠ 0 ∧ q = fl (x / y) := by
  have hy : y ≠ 0 := by
    intro hz
    rw [rdivFl, hz, rdiv_zero] at h
    simp [bind, Except.bind] at h
  rw [rdivFl_ok hy] at h
  exact ⟨hy, (Except.ok.inj h).symm⟩

theorem DiscreteCE.pickFl_lt {d : DiscreteCE} (hv : ValidDCE d) (hn : 0 < d.noe) (hn2 : d.noe ≤ 2 ^ 53) {ω : Tape} (hω : UnitTape ω)
    (dω : ∀ i, IsDouble (ω i)) (k : Nat) : ∃ j k', d.pickFl fl ω k = .ok (j, k') ∧ j < d.noe ∧ (k' = k + 1 ∨ k' = k + 2) := by
  unfold DiscreteCE.pickFl
  by_cases hs : d.skewed = false
  · rw [if_pos hs]
    exact ⟨_, _, rfl, C129_index hfl _ hn _ (dω k) (hω k).1 (hω k).2, Or.inl rfl⟩
  · have h6 := hv.skew (by simpa using hs)
    have hN : (6 : ℝ) ≤ d.noe := by exact_mod_cast h6
    have h3 : 1 ≤ fl ((d.noe : ℝ) - 3) := le_fl hfl isDouble_one (by linarith)
    have h10 : 1 ≤ fl (10 * fl ((d.noe : ℝ) - 3)) := le_fl hfl isDouble_one (by linarith)
    rw [if_neg hs, rdivFl_ok (by intro h; linarith)]
    simp only [bind, Except.bind]
    split_ifs
    · rw [subIdx_of_le (by omega)]
      have := (C129_skewed hfl d.noe (by omega) hn2 (ω (k + 1)) (hω (k + 1)).1 (hω (k + 1)).2).2
      exact ⟨_, _, rfl, by omega, Or.inr rfl⟩
    · exact ⟨_, _, rfl, by omega, Or.inl rfl⟩
    · exact ⟨_, _, rfl, by omega, Or.inl rfl⟩
    · rw [subIdx_of_le (by omega)]
      exact ⟨_, _, rfl, by omega, Or.inl rfl⟩
    · rw [subIdx_of_le (by omega)]
      exact ⟨_, _, rfl, by omega, Or.inl rfl⟩

/-- Interpolating two cosines: the error of the four operations. -/
private theorem mix_close {x x1 x2 a b : ℝ} (hx : IsDouble x) (hx1 : IsDouble x1) (hx2 : IsDouble x2) (h1 : x1 ≤ x) (h2 : x ≤ x2) (h12 : x1 < x2)
    (a0 : -1 ≤ a) (a1 : a ≤ 1) (b0 : -1 ≤ b) (b1 : b ≤ 1) :
    |endFl fl (fl (fl (x - x1) / fl (x2 - x1))) a b - (a + (x - x1) / (x2 - x1) * (b - a))| ≤ 12 * uround := by
  obtain ⟨_, f0, f1, fe⟩ := frac_fl hfl hx hx1 hx2 h1 h2 h12
  have hu := uround_pos
  have hu1 : uround ≤ 1 / 1000 := by rw [uround_eq]; norm_num
  have g0 : 0 ≤ (x - x1) / (x2 - x1) := div_nonneg (by linarith) (by linarith)
  have g1 : (x - x1) / (x2 - x1) ≤ 1 := (div_le_one (by linarith)).mpr (by linarith)
  obtain ⟨f, hf⟩ : ∃ f, f = fl (fl (x - x1) / fl (x2 - x1)) := ⟨_, rfl⟩
  obtain ⟨g, hg⟩ : ∃ g, g = (x - x1) / (x2 - x1) := ⟨_, rfl⟩
  rw [← hf] at f0 f1 fe ⊢
  rw [← hg] at g0 g1 fe ⊢
  have two : IsDouble (2 : ℝ) := by simpa using isDouble_nat (n := 2) (by norm_num)
  have hba : |b - a| ≤ 2 := abs_le.mpr ⟨by linarith, by linarith⟩
  have e1 := near_two hfl hba
  obtain ⟨D, hD⟩ : ∃ D, D = fl (b - a) := ⟨_, rfl⟩
  have D2 : |D| ≤ 2 := by
    rw [hD]
    exact abs_le.mpr ⟨le_fl hfl two.neg (by linarith), fl_le hfl two (by linarith)⟩
  have hfD : |f * D| ≤ 2 := by rw [abs_mul, abs_of_nonneg f0]; nlinarith [abs_nonneg D]
  have e2 := near_two hfl hfD
  obtain ⟨p, hp⟩ : ∃ p, p = fl (f * D) := ⟨_, rfl⟩
  rw [← hD] at e1
  rw [← hp] at e2
  have t1 : |f * (D - (b - a))| ≤ uround := by
    rw [abs_mul, abs_of_nonneg f0]; nlinarith [abs_nonneg (D - (b - a))]
  have t2 : |(f - g) * (b - a)| ≤ 8 * uround := by
    rw [abs_mul]; nlinarith [abs_nonneg (f - g), abs_nonneg (b - a)]
  have m0 : -1 ≤ a + g * (b - a) := by nlinarith
  have m1 : a + g * (b - a) ≤ 1 := by nlinarith
  rw [abs_le] at t1 t2 e2
  have hs : |a + p| ≤ 2 := by rw [abs_le]; constructor <;> linarith
  have e3 := near_two hfl hs
  unfold endFl
  rw [← hD, ← hp]
  rw [abs_le] at e3 ⊢
  constructor <;> linarith

omit hfl in
private theorem clamp_close {x y δ : ℝ} (h : |x - y| ≤ δ) (y0 : -1 ≤ y) (y1 : y ≤ 1) : |clampMu x - y| ≤ δ := by
  unfold clampMu
  rw [abs_le] at h
  by_cases hx : |x| > 1
  · rw [if_pos hx]
    by_cases hneg : x < 0
    · rw [if_pos hneg, abs_le]
      rw [abs_of_neg hneg] at hx
      constructor <;> linarith
    · rw [if_neg hneg, abs_le]
      rw [abs_of_nonneg (by linarith)] at hx
      constructor <;> linarith
  · rw [if_neg hx, abs_le]
    exact h

/-- **C166** Discrete energies, in double arithmetic: with at least one incoming energy, outgoing energy and cosine every draw succeeds, the two
indices are in range and used in both neighbouring tables, the cosine is in `[-1, 1]`, the energy is not negative, both are within a few
roundings of the exact interpolation at the same incoming energy, and rounding does not take the energy below the lower table's when that
is the smaller one. -/
theorem C166_discrete (d : DiscreteCE) (hv : ValidDCE d) (hne : d.energy ≠ []) (hn : 0 < d.noe) (hn2 : d.noe ≤ 2 ^ 53) (hm : 0 < d.nmu)
    (dE : ∀ e ∈ d.energy, IsDouble e) (dx : ∀ t ∈ d.out, ∀ x ∈ t, IsDouble x.energy) (E : ℝ) (hE : IsDouble E) (ω : Tape) (hω : UnitTape ω)
    (dω : ∀ i, IsDouble (ω i)) (k : Nat) :
    ∃ (j k' : Nat) (mu e : ℝ), d.pickFl fl ω (k + 1) = .ok (j, k') ∧ j < d.noe ∧ drawFl fl d.nmu (ω k) < d.nmu ∧
      d.sampleFl fl E ω k = .ok (mu, e, k') ∧ -1 ≤ mu ∧ mu ≤ 1 ∧ IsDouble e ∧ 0 ≤ e ∧
      ∃ (i i' : Nat) (t t' : List DiscreteEnergy) (f mu0 mu1 x0 x1 : ℝ), d.out[i]? = some t ∧ d.out[i']? = some t' ∧ 0 ≤ f ∧ f ≤ 1 ∧
        discreteAt t j (drawFl fl d.nmu (ω k)) = .ok (mu0, x0) ∧ discreteAt t' j (drawFl fl d.nmu (ω k)) = .ok (mu1, x1) ∧
        |mu - (mu0 + f * (mu1 - mu0))| ≤ (2 : ℝ) ^ (-49 : ℤ) ∧
        |e - (x0 + f * (x1 - x0))| ≤ (2 : ℝ) ^ (-50 : ℤ) * max x0 x1 + (2 : ℝ) ^ (-1074 : ℤ) ∧
        e ≤ (1 + (2 : ℝ) ^ (-53 : ℤ)) ^ 2 * max x0 x1 ∧ (x0 ≤ x1 → x0 ≤ e) ∧ (x1 ≤ x0 → e ≤ x0) ∧
        (i' = i ∨ i' = i + 1) ∧ (∀ e0 e1 first last, d.energy[i]? = some e0 → d.energy[i']? = some e1 → d.energy[0]? = some first →
          d.energy.getLast? = some last → e0 + f * (e1 - e0) = clip E first last) := by
  obtain ⟨j, k', hp, hj, _⟩ := DiscreteCE.pickFl_lt hfl hv hn hn2 hω dω (k + 1)
  have hmm := C129_index hfl _ hm _ (dω k) (hω k).1 (hω k).2
  have hpos := List.length_pos_iff.mpr hne
  have hlen := hv.len
  have hle := lowerBound_le hv.sorted E
  obtain ⟨first, h0⟩ := getElem?_of_lt (l := d.energy) (i := 0) hpos
  obtain ⟨last, h1⟩ := last_exists (l := d.energy) hpos
  have hlast : d.energy[d.energy.length - 1]? = some last := by rw [← List.getLast?_eq_getElem?]; exact h1
  have hfl1 : first ≤ last := pairwise_le_getElem? hv.sorted (Nat.zero_le _) h0 hlast
  have at_double : ∀ {t : List DiscreteEnergy} {mu x : ℝ} {m : Nat}, t ∈ d.out → discreteAt t j m = .ok (mu, x) → IsDouble x := by
    intro t mu x m ht h
    unfold discreteAt at h
    obtain ⟨y, hy, h⟩ := bind_ok h
    obtain ⟨_, _, h⟩ := bind_ok h
    simp only [pure, Except.pure, Except.ok.injEq, Prod.mk.injEq] at h
    rw [← h.2]
    exact dx t ht y (List.mem_of_getElem? (getAt_eq_ok.mp hy))
  have h50 : (0 : ℝ) ≤ (2 : ℝ) ^ (-50 : ℤ) := by positivity
  have h1074 : (0 : ℝ) ≤ (2 : ℝ) ^ (-1074 : ℤ) := by positivity
  have h49 : (0 : ℝ) ≤ (2 : ℝ) ^ (-49 : ℤ) := by positivity
  have h53 : (0 : ℝ) ≤ (2 : ℝ) ^ (-53 : ℤ) := by positivity
  have hone : 1 ≤ (1 + (2 : ℝ) ^ (-53 : ℤ)) ^ 2 := by nlinarith
  -- outside the grid a tabulated pair is returned
  have out : ∀ (i : Nat) (t : List DiscreteEnergy) (mu e : ℝ), d.out[i]? = some t → discreteAt t j (drawFl fl d.nmu (ω k)) = .ok (mu, e) →
      -1 ≤ mu → mu ≤ 1 → 0 < e → d.sampleFl fl E ω k = .ok (mu, e, k') → (∀ e0, d.energy[i]? = some e0 → e0 = clip E first last) → _ :=
    fun i t mu e ht he q1 q2 q3 hs hclip => (⟨j, k', mu, e, hp, hj, hmm, hs, q1, q2, at_double (List.mem_of_getElem? ht) he, q3.le, i, i, t, t, 0,
      mu, mu, e, e, ht, ht, le_rfl, zero_le_one, he, he, by simp, by
        rw [max_self, show e - (e + 0 * (e - e)) = 0 by ring, abs_zero]
        have := mul_nonneg h50 q3.le
        linarith, by
        rw [max_self]
        nlinarith, fun h => h, fun h => h, Or.inl rfl, by
        intro e0 e1 fi la g0 g1 g2 g3
        rw [g0] at g1; cases g1
        rw [h0] at g2; cases g2
        rw [h1] at g3; cases g3
        rw [← hclip e0 g0]; ring⟩ :
      ∃ (j k' : Nat) (mu e : ℝ), d.pickFl fl ω (k + 1) = .ok (j, k') ∧ j < d.noe ∧ drawFl fl d.nmu (ω k) < d.nmu ∧
      d.sampleFl fl E ω k = .ok (mu, e, k') ∧ -1 ≤ mu ∧ mu ≤ 1 ∧ IsDouble e ∧ 0 ≤ e ∧
      ∃ (i i' : Nat) (t t' : List DiscreteEnergy) (f mu0 mu1 x0 x1 : ℝ), d.out[i]? = some t ∧ d.out[i']? = some t' ∧ 0 ≤ f ∧ f ≤ 1 ∧
        discreteAt t j (drawFl fl d.nmu (ω k)) = .ok (mu0, x0) ∧ discreteAt t' j (drawFl fl d.nmu (ω k)) = .ok (mu1, x1) ∧
        |mu - (mu0 + f * (mu1 - mu0))| ≤ (2 : ℝ) ^ (-49 : ℤ) ∧
        |e - (x0 + f * (x1 - x0))| ≤ (2 : ℝ) ^ (-50 : ℤ) * max x0 x1 + (2 : ℝ) ^ (-1074 : ℤ) ∧
        e ≤ (1 + (2 : ℝ) ^ (-53 : ℤ)) ^ 2 * max x0 x1 ∧ (x0 ≤ x1 → x0 ≤ e) ∧ (x1 ≤ x0 → e ≤ x0) ∧
        (i' = i ∨ i' = i + 1) ∧ (∀ e0 e1 first last, d.energy[i]? = some e0 → d.energy[i']? = some e1 → d.energy[0]? = some first →
          d.energy.getLast? = some last → e0 + f * (e1 - e0) = clip E first last))
  by_cases hz : lowerBound d.energy E = 0
  · obtain ⟨t, ht⟩ := getElem?_of_lt (l := d.out) (i := 0) (by omega)
    obtain ⟨mu, e, he, q1, q2, q3⟩ := discreteAt_ok hv (List.mem_of_getElem? ht) hj hmm
    refine out 0 t mu e ht he q1 q2 q3 ?_ ?_
    · unfold DiscreteCE.sampleFl
      simp only [bind, Except.bind, hp]
      rw [if_pos hz]
      simp only [front_eq_ok.mpr ht, he]
      rfl
    · intro e0 g0
      rw [h0] at g0; cases g0
      have hA : E ≤ first := not_lt.mp (mt (lowerBound_iff hv.sorted E h0).mp (by omega))
      rw [clip, min_eq_left (hA.trans hfl1), max_eq_left hA]
  · by_cases hl : lowerBound d.energy E = d.energy.length
    · obtain ⟨t, ht⟩ := last_exists (l := d.out) (by omega)
      have ht' : d.out[d.out.length - 1]? = some t := by rw [← List.getLast?_eq_getElem?]; exact ht
      obtain ⟨mu, e, he, q1, q2, q3⟩ := discreteAt_ok hv (List.mem_of_getElem? ht') hj hmm
      refine out _ t mu e ht' he q1 q2 q3 ?_ ?_
      · unfold DiscreteCE.sampleFl
        simp only [bind, Except.bind, hp]
        rw [if_neg hz, if_pos hl]
        simp only [back_eq_ok.mpr ht, he]
        rfl
      · intro e0 g0
        rw [hlen, hlast] at g0; cases g0
        have hB : last < E := (lowerBound_iff hv.sorted E hlast).mpr (by omega)
        rw [clip, min_eq_right hB.le, max_eq_right hfl1]
    · obtain ⟨i, hi⟩ : ∃ i, lowerBound d.energy E = i + 1 := ⟨lowerBound d.energy E - 1, by omega⟩
      obtain ⟨e0, g0⟩ := getElem?_of_lt (l := d.energy) (i := i) (by omega)
      obtain ⟨e1, g1⟩ := getElem?_of_lt (l := d.energy) (i := i + 1) (by omega)
      have b0 : e0 < E := (lowerBound_iff hv.sorted E g0).mpr (by omega)
      have b1 : E ≤ e1 := not_lt.mp (mt (lowerBound_iff hv.sorted E g1).mp (by omega))
      have hd : e0 < e1 := by linarith
      have d0 := dE _ (List.mem_of_getElem? g0)
      have d1 := dE _ (List.mem_of_getElem? g1)
      obtain ⟨t, ht⟩ := getElem?_of_lt (l := d.out) (i := i) (by omega)
      obtain ⟨t', ht'⟩ := getElem?_of_lt (l := d.out) (i := i + 1) (by omega)
      obtain ⟨mu0, x0, he, q1, q2, q3⟩ := discreteAt_ok hv (List.mem_of_getElem? ht) hj hmm
      obtain ⟨mu1, x1, he', r1, r2, r3⟩ := discreteAt_ok hv (List.mem_of_getElem? ht') hj hmm
      have y0 := at_double (List.mem_of_getElem? ht) he
      have y1 := at_double (List.mem_of_getElem? ht') he'
      obtain ⟨v, hv1, hv2, hv3, hv4, hv5, hv6, hv7⟩ := C128_interpolation hfl hE d0 d1 y0 y1 b0.le b1 hd q3.le r3.le
      have hB := fl_sub_pos hfl d1 d0 hd
      have hve : endFl fl (fl (fl (E - e0) / fl (e1 - e0))) x0 x1 = v := by
        rw [linFl, cdiv_of_ne hB.ne'] at hv1
        rw [← Except.ok.inj hv1, endFl, add_comm]
      have hmu := mix_close hfl hE d0 d1 b0.le b1 hd q1 q2 r1 r2
      obtain ⟨g, hg⟩ : ∃ g, g = (E - e0) / (e1 - e0) := ⟨_, rfl⟩
      have f0 : 0 ≤ g := by rw [hg]; apply div_nonneg <;> linarith
      have f1 : g ≤ 1 := by rw [hg, div_le_one (by linarith)]; linarith
      rw [← hg] at hmu hv7
      have m1 : -1 ≤ mu0 + g * (mu1 - mu0) := by nlinarith
      have m2 : mu0 + g * (mu1 - mu0) ≤ 1 := by nlinarith
      have hc := clampMu_mem (endFl fl (fl (fl (E - e0) / fl (e1 - e0))) mu0 mu1)
      have hcl := clamp_close hmu m1 m2
      refine ⟨j, k', clampMu (endFl fl (fl (fl (E - e0) / fl (e1 - e0))) mu0 mu1), v, hp, hj, hmm, ?_, hc.1, hc.2, hv2, hv3, i, i + 1, t, t', g,
        mu0, mu1, x0, x1, ht, ht', f0, f1, he, he', ?_, ?_, hv4, hv5, hv6, Or.inr rfl, ?_⟩
      · unfold DiscreteCE.sampleFl
        simp only [bind, Except.bind, hp]
        rw [if_neg hz, if_neg hl, hi, subIdx_of_le (by omega)]
        simp only [Nat.add_sub_cancel, getAt_eq_ok.mpr g0, getAt_eq_ok.mpr g1, rdivFl_ok hB.ne', getAt_eq_ok.mpr ht, getAt_eq_ok.mpr ht', he, he', hve]
        rfl
      · refine hcl.trans ?_
        rw [uround_eq]
        norm_num
      · rw [show x0 + g * (x1 - x0) = g * (x1 - x0) + x0 by ring]
        exact hv7
      · intro e0' e1' fi la h0' h1' g2 g3
        rw [g0] at h0'; cases h0'
        rw [g1] at h1'; cases h1'
        rw [h0] at g2; cases g2
        rw [h1] at g3; cases g3
        have z1 := pairwise_le_getElem? hv.sorted (Nat.zero_le _) h0 g0
        have z2 := pairwise_le_getElem? hv.sorted (show i + 1 ≤ d.energy.length - 1 by omega) g1 hlast
        have hne' : e1 - e0 ≠ 0 := by linarith
        rw [clip, min_eq_left (by linarith), max_eq_right (by linarith), hg]; field_simp; ring

/-- **C166** (positive energies) The energy stays positive when the energies tabulated for one index never fall by a factor of `2^49` from one
incoming energy to the next and are not below `2^-1000`.  Missing: without that, see `C166_violation`. -/
theorem C166_discrete_positive_partial (d : DiscreteCE) (hv : ValidDCE d) (hne : d.energy ≠ []) (hn : 0 < d.noe) (hn2 : d.noe ≤ 2 ^ 53)
    (hm : 0 < d.nmu) (dE : ∀ e ∈ d.energy, IsDouble e) (dx : ∀ t ∈ d.out, ∀ x ∈ t, IsDouble x.energy)
    (hbig : ∀ t ∈ d.out, ∀ x ∈ t, (2 : ℝ) ^ (-1000 : ℤ) ≤ x.energy)
    (hfall : ∀ (i j : Nat) (t t' : List DiscreteEnergy) (x x' : DiscreteEnergy), d.out[i]? = some t → d.out[i + 1]? = some t' → t[j]? = some x →
      t'[j]? = some x' → x.energy ≤ (2 : ℝ) ^ (49 : ℤ) * x'.energy)
    (E : ℝ) (hE : IsDouble E) (ω : Tape) (hω : UnitTape ω) (dω : ∀ i, IsDouble (ω i)) (k : Nat) :
    ∃ (mu e : ℝ) (k' : Nat), d.sampleFl fl E ω k = .ok (mu, e, k') ∧ -1 ≤ mu ∧ mu ≤ 1 ∧ 0 < e := by
  obtain ⟨j, k', mu, e, _, hj, _, hs, m0, m1, _, _, i, i', t, t', f, mu0, mu1, x0, x1, ht, ht', f0, f1, he, he', _, hc, _, hlo, _, hii, _⟩ :=
    C166_discrete hfl d hv hne hn hn2 hm dE dx E hE ω hω dω k
  refine ⟨mu, e, k', hs, m0, m1, ?_⟩
  have entry : ∀ {t : List DiscreteEnergy} {mu x : ℝ} {m : Nat}, discreteAt t j m = .ok (mu, x) → ∃ y : DiscreteEnergy, t[j]? = some y ∧ y.energy = x := by
    intro t mu x m h
    unfold discreteAt at h
    obtain ⟨y, hy, h⟩ := bind_ok h
    obtain ⟨_, _, h⟩ := bind_ok h
    simp only [pure, Except.pure, Except.ok.injEq, Prod.mk.injEq] at h
    exact ⟨y, getAt_eq_ok.mp hy, h.2⟩
  obtain ⟨y0, hy0, z0⟩ := entry he
  obtain ⟨y1, hy1, z1⟩ := entry he'
  have p0 := (hv.entry t (List.mem_of_getElem? ht) y0 (List.mem_of_getElem? hy0)).1
  have p1 := (hv.entry t' (List.mem_of_getElem? ht') y1 (List.mem_of_getElem? hy1)).1
  have s1 := hbig t' (List.mem_of_getElem? ht') y1 (List.mem_of_getElem? hy1)
  rw [z0] at p0
  rw [z1] at p1 s1
  rcases le_total x0 x1 with hx | hx
  · linarith [hlo hx]
  · have hfl' : x0 ≤ (2 : ℝ) ^ (49 : ℤ) * x1 := by
      rcases hii with h | h
      · subst h
        rw [ht] at ht'; cases ht'
        rw [hy0] at hy1; cases hy1
        rw [← z0, z1]
        norm_num
        linarith
      · subst h
        rw [← z0, ← z1]
        exact hfall i j t t' y0 y1 ht ht' hy0 hy1
    rw [max_eq_left hx, abs_le] at hc
    have hmid : x1 ≤ x0 + f * (x1 - x0) := by nlinarith
    have h1 : (2 : ℝ) ^ (-50 : ℤ) * x0 ≤ x1 / 2 := by
      rw [show x1 / 2 = (2 : ℝ) ^ (-50 : ℤ) * ((2 : ℝ) ^ (49 : ℤ) * x1) by norm_num; ring]
      exact mul_le_mul_of_nonneg_left hfl' (by positivity)
    have h2 : (2 : ℝ) ^ (-1074 : ℤ) < x1 / 2 := by
      have : (2 : ℝ) ^ (-1074 : ℤ) < (2 : ℝ) ^ (-1000 : ℤ) / 2 := by
        rw [show (2 : ℝ) ^ (-1000 : ℤ) / 2 = (2 : ℝ) ^ (-1001 : ℤ) by
          rw [show (-1000 : ℤ) = -1001 + 1 by norm_num, zpow_add₀ (by norm_num), zpow_one]; ring]
        exact zpow_lt_zpow_right₀ (by norm_num) (by norm_num)
      linarith
    have h3 := hc.1
    generalize (2 : ℝ) ^ (-1074 : ℤ) = a at *
    generalize (2 : ℝ) ^ (-50 : ℤ) * x0 = b at *
    linarith only [h1, h2, h3, hmid]

/-- **C166** The full claim is false: at a tabulated incoming energy whose own energy is far below that of the table before it, the energy
returned is 0 although the tabulated one is positive. -/
theorem C166_violation : ∃ d : DiscreteCE, ValidDCE d ∧ (∀ e ∈ d.energy, IsDouble e) ∧
    (∀ t ∈ d.out, ∀ x ∈ t, IsDouble x.energy ∧ 0 < x.energy ∧ ∀ m ∈ x.cosines, IsDouble m) ∧ (2 : ℝ) ∈ d.energy ∧
    ∀ (ω : Tape), UnitTape ω → (∀ i, IsDouble (ω i)) → ∀ k : Nat, d.sampleFl fl 2 ω k = .ok (0, 0, k + 2) ∧
      ∃ e, d.sample 2 ω k = .ok (0, e, k + 2) ∧ 0 < e := by
  obtain ⟨s, hs⟩ : ∃ s, s = (2 : ℝ) ^ (-60 : ℤ) := ⟨_, rfl⟩
  have hs0 : 0 < s := by rw [hs]; positivity
  have hs1 : s < uround / 2 := by rw [hs, uround_eq]; norm_num
  have ds : IsDouble s := by
    rw [hs]
    simpa using isDouble_zpow (m := 1) (by norm_num) (z := -60) (by norm_num)
  have two : IsDouble (2 : ℝ) := by simpa using isDouble_nat (n := 2) (by norm_num)
  have hu1 : uround ≤ 1 / 1000 := by rw [uround_eq]; norm_num
  have key : fl (s - 1) = -1 := by
    have h1 : -1 ≤ fl (s - 1) := le_fl hfl isDouble_one.neg (by linarith)
    rcases h1.lt_or_eq with h | h
    · have hd := double_below_one (hfl (s - 1)).1.neg (by linarith)
      have hn := (hfl (s - 1)).2 (-1) isDouble_one.neg
      rw [abs_of_nonneg (show 0 ≤ fl (s - 1) - (s - 1) by linarith), abs_of_neg (show -1 - (s - 1) < 0 by linarith)] at hn
      linarith
    · exact h.symm
  have hvd : ValidDCE ⟨[1, 2], [[⟨1, [0]⟩], [⟨s, [0]⟩]], 1, 1, false⟩ := by
    refine ⟨by norm_num, rfl, ?_, ?_, by simp⟩
    · intro t ht
      simp only [List.mem_cons, List.not_mem_nil, or_false] at ht
      rcases ht with rfl | rfl <;> rfl
    · intro t ht x hx
      simp only [List.mem_cons, List.not_mem_nil, or_false] at ht
      rcases ht with rfl | rfl <;> simp only [List.mem_cons, List.not_mem_nil, or_false] at hx <;> subst hx
      · norm_num
      · exact ⟨hs0, rfl, by norm_num⟩
  have hlb : lowerBound [(1 : ℝ), 2] 2 = 1 := by
    have a := (lowerBound_iff (l := [(1 : ℝ), 2]) (by norm_num) 2 (i := 0) rfl).mp (by norm_num)
    have b := mt (lowerBound_iff (l := [(1 : ℝ), 2]) (by norm_num) 2 (i := 1) rfl).mpr (by norm_num)
    omega
  have zero_idx : ∀ x : ℝ, 0 ≤ x → x < 1 → ⌊x⌋₊ = 0 := fun x h0 h1 => Nat.floor_eq_zero.mpr h1
  refine ⟨_, hvd, ?_, ?_, by simp, ?_⟩
  · intro e he
    simp only [List.mem_cons, List.not_mem_nil, or_false] at he
    rcases he with rfl | rfl
    exacts [isDouble_one, two]
  · intro t ht x hx
    simp only [List.mem_cons, List.not_mem_nil, or_false] at ht
    rcases ht with rfl | rfl <;> simp only [List.mem_cons, List.not_mem_nil, or_false] at hx <;> subst hx
    · exact ⟨isDouble_one, one_pos, by simp [isDouble_zero]⟩
    · exact ⟨ds, hs0, by simp [isDouble_zero]⟩
  · intro ω hω dω k
    have i1 : ∀ i, drawFl fl 1 (ω i) = 0 := fun i => by
      have := C129_index hfl 1 le_rfl (ω i) (dω i) (hω i).1 (hω i).2
      omega
    have i2 : ∀ i, ⌊((1 : ℕ) : ℝ) * ω i⌋₊ = 0 := fun i => zero_idx _ (by simpa using (hω i).1) (by simpa using (hω i).2)
    have c1 : clampMu (0 : ℝ) = 0 := clampMu_of_mem (by norm_num) (by norm_num)
    constructor
    · unfold DiscreteCE.sampleFl DiscreteCE.pickFl
      simp only [if_true, bind, Except.bind, pure, Except.pure, i1, hlb]
      rw [if_neg (by norm_num), if_neg (by norm_num), subIdx_of_le (by norm_num)]
      have h21 : fl ((2 : ℝ) - 1) = 1 := by
        rw [show (2 : ℝ) - 1 = 1 by norm_num]; exact fl_self hfl isDouble_one
      have hdv : rdivFl fl (fl ((2 : ℝ) - 1)) (fl (2 - 1)) = .ok 1 := by
        rw [h21, rdivFl_ok one_ne_zero, div_one, fl_self hfl isDouble_one]
      have z0 : endFl fl 1 0 0 = 0 := by
        rw [endFl, sub_self, fl_self hfl isDouble_zero, mul_zero, fl_self hfl isDouble_zero, add_zero, fl_self hfl isDouble_zero]
      have z1 : endFl fl 1 1 s = 0 := by
        rw [endFl, key, one_mul, fl_self hfl isDouble_one.neg, add_neg_cancel, fl_self hfl isDouble_zero]
      simp [getAt, discreteAt, hdv, bind, Except.bind, pure, Except.pure, z0, z1, c1]
    · refine ⟨s, ?_, hs0⟩
      unfold DiscreteCE.sample DiscreteCE.pick
      simp only [if_true, bind, Except.bind, pure, Except.pure, i2, hlb]
      rw [if_neg (by norm_num), if_neg (by norm_num), subIdx_of_le (by norm_num)]
      have hdv : rdiv ((2 : ℝ) - 1) (2 - 1) = .ok 1 := by
        rw [rdiv_ok (by norm_num)]; norm_num
      simp [getAt, discreteAt, hdv, bind, Except.bind, pure, Except.pure, c1]

/-! ### Continuous energies -/

/-- The energy drawn from a table is at least the lower end of the interval of outgoing energies that is used, hence not negative. -/
theorem CEDCTable.sampleEnergyFl_ge {nmu : Nat} {t : CEDCTable} (hv : ValidCEDC nmu t) (dv : ∀ v ∈ t.energy, IsDouble v)
    (dp : ∀ p ∈ t.pdf, IsDouble p) (hsm : ∀ p ∈ t.pdf, p = 0 ∨ (2 : ℝ) ^ (-500 : ℤ) ≤ p) {c00 xi e : ℝ} {j : Nat} (hc : t.cdf[0]? = some c00)
    (h0 : c00 ≤ xi) (h : t.sampleEnergyFl fl xi = .ok (e, j)) : ∃ e0 e1, t.energy[j]? = some e0 ∧ t.energy[j + 1]? = some e1 ∧ e0 ≤ e ∧ 0 ≤ e := by
  unfold CEDCTable.sampleEnergyFl at h
  obtain ⟨l, hl, h⟩ := bind_ok h
  obtain ⟨p0, g0, h⟩ := bind_ok h
  obtain ⟨p1, g1, h⟩ := bind_ok h
  obtain ⟨v0, g2, h⟩ := bind_ok h
  obtain ⟨c0, g3, h⟩ := bind_ok h
  obtain ⟨v1, g4, h⟩ := bind_ok h
  obtain ⟨r, hr, h⟩ := bind_ok h
  simp only [pure, Except.pure, Except.ok.injEq, Prod.mk.injEq] at h
  obtain ⟨rfl, rfl⟩ := h
  rw [getAt_eq_ok] at g0 g1 g2 g3 g4
  have hcx : c0 ≤ xi := by
    by_cases hz : lowerBound t.cdf xi = 0
    · rw [if_pos hz] at hl
      cases hl
      rw [hc] at g3; cases g3; exact h0
    · rw [if_neg hz] at hl
      by_cases hn : lowerBound t.cdf xi = t.cdf.length
      · rw [if_pos hn] at hl
        exact ((lowerBound_iff hv.sortedC xi g3).mpr (by rw [hn]; exact lt_length_of_some g3)).le
      · rw [if_neg hn, subIdx_of_le (by omega)] at hl
        cases hl
        exact ((lowerBound_iff hv.sortedC xi g3).mpr (by omega)).le
  have hvv := pairwise_le_getElem? hv.sortedE (Nat.le_succ l) g2 g4
  have q0 := hv.pdf_nonneg _ (List.mem_of_getElem? g0)
  have q1 := hv.pdf_nonneg _ (List.mem_of_getElem? g1)
  have hge : v0 ≤ r := by
    by_cases hpp : p0 = p1
    · rw [if_pos hpp] at hr
      exact histInterpFl_ge hfl (dv _ (List.mem_of_getElem? g2)) q0 hcx hr
    · rw [if_neg hpp] at hr
      exact linInterpFl_ge hfl (dv _ (List.mem_of_getElem? g2)) (dp _ (List.mem_of_getElem? g0)) hvv q0 q1 (hsm _ (List.mem_of_getElem? g0)) hcx hr
  exact ⟨v0, v1, g2, g4, hge, (hv.nonneg _ (List.mem_of_getElem? g2)).trans hge⟩

omit hfl in
/-- Sterbenz, for `y / 2 ≤ x ≤ y`: the difference of two doubles is computed exactly. -/
private theorem sub_exact {x y : ℝ} (dx : IsDouble x) (dy : IsDouble y) (h0 : 0 ≤ x) (h1 : y ≤ 2 * x) (h2 : x ≤ y) : IsDouble (x - y) := by
  obtain ⟨m, e, hm, rfl⟩ := isDouble_iff.mp dx
  obtain ⟨n, g, hn, rfl⟩ := isDouble_iff.mp dy
  have he : (0 : ℝ) < eta := by unfold eta; positivity
  have key : ∀ (k : ℤ) (s : ℕ), |k| ≤ 2 ^ 53 → IsDouble (k * 2 ^ s * eta) := fun k s hk => isDouble_scaled hk s
  rcases le_total e g with h | h
  · -- the smaller number has the finer exponent
    obtain ⟨r, rfl⟩ := Nat.exists_eq_add_of_le h
    have hk := key (m - n * 2 ^ r) e
    have hval : ((m - n * 2 ^ r : ℤ) : ℝ) * 2 ^ e * eta = (m : ℝ) * 2 ^ e * eta - (n : ℝ) * 2 ^ (e + r) * eta := by
      push_cast; rw [pow_add]; ring
    rw [hval] at hk
    apply hk
    have hs : (0 : ℝ) < 2 ^ e * eta := by positivity
    have a1 : ((n * 2 ^ r : ℤ) : ℝ) ≤ ((2 * m : ℤ) : ℝ) := by
      refine le_of_mul_le_mul_right ?_ hs
      push_cast
      rw [pow_add] at h1
      linarith
    have a2 : ((m : ℤ) : ℝ) ≤ ((n * 2 ^ r : ℤ) : ℝ) := by
      refine le_of_mul_le_mul_right ?_ hs
      push_cast
      rw [pow_add] at h2
      linarith
    have b1 := Int.cast_le.mp a1
    have b2 := Int.cast_le.mp a2
    have := abs_lt.mp hm
    rw [abs_le]
    constructor <;> linarith
  · obtain ⟨r, rfl⟩ := Nat.exists_eq_add_of_le h
    have hk := key (m * 2 ^ r - n) g
    have hval : ((m * 2 ^ r - n : ℤ) : ℝ) * 2 ^ g * eta = (m : ℝ) * 2 ^ (g + r) * eta - (n : ℝ) * 2 ^ g * eta := by
      push_cast; rw [pow_add]; ring
    rw [hval] at hk
    apply hk
    have hs : (0 : ℝ) < 2 ^ g * eta := by positivity
    have a0 : ((0 : ℤ) : ℝ) ≤ ((m * 2 ^ r : ℤ) : ℝ) := by
      refine le_of_mul_le_mul_right ?_ hs
      push_cast
      rw [pow_add] at h0
      linarith
    have a2 : ((m * 2 ^ r : ℤ) : ℝ) ≤ ((n : ℤ) : ℝ) := by
      refine le_of_mul_le_mul_right ?_ hs
      push_cast
      rw [pow_add] at h2
      linarith
    have b1 := Int.cast_le.mp a0
    have b2 := Int.cast_le.mp a2
    have := abs_lt.mp hn
    rw [abs_le]
    constructor <;> linarith

/-- The two ways of shifting the drawn energy keep it non-negative when the incoming energy is at least half the tabulated one. -/
theorem plainOutFl_nonneg {E Ei Eo v : ℝ} (dE : IsDouble E) (dEi : IsDouble Ei) (hEi : 0 ≤ Ei) (hEo : 0 ≤ Eo) (h2 : Ei ≤ 2 * E)
    (h : plainOutFl fl E Ei Eo = .ok v) : 0 ≤ v := by
  unfold plainOutFl at h
  by_cases hlt : Eo < fl (1 / 2 * Ei)
  · rw [if_pos hlt] at h
    obtain ⟨q, hq, h⟩ := bind_ok h
    simp only [pure, Except.pure, Except.ok.injEq] at h
    obtain ⟨hne, hqe⟩ := rdivFl_denom hq
    have hp : 0 < Ei := lt_of_le_of_ne hEi (Ne.symm hne)
    have a1 : Ei ≤ fl (2 * E) := le_fl hfl dEi h2
    have a2 : 1 ≤ q := by rw [hqe]; exact le_fl hfl isDouble_one ((one_le_div hp).mpr a1)
    rw [← h]
    exact fl_nonneg hfl (mul_nonneg hEo (fl_nonneg hfl (by linarith)))
  · rw [if_neg hlt] at h
    rw [← Except.ok.inj h]
    refine fl_nonneg hfl ?_
    rcases le_total Ei E with hE | hE
    · linarith [fl_nonneg hfl (show 0 ≤ E - Ei by linarith)]
    · have hd := sub_exact dE dEi (by linarith) h2 hE
      rw [fl_self hfl hd]
      have hd' : IsDouble (Ei - E) := by simpa using hd.neg
      have := le_fl hfl hd' (show Ei - E ≤ 1 / 2 * Ei by linarith)
      linarith [not_lt.mp hlt]

/-- The computed weight exceeds one half only when the incoming energy is at least half the upper of the two tabulated ones. -/
theorem half_weight {E e0 e1 : ℝ} (dE : IsDouble E) (d0 : IsDouble e0) (d1 : IsDouble e1) (h0 : 0 ≤ e0) (h1 : e0 ≤ E) (h12 : e0 < e1)
    (hf : 1 / 2 < fl (fl (E - e0) / fl (e1 - e0))) : e1 ≤ 2 * E := by
  by_contra hc
  rw [not_le] at hc
  have hD := fl_sub_pos hfl d1 d0 h12
  have half : IsDouble (1 / 2 : ℝ) := by simpa using isDouble_zpow (m := 1) (by norm_num) (z := -1) (by norm_num)
  have hq : 1 / 2 < fl (E - e0) / fl (e1 - e0) := by
    by_contra hn
    exact absurd (fl_le hfl half (not_lt.mp hn)) (not_le.mpr hf)
  rw [lt_div_iff₀ hD] at hq
  obtain ⟨g, hg⟩ : ∃ g, g = E - e0 := ⟨_, rfl⟩
  obtain ⟨D, hDe⟩ : ∃ D, D = e1 - e0 := ⟨_, rfl⟩
  rw [← hg, ← hDe] at hq
  rw [← hDe] at hD
  have hgD : 2 * g < D := by linarith
  have n1 := (hfl D).2 (2 * fl g) (hfl g).1.two_mul
  obtain ⟨m, s, hm, hw⟩ := isDouble_iff.mp (hfl D).1
  -- if half of the rounded difference is a double, nearness of both roundings contradicts the order
  have close : IsDouble (fl D / 2) → False := by
    intro hh
    have n2 := (hfl g).2 _ hh
    have b1 : D ≤ (fl D + 2 * fl g) / 2 := by
      rcases le_total (fl D) D with a | a
      · rcases le_total (2 * fl g) D with b | b
        · rw [abs_of_nonpos (by linarith), abs_of_nonpos (by linarith)] at n1; linarith
        · rw [abs_of_nonpos (by linarith), abs_of_nonneg (by linarith)] at n1; linarith
      · linarith
    have b2 : (fl D / 2 + fl g) / 2 ≤ g := by
      rcases le_total (fl g) g with a | a
      · linarith
      · rcases le_total (fl D / 2) g with b | b
        · rw [abs_of_nonneg (by linarith), abs_of_nonpos (by linarith)] at n2; linarith
        · rw [abs_of_nonneg (by linarith), abs_of_nonneg (by linarith)] at n2; linarith
    linarith
  rcases s with _ | s
  · -- tiny numbers: both differences are computed exactly
    have he : (0 : ℝ) < eta := by unfold eta; positivity
    obtain ⟨a, ha⟩ := dE.int_mul
    obtain ⟨b, hb⟩ := d0.int_mul
    obtain ⟨c, hcc⟩ := d1.int_mul
    have hg' : g = ((a - b : ℤ) : ℝ) * eta := by rw [hg, ha, hb]; push_cast; ring
    have hD' : D = ((c - b : ℤ) : ℝ) * eta := by rw [hDe, hcc, hb]; push_cast; ring
    have hw' : fl D = (m : ℝ) * eta := by rw [hw]; ring
    have hg0 : 0 ≤ g := by rw [hg]; linarith
    have big : IsDouble (((2 ^ 53 : ℤ) : ℝ) * eta) := isDouble_small (by norm_num)
    have hcb : c - b ≤ 2 ^ 53 := by
      by_contra hn
      have h3 : ((2 ^ 53 : ℤ) : ℝ) * eta ≤ D := by
        rw [hD']
        exact mul_le_mul_of_nonneg_right (by exact_mod_cast (not_le.mp hn).le) he.le
      have h4 := le_fl hfl big h3
      rw [hw'] at h4
      have := Int.cast_le.mp (le_of_mul_le_mul_right h4 he)
      have := (abs_lt.mp hm).2
      linarith
    have hcb0 : 0 < c - b := by
      have : (0 : ℝ) < ((c - b : ℤ) : ℝ) * eta := by rw [← hD']; linarith
      have := (mul_pos_iff_of_pos_right he).mp this
      exact_mod_cast this
    have hab0 : 0 ≤ a - b := by
      rw [hg'] at hg0
      have := nonneg_of_mul_nonneg_left hg0 he
      exact_mod_cast this
    have hab : a - b ≤ 2 ^ 53 := by
      have : ((2 * (a - b) : ℤ) : ℝ) * eta < ((c - b : ℤ) : ℝ) * eta := by
        rw [← hD']
        rw [hg'] at hgD
        push_cast at hgD ⊢
        linarith
      have := Int.cast_lt.mp (lt_of_mul_lt_mul_right this he.le)
      omega
    have e1' : fl g = g := fl_self hfl (by rw [hg']; exact isDouble_small (abs_le.mpr ⟨by omega, hab⟩))
    have e2' : fl D = D := fl_self hfl (by rw [hD']; exact isDouble_small (abs_le.mpr ⟨by omega, hcb⟩))
    rw [e1', e2'] at hq
    linarith
  · refine close (isDouble_iff.mpr ⟨m, s, hm, ?_⟩)
    rw [hw, pow_succ]; ring

omit hfl in
/-- **C166** Every cosine returned by the law of continuous energies in double arithmetic is in `[-1, 1]`, whatever the data. -/
theorem C166_cosine (d : ContinuousCE) (E : ℝ) (ω : Tape) (k k' : Nat) (mu e : ℝ) (h : d.sampleFl fl E ω k = .ok (mu, e, k')) :
    -1 ≤ mu ∧ mu ≤ 1 ∧ k' = (if d.unitBased = false then k + 3 else k + 4) := by
  have hmu : ∀ {t : CEDCTable} {n j : Nat} {xi r1 r2 m : ℝ}, t.sampleMuFl fl n j xi r1 r2 = .ok m → -1 ≤ m ∧ m ≤ 1 := by
    intro t n j xi r1 r2 m h
    unfold CEDCTable.sampleMuFl at h
    obtain ⟨_, _, h⟩ := bind_ok h
    obtain ⟨_, _, h⟩ := bind_ok h
    obtain ⟨_, _, h⟩ := bind_ok h
    obtain ⟨_, _, h⟩ := bind_ok h
    obtain ⟨_, _, h⟩ := bind_ok h
    obtain ⟨x, _, h⟩ := bind_ok h
    simp only [pure, Except.pure, Except.ok.injEq] at h
    rw [← h]
    exact clampMu_mem x
  unfold ContinuousCE.sampleFl at h
  by_cases hu : d.unitBased = false
  · rw [if_pos hu] at h ⊢
    unfold ContinuousCE.samplePlainFl at h
    obtain ⟨⟨l, f⟩, _, h⟩ := bind_ok h
    obtain ⟨t, _, h⟩ := bind_ok h
    obtain ⟨⟨Eo, j⟩, _, h⟩ := bind_ok h
    obtain ⟨_, _, h⟩ := bind_ok h
    obtain ⟨_, _, h⟩ := bind_ok h
    obtain ⟨m, hm, h⟩ := bind_ok h
    simp only [pure, Except.pure, Except.ok.injEq, Prod.mk.injEq] at h
    obtain ⟨rfl, _, rfl⟩ := h
    exact ⟨(hmu hm).1, (hmu hm).2, rfl⟩
  · rw [if_neg hu] at h ⊢
    unfold ContinuousCE.sampleUnitFl at h
    obtain ⟨⟨l, f⟩, _, h⟩ := bind_ok h
    obtain ⟨t0, _, h⟩ := bind_ok h
    obtain ⟨t1, _, h⟩ := bind_ok h
    obtain ⟨a0, _, h⟩ := bind_ok h
    obtain ⟨b0, _, h⟩ := bind_ok h
    obtain ⟨a1, _, h⟩ := bind_ok h
    obtain ⟨b1, _, h⟩ := bind_ok h
    obtain ⟨⟨Eh, j⟩, _, h⟩ := bind_ok h
    obtain ⟨_, _, h⟩ := bind_ok h
    obtain ⟨m, hm, h⟩ := bind_ok h
    simp only [pure, Except.pure, Except.ok.injEq, Prod.mk.injEq] at h
    obtain ⟨rfl, _, rfl⟩ := h
    exact ⟨(hmu hm).1, (hmu hm).2, rfl⟩

/-- **C166** Without unit-based interpolation, in double arithmetic: an incoming energy of at least half the lowest tabulated one never gives a
negative outgoing energy -- the computed weight, the computed half and the two computed shifts included.  Missing: lower incoming energies
(`C86_violation_negative`), densities that are positive but below `2^-500`. -/
theorem C166_plain_nonneg_partial (d : ContinuousCE) (hs : d.energy.Pairwise (· ≤ ·)) (hpos : ∀ e ∈ d.energy, 0 ≤ e) (hu : d.unitBased = false)
    (hv : ∀ t ∈ d.tables, ValidCEDC d.nmu t) (dE : ∀ e ∈ d.energy, IsDouble e) (dv : ∀ t ∈ d.tables, ∀ v ∈ t.energy, IsDouble v)
    (dp : ∀ t ∈ d.tables, ∀ p ∈ t.pdf, IsDouble p) (hsm : ∀ t ∈ d.tables, ∀ p ∈ t.pdf, p = 0 ∨ (2 : ℝ) ^ (-500 : ℤ) ≤ p)
    (ω : Tape) (k k' : Nat) (hc : ∀ t ∈ d.tables, ∀ c, t.cdf[0]? = some c → c ≤ ω k)
    (E first : ℝ) (hE : IsDouble E) (h0 : d.energy[0]? = some first) (hhalf : first ≤ 2 * E) (mu v : ℝ) (h : d.sampleFl fl E ω k = .ok (mu, v, k')) :
    0 ≤ v := by
  unfold ContinuousCE.sampleFl at h
  rw [if_pos hu] at h
  unfold ContinuousCE.samplePlainFl at h
  obtain ⟨⟨l, f⟩, hb, h⟩ := bind_ok h
  obtain ⟨t, ht, h⟩ := bind_ok h
  obtain ⟨⟨Eo, j⟩, hEo, h⟩ := bind_ok h
  obtain ⟨Ei, hEi, h⟩ := bind_ok h
  obtain ⟨w, hw, h⟩ := bind_ok h
  obtain ⟨m, _, h⟩ := bind_ok h
  simp only [pure, Except.pure, Except.ok.injEq, Prod.mk.injEq] at h
  obtain ⟨_, rfl, _⟩ := h
  rw [getAt_eq_ok] at ht hEi
  have hm := List.mem_of_getElem? ht
  have hEim := List.mem_of_getElem? hEi
  have hlen := List.length_pos_iff.mpr (hv t hm).ne
  obtain ⟨c, hcc⟩ := getElem?_of_lt (l := t.cdf) (i := 0) (by rw [(hv t hm).lenC]; exact hlen)
  obtain ⟨_, _, _, _, _, hEo0⟩ := CEDCTable.sampleEnergyFl_ge hfl (hv t hm) (dv t hm) (dp t hm) (hsm t hm) hcc (hc t hm c hcc) hEo
  refine plainOutFl_nonneg hfl hE (dE _ hEim) (hpos _ hEim) hEo0 ?_ hw
  -- the chosen tabulated energy is never more than twice the incoming one
  unfold bracketInFl at hb
  simp only [] at hb
  by_cases hz : lowerBound d.energy E = 0
  · rw [if_pos hz] at hb
    cases hb
    rw [if_neg (by norm_num), h0] at hEi
    cases hEi
    exact hhalf
  · rw [if_neg hz] at hb
    by_cases hn : lowerBound d.energy E = d.energy.length
    · rw [if_pos hn] at hb
      obtain ⟨l', _, hb⟩ := bind_ok hb
      cases hb
      rw [if_pos (by norm_num)] at hEi
      have hlt := (lowerBound_iff hs E hEi).mpr (by rw [hn]; exact lt_length_of_some hEi)
      have := hpos Ei hEim
      linarith
    · rw [if_neg hn, subIdx_of_le (by omega)] at hb
      obtain ⟨l', hl', hb⟩ := bind_ok hb
      cases hl'
      obtain ⟨e0, g0, hb⟩ := bind_ok hb
      obtain ⟨e1, g1, hb⟩ := bind_ok hb
      obtain ⟨f', hf', hb⟩ := bind_ok hb
      simp only [pure, Except.pure, Except.ok.injEq, Prod.mk.injEq] at hb
      obtain ⟨rfl, rfl⟩ := hb
      rw [getAt_eq_ok] at g0 g1
      have lo : e0 < E := (lowerBound_iff hs E g0).mpr (by omega)
      have hi : E ≤ e1 := by
        by_contra hcon
        have := (lowerBound_iff hs E g1).mp (not_le.mp hcon)
        omega
      have p0 := hpos e0 (List.mem_of_getElem? g0)
      obtain ⟨_, hfe⟩ := rdivFl_denom hf'
      by_cases hhf : f' > 1 / 2
      · rw [if_pos hhf, g1] at hEi
        cases hEi
        rw [hfe] at hhf
        exact half_weight hfl hE (dE _ (List.mem_of_getElem? g0)) (dE _ (List.mem_of_getElem? g1)) p0 lo.le (by linarith) hhf
      · rw [if_neg hhf, g0] at hEi
        cases hEi
        linarith

/-- **C166** With unit-based interpolation, in double arithmetic, between tables that start at energy 0: the outgoing energy is never negative. -/
theorem C166_unit_nonneg_partial (d : ContinuousCE) (hs : d.energy.Pairwise (· ≤ ·)) (hu : d.unitBased = true)
    (hv : ∀ t ∈ d.tables, ValidCEDC d.nmu t) (dE : ∀ e ∈ d.energy, IsDouble e) (dv : ∀ t ∈ d.tables, ∀ v ∈ t.energy, IsDouble v)
    (dp : ∀ t ∈ d.tables, ∀ p ∈ t.pdf, IsDouble p) (hsm : ∀ t ∈ d.tables, ∀ p ∈ t.pdf, p = 0 ∨ (2 : ℝ) ^ (-500 : ℤ) ≤ p)
    (hz : ∀ t ∈ d.tables, t.energy[0]? = some 0)
    (ω : Tape) (k k' : Nat) (hc : ∀ t ∈ d.tables, ∀ c, t.cdf[0]? = some c → c ≤ ω k)
    (E : ℝ) (hE : IsDouble E) (mu v : ℝ) (h : d.sampleFl fl E ω k = .ok (mu, v, k')) : 0 ≤ v := by
  unfold ContinuousCE.sampleFl at h
  rw [if_neg (by simp [hu])] at h
  unfold ContinuousCE.sampleUnitFl at h
  obtain ⟨⟨l, f⟩, hb, h⟩ := bind_ok h
  obtain ⟨t0, g0, h⟩ := bind_ok h
  obtain ⟨t1, g1, h⟩ := bind_ok h
  obtain ⟨a0, w1, h⟩ := bind_ok h
  obtain ⟨b0, w2, h⟩ := bind_ok h
  obtain ⟨a1, w3, h⟩ := bind_ok h
  obtain ⟨b1, w4, h⟩ := bind_ok h
  simp only [] at h
  rw [getAt_eq_ok] at g0 g1
  have m0 := List.mem_of_getElem? g0
  have m1 := List.mem_of_getElem? g1
  rw [front_eq_ok, hz t0 m0] at w1
  rw [front_eq_ok, hz t1 m1] at w3
  cases w1
  cases w3
  rw [back_eq_ok] at w2 w4
  have B0 : 0 ≤ b0 := (hv t0 m0).nonneg _ (List.mem_of_getLast? w2)
  have B1 : 0 ≤ b1 := (hv t1 m1).nonneg _ (List.mem_of_getLast? w4)
  obtain ⟨f0, f1⟩ := bracketInFl_unit hfl hs dE hE hb
  have hlo : endFl fl f 0 0 = 0 := by
    rw [endFl, sub_self, fl_self hfl isDouble_zero, mul_zero, fl_self hfl isDouble_zero, add_zero, fl_self hfl isDouble_zero]
  have hhi := endFl_nonneg hfl (dv t0 m0 _ (List.mem_of_getLast? w2)) B0 B1 f0 f1
  rw [hlo] at h
  have fin : ∀ (t : CEDCTable) (b Eh e : ℝ) (j : Nat), t ∈ d.tables → 0 ≤ b → t.sampleEnergyFl fl (ω k) = .ok (Eh, j) →
      scaleFl fl 0 (endFl fl f b0 b1) 0 b Eh = .ok e → 0 ≤ e := by
    intro t b Eh e j hm hb0 hEo hsc
    have hlen := List.length_pos_iff.mpr (hv t hm).ne
    obtain ⟨c, hcc⟩ := getElem?_of_lt (l := t.cdf) (i := 0) (by rw [(hv t hm).lenC]; exact hlen)
    obtain ⟨_, _, _, _, _, hEo0⟩ := CEDCTable.sampleEnergyFl_ge hfl (hv t hm) (dv t hm) (dp t hm) (hsm t hm) hcc (hc t hm c hcc) hEo
    exact (scaleFl_nonneg hfl isDouble_zero le_rfl hhi hb0 hEo0 (Or.inr hhi) hsc).1
  by_cases hx : ω (k + 1) > f
  · simp only [if_pos hx] at h
    obtain ⟨⟨Eh, j⟩, hEo, h⟩ := bind_ok h
    obtain ⟨e, hsc, h⟩ := bind_ok h
    obtain ⟨m, _, h⟩ := bind_ok h
    simp only [pure, Except.pure, Except.ok.injEq, Prod.mk.injEq] at h
    obtain ⟨_, rfl, _⟩ := h
    exact fin t0 b0 Eh e j m0 B0 hEo hsc
  · simp only [if_neg hx] at h
    obtain ⟨⟨Eh, j⟩, hEo, h⟩ := bind_ok h
    obtain ⟨e, hsc, h⟩ := bind_ok h
    obtain ⟨m, _, h⟩ := bind_ok h
    simp only [pure, Except.pure, Except.ok.injEq, Prod.mk.injEq] at h
    obtain ⟨_, rfl, _⟩ := h
    exact fin t1 b1 Eh e j m1 B1 hEo hsc

omit hfl in
/-- What the constructor reads: energies and densities are numbers of the file or 0, and the cumulative starts at 0 or below. -/
private theorem readEntries_mem {xss : List ℝ} {nmu : Nat} : ∀ {n l : Nat} {es : List CEDCEntry}, readEntries xss nmu n l = .ok es →
    ∀ e ∈ es, e.e ∈ xss ∧ (e.p = 0 ∨ e.p ∈ xss) := by
  intro n
  induction n with
  | zero =>
    intro l es h
    rw [readEntries] at h
    cases h
    simp
  | succ n ih =>
    intro l es h
    rw [readEntries] at h
    obtain ⟨e, he, h⟩ := bind_ok h
    obtain ⟨es', hes, h⟩ := bind_ok h
    simp only [pure, Except.pure, Except.ok.injEq] at h
    rw [← h]
    intro x hx
    rcases List.mem_cons.mp hx with rfl | hx
    · unfold readEntry at he
      obtain ⟨a, ha, he⟩ := bind_ok he
      obtain ⟨p, hp, he⟩ := bind_ok he
      obtain ⟨c, _, he⟩ := bind_ok he
      obtain ⟨mus, _, he⟩ := bind_ok he
      obtain ⟨m0, _, he⟩ := bind_ok he
      split at he
      · cases he
      obtain ⟨m1, _, he⟩ := bind_ok he
      split at he
      · cases he
      simp only [pure, Except.pure, Except.ok.injEq] at he
      rw [← he]
      refine ⟨List.mem_of_getElem? (getAt_eq_ok.mp ha), ?_⟩
      by_cases hc : p < 0 ∧ |p| < 1 / 10 ^ 20
      · exact Or.inl (if_pos hc)
      · right
        dsimp only
        rw [if_neg hc]
        exact List.mem_of_getElem? (getAt_eq_ok.mp hp)
    · exact ih hes x hx

omit hfl in
private theorem read_mem {xss : List ℝ} {nmu noe l : Nat} {t : CEDCTable} (h : CEDCTable.read xss nmu noe l = .ok t) :
    (∀ e ∈ t.energy, e = 0 ∨ e ∈ xss) ∧ (∀ p ∈ t.pdf, p = 0 ∨ p ∈ xss) ∧ ∀ c, t.cdf[0]? = some c → c ≤ 0 := by
  unfold CEDCTable.read at h
  obtain ⟨es, hes, h⟩ := bind_ok h
  have hm := readEntries_mem hes
  dsimp only at h
  split at h
  · cases h
  obtain ⟨e0, _, h⟩ := bind_ok h
  split at h
  · cases h
  split at h
  · cases h
  split at h
  · cases h
  simp only [pure, Except.pure, Except.ok.injEq] at h
  rw [← h]
  have hz : ∀ e ∈ addZero nmu es, (e.e = 0 ∨ e.e ∈ xss) ∧ (e.p = 0 ∨ e.p ∈ xss) := by
    intro e he
    have base : e ∈ es → (e.e = 0 ∨ e.e ∈ xss) ∧ (e.p = 0 ∨ e.p ∈ xss) := fun h => ⟨Or.inr (hm e h).1, (hm e h).2⟩
    cases es with
    | nil => simp [addZero] at he
    | cons x rest =>
      unfold addZero at he
      dsimp only at he
      by_cases hc : x.c > 0
      · rw [if_pos hc] at he
        rcases List.mem_cons.mp he with rfl | he
        · exact ⟨Or.inl rfl, Or.inl rfl⟩
        · exact base he
      · rw [if_neg hc] at he
        exact base he
  refine ⟨?_, ?_, ?_⟩
  · intro e he
    obtain ⟨x, hx, rfl⟩ := List.mem_map.mp he
    exact (hz x hx).1
  · intro p hp
    obtain ⟨q, hq, rfl⟩ := List.mem_map.mp hp
    obtain ⟨x, hx, rfl⟩ := List.mem_map.mp hq
    by_cases hn : x.p < 0
    · exact Or.inl (if_pos hn)
    · rw [if_neg hn]
      exact (hz x hx).2
  · intro c hc
    cases es with
    | nil => simp [addZero] at hc
    | cons x rest =>
      unfold addZero at hc
      dsimp only at hc
      by_cases hp : x.c > 0
      · rw [if_pos hp] at hc
        simp at hc
        exact hc.symm.le
      · rw [if_neg hp] at hc
        simp at hc
        rw [← hc]
        exact not_lt.mp hp

omit hfl in
private theorem readCEDCs_mem {xss : List ℝ} {nmu : Nat} : ∀ {ls : List (Nat × Nat)} {ts : List CEDCTable}, readCEDCs xss nmu ls = .ok ts →
    ∀ t ∈ ts, ∃ loc noe, CEDCTable.read xss nmu noe loc = .ok t := by
  intro ls
  induction ls with
  | nil =>
    intro ts h
    rw [readCEDCs] at h
    cases h
    simp
  | cons p rest ih =>
    intro ts h
    obtain ⟨loc, noe⟩ := p
    rw [readCEDCs] at h
    obtain ⟨t, ht, h⟩ := bind_ok h
    obtain ⟨ts', hts, h⟩ := bind_ok h
    cases h
    intro x hx
    rcases List.mem_cons.mp hx with rfl | hx
    · exact ⟨loc, noe, ht⟩
    · exact ih hts x hx

/-- **C166** (from the file) The same for every law the constructor accepts from a file of doubles whose positive numbers are all at least
`2^-500`: with non-negative incoming energies, no incoming energy of at least half the lowest one gives a negative outgoing energy
without unit-based interpolation; with it none at all does when the tables start at energy 0. -/
theorem C166_file (a : TslAce) (u : Bool) (d : ContinuousCE) (h : ContinuousCE.makeAce a u = .ok d) (da : ∀ x ∈ a.xss, IsDouble x)
    (hsm : ∀ x ∈ a.xss, 0 < x → (2 : ℝ) ^ (-500 : ℤ) ≤ x) (ω : Tape) (hω : UnitTape ω) (k k' : Nat) (E : ℝ) (hE : IsDouble E) (mu v : ℝ)
    (hs : d.sampleFl fl E ω k = .ok (mu, v, k')) :
    -1 ≤ mu ∧ mu ≤ 1 ∧
    (u = false → (∀ e ∈ d.energy, 0 ≤ e) → ∀ first, d.energy[0]? = some first → first ≤ 2 * E → 0 ≤ v) ∧
    (u = true → (∀ t ∈ d.tables, t.energy[0]? = some 0) → 0 ≤ v) := by
  obtain ⟨hv, hu, s, i, _, _, hes, _⟩ := C86_read a u d h
  have hts : ∀ t ∈ d.tables, ∃ loc noe, CEDCTable.read a.xss d.nmu noe loc = .ok t := by
    unfold ContinuousCE.makeAce at h
    split at h
    · cases h
    obtain ⟨s, hs, h⟩ := bind_ok h
    obtain ⟨ne, hne, h⟩ := bind_ok h
    obtain ⟨es, hes, h⟩ := bind_ok h
    split at h
    · cases h
    dsimp only at h
    obtain ⟨i, hi, h⟩ := bind_ok h
    obtain ⟨locs, hlocs, h⟩ := bind_ok h
    obtain ⟨noes, hnoes, h⟩ := bind_ok h
    obtain ⟨ts, hts, h⟩ := bind_ok h
    cases h
    exact readCEDCs_mem hts
  have dE : ∀ e ∈ d.energy, IsDouble e := by
    intro e he
    obtain ⟨n, hn⟩ := List.mem_iff_getElem?.mp he
    rw [hes n (lt_length_of_some hn)] at hn
    exact da e (List.mem_of_getElem? hn)
  have dv : ∀ t ∈ d.tables, ∀ v ∈ t.energy, IsDouble v := by
    intro t ht v hv
    obtain ⟨_, _, hr⟩ := hts t ht
    rcases (read_mem hr).1 v hv with rfl | hm
    exacts [isDouble_zero, da v hm]
  have dp : ∀ t ∈ d.tables, ∀ p ∈ t.pdf, IsDouble p := by
    intro t ht v hv
    obtain ⟨_, _, hr⟩ := hts t ht
    rcases (read_mem hr).2.1 v hv with rfl | hm
    exacts [isDouble_zero, da v hm]
  have hp : ∀ t ∈ d.tables, ∀ p ∈ t.pdf, p = 0 ∨ (2 : ℝ) ^ (-500 : ℤ) ≤ p := by
    intro t ht p hpp
    obtain ⟨_, _, hr⟩ := hts t ht
    rcases (read_mem hr).2.1 p hpp with h0 | hm
    · exact Or.inl h0
    · rcases ((hv.tables t ht).1.pdf_nonneg p hpp).lt_or_eq with hlt | heq
      · exact Or.inr (hsm p hm hlt)
      · exact Or.inl heq.symm
  have hc : ∀ t ∈ d.tables, ∀ c, t.cdf[0]? = some c → c ≤ ω k := by
    intro t ht c hc
    obtain ⟨_, _, hr⟩ := hts t ht
    exact ((read_mem hr).2.2 c hc).trans (hω k).1
  have hval : ∀ t ∈ d.tables, ValidCEDC d.nmu t := fun t ht => (hv.tables t ht).1
  have hmu := C166_cosine d E ω k k' mu v hs
  refine ⟨hmu.1, hmu.2.1, ?_, ?_⟩
  · intro hu0 hpos first h0 hh
    exact C166_plain_nonneg_partial hfl d hv.sorted hpos (hu.trans hu0) hval dE dv dp hp ω k k' hc E first hE h0 hh mu v hs
  · intro hu1 hz
    exact C166_unit_nonneg_partial hfl d hv.sorted (hu.trans hu1) hval dE dv dp hp hz ω k k' hc E hE mu v hs

end

/-- **C166** (the model) Without rounding the models agree with those of C85 and C86. -/
theorem C166_exact (d : DiscreteCE) (c : ContinuousCE) (E : ℝ) (ω : Tape) (k : Nat) :
    d.sampleFl (fun r => r) E ω k = d.sample E ω k ∧ c.sampleFl (fun r => r) E ω k = c.sample E ω k := by
  constructor
  · have hp : ∀ k, d.pickFl (fun r => r) ω k = d.pick ω k := by
      intro k
      unfold DiscreteCE.pickFl DiscreteCE.pick
      simp only [rdivFl_id, drawFl, drawSkewFl]
      by_cases h4 : 4 ≤ d.noe
      · simp only [subIdx_of_le h4]
        rfl
      · have : ∀ {β : Type} (f g : Nat → Res β), (subIdx d.noe 4 >>= f) = (subIdx d.noe 4 >>= g) := by
          intro β f g
          rw [subIdx, if_neg h4]
          rfl
        split_ifs <;> first | rfl | skip
        cases rdiv 1 (10 * ((d.noe : ℝ) - 3)) with
        | error e => rfl
        | ok c =>
          simp only [bind, Except.bind]
          split_ifs <;> first | rfl | exact this _ _
    unfold DiscreteCE.sampleFl DiscreteCE.sample
    simp only [hp, rdivFl_id, drawFl, endFl]
  · have hh : ∀ xi v0 p0 c0 : ℝ, histInterpFl (fun r => r) xi v0 p0 c0 = histInterp xi v0 p0 c0 := by
      intro xi v0 p0 c0
      unfold histInterpFl histInterp
      simp only [rdivFl_id]
    have hl : ∀ xi v0 v1 p0 p1 c0 : ℝ, linInterpFl (fun r => r) xi v0 v1 p0 p1 c0 = linInterp xi v0 v1 p0 p1 c0 := by
      intro xi v0 v1 p0 p1 c0
      unfold linInterpFl linInterp
      simp only [rdivFl_id]
    have he : ∀ (t : CEDCTable) (xi : ℝ), t.sampleEnergyFl (fun r => r) xi = t.sampleEnergy xi := by
      intro t xi
      unfold CEDCTable.sampleEnergyFl CEDCTable.sampleEnergy
      simp only [hh, hl]
    have hm : ∀ (t : CEDCTable) (n j : Nat) (xi r1 r2 : ℝ), t.sampleMuFl (fun r => r) n j xi r1 r2 = t.sampleMu n j xi r1 r2 := by
      intro t n j xi r1 r2
      unfold CEDCTable.sampleMuFl CEDCTable.sampleMu
      simp only [rdivFl_id, smearFl, smear, mixAtFl, mixAt, endFl, drawFl]
      rfl
    have h1 : c.samplePlainFl (fun r => r) E ω k = c.samplePlain E ω k := by
      unfold ContinuousCE.samplePlainFl ContinuousCE.samplePlain
      simp only [bracketInFl_id, he, hm, plainOutFl, rdivFl_id]
    have h2 : c.sampleUnitFl (fun r => r) E ω k = c.sampleUnit E ω k := by
      unfold ContinuousCE.sampleUnitFl ContinuousCE.sampleUnit
      simp only [bracketInFl_id, he, hm, scaleFl, rdivFl_id, endFl, bind_assoc, pure_bind]
    unfold ContinuousCE.sampleFl ContinuousCE.sample
    rw [h1, h2]

/-- The hypotheses are met: the example of C85. -/
example (fl : ℝ → ℝ) (hfl : IsRoundToNearest fl) (ω : Tape) (hω : UnitTape ω) (dω : ∀ i, IsDouble (ω i)) :
    ∃ (mu e : ℝ) (k' : Nat), dceExample.sampleFl fl 2 ω 0 = .ok (mu, e, k') ∧ -1 ≤ mu ∧ mu ≤ 1 ∧ 0 < e := by
  have two : IsDouble (2 : ℝ) := by simpa using isDouble_nat (n := 2) (by norm_num)
  have three : IsDouble (3 : ℝ) := by simpa using isDouble_nat (n := 3) (by norm_num)
  have small : (2 : ℝ) ^ (-1000 : ℤ) ≤ 1 := zpow_le_one_of_nonpos₀ (by norm_num) (by norm_num)
  have hv : ValidDCE dceExample := by
    refine ⟨by norm_num [dceExample], rfl, ?_, ?_, by simp [dceExample]⟩
    · intro t ht
      simp only [dceExample, List.mem_cons, List.not_mem_nil, or_false] at ht
      rcases ht with rfl | rfl <;> rfl
    · intro t ht x hx
      simp only [dceExample, List.mem_cons, List.not_mem_nil, or_false] at ht
      rcases ht with rfl | rfl <;>
      · simp only [List.mem_cons, List.not_mem_nil, or_false] at hx
        rcases hx with rfl | rfl <;> norm_num [dceExample]
  have all : ∀ t ∈ dceExample.out, ∀ x ∈ t, IsDouble x.energy ∧ 1 ≤ x.energy ∧ x.energy ≤ 3 := by
    intro t ht x hx
    simp only [dceExample, List.mem_cons, List.not_mem_nil, or_false] at ht
    rcases ht with rfl | rfl <;>
    · simp only [List.mem_cons, List.not_mem_nil, or_false] at hx
      rcases hx with rfl | rfl <;> norm_num [isDouble_one, two, three]
  refine C166_discrete_positive_partial hfl dceExample hv (by simp [dceExample]) (by norm_num [dceExample]) (by norm_num [dceExample])
    (by norm_num [dceExample]) ?_ (fun t ht x hx => (all t ht x hx).1) (fun t ht x hx => small.trans (all t ht x hx).2.1) ?_ 2 two ω hω dω 0
  · intro e he
    simp only [dceExample, List.mem_cons, List.not_mem_nil, or_false] at he
    rcases he with rfl | rfl
    exacts [isDouble_one, two]
  · intro i j t t' x x' ht ht' hx hx'
    have a := (all t (List.mem_of_getElem? ht) x (List.mem_of_getElem? hx)).2.2
    have b := (all t' (List.mem_of_getElem? ht') x' (List.mem_of_getElem? hx')).2.1
    norm_num
    linarith

/-- The hypotheses are met: the uniform law of C86, without and with unit-based interpolation, from half the lowest energy up. -/
example (fl : ℝ → ℝ) (hfl : IsRoundToNearest fl) (u : Bool) (E : ℝ) (hE : IsDouble E) (h : 1 ≤ 2 * E) (ω : Tape) (hω : UnitTape ω) (mu v : ℝ) (k' : Nat)
    (hs : (flatCCE u).sampleFl fl E ω 0 = .ok (mu, v, k')) : 0 ≤ v := by
  have two : IsDouble (2 : ℝ) := by simpa using isDouble_nat (n := 2) (by norm_num)
  have dE : ∀ e ∈ (flatCCE u).energy, IsDouble e := by
    intro e he
    simp only [flatCCE, List.mem_cons, List.not_mem_nil, or_false] at he
    rcases he with rfl | rfl
    exacts [isDouble_one, two]
  have ht : ∀ t ∈ (flatCCE u).tables, t = flatCEDC := by
    intro t ht
    simpa [flatCCE] using ht
  have dv : ∀ t ∈ (flatCCE u).tables, ∀ v ∈ t.energy, IsDouble v := by
    intro t h v hv
    rw [ht t h] at hv
    simp only [flatCEDC, List.mem_cons, List.not_mem_nil, or_false] at hv
    rcases hv with rfl | rfl
    exacts [isDouble_zero, isDouble_one]
  have dp : ∀ t ∈ (flatCCE u).tables, ∀ p ∈ t.pdf, p = 1 := by
    intro t h p hp
    rw [ht t h] at hp
    simpa [flatCEDC] using hp
  have small : (2 : ℝ) ^ (-500 : ℤ) ≤ 1 := zpow_le_one_of_nonpos₀ (by norm_num) (by norm_num)
  have hc : ∀ t ∈ (flatCCE u).tables, ∀ c, t.cdf[0]? = some c → c ≤ ω 0 := by
    intro t h c hc
    rw [ht t h] at hc
    cases hc
    exact (hω 0).1
  have hv : ∀ t ∈ (flatCCE u).tables, ValidCEDC (flatCCE u).nmu t := fun t h => ((flatCCE_valid u).tables t h).1
  cases u with
  | false =>
    refine C166_plain_nonneg_partial hfl _ (flatCCE_valid false).sorted ?_ rfl hv dE dv (fun t h p hp => by rw [dp t h p hp]; exact isDouble_one)
      (fun t h p hp => by rw [dp t h p hp]; exact Or.inr small) ω 0 k' hc E 1 hE rfl (by linarith) mu v hs
    intro e he
    simp only [flatCCE, List.mem_cons, List.not_mem_nil, or_false] at he
    rcases he with rfl | rfl <;> norm_num
  | true =>
    refine C166_unit_nonneg_partial hfl _ (flatCCE_valid true).sorted rfl hv dE dv (fun t h p hp => by rw [dp t h p hp]; exact isDouble_one)
      (fun t h p hp => by rw [dp t h p hp]; exact Or.inr small) ?_ ω 0 k' hc E hE mu v hs
    intro t h
    rw [ht t h]; rfl

end PNDL
