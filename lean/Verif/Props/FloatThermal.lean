import Verif.Model.FloatThermal
import Verif.Lemmas.FloatCosine
import Verif.Props.Coherent

/-! C162: the cosines of elastic thermal scattering in binary64 arithmetic. -/
namespace PNDL
open Spec

/-- Rounding does not look at the sign. -/
def Spec.SignSymmetric (fl : ℝ → ℝ) : Prop := ∀ r, fl (-r) = -fl r

/-- The default rounding of binary64 arithmetic: to nearest, ties to even, the same for both signs. -/
structure Spec.DefaultRounding (fl : ℝ → ℝ) : Prop where
  nearest : IsRoundToNearest fl
  even : TiesToEven fl
  symmetric : SignSymmetric fl

open Classical in
/-- There is such a rounding. -/
theorem exists_defaultRounding : ∃ fl, DefaultRounding fl := by
  obtain ⟨fl, hfl, hev⟩ := exists_ties_even
  have h0 : fl 0 = 0 := fl_self hfl isDouble_zero
  refine ⟨fun r => if 0 ≤ r then fl r else -fl (-r), ⟨fun r => ?_, fun m e h1 h2 => ?_, fun r => ?_⟩⟩
  · by_cases h : 0 ≤ r
    · simp only [if_pos h]
      exact hfl r
    · simp only [if_neg h]
      refine ⟨(hfl _).1.neg, fun d hd => ?_⟩
      have := (hfl (-r)).2 (-d) hd.neg
      rw [show -fl (-r) - r = -(fl (-r) - -r) by ring, abs_neg, show d - r = -(-d - -r) by ring, abs_neg (-d - -r)]
      exact this
  · have hm : (0 : ℝ) ≤ m := by exact_mod_cast (show (0 : ℤ) ≤ m by omega)
    have : (0 : ℝ) ≤ (m + 1 / 2) * 2 ^ e * (2 : ℝ) ^ (-1074 : ℤ) := by positivity
    simp only [if_pos this]
    exact hev m e h1 h2
  · rcases lt_trichotomy r 0 with h | h | h
    · simp only [if_neg (not_le.mpr h), if_pos (show 0 ≤ -r by linarith)]
      ring
    · subst h
      simp [h0]
    · simp only [if_pos h.le, if_neg (show ¬ 0 ≤ -r by linarith), neg_neg]

theorem Spec.DefaultRounding.tie {fl : ℝ → ℝ} (h : DefaultRounding fl) : fl (-1 - uround) = -1 := by
  have := h.even (2 ^ 52) 1022 le_rfl (by norm_num)
  have e : (((2 ^ 52 : ℤ) : ℝ) + 1 / 2) * 2 ^ 1022 * (2 : ℝ) ^ (-1074 : ℤ) = 1 + uround := by
    have : (2 : ℝ) ^ (1022 : ℕ) * (2 : ℝ) ^ (-1074 : ℤ) = 2 ^ (-52 : ℤ) := by
      rw [← zpow_natCast, ← zpow_add₀ (by norm_num)]
      norm_num
    rw [mul_assoc, this, uround_eq]
    norm_num
  have e2 : (((2 ^ 52 : ℤ)) : ℝ) * 2 ^ 1022 * (2 : ℝ) ^ (-1074 : ℤ) = 1 := by
    have : (2 : ℝ) ^ (1022 : ℕ) * (2 : ℝ) ^ (-1074 : ℤ) = 2 ^ (-52 : ℤ) := by
      rw [← zpow_natCast, ← zpow_add₀ (by norm_num)]
      norm_num
    rw [mul_assoc, this]
    norm_num
  rw [e, if_pos (by decide), e2] at this
  rw [show -1 - uround = -(1 + uround) by ring, h.symmetric, this]

theorem bracketInFl_double {fl : ℝ → ℝ} (hfl : IsRoundToNearest fl) {grid : List ℝ} {E f : ℝ} {l : Nat} (h : bracketInFl fl grid E = .ok (l, f)) :
    IsDouble f := by
  unfold bracketInFl at h
  simp only [] at h
  by_cases h0 : lowerBound grid E = 0
  · rw [if_pos h0] at h
    cases h
    exact isDouble_zero
  · rw [if_neg h0] at h
    by_cases h1 : lowerBound grid E = grid.length
    · rw [if_pos h1] at h
      obtain ⟨_, _, h⟩ := bind_ok h
      cases h
      exact isDouble_one
    · rw [if_neg h1] at h
      obtain ⟨l', _, h⟩ := bind_ok h
      obtain ⟨e0, _, h⟩ := bind_ok h
      obtain ⟨e1, _, h⟩ := bind_ok h
      obtain ⟨f', hf', h⟩ := bind_ok h
      simp only [pure, Except.pure, Except.ok.injEq, Prod.mk.injEq] at h
      rw [← h.2]
      obtain ⟨r, _, h⟩ := bind_ok hf'
      cases h
      exact (hfl r).1

section
variable {fl : ℝ → ℝ} (hfl : DefaultRounding fl)
include hfl

theorem endFl_neg (f a b : ℝ) : endFl fl f (-a) (-b) = -endFl fl f a b := by
  unfold endFl
  rw [show -b - -a = -(b - a) by ring, hfl.symmetric, mul_neg, hfl.symmetric, ← neg_add, hfl.symmetric]

/-- The interpolated cosine is a cosine. -/
theorem mix_range {a b f : ℝ} (a0 : -1 ≤ a) (a1 : a ≤ 1) (b0 : -1 ≤ b) (b1 : b ≤ 1) (f0 : 0 ≤ f) (f1 : f ≤ 1) :
    -1 ≤ endFl fl f a b ∧ endFl fl f a b ≤ 1 := by
  refine ⟨mix_low hfl.nearest hfl.tie a0 a1 b0 f0 f1, ?_⟩
  have := mix_low hfl.nearest hfl.tie (a := -a) (b := -b) (by linarith) (by linarith) (by linarith) f0 f1
  rw [endFl_neg hfl] at this
  linarith

/-- **C162** The smeared cosine: from sorted cosines in `[-1, 1]`, any weight in `[0, 1]` and any random number, the result of the unclamped
formula is in `[-1, 1]`. -/
theorem C162_smear (u v : List ℝ) (f xi : ℝ) (n j : Nat) (hu : Cosines n u) (hv : Cosines n v) (du : ∀ m ∈ u, IsDouble m)
    (dv : ∀ m ∈ v, IsDouble m) (df : IsDouble f) (f0 : 0 ≤ f) (f1 : f ≤ 1) (hj : j < n) (x0 : 0 ≤ xi) (x1 : xi ≤ 1) :
    ∃ mu, smearFl fl u v f n j xi = .ok mu ∧ -1 ≤ mu ∧ mu ≤ 1 := by
  have hn := hfl.nearest
  have get : ∀ i, i < n → ∃ a b, u[i]? = some a ∧ v[i]? = some b ∧ mixAtFl fl u v f i = .ok (endFl fl f a b) ∧ IsDouble a ∧ IsDouble b ∧
      -1 ≤ a ∧ a ≤ 1 ∧ -1 ≤ b ∧ b ≤ 1 := by
    intro i hi
    obtain ⟨a, ha⟩ := getElem?_of_lt (l := u) (i := i) (by rw [hu.len]; exact hi)
    obtain ⟨b, hb⟩ := getElem?_of_lt (l := v) (i := i) (by rw [hv.len]; exact hi)
    have m1 := List.mem_of_getElem? ha
    have m2 := List.mem_of_getElem? hb
    refine ⟨a, b, ha, hb, ?_, du a m1, dv b m2, (hu.range a m1).1, (hu.range a m1).2, (hv.range b m2).1, (hv.range b m2).2⟩
    rw [mixAtFl, getAt_eq_ok.mpr ha, getAt_eq_ok.mpr hb]
    rfl
  obtain ⟨a, b, ha, hb, hm, da, db, a0, a1, b0, b1⟩ := get j hj
  obtain ⟨r0, r1⟩ := mix_range hfl a0 a1 b0 b1 f0 f1
  have dend : ∀ a b, IsDouble (endFl fl f a b) := fun a b => (hn _).1
  obtain ⟨m, em⟩ : ∃ m, m = endFl fl f a b := ⟨_, rfl⟩
  have dm : IsDouble m := by rw [em]; exact dend a b
  have hx0 : -(1 / 2) ≤ fl (xi - 1 / 2) := by
    have := isDouble_zpow (m := -1) (by norm_num) (z := -1) (by norm_num)
    exact le_fl hn (by norm_num at this ⊢; exact this) (by linarith)
  have hx1 : fl (xi - 1 / 2) ≤ 1 / 2 := by
    have := isDouble_zpow (m := 1) (by norm_num) (z := -1) (by norm_num)
    exact fl_le hn (by norm_num at this ⊢; exact this) (by linarith)
  rw [← em] at hm r0 r1
  have lo : ∃ lo, (if j ≠ 0 then mixAtFl fl u v f (j - 1) else .ok (fl (-1 - fl (m + 1))) : Res ℝ) = .ok lo ∧
      ((IsDouble lo ∧ (-1 ≤ lo ∧ lo ≤ 1) ∧ lo - m ≤ 2 * (m + 1) + 2 * uround ∧ lo - m ≤ 6 * uround) ∨ lo = fl (-1 - fl (m + 1))) := by
    by_cases h : j = 0
    · rw [if_neg (by simpa using h)]
      exact ⟨_, rfl, Or.inr rfl⟩
    · rw [if_pos h]
      obtain ⟨a', b', ha', hb', hm', da', db', a0', a1', b0', b1'⟩ := get (j - 1) (by omega)
      have s1 := pairwise_le_getElem? hu.sorted (show j - 1 ≤ j by omega) ha' ha
      have s2 := pairwise_le_getElem? hv.sorted (show j - 1 ≤ j by omega) hb' hb
      have := mix_cross hn da db da' db' df a0' s1 a1 b0' s2 b1 f0 f1 (by rw [← em]; exact r0)
      rw [← em] at this
      exact ⟨_, hm', Or.inl ⟨dend a' b', mix_range hfl a0' a1' b0' b1' f0 f1, this⟩⟩
  have hi : ∃ hi, (if j ≠ n - 1 then mixAtFl fl u v f (j + 1) else .ok (fl (1 - fl (m - 1))) : Res ℝ) = .ok hi ∧
      ((IsDouble hi ∧ (-1 ≤ hi ∧ hi ≤ 1) ∧ m - hi ≤ 2 * (1 - m) + 2 * uround ∧ m - hi ≤ 6 * uround) ∨ hi = fl (1 - fl (m - 1))) := by
    by_cases h : j = n - 1
    · rw [if_neg (by simpa using h)]
      exact ⟨_, rfl, Or.inr rfl⟩
    · rw [if_pos h]
      obtain ⟨a', b', ha', hb', hm', da', db', a0', a1', b0', b1'⟩ := get (j + 1) (by omega)
      have s1 := pairwise_le_getElem? hu.sorted (show j ≤ j + 1 by omega) ha ha'
      have s2 := pairwise_le_getElem? hv.sorted (show j ≤ j + 1 by omega) hb hb'
      have := mix_cross hn da.neg db.neg da'.neg db'.neg df (show -1 ≤ -a' by linarith) (neg_le_neg s1) (by linarith)
        (show -1 ≤ -b' by linarith) (neg_le_neg s2) (by linarith) f0 f1 (by rw [endFl_neg hfl, ← em]; linarith)
      rw [endFl_neg hfl, endFl_neg hfl, ← em] at this
      exact ⟨_, hm', Or.inl ⟨dend a' b', mix_range hfl a0' a1' b0' b1' f0 f1, by linarith [this.1], by linarith [this.2]⟩⟩
  obtain ⟨lo, hlo, hlo'⟩ := lo
  obtain ⟨hi, hhi, hhi'⟩ := hi
  refine ⟨fl (m + fl (min (fl (m - lo)) (fl (hi - m)) * fl (xi - 1 / 2))), ?_, ?_, ?_⟩
  · unfold smearFl
    rw [hm]
    simp only [bind, Except.bind, hlo, hhi]
    rfl
  · exact smear_low hn hfl.tie dm r0 r1 hx0 hx1 (hlo'.imp (fun h => ⟨h.1, h.2.1.1, h.2.2.1, h.2.2.2⟩) id) (hhi'.imp (fun h => h.2.1) id)
  · have key := smear_low hn hfl.tie (m := -m) (lo := -hi) (hi := -lo) (x := -fl (xi - 1 / 2)) dm.neg (by linarith) (by linarith) (by linarith)
      (by linarith) (hhi'.imp (fun h => ⟨h.1.neg, by linarith [h.2.1.2], by linarith [h.2.2.1], by linarith [h.2.2.2]⟩) fun h => by
        rw [h, show -m + 1 = -(m - 1) by ring, hfl.symmetric, show -1 - -fl (m - 1) = -(1 - fl (m - 1)) by ring, hfl.symmetric])
      (hlo'.imp (fun h => ⟨by linarith [h.2.1.2], by linarith [h.2.1.1]⟩) fun h => by
        rw [h, show -m - 1 = -(m + 1) by ring, hfl.symmetric, show 1 - -fl (m + 1) = -(-1 - fl (m + 1)) by ring, hfl.symmetric])
    rw [show -m - -hi = hi - m by ring, show -lo - -m = m - lo by ring, min_comm, mul_neg, hfl.symmetric, ← neg_add, hfl.symmetric] at key
    linarith

/-- **C162** Incoherent elastic scattering, from any accepted file: whenever a sample is returned, the energy is unchanged and the cosine is in
`[-1, 1]`. -/
theorem C162_incoherent (d : IncElastic) (hv : ValidInc d) (dE : ∀ e ∈ d.energy, IsDouble e) (dc : ∀ u ∈ d.cosines, ∀ m ∈ u, IsDouble m)
    (E : ℝ) (hE : IsDouble E) (ω : Tape) (hω : UnitTape ω) (dω : ∀ i, IsDouble (ω i)) (k : Nat) (mu Eo : ℝ) (k' : Nat)
    (h : d.sampleFl fl E ω k = .ok (mu, Eo, k')) : -1 ≤ mu ∧ mu ≤ 1 ∧ Eo = E ∧ k' = k + 2 := by
  have hn := hfl.nearest
  unfold IncElastic.sampleFl at h
  by_cases he : d.energy.length = 0
  · rw [if_pos he] at h
    cases h
  · rw [if_neg he] at h
    obtain ⟨⟨i, f⟩, hb, h⟩ := bind_ok h
    obtain ⟨u, hu, h⟩ := bind_ok h
    obtain ⟨v, hv', h⟩ := bind_ok h
    obtain ⟨x, hx, h⟩ := bind_ok h
    rw [getAt_eq_ok] at hu hv'
    have m1 := List.mem_of_getElem? hu
    have m2 := List.mem_of_getElem? hv'
    have hpos := hv.pos (by intro h; rw [h] at he; exact he rfl)
    obtain ⟨f0, f1⟩ := bracketInFl_unit hn hv.sorted dE hE hb
    obtain ⟨mu', hs, q0, q1⟩ := C162_smear hfl u v f (ω (k + 1)) d.nmu (drawFl fl d.nmu (ω k)) (hv.cosines u m1) (hv.cosines v m2) (dc u m1)
      (dc v m2) (bracketInFl_double hn hb) f0 f1 (C129_index hn d.nmu hpos (ω k) (dω k) (hω k).1 (hω k).2) (hω (k + 1)).1 (hω (k + 1)).2.le
    rw [hs] at hx
    cases hx
    simp only [pure, Except.pure, Except.ok.injEq, Prod.mk.injEq] at h
    exact ⟨h.1 ▸ q0, h.1 ▸ q1, h.2.1.symm, h.2.2.symm⟩

/-- **C162** the same from the file: data read from doubles never gives a cosine outside `[-1, 1]`. -/
theorem C162_file (a : TslAce) (d : IncElastic) (h : IncElastic.makeAce a = .ok d) (da : ∀ x ∈ a.xss, IsDouble x)
    (E : ℝ) (hE : IsDouble E) (ω : Tape) (hω : UnitTape ω) (dω : ∀ i, IsDouble (ω i)) (k : Nat) (mu Eo : ℝ) (k' : Nat)
    (hs : d.sampleFl fl E ω k = .ok (mu, Eo, k')) : -1 ≤ mu ∧ mu ≤ 1 ∧ Eo = E := by
  obtain ⟨hv, hr⟩ := C66_read a d h
  by_cases hc : a.nxs 4 = 4 ∨ a.jxs 3 = 0
  · have he : d.energy = [] := by
      unfold IncElastic.makeAce at h
      rw [if_pos hc] at h
      obtain ⟨t, ht, h⟩ := bind_ok h
      cases h
      rfl
    unfold IncElastic.sampleFl at hs
    rw [he] at hs
    cases hs
  · obtain ⟨i, j, _, _, h1, h2⟩ := hr hc
    have hlen := hv.len
    have dE : ∀ e ∈ d.energy, IsDouble e := by
      intro e he
      obtain ⟨n, hn, rfl⟩ := List.mem_iff_getElem.mp he
      have := h1 n hn
      rw [List.getElem?_eq_getElem hn] at this
      exact da _ (List.mem_of_getElem? this.symm)
    have dc : ∀ u ∈ d.cosines, ∀ m ∈ u, IsDouble m := by
      intro u hu m hm
      obtain ⟨n, hn, rfl⟩ := List.mem_iff_getElem.mp hu
      obtain ⟨m, hm2, rfl⟩ := List.mem_iff_getElem.mp hm
      have hmn : m < d.nmu := by rw [← (hv.cosines _ hu).len]; exact hm2
      have := h2 n (by omega) m hmn
      simp only [List.getElem?_eq_getElem hn, Option.bind_some, List.getElem?_eq_getElem hm2] at this
      exact da _ (List.mem_of_getElem? this.symm)
    obtain ⟨q0, q1, q2, _⟩ := C162_incoherent hfl d hv dE dc E hE ω hω dω k mu Eo k' hs
    exact ⟨q0, q1, q2⟩

/-- **C162** With at least two energies a sample is always returned. -/
theorem C162_incoherent_total (d : IncElastic) (hv : ValidInc d) (h2 : 2 ≤ d.energy.length) (dE : ∀ e ∈ d.energy, IsDouble e)
    (dc : ∀ u ∈ d.cosines, ∀ m ∈ u, IsDouble m) (E : ℝ) (hE : IsDouble E) (ω : Tape) (hω : UnitTape ω) (dω : ∀ i, IsDouble (ω i)) (k : Nat) :
    ∃ mu, d.sampleFl fl E ω k = .ok (mu, E, k + 2) ∧ -1 ≤ mu ∧ mu ≤ 1 := by
  have hn := hfl.nearest
  have hlen := hv.len
  have hpos := hv.pos (by intro h; rw [h] at h2; simp at h2)
  have hle := lowerBound_le hv.sorted E
  obtain ⟨l, f, hb, hl⟩ : ∃ l f, bracketInFl fl d.energy E = .ok (l, f) ∧ l + 1 < d.energy.length := by
    unfold bracketInFl
    simp only []
    by_cases h0 : lowerBound d.energy E = 0
    · exact ⟨0, 0, by rw [if_pos h0], by omega⟩
    · rw [if_neg h0]
      by_cases h1 : lowerBound d.energy E = d.energy.length
      · rw [if_pos h1, subIdx_of_le h2]
        exact ⟨_, 1, rfl, by omega⟩
      · rw [if_neg h1, subIdx_of_le (by omega)]
        obtain ⟨e0, g0⟩ := getElem?_of_lt (l := d.energy) (i := lowerBound d.energy E - 1) (by omega)
        obtain ⟨e1, g1⟩ := getElem?_of_lt (l := d.energy) (i := lowerBound d.energy E - 1 + 1) (by omega)
        have q0 := (lowerBound_iff hv.sorted E g0).mpr (by omega)
        have q1 : ¬ e1 < E := fun hc => by
          have := (lowerBound_iff hv.sorted E g1).mp hc
          omega
        have hp := fl_sub_pos hn (dE _ (List.mem_of_getElem? g1)) (dE _ (List.mem_of_getElem? g0)) (show e0 < e1 by linarith)
        simp only [bind, Except.bind, getAt_eq_ok.mpr g0, getAt_eq_ok.mpr g1, rdivFl_ok hp.ne', pure, Except.pure]
        exact ⟨_, _, rfl, by omega⟩
  obtain ⟨u, hu⟩ := getElem?_of_lt (l := d.cosines) (i := l) (by omega)
  obtain ⟨v, hv'⟩ := getElem?_of_lt (l := d.cosines) (i := l + 1) (by omega)
  have m1 := List.mem_of_getElem? hu
  have m2 := List.mem_of_getElem? hv'
  obtain ⟨f0, f1⟩ := bracketInFl_unit hn hv.sorted dE hE hb
  obtain ⟨mu, hs, q0, q1⟩ := C162_smear hfl u v f (ω (k + 1)) d.nmu (drawFl fl d.nmu (ω k)) (hv.cosines u m1) (hv.cosines v m2) (dc u m1)
    (dc v m2) (bracketInFl_double hn hb) f0 f1 (C129_index hn d.nmu hpos (ω k) (dω k) (hω k).1 (hω k).2) (hω (k + 1)).1 (hω (k + 1)).2.le
  refine ⟨mu, ?_, q0, q1⟩
  unfold IncElastic.sampleFl
  rw [if_neg (by omega)]
  simp only [bind, Except.bind, hb, getAt_eq_ok.mpr hu, getAt_eq_ok.mpr hv', hs]
  rfl

end

/-- **C162** Coherent elastic scattering: whatever the structure factors and however ties are rounded, sampling returns the energy unchanged and
a cosine in `[-1, 1]`. -/
theorem C162_coherent {fl : ℝ → ℝ} (hfl : IsRoundToNearest fl) (c : CohElastic) (hv : ValidCoh c) (E : ℝ) (hE : IsDouble E) (ω : Tape) (k : Nat) :
    ∃ mu k', c.sampleFl fl E ω k = .ok (mu, E, k') ∧ -1 ≤ mu ∧ mu ≤ 1 := by
  obtain ⟨first, last, sl, h0, _, _⟩ := coh_ends hv
  have hpos : c.edges.length ≠ 0 := by have := List.length_pos_iff.mpr hv.ne; omega
  have hlen := hv.len
  unfold CohElastic.sampleFl
  rw [if_neg hpos]
  simp only [bind, Except.bind, front_eq_ok.mpr h0]
  by_cases hlt : first < E
  · have hEp : 0 < E := lt_of_le_of_lt (hv.nonneg first (List.mem_of_getElem? h0)) hlt
    have hl0 := (lowerBound_iff hv.sorted E h0).mp hlt
    have hlb := lowerBound_le hv.sorted E
    obtain ⟨l, hl⟩ : ∃ l, lowerBound c.edges E = l + 1 := ⟨lowerBound c.edges E - 1, by omega⟩
    obtain ⟨s, hs⟩ := getElem?_of_lt (l := c.sf) (i := l) (by omega)
    have hm : lowerBoundRange c.sf 0 l (fl (ω k * s)) ≤ l := by
      have := bisect_le (fun a => decide (a < fl (ω k * s))) c.sf (l - 0) 0 (l - 0)
      unfold lowerBoundRange; omega
    obtain ⟨e, he⟩ := getElem?_of_lt (l := c.edges) (i := lowerBoundRange c.sf 0 l (fl (ω k * s))) (by omega)
    have heE : e < E := (lowerBound_iff hv.sorted E he).mpr (by omega)
    have hen := hv.nonneg e (List.mem_of_getElem? he)
    rw [if_pos hlt, hl, subIdx_of_le (by omega)]
    simp only [Nat.add_sub_cancel, getAt_eq_ok.mpr hs, getAt_eq_ok.mpr he, rdivFl_ok hEp.ne', pure, Except.pure]
    have two : IsDouble (2 : ℝ) := by simpa using isDouble_nat (n := 2) (by norm_num)
    have a1 : fl (2 * e) ≤ 2 * E := fl_le hfl hE.two_mul (by linarith)
    have a0 : 0 ≤ fl (2 * e) := fl_nonneg hfl (by linarith)
    have b1 : fl (fl (2 * e) / E) ≤ 2 := fl_le hfl two (by rw [div_le_iff₀ hEp]; exact a1)
    have b0 : 0 ≤ fl (fl (2 * e) / E) := fl_nonneg hfl (by positivity)
    exact ⟨_, _, rfl, le_fl hfl isDouble_one.neg (by linarith), fl_le hfl isDouble_one (by linarith)⟩
  · rw [if_neg hlt]
    exact ⟨1, k, rfl, by norm_num, le_rfl⟩

/-- Exact arithmetic gives the model of `Model/Thermal`. -/
theorem C162_exact (d : IncElastic) (c : CohElastic) (E : ℝ) (ω : Tape) (k : Nat) :
    d.sampleFl (fun r => r) E ω k = d.sample E ω k ∧ c.sampleFl (fun r => r) E ω k = c.sample E ω k := by
  constructor
  · simp only [IncElastic.sampleFl, IncElastic.sample, bracketInFl_id, drawFl, smearFl, smear, mixAtFl, mixAt, endFl]
    rfl
  · simp only [CohElastic.sampleFl, CohElastic.sample, rdivFl_id]

/-- The example of `C66`, and that of `C65`, in floating point. -/
example (t : Tab1D) (ω : Tape) (hω : UnitTape ω) (dω : ∀ i, IsDouble (ω i)) : ∃ fl, DefaultRounding fl ∧
    (∃ mu, (incExample t).sampleFl fl 1 ω 0 = .ok (mu, 1, 2) ∧ -1 ≤ mu ∧ mu ≤ 1) ∧ ∃ mu k', bragg.sampleFl fl 2 ω 0 = .ok (mu, 2, k') ∧ -1 ≤ mu ∧ mu ≤ 1 := by
  obtain ⟨fl, hfl⟩ := exists_defaultRounding
  have two : IsDouble (2 : ℝ) := by simpa using isDouble_nat (n := 2) (by norm_num)
  have half : IsDouble (1 / 2 : ℝ) := by simpa using isDouble_zpow (m := 1) (by norm_num) (z := -1) (by norm_num)
  refine ⟨fl, hfl, C162_incoherent_total hfl _ ?_ (by simp [incExample]) ?_ ?_ 1 isDouble_one ω hω dω 0, C162_coherent hfl.nearest _ bragg_valid 2 two ω 0⟩
  · exact incExample_valid t
  · intro e he
    simp [incExample] at he
    rcases he with rfl | rfl
    exacts [isDouble_one, two]
  · intro u hu m hm
    simp [incExample] at hu
    rcases hu with rfl | rfl <;> simp at hm <;> rcases hm with rfl | rfl | rfl
    exacts [isDouble_one.neg, isDouble_zero, isDouble_one, by simpa [neg_div] using half.neg, isDouble_zero, by simpa using half]

end PNDL
