import Verif.Model.FloatMixture
import Verif.Lemmas.FloatRel
import Verif.Props.Mixture
import Verif.Props.FloatPacket
import Verif.Props.FloatExact

/-! C164: which component `MultipleDistribution` and `SummedFissionSpectrum` choose, in binary64 arithmetic. -/
namespace PNDL
open Spec MeasureTheory

/-- The weights that the probability functions return at an energy: doubles, not negative. -/
def Spec.DoubleWeights (ev : Tab1D → ℝ → Res ℝ) (m : Multi) (E : ℝ) (w : List ℝ) : Prop :=
  m.dists.length = w.length ∧ m.probs.length = w.length ∧ (∀ v ∈ w, IsDouble v ∧ 0 ≤ v) ∧
    ∀ (d : Nat) (p : Tab1D) (v : ℝ), m.probs[d]? = some p → w[d]? = some v → ev p E = .ok v

/-- The running sum. -/
private noncomputable def runSum (fl : ℝ → ℝ) (w : List ℝ) (s : ℝ) : ℝ := w.foldl (fun s v => fl (s + v)) s

private theorem runSum_mono {fl : ℝ → ℝ} (hfl : IsRoundToNearest fl) (w : List ℝ) : ∀ (s : ℝ), IsDouble s → (∀ v ∈ w, 0 ≤ v) → s ≤ runSum fl w s := by
  induction w with
  | nil => intro s _ _; exact le_rfl
  | cons v w ih =>
    intro s hs hn
    have h1 : s ≤ fl (s + v) := le_fl hfl hs (by linarith [hn v (by simp)])
    exact h1.trans (ih _ (hfl _).1 fun x hx => hn x (by simp [hx]))

private theorem runSum_double {fl : ℝ → ℝ} (hfl : IsRoundToNearest fl) (w : List ℝ) (s : ℝ) (hs : IsDouble s) : IsDouble (runSum fl w s) := by
  induction w generalizing s with
  | nil => exact hs
  | cons v w ih => exact ih _ (hfl _).1

private theorem runSum_near {fl : ℝ → ℝ} (hfl : IsRoundToNearest fl) (w : List ℝ) : ∀ (s c : ℝ) (k : ℕ), IsDouble s → Near k c s →
    (∀ v ∈ w, IsDouble v ∧ 0 ≤ v) → Near (k + w.length) (c + w.sum) (runSum fl w s) := by
  induction w with
  | nil => intro s c k _ h _; simpa [runSum] using h
  | cons v w ih =>
    intro s c k hs h hn
    obtain ⟨h1, h2⟩ := hn v (by simp)
    have a1 : Near k (c + v) (s + v) := h.add ((Near.refl h2).mono (Nat.zero_le k))
    have a2 := a1.trans (near_add hfl hs h1 a1.2.1)
    have := ih (fl (s + v)) (c + v) (k + 1) (hfl _).1 a2 fun x hx => hn x (by simp [hx])
    rw [List.sum_cons, List.length_cons, ← add_assoc c, show k + (w.length + 1) = k + 1 + w.length by omega]
    exact this

private theorem select_fl {fl : ℝ → ℝ} (hfl : IsRoundToNearest fl) (ev : Tab1D → ℝ → Res ℝ) (E xi : ℝ) : ∀ (ds : List AE) (ps : List Tab1D) (w : List ℝ) (s : ℝ),
    IsDouble s → DoubleWeights ev ⟨ds, ps⟩ E w →
    (∀ d a, ds[d]? = some a → runSum fl (w.take d) s ≤ xi → xi < runSum fl (w.take (d + 1)) s → s ≤ xi →
      Multi.selectFl fl ev E xi ds ps s = .ok (some a)) ∧
    (runSum fl w s ≤ xi → Multi.selectFl fl ev E xi ds ps s = .ok none) := by
  intro ds
  induction ds with
  | nil =>
    intro ps w s _ _
    refine ⟨fun d a h => by simp at h, fun _ => by simp [Multi.selectFl]⟩
  | cons d0 ds ih =>
    intro ps w s hs hw
    obtain ⟨h1, h2, h4, h3⟩ := hw
    simp only [] at h1 h2 h3
    cases w with
    | nil => simp at h1
    | cons w0 w =>
      cases ps with
      | nil => simp at h2
      | cons p0 ps =>
        have hp : ev p0 E = .ok w0 := h3 0 p0 w0 rfl rfl
        have hw' : DoubleWeights ev ⟨ds, ps⟩ E w := ⟨by simpa using h1, by simpa using h2, fun v hv => h4 v (by simp [hv]),
          fun d p v hd hv => h3 (d + 1) p v hd hv⟩
        have hs' : IsDouble (fl (s + w0)) := (hfl _).1
        obtain ⟨ihs, ihn⟩ := ih ps w (fl (s + w0)) hs' hw'
        simp only [Multi.selectFl, hp, bind, Except.bind]
        refine ⟨fun d a ha hlo hhi hsx => ?_, fun hlo => ?_⟩
        · cases d with
          | zero =>
            rw [if_pos (by simpa [runSum] using hhi)]
            simp at ha; rw [ha]; rfl
          | succ d =>
            have hge : fl (s + w0) ≤ xi := by
              refine le_trans (runSum_mono hfl (w.take d) _ hs' fun v hv => (h4 v ?_).2) (by simpa [runSum] using hlo)
              exact List.mem_cons_of_mem _ (List.mem_of_mem_take hv)
            rw [if_neg (not_lt.mpr hge)]
            exact ihs d a (by simpa using ha) (by simpa [runSum] using hlo) (by simpa [runSum] using hhi) hge
        · have hge : fl (s + w0) ≤ xi := by
            refine le_trans (runSum_mono hfl w _ hs' fun v hv => (h4 v ?_).2) (by simpa [runSum] using hlo)
            exact List.mem_cons_of_mem _ hv
          rw [if_neg (not_lt.mpr hge)]
          exact ihn (by simpa [runSum] using hlo)

private theorem runSum_succ {fl : ℝ → ℝ} (w : List ℝ) (s : ℝ) (d : Nat) (v : ℝ) (h : w[d]? = some v) :
    runSum fl (w.take (d + 1)) s = fl (runSum fl (w.take d) s + v) := by
  rw [List.take_add_one, h]
  simp [runSum, List.foldl_append]

/-- **C164** Sampling a mixture compares one random number with thresholds that increase from 0, that stand still across a component of weight zero,
and that are the cumulative weights up to one rounding of `2^-53` for each component added. -/
theorem C164_thresholds (fl : ℝ → ℝ) (hfl : IsRoundToNearest fl) (ev : Tab1D → ℝ → Res ℝ) (m : Multi) (E : ℝ) (w : List ℝ)
    (hw : DoubleWeights ev m E w) :
    ∃ S : Nat → ℝ, S 0 = 0 ∧
      (∀ (d : Nat) (v : ℝ), w[d]? = some v → S d ≤ S (d + 1) ∧ (v = 0 → S (d + 1) = S d)) ∧
      (∀ d ≤ w.length, (w.take d).sum * (1 - (2 : ℝ) ^ (-53 : ℤ)) ^ d ≤ S d ∧ S d * (1 - (2 : ℝ) ^ (-53 : ℤ)) ^ d ≤ (w.take d).sum) ∧
      (∀ (ω : Tape) (k d : Nat) (a : AE), m.dists[d]? = some a → S d ≤ ω k → ω k < S (d + 1) → m.sampleFl fl ev E ω k = a.sample E ω (k + 1)) ∧
      ∀ (ω : Tape) (k : Nat) (a : AE), m.dists.getLast? = some a → S w.length ≤ ω k → m.sampleFl fl ev E ω k = a.sample E ω (k + 1) := by
  have hd : ∀ d, IsDouble (runSum fl (w.take d) 0) := fun d => runSum_double hfl _ 0 isDouble_zero
  have hu : uround = (2 : ℝ) ^ (-53 : ℤ) := by rw [uround_eq]; norm_num
  refine ⟨fun d => runSum fl (w.take d) 0, by simp [runSum], fun d v hv => ?_, fun d hdl => ?_, fun ω k d a ha h1 h2 => ?_, fun ω k a ha h1 => ?_⟩
  · have hv0 := (hw.2.2.1 v (List.mem_of_getElem? hv)).2
    simp only [runSum_succ w 0 d v hv]
    refine ⟨le_fl hfl (hd d) (by linarith), fun h => ?_⟩
    rw [h, add_zero, fl_self hfl (hd d)]
  · have := runSum_near hfl (w.take d) 0 0 0 isDouble_zero (Near.refl le_rfl) fun v hv => hw.2.2.1 v (List.mem_of_mem_take hv)
    rw [List.length_take, min_eq_left hdl, zero_add, zero_add] at this
    rw [← hu]
    exact ⟨this.2.2.1, this.2.2.2⟩
  · have h0 : 0 ≤ runSum fl (w.take d) 0 := runSum_mono hfl _ 0 isDouble_zero fun v hv => (hw.2.2.1 v (List.mem_of_mem_take hv)).2
    unfold Multi.sampleFl
    rw [(select_fl hfl ev E (ω k) m.dists m.probs w 0 isDouble_zero hw).1 d a ha h1 h2 (h0.trans h1)]
    rfl
  · unfold Multi.sampleFl
    rw [(select_fl hfl ev E (ω k) m.dists m.probs w 0 isDouble_zero hw).2 (by simpa using h1)]
    simp only [bind, Except.bind, back_eq_ok.mpr ha]

private theorem find_step (S : Nat → ℝ) (xi : ℝ) : ∀ n : Nat, S 0 ≤ xi → xi < S n → ∃ d < n, S d ≤ xi ∧ xi < S (d + 1)
  | 0, h0, h => absurd h (not_lt.mpr h0)
  | n + 1, h0, h => by
    by_cases hn : xi < S n
    · obtain ⟨d, h1, h2⟩ := find_step S xi n h0 hn
      exact ⟨d, by omega, h2⟩
    · exact ⟨n, by omega, not_lt.mp hn, h⟩

/-- **C164** Unless the random number is within a few roundings of the total weight, the component sampled is one that can occur. -/
theorem C164_possible (fl : ℝ → ℝ) (hfl : IsRoundToNearest fl) (ev : Tab1D → ℝ → Res ℝ) (m : Multi) (E : ℝ) (w : List ℝ)
    (hw : DoubleWeights ev m E w) (ω : Tape) (k : Nat) (h0 : 0 ≤ ω k) (h1 : ω k < w.sum * (1 - w.length * (2 : ℝ) ^ (-53 : ℤ))) :
    ∃ (d : Nat) (a : AE) (v : ℝ), m.dists[d]? = some a ∧ w[d]? = some v ∧ 0 < v ∧ m.sampleFl fl ev E ω k = a.sample E ω (k + 1) := by
  obtain ⟨S, hS0, hS, hb, hsel, _⟩ := C164_thresholds fl hfl ev m E w hw
  have hsum : 0 ≤ w.sum := List.sum_nonneg fun v hv => (hw.2.2.1 v hv).2
  have hpow : 1 - w.length * (2 : ℝ) ^ (-53 : ℤ) ≤ (1 - (2 : ℝ) ^ (-53 : ℤ)) ^ w.length := by
    have := one_add_mul_le_pow (a := -(2 : ℝ) ^ (-53 : ℤ)) (by norm_num) w.length
    rw [sub_eq_add_neg (1 : ℝ), sub_eq_add_neg (1 : ℝ)]
    linarith
  have hlt : ω k < S w.length := by
    have := (hb w.length le_rfl).1
    rw [List.take_length] at this
    exact lt_of_lt_of_le h1 ((mul_le_mul_of_nonneg_left hpow hsum).trans this)
  obtain ⟨d, hdl, h2, h3⟩ := find_step S (ω k) w.length (by rw [hS0]; exact h0) hlt
  obtain ⟨v, hv⟩ := getElem?_of_lt hdl
  obtain ⟨a, ha⟩ := getElem?_of_lt (l := m.dists) (i := d) (by rw [hw.1]; exact hdl)
  refine ⟨d, a, v, ha, hv, ?_, hsel ω k d a ha h2 h3⟩
  rcases lt_or_eq_of_le (hw.2.2.1 v (List.mem_of_getElem? hv)).2 with h | h
  · exact h
  · have := (hS d v hv).2 h.symm
    linarith

/-- **C164** With weights that add up to 1, every component is used on a set of random numbers whose length is its weight, up to a rounding error
for each component. -/
theorem C164_share (fl : ℝ → ℝ) (hfl : IsRoundToNearest fl) (ev : Tab1D → ℝ → Res ℝ) (m : Multi) (E : ℝ) (w : List ℝ)
    (hw : DoubleWeights ev m E w) (hsum : w.sum = 1) (d : Nat) (a : AE) (v : ℝ) (ha : m.dists[d]? = some a) (hv : w[d]? = some v) :
    ENNReal.ofReal (v - w.length * (2 : ℝ) ^ (-51 : ℤ)) ≤
      volume {xi : ℝ | 0 ≤ xi ∧ xi < 1 ∧ ∀ (ω : Tape) (k : Nat), ω k = xi → m.sampleFl fl ev E ω k = a.sample E ω (k + 1)} := by
  obtain ⟨S, hS0, hS, hb, hsel, _⟩ := C164_thresholds fl hfl ev m E w hw
  by_cases hsmall : 1 / 2 < (w.length : ℝ) * (2 : ℝ) ^ (-53 : ℤ)
  · have hv1 : v ≤ 1 := by
      rw [← hsum]
      exact List.single_le_sum (fun x hx => (hw.2.2.1 x hx).2) v (List.mem_of_getElem? hv)
    have : v - w.length * (2 : ℝ) ^ (-51 : ℤ) ≤ 0 := by
      rw [show (2 : ℝ) ^ (-51 : ℤ) = 4 * (2 : ℝ) ^ (-53 : ℤ) by norm_num, mul_left_comm]
      generalize (w.length : ℝ) * (2 : ℝ) ^ (-53 : ℤ) = q at *
      linarith
    rw [ENNReal.ofReal_of_nonpos this]
    exact zero_le
  rw [not_lt] at hsmall
  have hdl : d < w.length := lt_length_of_some hv
  have hn : ∀ x ∈ w, 0 ≤ x := fun x hx => (hw.2.2.1 x hx).2
  have hSn : ∀ j ≤ w.length, 0 ≤ S j := by
    intro j
    induction j with
    | zero => intro _; rw [hS0]
    | succ j ih =>
      intro hj
      obtain ⟨x, hx⟩ := getElem?_of_lt (l := w) (i := j) (by omega)
      exact (ih (by omega)).trans (hS j x hx).1
  have hsub : Set.Ico (S d) (min (S (d + 1)) 1) ⊆
      {xi : ℝ | 0 ≤ xi ∧ xi < 1 ∧ ∀ (ω : Tape) (k : Nat), ω k = xi → m.sampleFl fl ev E ω k = a.sample E ω (k + 1)} := by
    intro xi hxi
    obtain ⟨h1, h2⟩ := Set.mem_Ico.mp hxi
    refine ⟨(hSn d hdl.le).trans h1, h2.trans_le (min_le_right _ _), fun ω k hk => ?_⟩
    exact hsel ω k d a ha (by rw [hk]; exact h1) (by rw [hk]; exact h2.trans_le (min_le_left _ _))
  refine le_trans ?_ (measure_mono hsub)
  rw [Real.volume_Ico]
  refine ENNReal.ofReal_le_ofReal ?_
  have hC : ∀ j, (w.take j).sum ≤ 1 := by
    intro j
    rw [← hsum, ← List.take_append_drop j w, List.sum_append]
    simp only [List.take_append_drop]
    have : 0 ≤ (w.drop j).sum := List.sum_nonneg fun x hx => hn x (List.mem_of_mem_drop hx)
    linarith
  have hC0 : ∀ j, 0 ≤ (w.take j).sum := fun j => List.sum_nonneg fun x hx => hn x (List.mem_of_mem_take hx)
  have hstep : (w.take (d + 1)).sum = (w.take d).sum + v := by
    rw [List.take_add_one, hv]; simp
  have hv0 := hn v (List.mem_of_getElem? hv)
  have h51 : (2 : ℝ) ^ (-51 : ℤ) = 4 * (2 : ℝ) ^ (-53 : ℤ) := by norm_num
  have hpow : ∀ j : ℕ, 1 - j * (2 : ℝ) ^ (-53 : ℤ) ≤ (1 - (2 : ℝ) ^ (-53 : ℤ)) ^ j := by
    intro j
    have := one_add_mul_le_pow (a := -(2 : ℝ) ^ (-53 : ℤ)) (by norm_num) j
    rw [sub_eq_add_neg (1 : ℝ), sub_eq_add_neg (1 : ℝ)]
    linarith
  have hdn : ((d : ℝ) + 1) ≤ w.length := by exact_mod_cast hdl
  have hd0 : (0 : ℝ) ≤ d := Nat.cast_nonneg d
  have q1 := (hb d hdl.le).2
  have q2 := (hb (d + 1) hdl).1
  have q3 := mul_le_mul_of_nonneg_left (hpow d) (hSn d hdl.le)
  have q4 := mul_le_mul_of_nonneg_left (hpow (d + 1)) (hC0 (d + 1))
  have hu : (0 : ℝ) < (2 : ℝ) ^ (-53 : ℤ) := by positivity
  rw [h51]
  push_cast at q4
  generalize (2 : ℝ) ^ (-53 : ℤ) = u at *
  have c1 := hC d
  have c2 := hC (d + 1)
  have c3 := hC0 (d + 1)
  have hS1 := hSn d hdl.le
  generalize (w.take (d + 1)).sum = C' at *
  generalize (w.take d).sum = C at *
  generalize (w.length : ℝ) = n at *
  have hdu : 0 ≤ (d : ℝ) * u := mul_nonneg hd0 hu.le
  have hnu : ((d : ℝ) + 1) * u ≤ n * u := mul_le_mul_of_nonneg_right hdn hu.le
  rw [add_mul, one_mul] at hnu
  have hbig : (d : ℝ) * u ≤ 1 / 2 := by linarith
  have e1 : S d * (1 - d * u) ≤ C := q3.trans q1
  have e2 : S d ≤ 2 := by
    have := mul_le_mul_of_nonneg_left (show (1 : ℝ) / 2 ≤ 1 - d * u by linarith) hS1
    linarith
  have e3 : S d ≤ C + 2 * (d * u) := by
    have := mul_le_mul_of_nonneg_right e2 hdu
    linarith [show S d * (1 - d * u) = S d - S d * (d * u) by ring]
  have e4 : C' - (d + 1) * u ≤ S (d + 1) := by
    have e5 : C' * ((d + 1) * u) ≤ 1 * ((d + 1) * u) := mul_le_mul_of_nonneg_right c2 (by positivity)
    linarith [show C' * (1 - ((d : ℝ) + 1) * u) = C' - C' * ((d + 1) * u) by ring]
  have e6 : C' - (d + 1) * u ≤ min (S (d + 1)) 1 := le_min e4 (by nlinarith)
  rw [hstep] at e6
  linarith

section
variable {fl : ℝ → ℝ} (hfl : IsRoundToNearest fl)
include hfl

/-- Rounding a number less than half a unit above a double. -/
private theorem fl_down {m : ℤ} (h1 : 2 ^ 52 ≤ m) (h2 : m ≤ 2 ^ 53) {z : ℤ} (hz : -1074 ≤ z) {r : ℝ} (h3 : (m : ℝ) * (2 : ℝ) ^ z ≤ r)
    (h4 : r < ((m : ℝ) + 1 / 2) * (2 : ℝ) ^ z) : fl r = m * (2 : ℝ) ^ z := by
  have hd : IsDouble ((m : ℝ) * (2 : ℝ) ^ z) := isDouble_zpow (by rw [abs_of_nonneg (by omega)]; exact h2) hz
  obtain ⟨e, he⟩ : ∃ e : ℕ, (e : ℤ) = z + 1074 := ⟨(z + 1074).toNat, by omega⟩
  have hg : (2 : ℝ) ^ e * eta = (2 : ℝ) ^ z := by
    unfold eta
    rw [← zpow_natCast, ← zpow_add₀ (by norm_num), he]
    congr 1
    omega
  have hpos : (0 : ℝ) < (2 : ℝ) ^ z := by positivity
  obtain ⟨k1, k2⟩ := hfl r
  have k3 := k2 _ hd
  have k4 := le_fl hfl hd h3
  have hno := no_double_between h1 e k1
  rw [mul_assoc, mul_assoc, hg] at hno
  generalize (2 : ℝ) ^ z = g at *
  generalize fl r = y at *
  rw [abs_of_nonpos (show (m : ℝ) * g - r ≤ 0 by linarith), abs_le] at k3
  by_contra hne
  exact hno ⟨lt_of_le_of_ne k4 (Ne.symm hne), by linarith [k3.2]⟩

end

/-- The full claim is false of the code: there are probabilities that add up to 1 exactly and of which the last is 0, such that the last distribution
is sampled all the same, for the largest random number below 1. -/
theorem C164_violation (fl : ℝ → ℝ) (hfl : IsRoundToNearest fl) (ev : Tab1D → ℝ → Res ℝ) (m : Multi) (E δ : ℝ) (hδ : δ = (2 : ℝ) ^ (-56 : ℤ))
    (hw : DoubleWeights ev m E [3 / 4, 1 / 16 + 3 * δ, 1 / 16 + 3 * δ, 1 / 8 - 6 * δ, 0]) (a : AE) (ha : m.dists.getLast? = some a) (ω : Tape) (k : Nat)
    (hω : ω k = 1 - (2 : ℝ) ^ (-53 : ℤ)) :
    ([3 / 4, 1 / 16 + 3 * δ, 1 / 16 + 3 * δ, 1 / 8 - 6 * δ, 0] : List ℝ).sum = 1 ∧ m.sampleFl fl ev E ω k = a.sample E ω (k + 1) := by
  refine ⟨by simp; ring, ?_⟩
  have h53 : (2 : ℝ) ^ (-53 : ℤ) = 8 * δ := by rw [hδ]; norm_num
  have h1 : (1 : ℝ) = 2 ^ 56 * δ := by rw [hδ]; norm_num
  have hpos : 0 < δ := by rw [hδ]; positivity
  have s1 : fl (0 + 3 / 4) = 3 / 4 := by
    rw [zero_add]
    refine fl_self hfl ?_
    have := isDouble_zpow (m := 3) (by norm_num) (z := -2) (by norm_num)
    convert this using 1
    norm_num
  have s2 : fl (3 / 4 + (1 / 16 + 3 * δ)) = 13 / 16 := by
    rw [fl_down hfl (m := 13 * 2 ^ 49) (by norm_num) (by norm_num) (z := -53) (by norm_num) (by rw [h53]; push_cast; linarith)
      (by rw [h53]; push_cast; linarith)]
    rw [h53]; push_cast; linarith
  have s3 : fl (13 / 16 + (1 / 16 + 3 * δ)) = 7 / 8 := by
    rw [fl_down hfl (m := 14 * 2 ^ 49) (by norm_num) (by norm_num) (z := -53) (by norm_num) (by rw [h53]; push_cast; linarith)
      (by rw [h53]; push_cast; linarith)]
    rw [h53]; push_cast; linarith
  have s4 : fl (7 / 8 + (1 / 8 - 6 * δ)) = 1 - 8 * δ := by
    rw [fl_down hfl (m := 2 ^ 53 - 1) (by norm_num) (by norm_num) (z := -53) (by norm_num) (by rw [h53]; push_cast; linarith)
      (by rw [h53]; push_cast; linarith)]
    rw [h53]; push_cast; linarith
  have s5 : fl (1 - 8 * δ + 0) = 1 - 8 * δ := by
    rw [add_zero, ← s4]; exact fl_self hfl (hfl _).1
  have := (select_fl hfl ev E (ω k) m.dists m.probs _ 0 isDouble_zero hw).2 (by
    rw [hω, h53]
    simp only [runSum, List.foldl_cons, List.foldl_nil, s1, s2, s3, s4, s5]
    exact le_rfl)
  unfold Multi.sampleFl
  rw [this]
  simp only [bind, Except.bind, back_eq_ok.mpr ha]

/-- Such a mixture. -/
example : ∃ (m : Multi) (a : AE), DoubleWeights Tab1D.eval m 0 [3 / 4, 1 / 16 + 3 * (2 : ℝ) ^ (-56 : ℤ), 1 / 16 + 3 * (2 : ℝ) ^ (-56 : ℤ),
    1 / 8 - 6 * (2 : ℝ) ^ (-56 : ℤ), 0] ∧ m.dists.getLast? = some a := by
  obtain ⟨δ, hδ⟩ : ∃ δ : ℝ, δ = (2 : ℝ) ^ (-56 : ℤ) := ⟨_, rfl⟩
  have hpos : 0 < δ := by rw [hδ]; positivity
  have h1 : (1 : ℝ) = 2 ^ 56 * δ := by rw [hδ]; norm_num
  have hd : ∀ z : ℤ, |z| ≤ 2 ^ 53 → IsDouble (z * δ) := fun z hz => by
    rw [hδ]; exact isDouble_zpow hz (by norm_num)
  rw [← hδ]
  refine ⟨⟨[flat 1, flat 2, flat 3, flat 4, flat 5], [constTab (3 / 4), constTab (1 / 16 + 3 * δ), constTab (1 / 16 + 3 * δ), constTab (1 / 8 - 6 * δ),
    constTab 0]⟩, flat 5, ⟨rfl, rfl, ?_, ?_⟩, rfl⟩
  · intro v hv
    simp only [List.mem_cons, List.not_mem_nil, or_false] at hv
    have e1 : IsDouble (3 / 4) := by
      have := isDouble_zpow (m := 3) (by norm_num) (z := -2) (by norm_num)
      convert this using 1
      norm_num
    have e2 : IsDouble (1 / 16 + 3 * δ) := by
      have := hd (2 ^ 52 + 3) (by norm_num)
      convert this using 1
      push_cast; linarith
    have e3 : IsDouble (1 / 8 - 6 * δ) := by
      have := hd (2 ^ 53 - 6) (by norm_num)
      convert this using 1
      push_cast; linarith
    rcases hv with rfl | rfl | rfl | rfl | rfl
    · exact ⟨e1, by norm_num⟩
    · exact ⟨e2, by positivity⟩
    · exact ⟨e2, by positivity⟩
    · exact ⟨e3, by linarith⟩
    · exact ⟨isDouble_zero, le_rfl⟩
  · intro d p v hp hv
    match d with
    | 0 => simp at hp hv; subst hp hv; exact constTab_eval _
    | 1 => simp at hp hv; subst hp hv; exact constTab_eval _
    | 2 => simp at hp hv; subst hp hv; exact constTab_eval _
    | 3 => simp at hp hv; subst hp hv; exact constTab_eval _
    | 4 => simp at hp hv; subst hp hv; exact constTab_eval _
    | d + 5 => simp at hp

/-! ### SummedFissionSpectrum -/

/-- The cross sections of the four partials at an energy, as the object computes them in floating point. -/
def Spec.PartialFl (fl flog : ℝ → ℝ) (s : SFS) (E : ℝ) (x : Fin 4 → ℝ) : Prop :=
  ∃ i, s.grid.lowerIndexFl fl flog E = .ok i ∧ s.r0.atFl fl E i = .ok (x 0) ∧ s.r1.atFl fl E i = .ok (x 1) ∧ s.r2.atFl fl E i = .ok (x 2) ∧
    s.r3.atFl fl E i = .ok (x 3)

private theorem share_fl {fl : ℝ → ℝ} (hfl : IsRoundToNearest fl) {x T t : ℝ} (hx : 0 ≤ x) (hxT : x ≤ T) (hT : 0 < T) (ht : Near 3 T t) :
    ∃ p, rdivFl fl x t = .ok p ∧ IsDouble p ∧ 0 ≤ p ∧ (x = 0 → p = 0) ∧
      |p - x / T| ≤ 9 / 2 * (2 : ℝ) ^ (-53 : ℤ) * (x / T) + (2 : ℝ) ^ (-1074 : ℤ) := by
  have ht0 : 0 < t := ht.pos hT
  refine ⟨fl (x / t), ?_, (hfl _).1, fl_nonneg hfl (div_nonneg hx ht0.le), ?_, ?_⟩
  · unfold rdivFl
    rw [rdiv_ok ht0.ne']; rfl
  · rintro rfl
    rw [zero_div, fl_self hfl isDouble_zero]
  · have hn : Near (0 + 3) (x / T) (x / t) := (Near.refl hx).div ht hT
    rw [zero_add] at hn
    obtain ⟨h1, h2, h3, h4⟩ := hn
    have he := (fl_error hfl (x / t)).1
    have heta : eta = (2 : ℝ) ^ (-1074 : ℤ) := rfl
    have hη := eta_pos
    rw [← heta]
    rw [abs_of_nonneg h2, uround_eq] at he
    rw [uround_eq] at h3 h4
    rw [show (2 : ℝ) ^ (-53 : ℤ) = 1 / 2 ^ 53 by norm_num]
    generalize x / T = r at *
    generalize x / t = q at *
    generalize eta = η at *
    norm_num at h3 h4 he ⊢
    rw [abs_le] at he ⊢
    constructor <;> linarith [he.1, he.2]

private theorem step_fl {fl : ℝ → ℝ} (hfl : IsRoundToNearest fl) {S p c r η A N : ℝ} (dS : IsDouble S) (dp : IsDouble p) (hS : 0 ≤ S) (hp : 0 ≤ p)
    (hc : 0 ≤ c) (hr : 0 ≤ r) (h0 : 0 ≤ η) (hN : 0 ≤ N) (hA : 9 / 2 * (2 : ℝ) ^ (-53 : ℤ) ≤ A) (hA' : A ≤ 7 * (2 : ℝ) ^ (-53 : ℤ))
    (h1 : |S - c| ≤ A * c + N) (h2 : |p - r| ≤ 9 / 2 * (2 : ℝ) ^ (-53 : ℤ) * r + η) :
    |fl (S + p) - (c + r)| ≤ (A + 11 / 10 * (2 : ℝ) ^ (-53 : ℤ)) * (c + r) + (2 * N + 2 * η) := by
  have h := fl_add_error hfl dS dp
  rw [abs_of_nonneg (show 0 ≤ S + p by linarith), uround_eq] at h
  rw [show (2 : ℝ) ^ (-53 : ℤ) = 1 / 2 ^ 53 by norm_num] at *
  have k1 := mul_le_mul_of_nonneg_right hA hr
  have k2 := mul_le_mul_of_nonneg_right hA' hc
  have e : (A + 11 / 10 * (1 / 2 ^ 53)) * (c + r) = A * c + A * r + 11 / 10 * (1 / 2 ^ 53) * (c + r) := by ring
  rw [e]
  generalize A * c = Ac at *
  generalize A * r = Ar at *
  generalize fl (S + p) = y at *
  norm_num at h h1 h2 k1 k2 ⊢
  rw [abs_le] at h h1 h2 ⊢
  constructor <;> linarith [h.1, h.2, h1.1, h1.2, h2.1, h2.2]

private theorem last_fl {y c A η : ℝ} (hc : c ≤ 1) (h : |y - c| ≤ A * c + 10 * η) (hc0 : 0 ≤ c) (hA : A ≤ 7 * (2 : ℝ) ^ (-53 : ℤ)) (hη : η = (2 : ℝ) ^ (-1074 : ℤ)) :
    |y - c| ≤ (2 : ℝ) ^ (-50 : ℤ) := by
  have h1 : η ≤ (2 : ℝ) ^ (-58 : ℤ) := by rw [hη]; exact zpow_le_zpow_right₀ (by norm_num) (by norm_num)
  have h2 := mul_le_mul_of_nonneg_right hA hc0
  refine h.trans ?_
  clear hη
  norm_num at *
  linarith

/-- **C164** Sampling a summed fission spectrum compares one random number with three thresholds, which stand still across a partial that is closed
and are the cumulative shares of the partials in the total up to eight roundings. -/
theorem C164_fission (fl flog : ℝ → ℝ) (hfl : IsRoundToNearest fl) (s : SFS) (E : ℝ) (x : Fin 4 → ℝ) (h : PartialFl fl flog s E x)
    (hd : ∀ j, IsDouble (x j) ∧ 0 ≤ x j) (ht : 0 < ∑ j, x j) :
    ∃ a b c : ℝ, 0 ≤ a ∧ a ≤ b ∧ b ≤ c ∧ (x 0 = 0 → a = 0) ∧ (x 1 = 0 → b = a) ∧ (x 2 = 0 → c = b) ∧
      |a - x 0 / ∑ j, x j| ≤ (2 : ℝ) ^ (-50 : ℤ) ∧ |b - (x 0 + x 1) / ∑ j, x j| ≤ (2 : ℝ) ^ (-50 : ℤ) ∧
      |c - (x 0 + x 1 + x 2) / ∑ j, x j| ≤ (2 : ℝ) ^ (-50 : ℤ) ∧
      ∀ (ω : Tape) (k : Nat), (ω k < a → s.sampleFl fl flog E ω k = s.r0.dist.sample E ω (k + 1)) ∧
        (a ≤ ω k → ω k < b → s.sampleFl fl flog E ω k = s.r1.dist.sample E ω (k + 1)) ∧
        (b ≤ ω k → ω k < c → s.sampleFl fl flog E ω k = s.r2.dist.sample E ω (k + 1)) ∧
        (c ≤ ω k → s.sampleFl fl flog E ω k = s.r3.dist.sample E ω (k + 1)) := by
  obtain ⟨i, hi, h0, h1, h2, h3⟩ := h
  rw [sum4] at ht ⊢
  obtain ⟨d0, n0⟩ := hd 0
  obtain ⟨d1, n1⟩ := hd 1
  obtain ⟨d2, n2⟩ := hd 2
  obtain ⟨d3, n3⟩ := hd 3
  generalize x 0 = x0 at *
  generalize x 1 = x1 at *
  generalize x 2 = x2 at *
  generalize x 3 = x3 at *
  have t1 : Near 1 (x0 + x1) (fl (x0 + x1)) := near_add hfl d0 d1 (by linarith)
  have t2 : Near 2 (x0 + x1 + x2) (fl (fl (x0 + x1) + x2)) := by
    have := t1.add ((Near.refl n2).mono (Nat.zero_le 1))
    exact this.trans (near_add hfl (hfl _).1 d2 this.2.1)
  have t3 : Near 3 (x0 + x1 + x2 + x3) (fl (fl (fl (x0 + x1) + x2) + x3)) := by
    have := t2.add ((Near.refl n3).mono (Nat.zero_le 2))
    exact this.trans (near_add hfl (hfl _).1 d3 this.2.1)
  obtain ⟨p0, e0, D0, N0, Z0, B0⟩ := share_fl hfl n0 (by linarith) ht t3
  obtain ⟨p1, e1, D1, N1, Z1, B1⟩ := share_fl hfl n1 (by linarith) ht t3
  obtain ⟨p2, e2, D2, N2, Z2, B2⟩ := share_fl hfl n2 (by linarith) ht t3
  obtain ⟨p3, e3, _⟩ := share_fl hfl n3 (by linarith) ht t3
  have hp : s.probsFl fl flog E = .ok (p0, p1, p2, p3) := by
    unfold SFS.probsFl
    simp only [hi, h0, h1, h2, h3, bind, Except.bind, e0, e1, e2, e3]
    rfl
  have m1 : p0 ≤ fl (p0 + p1) := le_fl hfl D0 (by linarith)
  have m2 : fl (p0 + p1) ≤ fl (fl (p0 + p1) + p2) := le_fl hfl (hfl _).1 (by linarith)
  obtain ⟨η, hη⟩ : ∃ η : ℝ, η = (2 : ℝ) ^ (-1074 : ℤ) := ⟨_, rfl⟩
  have hη0 : 0 ≤ η := by rw [hη]; positivity
  have q0 : 0 ≤ x0 / (x0 + x1 + x2 + x3) := div_nonneg n0 ht.le
  have q1 : 0 ≤ x1 / (x0 + x1 + x2 + x3) := div_nonneg n1 ht.le
  have q2 : 0 ≤ x2 / (x0 + x1 + x2 + x3) := div_nonneg n2 ht.le
  have q0' : x0 / (x0 + x1 + x2 + x3) ≤ 1 := (div_le_one ht).mpr (by linarith)
  have a1 : (x0 + x1) / (x0 + x1 + x2 + x3) = x0 / (x0 + x1 + x2 + x3) + x1 / (x0 + x1 + x2 + x3) := add_div _ _ _
  have a2 : (x0 + x1 + x2) / (x0 + x1 + x2 + x3) = x0 / (x0 + x1 + x2 + x3) + x1 / (x0 + x1 + x2 + x3) + x2 / (x0 + x1 + x2 + x3) := by
    rw [add_div, add_div]
  rw [← hη] at B0 B1 B2
  have hu : (0 : ℝ) < (2 : ℝ) ^ (-53 : ℤ) := by positivity
  have S1 := step_fl hfl D0 D1 N0 N1 q0 q1 hη0 hη0 le_rfl (by norm_num) B0 B1
  have S2 := step_fl hfl (hfl _).1 D2 (N0.trans m1) N2 (add_nonneg q0 q1) q2 hη0 (by linarith only [hη0]) (by norm_num) (by norm_num) S1 B2
  refine ⟨p0, fl (p0 + p1), fl (fl (p0 + p1) + p2), N0, m1, m2, Z0, fun h => ?_, fun h => ?_, ?_, ?_, ?_, fun ω k => ⟨fun h => ?_, fun h h' => ?_,
    fun h h' => ?_, fun h => ?_⟩⟩
  · rw [Z1 h, add_zero, fl_self hfl D0]
  · rw [Z2 h, add_zero, fl_self hfl (hfl _).1]
  · exact last_fl q0' (B0.trans (add_le_add le_rfl (by linarith only [hη0]))) q0 (by norm_num) hη
  · rw [a1]
    exact last_fl (by rw [← a1]; exact (div_le_one ht).mpr (by linarith)) (S1.trans (add_le_add le_rfl (by linarith only [hη0]))) (add_nonneg q0 q1) (by norm_num) hη
  · rw [a2]
    exact last_fl (by rw [← a2]; exact (div_le_one ht).mpr (by linarith)) (S2.trans (add_le_add le_rfl (by linarith only [hη0]))) (add_nonneg (add_nonneg q0 q1) q2) (by norm_num) hη
  all_goals
    unfold SFS.sampleFl
    rw [hp]
    simp only [bind, Except.bind]
  · rw [if_pos h]
  · rw [if_neg (not_lt.mpr h), if_pos h']
  · rw [if_neg (not_lt.mpr (m1.trans h)), if_neg (not_lt.mpr h), if_pos h']
  · rw [if_neg (not_lt.mpr (m1.trans (m2.trans h))), if_neg (not_lt.mpr (m2.trans h)), if_neg (not_lt.mpr h)]

/-- **C164** Unless the random number is within eight roundings of 1, the partial sampled is open. -/
theorem C164_fission_possible (fl flog : ℝ → ℝ) (hfl : IsRoundToNearest fl) (s : SFS) (E : ℝ) (x : Fin 4 → ℝ) (h : PartialFl fl flog s E x)
    (hd : ∀ j, IsDouble (x j) ∧ 0 ≤ x j) (ht : 0 < ∑ j, x j) (ω : Tape) (k : Nat) (h0 : 0 ≤ ω k) (h1 : ω k < 1 - (2 : ℝ) ^ (-50 : ℤ)) :
    ∃ j, 0 < x j ∧ s.sampleFl fl flog E ω k = (distOf s j).sample E ω (k + 1) := by
  obtain ⟨a, b, c, ha, hab, hbc, z0, z1, z2, _, _, hc, hsel⟩ := C164_fission fl flog hfl s E x h hd ht
  obtain ⟨s0, s1, s2, s3⟩ := hsel ω k
  have pos : ∀ j, x j ≠ 0 → 0 < x j := fun j hj => lt_of_le_of_ne (hd j).2 (Ne.symm hj)
  by_cases g0 : ω k < a
  · exact ⟨0, pos 0 fun h => by rw [z0 h] at g0; linarith, s0 g0⟩
  by_cases g1 : ω k < b
  · exact ⟨1, pos 1 fun h => by rw [z1 h] at g1; exact g0 g1, s1 (not_lt.mp g0) g1⟩
  by_cases g2 : ω k < c
  · exact ⟨2, pos 2 fun h => by rw [z2 h] at g2; exact g1 g2, s2 (not_lt.mp g1) g2⟩
  · refine ⟨3, pos 3 fun h => ?_, s3 (not_lt.mp g2)⟩
    rw [sum4] at hc ht
    rw [h, add_zero] at hc ht
    rw [div_self ht.ne', abs_le] at hc
    linarith [hc.1, not_lt.mp g2]

/-- **C164** For tables of doubles that are not negative, the partial cross sections the object computes are doubles that are not negative, and zero at
or below the threshold. -/
theorem C164_partials (fl flog : ℝ → ℝ) (hfl : IsRoundToNearest fl) (grid : List ℝ) (hs : grid.Pairwise (· < ·)) (hd : ∀ e ∈ grid, IsDouble e)
    (s : SFS) (h0 : DoubleTable grid s.r0.xs) (h1 : DoubleTable grid s.r1.xs) (h2 : DoubleTable grid s.r2.xs) (h3 : DoubleTable grid s.r3.xs)
    (E : ℝ) (hE : IsDouble E) (i : Nat) (hi : s.grid.lowerIndexFl fl flog E = .ok i) (hbr : Brackets grid E i) :
    ∃ x : Fin 4 → ℝ, PartialFl fl flog s E x ∧ (∀ j, IsDouble (x j) ∧ 0 ≤ x j) ∧ (E ≤ s.r0.threshold → x 0 = 0) ∧
      (E ≤ s.r1.threshold → x 1 = 0) ∧ (E ≤ s.r2.threshold → x 2 = 0) ∧ (E ≤ s.r3.threshold → x 3 = 0) := by
  have one : ∀ r : FisPart, DoubleTable grid r.xs → ∃ v, r.atFl fl E i = .ok v ∧ (IsDouble v ∧ 0 ≤ v) ∧ (E ≤ r.threshold → v = 0) := by
    intro r hr
    unfold FisPart.atFl
    by_cases hthr : E > r.threshold
    · obtain ⟨v, w, hv, _, k1, k2, _⟩ := evalIdxFl_good hfl hr hs hd hE hbr
      exact ⟨v, by rw [if_pos hthr]; exact hv, ⟨k1, k2⟩, fun h => absurd hthr (not_lt.mpr h)⟩
    · exact ⟨0, by rw [if_neg hthr], ⟨isDouble_zero, le_rfl⟩, fun _ => rfl⟩
  obtain ⟨x0, a0, b0, c0⟩ := one s.r0 h0
  obtain ⟨x1, a1, b1, c1⟩ := one s.r1 h1
  obtain ⟨x2, a2, b2, c2⟩ := one s.r2 h2
  obtain ⟨x3, a3, b3, c3⟩ := one s.r3 h3
  refine ⟨![x0, x1, x2, x3], ⟨i, hi, a0, a1, a2, a3⟩, ?_, c0, c1, c2, c3⟩
  intro j
  fin_cases j
  · exact b0
  · exact b1
  · exact b2
  · exact b3

/-- The full claim is false of the code: with partial cross sections 1, 4 and 1 for first, second and third-chance fission, and fourth-chance fission
closed, the largest random number below 1 samples fourth-chance fission. -/
theorem C164_violation_fission (fl flog : ℝ → ℝ) (hfl : IsRoundToNearest fl) (s : SFS) (E : ℝ) (h : PartialFl fl flog s E ![1, 4, 1, 0]) (ω : Tape)
    (k : Nat) (hω : ω k = 1 - (2 : ℝ) ^ (-53 : ℤ)) : s.sampleFl fl flog E ω k = s.r3.dist.sample E ω (k + 1) := by
  obtain ⟨i, hi, h0, h1, h2, h3⟩ := h
  have e0 : (![1, 4, 1, 0] : Fin 4 → ℝ) 0 = 1 := rfl
  have e1 : (![1, 4, 1, 0] : Fin 4 → ℝ) 1 = 4 := rfl
  have e2 : (![1, 4, 1, 0] : Fin 4 → ℝ) 2 = 1 := rfl
  have e3 : (![1, 4, 1, 0] : Fin 4 → ℝ) 3 = 0 := rfl
  rw [e0] at h0
  rw [e1] at h1
  rw [e2] at h2
  rw [e3] at h3
  have nat : ∀ n : ℤ, |n| ≤ 2 ^ 53 → fl n = n := fun n hn => fl_self hfl (isDouble_int hn)
  have t1 : fl (1 + 4) = 5 := by have := nat 5 (by norm_num); norm_num at this ⊢; exact this
  have t2 : fl (5 + 1) = 6 := by have := nat 6 (by norm_num); norm_num at this ⊢; exact this
  have t3 : fl (6 + 0) = 6 := by have := nat 6 (by norm_num); norm_num at this ⊢; exact this
  obtain ⟨δ, hδ⟩ : ∃ δ : ℝ, δ = (2 : ℝ) ^ (-55 : ℤ) := ⟨_, rfl⟩
  have hpos : 0 < δ := by rw [hδ]; positivity
  have hone : (1 : ℝ) = 2 ^ 55 * δ := by rw [hδ]; norm_num
  have h53 : (2 : ℝ) ^ (-53 : ℤ) = 4 * δ := by rw [hδ]; norm_num
  have s0 : fl (1 / 6) = 6004799503160661 * δ := by
    rw [fl_down hfl (m := 6004799503160661) (by norm_num) (by norm_num) (z := -55) (by norm_num) (by rw [← hδ]; push_cast; linarith)
      (by rw [← hδ]; push_cast; linarith), ← hδ]
    push_cast; rfl
  have s1 : fl (4 / 6) = 6004799503160661 * (4 * δ) := by
    rw [fl_down hfl (m := 6004799503160661) (by norm_num) (by norm_num) (z := -53) (by norm_num) (by rw [h53]; push_cast; linarith)
      (by rw [h53]; push_cast; linarith), h53]
    push_cast; rfl
  have s2 : fl (6004799503160661 * δ + 6004799503160661 * (4 * δ)) = 7505999378950826 * (4 * δ) := by
    rw [fl_down hfl (m := 7505999378950826) (by norm_num) (by norm_num) (z := -53) (by norm_num) (by rw [h53]; push_cast; linarith)
      (by rw [h53]; push_cast; linarith), h53]
    push_cast; rfl
  have s3 : fl (7505999378950826 * (4 * δ) + 6004799503160661 * δ) = 1 - 4 * δ := by
    rw [fl_down hfl (m := 2 ^ 53 - 1) (by norm_num) (by norm_num) (z := -53) (by norm_num) (by rw [h53]; push_cast; linarith)
      (by rw [h53]; push_cast; linarith), h53]
    push_cast; linarith
  have d6 : ∀ y, rdivFl fl y 6 = .ok (fl (y / 6)) := by
    intro y
    unfold rdivFl
    rw [rdiv_ok (by norm_num)]; rfl
  unfold SFS.sampleFl SFS.probsFl
  simp only [hi, h0, h1, h2, h3, bind, Except.bind, t1, t2, t3, d6, pure, Except.pure, s0, s1, s2, s3]
  rw [hω, h53, if_neg (not_lt.mpr (by linarith)), if_neg (not_lt.mpr (by linarith)), if_neg (not_lt.mpr le_rfl)]

/-- Such a fission spectrum: the fourth partial opens at 3. -/
noncomputable def Spec.sfsClosed : SFS :=
  let part (thr c d : ℝ) : FisPart := ⟨thr, ⟨[1, 2, 4], [c, c, c], 0, false⟩, flat d⟩
  ⟨⟨[1, 2, 4], [0, 0], 0, 1⟩, part 0 1 1, part 0 4 2, part 0 1 3, ⟨3, ⟨[1, 2, 4], [7], 2, false⟩, flat 4⟩⟩

example : ∀ (fl flog : ℝ → ℝ), IsRoundToNearest fl → PartialFl fl flog sfsClosed 1 ![1, 4, 1, 0] := by
  intro fl flog hfl
  have h0 : fl 0 = 0 := fl_self hfl isDouble_zero
  have hc : ∀ c : ℝ, IsDouble c → XS.evalIdxFl fl ⟨[1, 2, 4], [c, c, c], 0, false⟩ 1 0 = .ok c := by
    intro c hc
    have h1 : fl (2 - 1) = 1 := by rw [show (2 : ℝ) - 1 = 1 by norm_num]; exact fl_self hfl isDouble_one
    simp [XS.evalIdxFl, XS.evalIdxWith, XS.pastEnd, getAt, bind, Except.bind, linFl, h0, h1, cdiv, fl_self hfl hc, pure, Except.pure]
  refine ⟨0, ?_, ?_, ?_, ?_, ?_⟩
  · simp [sfsClosed, EGrid.lowerIndexFl, front, getAt, bind, Except.bind]
  · exact (if_pos (show (1 : ℝ) > 0 by norm_num)).trans (hc 1 isDouble_one)
  · exact (if_pos (show (1 : ℝ) > 0 by norm_num)).trans (hc 4 (isDouble_int (m := 4) (by norm_num)))
  · exact (if_pos (show (1 : ℝ) > 0 by norm_num)).trans (hc 1 isDouble_one)
  · exact if_neg (show ¬ (1 : ℝ) > 3 by norm_num)

/-- With exact arithmetic these are the models of C61 and C62. -/
theorem C164_exact : (∀ (m : Multi) E ω k, m.sampleFl id Tab1D.eval E ω k = m.sample E ω k) ∧
    ∀ (s : SFS) E ω k, 0 < E → s.sampleFl id Real.log E ω k = s.sample E ω k := by
  constructor
  · intro m E ω k
    have h : ∀ (ds : List AE) (ps : List Tab1D) (c : ℝ), Multi.selectFl id Tab1D.eval E (ω k) ds ps c = Multi.select E (ω k) ds ps c := by
      intro ds
      induction ds with
      | nil => intro ps c; rfl
      | cons d ds ih =>
        intro ps c
        cases ps with
        | nil => rfl
        | cons p ps => simp only [Multi.selectFl, Multi.select, id, ih]
    unfold Multi.sampleFl Multi.sample
    rw [h]
    rcases Multi.select E (ω k) m.dists m.probs 0 with _ | _ | _ <;> rfl
  · intro s E ω k hE
    have hlin : (fun E El Eh sl sh : ℝ => linFl id E El sl Eh sh) = xsLin := by
      funext E El Eh sl sh
      rfl
    have hx : ∀ (r : FisPart) i, r.atFl id E i = r.at E i := by
      intro r i
      unfold FisPart.atFl FisPart.at XS.evalIdxFl
      rw [hlin]; rfl
    have hd : ∀ x y, rdivFl id x y = rdiv x y := by
      intro x y
      unfold rdivFl
      cases rdiv x y <;> rfl
    have hp : s.probsFl id Real.log E = s.probs E := by
      unfold SFS.probsFl SFS.probs
      have := C130_exact_index s.grid E hE
      simp only [hx, hd, id]
      rw [← this]; rfl
    unfold SFS.sampleFl SFS.sample
    rw [hp]; rfl

end PNDL
