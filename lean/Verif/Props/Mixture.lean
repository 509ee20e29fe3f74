import Verif.Model.Mixture
import Verif.Lemmas.STNeutron
import Verif.Lemmas.Interp
import Mathlib.MeasureTheory.Measure.Lebesgue.Basic

/-! C61, C62: mixtures of distributions. -/
namespace PNDL
open Spec MeasureTheory

/-! ### MultipleDistribution -/

theorem Multi.check_ok : ∀ {ds : List (Option AE)} {ps : List (Option Tab1D)} {a : List AE} {b : List Tab1D},
    Multi.check ds ps = .ok (a, b) ↔ ds = a.map some ∧ ps = b.map some ∧ a.length = b.length := by
  intro ds
  induction ds with
  | nil =>
    intro ps a b
    cases ps with
    | nil =>
      simp only [Multi.check, Except.ok.injEq, Prod.mk.injEq]
      constructor
      · rintro ⟨rfl, rfl⟩; simp
      · rintro ⟨h1, h2, _⟩
        exact ⟨(List.map_eq_nil_iff.mp h1.symm).symm, (List.map_eq_nil_iff.mp h2.symm).symm⟩
    | cons p ps =>
      simp only [Multi.check]
      constructor
      · intro h; cases h
      · rintro ⟨h1, h2, h3⟩
        have := List.map_eq_nil_iff.mp h1.symm
        subst this
        cases b with
        | nil => cases h2
        | cons _ _ => simp at h3
  | cons d ds ih =>
    intro ps a b
    cases d with
    | none =>
      simp only [Multi.check]
      constructor
      · intro h; cases h
      · rintro ⟨h1, _, _⟩
        cases a <;> simp at h1
    | some d =>
      cases ps with
      | nil =>
        simp only [Multi.check]
        constructor
        · intro h; cases h
        · rintro ⟨h1, h2, h3⟩
          have := List.map_eq_nil_iff.mp h2.symm
          subst this
          cases a with
          | nil => cases h1
          | cons _ _ => simp at h3
      | cons p ps =>
        cases p with
        | none =>
          simp only [Multi.check]
          constructor
          · intro h; cases h
          · rintro ⟨_, h1, _⟩
            cases b <;> simp at h1
        | some p =>
          simp only [Multi.check]
          constructor
          · intro h
            obtain ⟨ab, hab, h⟩ := bind_ok h
            obtain ⟨a', b'⟩ := ab
            cases h
            obtain ⟨h1, h2, h3⟩ := ih.mp hab
            exact ⟨by simp [h1], by simp [h2], by simp [h3]⟩
          · rintro ⟨h1, h2, h3⟩
            cases a with
            | nil => cases h1
            | cons a0 a =>
              cases b with
              | nil => cases h2
              | cons b0 b =>
                simp only [List.map_cons, List.cons.injEq, Option.some.injEq] at h1 h2
                obtain ⟨rfl, h1⟩ := h1
                obtain ⟨rfl, h2⟩ := h2
                rw [ih.mpr ⟨h1, h2, by simpa using h3⟩]
                rfl

/-- **C62** Construction succeeds iff there are at least two distributions, as many probabilities, and no null pointer. -/
theorem C62_construction (ds : List (Option AE)) (ps : List (Option Tab1D)) (m : Multi) :
    Multi.make ds ps = .ok m ↔
      ds = m.dists.map some ∧ ps = m.probs.map some ∧ m.dists.length = m.probs.length ∧ 2 ≤ m.dists.length := by
  unfold Multi.make
  constructor
  · intro h
    split at h
    · cases h
    · split at h
      · cases h
      · rename_i h1 h2
        obtain ⟨ab, hab, h⟩ := bind_ok h
        obtain ⟨a, b⟩ := ab
        cases h
        obtain ⟨e1, e2, e3⟩ := Multi.check_ok.mp hab
        refine ⟨e1, e2, e3, ?_⟩
        rw [e1, List.length_map] at h2
        simp only []
        omega
  · rintro ⟨e1, e2, e3, e4⟩
    rw [if_neg (by rw [e1, e2]; simp [e3]), if_neg (by rw [e1]; simp; omega), Multi.check_ok.mpr ⟨e1, e2, e3⟩]
    rfl

/-- The weights of the components at an energy. -/
def Spec.Weights (m : Multi) (E : ℝ) (w : List ℝ) : Prop :=
  m.dists.length = w.length ∧ m.probs.length = w.length ∧
    ∀ (d : Nat) (p : Tab1D) (v : ℝ), m.probs[d]? = some p → w[d]? = some v → p.eval E = .ok v

/-- `xi` falls to component `d`: it is below the cumulative weight up to and including `d`, and not below an earlier one. -/
def Spec.FallsTo (w : List ℝ) (xi : ℝ) (d : Nat) : Prop :=
  d < w.length ∧ (∀ j < d, (w.take (j + 1)).sum ≤ xi) ∧ xi < (w.take (d + 1)).sum

theorem select_spec (E xi : ℝ) : ∀ (ds : List AE) (ps : List Tab1D) (w : List ℝ) (s : ℝ), Weights ⟨ds, ps⟩ E w →
    (∀ d a, ds[d]? = some a → (∀ j < d, s + (w.take (j + 1)).sum ≤ xi) → xi < s + (w.take (d + 1)).sum →
      Multi.select E xi ds ps s = .ok (some a)) ∧
    ((∀ j < w.length, s + (w.take (j + 1)).sum ≤ xi) → Multi.select E xi ds ps s = .ok none) := by
  intro ds
  induction ds with
  | nil =>
    intro ps w s _
    refine ⟨fun d a h => by simp at h, fun _ => by simp [Multi.select]⟩
  | cons d0 ds ih =>
    intro ps w s hw
    obtain ⟨h1, h2, h3⟩ := hw
    simp only [] at h1 h2 h3
    cases w with
    | nil => simp at h1
    | cons w0 w =>
      cases ps with
      | nil => simp at h2
      | cons p0 ps =>
        have hp : p0.eval E = .ok w0 := h3 0 p0 w0 rfl rfl
        have hw' : Weights ⟨ds, ps⟩ E w := ⟨by simpa using h1, by simpa using h2, fun d p v hd hv => h3 (d + 1) p v hd hv⟩
        obtain ⟨ihs, ihn⟩ := ih ps w (s + w0) hw'
        have hstep : Multi.select E xi (d0 :: ds) (p0 :: ps) s =
            if xi < s + w0 then .ok (some d0) else Multi.select E xi ds ps (s + w0) := by
          simp only [Multi.select, hp, bind, Except.bind]; rfl
        rw [hstep]
        constructor
        · intro d a hd hj hx
          cases d with
          | zero =>
            simp only [List.getElem?_cons_zero, Option.some.injEq] at hd
            simp only [Nat.zero_add, List.take_succ_cons, List.take_zero, List.sum_cons, List.sum_nil, add_zero] at hx
            rw [if_pos hx, hd]
          | succ d =>
            have h0 := hj 0 (Nat.succ_pos d)
            simp only [Nat.zero_add, List.take_succ_cons, List.take_zero, List.sum_cons, List.sum_nil, add_zero] at h0
            rw [if_neg (not_lt.mpr h0)]
            refine ihs d a (by simpa using hd) ?_ ?_
            · intro j hjd
              have := hj (j + 1) (by omega)
              rw [List.take_succ_cons, List.sum_cons] at this
              linarith
            · rw [List.take_succ_cons, List.sum_cons] at hx
              linarith
        · intro hj
          have h0 := hj 0 (by simp)
          simp only [Nat.zero_add, List.take_succ_cons, List.take_zero, List.sum_cons, List.sum_nil, add_zero] at h0
          rw [if_neg (not_lt.mpr h0)]
          refine ihn ?_
          intro j hjd
          have := hj (j + 1) (by simpa using hjd)
          rw [List.take_succ_cons, List.sum_cons] at this
          linarith

/-- **C62** Sampling uses the component the first random number falls to, and the remaining random numbers are its own. -/
theorem C62_select (m : Multi) (E : ℝ) (ω : Tape) (k : Nat) (w : List ℝ) (hw : Weights m E w) (d : Nat) (a : AE)
    (ha : m.dists[d]? = some a) (hd : FallsTo w (ω k) d) : m.sample E ω k = a.sample E ω (k + 1) := by
  unfold Multi.sample
  rw [(select_spec E (ω k) m.dists m.probs w 0 hw).1 d a ha (fun j hj => by rw [zero_add]; exact hd.2.1 j hj) (by rw [zero_add]; exact hd.2.2)]
  rfl

/-- **C62** A random number at or beyond every cumulative weight uses the last component. -/
theorem C62_last (m : Multi) (E : ℝ) (ω : Tape) (k : Nat) (w : List ℝ) (hw : Weights m E w) (a : AE) (ha : m.dists.getLast? = some a)
    (h : ∀ j < w.length, (w.take (j + 1)).sum ≤ ω k) : m.sample E ω k = a.sample E ω (k + 1) := by
  unfold Multi.sample
  rw [(select_spec E (ω k) m.dists m.probs w 0 hw).2 (fun j hj => by rw [zero_add]; exact h j hj)]
  simp only [bind, Except.bind]
  rw [back_eq_ok.mpr ha]

theorem take_succ_sum {w : List ℝ} {d : Nat} {v : ℝ} (hv : w[d]? = some v) : (w.take (d + 1)).sum = (w.take d).sum + v := by
  rw [List.take_add_one, hv]; simp

theorem take_sum_mono {w : List ℝ} (hn : ∀ v ∈ w, 0 ≤ v) {i j : Nat} (h : i ≤ j) : (w.take i).sum ≤ (w.take j).sum := by
  induction h with
  | refl => exact le_refl _
  | step _ ih =>
    rename_i m _
    refine ih.trans ?_
    cases hm : w[m]? with
    | none => rw [List.take_of_length_le (List.getElem?_eq_none_iff.mp hm), List.take_of_length_le (by have := List.getElem?_eq_none_iff.mp hm; omega)]
    | some v =>
      rw [take_succ_sum hm]
      have := hn v (List.mem_of_getElem? hm)
      linarith

/-- With nonnegative weights the numbers falling to `d` are an interval. -/
theorem fallsTo_iff {w : List ℝ} (hn : ∀ v ∈ w, 0 ≤ v) {d : Nat} (hd : d < w.length) (xi : ℝ) (h0 : 0 ≤ xi) :
    FallsTo w xi d ↔ (w.take d).sum ≤ xi ∧ xi < (w.take (d + 1)).sum := by
  unfold FallsTo
  constructor
  · rintro ⟨_, h1, h2⟩
    refine ⟨?_, h2⟩
    cases d with
    | zero => simpa using h0
    | succ d => exact h1 d (Nat.lt_succ_self d)
  · rintro ⟨h1, h2⟩
    exact ⟨hd, fun j hj => (take_sum_mono hn (by omega)).trans h1, h2⟩

/-- **C62** If the weights are nonnegative and do not exceed one in total, component `d` is used for a set of random numbers of `[0,1)` whose
length is exactly its weight. -/
theorem C62_probability (w : List ℝ) (hn : ∀ v ∈ w, 0 ≤ v) (hs : w.sum ≤ 1) (d : Nat) (v : ℝ) (hv : w[d]? = some v) :
    volume {xi : ℝ | 0 ≤ xi ∧ xi < 1 ∧ FallsTo w xi d} = ENNReal.ofReal v := by
  obtain ⟨hd, _⟩ := List.getElem?_eq_some_iff.mp hv
  have h0 : 0 ≤ (w.take d).sum := List.sum_nonneg (fun x hx => hn x (List.mem_of_mem_take hx))
  have h1 : (w.take (d + 1)).sum ≤ 1 := by
    refine (take_sum_mono hn (show d + 1 ≤ w.length by omega)).trans ?_
    rw [List.take_length]; exact hs
  have : {xi : ℝ | 0 ≤ xi ∧ xi < 1 ∧ FallsTo w xi d} = Set.Ico (w.take d).sum (w.take (d + 1)).sum := by
    ext xi
    simp only [Set.mem_setOf_eq, Set.mem_Ico]
    constructor
    · rintro ⟨a, _, c⟩; exact (fallsTo_iff hn hd xi a).mp c
    · rintro ⟨a, b⟩
      exact ⟨h0.trans a, b.trans_le h1, (fallsTo_iff hn hd xi (h0.trans a)).mpr ⟨a, b⟩⟩
  rw [this, Real.volume_Ico, take_succ_sum hv]
  congr 1; ring

theorem mix_spec (E : ℝ) (f : AE → Res (Option ℝ)) : ∀ (ds : List AE) (ps : List Tab1D) (w : List ℝ) (acc : ℝ),
    Weights ⟨ds, ps⟩ E w →
    (∀ v : List ℝ, v.length = ds.length → (∀ (d : Nat) a x, ds[d]? = some a → v[d]? = some x → f a = .ok (some x)) →
      Multi.mix E f ds ps acc = .ok (some (acc + (List.zipWith (· * ·) w v).sum))) ∧
    (∀ (d : Nat) a, ds[d]? = some a → f a = .ok none → (∀ j < d, ∀ b, ds[j]? = some b → ∃ o, f b = .ok o) →
      Multi.mix E f ds ps acc = .ok none) := by
  intro ds
  induction ds with
  | nil =>
    intro ps w acc hw
    refine ⟨fun v hv _ => ?_, fun d a h => by simp at h⟩
    have : v = [] := List.length_eq_zero_iff.mp (by simpa using hv)
    subst this
    simp [Multi.mix]
  | cons d0 ds ih =>
    intro ps w acc hw
    obtain ⟨h1, h2, h3⟩ := hw
    simp only [] at h1 h2 h3
    cases w with
    | nil => simp at h1
    | cons w0 w =>
      cases ps with
      | nil => simp at h2
      | cons p0 ps =>
        have hp : p0.eval E = .ok w0 := h3 0 p0 w0 rfl rfl
        have hw' : Weights ⟨ds, ps⟩ E w := ⟨by simpa using h1, by simpa using h2, fun d p v hd hv => h3 (d + 1) p v hd hv⟩
        constructor
        · intro v hv hf
          cases v with
          | nil => simp at hv
          | cons v0 v =>
            have hf0 := hf 0 d0 v0 rfl rfl
            simp only [Multi.mix, hf0, hp, bind, Except.bind]
            rw [(ih ps w (acc + w0 * v0) hw').1 v (by simpa using hv) (fun d a x ha hx => hf (d + 1) a x ha hx)]
            simp [add_assoc]
        · intro d a ha hfa hj
          cases d with
          | zero =>
            simp only [List.getElem?_cons_zero, Option.some.injEq] at ha
            subst ha
            simp [Multi.mix, hfa, bind, Except.bind, pure, Except.pure]
          | succ d =>
            obtain ⟨o, ho⟩ := hj 0 (Nat.succ_pos d) d0 rfl
            cases o with
            | none => simp [Multi.mix, ho, bind, Except.bind, pure, Except.pure]
            | some v0 =>
              simp only [Multi.mix, ho, hp, bind, Except.bind]
              exact (ih ps w _ hw').2 d a (by simpa using ha) hfa (fun j hjd b hb => hj (j + 1) (by omega) b (by simpa using hb))

/-- **C62** If every component has a density, the densities of the mixture are the weighted sums. -/
theorem C62_pdf (m : Multi) (E mu Eout : ℝ) (w v u : List ℝ) (hw : Weights m E w) (hv : v.length = m.dists.length)
    (hu : u.length = m.dists.length) (hf : ∀ (d : Nat) a x, m.dists[d]? = some a → v[d]? = some x → a.pdf E mu Eout = .ok (some x))
    (hg : ∀ (d : Nat) a x, m.dists[d]? = some a → u[d]? = some x → a.anglePdf E mu = .ok (some x)) :
    m.pdf E mu Eout = .ok (some (List.zipWith (· * ·) w v).sum) ∧ m.anglePdf E mu = .ok (some (List.zipWith (· * ·) w u).sum) := by
  constructor
  · unfold Multi.pdf
    rw [(mix_spec E _ m.dists m.probs w 0 hw).1 v hv hf, zero_add]
  · unfold Multi.anglePdf
    rw [(mix_spec E _ m.dists m.probs w 0 hw).1 u hu hg, zero_add]

/-- **C62** The density of the mixture is absent exactly when some component's is. -/
theorem C62_pdf_absent (m : Multi) (E mu Eout : ℝ) (w : List ℝ) (hw : Weights m E w)
    (hok : ∀ a ∈ m.dists, ∃ o, a.pdf E mu Eout = .ok o) :
    m.pdf E mu Eout = .ok none ↔ ∃ a ∈ m.dists, a.pdf E mu Eout = .ok none := by
  constructor
  · intro h
    by_contra hne
    have hall : ∀ a ∈ m.dists, ∃ x, a.pdf E mu Eout = .ok (some x) := by
      intro a ha
      obtain ⟨o, ho⟩ := hok a ha
      cases o with
      | none => exact absurd ⟨a, ha, ho⟩ hne
      | some x => exact ⟨x, ho⟩
    choose! g hg using hall
    have := (mix_spec E (fun d => d.pdf E mu Eout) m.dists m.probs w 0 hw).1 (m.dists.map g) (by simp) (by
      intro d a x ha hx
      rw [List.getElem?_map, ha] at hx
      simp only [Option.map_some, Option.some.injEq] at hx
      subst hx
      exact hg a (List.mem_of_getElem? ha))
    unfold Multi.pdf at h
    rw [h] at this
    cases this
  · rintro ⟨a, ha, hn⟩
    obtain ⟨d, hd, rfl⟩ := List.getElem_of_mem ha
    exact (mix_spec E _ m.dists m.probs w 0 hw).2 d _ (List.getElem?_eq_getElem hd) hn
      (fun j hj b hb => hok b (List.mem_of_getElem? hb))

/-- A distribution with constant densities. -/
noncomputable def Spec.flat (c : ℝ) : AE := ⟨fun _ _ k => .ok (0, c, k), fun _ _ => .ok (some c), fun _ _ _ => .ok (some c)⟩

/-- A one-region table that is constant. -/
def Spec.constTab (c : ℝ) : Tab1D := ⟨[2], [.linLin], [0, 1], [c, c], [⟨.linLin, [0, 1], [c, c]⟩]⟩

theorem constTab_eval (c : ℝ) : (constTab c).eval 0 = .ok c := by
  simp [constTab, Tab1D.eval, Region.eval, front, getAt, bind, Except.bind]

/-- Non-vacuity: two components with weights 1/4 and 3/4. -/
example : ∃ m, Multi.make [some (flat 1), some (flat 2)] [some (constTab (1 / 4)), some (constTab (3 / 4))] = .ok m ∧
    Weights m 0 [1 / 4, 3 / 4] ∧ FallsTo [1 / 4, 3 / 4] (1 / 2) 1 := by
  refine ⟨⟨[flat 1, flat 2], [constTab (1 / 4), constTab (3 / 4)]⟩, rfl, ⟨rfl, rfl, ?_⟩, ?_⟩
  · intro d p v hp hv
    match d with
    | 0 => simp at hp hv; subst hp hv; exact constTab_eval _
    | 1 => simp at hp hv; subst hp hv; exact constTab_eval _
    | d + 2 => simp at hp
  · refine ⟨by simp, ?_, by norm_num⟩
    intro j hj
    have : j = 0 := by omega
    subst this
    norm_num

/-! ### SummedFissionSpectrum -/

/-- The cross sections of the four partials at an energy, as the object sees them: zero at or below the threshold. -/
def Spec.PartialXS (s : SFS) (E : ℝ) (x : Fin 4 → ℝ) : Prop :=
  ∃ i, s.grid.lowerIndex E = .ok i ∧ s.r0.at E i = .ok (x 0) ∧ s.r1.at E i = .ok (x 1) ∧ s.r2.at E i = .ok (x 2) ∧ s.r3.at E i = .ok (x 3)

/-- The four distributions. -/
def Spec.distOf (s : SFS) : Fin 4 → AE
  | 0 => s.r0.dist
  | 1 => s.r1.dist
  | 2 => s.r2.dist
  | 3 => s.r3.dist

theorem SFS.probs_eq {s : SFS} {E : ℝ} {x : Fin 4 → ℝ} (h : PartialXS s E x) (ht : x 0 + x 1 + x 2 + x 3 ≠ 0) :
    s.probs E = .ok (x 0 / (x 0 + x 1 + x 2 + x 3), x 1 / (x 0 + x 1 + x 2 + x 3), x 2 / (x 0 + x 1 + x 2 + x 3),
      x 3 / (x 0 + x 1 + x 2 + x 3)) := by
  obtain ⟨i, h0, h1, h2, h3, h4⟩ := h
  unfold SFS.probs
  simp only [h0, h1, h2, h3, h4, bind, Except.bind, pure, Except.pure, rdiv_ok ht]

/-- **C61** At or below all thresholds (or where all the partial cross sections vanish) the object divides zero by zero. -/
theorem C61_closed (s : SFS) (E : ℝ) (ω : Tape) (k : Nat) (h : PartialXS s E (fun _ => 0)) :
    s.probs E = .error .nonfinite ∧ s.sample E ω k = .error .nonfinite := by
  have hp : s.probs E = .error .nonfinite := by
    obtain ⟨i, h0, h1, h2, h3, h4⟩ := h
    unfold SFS.probs
    simp only [h0, h1, h2, h3, h4, bind, Except.bind, pure, Except.pure, add_zero, rdiv_zero]
  refine ⟨hp, ?_⟩
  unfold SFS.sample
  rw [hp]; rfl

/-- The partial `k` a random number falls to. -/
def Spec.FallsToPartial (x : Fin 4 → ℝ) (xi : ℝ) (k : Fin 4) : Prop :=
  (∑ j ∈ Finset.univ.filter (· < k), x j) / (∑ j, x j) ≤ xi ∧ xi < (∑ j ∈ Finset.univ.filter (· ≤ k), x j) / (∑ j, x j)

theorem sum4 (x : Fin 4 → ℝ) : ∑ j, x j = x 0 + x 1 + x 2 + x 3 := by simp [Fin.sum_univ_four]

theorem below4 (x : Fin 4 → ℝ) : (∑ j ∈ Finset.univ.filter (· < (0 : Fin 4)), x j) = 0 ∧
    (∑ j ∈ Finset.univ.filter (· < (1 : Fin 4)), x j) = x 0 ∧
    (∑ j ∈ Finset.univ.filter (· < (2 : Fin 4)), x j) = x 0 + x 1 ∧
    (∑ j ∈ Finset.univ.filter (· < (3 : Fin 4)), x j) = x 0 + x 1 + x 2 := by
  refine ⟨?_, ?_, ?_, ?_⟩ <;> simp [Finset.sum_filter, Fin.sum_univ_four]
  all_goals first | rfl | (repeat rw [if_pos (by decide)]) | skip

theorem upto4 (x : Fin 4 → ℝ) : (∑ j ∈ Finset.univ.filter (· ≤ (0 : Fin 4)), x j) = x 0 ∧
    (∑ j ∈ Finset.univ.filter (· ≤ (1 : Fin 4)), x j) = x 0 + x 1 ∧
    (∑ j ∈ Finset.univ.filter (· ≤ (2 : Fin 4)), x j) = x 0 + x 1 + x 2 ∧
    (∑ j ∈ Finset.univ.filter (· ≤ (3 : Fin 4)), x j) = x 0 + x 1 + x 2 + x 3 := by
  refine ⟨?_, ?_, ?_, ?_⟩ <;> simp [Finset.sum_filter, Fin.sum_univ_four]
  all_goals first | rfl | (repeat rw [if_pos (by decide)]) | skip

/-- **C61** Sampling uses the partial the first random number falls to; the rest of the stream is that partial's. -/
theorem C61_sample (s : SFS) (E : ℝ) (ω : Tape) (k : Nat) (x : Fin 4 → ℝ) (h : PartialXS s E x) (hn : ∀ j, 0 ≤ x j) (ht : 0 < ∑ j, x j)
    (j : Fin 4) (hj : FallsToPartial x (ω k) j) : s.sample E ω k = (distOf s j).sample E ω (k + 1) := by
  rw [sum4] at ht
  unfold FallsToPartial at hj
  rw [sum4] at hj
  have hp := SFS.probs_eq h ht.ne'
  obtain ⟨b0, b1, b2, b3⟩ := below4 x
  obtain ⟨u0, u1, u2, u3⟩ := upto4 x
  obtain ⟨T, hT⟩ : ∃ T, T = x 0 + x 1 + x 2 + x 3 := ⟨_, rfl⟩
  rw [← hT] at hp hj ht
  have q0 : 0 ≤ x 0 / T := div_nonneg (hn 0) ht.le
  have q1 : 0 ≤ x 1 / T := div_nonneg (hn 1) ht.le
  have q2 : 0 ≤ x 2 / T := div_nonneg (hn 2) ht.le
  have a1 : (x 0 + x 1) / T = x 0 / T + x 1 / T := add_div _ _ _
  have a2 : (x 0 + x 1 + x 2) / T = x 0 / T + x 1 / T + x 2 / T := by rw [add_div, add_div]
  unfold SFS.sample
  rw [hp]
  simp only [bind, Except.bind]
  fin_cases j
  · simp only [Fin.zero_eta, Fin.isValue, u0] at hj
    rw [if_pos hj.2]; rfl
  · simp only [Fin.mk_one, Fin.isValue, b1, u1, a1] at hj
    rw [if_neg (not_lt.mpr hj.1), if_pos hj.2]; rfl
  · simp only [Fin.reduceFinMk, Fin.isValue, b2, u2, a1, a2] at hj
    rw [if_neg (not_lt.mpr (by linarith [hj.1])), if_neg (not_lt.mpr hj.1), if_pos hj.2]; rfl
  · simp only [Fin.reduceFinMk, Fin.isValue, b3, a2] at hj
    rw [if_neg (not_lt.mpr (by linarith [hj.1])), if_neg (not_lt.mpr (by linarith [hj.1])), if_neg (not_lt.mpr hj.1)]; rfl

/-- **C61** The random numbers of `[0,1)` that fall to a partial have length its share of the total cross section. -/
theorem C61_probability (x : Fin 4 → ℝ) (hn : ∀ j, 0 ≤ x j) (ht : 0 < ∑ j, x j) (k : Fin 4) :
    volume {xi : ℝ | 0 ≤ xi ∧ xi < 1 ∧ FallsToPartial x xi k} = ENNReal.ofReal (x k / ∑ j, x j) := by
  have hlt : 0 ≤ (∑ j ∈ Finset.univ.filter (· < k), x j) / (∑ j, x j) := div_nonneg (Finset.sum_nonneg (fun j _ => hn j)) ht.le
  have hle : (∑ j ∈ Finset.univ.filter (· ≤ k), x j) / (∑ j, x j) ≤ 1 := by
    rw [div_le_one ht]
    exact Finset.sum_le_sum_of_subset_of_nonneg (Finset.filter_subset _ _) (fun j _ _ => hn j)
  have hset : {xi : ℝ | 0 ≤ xi ∧ xi < 1 ∧ FallsToPartial x xi k} =
      Set.Ico ((∑ j ∈ Finset.univ.filter (· < k), x j) / (∑ j, x j)) ((∑ j ∈ Finset.univ.filter (· ≤ k), x j) / (∑ j, x j)) := by
    ext xi
    simp only [Set.mem_setOf_eq, Set.mem_Ico, FallsToPartial]
    constructor
    · rintro ⟨_, _, h⟩; exact h
    · intro h; exact ⟨hlt.trans h.1, h.2.trans_le hle, h⟩
  rw [hset, Real.volume_Ico]
  congr 1
  rw [← sub_div]
  congr 1
  have : Finset.univ.filter (· ≤ k) = insert k (Finset.univ.filter (· < k)) := by
    ext j; simp [le_iff_eq_or_lt]
  rw [this, Finset.sum_insert (by simp)]
  ring

/-- **C61** (partial) If a single partial is open, the density is the mixture's (which then is that partial's).  Missing: several partials
open, where it is not the mixture's, see `C61_violation`. -/
theorem C61_density_partial (s : SFS) (E : ℝ) (x : Fin 4 → ℝ) (h : PartialXS s E x) (k : Fin 4) (hk : 0 < x k) (ho : ∀ j, j ≠ k → x j = 0)
    (f : AE → Res (Option ℝ)) (v : Fin 4 → ℝ) (hf : ∀ j, f (distOf s j) = .ok (some (v j))) :
    s.density E f = .ok (some (∑ j, x j / (∑ i, x i) * v j)) := by
  have hT : x 0 + x 1 + x 2 + x 3 = x k := by
    fin_cases k
    · simp [ho 1 (by decide), ho 2 (by decide), ho 3 (by decide)]
    · simp [ho 0 (by decide), ho 2 (by decide), ho 3 (by decide)]
    · simp [ho 0 (by decide), ho 1 (by decide), ho 3 (by decide)]
    · simp [ho 0 (by decide), ho 1 (by decide), ho 2 (by decide)]
  have hp := SFS.probs_eq h (by rw [hT]; exact hk.ne')
  rw [hT] at hp
  unfold SFS.density
  rw [hp, sum4, Fin.sum_univ_four, hT]
  simp only [bind, Except.bind]
  have h1 : x k / x k = 1 := div_self hk.ne'
  have f0 := hf 0
  have f1 := hf 1
  have f2 := hf 2
  have f3 := hf 3
  simp only [distOf] at f0 f1 f2 f3
  fin_cases k
  · simp only [Fin.zero_eta, Fin.isValue] at h1 ⊢
    simp [ho 1 (by decide), ho 2 (by decide), ho 3 (by decide), h1, SFS.branch, f0, bind, Except.bind, pure, Except.pure]
  · simp only [Fin.mk_one, Fin.isValue] at h1 ⊢
    simp [ho 0 (by decide), ho 2 (by decide), ho 3 (by decide), h1, SFS.branch, f1, bind, Except.bind, pure, Except.pure]
  · simp only [Fin.reduceFinMk, Fin.isValue] at h1 ⊢
    simp [ho 0 (by decide), ho 1 (by decide), ho 3 (by decide), h1, SFS.branch, f2, bind, Except.bind, pure, Except.pure]
  · simp only [Fin.reduceFinMk, Fin.isValue] at h1 ⊢
    simp [ho 0 (by decide), ho 1 (by decide), ho 2 (by decide), h1, SFS.branch, f3, bind, Except.bind, pure, Except.pure]

/-- **C61** violation: once the first partial is open, the densities take only its share; the other open partials are left out. -/
theorem C61_violation (s : SFS) (E : ℝ) (x : Fin 4 → ℝ) (h : PartialXS s E x) (hn : ∀ j, 0 ≤ x j) (h0 : 0 < x 0)
    (f : AE → Res (Option ℝ)) (v : Fin 4 → ℝ) (hf : ∀ j, f (distOf s j) = .ok (some (v j))) :
    s.density E f = .ok (some (x 0 / (∑ i, x i) * v 0)) ∧
    (0 < x 1 → 0 < v 1 → 0 ≤ v 2 → 0 ≤ v 3 → s.density E f ≠ .ok (some (∑ j, x j / (∑ i, x i) * v j))) := by
  have hT : 0 < x 0 + x 1 + x 2 + x 3 := by linarith [hn 1, hn 2, hn 3]
  have hp := SFS.probs_eq h hT.ne'
  have hd : s.density E f = .ok (some (x 0 / (∑ i, x i) * v 0)) := by
    unfold SFS.density
    rw [hp, sum4]
    simp only [bind, Except.bind]
    rw [if_pos (div_pos h0 hT)]
    have f0 := hf 0
    simp only [distOf] at f0
    simp [SFS.branch, f0, bind, Except.bind, pure, Except.pure]
  refine ⟨hd, ?_⟩
  intro h1 hv1 hv2 hv3 hc
  rw [hd] at hc
  have := Option.some.inj (Except.ok.inj hc)
  rw [sum4, Fin.sum_univ_four] at this
  have c1 : 0 < x 1 / (x 0 + x 1 + x 2 + x 3) * v 1 := mul_pos (div_pos h1 hT) hv1
  have c2 : 0 ≤ x 2 / (x 0 + x 1 + x 2 + x 3) * v 2 := mul_nonneg (div_nonneg (hn 2) hT.le) hv2
  have c3 : 0 ≤ x 3 / (x 0 + x 1 + x 2 + x 3) * v 3 := mul_nonneg (div_nonneg (hn 3) hT.le) hv3
  linarith

/-- Four partials of constant cross section, the first two open: the concrete case of the violation. -/
noncomputable def Spec.sfsWitness : SFS :=
  let part (thr c d : ℝ) : FisPart := ⟨thr, ⟨[1, 2], [c], 0, true⟩, flat d⟩
  ⟨⟨[1, 2], [0, 0], 0, 1⟩, part 0 1 1, part 0 1 1, part 3 1 1, part 3 1 1⟩

theorem C61_violation_witness : PartialXS sfsWitness 1 ![1, 1, 0, 0] ∧
    sfsWitness.density 1 (fun a => a.anglePdf 1 0) = .ok (some (1 / 2)) := by
  have hP : PartialXS sfsWitness 1 ![1, 1, 0, 0] := by
    refine ⟨0, ?_, ?_, ?_, ?_, ?_⟩
    · simp [sfsWitness, EGrid.lowerIndex, front, getAt, bind, Except.bind]
    all_goals simp [sfsWitness, FisPart.at, XS.evalIdx, XS.evalSingle, front, getAt, bind, Except.bind]
  refine ⟨hP, ?_⟩
  have := (C61_violation sfsWitness 1 _ hP (by intro j; fin_cases j <;> simp) (by simp) (fun a => a.anglePdf 1 0) (fun _ => 1)
    (by intro j; fin_cases j <;> rfl)).1
  rw [this, sum4, show (![1, 1, 0, 0] : Fin 4 → ℝ) 0 = 1 from rfl, show (![1, 1, 0, 0] : Fin 4 → ℝ) 1 = 1 from rfl,
    show (![1, 1, 0, 0] : Fin 4 → ℝ) 2 = 0 from rfl, show (![1, 1, 0, 0] : Fin 4 → ℝ) 3 = 0 from rfl]
  norm_num

end PNDL
