import Verif.Lemmas.STNeutron
import Verif.Lemmas.Linearize

/-! C26 (what `linearize` returns) and C27 (it terminates). -/
namespace PNDL
open Spec

theorem linPoints_ok {X : Type} [LinearOrder X] {ops : GridOps X} {f : X → ℝ} {tol : ℝ} {fuel : Nat} {ix : List X} {iy : List ℝ}
    {x : List X} {y : List ℝ} (h : linPoints ops f tol fuel ix iy = .ok (x, y)) :
    ix ≠ [] ∧ ix.length = iy.length ∧ ix.Pairwise (· ≤ ·) := by
  unfold linPoints at h
  split at h
  · cases h
  · rename_i h1
    split at h
    · cases h
    · rename_i h2
      refine ⟨?_, by simpa using h1, isSorted_iff.mp (by simpa using h2)⟩
      rintro rfl
      cases fuel with
      | zero => simp [linLoop] at h
      | succ fuel => simp [linLoop, getAt, bind, Except.bind] at h

/-- General postcondition, for abscissae in any set `D` whose mid points stay between their ends. -/
theorem linearized_core {X : Type} [LinearOrder X] {ops : GridOps X} {f : X → ℝ} {tol : ℝ} {fuel : Nat} {ix : List X} {iy : List ℝ}
    {x : List X} {y : List ℝ} (D : X → Prop)
    (hmid : ∀ a b, D a → D b → a ≤ b → ¬ ops.adj a b → D (ops.mid a b) ∧ a ≤ ops.mid a b ∧ ops.mid a b ≤ b)
    (hD : ∀ a ∈ ix, D a) (h : linPoints ops f tol fuel ix iy = .ok (x, y)) :
    Linearized ops f tol ix iy x y ∧ ∀ a ∈ x, D a := by
  obtain ⟨h1, h2, h3⟩ := linPoints_ok h
  obtain ⟨p, post, hz, hs, hmem, he⟩ := linPoints_zip ops f tol fuel ix iy h1 h2 h3
  rw [he] at h
  cases hl : zipLoop ops f tol fuel [] p post with
  | error e => rw [hl] at h; cases h
  | ok l =>
    rw [hl] at h
    simp only [Except.map, Except.ok.injEq, Prod.mk.injEq] at h
    obtain ⟨rfl, rfl⟩ := h
    obtain ⟨c1, c2, c3⟩ := zipLoop_spec ops f tol fuel [] p post l hl (by simp)
    obtain ⟨d1, d2⟩ := zipLoop_sorted ops f tol D hmid fuel [] p post l hl (by
      intro r hr; exact hD _ (hmem r (by simpa using hr))) (by simpa using hs)
    simp only [List.nil_append] at c2 c3
    have hzip : (l.map Prod.fst).zip (l.map Prod.snd) = l := by
      rw [List.zip_map']; simp
    refine ⟨⟨by simp, List.pairwise_map.mpr d1, by rw [hzip, hz]; exact c2, ?_, ?_⟩, ?_⟩
    · intro r hr
      rw [hzip] at hr
      rw [hz]
      exact c3 r hr
    · intro i a b ya yb ha hb hya hyb hadj
      simp only [List.getElem?_map, Option.map_eq_some_iff] at ha hb hya hyb
      obtain ⟨r, hr, rfl⟩ := ha
      obtain ⟨q, hq, rfl⟩ := hb
      obtain ⟨r', hr', rfl⟩ := hya
      obtain ⟨q', hq', rfl⟩ := hyb
      rw [hr] at hr'; rw [hq] at hq'
      simp only [Option.some.injEq] at hr' hq'
      subst hr' hq'
      have hlt := lt_length_of_some hq
      have hok := (List.isChain_iff_getElem.mp c1) i hlt
      rw [List.getElem?_eq_getElem (by omega)] at hr
      rw [List.getElem?_eq_getElem (by omega)] at hq
      simp only [Option.some.injEq] at hr hq
      rw [hr, hq] at hok
      rcases hok with hok | hok
      · exact absurd hok hadj
      · rw [needsSplit_iff] at hok
        rwa [show (0.5 : ℝ) * (r.2 + q.2) = (r.2 + q.2) / 2 by ring] at hok
    · intro a ha
      simp only [List.mem_map] at ha
      obtain ⟨r, hr, rfl⟩ := ha
      exact d2 r hr

theorem exact_mid (a b : ℝ) (_ : True) (_ : True) (h : a ≤ b) (_ : ¬ exactOps.adj a b) :
    True ∧ a ≤ exactOps.mid a b ∧ exactOps.mid a b ≤ b := by
  refine ⟨trivial, ?_, ?_⟩ <;> simp only [exactOps] <;> linarith

theorem float_mid {fl : ℝ → ℝ} (hfl : IsRoundToNearest fl) (a b : ℝ) (ha : IsDouble a) (hb : IsDouble b) (h : a ≤ b)
    (hadj : ¬ (floatOps fl).adj a b) :
    IsDouble ((floatOps fl).mid a b) ∧ a < (floatOps fl).mid a b ∧ (floatOps fl).mid a b < b := by
  simp only [floatOps, not_or, not_forall, min_eq_left h, max_eq_right h, not_not] at hadj
  obtain ⟨_, c, hc, h1, h2⟩ := hadj
  exact mid_between hfl ha hb hc h1 h2

/-- C26 in exact arithmetic: whatever `f`, the tolerance and the input, if `linearize` returns then the result is a
linearization of the input. -/
theorem C26_exact (f : ℝ → ℝ) (tol : ℝ) (fuel : Nat) (ix iy x y : List ℝ)
    (h : linPoints exactOps f tol fuel ix iy = .ok (x, y)) : Linearized exactOps f tol ix iy x y :=
  (linearized_core (fun _ => True) exact_mid (fun _ _ => trivial) h).1

/-- C26 with floating point abscissae (any rounding to nearest). -/
theorem C26_float (fl : ℝ → ℝ) (hfl : IsRoundToNearest fl) (f : ℝ → ℝ) (tol : ℝ) (fuel : Nat) (ix iy x y : List ℝ)
    (hD : ∀ a ∈ ix, IsDouble a) (h : linPoints (floatOps fl) f tol fuel ix iy = .ok (x, y)) :
    Linearized (floatOps fl) f tol ix iy x y ∧ ∀ a ∈ x, IsDouble a :=
  linearized_core IsDouble (fun a b ha hb hab hadj =>
    have := float_mid hfl a b ha hb hab hadj
    ⟨this.1, this.2.1.le, this.2.2.le⟩) hD h

theorem make1_linLin {x y : List ℝ} (hne : x ≠ []) (hl : x.length = y.length) (hs : x.Pairwise (· ≤ ·)) (h32 : x.length < 2 ^ 32) :
    Tab1D.make1 .linLin x y = .ok ⟨[x.length], [.linLin], x, y, [⟨.linLin, x, y⟩]⟩ := by
  have hpos : 0 < x.length := List.length_pos_iff.mpr hne
  have hss := isSorted_iff.mpr hs
  have e : x.length % 4294967296 = x.length := Nat.mod_eq_of_lt h32
  simp [Tab1D.make1, slice, hss, hl, Region.make, Interpolation.verifyX, Interpolation.verifyY, bind, Except.bind, pure,
    Except.pure]
  simp [← hl, e, hss, hne]

/-- C26 for the returned table: the construction of the result succeeds, and between any two neighbouring points of the result
the *returned function itself*, evaluated at their mid point, is within the relative tolerance of `f`. -/
theorem C26_table (f : ℝ → ℝ) (tol : ℝ) (fuel : Nat) (ix iy x y : List ℝ)
    (h : linPoints exactOps f tol fuel ix iy = .ok (x, y)) (h32 : x.length < 2 ^ 32) :
    ∃ t, linearize exactOps f tol fuel ix iy = .ok t ∧ t.x = x ∧ t.y = y ∧
      ∀ (i : Nat) (a b : ℝ), x[i]? = some a → x[i + 1]? = some b → a < b →
        ∃ v, t.eval ((a + b) / 2) = .ok v ∧ |v - f ((a + b) / 2)| ≤ tol * |f ((a + b) / 2)| := by
  obtain ⟨g1, g2, g3⟩ := linPoints_ok h
  have L := C26_exact f tol fuel ix iy x y h
  have hne : x ≠ [] := by
    rintro rfl
    have := L.keeps.length_le
    simp only [List.zip_nil_left, List.length_nil, List.length_zip, Nat.le_zero] at this
    rw [g2, Nat.min_self, ← g2] at this
    exact g1 (List.length_eq_zero_iff.mp this)
  have hm := make1_linLin hne L.sameLength L.sorted h32
  refine ⟨_, by simp only [linearize, h, bind, Except.bind]; exact hm, rfl, rfl, ?_⟩
  intro i a b ha hb hab
  have hpos : 0 < x.length := List.length_pos_iff.mpr hne
  obtain ⟨mn, hmn⟩ := getElem?_of_lt (l := x) (i := 0) hpos
  obtain ⟨mx, hmx⟩ : ∃ mx, x.getLast? = some mx := ⟨_, List.getLast?_eq_some_getLast hne⟩
  have hlx : x[x.length - 1]? = some mx := by rw [← List.getLast?_eq_getElem?]; exact hmx
  have hil := lt_length_of_some hb
  have hmna : mn ≤ a := pairwise_le_getElem? L.sorted (Nat.zero_le i) hmn ha
  have hbmx : b ≤ mx := pairwise_le_getElem? L.sorted (by omega) hb hlx
  have v1 : mn < (a + b) / 2 := by linarith
  have v2 : (a + b) / 2 < mx := by linarith
  obtain ⟨j, x1, x2, y1, y2, j1, j2, j3, j4, j5, j6, j7⟩ :=
    Region.eval_mid (g := ⟨.linLin, x, y⟩) L.sorted L.sameLength hmn hmx v1 v2
  have hij : j = i := by
    rcases Nat.lt_trichotomy j i with hlt | heq | hgt
    · have := pairwise_le_getElem? L.sorted (show j + 1 ≤ i by omega) j2 ha; linarith
    · exact heq
    · have := pairwise_le_getElem? L.sorted (show i + 1 ≤ j by omega) hb j1; linarith
  subst hij
  simp only at j1 j2 j3 j4
  rw [ha] at j1; rw [hb] at j2
  simp only [Option.some.injEq] at j1 j2
  subst j1 j2
  have hclose := L.close j a b y1 y2 ha hb j3 j4 (by simp only [exactOps]; exact hab.ne)
  rw [show exactOps.mid a b = (a + b) / 2 by simp only [exactOps]; ring] at hclose
  refine ⟨(y1 + y2) / 2, ?_, hclose⟩
  simp only [Tab1D.eval, front_eq_ok.mpr hmn, back_eq_ok.mpr hmx, bind, Except.bind]
  rw [if_neg (not_le.mpr v1), if_neg (not_le.mpr v2)]
  simp only [seekRegion, back_eq_ok.mpr hmx, bind, Except.bind, if_neg (not_lt.mpr v2.le), front, getAt, List.getElem?_cons_zero]
  rw [j7]
  have hba : b - a ≠ 0 := by linarith
  simp only [Interpolation.interpolate, rdiv_ok hba, bind, Except.bind, pure, Except.pure]
  congr 1
  field_simp
  ring

/-- Both hypotheses of `C26_table` can be met: linearizing a line stops at once. -/
example : linPoints exactOps (fun x => x + 1) 0 2 [0, 1] [1, 2] = .ok ([0, 1], [1, 2]) := by
  have hs : isSorted ([0, 1] : List ℝ) = true := isSorted_iff.mpr (by norm_num)
  norm_num [linPoints, hs, linLoop, getAt, exactOps, needsSplit, bind, Except.bind]

/-- ... and a kinked function is refined before it stops. -/
example : linPoints exactOps (fun x => |x - 1| + 1) 0.001 4 [0, 2] [2, 2] = .ok ([0, 1, 2], [2, 1, 2]) := by
  have hs : isSorted ([0, 2] : List ℝ) = true := isSorted_iff.mpr (by norm_num)
  have h1 : |(2 : ℝ)⁻¹ - 1| = 1 / 2 := by rw [abs_of_neg] <;> norm_num
  norm_num [linPoints, hs, linLoop, getAt, exactOps, needsSplit, bind, Except.bind, h1]

/-- A table that is out of tolerance at the mid point is not returned as it is. -/
theorem C26_refines (f : ℝ → ℝ) (tol : ℝ) (fuel : Nat) (a b ya yb : ℝ) (hab : a < b)
    (hbad : tol * |f ((a + b) / 2)| < |(ya + yb) / 2 - f ((a + b) / 2)|) :
    linPoints exactOps f tol fuel [a, b] [ya, yb] ≠ .ok ([a, b], [ya, yb]) := by
  intro h
  have L := C26_exact f tol fuel _ _ _ _ h
  have := L.close 0 a b ya yb rfl rfl rfl rfl (by simp only [exactOps]; exact hab.ne)
  rw [show exactOps.mid a b = (a + b) / 2 by simp only [exactOps]; ring] at this
  linarith

/-- C26, empty input: the full claim is false of the code, `x.size() - 1` wraps around and `x[0]` is read. -/
theorem C26_violation_empty (f : ℝ → ℝ) (tol : ℝ) (fuel : Nat) : linPoints exactOps f tol (fuel + 1) [] [] = .error .ub := by
  simp [linPoints, isSorted, linLoop, getAt, bind, Except.bind]

/-- C26 for an interval: an interval without length is refused, and otherwise the table that is returned runs from one end to the other and every
one of its points lies on the function. -/
theorem C26_interval (f : ℝ → ℝ) (tol : ℝ) (fuel : Nat) (xmin xmax : ℝ) :
    (xmax ≤ xmin → ∀ ops, linearizeOn ops f tol fuel xmin xmax = .error .exc) ∧
    ∀ t, linearizeOn exactOps f tol fuel xmin xmax = .ok t → xmin < xmax ∧ xmin ∈ t.x ∧ xmax ∈ t.x ∧ t.y = t.x.map f ∧ t.x.Pairwise (· ≤ ·) := by
  constructor
  · intro h ops
    unfold linearizeOn
    rw [if_pos h]
  · intro t h
    unfold linearizeOn at h
    split at h
    · cases h
    rename_i hlt
    unfold linearize at h
    obtain ⟨⟨x, y⟩, h1, h⟩ := bind_ok h
    dsimp only at h
    have L := C26_exact f tol fuel _ _ x y h1
    have hxy : t.x = x ∧ t.y = y := by
      unfold Tab1D.make1 at h
      dsimp only at h
      split at h
      · cases h
      split at h
      · cases h
      obtain ⟨_, _, h⟩ := bind_ok h
      obtain ⟨_, _, h⟩ := bind_ok h
      obtain ⟨_, _, h⟩ := bind_ok h
      cases h
      exact ⟨rfl, rfl⟩
    rw [hxy.1, hxy.2]
    have hz : ∀ p ∈ x.zip y, p.2 = f p.1 := by
      intro p hp
      rcases L.onF p hp with h | h
      · simp only [List.zip_cons_cons, List.zip_nil_right, List.mem_cons, List.not_mem_nil, or_false] at h
        rcases h with rfl | rfl <;> rfl
      · exact h
    have k1 : (xmin, f xmin) ∈ x.zip y := L.keeps.subset (by simp)
    have k2 : (xmax, f xmax) ∈ x.zip y := L.keeps.subset (by simp)
    refine ⟨not_le.mp hlt, (List.of_mem_zip k1).1, (List.of_mem_zip k2).1, ?_, L.sorted⟩
    refine List.ext_getElem (by simp [L.sameLength]) fun i h1 h2 => ?_
    rw [List.getElem_map]
    have hi : i < x.length := by simpa using h2
    exact hz (x[i], y[i]) (by
      have : (x.zip y)[i]'(by simp; omega) = (x[i], y[i]) := List.getElem_zip
      rw [← this]
      exact List.getElem_mem _)

/-! ## C27 -/

/-- Number of doubles strictly between. -/
noncomputable def between (a b : ℝ) : ℕ := {d | IsDouble d ∧ a < d ∧ d < b}.ncard

theorem between_split {a m b : ℝ} (m0 : IsDouble m) (m1 : a < m) (m2 : m < b) : between a m + between m b < between a b := by
  unfold between
  have hfin := doubles_finite a b
  have hdisj : Disjoint {d | IsDouble d ∧ a < d ∧ d < m} {d | IsDouble d ∧ m < d ∧ d < b} := by
    rw [Set.disjoint_left]
    rintro d ⟨_, _, h1⟩ ⟨_, h2, _⟩
    linarith
  rw [← Set.ncard_union_eq hdisj (doubles_finite a m) (doubles_finite m b)]
  apply Set.ncard_lt_ncard _ hfin
  refine Set.ssubset_iff_of_subset ?_ |>.mpr ⟨m, ⟨m0, m1, m2⟩, ?_⟩
  · rintro d (⟨h1, h2, h3⟩ | ⟨h1, h2, h3⟩)
    · exact ⟨h1, h2, h3.trans m2⟩
    · exact ⟨h1, m1.trans h2, h3⟩
  · rintro (⟨_, _, h⟩ | ⟨_, h, _⟩) <;> exact lt_irrefl _ h

theorem terminates_core {X : Type} [LinearOrder X] (ops : GridOps X) (f : X → ℝ) (tol : ℝ) (ix : List X) (iy : List ℝ) (hne : ix ≠ [])
    (hl : ix.length = iy.length) (hs : ix.Pairwise (· ≤ ·)) (D : X → Prop) (hD : ∀ a ∈ ix, D a) (N : X → X → ℕ)
    (key : ∀ a b, (D a ∧ D b ∧ a ≤ b) → ¬ ops.adj a b → (D a ∧ D (ops.mid a b) ∧ a ≤ ops.mid a b) ∧
      (D (ops.mid a b) ∧ D b ∧ ops.mid a b ≤ b) ∧ N a (ops.mid a b) + N (ops.mid a b) b < N a b) :
    ∃ n, ∀ fuel ≥ n, ∃ x y, linPoints ops f tol fuel ix iy = .ok (x, y) := by
  obtain ⟨p, post, hz, hsz, hmem, _⟩ := linPoints_zip ops f tol 0 ix iy hne hl hs
  refine ⟨measure N p post, fun fuel hfuel => ?_⟩
  have hchain : (p :: post).IsChain (fun a b => D a.1 ∧ D b.1 ∧ a.1 ≤ b.1) := by
    have := hsz.isChain
    rw [List.isChain_iff_getElem] at this ⊢
    intro i hi
    exact ⟨hD _ (hmem _ (List.getElem_mem _)), hD _ (hmem _ (List.getElem_mem _)), this i hi⟩
  obtain ⟨l, hl'⟩ := zipLoop_terminates ops f tol (fun a b => D a ∧ D b ∧ a ≤ b) N key fuel [] p post hchain hfuel
  obtain ⟨p', post', hz', _, _, he⟩ := linPoints_zip ops f tol fuel ix iy hne hl hs
  rw [hz] at hz'
  simp only [List.cons.injEq] at hz'
  obtain ⟨rfl, rfl⟩ := hz'
  rw [he, hl']
  exact ⟨_, _, rfl⟩

/-- C27 with floating point abscissae and no overflow: for every `f`, every tolerance (even negative) and every non-empty sorted
input, the loop ends after finitely many iterations.
Missing for the full claim: abscissae whose sum overflows (`C27_violation_overflow`). -/
theorem C27_terminates_partial (fl : ℝ → ℝ) (hfl : IsRoundToNearest fl) (f : ℝ → ℝ) (tol : ℝ) (ix iy : List ℝ) (hne : ix ≠ [])
    (hl : ix.length = iy.length) (hs : ix.Pairwise (· ≤ ·)) (hD : ∀ a ∈ ix, IsDouble a) :
    ∃ n, ∀ fuel ≥ n, ∃ x y, linPoints (floatOps fl) f tol fuel ix iy = .ok (x, y) := by
  refine terminates_core (floatOps fl) f tol ix iy hne hl hs IsDouble hD between ?_
  rintro a b ⟨ha, hb, hab⟩ hadj
  obtain ⟨m0, m1, m2⟩ := float_mid hfl a b ha hb hab hadj
  exact ⟨⟨ha, m0, m1.le⟩, ⟨m0, hb, m2.le⟩, between_split m0 m1 m2⟩

/-- The same for binary64 with overflow to infinity, when the abscissae are at most `2^1022` in magnitude. -/
theorem C27_terminates_binary64_partial (fl : ℝ → ℝ) (hfl : IsRoundToNearest fl) (f : EReal → ℝ) (tol : ℝ) (ix : List EReal)
    (iy : List ℝ) (hne : ix ≠ []) (hl : ix.length = iy.length) (hs : ix.Pairwise (· ≤ ·))
    (hD : ∀ a ∈ ix, ∃ r : ℝ, a = r ∧ IsDouble r ∧ |r| ≤ 2 ^ 1022) :
    ∃ n, ∀ fuel ≥ n, ∃ x y, linPoints (overflowOps fl) f tol fuel ix iy = .ok (x, y) := by
  refine terminates_core (overflowOps fl) f tol ix iy hne hl hs (fun a => ∃ r : ℝ, a = r ∧ IsDouble r ∧ |r| ≤ 2 ^ 1022) hD
    (fun a b => between a.toReal b.toReal) ?_
  rintro a b ⟨⟨a, rfl, ha, ha2⟩, ⟨b, rfl, hb, hb2⟩, hab⟩ hadj
  have hab' : a ≤ b := by exact_mod_cast hab
  have hadj' : ¬ (floatOps fl).adj a b := by
    rintro (h | h)
    · exact hadj (Or.inl (by rw [h]))
    · refine hadj (Or.inr fun d hd hc => h d hd ?_)
      rw [min_eq_left hab, max_eq_right hab] at hc
      rw [min_eq_left hab', max_eq_right hab']
      exact_mod_cast hc
  obtain ⟨m0, m1, m2⟩ := float_mid hfl a b ha hb hab' hadj'
  have e : (overflowOps fl).mid (a : EReal) (b : EReal) = (((floatOps fl).mid a b : ℝ) : EReal) := by
    have hp : (0 : ℝ) < 2 ^ 1022 := by positivity
    have hq : (2 : ℝ) ^ 970 < 2 ^ 1022 := pow_lt_pow_right₀ (by norm_num) (by norm_num)
    have e3 : (2 : ℝ) ^ 1024 = 2 ^ 1022 * 4 := by rw [show 1024 = 1022 + 2 from rfl, pow_add]; norm_num
    have n : ¬ (a + b ≥ 2 ^ 1024 - 2 ^ 970) ∧ ¬ (a + b ≤ -(2 ^ 1024 - 2 ^ 970)) := by
      rw [e3]
      clear hD e3
      generalize (2 : ℝ) ^ 1022 = T at *
      generalize (2 : ℝ) ^ 970 = U at *
      rw [abs_le] at ha2 hb2
      obtain ⟨_, _⟩ := ha2
      obtain ⟨_, _⟩ := hb2
      constructor <;> intro _ <;> linarith
    simp only [overflowOps]
    rw [if_neg (by simp), if_neg (by simp), if_neg (by simpa only [EReal.toReal_coe] using n.1),
      if_neg (by simpa only [EReal.toReal_coe] using n.2)]
    rfl
  rw [e]
  have mb : |(floatOps fl).mid a b| ≤ 2 ^ 1022 := by
    clear hD
    generalize (2 : ℝ) ^ 1022 = T at *
    rw [abs_le] at ha2 hb2 ⊢
    obtain ⟨_, _⟩ := ha2
    obtain ⟨_, _⟩ := hb2
    constructor <;> linarith
  refine ⟨⟨⟨a, rfl, ha, ha2⟩, ⟨_, rfl, m0, mb⟩, by exact_mod_cast m1.le⟩, ⟨⟨_, rfl, m0, mb⟩, ⟨b, rfl, hb, hb2⟩, by exact_mod_cast m2.le⟩, ?_⟩
  simp only [EReal.toReal_coe]
  exact between_split m0 m1 m2

/-- The hypothesis on rounding is met. -/
theorem C27_rounding_exists : ∃ fl, IsRoundToNearest fl := exists_rounding

theorem not_adj_overflow (a : ℝ) (b : EReal) (d : ℝ) (fl : ℝ → ℝ) (hd : IsDouble d) (h1 : a < d) (h2 : (d : EReal) < b) :
    ¬ (overflowOps fl).adj (a : EReal) b := by
  have h3 : (a : EReal) < d := by exact_mod_cast h1
  have h4 : (a : EReal) < b := h3.trans h2
  rintro (h | h)
  · rw [h] at h4; exact lt_irrefl _ h4
  · refine h d hd ⟨?_, ?_⟩
    · rw [min_eq_left h4.le]; exact h3
    · rw [max_eq_right h4.le]; exact h2

theorem overflow_diverges (fl : ℝ → ℝ) (tol : ℝ) (fuel : Nat) (A B M : ℝ) (hApos : 0 < A) (hlt1 : A < M) (hlt2 : M < B)
    (hdbl : IsDouble M) (hov : A + B ≥ 2 ^ 1024 - 2 ^ 970) :
    linPoints (overflowOps fl) (fun x => x.toReal⁻¹) tol fuel [(A : EReal), (B : EReal)] [A⁻¹, B⁻¹] = .error .diverge := by
  have hBpos : 0 < B := (hApos.trans hlt1).trans hlt2
  have hmid : ∀ q : EReal, q = ⊤ ∨ q = (B : EReal) → (overflowOps fl).mid (A : EReal) q = ⊤ := by
    rintro q (rfl | rfl)
    · simp [overflowOps]
    · simp only [overflowOps]
      rw [if_neg (by simp), if_neg (by simp), if_pos (by simpa using hov)]
  have hnadj : ∀ q : EReal, q = ⊤ ∨ q = (B : EReal) → ¬ (overflowOps fl).adj (A : EReal) q := by
    rintro q (rfl | rfl)
    · exact not_adj_overflow A ⊤ M fl hdbl hlt1 (EReal.coe_lt_top M)
    · exact not_adj_overflow A B M fl hdbl hlt1 (by exact_mod_cast hlt2)
  have key : ∀ (fuel : Nat) (q : EReal × ℝ) (post : List (EReal × ℝ)), (q.1 = ⊤ ∨ q.1 = (B : EReal)) → 0 ≤ q.2 →
      zipLoop (overflowOps fl) (fun x => x.toReal⁻¹) tol fuel [] ((A : EReal), A⁻¹) (q :: post) = .error .diverge := by
    intro fuel
    induction fuel with
    | zero => intro q post _ _; rfl
    | succ fuel ih =>
      intro q post hq hq2
      have hno : ¬ Ok (overflowOps fl) (fun x : EReal => x.toReal⁻¹) tol ((A : EReal), A⁻¹) q := by
        rintro (h | h)
        · exact hnadj q.1 hq h
        · simp only [hmid q.1 hq, needsSplit_iff] at h
          simp only [EReal.toReal_top, inv_zero, sub_zero, abs_zero, mul_zero, abs_nonpos_iff] at h
          have : 0 < A⁻¹ := by positivity
          nlinarith
      simp only [zipLoop, if_neg hno, hmid q.1 hq]
      exact ih _ _ (Or.inl rfl) (by simp)
  have hAB : (A : EReal) ≤ B := by exact_mod_cast (hlt1.trans hlt2).le
  obtain ⟨p, post, hz, _, _, he⟩ := linPoints_zip (overflowOps fl) (fun x => x.toReal⁻¹) tol fuel [(A : EReal), (B : EReal)] [A⁻¹, B⁻¹]
    (by simp) (by simp) (by simpa using hAB)
  simp only [List.zip_cons_cons, List.zip_nil_left, List.cons.injEq] at hz
  obtain ⟨rfl, rfl⟩ := hz
  rw [he, key fuel _ _ (Or.inr rfl) (by positivity)]
  rfl

/-- C27, overflow: the full claim is false of the code when the sum of two neighbouring abscissae overflows.  For `f(x) = 1/x` on
the finite doubles `[2^1023, 1.5*2^1023]` the "mid point" is infinity, it is inserted, and from then on the loop inserts
infinity for ever, whatever the tolerance. -/
theorem C27_violation_overflow (fl : ℝ → ℝ) (tol : ℝ) (fuel : Nat) (a b : ℝ) (ha : a = 2 ^ 1023) (hb : b = 3 * 2 ^ 1022) :
    linPoints (overflowOps fl) (fun x => x.toReal⁻¹) tol fuel [(a : EReal), (b : EReal)] [a⁻¹, b⁻¹] = .error .diverge := by
  have hdbl : IsDouble (5 * 2 ^ 1021) := ⟨5, 1021 + 1074, by norm_num, by
    rw [zpow_neg, zpow_ofNat, pow_add]; push_cast; field_simp⟩
  have hp : (0 : ℝ) < 2 ^ 1021 := by positivity
  have hq : (0 : ℝ) < 2 ^ 970 := by positivity
  have e1 : (2 : ℝ) ^ 1022 = 2 * 2 ^ 1021 := pow_succ' 2 1021
  have e2 : (2 : ℝ) ^ 1023 = 2 * 2 ^ 1022 := pow_succ' 2 1022
  have e3 : (2 : ℝ) ^ 1024 = 2 * 2 ^ 1023 := pow_succ' 2 1023
  rw [e2, e1] at ha
  rw [e1] at hb
  rw [e2, e1] at e3
  refine overflow_diverges fl tol fuel a b (5 * 2 ^ 1021) ?_ ?_ ?_ hdbl ?_
  · rw [ha]; positivity
  · rw [ha]; generalize (2 : ℝ) ^ 1021 = T at hp ⊢; linarith
  · rw [hb]; generalize (2 : ℝ) ^ 1021 = T at hp ⊢; linarith
  · rw [ha, hb, e3]
    generalize (2 : ℝ) ^ 1021 = T at hp ⊢
    generalize (2 : ℝ) ^ 970 = U at hq ⊢
    linarith

end PNDL
