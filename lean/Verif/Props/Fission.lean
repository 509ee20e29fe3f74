import Verif.Model.Fission
import Verif.Props.TabRead
import Verif.Props.Func1D

/-! C59, C77, C78, C79: nu, delayed families, yields and law chains read from an ACE file. -/
namespace PNDL
open Spec

/-- **C59** at every energy the total is the sum of prompt and delayed. -/
def Spec.NuConsistent (n : Nu) : Prop :=
  ∀ E p d, n.prompt.eval E = .ok p → n.delayed.eval E = .ok d → n.total.eval E = .ok (p + d)

/-- **C59** A nuclide that is not fissile: all three are zero. -/
theorem C59_not_fissile (xss : List ℝ) (nu dnu : Int) :
    ∃ n, Nu.make false xss nu dnu = .ok n ∧ NuConsistent n ∧
      ∀ E, n.total.eval E = .ok 0 ∧ n.prompt.eval E = .ok 0 ∧ n.delayed.eval E = .ok 0 := by
  refine ⟨_, rfl, ?_, fun E => ⟨rfl, rfl, rfl⟩⟩
  intro E p d hp hd
  cases hp; cases hd
  simp [Fn1D.eval]

/-- The three ways nu can be given without redundancy, and what is then stored. -/
theorem Nu.make_cases {xss : List ℝ} {nu dnu : Int} {n : Nu} (hnu : 0 < nu) (h : Nu.make true xss nu dnu = .ok n) (h1 : dnu ≠ 1) :
    ∃ v, getAt xss (nu - 1).toNat = .ok v ∧
      ((0 < v ∧ 0 < dnu ∧ ∃ p d, readNu xss (nu - 1).toNat = .ok p ∧ readNu xss (dnu - 1).toNat = .ok d ∧ n = ⟨.sum p d, p, d⟩) ∨
       (0 < v ∧ dnu ≤ 0 ∧ ∃ t, readNu xss (nu - 1).toNat = .ok t ∧ n = ⟨t, t, .const 0⟩) ∨
       (v ≤ 0 ∧ dnu ≤ 0 ∧ ∃ t p, readNu xss ((nu - 1).toNat + ⌊|v|⌋.toNat + 1) = .ok t ∧ readNu xss ((nu - 1).toNat + 1) = .ok p ∧
          n = ⟨t, p, .diff t p⟩) ∨
       (v ≤ 0 ∧ 0 < dnu ∧ ∃ t p d, readNu xss ((nu - 1).toNat + ⌊|v|⌋.toNat + 1) = .ok t ∧ readNu xss ((nu - 1).toNat + 1) = .ok p ∧
          readNu xss (dnu - 1).toNat = .ok d ∧ n = ⟨t, p, d⟩)) := by
  unfold Nu.make at h
  rw [if_neg (by simp)] at h
  obtain ⟨tp, htp, h⟩ := bind_ok h
  obtain ⟨dl, hdl, h⟩ := bind_ok h
  obtain ⟨t, p⟩ := tp
  simp only [] at h hdl
  unfold readTotalPrompt at htp
  rw [if_pos hnu] at htp
  obtain ⟨v, hv, htp⟩ := bind_ok htp
  refine ⟨v, hv, ?_⟩
  unfold readDelayed at hdl
  by_cases hd : 0 < dnu
  · rw [if_pos (by omega)] at hdl
    obtain ⟨d, hd', hdl⟩ := bind_ok hdl
    cases hdl
    by_cases hv0 : 0 < v
    · rw [if_pos hv0] at htp
      obtain ⟨f, hf, htp⟩ := bind_ok htp
      rw [if_pos hd] at htp
      cases htp
      left
      refine ⟨hv0, hd, f, d, hf, hd', ?_⟩
      cases h; rfl
    · rw [if_neg hv0] at htp
      obtain ⟨t', ht', htp⟩ := bind_ok htp
      obtain ⟨p', hp', htp⟩ := bind_ok htp
      cases htp
      right; right; right
      refine ⟨not_lt.mp hv0, hd, t', p', d, ht', hp', hd', ?_⟩
      cases h; rfl
  · rw [if_neg (by omega)] at hdl
    cases hdl
    by_cases hv0 : 0 < v
    · rw [if_pos hv0] at htp
      obtain ⟨f, hf, htp⟩ := bind_ok htp
      rw [if_neg hd] at htp
      cases htp
      right; left
      refine ⟨hv0, not_lt.mp hd, f, hf, ?_⟩
      cases h; rfl
    · rw [if_neg hv0] at htp
      obtain ⟨t', ht', htp⟩ := bind_ok htp
      obtain ⟨p', hp', htp⟩ := bind_ok htp
      cases htp
      right; right; left
      refine ⟨not_lt.mp hv0, not_lt.mp hd, t', p', ht', hp', ?_⟩
      cases h; rfl

/-- **C59** (partial) Unless the file gives total, prompt and delayed nu all three, the stored total is the sum of prompt and delayed at every
energy.  `jxs(23) = 1` is excluded: a block cannot start where the energy grid does.  Missing: files with all three, see
`C59_violation_all_three`. -/
theorem C59_sum_partial (xss : List ℝ) (nu dnu : Int) (n : Nu) (hnu : 0 < nu) (h : Nu.make true xss nu dnu = .ok n) (h1 : dnu ≠ 1)
    (hred : dnu ≤ 0 ∨ ∃ v, getAt xss (nu - 1).toNat = .ok v ∧ 0 < v) : NuConsistent n := by
  obtain ⟨v, hv, hc⟩ := Nu.make_cases hnu h h1
  rcases hc with ⟨_, _, p, d, _, _, rfl⟩ | ⟨_, _, t, _, rfl⟩ | ⟨_, _, t, p, _, _, rfl⟩ | ⟨hv0, hd0, t, p, d, _, _, _, rfl⟩
  · intro E a b ha hb
    simp only [] at ha hb
    simp [Fn1D.eval, ha, hb, bind, Except.bind, pure, Except.pure]
  · intro E a b ha hb
    simp only [Fn1D.eval] at ha hb
    cases hb
    simpa using ha
  · intro E a b ha hb
    simp only [Fn1D.eval] at ha hb
    obtain ⟨u, hu, hb⟩ := bind_ok hb
    obtain ⟨w, hw, hb⟩ := bind_ok hb
    rw [ha] at hw
    cases hw
    cases hb
    simp [hu]
  · rcases hred with hd | ⟨w, hw, hw0⟩
    · omega
    · rw [hv] at hw
      cases hw
      exact absurd hw0 (not_lt.mpr hv0)

/-- C59, violation: if the delayed block starts at the first entry of the file (`jxs(23) = 1`), the nu data count as prompt, the delayed block is not
read, and the total is zero. -/
theorem C59_violation_first (xss : List ℝ) (nu : Int) (v : ℝ) (p : Fn1D) (hnu : 0 < nu) (hv : getAt xss (nu - 1).toNat = .ok v) (h0 : 0 < v)
    (hp : readNu xss (nu - 1).toNat = .ok p) : Nu.make true xss nu 1 = .ok ⟨.const 0, p, .const 0⟩ := by
  unfold Nu.make readTotalPrompt readDelayed
  rw [if_neg (by simp), if_pos hnu, if_neg (by norm_num)]
  simp only [hv, hp, bind, Except.bind, pure, Except.pure, if_pos h0]
  rfl

/-- **C59** What is stored is what the file gives: prompt and delayed are the functions read from their blocks, or, if only one function is
given, it is the total and there are no delayed neutrons. -/
theorem C59_given (xss : List ℝ) (nu dnu : Int) (n : Nu) (v : ℝ) (hnu : 0 < nu) (h : Nu.make true xss nu dnu = .ok n) (h1 : dnu ≠ 1)
    (hv : getAt xss (nu - 1).toNat = .ok v) :
    (0 < v → 0 < dnu → readNu xss (nu - 1).toNat = .ok n.prompt ∧ readNu xss (dnu - 1).toNat = .ok n.delayed) ∧
    (0 < v → dnu ≤ 0 → readNu xss (nu - 1).toNat = .ok n.total ∧ n.prompt = n.total ∧ ∀ E, n.delayed.eval E = .ok 0) ∧
    (v ≤ 0 → readNu xss nu.toNat = .ok n.prompt ∧ readNu xss (nu.toNat + ⌊|v|⌋.toNat) = .ok n.total) := by
  obtain ⟨w, hw, hc⟩ := Nu.make_cases hnu h h1
  rw [hv] at hw
  cases hw
  have e1 : (nu - 1).toNat + 1 = nu.toNat := by omega
  have e2 : (nu - 1).toNat + ⌊|v|⌋.toNat + 1 = nu.toNat + ⌊|v|⌋.toNat := by omega
  rcases hc with ⟨ha, hb, p, d, hp, hd, rfl⟩ | ⟨ha, hb, t, ht, rfl⟩ | ⟨ha, hb, t, p, ht, hp, rfl⟩ | ⟨ha, hb, t, p, d, ht, hp, hd, rfl⟩
  · exact ⟨fun _ _ => ⟨hp, hd⟩, fun _ h => absurd hb (not_lt.mpr h), fun h => absurd ha (not_lt.mpr h)⟩
  · exact ⟨fun _ h => absurd h (not_lt.mpr hb), fun _ _ => ⟨ht, rfl, fun E => rfl⟩, fun h => absurd ha (not_lt.mpr h)⟩
  · exact ⟨fun h => absurd h (not_lt.mpr ha), fun h => absurd h (not_lt.mpr ha), fun _ => ⟨e1 ▸ hp, e2 ▸ ht⟩⟩
  · exact ⟨fun h => absurd h (not_lt.mpr ha), fun h => absurd h (not_lt.mpr ha), fun _ => ⟨e1 ▸ hp, e2 ▸ ht⟩⟩

/-- **C59** A polynomial block `1, n, c₀ … c_{n-1}` is read as that polynomial. -/
theorem C59_polynomial (xss : List ℝ) (i : Nat) (c : List ℝ) (h : Holds xss i ([1] ++ ([(c.length : ℝ)] ++ c))) (E : ℝ) :
    ∃ f, readNu xss i = .ok f ∧ f.eval E = .ok (polynomial c E) := by
  refine ⟨.poly c, ?_, C24_eval c E⟩
  have g1 : natAt xss i = .ok 1 := by
    have := h.left
    have h' : Holds xss i [((1 : ℕ) : ℝ)] := by simpa using this
    exact h'.nat
  have g2 := h.right.left.nat
  have g3 := h.right.right.slice
  simp only [List.length_cons, List.length_nil, Nat.zero_add] at g2 g3
  unfold readNu
  simp only [g1, g2, g3, bind, Except.bind, pure, Except.pure, if_true]

/-- **C59** A tabulated block `2, record` is read as that table. -/
theorem C59_table (xss : List ℝ) (i : Nat) (r : TabRecord) (h : Holds xss i ([2] ++ r.encode)) (hxy : r.x.length = r.y.length)
    (hn : r.x ≠ []) (hx : r.x.length < 2 ^ 32) (h1 : ∀ p, r.regions = [p] → p.1 = r.x.length) :
    readNu xss i = (Tab1D.make (r.effective.map Prod.fst) (r.effective.map Prod.snd) r.x r.y).map Fn1D.tab := by
  have g1 : natAt xss i = .ok 2 := by
    have := h.left
    have h' : Holds xss i [((2 : ℕ) : ℝ)] := by simpa using this
    exact h'.nat
  have g2 := C76_read xss (i + 1) r h.right hxy hn hx h1
  unfold readNu
  simp only [g1, g2, bind, Except.bind, pure, Except.pure]
  rw [if_neg (by norm_num)]
  cases Tab1D.make (r.effective.map Prod.fst) (r.effective.map Prod.snd) r.x r.y <;> rfl

/-- **C59** violation: when a file gives all three, they are stored as they are, whatever they add up to. -/
theorem C59_violation_all_three (a t p d E : ℝ) :
    ∃ n, Nu.make true [a, -3, 1, 1, p, 1, 1, t, 1, 1, d] 2 9 = .ok n ∧
      n.total.eval E = .ok t ∧ n.prompt.eval E = .ok p ∧ n.delayed.eval E = .ok d := by
  refine ⟨⟨.poly [t], .poly [p], .poly [d]⟩, ?_, ?_, ?_, ?_⟩
  · simp [Nu.make, readTotalPrompt, readDelayed, readNu, natAt, getAt, xssSlice, assembleNu, bind, Except.bind, pure, Except.pure]
    norm_num
  all_goals simp [Fn1D.eval, polyEval, polyLoop]

/-- … so the stored total need not be the sum. -/
theorem C59_violation_witness : ∃ n, Nu.make true [0, -3, 1, 1, 2, 1, 1, 5, 1, 1, 1] 2 9 = .ok n ∧ ¬ NuConsistent n := by
  obtain ⟨n, h, h1, h2, h3⟩ := C59_violation_all_three 0 5 2 1 0
  refine ⟨n, h, fun hc => ?_⟩
  have := hc 0 2 1 h2 h3
  rw [h1] at this
  have := Except.ok.inj this
  norm_num at this

/-- Non-vacuity of `C59_sum_partial`: prompt and delayed blocks. -/
example : ∃ n, Nu.make true [0, 1, 1, 2, 1, 1, 1] 2 5 = .ok n ∧ NuConsistent n ∧ n.total.eval 7 = .ok 3 := by
  have e : Nu.make true [0, 1, 1, 2, 1, 1, 1] 2 5 = .ok ⟨.sum (.poly [2]) (.poly [1]), .poly [2], .poly [1]⟩ := by
    simp [Nu.make, readTotalPrompt, readDelayed, readNu, natAt, getAt, xssSlice, assembleNu, Fn1D.mkSum, bind, Except.bind, pure, Except.pure]
  refine ⟨_, e, C59_sum_partial _ 2 5 _ (by norm_num) e (by norm_num) (.inr ⟨1, by simp [getAt], by norm_num⟩), ?_⟩
  simp [Fn1D.eval, polyEval, polyLoop, bind, Except.bind, pure, Except.pure]
  norm_num

/-! ### Delayed families -/

/-- One family of the file: decay constant per shake and probability record. -/
structure Spec.FamilyRecord where
  perShake : ℝ
  prob : TabRecord

/-- The block of the families, one after another. -/
def Spec.familiesBlock : List FamilyRecord → List ℝ
  | [] => []
  | f :: fs => ([f.perShake] ++ f.prob.encode) ++ familiesBlock fs

/-- A record as the format demands. -/
def Spec.WellFormed (r : TabRecord) : Prop :=
  r.x.length = r.y.length ∧ r.x ≠ [] ∧ r.x.length < 2 ^ 32 ∧ ∀ p, r.regions = [p] → p.1 = r.x.length

theorem readFamilies_ok {D : Type} (mk : Int → Nat → Res D) (xss : List ℝ) (dnedl dned : Nat) :
    ∀ (fs : List FamilyRecord) (i g : Nat), Holds xss i (familiesBlock fs) → (∀ f ∈ fs, WellFormed f.prob) →
      ∀ out, readFamilies mk xss dnedl dned fs.length i g = .ok out →
        out.length = fs.length ∧ ∀ (k : Nat) (F : Family D) (f : FamilyRecord), out[k]? = some F → fs[k]? = some f →
          F.decay = f.perShake * 10 ^ 8 ∧
          Tab1D.make (f.prob.effective.map Prod.fst) (f.prob.effective.map Prod.snd) f.prob.x f.prob.y = .ok F.probability ∧
          ∃ i', Family.make mk xss dnedl dned i' (g + k) = .ok F := by
  intro fs
  induction fs with
  | nil =>
    intro i g _ _ out h
    cases h
    exact ⟨rfl, fun k F f h => by simp at h⟩
  | cons f fs ih =>
    intro i g hH hW out h
    rw [List.length_cons, readFamilies] at h
    obtain ⟨F, hF, h⟩ := bind_ok h
    obtain ⟨nr, hnr, h⟩ := bind_ok h
    obtain ⟨ne, hne, h⟩ := bind_ok h
    obtain ⟨rest, hrest, h⟩ := bind_ok h
    cases h
    obtain ⟨hxy, hn, hx, h1⟩ := hW f (by simp)
    have hA := hH.left
    have hl : getAt xss i = .ok f.perShake := hA.left.get
    have hR : Holds xss (i + 1) f.prob.encode := hA.right
    have hp := hR.parts hxy
    have enr : nr = f.prob.regions.length := by
      have := hp.1; rw [hnr] at this; exact Except.ok.inj this
    subst enr
    have ene : ne = f.prob.x.length := by
      have := hp.2.2.2.1
      rw [show i + 1 + 1 + 2 * f.prob.regions.length = i + 2 + 2 * f.prob.regions.length by omega, hne] at this
      exact Except.ok.inj this
    subst ene
    have hB := hH.right
    rw [show i + ([f.perShake] ++ f.prob.encode).length = i + 3 + 2 * (f.prob.regions.length + f.prob.x.length) by
      unfold TabRecord.encode
      simp only [List.length_append, List.length_cons, List.length_nil, List.length_map]
      omega] at hB
    obtain ⟨ihl, ihk⟩ := ih _ (g + 1) hB (fun f' hf' => hW f' (by simp [hf'])) rest hrest
    refine ⟨by simp [ihl], ?_⟩
    intro k F' f' hk hf
    cases k with
    | zero =>
      simp only [List.getElem?_cons_zero, Option.some.injEq] at hk hf
      subst hk hf
      refine ⟨?_, ?_, i, hF⟩
      · unfold Family.make at hF
        rw [hl] at hF
        obtain ⟨_, e, hF⟩ := bind_ok hF
        cases e
        obtain ⟨_, _, hF⟩ := bind_ok hF
        obtain ⟨_, _, hF⟩ := bind_ok hF
        obtain ⟨_, _, hF⟩ := bind_ok hF
        obtain ⟨_, _, hF⟩ := bind_ok hF
        obtain ⟨_, _, hF⟩ := bind_ok hF
        obtain ⟨_, _, hF⟩ := bind_ok hF
        obtain ⟨_, _, hF⟩ := bind_ok hF
        obtain ⟨_, _, hF⟩ := bind_ok hF
        obtain ⟨_, _, hF⟩ := bind_ok hF
        cases hF; rfl
      · have ht := C76_read xss (i + 1) f.prob hR hxy hn hx h1
        unfold Family.make at hF
        obtain ⟨_, _, hF⟩ := bind_ok hF
        obtain ⟨t, ht', hF⟩ := bind_ok hF
        rw [ht] at ht'
        obtain ⟨_, _, hF⟩ := bind_ok hF
        obtain ⟨_, _, hF⟩ := bind_ok hF
        obtain ⟨_, _, hF⟩ := bind_ok hF
        obtain ⟨_, _, hF⟩ := bind_ok hF
        obtain ⟨_, _, hF⟩ := bind_ok hF
        obtain ⟨_, _, hF⟩ := bind_ok hF
        obtain ⟨_, _, hF⟩ := bind_ok hF
        obtain ⟨_, _, hF⟩ := bind_ok hF
        cases hF
        exact ht'
    | succ k =>
      simp only [List.getElem?_cons_succ] at hk hf
      obtain ⟨a, b, i', c⟩ := ihk k F' f' hk hf
      exact ⟨a, b, i', by rw [show g + (k + 1) = g + 1 + k by omega]; exact c⟩

/-- **C77** The delayed families are read in file order: the loop stays in step with the variable-length records, so the `k`-th object has
the decay constant (converted from per shake to per second) and the probability function of the `k`-th record. -/
theorem C77_families {D : Type} (mk : Int → Nat → Res D) (xss : List ℝ) (bdd : Int) (dnedl dned : Nat) (fs : List FamilyRecord)
    (hb : 1 < bdd) (hH : Holds xss (bdd - 1).toNat (familiesBlock fs)) (hW : ∀ f ∈ fs, WellFormed f.prob) (out : List (Family D))
    (h : families mk xss bdd dnedl dned fs.length = .ok out) :
    out.length = fs.length ∧ ∀ (k : Nat) (F : Family D) (f : FamilyRecord), out[k]? = some F → fs[k]? = some f →
      F.decay = f.perShake * 10 ^ 8 ∧
      Tab1D.make (f.prob.effective.map Prod.fst) (f.prob.effective.map Prod.snd) f.prob.x f.prob.y = .ok F.probability := by
  unfold families at h
  rw [if_pos (by omega)] at h
  obtain ⟨h1, h2⟩ := readFamilies_ok mk xss dnedl dned fs _ 1 hH hW out h
  exact ⟨h1, fun k F f hk hf => ⟨(h2 k F f hk hf).1, (h2 k F f hk hf).2.1⟩⟩

/-- **C77** The energy law of a family is the one its own number points to: family `g` (counted from one) uses entry `g` of the locator
block, and the law number and data index found there. -/
theorem C77_law {D : Type} (mk : Int → Nat → Res D) (xss : List ℝ) (dnedl dned i g : Nat) (F : Family D) (hg : 1 ≤ g)
    (h : Family.make mk xss dnedl dned i g = .ok F) :
    ∃ locc law idat, natAt xss (dnedl + (g - 1)) = .ok locc ∧ getAt xss (dned + locc) = .ok law ∧
      natAt xss (dned + locc + 1) = .ok idat ∧ mk ⌊law⌋ (dned + idat - 1) = .ok F.law := by
  unfold Family.make at h
  obtain ⟨_, _, h⟩ := bind_ok h
  obtain ⟨t, _, h⟩ := bind_ok h
  obtain ⟨k, hk, h⟩ := bind_ok h
  obtain ⟨locc, hlocc, h⟩ := bind_ok h
  obtain ⟨l, hl, h⟩ := bind_ok h
  obtain ⟨_, _, h⟩ := bind_ok h
  obtain ⟨law, hlaw, h⟩ := bind_ok h
  obtain ⟨idat, hidat, h⟩ := bind_ok h
  obtain ⟨j, hj, h⟩ := bind_ok h
  obtain ⟨d, hd, h⟩ := bind_ok h
  cases h
  have sub : ∀ {a b : Nat}, subIdx a 1 = .ok b → b + 1 = a := by
    intro a b hab
    unfold subIdx at hab
    split at hab
    · cases hab; omega
    · cases hab
  have ek := sub hk
  have el := sub hl
  have ej := sub hj
  refine ⟨locc, law, idat, ?_, ?_, ?_, ?_⟩
  · rw [← hlocc]; congr 1; omega
  · rw [← hlaw]; congr 1; omega
  · rw [← hidat]; congr 1; omega
  · rw [← hd]; congr 1; omega

/-- **C77** Without a block of delayed families there are none. -/
theorem C77_none {D : Type} (mk : Int → Nat → Res D) (xss : List ℝ) (bdd : Int) (dnedl dned n : Nat) (hb : bdd ≤ 0) :
    families mk xss bdd dnedl dned n = .ok [] := by
  unfold families
  rw [if_neg (by omega)]

/-- Non-vacuity: two families with records of different length. -/
example : Holds [0, 3, 0, 1, 5, 6, 4, 1, 1, 2, 1, 7, 8, 1, 4, 0, 9, 2, 0, 11, 5] ((2 : Int) - 1).toNat
      (familiesBlock [⟨3, [], [5], [6]⟩, ⟨4, [(1, .linLin)], [7], [8]⟩]) :=
    ⟨[0], [1, 4, 0, 9, 2, 0, 11, 5], by simp [familiesBlock, TabRecord.encode, lawCode], rfl⟩

example : ∃ out, families (fun l j => (.ok (l, j) : Res (Int × Nat)))
    [0, 3, 0, 1, 5, 6, 4, 1, 1, 2, 1, 7, 8, 1, 4, 0, 9, 2, 0, 11, 5] 2 13 15 2 = .ok out ∧ out.length = 2 := by
  refine ⟨[⟨3 * 10 ^ 8, ⟨[1], [.linLin], [5], [6], [⟨.linLin, [5], [6]⟩]⟩, (9, 16)⟩,
    ⟨4 * 10 ^ 8, ⟨[1], [.linLin], [7], [8], [⟨.linLin, [7], [8]⟩]⟩, (11, 19)⟩], ?_, rfl⟩
  simp [families, readFamilies, Family.make, natAt, getAt, readTab, xssSlice, Tab1D.make1, Region.make, slice, isSorted, interpCast,
      interpOfCode, Interpolation.verifyX, Interpolation.verifyY, Interpolation.hasAdjacentEqual, subIdx, bind, Except.bind, pure, Except.pure]

/-! ### Yields and law chains -/

/-- **C78** A yield entry below 100 in size is a constant multiplicity, whatever its sign (the sign only tells the frame). -/
theorem C78_constant (xss : List ℝ) (dlw : Nat) (tyr E : ℝ) (h : |tyr| < 100) :
    ∃ f, readYield xss dlw tyr = .ok f ∧ f.eval E = .ok |tyr| ∧ readYield xss dlw (-tyr) = .ok f := by
  refine ⟨.const |tyr|, ?_, rfl, ?_⟩
  · unfold readYield; rw [if_pos h]
  · unfold readYield; rw [abs_neg, if_pos h]

/-- **C78** A yield entry `±(100 + k)` refers to the record at place `k` (counted from one) of the DLW block. -/
theorem C78_table (xss : List ℝ) (dlw k : Nat) (tyr : ℝ) (hk : 1 ≤ k) (ht : |tyr| = 100 + k) (r : TabRecord)
    (hH : Holds xss (dlw + (k - 1)) r.encode) (hW : WellFormed r) :
    readYield xss dlw tyr = (Tab1D.make (r.effective.map Prod.fst) (r.effective.map Prod.snd) r.x r.y).map Fn1D.tab := by
  obtain ⟨hxy, hn, hx, h1⟩ := hW
  have hf : ⌊|tyr|⌋.toNat = 100 + k := by
    rw [ht, show (100 : ℝ) + k = ((100 + k : ℕ) : ℝ) by push_cast; ring, Int.floor_natCast, Int.toNat_natCast]
  have hk' : (1 : ℝ) ≤ k := by exact_mod_cast hk
  unfold readYield
  rw [if_neg (by rw [ht]; linarith), hf, subIdx_of_le (by omega)]
  simp only [bind, Except.bind, pure, Except.pure]
  rw [show dlw + (100 + k) - 101 = dlw + (k - 1) by omega, C76_read xss _ r hH hxy hn hx h1]
  cases Tab1D.make (r.effective.map Prod.fst) (r.effective.map Prod.snd) r.x r.y <;> rfl

/-- The chain of laws of a reaction as laid out in the DLW block: from place `loc` (counted from one) on there is the place of the next law
(zero: none), the law number, the place of its data and its probability record. -/
def Spec.LawChain (xss : List ℝ) (dlw : Nat) : Nat → List (Nat × Nat × TabRecord) → Prop
  | _, [] => False
  | loc, [(law, idat, r)] => 1 ≤ loc ∧ 1 ≤ idat ∧ r.x.length = r.y.length ∧
      Holds xss (dlw + (loc - 1)) ([(0 : ℝ)] ++ ([(law : ℝ)] ++ ([(idat : ℝ)] ++ r.encode)))
  | loc, (law, idat, r) :: next :: rest => 1 ≤ loc ∧ 1 ≤ idat ∧ r.x.length = r.y.length ∧ ∃ loc' : Nat, 1 ≤ loc' ∧
      Holds xss (dlw + (loc - 1)) ([(loc' : ℝ)] ++ ([(law : ℝ)] ++ ([(idat : ℝ)] ++ r.encode))) ∧ LawChain xss dlw loc' (next :: rest)

/-- What reading the laws must give. -/
noncomputable def Spec.expectLaws (dlw : Nat) : List (Nat × Nat × TabRecord) → Res (List LawRec)
  | [] => .ok []
  | (law, idat, r) :: rest => do
    let t ← Tab1D.make (r.effective.map Prod.fst) (r.effective.map Prod.snd) r.x r.y
    let ls ← expectLaws dlw rest
    return ⟨law, dlw + (idat - 1), t⟩ :: ls

/-- **C79** All the laws of a reaction are read, in the order of the chain, each with its own probability, and reading stops at the end of
the chain. -/
theorem C79_chain (xss : List ℝ) (dlw : Nat) : ∀ (laws : List (Nat × Nat × TabRecord)) (loc fuel : Nat), LawChain xss dlw loc laws →
    laws.length ≤ fuel → readLaws xss dlw fuel (dlw + (loc - 1)) = expectLaws dlw laws := by
  intro laws
  induction laws with
  | nil => intro loc fuel h; exact absurd h (by simp [LawChain])
  | cons a rest ih =>
    obtain ⟨law, idat, r⟩ := a
    intro loc fuel h hf
    cases fuel with
    | zero => simp at hf
    | succ fuel =>
      have core : ∀ (n : Nat), 1 ≤ idat → r.x.length = r.y.length →
          Holds xss (dlw + (loc - 1)) ([(n : ℝ)] ++ ([(law : ℝ)] ++ ([(idat : ℝ)] ++ r.encode))) →
          readLaws xss dlw (fuel + 1) (dlw + (loc - 1)) = (do
            let t ← Tab1D.make (r.effective.map Prod.fst) (r.effective.map Prod.snd) r.x r.y
            if n = 0 then return [⟨law, dlw + (idat - 1), t⟩]
            else do
              let i' ← subIdx (dlw + n) 1
              let rest ← readLaws xss dlw fuel i'
              return ⟨law, dlw + (idat - 1), t⟩ :: rest) := by
        intro n hi hxy hH
        have g1 := hH.left.nat
        have g2 := hH.right.left.get
        have g3 := hH.right.right.left.nat
        have g4 := (C76_read_next xss _ r hH.right.right.right hxy).2
        simp only [List.length_cons, List.length_nil, Nat.zero_add] at g1 g2 g3 g4
        rw [Nat.add_assoc (dlw + (loc - 1)) 1 1] at g3
        rw [Nat.add_assoc (dlw + (loc - 1)) 1 1, Nat.add_assoc (dlw + (loc - 1)) (1 + 1) 1] at g4
        rw [readLaws]
        simp only [g1, g2, g3, g4, bind, Except.bind, pure, Except.pure]
        rw [subIdx_of_le (by omega)]
        simp only []
        rw [show dlw + idat - 1 = dlw + (idat - 1) by omega]
        cases Tab1D.make (r.effective.map Prod.fst) (r.effective.map Prod.snd) r.x r.y with
        | error e => rfl
        | ok t => simp [Except.map]
      cases rest with
      | nil =>
        obtain ⟨_, hi, hxy, hH⟩ := h
        rw [core 0 hi hxy (by simpa using hH)]
        simp only [if_true, expectLaws, bind, Except.bind, pure, Except.pure]
      | cons b rest' =>
        obtain ⟨_, hi, hxy, loc', hl', hH, hc⟩ := h
        rw [core loc' hi hxy hH, expectLaws]
        have := ih loc' fuel hc (by simpa using hf)
        rw [subIdx_of_le (by omega), show dlw + loc' - 1 = dlw + (loc' - 1) by omega]
        simp only [bind, Except.bind, if_neg (show ¬ loc' = 0 by omega)]
        rw [this]

/-- **C79** caveat: a chain that comes back to itself is never left: no number of rounds suffices. -/
theorem C79_cycle_diverges (a b : ℝ) (fuel : Nat) : readLaws [1, a, 1, 0, 1, b, 1] 0 fuel 0 = .error .diverge := by
  induction fuel with
  | zero => rfl
  | succ n ih =>
    have ht : Tab1D.make [1] [.linLin] [b] [1] = .ok ⟨[1], [.linLin], [b], [1], [⟨.linLin, [b], [1]⟩]⟩ := by
      simp [Tab1D.make, buildRegions, slice, Region.make, isSorted, Interpolation.verifyX, Interpolation.verifyY, nextLow, subIdx,
        Interpolation.hasAdjacentEqual, bind, Except.bind, pure, Except.pure]
    rw [readLaws]
    simp [natAt, getAt, readTabB, readTabRaw, xssSlice, bind, Except.bind, pure, Except.pure, subIdx, ht, ih]

/-- Non-vacuity: a chain of two laws stored out of order. -/
example : LawChain [0, 4, 9, 0, 1, 2, 1, 1, 7, 5, 0, 1, 3, 1] 0 8 [(7, 5, ⟨[], [3], [1]⟩), (4, 9, ⟨[], [2], [1]⟩)] := by
  refine ⟨by norm_num, by norm_num, rfl, 1, le_refl _, ⟨[0, 4, 9, 0, 1, 2, 1], [], by simp [TabRecord.encode], rfl⟩, ?_⟩
  exact ⟨le_refl _, by norm_num, rfl, ⟨[], [1, 7, 5, 0, 1, 3, 1], by simp [TabRecord.encode], rfl⟩⟩

end PNDL
