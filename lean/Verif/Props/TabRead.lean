import Verif.Model.TabRead
import Verif.Spec.TabRead
import Verif.Lemmas.STNeutron
import Verif.Props.Tab1D

/-! C76, C80: records in the XSS array. -/
namespace PNDL
open Spec

theorem Spec.Holds.left {xss : List ℝ} {i : Nat} {a b : List ℝ} (h : Holds xss i (a ++ b)) : Holds xss i a := by
  obtain ⟨p, q, e, l⟩ := h
  exact ⟨p, b ++ q, by rw [e]; simp, l⟩

theorem Spec.Holds.right {xss : List ℝ} {i : Nat} {a b : List ℝ} (h : Holds xss i (a ++ b)) : Holds xss (i + a.length) b := by
  obtain ⟨p, q, e, l⟩ := h
  exact ⟨p ++ a, q, by rw [e]; simp, by simp [l]⟩

theorem Spec.Holds.slice {xss : List ℝ} {i : Nat} {b : List ℝ} (h : Holds xss i b) : xssSlice xss i b.length = .ok b := by
  obtain ⟨p, q, e, l⟩ := h
  subst l e
  unfold xssSlice
  rw [if_pos (by simp)]
  congr 1
  rw [List.append_assoc, List.drop_left, List.take_left]

theorem Spec.Holds.get {xss : List ℝ} {i : Nat} {v : ℝ} (h : Holds xss i [v]) : getAt xss i = .ok v := by
  obtain ⟨p, q, e, l⟩ := h
  subst l e
  rw [getAt_eq_ok]
  simp

theorem Spec.Holds.nat {xss : List ℝ} {i n : Nat} (h : Holds xss i [(n : ℝ)]) : natAt xss i = .ok n := by
  unfold natAt
  rw [h.get]
  simp [bind, Except.bind, pure, Except.pure]

theorem interpCast_code (r : Interpolation) : interpCast (lawCode r) = r := by
  cases r <;> simp [interpCast, interpOfCode, lawCode]

/-- The four places of a record. -/
theorem Spec.Holds.parts {xss : List ℝ} {i : Nat} {r : TabRecord} (h : Holds xss i r.encode) (hxy : r.x.length = r.y.length) :
    natAt xss i = .ok r.regions.length ∧
    natSlice xss (i + 1) r.regions.length = .ok (r.regions.map Prod.fst) ∧
    interpSlice xss (i + 1 + r.regions.length) r.regions.length = .ok (r.regions.map Prod.snd) ∧
    natAt xss (i + 1 + 2 * r.regions.length) = .ok r.x.length ∧
    xssSlice xss (i + 2 + 2 * r.regions.length) r.x.length = .ok r.x ∧
    xssSlice xss (i + 2 + 2 * r.regions.length + r.x.length) r.x.length = .ok r.y := by
  unfold TabRecord.encode at h
  have h1 := h.left
  have h' := h.right
  simp only [List.length_cons, List.length_nil, Nat.zero_add] at h'
  have h2 := h'.left
  have h3 := h'.right.left
  have h4 := h'.right.right.left
  have h5 := h'.right.right.right.left
  have h6 := h'.right.right.right.right
  simp only [List.length_map, List.length_cons, List.length_nil, Nat.zero_add] at h2 h3 h4 h5 h6
  refine ⟨h1.nat, ?_, ?_, ?_, ?_, ?_⟩
  · have := h2.slice
    rw [List.length_map] at this
    unfold natSlice
    rw [this]
    simp [bind, Except.bind, pure, Except.pure]
  · have := h3.slice
    rw [List.length_map] at this
    unfold interpSlice
    rw [this]
    simp [bind, Except.bind, pure, Except.pure, interpCast_code]
  · have := h4.nat
    rw [← this]; congr 1; omega
  · have := h5.slice
    rw [← this]; congr 1; omega
  · have := h6.slice
    rw [hxy, ← this, ← hxy]; congr 1; omega

theorem make1_eq_make (p : Interpolation) (x y : List ℝ) (hx : x.length < 2 ^ 32) (hn : x ≠ []) :
    Tab1D.make1 p x y = Tab1D.make [x.length] [p] x y := by
  unfold Tab1D.make1 Tab1D.make
  rw [Nat.mod_eq_of_lt hx]
  simp only [List.length_cons, List.length_nil, ne_eq, not_true_eq_false, if_false]
  by_cases h1 : x.length = y.length
  · simp only [h1, not_true_eq_false, if_false]
    by_cases h2 : isSorted x = false
    · simp [h2]
    · simp only [h2]
      have hl : 1 ≤ y.length := by
        rw [← h1]; exact List.length_pos_of_ne_nil hn
      have : ∃ v, nextLow x y.length = .ok v := by
        unfold nextLow
        rw [subIdx_of_le hl]
        simp only [bind, Except.bind]
        rw [h1, if_neg (by omega)]
        exact ⟨_, rfl⟩
      obtain ⟨v, hv⟩ := this
      simp only [bind, Except.bind, pure, Except.pure, List.zip_cons_cons, List.zip_nil_right, buildRegions, hv]
      cases slice x 0 y.length <;> simp only []
      cases slice y 0 y.length <;> simp only []
      cases Region.make p _ _ <;> simp only []
  · simp [h1]

/-- **C76** A tabulated record standing anywhere in the XSS array is read back as the function it describes: the constructor of
`Tabulated1D` receives exactly its regions and its points (no regions: one linear region of all the points).  With one region its only
break point must be the number of points, as the format demands. -/
theorem C76_read (xss : List ℝ) (i : Nat) (r : TabRecord) (h : Holds xss i r.encode) (hxy : r.x.length = r.y.length) (hn : r.x ≠ [])
    (hx : r.x.length < 2 ^ 32) (h1 : ∀ p, r.regions = [p] → p.1 = r.x.length) :
    readTab xss i = Tab1D.make (r.effective.map Prod.fst) (r.effective.map Prod.snd) r.x r.y := by
  obtain ⟨e1, e2, e3, e4, e5, e6⟩ := h.parts hxy
  unfold readTab
  simp only [e1, e4, e5, e6, bind, Except.bind]
  unfold TabRecord.effective
  by_cases h0 : r.regions = []
  · simp only [h0, List.length_nil, if_true, List.map_cons, List.map_nil]
    exact make1_eq_make _ _ _ hx hn
  · rw [if_neg (by simpa using h0), if_neg h0]
    by_cases h2 : r.regions.length = 1
    · obtain ⟨p, hp⟩ := List.length_eq_one_iff.mp h2
      rw [if_pos h2]
      have e3' := e3
      rw [h2] at e3'
      unfold interpSlice at e3'
      obtain ⟨l, hl, hm⟩ := bind_ok e3'
      have hlen : l.length = 1 := by
        have := congrArg (Except.map List.length) hm
        simp [pure, Except.pure, Except.map, hp] at this
        exact this
      obtain ⟨c, hc⟩ := List.length_eq_one_iff.mp hlen
      have hget : getAt xss (i + 2) = .ok c := by
        unfold xssSlice at hl
        split at hl
        · rename_i hle
          have hl' := Except.ok.inj hl
          rw [hc] at hl'
          rw [getAt_eq_ok]
          have := congrArg (fun l => l[0]?) hl'
          simpa using this
        · cases hl
      rw [hget]
      have hm' := Except.ok.inj hm
      rw [hc, hp] at hm'
      simp only [List.map_cons, List.map_nil, List.cons.injEq, and_true] at hm'
      simp only [hm', hp, List.map_cons, List.map_nil, h1 p hp]
      exact make1_eq_make _ _ _ hx hn
    · rw [if_neg h2, e2, e3]

/-- **C76** The second reader of the same records, which also tells where the record ends. -/
theorem C76_read_next (xss : List ℝ) (i : Nat) (r : TabRecord) (h : Holds xss i r.encode) (hxy : r.x.length = r.y.length) :
    readTabRaw xss i = .ok ((r.effective.map Prod.fst, r.effective.map Prod.snd), (r.x, r.y), i + r.encode.length) ∧
    readTabB xss i = (Tab1D.make (r.effective.map Prod.fst) (r.effective.map Prod.snd) r.x r.y).map (fun t => (t, i + r.encode.length)) := by
  obtain ⟨e1, e2, e3, e4, e5, e6⟩ := h.parts hxy
  have hraw : readTabRaw xss i = .ok ((r.effective.map Prod.fst, r.effective.map Prod.snd), (r.x, r.y), i + r.encode.length) := by
    unfold readTabRaw
    simp only [e1, e4, e5, e6, bind, Except.bind, pure, Except.pure]
    have hlen : i + 2 + 2 * r.regions.length + 2 * r.x.length = i + r.encode.length := by
      unfold TabRecord.encode
      simp only [List.length_append, List.length_cons, List.length_nil, List.length_map]
      omega
    unfold TabRecord.effective
    by_cases h0 : r.regions = []
    · rw [hlen]; simp [h0]
    · rw [if_neg (by simpa using h0), if_neg h0, e2, e3]
      simp only []
      rw [if_neg (by simpa using h0), hlen]
  refine ⟨hraw, ?_⟩
  unfold readTabB
  rw [hraw]
  simp only [bind, Except.bind, pure, Except.pure]
  cases Tab1D.make (r.effective.map Prod.fst) (r.effective.map Prod.snd) r.x r.y <;> rfl

/-- Non-vacuity: a two-region record behind two other numbers. -/
example : Holds [9, 8, 2, 2, 3, 1, 2, 3, 1, 2, 3, 5, 6, 7, 4] 2 (TabRecord.encode ⟨[(2, .histogram), (3, .linLin)], [1, 2, 3], [5, 6, 7]⟩) :=
  ⟨[9, 8], [4], by simp [TabRecord.encode, lawCode], rfl⟩

/-- **C76** caveat: a number that stands for no interpolation law is not rejected.  The region is then a histogram. -/
theorem C76_unknown_law_accepted (c : ℝ) (hc : interpOfCode c = none) (pre post : List ℝ) (a b u v : ℝ) (hab : a < b) :
    ∃ t, readTab (pre ++ [1, 2, c, 2, a, b, u, v] ++ post) pre.length = .ok t ∧
      t.regions = [⟨.histogram, [a, b], [u, v]⟩] := by
  obtain ⟨xss, hxss⟩ : ∃ xss, xss = pre ++ [1, 2, c, 2, a, b, u, v] ++ post := ⟨_, rfl⟩
  have H : Holds xss pre.length ([1, 2, c, 2] ++ ([a, b] ++ [u, v])) := ⟨pre, post, hxss, rfl⟩
  rw [← hxss]
  have g0 : natAt xss pre.length = .ok 1 := by
    have : Holds xss pre.length [((1 : ℕ) : ℝ)] := by
      have := (show Holds xss pre.length ([1] ++ [2, c, 2, a, b, u, v]) from H).left
      simpa using this
    exact this.nat
  have g2 : getAt xss (pre.length + 2) = .ok c :=
    (show Holds xss pre.length ([1, 2] ++ ([c] ++ [2, a, b, u, v])) from H).right.left.get
  have g3 : natAt xss (pre.length + 1 + 2 * 1) = .ok 2 := by
    have : Holds xss (pre.length + 3) [((2 : ℕ) : ℝ)] := by
      have := (show Holds xss pre.length ([1, 2, c] ++ ([2] ++ [a, b, u, v])) from H).right.left
      simpa using this
    exact this.nat
  have g4 : xssSlice xss (pre.length + 2 + 2 * 1) 2 = .ok [a, b] := H.right.left.slice
  have g5 : xssSlice xss (pre.length + 2 + 2 * 1 + 2) 2 = .ok [u, v] := H.right.right.slice
  unfold readTab
  simp only [g0, g3, g4, g5, g2, bind, Except.bind]
  have hi : interpCast c = .histogram := by simp [interpCast, hc]
  rw [if_neg (by norm_num), if_pos trivial, hi]
  unfold Tab1D.make1
  have hs : isSorted [a, b] = true := by
    rw [isSorted_iff]; simp [hab.le]
  simp [hs, slice, bind, Except.bind, pure, Except.pure, Region.make, Interpolation.verifyX, Interpolation.verifyY,
    Interpolation.hasAdjacentEqual, hab.ne]

example : interpOfCode 6 = none := by
  simp [interpOfCode]

/-- **C80** Maxwellian and evaporation laws: the temperature is the record at the given index, the restriction energy the number after it. -/
theorem C80_temperature_law (xss : List ℝ) (i : Nat) (r : TabRecord) (u : ℝ) (h : Holds xss i (r.encode ++ [u]))
    (hxy : r.x.length = r.y.length) :
    tempAce xss i = (Tab1D.make (r.effective.map Prod.fst) (r.effective.map Prod.snd) r.x r.y).map (fun t => (t, u)) := by
  unfold tempAce
  rw [(C76_read_next xss i r h.left hxy).1]
  simp only [bind, Except.bind, pure, Except.pure, h.right.get]
  cases Tab1D.make (r.effective.map Prod.fst) (r.effective.map Prod.snd) r.x r.y <;> rfl

/-- **C80** Watt law: the records of `a` and `b` follow each other, then comes the restriction energy. -/
theorem C80_watt (xss : List ℝ) (i : Nat) (ra rb : TabRecord) (u : ℝ) (h : Holds xss i (ra.encode ++ (rb.encode ++ [u])))
    (ha : ra.x.length = ra.y.length) (hb : rb.x.length = rb.y.length) (ta tb : Tab1D)
    (hta : Tab1D.make (ra.effective.map Prod.fst) (ra.effective.map Prod.snd) ra.x ra.y = .ok ta)
    (htb : Tab1D.make (rb.effective.map Prod.fst) (rb.effective.map Prod.snd) rb.x rb.y = .ok tb) :
    wattAce xss i = .ok (ta, tb, u) := by
  unfold wattAce
  rw [(C76_read_next xss i ra h.left ha).2, hta]
  simp only [bind, Except.bind, pure, Except.pure, Except.map]
  rw [(C76_read_next xss _ rb h.right.left hb).2, htb]
  simp only [Except.map, h.right.right.get]

/-- **C80** Level scattering: the two coefficients. -/
theorem C80_level (xss : List ℝ) (i : Nat) (c1 c2 : ℝ) (h : Holds xss i ([c1] ++ [c2])) : levelAce xss i = .ok (c1, c2) := by
  unfold levelAce
  have h2 := h.right
  simp only [List.length_cons, List.length_nil, Nat.zero_add] at h2
  simp only [h.left.get, h2.get, bind, Except.bind, pure, Except.pure]

/-- **C80** violation: the bin bounds of a general evaporation law are read one place too early, so the object holds their number in
place of the first bound and lacks the last bound. -/
theorem C80_violation_bounds (xss : List ℝ) (i : Nat) (r : TabRecord) (bounds : List ℝ)
    (h : Holds xss i (r.encode ++ (((bounds.length : ℝ) :: bounds)))) (hxy : r.x.length = r.y.length) (t : Tab1D) (b : List ℝ)
    (hb : genEvapAce xss i = .ok (t, b)) : b = ((bounds.length : ℝ) :: bounds).take bounds.length := by
  unfold genEvapAce at hb
  rw [(C76_read_next xss i r h.left hxy).1] at hb
  simp only [bind, Except.bind] at hb
  have hr := h.right
  have hn : natAt xss (i + r.encode.length) = .ok bounds.length :=
    (show Holds xss (i + r.encode.length) ([(bounds.length : ℝ)] ++ bounds) from hr).left.nat
  have hs : xssSlice xss (i + r.encode.length) bounds.length = .ok (((bounds.length : ℝ) :: bounds).take bounds.length) := by
    have : Holds xss (i + r.encode.length) (((bounds.length : ℝ) :: bounds).take bounds.length ++
        ((bounds.length : ℝ) :: bounds).drop bounds.length) := by rw [List.take_append_drop]; exact hr
    have := this.left.slice
    rwa [List.length_take, List.length_cons, Nat.min_eq_left (by omega)] at this
  rw [hn] at hb
  simp only [] at hb
  rw [hs] at hb
  simp only [] at hb
  split at hb
  · cases hb
  · cases hT : Tab1D.make (r.effective.map Prod.fst) (r.effective.map Prod.snd) r.x r.y with
    | error e => rw [hT] at hb; cases hb
    | ok t' =>
      rw [hT] at hb
      simp only [pure, Except.pure, Except.ok.injEq, Prod.mk.injEq] at hb
      exact hb.2.symm

/-- **C80** violation: a general evaporation law whose first bound is below the number of bounds (as with every law starting at zero) is
rejected. -/
theorem C80_violation_rejected (xss : List ℝ) (i : Nat) (r : TabRecord) (b0 b1 : ℝ) (bs : List ℝ)
    (h : Holds xss i (r.encode ++ ((((b0 :: b1 :: bs).length : ℕ) : ℝ) :: b0 :: b1 :: bs))) (hxy : r.x.length = r.y.length)
    (h0 : b0 < ((b0 :: b1 :: bs).length : ℕ)) : genEvapAce xss i = .error .exc := by
  unfold genEvapAce
  rw [(C76_read_next xss i r h.left hxy).1]
  simp only [bind, Except.bind]
  have hr := h.right
  have hn : natAt xss (i + r.encode.length) = .ok (b0 :: b1 :: bs).length :=
    (show Holds xss (i + r.encode.length) ([(((b0 :: b1 :: bs).length : ℕ) : ℝ)] ++ (b0 :: b1 :: bs)) from hr).left.nat
  have hs : xssSlice xss (i + r.encode.length) (b0 :: b1 :: bs).length =
      .ok ((((b0 :: b1 :: bs).length : ℕ) : ℝ) :: b0 :: (b1 :: bs).take bs.length) := by
    have e : (((b0 :: b1 :: bs).length : ℕ) : ℝ) :: b0 :: b1 :: bs =
        ((((b0 :: b1 :: bs).length : ℕ) : ℝ) :: b0 :: (b1 :: bs).take bs.length) ++ (b1 :: bs).drop bs.length := by
      simp only [List.cons_append, List.take_append_drop]
    rw [e] at hr
    have := hr.left.slice
    rw [← this]
    congr 1
    simp only [List.length_cons, List.length_take]
    omega
  rw [hn]
  simp only []
  rw [hs]
  simp only []
  rw [if_pos]
  rw [← Bool.not_eq_true, isSorted_iff]
  intro hp
  rw [List.pairwise_cons] at hp
  exact absurd (hp.1 b0 (by simp)) (not_le.mpr h0)

example : Holds ([0, 1, 1, 1] ++ [3, 0, 1, 2]) 0 (TabRecord.encode ⟨[], [1], [1]⟩ ++
    ((((([0, 1, 2] : List ℝ).length : ℕ)) : ℝ) :: [0, 1, 2])) :=
  ⟨[], [], by simp [TabRecord.encode], rfl⟩

end PNDL
