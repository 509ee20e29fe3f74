import Verif.Props.ThermalCont

/-! C87: the thermal scattering law as a whole. -/
namespace PNDL
open Spec

/-- The table that stands for an absent incoherent elastic cross section. -/
noncomputable def zeroTab : Tab1D := ⟨[2], [.histogram], [0, 100], [0, 0], [⟨.histogram, [0, 100], [0, 0]⟩]⟩

theorem zeroTab_make : Tab1D.make1 .histogram [0, 100] [0, 0] = .ok zeroTab := by
  norm_num [Tab1D.make1, zeroTab, isSorted, slice, Region.make, bind, Except.bind, pure, Except.pure, Interpolation.verifyX, Interpolation.verifyY, Interpolation.hasAdjacentEqual]

theorem zeroTab_eval (E : ℝ) : zeroTab.eval E = .ok 0 := by
  have hz : ∀ g : Region, g = ⟨.histogram, [0, 100], [0, 0]⟩ → g.eval E = .ok 0 := by
    rintro g rfl
    unfold Region.eval
    simp only [bind, Except.bind, front, back, getAt, List.getElem?_cons_zero, List.getLast?_cons_cons, List.getLast?_singleton]
    by_cases h0 : E ≤ 0
    · rw [if_pos h0]
    · rw [if_neg h0]
      by_cases h1 : 100 ≤ E
      · rw [if_pos h1]
      · rw [if_neg h1]
        have hs : [(0 : ℝ), 100].Pairwise (· ≤ ·) := by norm_num
        have q0 := (lowerBound_iff hs E (i := 0) (a := 0) rfl).mp (not_le.mp h0)
        have q1 := mt (lowerBound_iff hs E (i := 1) (a := 100) rfl).mpr (by linarith)
        have : lowerBound [(0 : ℝ), 100] E = 1 := by omega
        rw [this]
        simp [subIdx, Interpolation.interpolate]
  have h1 := hz _ rfl
  unfold Tab1D.eval zeroTab
  simp only [bind, Except.bind, front, back, getAt, List.getElem?_cons_zero, List.getLast?_cons_cons, List.getLast?_singleton]
  by_cases h0 : E ≤ 0
  · rw [if_pos h0]; exact h1
  · rw [if_neg h0]
    by_cases h2 : E ≥ 100
    · rw [if_pos h2]; exact h1
    · rw [if_neg h2]
      have : seekRegion E [⟨.histogram, [0, 100], [0, 0]⟩] = .ok [⟨.histogram, [0, 100], [0, 0]⟩] := by
        unfold seekRegion
        simp only [bind, Except.bind, back, List.getLast?_cons_cons, List.getLast?_singleton]
        rw [if_neg (by linarith)]
      rw [this]; exact h1

/-- C87: the flags.  There is elastic data exactly when the file has an elastic block; it is coherent for mode 4 and incoherent for every
other mode.  Never both. -/
theorem C87_flags (a : TslAce) (u : Bool) (t : ThermalLaw) (h : ThermalLaw.makeAce a u = .ok t) :
    (t.hasCoherent = true ↔ a.jxs 3 ≠ 0 ∧ a.nxs 4 = 4) ∧ (t.hasIncoherent = true ↔ a.jxs 3 ≠ 0 ∧ a.nxs 4 ≠ 4) ∧
    ¬ (t.hasCoherent = true ∧ t.hasIncoherent = true) := by
  unfold ThermalLaw.makeAce at h
  obtain ⟨ii, hii, h⟩ := bind_ok h
  by_cases h3 : a.jxs 3 ≠ 0
  · rw [if_pos h3] at h
    by_cases h4 : a.nxs 4 = 4
    · rw [if_pos h4] at h
      obtain ⟨_, _, h⟩ := bind_ok h
      obtain ⟨_, _, h⟩ := bind_ok h
      cases h; simp [h3, h4]
    · rw [if_neg h4] at h
      obtain ⟨_, _, h⟩ := bind_ok h
      obtain ⟨_, _, h⟩ := bind_ok h
      cases h; simp [h3, h4]
  · rw [if_neg h3] at h
    obtain ⟨_, _, h⟩ := bind_ok h
    obtain ⟨_, _, h⟩ := bind_ok h
    cases h; simp at h3; simp [h3]

/-- The three parts of an accepted law are what their own constructors read from the file. -/
theorem ThermalLaw.parts {a : TslAce} {u : Bool} {t : ThermalLaw} (h : ThermalLaw.makeAce a u = .ok t) :
    IncInelastic.makeAce a u = .ok t.inelastic ∧ CohElastic.makeAce a = .ok t.coherent ∧ IncElastic.makeAce a = .ok t.incoherent := by
  unfold ThermalLaw.makeAce at h
  obtain ⟨ii, hii, h⟩ := bind_ok h
  by_cases h3 : a.jxs 3 ≠ 0
  · rw [if_pos h3] at h
    by_cases h4 : a.nxs 4 = 4
    · rw [if_pos h4] at h
      obtain ⟨_, h1, h⟩ := bind_ok h
      obtain ⟨_, h2, h⟩ := bind_ok h
      cases h; exact ⟨hii, h1, h2⟩
    · rw [if_neg h4] at h
      obtain ⟨_, h1, h⟩ := bind_ok h
      obtain ⟨_, h2, h⟩ := bind_ok h
      cases h; exact ⟨hii, h2, h1⟩
  · rw [if_neg h3] at h
    obtain ⟨_, h1, h⟩ := bind_ok h
    obtain ⟨_, h2, h⟩ := bind_ok h
    cases h; exact ⟨hii, h2, h1⟩

/-- C87: a part the law does not have contributes nothing at any energy, and sampling it raises the library's exception. -/
theorem C87_absent (a : TslAce) (u : Bool) (t : ThermalLaw) (h : ThermalLaw.makeAce a u = .ok t) (E : ℝ) :
    (t.hasCoherent = false → t.coherent.xs E = .ok 0 ∧ ∀ ω k, t.coherent.sample E ω k = .error .exc) ∧
    (t.hasIncoherent = false → t.incoherent.xs.eval E = .ok 0 ∧ ∀ ω k, t.incoherent.sample E ω k = .error .exc) := by
  obtain ⟨_, hc, hi⟩ := ThermalLaw.parts h
  obtain ⟨f1, f2, _⟩ := C87_flags a u t h
  constructor
  · intro hf
    have h4 : a.nxs 4 ≠ 4 := by
      intro h4
      by_cases h3 : a.jxs 3 = 0
      · unfold CohElastic.makeAce at hc
        rw [if_pos h4] at hc
        obtain ⟨i, hl, _⟩ := bind_ok hc
        have := locator_ok hl
        omega
      · rw [f1.mpr ⟨h3, h4⟩] at hf; cases hf
    unfold CohElastic.makeAce at hc
    rw [if_neg h4] at hc
    have hc' := Except.ok.inj hc
    rw [← hc']
    exact ⟨rfl, fun _ _ => rfl⟩
  · intro hf
    have h4 : a.nxs 4 = 4 ∨ a.jxs 3 = 0 := by
      by_contra hn
      push Not at hn
      rw [f2.mpr ⟨hn.2, hn.1⟩] at hf; cases hf
    unfold IncElastic.makeAce at hi
    rw [if_pos h4, zeroTab_make] at hi
    have hi' := Except.ok.inj hi
    rw [← hi']
    exact ⟨zeroTab_eval E, fun _ _ => rfl⟩

/-- C87: the total cross section is the sum of the parts the law has. -/
theorem C87_total (a : TslAce) (u : Bool) (t : ThermalLaw) (h : ThermalLaw.makeAce a u = .ok t) (E : ℝ) :
    (t.hasCoherent = false → t.hasIncoherent = false → t.xs E = t.inelastic.xs.eval E) ∧
    (t.hasCoherent = true → ∀ x y, t.inelastic.xs.eval E = .ok x → t.coherent.xs E = .ok y → t.xs E = .ok (x + y)) ∧
    (t.hasIncoherent = true → ∀ x y, t.inelastic.xs.eval E = .ok x → t.incoherent.xs.eval E = .ok y → t.xs E = .ok (x + y)) := by
  obtain ⟨c1, c2⟩ := C87_absent a u t h E
  obtain ⟨_, _, f3⟩ := C87_flags a u t h
  unfold ThermalLaw.xs
  refine ⟨?_, ?_, ?_⟩
  · intro h1 h2
    rw [(c1 h1).1, (c2 h2).1]
    cases t.inelastic.xs.eval E with
    | error e => rfl
    | ok v => simp [bind, Except.bind, pure, Except.pure]
  · intro h1 x y hx hy
    have h2 : t.hasIncoherent = false := by
      cases hh : t.hasIncoherent with
      | false => rfl
      | true => exact absurd ⟨h1, hh⟩ f3
    rw [(c2 h2).1, hx, hy]
    simp [bind, Except.bind, pure, Except.pure]
  · intro h1 x y hx hy
    have h2 : t.hasCoherent = false := by
      cases hh : t.hasCoherent with
      | false => rfl
      | true => exact absurd ⟨hh, h1⟩ f3
    rw [(c1 h2).1, hx, hy]
    simp [bind, Except.bind, pure, Except.pure]

/-- C87: the inelastic cross section is the file's table (energies after the count, values after the energies), and the maximum energy is
the last tabulated one. -/
theorem C87_inelastic (a : TslAce) (u : Bool) (t : ThermalLaw) (h : ThermalLaw.makeAce a u = .ok t) :
    ∃ (s : Nat) (c : ℝ), a.jxs 0 = (s : Int) + 1 ∧ a.xss[s]? = some c ∧ t.inelastic.xs.x.length = ⌊c⌋.toNat ∧
      t.inelastic.xs.y.length = ⌊c⌋.toNat ∧ t.inelastic.xs.int = [.linLin] ∧
      (∀ n < ⌊c⌋.toNat, t.inelastic.xs.x[n]? = a.xss[s + 1 + n]? ∧ t.inelastic.xs.y[n]? = a.xss[s + 1 + ⌊c⌋.toNat + n]?) ∧
      (∀ m, t.maxEnergy = .ok m → a.xss[s + ⌊c⌋.toNat]? = some m ∧ ∀ e ∈ t.inelastic.xs.x, e ≤ m) ∧
      ((∃ d, t.inelastic.dist = .discrete d) ↔ a.nxs 6 = 0 ∨ a.nxs 6 = 1) ∧ ((∃ d, t.inelastic.dist = .continuous d) ↔ a.nxs 6 = 2) := by
  obtain ⟨hi, _, _⟩ := ThermalLaw.parts h
  unfold IncInelastic.makeAce at hi
  obtain ⟨s, hs, hi1⟩ := bind_ok hi
  obtain ⟨ne, hne, hi2⟩ := bind_ok hi1
  obtain ⟨es, hes, hi3⟩ := bind_ok hi2
  obtain ⟨xs, hxs, hi4⟩ := bind_ok hi3
  obtain ⟨tb, htb, hi5⟩ := bind_ok hi4
  clear hi hi1 hi2 hi3 hi4
  unfold natAt at hne
  obtain ⟨c, hc, hne⟩ := bind_ok hne
  have hne := Except.ok.inj hne
  subst hne
  have e1 := slice_length hes
  have e2 := slice_length hxs
  have htb' : tb.x = es ∧ tb.y = xs ∧ tb.int = [.linLin] ∧ es.Pairwise (· ≤ ·) := by
    unfold Tab1D.make1 at htb
    dsimp only at htb
    split at htb
    · cases htb
    split at htb
    · cases htb
    rename_i hsrt
    obtain ⟨_, _, htb⟩ := bind_ok htb
    obtain ⟨_, _, htb⟩ := bind_ok htb
    obtain ⟨_, _, htb⟩ := bind_ok htb
    cases htb
    exact ⟨rfl, rfl, rfl, isSorted_iff.mp (by simpa using hsrt)⟩
  obtain ⟨t1, t2, t3, t4⟩ := htb'
  have fin : t.inelastic.xs = tb ∧ ((∃ d, t.inelastic.dist = .discrete d) ↔ a.nxs 6 = 0 ∨ a.nxs 6 = 1) ∧
      ((∃ d, t.inelastic.dist = .continuous d) ↔ a.nxs 6 = 2) := by
    by_cases h0 : a.nxs 6 = 0 ∨ a.nxs 6 = 1
    · rw [if_pos h0] at hi5
      obtain ⟨d, hd, hi⟩ := bind_ok hi5
      have hi := Except.ok.inj hi
      rw [← hi]
      refine ⟨rfl, ⟨fun _ => h0, fun _ => ⟨d, rfl⟩⟩, ⟨?_, ?_⟩⟩
      · rintro ⟨_, h⟩; cases h
      · intro h2; omega
    · rw [if_neg h0] at hi5
      by_cases h2 : a.nxs 6 = 2
      · rw [if_pos h2] at hi5
        obtain ⟨d, hd, hi⟩ := bind_ok hi5
        have hi := Except.ok.inj hi
        rw [← hi]
        refine ⟨rfl, ⟨?_, fun h => absurd h h0⟩, ⟨fun _ => h2, fun _ => ⟨d, rfl⟩⟩⟩
        rintro ⟨_, h⟩; cases h
      · rw [if_neg h2] at hi5; cases hi5
  obtain ⟨g1, g2, g3⟩ := fin
  refine ⟨s, c, locator_ok hs, getAt_eq_ok.mp hc, by rw [g1, t1, e1], by rw [g1, t2, e2], by rw [g1, t3], ?_, ?_, g2, g3⟩
  · intro n hn
    rw [g1, t1, t2]
    exact ⟨slice_get hes n hn, slice_get hxs n hn⟩
  · intro m hm
    unfold ThermalLaw.maxEnergy at hm
    rw [g1, t1] at hm
    have hl := back_eq_ok.mp hm
    have hlast : es[es.length - 1]? = some m := by rw [← List.getLast?_eq_getElem?]; exact hl
    have hpos := lt_length_of_some hlast
    refine ⟨?_, ?_⟩
    · rw [← hlast, slice_get hes _ (by omega)]
      congr 1; omega
    · intro e he
      rw [g1, t1] at he
      obtain ⟨j, hj⟩ := List.mem_iff_getElem?.mp he
      exact pairwise_le_getElem? t4 (by have := lt_length_of_some hj; omega) hj hlast

/-- C87: what is inside an accepted law is well-formed. -/
theorem C87_parts_valid (a : TslAce) (u : Bool) (t : ThermalLaw) (h : ThermalLaw.makeAce a u = .ok t) :
    (t.hasCoherent = true → t.coherent.edges.Pairwise (· ≤ ·) ∧ ∀ e ∈ t.coherent.edges, 0 ≤ e) ∧ ValidInc t.incoherent ∧
    (∀ d, t.inelastic.dist = .discrete d → ValidDCE d) ∧ (∀ d, t.inelastic.dist = .continuous d → ValidCCE d ∧ d.unitBased = u) := by
  obtain ⟨hi, hc, hie⟩ := ThermalLaw.parts h
  refine ⟨?_, (C66_read a _ hie).1, ?_, ?_⟩
  · intro hf
    have hv := ((C65_read a t.coherent hc).1 (((C87_flags a u t h).1).mp hf).2).1
    exact ⟨hv.sorted, hv.nonneg⟩
  · intro d hd
    unfold IncInelastic.makeAce at hi
    obtain ⟨s, hs, hi⟩ := bind_ok hi
    obtain ⟨ne, hne, hi⟩ := bind_ok hi
    obtain ⟨es, hes, hi⟩ := bind_ok hi
    obtain ⟨xs, hxs, hi⟩ := bind_ok hi
    obtain ⟨tb, htb, hi⟩ := bind_ok hi
    split at hi
    · obtain ⟨d', hd', hi⟩ := bind_ok hi
      have hi := Except.ok.inj hi
      rw [← hi] at hd; cases hd
      exact (C85_read a _ hd').1
    · split at hi
      · obtain ⟨d', hd', hi⟩ := bind_ok hi
        have hi := Except.ok.inj hi
        rw [← hi] at hd; cases hd
      · cases hi
  · intro d hd
    unfold IncInelastic.makeAce at hi
    obtain ⟨s, hs, hi⟩ := bind_ok hi
    obtain ⟨ne, hne, hi⟩ := bind_ok hi
    obtain ⟨es, hes, hi⟩ := bind_ok hi
    obtain ⟨xs, hxs, hi⟩ := bind_ok hi
    obtain ⟨tb, htb, hi⟩ := bind_ok hi
    split at hi
    · obtain ⟨d', hd', hi⟩ := bind_ok hi
      have hi := Except.ok.inj hi
      rw [← hi] at hd; cases hd
    · split at hi
      · obtain ⟨d', hd', hi⟩ := bind_ok hi
        have hi := Except.ok.inj hi
        rw [← hi] at hd; cases hd
        obtain ⟨q1, q2, _⟩ := C86_read a u _ hd'
        exact ⟨q1, q2⟩
      · cases hi

/-- The claim that every file is either accepted or refused with the library's exception is false of the code: a file without an elastic block
(pointer 0) but with elastic mode 4 is undefined behaviour, because the coherent constructor looks only at the mode. -/
theorem C87_violation_mode (a : TslAce) (u : Bool) (h3 : a.jxs 3 = 0) (h4 : a.nxs 4 = 4) (ii : IncInelastic)
    (hii : IncInelastic.makeAce a u = .ok ii) : ThermalLaw.makeAce a u = .error .ub := by
  unfold ThermalLaw.makeAce IncElastic.makeAce CohElastic.makeAce
  rw [hii]
  simp only [bind, Except.bind]
  rw [if_neg (by simp [h3]), if_pos (Or.inl h4), zeroTab_make, if_pos h4, h3]
  rfl

/-- A file with discrete inelastic data and no elastic block: accepted, and its cross section is the inelastic one. -/
theorem C87_example : ∃ t, ThermalLaw.makeAce ⟨fun n => if n = 3 then 1 else 0, fun n => if n = 0 then 1 else if n = 2 then 4 else 0, [1, 2, 5, 3, 1 / 2]⟩ false = .ok t ∧
    t.hasCoherent = false ∧ t.hasIncoherent = false ∧ t.xs 7 = .ok 5 := by
  have h1 : ⌊(1 : ℝ)⌋.toNat = 1 := by norm_num
  have h3 : Int.toNat 3 = 3 := rfl
  refine ⟨⟨false, false, ⟨[], []⟩, ⟨zeroTab, 0, [], []⟩, ⟨⟨[1], [.linLin], [2], [5], [⟨.linLin, [2], [5]⟩]⟩, .discrete ⟨[2], [[⟨3, [1 / 2]⟩]], 1, 1, false⟩⟩⟩, ?_, rfl, rfl, ?_⟩
  · unfold ThermalLaw.makeAce IncElastic.makeAce CohElastic.makeAce
    rw [zeroTab_make]
    norm_num [IncInelastic.makeAce, DiscreteCE.makeAce, locator, natAt, getAt, bind, Except.bind, pure, Except.pure, h1, h3, xssSlice, isSorted, asU32,
      readDiscreteTables, readDiscretes, readDiscrete, Tab1D.make1, slice, Region.make, Interpolation.verifyX, Interpolation.verifyY, Interpolation.hasAdjacentEqual]
  · unfold ThermalLaw.xs
    simp only [zeroTab_eval]
    norm_num [Tab1D.eval, Region.eval, CohElastic.xs, front, back, getAt, bind, Except.bind, pure, Except.pure]

end PNDL
