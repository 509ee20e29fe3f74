import Verif.Props.AceTables
import Verif.Props.BinDensity
import Verif.Props.Fission

/-! C96 (uncorrelated laws), C97 (assembly of a reaction), C98 (discrete photons). -/
namespace PNDL
open MeasureTheory

/-! ### C96 -/

/-- **C96** A null energy law is refused; anything else is accepted and kept. -/
theorem C96_construct (a : AngleDist) (e : Option ELaw) :
    (e = none → Uncorr.make a e = .error .exc) ∧ ∀ l, e = some l → Uncorr.make a e = .ok ⟨a, l⟩ := by
  constructor
  · rintro rfl; rfl
  · rintro l rfl; rfl

/-- **C96** Sampling: the cosine is what the angular distribution gives at the current place of the stream, the energy what the energy law
gives from the place the angular distribution stopped at; errors of either are passed on. -/
theorem C96_sample (u : Uncorr) (fuel : Nat) (E : ℝ) (ω : Tape) (k : Nat) (mu e : ℝ) (k2 : Nat) :
    u.sample fuel E ω k = .ok (mu, e, k2) ↔
      ∃ k1, u.angle.sample fuel E ω k = .ok (mu, k1) ∧ u.energy.sample fuel E ω k1 = .ok (e, k2) := by
  unfold Uncorr.sample
  constructor
  · intro h
    obtain ⟨⟨m, k1⟩, h1, h⟩ := bind_ok h
    obtain ⟨⟨e', k3⟩, h2, h⟩ := bind_ok h
    cases h
    exact ⟨k1, h1, h2⟩
  · rintro ⟨k1, h1, h2⟩
    rw [h1]
    simp only [bind, Except.bind]
    rw [h2]
    rfl

/-- **C96** The joint density is the product of the two densities; it is absent exactly when the energy law has none, whatever the angle. -/
theorem C96_product (u : Uncorr) (E mu Eout : ℝ) :
    (u.energy.pdf E Eout = .ok none → u.pdf E mu Eout = .ok none) ∧
    (∀ p a, u.energy.pdf E Eout = .ok (some p) → u.angle.pdf E mu = .ok a → u.pdf E mu Eout = .ok (some (a * p))) ∧
    (u.pdf E mu Eout = .ok none → u.energy.pdf E Eout = .ok none) := by
  unfold Uncorr.pdf
  refine ⟨?_, ?_, ?_⟩
  · intro h; rw [h]; rfl
  · intro p a h1 h2
    rw [h1]
    simp only [bind, Except.bind]
    rw [h2]
    simp only [pure, Except.pure, mul_comm]
  · intro h
    obtain ⟨o, h1, h⟩ := bind_ok h
    cases o with
    | none => exact h1
    | some p =>
      obtain ⟨a, _, h⟩ := bind_ok h
      cases h

/-- **C96** `angle_pdf` is the marginal of the joint density: if the energy density has integral one over `[A, B]`, integrating the joint
density over the outgoing energy gives `angle_pdf`. -/
theorem C96_marginal (u : Uncorr) (E mu a : ℝ) (g : ℝ → ℝ) (A B : ℝ) (hg : ∀ Eout, u.energy.pdf E Eout = .ok (some (g Eout)))
    (hi : ∫ e in A..B, g e = 1) (ha : u.angle.pdf E mu = .ok a) :
    ∃ j : ℝ → ℝ, (∀ Eout, u.pdf E mu Eout = .ok (some (j Eout))) ∧ u.anglePdf E mu = .ok (some (∫ e in A..B, j e)) := by
  refine ⟨fun e => a * g e, fun e => (C96_product u E mu e).2.1 _ _ (hg e) ha, ?_⟩
  rw [intervalIntegral.integral_const_mul, hi, mul_one]
  unfold Uncorr.anglePdf
  rw [ha]
  rfl

/-- **C96** The joint density is a probability density when the two factors are. -/
theorem C96_normalised (u : Uncorr) (E : ℝ) (g h : ℝ → ℝ) (A B : ℝ) (hg : ∀ Eout, u.energy.pdf E Eout = .ok (some (g Eout)))
    (hh : ∀ mu, u.angle.pdf E mu = .ok (h mu)) (hi : ∫ e in A..B, g e = 1) (hm : ∫ m in (-1 : ℝ)..1, h m = 1) :
    ∃ j : ℝ → ℝ → ℝ, (∀ mu Eout, u.pdf E mu Eout = .ok (some (j mu Eout))) ∧ ∫ m in (-1 : ℝ)..1, ∫ e in A..B, j m e = 1 := by
  refine ⟨fun m e => h m * g e, fun m e => (C96_product u E m e).2.1 _ _ (hg e) (hh m), ?_⟩
  simp only [intervalIntegral.integral_const_mul, hi, mul_one, hm]

/-- The hypotheses are met by an isotropic law with one set of bins. -/
example (E : ℝ) : ∃ g h : ℝ → ℝ, (∀ Eout, (ELaw.bins ⟨[1], [[0, 1, 3]]⟩).pdf E Eout = .ok (some (g Eout))) ∧
    (∀ mu, AngleDist.pdf ⟨[1 / 10 ^ 5], [.isotropic]⟩ E mu = .ok (h mu)) ∧ ∫ e in (0 : ℝ)..3, g e = 1 := by
  obtain ⟨g, g1, _, g3⟩ := C95_bins_partial ⟨[1], [[0, 1, 3]]⟩ (by simp) (by simp) rfl
    (by intro s hs; simp at hs; subst hs; exact ⟨by simp, by norm_num⟩) E
  refine ⟨g, isoPdf, fun e => by simp only [ELaw.pdf, g1]; rfl, ?_, (g3 0 3 ?_).2⟩
  · intro mu
    have hle : lowerBound [(1 : ℝ) / 10 ^ 5] E ≤ 1 := lowerBound_le (List.pairwise_singleton _ _) E
    unfold AngleDist.pdf AngleDist.find
    by_cases h0 : lowerBound [(1 : ℝ) / 10 ^ 5] E = 0
    · simp only [h0, if_true]
      rfl
    · have h1 : lowerBound [(1 : ℝ) / 10 ^ 5] E = 1 := by omega
      simp only [h1, Nat.one_ne_zero, if_false, List.length_singleton, if_true]
      rfl
  · rintro v ⟨s, hs, hv⟩
    simp at hs
    subst hs
    simp at hv
    rcases hv with rfl | rfl | rfl <;> norm_num

/-! ### C98 -/

/-- **C98** A discrete photon is accepted exactly for indicator 0, 1 or 2, positive energy and positive weight ratio. -/
theorem C98_accept (l : Int) (Eg awr : ℝ) : (∃ p, Photon.make l Eg awr = .ok p) ↔ (l = 0 ∨ l = 1 ∨ l = 2) ∧ 0 < Eg ∧ 0 < awr := by
  unfold Photon.make
  split_ifs with h1 h2 h3
  · simp; omega
  · simp; intro _ h; linarith
  · simp; intro _ _; linarith
  · simp
    exact ⟨by omega, by linarith, by linarith⟩

/-- **C98** Sampling draws nothing; a secondary photon (0 or 1) has exactly the given energy, a primary one (2) the given energy plus
`A/(A+1)` times the incident energy; the result is positive; no density is offered. -/
theorem C98_sample (l : Int) (Eg awr : ℝ) (p : Photon) (h : Photon.make l Eg awr = .ok p) (E : ℝ) (hE : 0 ≤ E) (ω : Tape) (k fuel : Nat) :
    (∃ e, (ELaw.photon p).sample fuel E ω k = .ok (e, k) ∧ 0 < e ∧ ((l = 0 ∨ l = 1) → e = Eg) ∧ (l = 2 → e = Eg + awr / (awr + 1) * E)) ∧
    ∀ Eout, (ELaw.photon p).pdf E Eout = .ok none := by
  obtain ⟨hl, h1, h2⟩ := (C98_accept l Eg awr).mp ⟨p, h⟩
  have hp : p = ⟨l, awr, Eg⟩ := by
    unfold Photon.make at h
    rw [if_neg (by omega), if_neg (by linarith), if_neg (by linarith)] at h
    exact (Except.ok.inj h).symm
  subst hp
  refine ⟨?_, fun _ => rfl⟩
  simp only [ELaw.sample, Photon.sample]
  by_cases hc : l = 0 ∨ l = 1
  · rw [if_pos hc]
    exact ⟨Eg, rfl, h1, fun _ => rfl, fun h => by omega⟩
  · rw [if_neg hc, rdiv_ok (by linarith)]
    refine ⟨_, rfl, ?_, fun h => absurd h hc, fun _ => rfl⟩
    have : 0 ≤ awr / (awr + 1) * E := mul_nonneg (div_nonneg h2.le (by linarith)) hE
    linarith

example : ∃ p, Photon.make 2 (1/2) 10 = .ok p := (C98_accept _ _ _).mpr ⟨by simp, by norm_num, by norm_num⟩

/-! ### C97 -/

/-- Which object belongs to law number `law` with data at index `j`, for an angular distribution `angle` (if the reaction has one). -/
inductive Spec.LawIs (a : AceBlocks) (q : ℝ) (angle : Option AngleDist) (j : Nat) : Int → Law → Prop
  | bins (ang d) : angle = some ang → EnergyBins.makeAce a.xss j = .ok d → LawIs a q angle j 1 (.uncorrelated ⟨ang, .bins d⟩)
  | photon (ang d) : angle = some ang → Photon.makeAce a.xss a.awr j = .ok d → LawIs a q angle j 2 (.uncorrelated ⟨ang, .photon d⟩)
  | level (ang c1 c2) : angle = some ang → levelAce a.xss j = .ok (c1, c2) → LawIs a q angle j 3 (.uncorrelated ⟨ang, .level ⟨c1, c2⟩⟩)
  | tabular (ang d) : angle = some ang → TabEnergy.makeAce a.xss j a.dlw = .ok d → LawIs a q angle j 4 (.uncorrelated ⟨ang, .tabular d⟩)
  | genEvap (ang t b) : angle = some ang → genEvapAce a.xss j = .ok (t, b) → LawIs a q angle j 5 (.uncorrelated ⟨ang, .genEvap t b⟩)
  | maxwell (ang t u) : angle = some ang → tempAce a.xss j = .ok (t, u) → LawIs a q angle j 7 (.uncorrelated ⟨ang, .maxwell t u⟩)
  | evap (ang t u) : angle = some ang → tempAce a.xss j = .ok (t, u) → LawIs a q angle j 9 (.uncorrelated ⟨ang, .evap t u⟩)
  | watt (ang x y u) : angle = some ang → wattAce a.xss j = .ok (x, y, u) → LawIs a q angle j 11 (.uncorrelated ⟨ang, .watt x y u⟩)
  | kalbach (d) : Kalbach.makeAce a.xss a.dlw j = .ok d → LawIs a q angle j 44 (.kalbach d)
  | correlated (d) : TabEnergyAngle.makeAce a.xss a.dlw j a.dlw = .ok d → LawIs a q angle j 61 (.tabEnergyAngle d)
  | nbody (d) : NBody.makeAce a.xss a.awr j q = .ok d → LawIs a q angle j 66 (.nbody d)

/-- The law numbers that need an angular distribution. -/
def Spec.needsAngle : List Int := [1, 2, 3, 4, 5, 7, 9, 11]
/-- The law numbers that carry their own. -/
def Spec.ownAngle : List Int := [44, 61, 66]

open Spec

theorem map_ok {α β : Type} {f : α → β} {r : Res α} {b : β} (h : r.map f = .ok b) : ∃ x, r = .ok x ∧ f x = b := by
  cases r with
  | error e => cases h
  | ok x => exact ⟨x, rfl, Except.ok.inj h⟩

/-- **C97** A law number gives the object it stands for, and nothing else is accepted. -/
theorem C97_law (a : AceBlocks) (q : ℝ) (angle : Option AngleDist) (law : Int) (j : Nat) (d : Law) :
    lawAce a q angle law j = .ok d ↔ LawIs a q angle j law d := by
  constructor
  · intro h
    unfold lawAce at h
    cases he : energyLawAce a law j with
    | none =>
      rw [he] at h
      simp only [] at h
      split_ifs at h with h1 h2 h3
      · obtain ⟨x, hx, rfl⟩ := map_ok h; subst h1; exact .kalbach _ hx
      · obtain ⟨x, hx, rfl⟩ := map_ok h; subst h2; exact .correlated _ hx
      · obtain ⟨x, hx, rfl⟩ := map_ok h; subst h3; exact .nbody _ hx
    | some e =>
      rw [he] at h
      cases angle with
      | none => cases h
      | some ang =>
        simp only [] at h
        obtain ⟨x, hx, h⟩ := bind_ok h
        obtain ⟨u, hu, h⟩ := bind_ok h
        cases hu
        cases h
        unfold energyLawAce at he
        split_ifs at he with h1 h2 h3 h4 h5 h6 h7 h8 <;> cases he <;> obtain ⟨y, hy, rfl⟩ := map_ok hx <;> subst_vars
        · exact .bins _ _ rfl hy
        · exact .photon _ _ rfl hy
        · exact .level _ _ _ rfl hy
        · exact .tabular _ _ rfl hy
        · exact .genEvap _ _ _ rfl hy
        · exact .maxwell _ _ _ rfl hy
        · exact .evap _ _ _ rfl hy
        · exact .watt _ _ _ _ rfl hy
  · intro h
    cases h with
    | bins ang d h1 h2 => subst h1; simp [lawAce, energyLawAce, h2, Except.map, bind, Except.bind, pure, Except.pure, Uncorr.make]
    | photon ang d h1 h2 => subst h1; simp [lawAce, energyLawAce, h2, Except.map, bind, Except.bind, pure, Except.pure, Uncorr.make]
    | level ang c1 c2 h1 h2 => subst h1; simp [lawAce, energyLawAce, h2, Except.map, bind, Except.bind, pure, Except.pure, Uncorr.make]
    | tabular ang d h1 h2 => subst h1; simp [lawAce, energyLawAce, h2, Except.map, bind, Except.bind, pure, Except.pure, Uncorr.make]
    | genEvap ang t b h1 h2 => subst h1; simp [lawAce, energyLawAce, h2, Except.map, bind, Except.bind, pure, Except.pure, Uncorr.make]
    | maxwell ang t u h1 h2 => subst h1; simp [lawAce, energyLawAce, h2, Except.map, bind, Except.bind, pure, Except.pure, Uncorr.make]
    | evap ang t u h1 h2 => subst h1; simp [lawAce, energyLawAce, h2, Except.map, bind, Except.bind, pure, Except.pure, Uncorr.make]
    | watt ang x y u h1 h2 => subst h1; simp [lawAce, energyLawAce, h2, Except.map, bind, Except.bind, pure, Except.pure, Uncorr.make]
    | kalbach d h => simp [lawAce, energyLawAce, h, Except.map]
    | correlated d h => simp [lawAce, energyLawAce, h, Except.map]
    | nbody d h => simp [lawAce, energyLawAce, h, Except.map]

/-- **C97** Unknown law numbers, and laws that need an angular distribution in a reaction without one, are refused with an exception. -/
theorem C97_refused (a : AceBlocks) (q : ℝ) (law : Int) (j : Nat) :
    (∀ angle, law ∉ needsAngle → law ∉ ownAngle → lawAce a q angle law j = .error .exc) ∧
    (law ∈ needsAngle → lawAce a q none law j = .error .exc) := by
  constructor
  · intro angle h1 h2
    simp only [needsAngle, ownAngle, List.mem_cons, List.not_mem_nil, or_false, not_or] at h1 h2
    simp [lawAce, energyLawAce, h1, h2]
  · intro h
    simp only [needsAngle, List.mem_cons, List.not_mem_nil, or_false] at h
    rcases h with rfl | rfl | rfl | rfl | rfl | rfl | rfl | rfl <;> simp [lawAce, energyLawAce]

/-- One entry of the chain gives one law and its probability. -/
def Spec.EntryIs (a : AceBlocks) (q : ℝ) (angle : Option AngleDist) (e : Nat × Nat × TabRecord) (o : Law × Tab1D) : Prop :=
  LawIs a q angle (a.dlw + (e.2.1 - 1)) e.1 o.1 ∧
    Tab1D.make (e.2.2.effective.map Prod.fst) (e.2.2.effective.map Prod.snd) e.2.2.x e.2.2.y = .ok o.2

/-- **C97** The chain of laws: all of them, in order, each with its own probability. -/
theorem C97_chain (a : AceBlocks) (q : ℝ) (angle : Option AngleDist) : ∀ (laws : List (Nat × Nat × TabRecord)) (loc fuel : Nat),
    LawChain a.xss a.dlw loc laws → laws.length ≤ fuel → ∀ out,
    (lawsAce a q angle fuel (a.dlw + (loc - 1)) = .ok out ↔ List.Forall₂ (EntryIs a q angle) laws out) := by
  intro laws
  induction laws with
  | nil => intro loc fuel h; exact absurd h (by simp [LawChain])
  | cons e rest ih =>
    obtain ⟨law, idat, r⟩ := e
    intro loc fuel h hf out
    cases fuel with
    | zero => simp at hf
    | succ fuel =>
      have core : ∀ (n : Nat), 1 ≤ idat → r.x.length = r.y.length →
          Holds a.xss (a.dlw + (loc - 1)) ([(n : ℝ)] ++ ([(law : ℝ)] ++ ([(idat : ℝ)] ++ r.encode))) →
          lawsAce a q angle (fuel + 1) (a.dlw + (loc - 1)) = (do
            let t ← Tab1D.make (r.effective.map Prod.fst) (r.effective.map Prod.snd) r.x r.y
            let d ← lawAce a q angle law (a.dlw + (idat - 1))
            if n = 0 then return [(d, t)]
            else do
              let i' ← subIdx (a.dlw + n) 1
              let rest ← lawsAce a q angle fuel i'
              return (d, t) :: rest) := by
        intro n hi hxy hH
        have g1 := hH.left.nat
        have g2 : intAt a.xss (a.dlw + (loc - 1) + 1) = .ok (law : Int) := by
          have h2 := hH.right.left
          rw [List.length_singleton] at h2
          exact Holds.int (by simpa using h2)
        have g3 := hH.right.right.left.nat
        have g4 := (C76_read_next a.xss _ r hH.right.right.right hxy).2
        simp only [List.length_cons, List.length_nil, Nat.zero_add] at g1 g3 g4
        rw [Nat.add_assoc (a.dlw + (loc - 1)) 1 1] at g3
        rw [Nat.add_assoc (a.dlw + (loc - 1)) 1 1, Nat.add_assoc (a.dlw + (loc - 1)) (1 + 1) 1] at g4
        rw [lawsAce]
        simp only [g1, g2, g3, g4, bind, Except.bind, pure, Except.pure]
        rw [subIdx_of_le (by omega)]
        simp only []
        rw [show a.dlw + idat - 1 = a.dlw + (idat - 1) by omega]
        cases Tab1D.make (r.effective.map Prod.fst) (r.effective.map Prod.snd) r.x r.y with
        | error e => rfl
        | ok t => simp [Except.map]
      cases rest with
      | nil =>
        obtain ⟨_, hi, hxy, hH⟩ := h
        rw [core 0 hi hxy (by simpa using hH)]
        simp only [if_true]
        constructor
        · intro h
          obtain ⟨t, ht, h⟩ := bind_ok h
          obtain ⟨d, hd, h⟩ := bind_ok h
          cases h
          exact .cons ⟨(C97_law _ _ _ _ _ _).mp hd, ht⟩ .nil
        · intro h
          cases h with
          | @cons _ o _ _ h0 h1 =>
            cases h1
            obtain ⟨d, t⟩ := o
            obtain ⟨hd, ht⟩ := h0
            have hd' := (C97_law a q angle law (a.dlw + (idat - 1)) d).mpr hd
            simp only [] at ht
            rw [ht]
            simp only [bind, Except.bind]
            rw [hd']
            rfl
      | cons b rest' =>
        obtain ⟨_, hi, hxy, loc', hl', hH, hc⟩ := h
        rw [core loc' hi hxy hH]
        have hrec := ih loc' fuel hc (by simpa using hf)
        rw [subIdx_of_le (by omega), show a.dlw + loc' - 1 = a.dlw + (loc' - 1) by omega]
        simp only [if_neg (show ¬ loc' = 0 by omega)]
        constructor
        · intro h
          obtain ⟨t, ht, h⟩ := bind_ok h
          obtain ⟨d, hd, h⟩ := bind_ok h
          obtain ⟨i', hi', h⟩ := bind_ok h
          cases hi'
          obtain ⟨rs, hrs, h⟩ := bind_ok h
          cases h
          exact .cons ⟨(C97_law _ _ _ _ _ _).mp hd, ht⟩ ((hrec rs).mp hrs)
        · intro h
          cases h with
          | @cons _ o _ os h0 h1 =>
            obtain ⟨d, t⟩ := o
            obtain ⟨hd, ht⟩ := h0
            have hd' := (C97_law a q angle law (a.dlw + (idat - 1)) d).mpr hd
            simp only [] at ht
            rw [ht]
            simp only [bind, Except.bind]
            rw [hd']
            simp only []
            rw [(hrec os).mpr h1]
            rfl

/-- What a file says about reaction number `indx`: its MT, Q and TYR entries, its angular distribution (`LAND` entry: nonnegative for a
separate distribution, -1 for none) and its chain of laws. -/
structure Spec.ReactionAt (a : AceBlocks) (indx mt : Nat) (q tyr : ℝ) (angle : Option AngleDist) (laws : List (Nat × Nat × TabRecord)) : Prop where
  mt_at : Holds a.xss (a.mtr + indx) [(mt : ℝ)]
  q_at : Holds a.xss (a.lqr + indx) [q]
  tyr_at : Holds a.xss (a.tyr + indx) [tyr]
  angle_at : (angle = none ∧ Holds a.xss (a.land + indx + 1) [((-1 : Int) : ℝ)]) ∨
    ∃ (locb : Nat) (d : AngleDist), angle = some d ∧ Holds a.xss (a.land + indx + 1) [((locb : Int) : ℝ)] ∧
      AngleDist.makeAce a.xss a.andB locb = .ok d
  laws_at : ∃ locc : Nat, 1 ≤ locc ∧ Holds a.xss (a.ldlw + indx) [(locc : ℝ)] ∧ LawChain a.xss a.dlw locc laws

/-- The distribution a list of laws stands for: the law itself if there is one, the mixture of all otherwise. -/
def Spec.combine : List (Law × Tab1D) → NDist
  | [l] => .one l.1
  | ls => .several ls

/-- **C97** A reaction that emits neutrons is exactly what the file describes: MT, Q, weight ratio and yield of the file; the single law, or
the mixture of all laws in order with their probabilities; wrapped in the centre-of-mass frame exactly when TYR is negative. -/
theorem C97_reaction (a : AceBlocks) (indx mt : Nat) (q tyr : ℝ) (angle : Option AngleDist) (laws : List (Nat × Nat × TabRecord))
    (h : ReactionAt a indx mt q tyr angle laws) (ht : tyr ≠ 0) (y : Fn1D) (hy : readYield a.xss a.dlw tyr = .ok y)
    (out : List (Law × Tab1D)) (hout : List.Forall₂ (EntryIs a q angle) laws out) (fuel : Nat) (hf : laws.length ≤ fuel) :
    RxnBase.makeAce a indx fuel = .ok ⟨mt, q, a.awr, y, if tyr < 0 then .cm a.awr q (combine out) else combine out⟩ := by
  obtain ⟨h1, h2, h3, h4, locc, hl, h5, h6⟩ := h
  have hload : loadAce a q indx fuel = .ok out := by
    unfold loadAce
    have hang : ∃ n : Int, intAt a.xss (a.land + indx + 1) = .ok n ∧
        (if 0 ≤ n then do let d ← AngleDist.makeAce a.xss a.andB n; return some d else .ok none : Res (Option AngleDist)) = .ok angle := by
      rcases h4 with ⟨rfl, h4⟩ | ⟨n, d, rfl, h4, h4'⟩
      · exact ⟨-1, h4.int, by simp⟩
      · refine ⟨n, h4.int, ?_⟩
        rw [if_pos (by omega), h4']
        rfl
    obtain ⟨n, hn, hang⟩ := hang
    rw [hn]
    simp only [bind, Except.bind] at hang ⊢
    rw [hang]
    simp only []
    rw [h5.nat]
    simp only []
    rw [subIdx_of_le (by omega), show a.dlw + locc - 1 = a.dlw + (locc - 1) by omega]
    exact (C97_chain a q angle laws locc fuel h6 hf out).mpr hout
  unfold RxnBase.makeAce
  rw [h1.nat]
  simp only [bind, Except.bind]
  rw [h2.get]
  simp only []
  rw [h3.get]
  simp only []
  rw [hy]
  simp only []
  rw [if_pos (abs_ne_zero.mpr ht), hload]
  cases hout with
  | nil => exact absurd h6 (by simp [LawChain])
  | cons h0 hr =>
    cases hr with
    | nil => rfl
    | cons h0 hr => rfl

/-- **C97** A reaction with TYR = 0 is an absorption: it is accepted whatever its other entries say, its yield is zero at every energy,
sampling it throws, and it has no densities. -/
theorem C97_absorption (a : AceBlocks) (indx mt fuel : Nat) (q : ℝ) (h1 : Holds a.xss (a.mtr + indx) [(mt : ℝ)])
    (h2 : Holds a.xss (a.lqr + indx) [q]) (h3 : Holds a.xss (a.tyr + indx) [0]) :
    ∃ r, RxnBase.makeAce a indx fuel = .ok r ∧ r.mt = mt ∧ r.q = q ∧ r.awr = a.awr ∧ (∀ E, r.yield.eval E = .ok 0) ∧
      ∀ (fu : Nat) (E threshold : ℝ) (ω : Tape) (k : Nat), threshold ≤ E → r.sample threshold fu E ω k = .error .exc ∧
        ∀ mu Eo, (r.dist.toAE fu).anglePdf E mu = .ok none ∧ (r.dist.toAE fu).pdf E mu Eo = .ok none := by
  obtain ⟨y, hy, hy2, _⟩ := C78_constant a.xss a.dlw 0 0 (by norm_num)
  refine ⟨⟨mt, q, a.awr, y, .absorption mt⟩, ?_, rfl, rfl, rfl, ?_, ?_⟩
  · unfold RxnBase.makeAce
    rw [h1.nat]
    simp only [bind, Except.bind]
    rw [h2.get]
    simp only []
    rw [h3.get]
    simp only []
    rw [hy]
    simp only []
    rw [if_neg (by simp)]
    rfl
  · intro E
    obtain ⟨y', hy', hy2', _⟩ := C78_constant a.xss a.dlw 0 E (by norm_num)
    rw [hy] at hy'
    cases hy'
    rw [hy2', abs_zero]
  · intro fu E th ω k hE
    refine ⟨?_, fun mu Eo => ⟨rfl, rfl⟩⟩
    unfold RxnBase.sample
    rw [if_neg (by linarith)]
    rfl

/-- **C97** Below the threshold a reaction gives cosine 0 and energy 0 and draws nothing; at and above it the distribution is sampled. -/
theorem C97_threshold (r : RxnBase) (threshold : ℝ) (fuel : Nat) (E : ℝ) (ω : Tape) (k : Nat) :
    (E < threshold → r.sample threshold fuel E ω k = .ok (0, 0, k)) ∧
    (threshold ≤ E → r.sample threshold fuel E ω k = (r.dist.toAE fuel).sample E ω k) := by
  unfold RxnBase.sample
  constructor
  · intro h; rw [if_pos h]
  · intro h; rw [if_neg (by linarith)]

/-- **C97** Centre-of-mass data: what is sampled is the transform to the laboratory of what the inner distribution samples. -/
theorem C97_frame (awr q : ℝ) (d : NDist) (fuel : Nat) (E : ℝ) (ω : Tape) (k : Nat) (mu e : ℝ) (k' : Nat) :
    ((NDist.cm awr q d).toAE fuel).sample E ω k = .ok (mu, e, k') ↔
      ∃ m0 e0, (d.toAE fuel).sample E ω k = .ok (m0, e0, k') ∧ cmToLab E awr m0 e0 = .ok (mu, e) := by
  simp only [NDist.toAE, CMDist.sample]
  constructor
  · intro h
    obtain ⟨⟨m0, e0, k1⟩, h1, h⟩ := bind_ok h
    obtain ⟨⟨m1, e1⟩, h2, h⟩ := bind_ok h
    cases h
    exact ⟨m0, e0, h1, h2⟩
  · rintro ⟨m0, e0, h1, h2⟩
    rw [h1]
    simp only [bind, Except.bind]
    rw [h2]
    rfl

/-- **C97** violation: a fission reaction (TYR = ±19, neutrons given by the NU block) reports a yield of 19 neutrons at every energy. -/
theorem C97_violation_fission_yield (xss : List ℝ) (dlw : Nat) (E : ℝ) : ∃ y, readYield xss dlw 19 = .ok y ∧ readYield xss dlw (-19) = .ok y ∧
    y.eval E = .ok 19 := by
  obtain ⟨y, h1, h2, h3⟩ := C78_constant xss dlw 19 E (by norm_num)
  exact ⟨y, h1, h3, by rw [h2]; norm_num⟩

/-- **C97** The other constructor refuses negative thresholds and weight ratios that are not positive, and only those. -/
theorem C97_arguments (awr threshold : ℝ) : RxnBase.checkArgs awr threshold = .ok () ↔ 0 ≤ threshold ∧ 0 < awr := by
  unfold RxnBase.checkArgs
  split_ifs with h1 h2
  · simp; intro h; linarith
  · simp; intro _; linarith
  · simp; exact ⟨by linarith, by linarith⟩

/-- A file with a level law in the centre-of-mass frame and isotropic angles. -/
noncomputable def exBlocks : AceBlocks :=
  { xss := [51, -2, -1, 0, 0, 1, 0, 3, 10, 0, 2, 1, 9, 1, 1, 3, 1/2], awr := 10, mtr := 0, lqr := 1, tyr := 2, land := 3, andB := 17,
    ldlw := 5, dlw := 6 }

example : ReactionAt exBlocks 0 51 (-2) (-1) (some ⟨[1 / 10 ^ 5], [.isotropic]⟩) [(3, 10, ⟨[], [1, 9], [1, 1]⟩)] ∧
    LawIs exBlocks (-2) (some ⟨[1 / 10 ^ 5], [.isotropic]⟩) (exBlocks.dlw + (10 - 1)) 3
      (.uncorrelated ⟨⟨[1 / 10 ^ 5], [.isotropic]⟩, .level ⟨3, 1/2⟩⟩) := by
  refine ⟨⟨⟨[], [-2, -1, 0, 0, 1, 0, 3, 10, 0, 2, 1, 9, 1, 1, 3, 1/2], by simp [exBlocks], rfl⟩,
    ⟨[51], [-1, 0, 0, 1, 0, 3, 10, 0, 2, 1, 9, 1, 1, 3, 1/2], by simp [exBlocks], rfl⟩,
    ⟨[51, -2], [0, 0, 1, 0, 3, 10, 0, 2, 1, 9, 1, 1, 3, 1/2], by simp [exBlocks], rfl⟩, Or.inr ⟨0, _, rfl, ?_, rfl⟩, 1, le_refl _, ?_, ?_⟩, ?_⟩
  · exact ⟨[51, -2, -1, 0], [1, 0, 3, 10, 0, 2, 1, 9, 1, 1, 3, 1/2], by simp [exBlocks], rfl⟩
  · exact ⟨[51, -2, -1, 0, 0], [0, 3, 10, 0, 2, 1, 9, 1, 1, 3, 1/2], by simp [exBlocks], rfl⟩
  · exact ⟨le_refl _, by norm_num, rfl, ⟨[51, -2, -1, 0, 0, 1], [3, 1/2], by norm_num [exBlocks, TabRecord.encode], rfl⟩⟩
  · exact .level _ _ _ rfl rfl

end PNDL
