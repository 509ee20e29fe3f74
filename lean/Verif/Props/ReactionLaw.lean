import Verif.Props.FrameLaw
import Verif.Props.TabEALaw
import Verif.Props.KalbachLaw

/-! C118: what a reaction samples and what its distribution reports, whatever its laws and the frame they are given in. -/
namespace PNDL
open MeasureTheory Spec Set

/-- The window of outgoing energies that a unit base interpolation between the two tables around `E` covers, in the cases in which the
interpolation keeps the density (C113, C114): at a grid energy, or between tables of the same width. -/
def Spec.UnitWindow {T : Type} (grid : List ℝ) (tables : List T) (least greatest : T → Res ℝ) (E a b : ℝ) : Prop :=
  ∃ (l : Nat) (f : ℝ) (t0 t1 : T) (mn0 mx0 mn1 mx1 : ℝ), bracketIn grid E = .ok (l, f) ∧ tables[l]? = some t0 ∧ tables[l + 1]? = some t1 ∧
    least t0 = .ok mn0 ∧ greatest t0 = .ok mx0 ∧ least t1 = .ok mn1 ∧ greatest t1 = .ok mx1 ∧
    (f = 0 ∨ f = 1 ∨ mx0 - mn0 = mx1 - mn1) ∧ a = (1 - f) * mn0 + f * mn1 ∧ b = (1 - f) * mx0 + f * mx1

/-- One law, whichever, that draws from the density it reports. -/
def Spec.SoundAny (l : Law) (E a b : ℝ) : Prop :=
  match l with
  | .kalbach d => HistKalbach d ∧ UnitWindow d.energy d.tables KalbachTable.minEnergy KalbachTable.maxEnergy E a b
  | .tabEnergyAngle d => HistTabEA d ∧ UnitWindow d.energy d.tables EATable.minEnergy EATable.maxEnergy E a b
  | l => SoundOne l E a b

/-- The same of one or several laws, in one frame. -/
def Spec.SoundMix (d : NDist) (E a b : ℝ) : Prop :=
  match d with
  | .one l => SoundAny l E a b
  | .several ls => (∀ l ∈ ls, SoundAny l.1 E a b) ∧
      ∃ w : List ℝ, List.Forall₂ (fun p v => p.eval E = .ok v) (ls.map Prod.snd) w ∧ (∀ v ∈ w, 0 ≤ v) ∧ w.sum = 1
  | _ => False

theorem any_faithful {l : Law} {E a b : ℝ} (h : SoundAny l E a b) : FaithfulAE (fun fuel => l.toAE fuel) E a b := by
  cases l with
  | uncorrelated u => exact one_faithful h
  | nbody d => exact one_faithful h
  | kalbach d =>
    obtain ⟨hd, l, f, t0, t1, mn0, mx0, mn1, mx1, h1, g0, g1, a0, b0, a1, b1, hw, rfl, rfl⟩ := h
    obtain ⟨l', f', t0', t1', mn0', mx0', mn1', mx1', h1', g0', g1', a0', b0', a1', b1', _, _, _, hf⟩ := kalbach_faithful hd E
    rw [h1] at h1'
    obtain ⟨rfl, rfl⟩ := Prod.mk.inj (Except.ok.inj h1')
    obtain rfl := Option.some.inj (g0.symm.trans g0')
    obtain rfl := Option.some.inj (g1.symm.trans g1')
    obtain rfl := Except.ok.inj (a0.symm.trans a0')
    obtain rfl := Except.ok.inj (b0.symm.trans b0')
    obtain rfl := Except.ok.inj (a1.symm.trans a1')
    obtain rfl := Except.ok.inj (b1.symm.trans b1')
    exact hf hw
  | tabEnergyAngle d =>
    obtain ⟨hd, l, f, t0, t1, mn0, mx0, mn1, mx1, h1, g0, g1, a0, b0, a1, b1, hw, rfl, rfl⟩ := h
    obtain ⟨l', f', t0', t1', mn0', mx0', mn1', mx1', h1', g0', g1', a0', b0', a1', b1', _, _, _, hf⟩ := tabEA_faithful hd E
    rw [h1] at h1'
    obtain ⟨rfl, rfl⟩ := Prod.mk.inj (Except.ok.inj h1')
    obtain rfl := Option.some.inj (g0.symm.trans g0')
    obtain rfl := Option.some.inj (g1.symm.trans g1')
    obtain rfl := Except.ok.inj (a0.symm.trans a0')
    obtain rfl := Except.ok.inj (b0.symm.trans b0')
    obtain rfl := Except.ok.inj (a1.symm.trans a1')
    obtain rfl := Except.ok.inj (b1.symm.trans b1')
    exact hf hw

theorem mix_faithful {d : NDist} {E a b : ℝ} (h : SoundMix d E a b) : FaithfulAE (fun fuel => d.toAE fuel) E a b := by
  cases d with
  | absorption mt => exact absurd h (by simp [SoundMix])
  | one l => exact any_faithful h
  | several ls =>
    obtain ⟨h1, w, h2, h3, h4⟩ := h
    have := multi_faithful (ls.map fun p fuel => p.1.toAE fuel) (ls.map Prod.snd) E a b w h2 (by simpa using h2.length_eq) h3 h4 (by
      intro d hd
      obtain ⟨l, hl, rfl⟩ := List.mem_map.mp hd
      exact any_faithful (h1 l hl))
    simp only [List.map_map] at this
    exact this
  | cm awr q d => exact absurd h (by simp [SoundMix])

theorem reaction_run (r : RxnBase) {threshold E : ℝ} (hE : threshold ≤ E) (k : Nat) :
    (fun fuel ω => r.sample threshold fuel E ω k) = fun fuel ω => (r.dist.toAE fuel).sample E ω k := by
  funext fuel ω
  unfold RxnBase.sample
  rw [if_neg (not_lt.mpr hE)]

/-- **C118** A reaction given in the laboratory frame: from its threshold on, the cosines and energies sampled have the joint density
its distribution reports. -/
theorem C118_lab_partial (r : RxnBase) (threshold E a b : ℝ) (hE : threshold ≤ E) (h : SoundMix r.dist E a b) (k : Nat) :
    SamplesJoint (fun fuel ω => r.sample threshold fuel E ω k) a b ((r.dist.toAE 0).pdf E) := by
  rw [reaction_run r hE k]
  exact (mix_faithful h).samples k

/-- **C118** A reaction given in the centre of mass: the cosines and energies sampled are those of the laboratory, and have there the
joint density its distribution reports. -/
theorem C118_cm_partial (r : RxnBase) (A q : ℝ) (d : NDist) (hr : r.dist = .cm A q d) (threshold E a b : ℝ) (hE : threshold ≤ E) (h0 : 0 ≤ E) (hA : -1 < A) (ha : 0 ≤ a)
    (h : SoundMix d E a b) (k : Nat) :
    SamplesRegion (fun fuel ω => r.sample threshold fuel E ω k) (labRegion (Real.sqrt E / (A + 1)) a b) ((r.dist.toAE 0).pdf E) := by
  rw [reaction_run r hE k, hr]
  exact C117_law (fun fuel => d.toAE fuel) A q E a b h0 hA ha (mix_faithful h) k

/-- Below the threshold the reaction returns a particle at rest, going nowhere. -/
theorem C118_below (r : RxnBase) (threshold E : ℝ) (hE : E < threshold) (fuel : Nat) (ω : Tape) (k : Nat) :
    r.sample threshold fuel E ω k = .ok (0, 0, k) := by
  unfold RxnBase.sample
  rw [if_pos hE]

/-- A reaction in the centre of mass with a Kalbach law and a tabulated energy-angle law. -/
noncomputable def twoLaws : NDist :=
  .several [(.kalbach ⟨[1, 3], [histKT 1, histKT 1]⟩, constTab (1 / 4)), (.tabEnergyAngle ⟨[1, 3], [histEA 1, histEA 1]⟩, constTab (3 / 4))]

theorem twoLaws_sound : SoundMix twoLaws 2 0 1 := by
  have hb : bracketIn [(1 : ℝ), 3] 2 = .ok (0, 1 / 2) := by
    norm_num [bracketIn, lowerBound, lowerBoundRange, bisect, front, getAt, bind, Except.bind, pure, Except.pure, subIdx, rdiv]
  refine ⟨?_, [1 / 4, 3 / 4], .cons (constTab_above _ (by norm_num)) (.cons (constTab_above _ (by norm_num)) .nil), ?_, by norm_num⟩
  · intro l hl
    simp only [List.mem_cons, List.not_mem_nil, or_false] at hl
    rcases hl with rfl | rfl
    · exact ⟨histKalbach_ok one_pos one_pos, 0, 1 / 2, histKT 1, histKT 1, 0, 1, 0, 1, hb, rfl, rfl, rfl, rfl, rfl, rfl, Or.inr (Or.inr rfl), by norm_num, by norm_num⟩
    · exact ⟨histTabEA_ok one_pos one_pos, 0, 1 / 2, histEA 1, histEA 1, 0, 1, 0, 1, hb, rfl, rfl, rfl, rfl, rfl, rfl, Or.inr (Or.inr rfl), by norm_num, by norm_num⟩
  · intro v hv
    simp only [List.mem_cons, List.not_mem_nil, or_false] at hv
    rcases hv with rfl | rfl <;> norm_num

example (y : Fn1D) (k : Nat) : SamplesRegion (fun fuel ω => (⟨91, -1, 3, y, .cm 3 (-1) twoLaws⟩ : RxnBase).sample 1 fuel 2 ω k)
    (labRegion (Real.sqrt 2 / (3 + 1)) 0 1) (((NDist.cm 3 (-1) twoLaws).toAE 0).pdf 2) :=
  C118_cm_partial ⟨91, -1, 3, y, .cm 3 (-1) twoLaws⟩ 3 (-1) twoLaws rfl 1 2 0 1 (by norm_num) (by norm_num) (by norm_num) le_rfl twoLaws_sound k

/-- **C118** The full claim is false of the code: a Kalbach law half-way between a table on `[0, 1]` and one on `[0, 2]` is accepted, and the
reaction draws from another density than it reports. -/
theorem C118_violation (y : Fn1D) : ∃ d, Kalbach.make [1, 3] [histKT 1, histKT 2] = .ok d ∧ ∀ k,
    ¬ SamplesJoint (fun fuel ω => (⟨91, 0, 3, y, .one (.kalbach d)⟩ : RxnBase).sample 1 fuel 2 ω k) 0 (3 / 2) (((NDist.one (.kalbach d)).toAE 0).pdf 2) := by
  obtain ⟨d, hd, h⟩ := C113_violation_widths
  refine ⟨d, hd, fun k hk => h k ?_⟩
  rw [reaction_run _ (by norm_num : (1 : ℝ) ≤ 2) k] at hk
  exact hk

end PNDL
