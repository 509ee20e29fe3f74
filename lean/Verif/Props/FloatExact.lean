import Verif.Props.FloatBase
import Verif.Props.FloatGrid
import Verif.Props.FloatKin
import Verif.Model.Elastic

/-! The models with rounded operations are the exact models with rounded operations: without rounding they agree.  This ties the floating-point claims
C128, C130, C131, C132 and C133 to the functions of the other claims. -/
namespace PNDL
open Spec

theorem csqrtFl_id (x : ℝ) : csqrtFl (fun r => r) x = csqrt x := by
  unfold csqrtFl
  cases csqrt x <;> rfl

/-- **C128** (the model) Without rounding, the cross section of C128 is that of the exact model (Model/CrossSection.lean). -/
theorem C128_exact (s : XS ℝ) (E : ℝ) : s.evalFl (fun r => r) E = s.eval E := by
  rw [eval_with]
  unfold XS.evalFl
  congr 1

theorem binLoopFl_id (energy : List ℝ) (du : ℝ) : ∀ (n : Nat) (E : ℝ), binLoopFl (fun r => r) energy (Real.exp du) n E = binLoop energy du n E
  | 0, _ => rfl
  | n + 1, E => by rw [binLoopFl, binLoop, binLoopFl_id energy du n]

/-- **C130** (the model) Without rounding, the constructor of C130 builds the energy grid of the exact model. -/
theorem C130_exact (energy : List ℝ) (nbins : Nat) : hashGridFl (fun r => r) Real.log Real.exp energy nbins = hashGrid energy nbins := by
  unfold hashGridFl hashGrid
  rcases front energy with _ | e0
  · rfl
  rcases back energy with _ | e1
  · rfl
  simp only [bind, Except.bind, clog]
  by_cases h0 : 0 < e0
  · by_cases h1 : 0 < e1
    · rw [if_neg (by push Not; exact ⟨h0, h1⟩), if_pos h0, if_pos h1]
      simp only [binLoopFl_id]
    · rw [if_pos (Or.inr (not_lt.mp h1)), if_pos h0, if_neg h1]
  · rw [if_pos (Or.inl (not_lt.mp h0)), if_neg h0]

/-- **C130** (the model, look-up) Without rounding, the look-up of C130 is the look-up of the exact model. -/
theorem C130_exact_index (g : EGrid) (E : ℝ) (hE : 0 < E) : g.lowerIndexFl (fun r => r) Real.log E = g.lowerIndex E := by
  unfold EGrid.lowerIndexFl EGrid.lowerIndex
  simp only [clog, if_pos hE, bind, Except.bind]

/-- **C132** (the model) Without rounding, the change of frame of C132 is that of the exact model (Model/Frame.lean). -/
theorem C132_exact (Ein A mu Eout : ℝ) : cmToLabFl (fun r => r) Ein A mu Eout = cmToLab Ein A mu Eout := by
  unfold cmToLabFl cmToLab
  simp only [csqrtFl_id, rdivFl_id, pow_two]

theorem rotateFl_id (u : Vec) (mu phi : ℝ) : u.rotateFl (fun r => r) Real.cos Real.sin (2 * Real.pi) (1 / 10 ^ 10) mu phi = u.rotate mu phi := by
  unfold Vec.rotateFl Vec.rotate
  simp only [csqrtFl_id, rdivFl_id]

/-- **C131** (the model) Without rounding, the collision of C131 is `Elastic::sample_angle_energy` of the exact model from the velocity of the target on: for every
angular distribution, stream and position. -/
theorem C131_exact (e : Elastic) (E s muCm : ℝ) (vt : Vec) (ω : Tape) (k k' : Nat) (hs : csqrt E = .ok s) (ha : e.angle E ω k = .ok (muCm, k')) :
    e.collide E ((Vec.mk 0 0 1).smul s) vt ω k =
      (elasticFl (fun r => r) Real.cos Real.sin (2 * Real.pi) (1 / 10 ^ 10) e.awr E vt muCm (ω k')).map fun r => (r.1, r.2, k' + 1) := by
  have hd : ∀ (u : Vec) (c : ℝ), u.sdivFl (fun r => r) c = u.sdiv c := by
    intro u c
    simp only [Vec.sdivFl, Vec.sdiv, rdivFl_id]
  have hm : ∀ u : Vec, u.magFl (fun r => r) = u.mag := fun _ => rfl
  have hA : ∀ u v : Vec, u.addFl (fun r => r) v = u.add v := fun _ _ => rfl
  have hS : ∀ u v : Vec, u.subFl (fun r => r) v = u.sub v := fun _ _ => rfl
  have hM : ∀ (u : Vec) (c : ℝ), u.smulFl (fun r => r) c = u.smul c := fun _ _ => rfl
  have hD : ∀ u v : Vec, u.dotFl (fun r => r) v = u.dot v := fun _ _ => rfl
  unfold elasticFl Elastic.collide
  simp only [csqrtFl_id, rotateFl_id, hd, hm, hA, hS, hM, hD, hs, ha, bind, Except.bind]
  rcases (((Vec.mk 0 0 1).smul s).add (vt.smul e.awr)).sdiv (e.awr + 1) with _ | vcm
  · rfl
  simp only []
  rcases (((Vec.mk 0 0 1).smul s).sub vcm).sdiv (((Vec.mk 0 0 1).smul s).sub vcm).mag with _ | Un
  · rfl
  simp only []
  rcases Un.rotate muCm (2 * Real.pi * ω k') with _ | d
  · rfl
  simp only []
  rcases ((d.smul (((Vec.mk 0 0 1).smul s).sub vcm).mag).add vcm).sdiv ((d.smul (((Vec.mk 0 0 1).smul s).sub vcm).mag).add vcm).mag with _ | uo <;> rfl

/-- **C133** (the model) Without rounding, the table sampler of C133 is that of the exact model (C33). -/
theorem C133_exact (t : PCTable) (xi : ℝ) : t.sampleFl (fun r => r) xi = t.sample xi := sampleFl_id t xi

/-- The hypotheses of `C131_exact` are met: an isotropic distribution, a neutron of energy 4, a draw of 1/4. -/
example : csqrt 4 = .ok 2 ∧ (Elastic.mk (fun _ => isoSample) 1 0 false 400 none).angle 4 (fun _ => 1 / 4) 0 = .ok (-1 / 2, 1) := by
  refine ⟨?_, ?_⟩
  · rw [csqrt, if_pos (by norm_num), show (4 : ℝ) = 2 ^ 2 by norm_num, Real.sqrt_sq (by norm_num)]
  · show Except.ok (clampMu (2 * (1 / 4) - 1), 0 + 1) = _
    norm_num [clampMu, abs_of_neg]

end PNDL
