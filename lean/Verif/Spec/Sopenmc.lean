import Verif.Model.Sopenmc
import Verif.Spec.Tool

/-! What the comparison program is for, and when the programs should warn. -/
namespace PNDL.Spec
open PNDL

/-- OpenMC's reaction is the one the library samples with `inner` (in the frame given by `cm`), the energies being in eV: the same threshold, and at
the energy `E` (in MeV) the first neutron product returns the same cosine and the same energy, using the same random numbers. -/
def SameReaction (r : OmcReaction) (threshold E : ℝ) (cm : Bool) (inner : Nat → Res (ℝ × ℝ × Nat)) (ω : Tape) : Prop :=
  r.threshold = threshold * 10 ^ 6 ∧ r.cm = cm ∧
    ∃ pre d post, r.products = pre ++ d :: post ∧ (∀ p ∈ pre, p.neutron = false) ∧ d.neutron = true ∧
      ∀ k mu e k', inner k = .ok (mu, e, k') ↔ d.sample (E * 10 ^ 6) ω k = .ok (mu, e * 10 ^ 6, k')

/-- The modes that sample thermal scattering laws. -/
def thermalMode (m : ToolMode) : Prop := m = .coherent ∨ m = .incoherent ∨ m = .inelastic

/-- A thermal law is sampled above 4 eV; `E` in MeV. -/
def ShouldWarnThermal (m : ToolMode) (E : ℝ) : Prop := thermalMode m ∧ E > 4 / 10 ^ 6

/-- The sampled velocity of the target is asked for from 400 kT on; `E` in MeV, `T` in kelvin, the constant of Boltzmann as the programs have it. -/
def ShouldWarnSvt (m : ToolMode) (E T : ℝ) : Prop := m = .svt ∧ E ≥ 400 * (8.617333262e-5 / 10 ^ 6 * T)

end PNDL.Spec
