import Verif.Model.Spndl
import Verif.Model.Frame

/-! The comparison program tools/src/sopenmc.cpp, which samples the same reactions with OpenMC, and the warnings of both programs.  OpenMC itself is a
parameter of the model: what it read from its file, and its sampling methods.  Energies given to and returned by OpenMC are in eV. -/
namespace PNDL

/-- A product of a reaction in OpenMC: is it the neutron, and `ReactionProduct::sample` (cosine, energy, next random number). -/
structure OmcProduct where
  neutron : Bool
  sample : ℝ → Tape → Nat → Res (ℝ × ℝ × Nat)

/-- What tools/src/sopenmc.cpp:195-225 uses of a reaction: `xs_[0].threshold`, `scatter_in_cm_`, `products_`. -/
structure OmcReaction where
  threshold : ℝ
  cm : Bool
  products : List OmcProduct

/-- `awr_`, and `reaction_index_` composed with `reactions_` (`none` is `C_NONE`). -/
structure OmcNuclide where
  awr : ℝ
  reaction : Nat → Option OmcReaction

/-- One turn of the loop (tools/src/sopenmc.cpp:228-244): cosine and energy in MeV. -/
noncomputable def omcSample (d : OmcProduct) (cm : Bool) (A E : ℝ) (ω : Tape) (k : Nat) : Res (ℝ × ℝ × Nat) := do
  let (mu, Eout, k') ← d.sample E ω k
  if cm then do
    let s ← csqrt (E * Eout)
    let q ← rdiv (E + 2 * mu * (A + 1) * s) ((A + 1) * (A + 1))
    let El := Eout + q
    let r1 ← rdiv Eout El
    let s1 ← csqrt r1
    let i ← rdiv 1 (A + 1)
    let r2 ← rdiv E El
    let s2 ← csqrt r2
    return (mu * s1 + i * s2, El / 10 ^ 6, k')
  else return (mu, Eout / 10 ^ 6, k')

open Classical in
/-- `reaction` (tools/src/sopenmc.cpp:193-247), `E` in eV. -/
noncomputable def omcReaction (n : OmcNuclide) (mt nsamples : Nat) (E : ℝ) (ω : Tape) : Res ToolRun :=
  match n.reaction mt with
  | none => .ok ⟨1, zeros nsamples⟩
  | some r =>
    if E ≤ r.threshold then .ok ⟨1, zeros nsamples⟩
    else
      match r.products.find? (·.neutron) with
      | none => .ok ⟨1, zeros nsamples⟩
      | some d => do
        let xs ← columns (fun ω k => omcSample d r.cm n.awr E ω k) ω nsamples
        return ⟨0, xs⟩

/-- The end of `main` (tools/src/sopenmc.cpp:538-553), also used by the modes other than `reaction`, where `MT` is zero. -/
def omcEnd (r : Res ToolRun) : Res ToolOut := do
  let t ← r
  if t.result ≠ 0 then return ⟨t.result, none⟩ else return ⟨0, some t.data⟩

/-- `main` in the mode `reaction` (tools/src/sopenmc.cpp:421, 429-431, 491-498, 514-518, 538-553); `E` is the energy on the command line, in MeV.  OpenMC's
exceptions are not caught: they end the program. -/
noncomputable def omcMain (n : OmcNuclide) (mt nsamples : Nat) (E : ℝ) (ω : Tape) : Res ToolOut :=
  if mt > 901 then .ok ⟨1, none⟩
  else if mt = 2 then .ok ⟨1, none⟩
  else omcEnd (omcReaction n mt nsamples (E * 10 ^ 6) ω)

/-- `coherent_elastic`, `incoherent_elastic`, `incoherent_inelastic` (tools/src/sopenmc.cpp:306-373), `E` in eV: `d` is what the functions `get_…` found in the
file, `none` for the null pointer. -/
noncomputable def omcThermal (d : Option (ℝ → Tape → Nat → Res (ℝ × ℝ × Nat))) (nsamples : Nat) (E : ℝ) (ω : Tape) : Res ToolRun :=
  match d with
  | none => .ok ⟨1, zeros nsamples⟩
  | some f => do
    let xs ← columns (fun ω k => (f E ω k).map fun r => (r.1, r.2.1 / 10 ^ 6, r.2.2)) ω nsamples
    return ⟨0, xs⟩

/-- `u_orig` (tools/src/sopenmc.cpp:284). -/
def omcDirection : Vec := ⟨0, 0, 1⟩

/-- The loop of `elastic` (tools/src/sopenmc.cpp:290-301) with the state of the particle: `scatter` is `openmc::elastic_scatter`, which changes the
energy and the direction. -/
noncomputable def omcElasticLoop (scatter : ℝ × Vec → Tape → Nat → Res ((ℝ × Vec) × Nat)) (E : ℝ) (ω : Tape) : Nat → ℝ × Vec → Nat → Res (List (ℝ × ℝ))
  | 0, _, _ => .ok []
  | n + 1, p, k => do
    let (q, k') ← scatter p ω k
    let rest ← omcElasticLoop scatter E ω n (E, omcDirection) k'
    return (q.1 / 10 ^ 6, omcDirection.dot q.2) :: rest

/-- `elastic` (tools/src/sopenmc.cpp:250-304), `E` in eV; `resonant` is `nuclide.resonant_`. -/
noncomputable def omcElastic (dbrc resonant : Bool) (scatter : ℝ × Vec → Tape → Nat → Res ((ℝ × Vec) × Nat)) (nsamples : Nat) (E : ℝ) (ω : Tape) :
    Res ToolRun :=
  if dbrc && !resonant then .ok ⟨1, zeros nsamples⟩
  else do
    let xs ← omcElasticLoop scatter E ω nsamples (E, omcDirection) 0
    return ⟨0, xs⟩

/-- The modes of both programs (tools/src/spndl.cpp:149-156, tools/src/sopenmc.cpp:396-403). -/
inductive ToolMode where
  | reaction | svt | dbrc | coherent | incoherent | inelastic
deriving DecidableEq

open Classical in
/-- spndl: is the warning of a thermal law sampled above 4 eV printed (tools/src/spndl.cpp:240-244)?  `E` is in MeV. -/
noncomputable def spndlWarnsThermal (m : ToolMode) (E : ℝ) : Bool := m ≠ .reaction && decide (E > 4)

open Classical in
/-- spndl: is the warning of the asymptotic approximation printed (tools/src/spndl.cpp:250-254)? -/
noncomputable def spndlWarnsSvt (m : ToolMode) (E T : ℝ) : Bool :=
  m = .svt && decide (E ≥ 400 * 8.617333262e-5 * T * 1e-6)

open Classical in
/-- sopenmc: the first warning (tools/src/sopenmc.cpp:500-505); there `E` has been multiplied by `1.E6`. -/
noncomputable def omcWarnsThermal (m : ToolMode) (E : ℝ) : Bool :=
  m ≠ .reaction && m ≠ .svt && m ≠ .dbrc && decide (E * 10 ^ 6 > 4)

open Classical in
/-- sopenmc: the second warning (tools/src/sopenmc.cpp:507-511). -/
noncomputable def omcWarnsSvt (m : ToolMode) (E T : ℝ) : Bool :=
  m = .svt && decide (E * 10 ^ 6 ≥ 400 * 8.617333262e-5 * T * 1e-6)

end PNDL
