import Verif.Model.NucAce
import Verif.Model.Thermal

/-! The sampling program of the distribution: tools/src/spndl.cpp. -/
namespace PNDL

/-- The loops that call a sampling method `nsamples` times with one generator (tools/src/spndl.cpp:42-47, 67-72, 88-93, 107-112, 122-127): the values
returned, and the new position on the tape. -/
def collect {α : Type} (run : Tape → Nat → Res (α × Nat)) (ω : Tape) : Nat → Nat → Res (List α × Nat)
  | 0, k => .ok ([], k)
  | n + 1, k => do
    let (x, k) ← run ω k
    let (xs, k) ← collect run ω n k
    return (x :: xs, k)

/-- A column of the array: energy (row 0), cosine (row 1) (tools/src/spndl.cpp:45-46). -/
def column (r : Res (ℝ × ℝ × Nat)) : Res ((ℝ × ℝ) × Nat) := r.map fun x => ((x.2.1, x.1), x.2.2)

/-- The columns of the array after the loop. -/
def columns (run : Tape → Nat → Res (ℝ × ℝ × Nat)) (ω : Tape) (nsamples : Nat) : Res (List (ℝ × ℝ)) := do
  let (xs, _) ← collect (fun ω k => column (run ω k)) ω nsamples 0
  return xs

/-- What the functions leave: the return value and the columns of `data`, which was filled with zeros (tools/src/spndl.cpp:196-197). -/
structure ToolRun where
  result : Nat
  data : List (ℝ × ℝ)

/-- The array as `main` hands it over. -/
def zeros (nsamples : Nat) : List (ℝ × ℝ) := List.replicate nsamples (0, 0)

/-- Is the distribution an `Absorption`?  The code compares the pointers `typeid(..).name()` (tools/src/spndl.cpp:36); equal pointers are taken to mean
equal types. -/
def NDist.isAbsorption : NDist → Bool
  | .absorption _ => true
  | _ => false

open Classical in
/-- `reaction` (tools/src/spndl.cpp:16-50).  `mt` is a `uint32_t`; `rfuel` bounds the chains of laws read, `fuel` the rejection loops.  The array cannot be
written out of bounds: the loop has one turn for every column. -/
noncomputable def toolReaction (mt nsamples : Nat) (E : ℝ) (f : AceFile) (rfuel fuel : Nat) (ω : Tape) : Res ToolRun := do
  let n ← Nuc.makeAce f rfuel
  let h ← n.has mt
  if h = false then return ⟨1, zeros nsamples⟩
  else do
    let r ← n.reaction mt
    if E ≤ r.threshold then return ⟨1, zeros nsamples⟩
    else if r.base.dist.isAbsorption then return ⟨0, zeros nsamples⟩
    else do
      let xs ← columns (fun ω k => (r.base.dist.toAE fuel).sample E ω k) ω nsamples
      return ⟨0, xs⟩

/-- `elastic` (tools/src/spndl.cpp:53-75). -/
noncomputable def toolElastic (dbrc : Bool) (nsamples : Nat) (E T : ℝ) (f : AceFile) (fuel : Nat) (ω : Tape) : Res ToolRun := do
  let n ← Nuc.makeAce f fuel
  let el := n.elastic.run (.setTemperature T ::
    if dbrc then [.setUseTar false, .setBroadener (some (dbrcSample n.grid n.elasticXS fuel fuel))] else [])
  let xs ← columns (fun ω k => el.sample E ω k) ω nsamples
  return ⟨0, xs⟩

/-- `coherent_elastic` (tools/src/spndl.cpp:77-96). -/
noncomputable def toolCoherent (nsamples : Nat) (E : ℝ) (a : TslAce) (ω : Tape) : Res ToolRun := do
  let d ← CohElastic.makeAce a
  if d.edges.length = 0 then return ⟨1, zeros nsamples⟩
  else do
    let xs ← columns (fun ω k => d.sample E ω k) ω nsamples
    return ⟨0, xs⟩

/-- `incoherent_elastic` (tools/src/spndl.cpp:98-115). -/
noncomputable def toolIncoherent (nsamples : Nat) (E : ℝ) (a : TslAce) (ω : Tape) : Res ToolRun := do
  let d ← IncElastic.makeAce a
  if d.cosines.length = 0 then return ⟨1, zeros nsamples⟩
  else do
    let xs ← columns (fun ω k => d.sample E ω k) ω nsamples
    return ⟨0, xs⟩

/-- `incoherent_inelastic` (tools/src/spndl.cpp:117-130). -/
noncomputable def toolInelastic (nsamples : Nat) (E : ℝ) (a : TslAce) (ω : Tape) : Res ToolRun := do
  let d ← IncInelastic.makeAce a false
  let xs ← columns (fun ω k => d.dist.sample E ω k) ω nsamples
  return ⟨0, xs⟩

/-- What the program leaves: the exit status and the array saved, if any. -/
structure ToolOut where
  status : Nat
  saved : Option (List (ℝ × ℝ))

/-- The end of `main` (tools/src/spndl.cpp:255-301): a `PNDLException` ends the program with status 1, a result other than 0 is the status and nothing
is saved. -/
def toolMain (r : Res ToolRun) : Res ToolOut :=
  match r with
  | .ok t => if t.result ≠ 0 then .ok ⟨t.result, none⟩ else .ok ⟨0, some t.data⟩
  | .error .exc => .ok ⟨1, none⟩
  | .error e => .error e

end PNDL
