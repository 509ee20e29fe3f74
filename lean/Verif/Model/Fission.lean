import Verif.Model.TabRead

/-! `Fission` (src/fission.cpp), `DelayedFamily` (src/delayed_family.cpp) and `ReactionBase` (src/reaction_base.cpp): what they read from an
ACE file besides cross sections. -/
namespace PNDL

/-- `read_nu`, `read_polynomial_nu`, `read_tabular_nu` (src/fission.cpp:269-303). -/
noncomputable def readNu (xss : List ℝ) (i : Nat) : Res Fn1D := do
  let lnu ← natAt xss i
  if lnu = 1 then do
    let nc ← natAt xss (i + 1)
    let c ← xssSlice xss (i + 2) nc
    return .poly c
  else do
    let t ← readTab xss (i + 1)
    return .tab t

/-- The three nu functions of a `Fission` (src/fission.cpp:39-41). -/
structure Nu where
  total : Fn1D
  prompt : Fn1D
  delayed : Fn1D

open Classical in
/-- The temporaries `total`, `prompt` (src/fission.cpp:62-84); `nu` is `jxs(1)`, `dnu` is `jxs(23)`. -/
noncomputable def readTotalPrompt (xss : List ℝ) (nu dnu : Int) : Res (Option Fn1D × Option Fn1D) :=
  if 0 < nu then do
    let NU := (nu - 1).toNat
    let v ← getAt xss NU
    if 0 < v then do
      let f ← readNu xss NU
      if 0 < dnu then return (none, some f) else return (some f, none)
    else do
      let t ← readNu xss (NU + ⌊|v|⌋.toNat + 1)
      let p ← readNu xss (NU + 1)
      return (some t, some p)
  else .ok (none, none)

/-- The temporary `delayed` (src/fission.cpp:86-89); `DNU()` is `jxs(23) - 1` (ace.hpp:299). -/
noncomputable def readDelayed (xss : List ℝ) (dnu : Int) : Res (Option Fn1D) :=
  if 0 < dnu - 1 then do
    let f ← readNu xss (dnu - 1).toNat
    return some f
  else .ok none

/-- The assembly of the three functions (src/fission.cpp:91-117). -/
noncomputable def assembleNu (total prompt delayed : Option Fn1D) : Res Nu := do
  let nt ← (match total, prompt, delayed with
    | some t, _, _ => .ok t
    | none, some p, some d => Fn1D.mkSum (some p) (some d)
    | none, none, some d => .ok d
    | none, _, none => .ok (.const 0) : Res Fn1D)
  let np := prompt.getD nt
  let nd ← (match delayed, total, prompt with
    | some d, _, _ => .ok d
    | none, some t, some p => Fn1D.mkDiff (some t) (some p)
    | none, _, _ => .ok (.const 0) : Res Fn1D)
  return ⟨nt, np, nd⟩

/-- The nu functions made by `Fission(ace, energy_grid)` (src/fission.cpp:50-123). -/
noncomputable def Nu.make (fissile : Bool) (xss : List ℝ) (nu dnu : Int) : Res Nu :=
  if fissile = false then .ok ⟨.const 0, .const 0, .const 0⟩
  else do
    let (t, p) ← readTotalPrompt xss nu dnu
    let d ← readDelayed xss dnu
    assembleNu t p d

/-- `DelayedFamily` (delayed_family.hpp:80-83); the energy law is an opaque value of type `D`. -/
structure Family (D : Type) where
  decay : ℝ
  probability : Tab1D
  law : D

/-- `DelayedFamily(ace, i, g)` (src/delayed_family.cpp:38-105).  `mk law j` builds the energy law number `law` at index `j`; it is abstract,
and so is which numbers it rejects.  `dnedl`, `dned` are the starts of the two blocks. -/
noncomputable def Family.make {D : Type} (mk : Int → Nat → Res D) (xss : List ℝ) (dnedl dned : Nat) (i g : Nat) : Res (Family D) := do
  let lam ← getAt xss i
  let t ← readTab xss (i + 1)
  let k ← subIdx (dnedl + g) 1
  let locc ← natAt xss k
  let l ← subIdx (dned + locc) 1
  let _ ← getAt xss l
  let law ← getAt xss (l + 1)
  let idat ← natAt xss (l + 2)
  let j ← subIdx (dned + idat) 1
  let d ← mk ⌊law⌋ j
  return ⟨lam * 10 ^ 8, t, d⟩

/-- The loop over the families (src/fission.cpp:128-137): `n` families remain, the next is number `g` at index `i`. -/
noncomputable def readFamilies {D : Type} (mk : Int → Nat → Res D) (xss : List ℝ) (dnedl dned : Nat) : Nat → Nat → Nat → Res (List (Family D))
  | 0, _, _ => .ok []
  | n + 1, i, g => do
    let f ← Family.make mk xss dnedl dned i g
    let nr ← natAt xss (i + 1)
    let ne ← natAt xss (i + 2 + 2 * nr)
    let fs ← readFamilies mk xss dnedl dned n (i + 3 + 2 * (nr + ne)) (g + 1)
    return f :: fs

/-- `delayed_families_` (src/fission.cpp:125-138); `bdd` is `jxs(24)`, `ngrps` is `nxs(7)`. -/
noncomputable def families {D : Type} (mk : Int → Nat → Res D) (xss : List ℝ) (bdd : Int) (dnedl dned ngrps : Nat) : Res (List (Family D)) :=
  if 0 < bdd - 1 then readFamilies mk xss dnedl dned ngrps (bdd - 1).toNat 1 else .ok []

open Classical in
/-- The yield (src/reaction_base.cpp:66-91); `tyr` is the entry of the TYR block, `dlw` the start of the DLW block. -/
noncomputable def readYield (xss : List ℝ) (dlw : Nat) (tyr : ℝ) : Res Fn1D :=
  if |tyr| < 100 then .ok (.const |tyr|)
  else do
    let i ← subIdx (dlw + ⌊|tyr|⌋.toNat) 101
    let t ← readTab xss i
    return .tab t

/-- One law of a reaction: its number, where its data begin, and the function giving its probability. -/
structure LawRec where
  law : Int
  data : Nat
  prob : Tab1D

/-- The loop over the laws (src/reaction_base.cpp:189-283) with `fuel` rounds; the construction of each law is left out and
law numbers are taken to be nonnegative (for a negative fraction the cast would round up). -/
noncomputable def readLaws (xss : List ℝ) (dlw : Nat) : Nat → Nat → Res (List LawRec)
  | 0, _ => .error .diverge
  | fuel + 1, i => do
    let lnw ← natAt xss i
    let law ← getAt xss (i + 1)
    let idat ← natAt xss (i + 2)
    let j ← subIdx (dlw + idat) 1
    let (t, _) ← readTabB xss (i + 3)
    if lnw = 0 then return [⟨⌊law⌋, j, t⟩]
    else do
      let i' ← subIdx (dlw + lnw) 1
      let rest ← readLaws xss dlw fuel i'
      return ⟨⌊law⌋, j, t⟩ :: rest

end PNDL
