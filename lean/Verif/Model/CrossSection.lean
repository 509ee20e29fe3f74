import Verif.Model.Prelude
import Mathlib.Algebra.Field.Defs

/-! `CrossSection` (include/PapillonNDL/cross_section.hpp, src/cross_section.cpp), over the energies of its grid. -/
namespace PNDL

variable {K : Type _} [Field K] [LinearOrder K]

/-- `class CrossSection` (cross_section.hpp:264-268). -/
structure XS (K : Type _) where
  grid : List K
  values : List K
  index : Nat
  single : Bool
  deriving DecidableEq

/-- `CrossSection(xs, E_grid, index)` (src/cross_section.cpp:64-91).  The index is stored as a `uint32_t`. -/
def XS.make (values grid : List K) (index : Nat) : Res (XS K) :=
  let idx := index % 2 ^ 32
  if idx ≥ grid.length then .error .exc
  else if values.any (fun v => decide (v < 0)) then .error .exc
  else if grid.length - idx ≠ values.length then .error .exc
  else .ok ⟨grid, values, idx, false⟩

/-- The checks of `CrossSection(ace, i, E_grid, get_index, is_heating)` (src/cross_section.cpp:44-61) on the index and values
read from the file; `size() - index_` in `size_t` arithmetic. -/
def XS.makeAce (values grid : List K) (idx : Nat) (heating : Bool) : Res (XS K) :=
  if idx > grid.length ∨ grid.length - idx ≠ values.length then .error .exc
  else if heating = false ∧ values.any (fun v => decide (v < 0)) then .error .exc
  else .ok ⟨grid, values, idx, false⟩

/-- `CrossSection(double xs, E_grid)` (src/cross_section.cpp:93-102). -/
def XS.makeConst (v : K) (grid : List K) : Res (XS K) :=
  if v < 0 then .error .exc else .ok ⟨grid, [v], 0, true⟩

/-- `operator[]` (cross_section.hpp:88-97). -/
def XS.at (s : XS K) (i : Nat) : Res K :=
  if s.single then front s.values
  else if i < s.index then .ok 0
  else if i ≥ s.index + s.values.length then back s.values
  else getAt s.values (i - s.index)

/-- The common first branch (cross_section.hpp:105-108, 144-147, 175-178). -/
def XS.evalSingle (s : XS K) (E : K) : Res K := do
  let e0 ← front s.grid
  if E < e0 then .ok 0 else front s.values

/-- The linear formula (cross_section.hpp:133, 162, 191). -/
def xsLin (E El Eh sl sh : K) : Res K := do
  let r ← cdiv (E - El) (Eh - El)
  return r * (sh - sl) + sl

/-- `operator()(double E)` (cross_section.hpp:104-134). -/
def XS.eval (s : XS K) (E : K) : Res K :=
  if s.single then s.evalSingle E
  else do
    let et ← getAt s.grid s.index
    if E < et then .ok 0
    else do
      let emax ← back s.grid
      if E ≥ emax then back s.values
      else do
        let l := lowerBoundRange s.grid s.index s.grid.length E
        let v ← getAt s.grid l
        if E = v then getAt s.values (l - s.index)
        else do
          let i ← subIdx (l - s.index) 1
          let El ← getAt s.grid (s.index + i)
          let Eh ← getAt s.grid (s.index + i + 1)
          let sl ← getAt s.values i
          let sh ← getAt s.values (i + 1)
          xsLin E El Eh sl sh

/-- The test `i >= index_ + values_->size() - 1` (cross_section.hpp:151, 182) in `size_t` arithmetic. -/
def XS.pastEnd (s : XS K) (i : Nat) : Bool :=
  decide (s.index + s.values.length ≠ 0 ∧ i ≥ s.index + s.values.length - 1)

/-- `operator()(double E, size_t i)` (cross_section.hpp:143-163). -/
def XS.evalIdx (s : XS K) (E : K) (i : Nat) : Res K :=
  if s.single then s.evalSingle E
  else if i < s.index then .ok 0
  else if s.pastEnd i then back s.values
  else do
    let El ← getAt s.grid i
    let Eh ← getAt s.grid (i + 1)
    let sl ← getAt s.values (i - s.index)
    let sh ← getAt s.values (i - s.index + 1)
    xsLin E El Eh sl sh

/-- `operator()(double E, size_t i, double El, double Eh)` (cross_section.hpp:174-192). -/
def XS.evalIdxE (s : XS K) (E : K) (i : Nat) (El Eh : K) : Res K :=
  if s.single then s.evalSingle E
  else if i < s.index then .ok 0
  else if s.pastEnd i then back s.values
  else do
    let sl ← getAt s.values (i - s.index)
    let sh ← getAt s.values (i - s.index + 1)
    xsLin E El Eh sl sh

end PNDL
