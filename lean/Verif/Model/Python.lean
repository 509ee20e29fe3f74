import Verif.Model.CrossSection

/-! The Python module where it adds behaviour of its own: indexing and iterating over `EnergyGrid` and `CrossSection` (src/python/energy_grid.cpp:37,
src/python/cross_section.cpp:41), and laws written in Python (the trampolines in src/python/energy_law.cpp:40-53, src/python/angle_law.cpp:36-48,
src/python/angle_energy.cpp:60-81). pybind11 and CPython are modelled as documented. -/
namespace PNDL

/-- What ends a Python statement other than normally.  `undefined` is undefined behaviour of the C++ code called, `hang` a loop that does not end. -/
inductive PyErr where
  | indexError
  | typeError
  | castError
  | raised
  | undefined
  | hang
  deriving DecidableEq, Repr

/-- Results of C++ code as Python sees them: `PNDLException` is raised as a `RuntimeError`. -/
def fromCpp {α : Type} : Res α → Except PyErr α
  | .ok a => .ok a
  | .error .ub => .error .undefined
  | .error .diverge => .error .hang
  | .error _ => .error .raised

/-- A Python integer as an argument of type `std::size_t`: no overload matches negative or too large ones. -/
def pySizeT (i : Int) : Except PyErr Nat := if 0 ≤ i ∧ i < 2 ^ 64 then .ok i.toNat else .error .typeError

/-- `grid[i]` in Python (src/python/energy_grid.cpp:37 with energy_grid.hpp:72). -/
def pyGridItem {K : Type} (energy : List K) (i : Int) : Except PyErr K := do
  let n ← pySizeT i
  fromCpp (getAt energy n)

/-- `xs[i]` in Python (src/python/cross_section.cpp:41 with cross_section.hpp:88-97). -/
def pyXsItem {K : Type} [Field K] [LinearOrder K] (s : XS K) (i : Int) : Except PyErr K := do
  let n ← pySizeT i
  fromCpp (s.at n)

/-- `list(obj)`: the classes have `__getitem__` but no `__iter__`, so Python asks for the items 0, 1, 2, ... until one raises `IndexError`. -/
def pyList {K : Type} (item : Int → Except PyErr K) : Nat → Nat → Except PyErr (List K)
  | 0, _ => .error .hang
  | f + 1, i =>
    match item i with
    | .ok x => (pyList item f (i + 1)).map (x :: ·)
    | .error .indexError => .ok []
    | .error e => .error e

/-- `v in obj`: the same iteration, until an item equals `v`. -/
def pyIn {K : Type} [DecidableEq K] (item : Int → Except PyErr K) (v : K) : Nat → Nat → Except PyErr Bool
  | 0, _ => .error .hang
  | f + 1, i =>
    match item i with
    | .ok x => if x = v then .ok true else pyIn item v f (i + 1)
    | .error .indexError => .ok false
    | .error e => .error e

/-- What a method written in Python returns, as far as it can become a number. -/
inductive PyObj (K : Type) where
  | none
  | float (x : K)
  | other

/-- Conversion to `double`. -/
def toDouble {K : Type} : PyObj K → Except PyErr K
  | .float x => .ok x
  | _ => .error .castError

/-- Conversion to `std::optional<double>`: `None` is the empty one. -/
def toOptional {K : Type} : PyObj K → Except PyErr (Option K)
  | .none => .ok Option.none
  | .float x => .ok (some x)
  | .other => .error .castError

/-- `PyEnergyLaw::pdf` (src/python/energy_law.cpp:50-52): the macro converts to `double`, the result is then made optional. -/
def pyEnergyPdf {K : Type} (r : PyObj K) : Except PyErr (Option K) := (toDouble r).map some

/-- `PyAngleEnergy::pdf`, `angle_pdf` (src/python/angle_energy.cpp:71-80). -/
def pyAngleEnergyPdf {K : Type} (r : PyObj K) : Except PyErr (Option K) := toOptional r

/-- `PyAngleLaw::pdf`, `sample_mu` (src/python/angle_law.cpp:41-47), `PyEnergyLaw::sample_energy` (src/python/energy_law.cpp:45-48). -/
def pyNumber {K : Type} (r : PyObj K) : Except PyErr K := toDouble r

end PNDL
