import Verif.Model.NucAce
import Verif.Model.Thermal
import Verif.Model.AceText
import Verif.Model.AceBinary

/-! From the characters or bytes of a file to the nuclide or thermal scattering law made from it: the `ACE` object that both readers fill in, and where its
accessors find the blocks (ace.hpp:86-135, 229-309). -/
namespace PNDL

/-- What the constructors see of an `ACE` object (ace.hpp:311-325): the ZAID, `temperature()`, `awr()`, `fissile()` and the three arrays. -/
structure AceObj where
  Z : Nat
  A : Nat
  temperature : ℝ
  awr : ℝ
  fissile : Bool
  nxs : List Int
  jxs : List Int
  xss : List ℝ

/-- The object after `read_ascii` (src/ace.cpp:75-187). -/
def TextAce.obj (a : TextAce ℝ) : AceObj := ⟨a.zaid.Z, a.zaid.A, a.temperature, a.awr, a.fissile, a.nxs, a.jxs, a.xss⟩

/-- The object whose members are given by their bits; `dbl` is the number that a bit pattern of a `double` stands for. -/
def ACE.obj (dbl : Nat → ℝ) (a : ACE) : AceObj :=
  ⟨a.Z, a.A, dbl a.temperature, dbl a.awr, a.fissile, a.nxs.map i32, a.jxs.map i32, a.xss.map dbl⟩

/-- `nxs(i)` (ace.hpp:101); the arrays have 16 entries. -/
def AceObj.N (o : AceObj) (i : Nat) : Int := o.nxs.getD i 0

/-- `jxs(i)` (ace.hpp:115); the arrays have 32 entries. -/
def AceObj.J (o : AceObj) (i : Nat) : Int := o.jxs.getD i 0

/-- `static_cast<std::size_t>(jxs_[i] - 1)`.  Simplification: when this wraps, adding an offset does not wrap back. -/
def blockAt (j : Int) : Nat := ((j - 1) % 2 ^ 64).toNat

/-- What `STNeutron`, `Fission`, `Reaction`, … ask of the object: `ESZ()` … `GPD()` (ace.hpp:229-309), `nxs(2)`, `nxs(3)`, `nxs(7)`, `jxs(1)`, `jxs(23)`, `jxs(24)`
(src/fission.cpp:63-130), `jxs(11) != 0` (src/st_neutron.cpp:64), `jxs(22) == 0` (src/urr_ptables.cpp:60, src/energy_grid.cpp:39). -/
def AceObj.neutron (o : AceObj) : AceFile where
  xss := o.xss
  awr := o.awr
  mtr := blockAt (o.J 2)
  lqr := blockAt (o.J 3)
  tyr := blockAt (o.J 4)
  land := blockAt (o.J 7)
  andB := blockAt (o.J 8)
  ldlw := blockAt (o.J 9)
  dlw := blockAt (o.J 10)
  fissile := o.fissile
  temperature := o.temperature
  esz := blockAt (o.J 0)
  ne := asU32 (o.N 2)
  nmt := asU32 (o.N 3)
  lsig := blockAt (o.J 5)
  sig := blockAt (o.J 6)
  gpd := if o.J 11 = 0 then none else some (blockAt (o.J 11))
  lunr := if o.J 22 = 0 then none else some (blockAt (o.J 22))
  nu := o.J 1
  dnu := o.J 23
  bdd := o.J 24
  dnedl := blockAt (o.J 25)
  dned := blockAt (o.J 26)
  ngrps := asU32 (o.N 7)

/-- What `STThermalScatteringLaw` and its parts ask of the object. -/
def AceObj.tsl (o : AceObj) : TslAce := ⟨o.N, o.J, o.xss⟩

/-- `STNeutron(ace)` (src/st_neutron.cpp:30-132): Z and A, and the other members. -/
noncomputable def AceObj.nuclide (o : AceObj) (fuel : Nat) : Res ((Nat × Nat) × Nuc) := do
  let n ← Nuc.makeAce o.neutron fuel
  return ((o.Z, o.A), n)

/-- The members of `STThermalScatteringLaw` (st_thermal_scattering_law.hpp:119-128). -/
structure TslObj where
  Z : Nat
  A : Nat
  awr : ℝ
  temperature : ℝ
  law : ThermalLaw

/-- `STThermalScatteringLaw(ace, unit_based_interpolation)` (src/st_thermal_scattering_law.cpp:29-85). -/
noncomputable def AceObj.thermal (o : AceObj) (unitBased : Bool) : Res TslObj := do
  let t ← ThermalLaw.makeAce o.tsl unitBased
  return ⟨o.Z, o.A, o.awr, o.temperature, t⟩

/-- `STNeutron(ACE(fname, ASCII))` (src/ace.cpp:37-73, src/st_neutron.cpp:30) on the characters of the file. -/
noncomputable def nuclideText (cv : TextConv ℝ) (kT : ℝ) (file : List Char) (fuel : Nat) : Res ((Nat × Nat) × Nuc) := do
  let a ← readAscii cv kT file
  a.obj.nuclide fuel

/-- `STThermalScatteringLaw(ACE(fname, ASCII), unit_based_interpolation)`. -/
noncomputable def thermalText (cv : TextConv ℝ) (kT : ℝ) (file : List Char) (unitBased : Bool) : Res TslObj := do
  let a ← readAscii cv kT file
  a.obj.thermal unitBased

/-- `STNeutron(ACE(fname, BINARY))` on the bytes of the file. -/
noncomputable def nuclideBinary (dbl : Nat → ℝ) (mulT : Nat → Nat) (file : List Byte) (fuel : Nat) : Res ((Nat × Nat) × Nuc) := do
  let a ← ACE.readBinary mulT file
  (a.obj dbl).nuclide fuel

/-- `STThermalScatteringLaw(ACE(fname, BINARY), unit_based_interpolation)`. -/
noncomputable def thermalBinary (dbl : Nat → ℝ) (mulT : Nat → Nat) (file : List Byte) (unitBased : Bool) : Res TslObj := do
  let a ← ACE.readBinary mulT file
  (a.obj dbl).thermal unitBased

end PNDL
