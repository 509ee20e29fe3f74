import Verif.Model.Kalbach
import Verif.Model.Energy

/-! The tabulated secondary distributions with the special values of IEEE arithmetic.

The rest of the model stops with `nonfinite` at the first division by zero.  A C++ program does not: it goes on with an infinity or a NaN, and where such
a value is then searched in a table the index it gives matters.  Here the functions in which a computed number is used as a search key are modelled a
second time over numbers that include the special values.  Tables, random numbers and arguments are finite; there is no rounding and no overflow; zero has
no sign (a difference of equal numbers is `+0` in the default rounding, so dividing by it gives the sign of the numerator). -/
namespace PNDL

/-- A `double`: a finite number, an infinity (`neg` tells which) or NaN. -/
inductive Num where
  | fin (x : ℝ)
  | inf (neg : Bool)
  | nan

namespace Num
open Classical

/-- `-a`. -/
noncomputable def neg : Num → Num
  | fin x => fin (-x)
  | inf s => inf (!s)
  | nan => nan

/-- `a + b`. -/
noncomputable def add : Num → Num → Num
  | fin x, fin y => fin (x + y)
  | inf s, inf t => if s = t then inf s else nan
  | inf s, fin _ => inf s
  | fin _, inf t => inf t
  | nan, _ => nan
  | _, nan => nan

/-- `a - b`. -/
noncomputable def sub (a b : Num) : Num := add a (neg b)

/-- `a * b`. -/
noncomputable def mul : Num → Num → Num
  | fin x, fin y => fin (x * y)
  | inf s, inf t => inf (xor s t)
  | inf s, fin y => if y = 0 then nan else inf (xor s (decide (y < 0)))
  | fin x, inf t => if x = 0 then nan else inf (xor (decide (x < 0)) t)
  | nan, _ => nan
  | _, nan => nan

/-- `a / b`. -/
noncomputable def div : Num → Num → Num
  | fin x, fin y => if y = 0 then (if x = 0 then nan else inf (decide (x < 0))) else fin (x / y)
  | inf _, inf _ => nan
  | inf s, fin y => inf (xor s (decide (y < 0)))
  | fin _, inf _ => fin 0
  | nan, _ => nan
  | _, nan => nan

/-- `std::sqrt`. -/
noncomputable def sqrt : Num → Num
  | fin x => if x < 0 then nan else fin (Real.sqrt x)
  | inf s => if s then nan else inf false
  | nan => nan

/-- `std::log`. -/
noncomputable def log : Num → Num
  | fin x => if 0 < x then fin (Real.log x) else if x = 0 then inf true else nan
  | inf s => if s then nan else inf false
  | nan => nan

/-- `std::exp`. -/
noncomputable def exp : Num → Num
  | fin x => fin (Real.exp x)
  | inf s => if s then fin 0 else inf false
  | nan => nan

/-- `std::sinh`. -/
noncomputable def sinh : Num → Num
  | fin x => fin (Real.sinh x)
  | inf s => inf s
  | nan => nan

/-- `a < b`; false if one of them is NaN. -/
def lt : Num → Num → Prop
  | fin x, fin y => x < y
  | fin _, inf t => t = false
  | inf s, fin _ => s = true
  | inf s, inf t => s = true ∧ t = false
  | _, _ => False

/-- `a == b`; false if one of them is NaN, also for NaN itself. -/
def eq : Num → Num → Prop
  | fin x, fin y => x = y
  | inf s, inf t => s = t
  | _, _ => False

/-- `a <= b`. -/
def le (a b : Num) : Prop := lt a b ∨ eq a b

/-- `std::max(a, b)`: `(a < b) ? b : a`. -/
noncomputable def max (a b : Num) : Num := if lt a b then b else a

/-- `if (std::abs(mu) > 1.) mu = std::copysign(1., mu);` -/
noncomputable def clamp : Num → Num
  | fin x => fin (clampMu x)
  | inf s => fin (if s then -1 else 1)
  | nan => nan

end Num

open Classical in
/-- `std::lower_bound(l.begin(), l.end(), x)`; every comparison with NaN is false, so NaN gives `begin()`. -/
noncomputable def lowerBoundN (l : List ℝ) (x : Num) : Nat := bisect (fun v => decide (Num.lt (.fin v) x)) l l.length 0 l.length

/-- `LinLin::interpolate` (interpolation.hpp:137-140). -/
noncomputable def linLinN (x : Num) (x1 y1 x2 y2 : ℝ) : Num :=
  Num.add (Num.mul (Num.div (Num.sub x (.fin x1)) (.fin (x2 - x1))) (.fin (y2 - y1))) (.fin y1)

/-- The search for the incoming energies (src/tabular_energy.cpp:78-93, src/kalbach.cpp:85-100, src/tabular_energy_angle.cpp:87-102). -/
noncomputable def bracketInN (grid : List ℝ) (E : ℝ) : Res (Nat × Num) := do
  let it := lowerBound grid E
  if it = 0 then .ok (0, .fin 0)
  else if it = grid.length then do
    let l ← subIdx grid.length 2
    return (l, .fin 1)
  else do
    let l ← subIdx it 1
    let e0 ← getAt grid l
    let e1 ← getAt grid (l + 1)
    return (l, Num.div (.fin (E - e0)) (.fin (e1 - e0)))

open Classical in
/-- `PCTable::pdf(value)` (pctable.hpp:87-101). -/
noncomputable def PCTable.pdfN (t : PCTable) (x : Num) : Res Num := do
  let mn ← t.minValue
  let mx ← t.maxValue
  if Num.lt x (.fin mn) ∨ Num.lt (.fin mx) x then .ok (.fin 0)
  else do
    let l := lowerBoundN t.values x
    let v ← getAt t.values l
    if Num.eq x (.fin v) then do
      let p ← getAt t.pdf l
      return .fin p
    else do
      let l ← subIdx l 1
      let p0 ← getAt t.pdf l
      if t.interp = .histogram then .ok (.fin p0)
      else do
        let v0 ← getAt t.values l
        let v1 ← getAt t.values (l + 1)
        let p1 ← getAt t.pdf (l + 1)
        return linLinN x v0 p0 v1 p1

open Classical in
/-- `PCTable::sample_value(xi)` (pctable.hpp:66-81 with 144-153). -/
noncomputable def PCTable.sampleN (t : PCTable) (xi : ℝ) : Res Num := do
  let l := lowerBound t.cdf xi
  let c ← getAt t.cdf l
  if xi = c then do
    let v ← getAt t.values l
    return .fin v
  else do
    let l ← subIdx l 1
    let v0 ← getAt t.values l
    let p0 ← getAt t.pdf l
    let c0 ← getAt t.cdf l
    let hist := Num.add (.fin v0) (Num.div (.fin (xi - c0)) (.fin p0))
    if t.interp = .histogram then return hist
    else do
      let p1 ← getAt t.pdf (l + 1)
      if p0 = p1 then return hist
      else do
        let v1 ← getAt t.values (l + 1)
        let m := Num.div (.fin (p1 - p0)) (.fin (v1 - v0))
        let arg := Num.add (.fin (p0 * p0)) (Num.mul (Num.mul (.fin 2) m) (.fin (xi - c0)))
        return Num.add (.fin v0) (Num.mul (Num.div (.fin 1) m) (Num.sub (Num.sqrt (Num.max arg (.fin 0))) (.fin p0)))

/-- `Emin`, `Emax` with the weight `f` (src/tabular_energy.cpp:144-145, src/kalbach.cpp:198-199, src/tabular_energy_angle.cpp:192-193). -/
noncomputable def unitBaseN (mn0 mx0 mn1 mx1 : Res ℝ) (f : Num) : Res (ℝ × ℝ × ℝ × ℝ × Num × Num) := do
  let a0 ← mn0
  let b0 ← mx0
  let a1 ← mn1
  let b1 ← mx1
  return (a0, b0, a1, b1, Num.add (.fin a0) (Num.mul f (.fin (a1 - a0))), Num.add (.fin b0) (Num.mul f (.fin (b1 - b0))))

/-- `((E_out - Emin) / (Emax - Emin)) * (E_l_M - E_l_1) + E_l_1` (src/tabular_energy.cpp:156, 162; src/kalbach.cpp:209, 215;
src/tabular_energy_angle.cpp:203, 209). -/
noncomputable def scaleInN (Eout : ℝ) (Emin Emax : Num) (a b : ℝ) : Num :=
  Num.add (Num.mul (Num.div (Num.sub (.fin Eout) Emin) (Num.sub Emax Emin)) (.fin (b - a))) (.fin a)

/-- `(1. - f) * p0 + f * p1` (src/tabular_energy.cpp:157, 163 and the corresponding lines). -/
noncomputable def mixN (f p0 p1 : Num) : Num := Num.add (Num.mul (Num.sub (.fin 1) f) p0) (Num.mul f p1)

/-- `TabularEnergy::pdf` (src/tabular_energy.cpp:120-166). -/
noncomputable def TabEnergy.pdfN (d : TabEnergy) (E Eout : ℝ) : Res Num := do
  let (l, f) ← bracketInN d.energy E
  let t0 ← getAt d.tables l
  let t1 ← getAt d.tables (l + 1)
  let (a0, b0, a1, b1, Emin, Emax) ← unitBaseN t0.minValue t0.maxValue t1.minValue t1.maxValue f
  let p0 ← t0.pdfN (scaleInN Eout Emin Emax a0 b0)
  let p1 ← t1.pdfN (scaleInN Eout Emin Emax a1 b1)
  return mixN f p0 p1

open Classical in
/-- The joint density of a table (kalbach_table.hpp:169-198, energy_angle_table.hpp:132-156); `node l` is the angular density at the grid point `l`. -/
noncomputable def jointPdfN (energy pdf : List ℝ) (interp : Interpolation) (node : Nat → Res Num) (E : Num) : Res Num := do
  let it := lowerBoundN energy E
  if it = energy.length then .ok (.fin 0)
  else do
    let e0 ← front energy
    if it = 0 ∧ Num.lt E (.fin e0) then .ok (.fin 0)
    else do
      let e ← getAt energy it
      let l ← (if ¬ Num.eq E (.fin e) then subIdx it 1 else .ok it : Res Nat)
      if interp = .histogram then do
        let m ← node l
        let p ← getAt pdf l
        return Num.mul m (.fin p)
      else do
        let el ← getAt energy l
        let er ← getAt energy (l + 1)
        let f := Num.div (Num.sub E (.fin el)) (.fin (er - el))
        let m1 ← node (l + 1)
        let p1 ← getAt pdf (l + 1)
        let m0 ← node l
        let p0 ← getAt pdf l
        return Num.add (Num.mul (Num.mul f m1) (.fin p1)) (Num.mul (Num.mul (Num.sub (.fin 1) f) m0) (.fin p0))

/-- `mu_p(A_[l], R_[l])` (kalbach_table.hpp:143-146, 170-173). -/
noncomputable def KalbachTable.nodeN (t : KalbachTable) (mu : ℝ) (l : Nat) : Res Num := do
  let a ← getAt t.A l
  let r ← getAt t.R l
  return Num.mul (Num.mul (.fin (1 / 2)) (Num.div (.fin a) (.fin (Real.sinh a)))) (.fin (Real.cosh (a * mu) + r * Real.sinh (a * mu)))

/-- `KalbachTable::pdf(mu, E_out)` (kalbach_table.hpp:169-198). -/
noncomputable def KalbachTable.pdfN (t : KalbachTable) (mu : ℝ) (E : Num) : Res Num := jointPdfN t.energy t.pdf t.interp (t.nodeN mu) E

/-- `Kalbach::pdf` (src/kalbach.cpp:174-219). -/
noncomputable def Kalbach.pdfN (d : Kalbach) (E mu Eout : ℝ) : Res Num := do
  let (l, f) ← bracketInN d.energy E
  let t0 ← getAt d.tables l
  let t1 ← getAt d.tables (l + 1)
  let (a0, b0, a1, b1, Emin, Emax) ← unitBaseN t0.minEnergy t0.maxEnergy t1.minEnergy t1.maxEnergy f
  let p0 ← t0.pdfN mu (scaleInN Eout Emin Emax a0 b0)
  let p1 ← t1.pdfN mu (scaleInN Eout Emin Emax a1 b1)
  return mixN f p0 p1

/-- `angles_[l].pdf(mu)` (energy_angle_table.hpp:144, 151-152). -/
noncomputable def EATable.nodeN (t : EATable) (mu : ℝ) (l : Nat) : Res Num := do
  let a ← getAt t.angles l
  a.pdfN (.fin mu)

/-- `EnergyAngleTable::pdf(mu, E_out)` (energy_angle_table.hpp:132-156). -/
noncomputable def EATable.pdfN (t : EATable) (mu : ℝ) (E : Num) : Res Num := jointPdfN t.energy t.pdf t.interp (t.nodeN mu) E

/-- `TabularEnergyAngle::pdf` (src/tabular_energy_angle.cpp:167-213). -/
noncomputable def TabEnergyAngle.pdfN (d : TabEnergyAngle) (E mu Eout : ℝ) : Res Num := do
  let (l, f) ← bracketInN d.energy E
  let t0 ← getAt d.tables l
  let t1 ← getAt d.tables (l + 1)
  let (a0, b0, a1, b1, Emin, Emax) ← unitBaseN t0.minEnergy t0.maxEnergy t1.minEnergy t1.maxEnergy f
  let p0 ← t0.pdfN mu (scaleInN Eout Emin Emax a0 b0)
  let p1 ← t1.pdfN mu (scaleInN Eout Emin Emax a1 b1)
  return mixN f p0 p1

open Classical in
/-- `KalbachTable::R(E)` (kalbach_table.hpp:94-112) for `ys = R_`, `KalbachTable::A(E)` (118-136) for `ys = A_`. -/
noncomputable def KalbachTable.paramN (t : KalbachTable) (ys : List ℝ) (E : Num) : Res Num := do
  let mn ← front t.energy
  let mx ← back t.energy
  if Num.le E (.fin mn) then do
    let y ← front ys
    return .fin y
  else if Num.le (.fin mx) E then do
    let y ← back ys
    return .fin y
  else do
    let l ← subIdx (lowerBoundN t.energy E) 1
    let e0 ← getAt t.energy l
    let y0 ← getAt ys l
    let e1 ← getAt t.energy (l + 1)
    let y1 ← getAt ys (l + 1)
    return (if t.interp = .histogram then .fin y0 else linLinN E e0 y0 e1 y1)

open Classical in
/-- Sampling of the cosine (src/kalbach.cpp:130-137). -/
noncomputable def kalbachCosineN (R A : Num) (xi1 xi2 : ℝ) : Num :=
  if Num.lt R (.fin xi1) then
    let T := Num.mul (.fin (2 * xi2 - 1)) (Num.sinh A)
    Num.mul (Num.div (.fin 1) A) (Num.log (Num.add T (Num.sqrt (Num.add (Num.mul T T) (.fin 1)))))
  else
    Num.mul (Num.div (.fin 1) A)
      (Num.log (Num.add (Num.mul (.fin xi2) (Num.exp A)) (Num.mul (.fin (1 - xi2)) (Num.exp (Num.neg A)))))

open Classical in
/-- `Kalbach::sample_angle_energy` (src/kalbach.cpp:82-142). -/
noncomputable def Kalbach.sampleN (d : Kalbach) (E : ℝ) (ω : Tape) (k : Nat) : Res (Num × Num × Nat) := do
  let (l, f) ← bracketInN d.energy E
  let t0 ← getAt d.tables l
  let t1 ← getAt d.tables (l + 1)
  let (a0, b0, a1, b1, Emin, Emax) ← unitBaseN t0.minEnergy t0.maxEnergy t1.minEnergy t1.maxEnergy f
  let (Eh, a, b, R, A) ← (if Num.lt f (.fin (ω k)) then do
      let e ← t0.toPC.sampleN (ω (k + 1))
      let r ← t0.paramN t0.R e
      let s ← t0.paramN t0.A e
      return (e, a0, b0, r, s)
    else do
      let e ← t1.toPC.sampleN (ω (k + 1))
      let r ← t1.paramN t1.R e
      let s ← t1.paramN t1.A e
      return (e, a1, b1, r, s) : Res (Num × ℝ × ℝ × Num × Num))
  let Eout := Num.add Emin (Num.mul (Num.div (Num.sub Eh (.fin a)) (.fin (b - a))) (Num.sub Emax Emin))
  return (Num.clamp (kalbachCosineN R A (ω (k + 2)) (ω (k + 3))), Eout, k + 4)

end PNDL
