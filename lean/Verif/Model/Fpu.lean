import Verif.Model.Ieee

/-! The analytic spectra on a floating point unit: every operation rounded, infinities and NaN, and whatever the mathematical library returns. -/
namespace PNDL

/-- A floating point unit and its library: what a finite exact result becomes (a number, or an infinity when it overflows), and the library
functions, which may return anything. -/
structure Fpu where
  rnd : ℝ → Num
  log : Num → Num
  exp : Num → Num
  cos : Num → Num
  sqrt : Num → Num
  sinh : Num → Num
  /-- `std::pow(x, 2.)` -/
  square : Num → Num
  /-- the constant `PI` -/
  pi : Num

namespace Fpu

/-- Rounding of the result of an operation. -/
def round (p : Fpu) : Num → Num
  | .fin x => p.rnd x
  | a => a

/-- `a + b`. -/
noncomputable def add (p : Fpu) (a b : Num) : Num := p.round (Num.add a b)
/-- `a - b`. -/
noncomputable def sub (p : Fpu) (a b : Num) : Num := p.round (Num.sub a b)
/-- `a * b`. -/
noncomputable def mul (p : Fpu) (a b : Num) : Num := p.round (Num.mul a b)
/-- `a / b`. -/
noncomputable def div (p : Fpu) (a b : Num) : Num := p.round (Num.div a b)

open Classical in
/-- The acceptance loop shared by Maxwellian, Evaporation and Watt (src/maxwellian.cpp:80-90, src/evaporation.cpp:78-88,
src/watt.cpp:116-128): `cand k` is the candidate made from the draws at `k, …, k+n-1`. -/
noncomputable def loop (cand : Nat → Num) (n : Nat) (du : Num) : Nat → Nat → Res (Num × Nat)
  | 0, _ => .error .diverge
  | fuel + 1, k => if Num.le (.fin 0) (cand k) ∧ Num.le (cand k) du then .ok (cand k, k + n) else loop cand n du fuel (k + n)

/-- `std::log(xi1) + std::log(xi2) * c * c` with `c = std::cos(PI * xi3 / 2.)` (src/maxwellian.cpp:85-87, src/watt.cpp:121-123). -/
noncomputable def gammaSum (p : Fpu) (x1 x2 x3 : Num) : Num :=
  let c := p.cos (p.div (p.mul p.pi x3) (.fin 2))
  p.add (p.log x1) (p.mul (p.mul (p.log x2) c) c)

/-- `Maxwellian::sample_energy` (src/maxwellian.cpp:71-93) for the temperature `T` at this energy. -/
noncomputable def maxwell (p : Fpu) (T U E : Num) (fuel : Nat) (ω : Nat → Num) (k : Nat) : Res (Num × Nat) :=
  loop (fun k => p.mul (Num.neg T) (p.gammaSum (ω k) (ω (k + 1)) (ω (k + 2)))) 3 (p.sub E U) fuel k

/-- `Evaporation::sample_energy` (src/evaporation.cpp:69-91). -/
noncomputable def evap (p : Fpu) (T U E : Num) (fuel : Nat) (ω : Nat → Num) (k : Nat) : Res (Num × Nat) :=
  let w := p.div (p.sub E U) T
  let g := p.sub (.fin 1) (p.exp (Num.neg w))
  loop (fun k => p.mul (Num.neg T) (p.log (p.mul (p.sub (.fin 1) (p.mul g (ω k))) (p.sub (.fin 1) (p.mul g (ω (k + 1))))))) 2 (p.sub E U) fuel k

/-- `Watt::sample_energy` (src/watt.cpp:104-131). -/
noncomputable def watt (p : Fpu) (a b U E : Num) (fuel : Nat) (ω : Nat → Num) (k : Nat) : Res (Num × Nat) :=
  loop (fun k =>
    let w := p.mul (Num.neg a) (p.gammaSum (ω k) (ω (k + 1)) (ω (k + 2)))
    p.add (p.add w (p.mul (p.mul (p.mul (.fin 0.25) a) a) b))
      (p.mul (p.sub (p.mul (.fin 2) (ω (k + 3))) (.fin 1)) (p.sqrt (p.mul (p.mul (p.mul a a) b) w)))) 4 (p.sub E U) fuel k

/-- `LevelInelasticScatter::sample_energy` (src/level_inelastic_scatter.cpp:47-50). -/
noncomputable def level (p : Fpu) (C1 C2 E : Num) : Num := p.mul C2 (p.sub E C1)

/-- `NBody::maxwellian_spectrum` (src/nbody.cpp:107-110). -/
noncomputable def spectrum (p : Fpu) (ω : Nat → Num) (k : Nat) : Num :=
  let a := p.div (p.mul p.pi (ω k)) (.fin 2)
  Num.neg (p.add (p.log (ω (k + 1))) (p.mul (p.mul (p.log (ω (k + 2))) (p.cos a)) (p.cos a)))

/-- `Emax` (src/nbody.cpp:82). -/
noncomputable def nbodyEmax (p : Fpu) (Ap A Q E : Num) : Num :=
  p.mul (p.div (p.sub Ap (.fin 1)) Ap) (p.add (p.mul (p.div A (p.add A (.fin 1))) E) Q)

/-- The second variable (src/nbody.cpp:84-99), and the number of draws it takes. -/
noncomputable def nbodyY (p : Fpu) (n : Nat) (ω : Nat → Num) (k : Nat) : Num × Nat :=
  if n = 3 then (p.spectrum ω k, 3)
  else if n = 4 then (Num.neg (p.log (p.mul (p.mul (ω k) (ω (k + 1))) (ω (k + 2)))), 3)
  else if n = 5 then
    (p.sub (Num.neg (p.log (p.mul (p.mul (p.mul (ω k) (ω (k + 1))) (ω (k + 2))) (ω (k + 3)))))
      (p.mul (p.log (ω (k + 4))) (p.square (p.cos (p.mul (p.mul (.fin 0.5) p.pi) (ω (k + 5)))))), 6)
  else (.fin 0, 0)

/-- `NBody::sample_angle_energy` (src/nbody.cpp:80-105): cosine, energy, next draw. -/
noncomputable def nbody (p : Fpu) (n : Nat) (Ap A Q E : Num) (ω : Nat → Num) (k : Nat) : Num × Num × Nat :=
  let x := p.spectrum ω k
  let y := p.nbodyY n ω (k + 3)
  (p.sub (p.mul (.fin 2) (ω (k + 3 + y.2))) (.fin 1), p.mul (p.div x (p.add x y.1)) (p.nbodyEmax Ap A Q E), k + 3 + y.2 + 1)

/-- `Isotropic::sample_mu` (src/isotropic.cpp:29-33). -/
noncomputable def isotropic (p : Fpu) (x : Num) : Num := Num.clamp (p.sub (p.mul (.fin 2) x) (.fin 1))

open Classical in
/-- The cosine drawn by `Kalbach::sample_angle_energy` (src/kalbach.cpp:129-139) from the parameters `R` and `A` at the energy drawn. -/
noncomputable def kalbach (p : Fpu) (R A x1 x2 : Num) : Num :=
  Num.clamp (if Num.lt R x1 then
      let T := p.mul (p.sub (p.mul (.fin 2) x2) (.fin 1)) (p.sinh A)
      p.mul (p.div (.fin 1) A) (p.log (p.add T (p.sqrt (p.add (p.mul T T) (.fin 1)))))
    else p.mul (p.div (.fin 1) A) (p.log (p.add (p.mul x2 (p.exp A)) (p.mul (p.sub (.fin 1) x2) (p.exp (Num.neg A))))))

/-- Exact arithmetic and an exact library. -/
noncomputable def exact : Fpu where
  rnd := .fin
  log := Num.log
  exp := Num.exp
  cos
    | .fin x => .fin (Real.cos x)
    | _ => .nan
  sqrt := Num.sqrt
  sinh := Num.sinh
  square a := Num.mul a a
  pi := .fin Real.pi

end Fpu
end PNDL
