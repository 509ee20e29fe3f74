import Verif.Model.Tape

/-! `Legendre` (src/legendre.cpp). -/
namespace PNDL

/-- The `while (l < n)` loop of `detail::legendre` (src/legendre.cpp:72-77): `k` iterations remain, the two latest
polynomials are `p3` (order `l-1`) and `p4` (order `l`). -/
noncomputable def legLoop (x : ℝ) : Nat → Nat → ℝ → ℝ → ℝ
  | 0, _, _, p4 => p4
  | k + 1, l, p3, p4 => legLoop x k (l + 1) p4 (((2 * (l : ℝ) + 1) * x * p4 - (l : ℝ) * p3) / ((l : ℝ) + 1))

/-- `detail::legendre(n, x)` (src/legendre.cpp:44-83). -/
noncomputable def legendre (n : Nat) (x : ℝ) : ℝ :=
  match n with
  | 0 => 1
  | 1 => x
  | 2 => 0.5 * (3 * x * x - 1)
  | 3 => 0.5 * (5 * x * x * x - 3 * x)
  | 4 => 0.125 * (35 * (x * x) * (x * x) - 30 * (x * x) + 3)
  | n => legLoop x (n - 4) 4 (0.5 * (5 * (x * x * x) - 3 * x)) (0.125 * (35 * (x * x * x * x) - 30 * (x * x) + 3))

/-- The loop of `Legendre::pdf` (src/legendre.cpp:113-115), from order `l` on. -/
noncomputable def legSum (mu : ℝ) : Nat → ℝ → List ℝ → ℝ
  | _, acc, [] => acc
  | l, acc, a :: as => legSum mu (l + 1) (acc + a * legendre l mu) as

/-- `class Legendre` (legendre.hpp:74-75). -/
structure Legendre where
  a : List ℝ
  pdfMax : ℝ

/-- `Legendre::pdf` (src/legendre.cpp:110-118) as a function of the coefficients. -/
noncomputable def legPdf (a : List ℝ) (mu : ℝ) : ℝ := legSum mu 0 0 a

open Classical in
/-- The loop of `find_max` (src/legendre.cpp:160-164). -/
noncomputable def maxLoop (f : ℝ → ℝ) : Nat → ℝ → ℝ → ℝ
  | 0, _, cur => cur
  | k + 1, mu, cur => maxLoop f k (mu + 0.001) (if f (mu + 0.001) > cur then f (mu + 0.001) else cur)

/-- `find_max` (src/legendre.cpp:153-167): the new `pdf_max_`. -/
noncomputable def findMax (a : List ℝ) : ℝ := 1.001 * maxLoop (legPdf a) 2000 (-1) (legPdf a (-1))

open Classical in
/-- The loop of `positive` (src/legendre.cpp:173-177). -/
noncomputable def posLoop (f : ℝ → ℝ) : Nat → ℝ → Bool
  | 0, _ => true
  | k + 1, mu => if f mu < 0 then false else posLoop f k (mu + 0.001)

/-- `positive` (src/legendre.cpp:169-180). -/
noncomputable def positive (a : List ℝ) : Bool := posLoop (legPdf a) 2001 (-1)

/-- The end of the constructors and of `set_moment` (src/legendre.cpp:87-91, 103-107, 144-150): the object with the new
coefficients, and whether the call threw. -/
noncomputable def Legendre.finish (a : List ℝ) : Legendre × Res Unit :=
  (⟨a, findMax a⟩, if positive a = false then .error .exc else .ok ())

/-- `Legendre()` (src/legendre.cpp:86-92). -/
noncomputable def Legendre.default : Legendre × Res Unit := Legendre.finish [0.5]

/-- Multiplication of all coefficients by `(2l+1)/2` (src/legendre.cpp:99-101), from order `l` on. -/
noncomputable def scaleMoments : Nat → List ℝ → List ℝ
  | _, [] => []
  | l, a :: as => a * ((2 * (l : ℝ) + 1) / 2) :: scaleMoments (l + 1) as

/-- `Legendre(a)` (src/legendre.cpp:94-108). -/
noncomputable def Legendre.make (a : List ℝ) : Legendre × Res Unit := Legendre.finish (scaleMoments 0 (1 :: a))

/-- `a_.resize(n, 0.)` for `n ≥ a_.size()`. -/
noncomputable def resizeUp (a : List ℝ) (n : Nat) : List ℝ := a ++ List.replicate (n - a.length) 0

/-- `set_moment(l, a)` (src/legendre.cpp:132-151): the object afterwards, and whether the call threw. -/
noncomputable def Legendre.setMoment (s : Legendre) (l : Nat) (v : ℝ) : Legendre × Res Unit :=
  if l = 0 then (s, .error .exc)
  else
    let a := if l ≥ s.a.length then resizeUp s.a (l + 1) else s.a
    Legendre.finish (a.set l (v * (2 * (l : ℝ) + 1) / 2))

open Classical in
/-- `sample_mu` (src/legendre.cpp:120-130); two draws per iteration. -/
noncomputable def Legendre.sample (s : Legendre) (ω : Tape) : Nat → Nat → Res (ℝ × Nat)
  | 0, _ => .error .diverge
  | fuel + 1, k => do
    let mu := 2 * ω k - 1
    let p ← rdiv (legPdf s.a mu) s.pdfMax
    if ω (k + 1) < p then .ok (mu, k + 2) else s.sample ω fuel (k + 2)

end PNDL
