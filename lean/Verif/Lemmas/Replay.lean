import Verif.Spec.Replay
import Verif.Model.AceLaws
import Verif.Model.Elastic
import Verif.Model.Thermal
import Verif.Lemmas.STNeutron

/-! Rules for `Replay`. -/
namespace PNDL
open Spec

variable {α β γ : Type}

theorem Replay.congr {run run' : Nat → Tape → Nat → Res (α × Nat)} (h : Replay run') (e : ∀ f ω k, run f ω k = run' f ω k) : Replay run := by
  have : run = run' := by funext f ω k; exact e f ω k
  rwa [this]

theorem Replay.err (e : Err) : Replay fun (_ : Nat) (_ : Tape) (_ : Nat) => (.error e : Res (α × Nat)) := by
  intro f ω k x k' h
  cases h

theorem Replay.ret (a : Res α) : Replay fun (_ : Nat) (_ : Tape) k => a.map fun x => (x, k) := by
  intro f ω k x k' h
  cases a with
  | error e => cases h
  | ok a => cases h; exact ⟨0, rfl, fun _ _ _ _ _ => rfl⟩

theorem Replay.read {r : ℝ → Nat → Tape → Nat → Res (α × Nat)} (h : ∀ x, Replay (r x)) : Replay fun f ω k => r (ω k) f ω (k + 1) := by
  intro f ω k x k' hx
  obtain ⟨n, rfl, hn⟩ := h _ f ω (k + 1) x k' hx
  refine ⟨n + 1, by omega, fun f' ω' j hf ha => ?_⟩
  have h0 := ha 0 (by omega)
  rw [Nat.add_zero, Nat.add_zero] at h0
  simp only [h0]
  rw [hn f' ω' (j + 1) hf fun i hi => by
    have := ha (i + 1) (by omega)
    rwa [show j + (i + 1) = j + 1 + i by omega, show k + (i + 1) = k + 1 + i by omega] at this]
  rw [show j + 1 + n = j + (n + 1) by omega]

theorem Replay.bind {r : Nat → Tape → Nat → Res (α × Nat)} {s : α → Nat → Tape → Nat → Res (β × Nat)} (h : Replay r) (hs : ∀ x, Replay (s x)) :
    Replay fun f ω k => (r f ω k).bind fun p => s p.1 f ω p.2 := by
  intro f ω k y k' hy
  cases hr : r f ω k with
  | error e => simp only [hr, Except.bind] at hy; cases hy
  | ok p =>
    obtain ⟨x, k1⟩ := p
    simp only [hr, Except.bind] at hy
    obtain ⟨n, rfl, hn⟩ := h f ω k x k1 hr
    obtain ⟨m, rfl, hm⟩ := hs x f ω (k + n) y k' hy
    refine ⟨n + m, by omega, fun f' ω' j hf ha => ?_⟩
    have h1 := hn f' ω' j hf fun i hi => ha i (by omega)
    have h2 := hm f' ω' (j + n) hf fun i hi => by
      have := ha (n + i) (by omega)
      rwa [← Nat.add_assoc, ← Nat.add_assoc] at this
    simp only [h1, Except.bind, h2]
    rw [Nat.add_assoc]

theorem Replay.pre {s : β → Nat → Tape → Nat → Res (α × Nat)} (a : Res β) (hs : ∀ b, Replay (s b)) : Replay fun f ω k => a.bind fun b => s b f ω k := by
  cases a with
  | error e => exact Replay.err e
  | ok b => exact hs b

theorem Replay.ite {c : Prop} [Decidable c] {r s : Nat → Tape → Nat → Res (α × Nat)} (hr : Replay r) (hs : Replay s) :
    Replay fun f ω k => if c then r f ω k else s f ω k := by
  by_cases h : c
  · simpa only [if_pos h] using hr
  · simpa only [if_neg h] using hs

/-- What is returned may be worked on afterwards. -/
theorem Replay.post {r : Nat → Tape → Nat → Res (α × Nat)} (h : Replay r) (g : α → Res β) :
    Replay fun f ω k => (r f ω k).bind fun p => (g p.1).map fun y => (y, p.2) :=
  Replay.bind h fun x => Replay.ret (g x)

/-- A method that always consumes `n` numbers. -/
theorem Replay.fixed {run : Nat → Tape → Nat → Res (α × Nat)} (n : Nat)
    (h : ∀ f f' ω ω' k j, (∀ i, i < n → ω' (j + i) = ω (k + i)) → run f' ω' j = (run f ω k).map fun r => (r.1, j + n)) : Replay run := by
  intro f ω k x k' hx
  have h1 := h f f ω ω k k fun _ _ => rfl
  rw [hx] at h1
  have h2 : (x, k') = (x, k + n) := Except.ok.inj h1
  refine ⟨n, (Prod.mk.inj h2).2, fun f' ω' j _ ha => ?_⟩
  rw [h f f' ω ω' k j ha, hx]
  rfl

/-- A loop of candidates: `some x` is accepted. -/
theorem Replay.loop {c : Nat → Tape → Nat → Res (Option α × Nat)} (hc : Replay c) {l : Nat → Nat → Tape → Nat → Res (α × Nat)}
    (h0 : ∀ s ω k x, l s 0 ω k ≠ .ok x)
    (h1 : ∀ s f ω k, l s (f + 1) ω k = (c s ω k).bind fun p => match p.1 with | some x => .ok (x, p.2) | none => l s f ω p.2) :
    ∀ f s ω k x k', l s f ω k = .ok (x, k') → ∃ n, k' = k + n ∧
      ∀ s' f' ω' j, s ≤ s' → f ≤ f' → (∀ i, i < n → ω' (j + i) = ω (k + i)) → l s' f' ω' j = .ok (x, j + n) := by
  intro f
  induction f with
  | zero => intro s ω k x k' h; exact absurd h (h0 _ _ _ _)
  | succ f ih =>
    intro s ω k x k' h
    rw [h1] at h
    cases hr : c s ω k with
    | error e => simp only [hr, Except.bind] at h; cases h
    | ok p =>
      obtain ⟨o, k1⟩ := p
      simp only [hr, Except.bind] at h
      obtain ⟨n, rfl, hn⟩ := hc s ω k o k1 hr
      cases o with
      | some y =>
        simp only [Except.ok.injEq, Prod.mk.injEq] at h
        obtain ⟨rfl, rfl⟩ := h
        refine ⟨n, rfl, fun s' f' ω' j hs hf ha => ?_⟩
        obtain ⟨g, rfl⟩ : ∃ g, f' = g + 1 := ⟨f' - 1, by omega⟩
        rw [h1, hn s' ω' j hs ha]
        rfl
      | none =>
        obtain ⟨m, rfl, hm⟩ := ih s ω (k + n) x k' h
        refine ⟨n + m, by omega, fun s' f' ω' j hs hf ha => ?_⟩
        obtain ⟨g, rfl⟩ : ∃ g, f' = g + 1 := ⟨f' - 1, by omega⟩
        rw [h1, hn s' ω' j hs fun i hi => ha i (by omega)]
        have h2 := hm s' g ω' (j + n) hs (by omega) fun i hi => by
          have := ha (n + i) (by omega)
          rwa [← Nat.add_assoc, ← Nat.add_assoc] at this
        simp only [Except.bind, h2]
        rw [Nat.add_assoc]

/-- The loop with one bound for everything. -/
theorem Replay.loop_diag {c : Nat → Tape → Nat → Res (Option α × Nat)} (hc : Replay c) {l : Nat → Nat → Tape → Nat → Res (α × Nat)}
    (h0 : ∀ s ω k x, l s 0 ω k ≠ .ok x)
    (h1 : ∀ s f ω k, l s (f + 1) ω k = (c s ω k).bind fun p => match p.1 with | some x => .ok (x, p.2) | none => l s f ω p.2) :
    Replay fun f => l f f := by
  intro f ω k x k' h
  obtain ⟨n, e, hn⟩ := Replay.loop hc h0 h1 f f ω k x k' h
  exact ⟨n, e, fun f' ω' j hf ha => hn f' f' ω' j hf hf ha⟩

/-! ### Two calls side by side -/

theorem replay_map_congr {F : β → Res α} {F' : β → Res γ} {g : γ → α} (x : Res β) (h : ∀ b, F b = (F' b).map g) :
    (x >>= F) = (x >>= F').map g := by
  cases x with
  | error e => rfl
  | ok b => exact h b

theorem ite_map_congr {c : Prop} [Decidable c] {a b : Res α} {a' b' : Res γ} {g : γ → α} (h1 : a = a'.map g) (h2 : b = b'.map g) :
    (if c then a else b) = (if c then a' else b').map g := by
  by_cases h : c
  · rw [if_pos h, if_pos h]; exact h1
  · rw [if_neg h, if_neg h]; exact h2

/-- Split two equal programs that differ in the position they return. -/
macro "side_by_side" : tactic =>
  `(tactic| repeat (first | rfl | (refine ite_map_congr ?_ ?_) | (refine replay_map_congr _ fun _ => ?_)))

end PNDL
