import Verif.Model.Ieee
import Verif.Props.Bracket
import Verif.Props.EnergyAngle
import Verif.Props.Kalbach

/-! Lemmas on the model with special values. -/
namespace PNDL
open Spec

/-! ### Both models agree where the first one has a value -/

/-- `s` continues `r`: it has the same value, and the same error unless that is a non-finite number. -/
def Ext {α β : Type _} (ι : α → β) (r : Res α) (s : Res β) : Prop :=
  (∀ v, r = .ok v → s = .ok (ι v)) ∧ ∀ e, r = .error e → e ≠ .nonfinite → s = .error e

theorem Ext.ok {α β : Type _} {ι : α → β} {a : α} {b : β} (h : b = ι a) : Ext ι (.ok a) (.ok b) :=
  ⟨fun v e => (by cases e; rw [h]), fun e h => (by cases h)⟩

theorem Ext.pure {α β : Type _} {ι : α → β} {a : α} {b : β} (h : b = ι a) : Ext ι (Pure.pure a) (Pure.pure b) := Ext.ok h

theorem Ext.refl {α : Type _} (r : Res α) : Ext (fun a => a) r r := ⟨fun _ e => e, fun _ e _ => e⟩

theorem Ext.nonfinite {α β : Type _} {ι : α → β} {s : Res β} : Ext ι (.error .nonfinite) s :=
  ⟨fun v e => (by cases e), fun e h hne => (by cases h; exact absurd rfl hne)⟩

theorem Ext.bind {α β γ δ : Type _} {ι : α → β} {κ : γ → δ} {r : Res α} {s : Res β} {f : α → Res γ} {g : β → Res δ} (h : Ext ι r s)
    (hf : ∀ a, r = .ok a → Ext κ (f a) (g (ι a))) : Ext κ (r >>= f) (s >>= g) := by
  cases hr : r with
  | ok a =>
    rw [h.1 a hr]
    exact hf a hr
  | error e =>
    by_cases he : e = .nonfinite
    · rw [he]; exact Ext.nonfinite
    · rw [h.2 e hr he]
      exact ⟨fun v e => (by cases e), fun e' h' _ => (by cases h'; rfl)⟩

theorem Ext.same {α γ δ : Type _} {κ : γ → δ} {r : Res α} {f : α → Res γ} {g : α → Res δ} (hf : ∀ a, r = .ok a → Ext κ (f a) (g a)) :
    Ext κ (r >>= f) (r >>= g) := (Ext.refl r).bind hf

theorem Ext.ite {α β : Type _} {ι : α → β} {c c' : Prop} [Decidable c] [Decidable c'] (hc : c ↔ c') {a b : Res α} {a' b' : Res β}
    (h1 : c → Ext ι a a') (h2 : ¬ c → Ext ι b b') : Ext ι (if c then a else b) (if c' then a' else b') := by
  by_cases h : c
  · rw [if_pos h, if_pos (hc.mp h)]; exact h1 h
  · rw [if_neg h, if_neg (mt hc.mpr h)]; exact h2 h

theorem Ext.div {α β : Type _} {ι : α → β} {a b : ℝ} {f : ℝ → Res α} {s : Res β} (h : b ≠ 0 → Ext ι (f (a / b)) s) : Ext ι (rdiv a b >>= f) s := by
  by_cases hb : b = 0
  · rw [hb, rdiv_zero]; exact Ext.nonfinite
  · rw [rdiv_ok hb]; exact h hb

theorem Ext.log {α β : Type _} {ι : α → β} {a : ℝ} {f : ℝ → Res α} {s : Res β} (h : 0 < a → Ext ι (f (Real.log a)) s) : Ext ι (clog a >>= f) s := by
  by_cases ha : 0 < a
  · rw [clog_ok ha]; exact h ha
  · have : clog a = .error .nonfinite := by unfold clog; rw [if_neg ha]
    rw [this]; exact Ext.nonfinite

theorem Num.div_fin {a b : ℝ} (h : b ≠ 0) : Num.div (.fin a) (.fin b) = .fin (a / b) := by
  simp [Num.div, h]

theorem lowerBoundN_fin (l : List ℝ) (x : ℝ) : lowerBoundN l (.fin x) = lowerBound l x := by
  unfold lowerBoundN lowerBound lowerBoundRange
  simp only [Nat.sub_zero, Num.lt]
  congr 1

theorem bisect_false {l : List ℝ} : ∀ fuel len, bisect (fun _ => false) l fuel 0 len = 0 := by
  intro fuel
  induction fuel with
  | zero => intro len; rfl
  | succ n ih =>
    intro len
    unfold bisect
    split
    · rfl
    · split
      · rfl
      · simp [ih]

theorem lowerBoundN_nan (l : List ℝ) : lowerBoundN l .nan = 0 := by
  unfold lowerBoundN
  have : (fun v : ℝ => @decide (Num.lt (.fin v) .nan) (Classical.propDecidable _)) = fun _ => false := by
    funext v; exact @decide_eq_false _ (Classical.propDecidable _) (fun h => h)
  rw [this]
  exact bisect_false _ _

open Classical in
theorem lowerBoundN_inf (l : List ℝ) (s : Bool) : lowerBoundN l (.inf s) = if s then 0 else l.length := by
  unfold lowerBoundN
  cases s with
  | true =>
    have : (fun v : ℝ => decide (Num.lt (.fin v) (.inf true))) = fun _ => false := by
      funext v; simp [Num.lt]
    rw [this, if_pos rfl]
    exact bisect_false _ _
  | false =>
    obtain ⟨_, h2, h3⟩ := bisect_spec (fun v => decide (Num.lt (.fin v) (.inf false))) l (fun _ _ _ _ _ _ _ _ => by simp [Num.lt]) l.length 0 l.length
      (le_refl _) (by simp)
    simp only [Bool.false_eq_true, if_false]
    by_contra hne
    obtain ⟨a, ha⟩ := getElem?_of_lt (l := l) (i := bisect (fun v => decide (Num.lt (.fin v) (.inf false))) l l.length 0 l.length) (by omega)
    have := (h3 _ a ha (Nat.zero_le _) (by omega)).mp (by simp [Num.lt])
    omega

theorem linLinN_ext (x x1 y1 x2 y2 : ℝ) : Ext Num.fin (Interpolation.linLin.interpolate x x1 y1 x2 y2) (.ok (linLinN (.fin x) x1 y1 x2 y2)) := by
  unfold Interpolation.interpolate
  refine Ext.div fun h => Ext.ok ?_
  unfold linLinN
  simp only [Num.sub, Num.neg, Num.add, ← sub_eq_add_neg, Num.div_fin h, Num.mul]

theorem bracketInN_ext (grid : List ℝ) (E : ℝ) : Ext (fun p => (p.1, Num.fin p.2)) (bracketIn grid E) (bracketInN grid E) := by
  unfold bracketIn bracketInN
  refine Ext.ite Iff.rfl (fun _ => Ext.ok rfl) fun _ => Ext.ite Iff.rfl (fun _ => Ext.same fun l _ => Ext.pure rfl) fun _ => ?_
  exact Ext.same fun l _ => Ext.same fun e0 _ => Ext.same fun e1 _ => Ext.div fun h => Ext.pure (by rw [Num.div_fin h])

theorem unitBaseN_ext (mn0 mx0 mn1 mx1 : Res ℝ) (f : ℝ) : Ext (fun p : ℝ × ℝ × ℝ × ℝ × ℝ × ℝ => (p.1, p.2.1, p.2.2.1, p.2.2.2.1, Num.fin p.2.2.2.2.1, Num.fin p.2.2.2.2.2))
    (unitBase mn0 mx0 mn1 mx1 f) (unitBaseN mn0 mx0 mn1 mx1 (.fin f)) := by
  unfold unitBase unitBaseN
  exact Ext.same fun _ _ => Ext.same fun _ _ => Ext.same fun _ _ => Ext.same fun _ _ => Ext.pure rfl

theorem scaleInN_fin {Eout Emin Emax : ℝ} (a b : ℝ) (h : Emax - Emin ≠ 0) :
    scaleInN Eout (.fin Emin) (.fin Emax) a b = .fin ((Eout - Emin) / (Emax - Emin) * (b - a) + a) := by
  unfold scaleInN
  simp only [Num.sub, Num.neg, Num.add, ← sub_eq_add_neg, Num.div_fin h, Num.mul]

theorem mixN_fin (f p0 p1 : ℝ) : mixN (.fin f) (.fin p0) (.fin p1) = .fin ((1 - f) * p0 + f * p1) := by
  simp only [mixN, Num.sub, Num.neg, Num.add, ← sub_eq_add_neg, Num.mul]

theorem PCTable.pdfN_ext (t : PCTable) (x : ℝ) : Ext Num.fin (t.pdfAt x) (t.pdfN (.fin x)) := by
  unfold PCTable.pdfAt PCTable.pdfN
  refine Ext.same fun mn _ => Ext.same fun mx _ => Ext.ite Iff.rfl (fun _ => Ext.ok rfl) fun _ => ?_
  simp only [lowerBoundN_fin]
  refine Ext.same fun v _ => Ext.ite Iff.rfl (fun _ => ?_) fun _ => ?_
  · cases h : getAt t.pdf (lowerBound t.values x) with
    | ok p => exact Ext.ok rfl
    | error e => exact ⟨fun v e => (by cases e), fun e' h' _ => (by cases h'; rfl)⟩
  · exact Ext.same fun l _ => Ext.same fun p0 _ => Ext.ite Iff.rfl (fun _ => Ext.ok rfl) fun _ => Ext.same fun v0 _ => Ext.same fun v1 _ =>
      Ext.same fun p1 _ => linLinN_ext _ _ _ _ _

theorem PCTable.sampleN_ext (t : PCTable) (xi : ℝ) : Ext Num.fin (t.sample xi) (t.sampleN xi) := by
  unfold PCTable.sample PCTable.sampleN
  have hh : ∀ v0 p0 c0, Ext Num.fin (histInterp xi v0 p0 c0) (.ok (Num.add (.fin v0) (Num.div (.fin (xi - c0)) (.fin p0)))) := by
    intro v0 p0 c0
    unfold histInterp
    exact Ext.div fun h => Ext.pure (by rw [Num.div_fin h]; rfl)
  refine Ext.same fun c _ => Ext.ite Iff.rfl (fun _ => ?_) fun _ => ?_
  · cases h : getAt t.values (lowerBound t.cdf xi) with
    | ok p => exact Ext.ok rfl
    | error e => exact ⟨fun v e => (by cases e), fun e' h' _ => (by cases h'; rfl)⟩
  · refine Ext.same fun l _ => Ext.same fun v0 _ => Ext.same fun p0 _ => Ext.same fun c0 _ => Ext.ite Iff.rfl (fun _ => hh _ _ _) fun _ =>
      Ext.same fun p1 _ => Ext.ite Iff.rfl (fun _ => hh _ _ _) fun hp => Ext.same fun v1 _ => ?_
    unfold linInterp
    refine Ext.div fun h1 => Ext.div fun h2 => Ext.pure ?_
    simp only [Num.div_fin h1, Num.div_fin h2, Num.mul, Num.add, Num.max, Num.lt, Num.sub, Num.neg]
    by_cases hm : p0 * p0 + 2 * ((p1 - p0) / (v1 - v0)) * (xi - c0) < 0
    · rw [if_pos hm, max_eq_right hm.le]
      simp [Num.sqrt]
    · rw [if_neg hm, max_eq_left (not_lt.mp hm)]
      simp only [Num.sqrt, if_neg hm, ← sub_eq_add_neg]

theorem jointPdfN_ext {energy pdf : List ℝ} {r : Interpolation} {node : Nat → Res ℝ} {nodeN : Nat → Res Num} (hn : ∀ l, Ext Num.fin (node l) (nodeN l))
    (E : ℝ) : Ext Num.fin (jointPdf energy pdf r node E) (jointPdfN energy pdf r nodeN (.fin E)) := by
  unfold jointPdf jointPdfN
  simp only [lowerBoundN_fin]
  refine Ext.ite Iff.rfl (fun _ => Ext.ok rfl) fun _ => Ext.same fun e0 _ => Ext.ite Iff.rfl (fun _ => Ext.ok rfl) fun _ => Ext.same fun e _ => ?_
  refine Ext.bind (ι := fun a => a) (Ext.ite Iff.rfl (fun _ => Ext.refl _) fun _ => Ext.refl _) fun l _ => ?_
  refine Ext.ite Iff.rfl (fun _ => (hn l).bind fun m _ => Ext.same fun p _ => Ext.pure rfl) fun _ => Ext.same fun el _ => Ext.same fun er _ => ?_
  refine Ext.div fun h => (hn _).bind fun m1 _ => Ext.same fun p1 _ => (hn _).bind fun m0 _ => Ext.same fun p0 _ => Ext.pure ?_
  simp only [Num.sub, Num.neg, Num.add, ← sub_eq_add_neg, Num.div_fin h, Num.mul]

theorem KalbachTable.nodeN_ext (t : KalbachTable) (mu : ℝ) (l : Nat) : Ext Num.fin (t.node mu l) (t.nodeN mu l) := by
  unfold KalbachTable.node KalbachTable.nodeN kalbachMuP
  refine Ext.same fun a _ => Ext.same fun r _ => Ext.div fun h => Ext.pure ?_
  simp only [Num.div_fin h, Num.mul]

theorem KalbachTable.pdfN_ext (t : KalbachTable) (mu E : ℝ) : Ext Num.fin (t.pdfAt mu E) (t.pdfN mu (.fin E)) :=
  jointPdfN_ext (fun l => t.nodeN_ext mu l) E

theorem EATable.nodeN_ext (t : EATable) (mu : ℝ) (l : Nat) : Ext Num.fin (t.node mu l) (t.nodeN mu l) := by
  unfold EATable.node EATable.nodeN
  exact Ext.same fun a _ => a.pdfN_ext mu

theorem EATable.pdfN_ext (t : EATable) (mu E : ℝ) : Ext Num.fin (t.pdfAt mu E) (t.pdfN mu (.fin E)) :=
  jointPdfN_ext (fun l => t.nodeN_ext mu l) E

open Classical in
theorem KalbachTable.paramN_ext (t : KalbachTable) (ys : List ℝ) (E : ℝ) : Ext Num.fin (t.param ys E) (t.paramN ys (.fin E)) := by
  have hle : ∀ a b : ℝ, a ≤ b ↔ Num.le (.fin a) (.fin b) := fun a b => le_iff_lt_or_eq
  have hok : ∀ r : Res ℝ, Ext Num.fin r (r >>= fun y => Pure.pure (Num.fin y)) := by
    intro r
    cases r with
    | ok p => exact Ext.ok rfl
    | error e => exact ⟨fun v e => (by cases e), fun e' h' _ => (by cases h'; rfl)⟩
  unfold KalbachTable.param KalbachTable.paramN
  refine Ext.same fun mn _ => Ext.same fun mx _ => Ext.ite (hle _ _) (fun _ => hok _) fun _ => Ext.ite (hle _ _) (fun _ => hok _) fun _ => ?_
  simp only [lowerBoundN_fin]
  refine Ext.same fun l _ => Ext.same fun e0 _ => Ext.same fun y0 _ => Ext.same fun e1 _ => Ext.same fun y1 _ => ?_
  by_cases hi : t.interp = .histogram
  · rw [if_pos hi, if_pos hi]; exact Ext.ok rfl
  · rw [if_neg hi, if_neg hi]; exact linLinN_ext _ _ _ _ _

end PNDL
