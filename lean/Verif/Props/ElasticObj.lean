import Verif.Lemmas.ElasticObj
import Verif.Props.Elastic

/-! C158: nuclides, the elastic distributions they own and the broadeners these own, under any program. -/
namespace PNDL
open Spec

/-- Statements about variables that do not exist do nothing. -/
private theorem step_idle {w : ElWorld} (v : Nat) (h : ¬ Lives w v) : (∀ T, w.step (.derive v T) = .ok w) ∧ w.step (.copy v) = .ok w ∧ w.step (.destroy v) = .ok w ∧
    (∀ s, w.step (.set v s) = .ok w) ∧ (∀ u, w.step (.assign v u) = .ok w) ∧ (∀ u, w.step (.assign u v) = .ok w) ∧ ∀ p, w.step (.setBroadener v p) = .ok w := by
  have hn : w.nucs[v]? = none ∨ w.nucs[v]? = some none := by
    cases hc : w.nucs[v]? with
    | none => exact Or.inl rfl
    | some o => cases o with
      | none => exact Or.inr rfl
      | some i => exact absurd ⟨i, hc⟩ h
  rcases hn with hn | hn <;> refine ⟨fun T => ?_, ?_, ?_, fun s => ?_, fun u => ?_, fun u => ?_, fun p => ?_⟩
  all_goals first
    | (unfold ElWorld.step; simp only [hn]; done)
    | (cases p <;> (unfold ElWorld.step; simp only [hn]); done)
    | (unfold ElWorld.step; split <;> simp_all)

private theorem step_idle_handle {w : ElWorld} (v h : Nat) (hh : ¬ ∃ j, w.handles[h]? = some (some j)) : w.step (.setBroadener v (some h)) = .ok w := by
  simp only [ElWorld.step]
  split
  · rename_i i j h1 h2
    exact absurd ⟨j, h2⟩ hh
  · rfl

/-- Every statement succeeds, keeps the counts right, changes the contents of no broadener, and changes an elastic distribution only through a setter called on
a nuclide that points to it. -/
theorem ElInv.step {w : ElWorld} (I : ElInv w) (op : ElOp) : ∃ w', w.step op = .ok w' ∧ ElInv w' ∧ Keeps w.brds w'.brds ∧
    (∀ i, (∀ v, w.nucs[v]? = some (some i) → ¬ Touches v op) → ∀ x, rcVal w.els i = some x → rcVal w'.els i = some x) ∧
    (∀ u, ¬ Touches u op → w.nucs[u]? = none ∨ w'.nucs[u]? = w.nucs[u]?) := by
  have app : ∀ {o : Option Nat} (u : Nat), w.nucs[u]? = none ∨ (w.nucs ++ [o])[u]? = w.nucs[u]? := fun u => by
    by_cases hu : u < w.nucs.length
    · exact Or.inr (List.getElem?_append_left hu)
    · exact Or.inl (List.getElem?_eq_none (by omega))
  have idle : ∀ {op}, w.step op = .ok w → ∃ w', w.step op = .ok w' ∧ ElInv w' ∧ Keeps w.brds w'.brds ∧
    (∀ i, (∀ v, w.nucs[v]? = some (some i) → ¬ Touches v op) → ∀ x, rcVal w.els i = some x → rcVal w'.els i = some x) ∧
    (∀ u, ¬ Touches u op → w.nucs[u]? = none ∨ w'.nucs[u]? = w.nucs[u]?) :=
    fun h => ⟨w, h, I, Keeps.refl _, fun _ _ _ e => e, fun _ _ => Or.inr rfl⟩
  cases op with
  | newBroadener b =>
    obtain ⟨w', h1, h2, h3, h4, h5⟩ := step_newBroadener I b
    exact ⟨w', h1, h2, h3, fun i _ x e => by rw [h4]; exact e, fun u _ => Or.inr (by rw [h5])⟩
  | dropBroadener h =>
    obtain ⟨w', h1, h2, h3, h4, h5⟩ := step_dropBroadener I h
    exact ⟨w', h1, h2, h3, fun i _ x e => by rw [h4]; exact e, fun u _ => Or.inr (by rw [h5])⟩
  | newNuc e b =>
    obtain ⟨w', h1, h2, h3, h4, h5, _⟩ := step_newNuc I e b
    exact ⟨w', h1, h2, h3, fun i _ x e => h4 i x e, fun u _ => by rw [h5]; exact app u⟩
  | derive v T =>
    by_cases hv : Lives w v
    · obtain ⟨i, hv⟩ := hv
      obtain ⟨w', _, h1, h2, h3, h4, h5, _⟩ := step_derive I hv T
      exact ⟨w', h1, h2, h3, fun i _ x e => h4 i x e, fun u _ => by rw [h5]; exact app u⟩
    · exact idle ((step_idle v hv).1 T)
  | copy v =>
    by_cases hv : Lives w v
    · obtain ⟨i, hv⟩ := hv
      obtain ⟨w', h1, h2, h3, h4, h5, _⟩ := step_copy I hv
      exact ⟨w', h1, h2, h3, fun i _ x e => h4 i x e, fun u _ => by rw [h5]; exact app u⟩
    · exact idle (step_idle v hv).2.1
  | assign v u =>
    by_cases hv : Lives w v
    · by_cases hu : Lives w u
      · obtain ⟨i, hv⟩ := hv
        obtain ⟨j, hu⟩ := hu
        obtain ⟨w', h1, h2, h3, h4, h5, _⟩ := step_assign I hv hu
        refine ⟨w', h1, h2, h3, fun i _ x e => h4 i x e, fun t ht => Or.inr ?_⟩
        rw [h5, List.getElem?_set_ne (fun e => ht e)]
      · exact idle ((step_idle u hu).2.2.2.2.2.1 v)
    · exact idle ((step_idle v hv).2.2.2.2.1 u)
  | destroy v =>
    by_cases hv : Lives w v
    · obtain ⟨i, hv⟩ := hv
      obtain ⟨w', h1, h2, h3, h4, h5, _⟩ := step_destroy I hv
      refine ⟨w', h1, h2, h3, fun i _ x e => h4 i x e, fun t ht => Or.inr ?_⟩
      rw [h5, List.getElem?_set_ne (fun e => ht e)]
    · exact idle (step_idle v hv).2.2.1
  | setBroadener v p =>
    by_cases hv : Lives w v
    · cases p with
      | none => exact idle rfl
      | some h =>
        by_cases hh : ∃ j, w.handles[h]? = some (some j)
        · obtain ⟨i, hv⟩ := hv
          obtain ⟨j, hh⟩ := hh
          obtain ⟨w', e, h1, h2, h3, h4, h5, h6, _⟩ := step_setBroadener I hv hh
          refine ⟨w', h1, h2, h3, fun k hk x ex => ?_, fun _ _ => Or.inr (by rw [h6])⟩
          rw [h5, if_neg (fun e => hk v (by rw [e]; exact hv) rfl)]
          exact ex
        · exact idle (step_idle_handle v h hh)
    · exact idle ((step_idle v hv).2.2.2.2.2.2 p)
  | set v s =>
    by_cases hv : Lives w v
    · obtain ⟨i, hv⟩ := hv
      obtain ⟨w', e, h1, h2, h3, h4, h5, h6, _⟩ := step_set I hv s
      refine ⟨w', h1, h2, by rw [h3]; exact Keeps.refl _, fun k hk x ex => ?_, fun _ _ => Or.inr (by rw [h6])⟩
      rw [h5, if_neg (fun e => hk v (by rw [e]; exact hv) rfl)]
      exact ex
    · exact idle ((step_idle v hv).2.2.2.1 s)

private theorem ElInv.run {w : ElWorld} (I : ElInv w) (ops : List ElOp) : ∃ w', w.run ops = .ok w' ∧ ElInv w' ∧ Keeps w.brds w'.brds := by
  induction ops generalizing w with
  | nil => exact ⟨w, rfl, I, Keeps.refl _⟩
  | cons op ops ih =>
    obtain ⟨w1, h1, h2, h3, _⟩ := I.step op
    obtain ⟨w2, g1, g2, g3⟩ := ih h2
    refine ⟨w2, ?_, g2, h3.trans g3⟩
    unfold ElWorld.run at *
    rw [List.foldlM_cons, h1]
    exact g1

private theorem reached_inv {w : ElWorld} (h : Reached w) : ElInv w := by
  obtain ⟨ops, h⟩ := h
  obtain ⟨w', h1, h2, _⟩ := ElInv.empty.run ops
  rw [h] at h1
  cases h1
  exact h2

private theorem run_inv {w w' : ElWorld} (I : ElInv w) {ops : List ElOp} (h : w.run ops = .ok w') : ElInv w' ∧ Keeps w.brds w'.brds := by
  obtain ⟨w1, h1, h2, h3⟩ := I.run ops
  rw [h] at h1
  cases h1
  exact ⟨h2, h3⟩

/-- **C158** No program ever uses, copies or destroys a destroyed object through its nuclides: every program runs, and every nuclide alive at its end has an elastic
distribution with a broadener. -/
theorem C158_safe (ops : List ElOp) : ∃ w, ElWorld.empty.run ops = .ok w ∧ ∀ v, Lives w v → ∃ e, w.elastic v = .ok e ∧ e.broadener ≠ none := by
  obtain ⟨w, h, I, _⟩ := ElInv.empty.run ops
  refine ⟨w, h, fun v ⟨i, hv⟩ => ?_⟩
  obtain ⟨e, b, _, _, h3, _⟩ := elastic_val I hv
  exact ⟨_, h3, by simp⟩

/-- **C158** Nothing leaks: when the last nuclide and the last pointer are gone, every object has been destroyed. -/
theorem C158_no_leak (w : ElWorld) (hw : Reached w) (h1 : ∀ v, ¬ Lives w v) (h2 : ∀ j, some j ∉ w.handles) :
    (∀ i, rcGet w.els i = .error .ub) ∧ ∀ j, rcGet w.brds j = .error .ub := by
  have I := (reached_inv hw)
  have dead : ∀ {α : Type} (h : List (RcCell α)) (i : Nat), rcCnt h i = 0 → rcGet h i = .error .ub := by
    intro α h i h0
    unfold rcCnt at h0
    unfold rcGet
    cases hc : h[i]? with
    | none => rfl
    | some c => rw [hc] at h0; simp only at h0; simp only [h0, if_true]
  have hel : ∀ i, rcCnt w.els i = 0 := by
    intro i
    rw [I.els]
    refine List.count_eq_zero.mpr fun hm => ?_
    obtain ⟨v, hv⟩ := List.mem_iff_getElem?.mp hm
    exact h1 v ⟨i, hv⟩
  refine ⟨fun i => dead _ _ (hel i), fun j => dead _ _ ?_⟩
  rw [I.brds, List.count_eq_zero.mpr (h2 j), List.countP_eq_zero.mpr]
  intro c hc hu
  obtain ⟨i, hi⟩ := List.mem_iff_getElem?.mp hc
  have := hel i
  unfold rcCnt at this
  rw [hi] at this
  simp [usesBrd] at hu
  simp only at this
  omega

/-- **C158** A reference to a broadener is usable exactly as long as somebody owns the broadener, and then it is the same broadener. -/
theorem C158_reference (w : ElWorld) (hw : Reached w) (j : Nat) : (∃ b, rcGet w.brds j = .ok b) ↔ Owned w j := by
  have I := (reached_inv hw)
  constructor
  · rintro ⟨b, hb⟩
    have hp := (rcGet_pos hb).1
    rw [I.brds] at hp
    by_cases hh : 0 < w.handles.count (some j)
    · exact Or.inl (List.count_pos_iff.mp hh)
    · right
      obtain ⟨c, hc, hu⟩ := List.countP_pos_iff.mp (show 0 < w.els.countP (usesBrd j) by omega)
      obtain ⟨i, hi⟩ := List.mem_iff_getElem?.mp hc
      simp [usesBrd] at hu
      have hn : 0 < w.nucs.count (some i) := by
        rw [← I.els]; unfold rcCnt; rw [hi]; exact hu.1
      obtain ⟨v, hv⟩ := List.mem_iff_getElem?.mp (List.count_pos_iff.mp hn)
      obtain ⟨e, b, h1, _, _, h4, _⟩ := elastic_val I hv
      refine ⟨v, ⟨i, hv⟩, ?_⟩
      unfold rcVal at h1
      rw [hi] at h1
      cases h1
      rw [h4, hu.2]
  · rintro (hm | ⟨v, ⟨i, hv⟩, hr⟩)
    · obtain ⟨h, hh⟩ := List.mem_iff_getElem?.mp hm
      obtain ⟨b, _, hb⟩ := rcVal_some (I.handle_pos hh)
      exact ⟨b, hb⟩
    · obtain ⟨e, b, _, _, _, h4, h5⟩ := elastic_val I hv
      rw [hr] at h4
      cases h4
      obtain ⟨b, _, hb⟩ := rcVal_some h5
      exact ⟨b, hb⟩

theorem C158_same_broadener (w w' : ElWorld) (hw : Reached w) (ops : List ElOp) (h : w.run ops = .ok w') (j : Nat) (b b' : Broadener)
    (hb : rcGet w.brds j = .ok b) (hb' : rcGet w'.brds j = .ok b') : b' = b := by
  obtain ⟨_, k⟩ := run_inv (reached_inv hw) h
  obtain ⟨_, c, hc, e⟩ := rcGet_pos hb
  obtain ⟨_, c', hc', e'⟩ := rcGet_pos hb'
  have h1 : rcVal w.brds j = some b := by unfold rcVal; rw [hc, ← e]; rfl
  have h2 : rcVal w'.brds j = some b' := by unfold rcVal; rw [hc', ← e']; rfl
  rw [k _ _ h1] at h2
  exact (Option.some.inj h2).symm

/-- **C158** A setter called on a nuclide does to its elastic distribution what the setter does (C49), and nothing to that of a nuclide with another one. -/
theorem C158_set (w : ElWorld) (hw : Reached w) (v u : Nat) (e eu : Elastic) (he : w.elastic v = .ok e) (hu : w.elastic u = .ok eu) (s : Setting) :
    ∃ w', w.step (.set v s) = .ok w' ∧ w'.elastic v = .ok (e.step s.op).1 ∧ (w.nucs[u]? ≠ w.nucs[v]? → w'.elastic u = .ok eu) := by
  have I := (reached_inv hw)
  have live : ∀ {x : Nat} {y : Elastic}, w.elastic x = .ok y → ∃ i, w.nucs[x]? = some (some i) := by
    intro x y h
    unfold ElWorld.elastic at h
    split at h
    · exact ⟨_, by assumption⟩
    · cases h
  obtain ⟨i, hv⟩ := live he
  obtain ⟨k, hk⟩ := live hu
  obtain ⟨w', x, h1, h2, h3, h4, h5, h6, _⟩ := step_set I hv s
  refine ⟨w', h1, ?_, fun hne => ?_⟩
  · obtain ⟨x', b, g1, g2, g3, _⟩ := elastic_val I hv
    rw [h4] at g1
    cases g1
    obtain ⟨x'', b', f1, f2, f3, _⟩ := elastic_val h2 (show w'.nucs[v]? = some (some i) by rw [h6]; exact hv)
    rw [h5, if_pos rfl] at f1
    cases f1
    rw [h3] at f2
    simp only at f2
    rw [g2] at f2
    cases f2
    rw [g3] at he
    cases he
    rw [f3]
    cases s <;> rfl
  · rw [← hu]
    refine elastic_keep I h2 hk (by rw [h6]; exact hk) (by rw [h3]; exact Keeps.refl _) fun y hy => ?_
    rw [h5, if_neg (fun e => hne (by rw [hk, hv, e]))]
    exact hy

/-- **C158** What the accessors of the nuclide report after each setter: the value just set, and of everything else what they reported before. -/
theorem C158_set_values (w : ElWorld) (hw : Reached w) (v : Nat) (e : Elastic) (he : w.elastic v = .ok e) (T : ℝ) (b : Bool) (t : ℝ) :
    (∃ w' e', w.step (.set v (.temperature T)) = .ok w' ∧ w'.elastic v = .ok e' ∧
      e'.temperature = T ∧ e'.useTar = e.useTar ∧ e'.tar = e.tar ∧ e'.awr = e.awr ∧ e'.angle = e.angle ∧ e'.broadener = e.broadener) ∧
    (∃ w' e', w.step (.set v (.useTar b)) = .ok w' ∧ w'.elastic v = .ok e' ∧
      e'.temperature = e.temperature ∧ e'.useTar = b ∧ e'.tar = e.tar ∧ e'.awr = e.awr ∧ e'.angle = e.angle ∧ e'.broadener = e.broadener) ∧
    ∃ w' e', w.step (.set v (.tar t)) = .ok w' ∧ w'.elastic v = .ok e' ∧
      e'.temperature = e.temperature ∧ e'.useTar = e.useTar ∧ e'.tar = t ∧ e'.awr = e.awr ∧ e'.angle = e.angle ∧ e'.broadener = e.broadener := by
  refine ⟨?_, ?_, ?_⟩
  · obtain ⟨w', h1, h2, _⟩ := C158_set w hw v v e e he he (.temperature T)
    exact ⟨w', _, h1, h2, C49_temperature_round_trip e T, rfl, rfl, rfl, rfl, rfl⟩
  · obtain ⟨w', h1, h2, _⟩ := C158_set w hw v v e e he he (.useTar b)
    exact ⟨w', _, h1, h2, rfl, rfl, rfl, rfl, rfl, rfl⟩
  · obtain ⟨w', h1, h2, _⟩ := C158_set w hw v v e e he he (.tar t)
    exact ⟨w', _, h1, h2, rfl, rfl, rfl, rfl, rfl, rfl⟩

/-- **C158** So does the setter of the broadener. -/
theorem C158_set_broadener (w : ElWorld) (hw : Reached w) (v u h j : Nat) (b : Broadener) (e eu : Elastic) (he : w.elastic v = .ok e) (hu : w.elastic u = .ok eu)
    (hh : w.handles[h]? = some (some j)) (hb : rcGet w.brds j = .ok b) :
    ∃ w', w.step (.setBroadener v (some h)) = .ok w' ∧ w'.elastic v = .ok (e.step (.setBroadener (some b))).1 ∧
      (w.nucs[u]? ≠ w.nucs[v]? → w'.elastic u = .ok eu) := by
  have I := (reached_inv hw)
  have live : ∀ {x : Nat} {y : Elastic}, w.elastic x = .ok y → ∃ i, w.nucs[x]? = some (some i) := by
    intro x y h
    unfold ElWorld.elastic at h
    split at h
    · exact ⟨_, by assumption⟩
    · cases h
  obtain ⟨i, hv⟩ := live he
  obtain ⟨k, hk⟩ := live hu
  obtain ⟨w', x, h1, h2, h3, h4, h5, h6, _⟩ := step_setBroadener I hv hh
  refine ⟨w', h1, ?_, fun hne => ?_⟩
  · obtain ⟨x', b0, g1, g2, g3, _⟩ := elastic_val I hv
    rw [h4] at g1
    cases g1
    obtain ⟨x'', b', f1, f2, f3, _⟩ := elastic_val h2 (show w'.nucs[v]? = some (some i) by rw [h6]; exact hv)
    rw [h5, if_pos rfl] at f1
    cases f1
    obtain ⟨_, c, hc, ec⟩ := rcGet_pos hb
    have hval : rcVal w.brds j = some b := by unfold rcVal; rw [hc, ← ec]; rfl
    simp only at f2
    rw [h3 _ _ hval] at f2
    cases f2
    rw [g3] at he
    cases he
    rw [f3]
    rfl
  · rw [← hu]
    refine elastic_keep I h2 hk (by rw [h6]; exact hk) h3 fun y hy => ?_
    rw [h5, if_neg (fun e => hne (by rw [hk, hv, e]))]
    exact hy

private theorem get_last {α : Type} (l : List α) (o : α) : (l ++ [o])[l.length]? = some o := by simp

/-- **C158** A nuclide made from another one and a file has the same elastic distribution at the temperature of the file, and shares it with nobody. -/
theorem C158_derived (w : ElWorld) (hw : Reached w) (v : Nat) (e : Elastic) (he : w.elastic v = .ok e) (T : ℝ) :
    ∃ w', w.step (.derive v T) = .ok w' ∧ w'.elastic w.nucs.length = .ok (e.step (.setTemperature T)).1 ∧ w'.elastic v = .ok e ∧
      ∀ u, u ≠ w.nucs.length → Lives w' u → w'.nucs[u]? ≠ w'.nucs[w.nucs.length]? := by
  have I := (reached_inv hw)
  obtain ⟨i, hv⟩ : ∃ i, w.nucs[v]? = some (some i) := by
    unfold ElWorld.elastic at he
    split at he
    · exact ⟨_, by assumption⟩
    · cases he
  obtain ⟨hvl, _⟩ := List.getElem?_eq_some_iff.mp hv
  obtain ⟨w', x, h1, h2, h3, h4, h5, h6, h7, _⟩ := step_derive I hv T
  obtain ⟨x', b, g1, g2, g3, _⟩ := elastic_val I hv
  rw [h6] at g1
  cases g1
  rw [g3] at he
  cases he
  have hn : w'.nucs[w.nucs.length]? = some (some w.els.length) := by rw [h5]; exact get_last _ _
  have hv' : w'.nucs[v]? = some (some i) := by rw [h5, List.getElem?_append_left hvl]; exact hv
  refine ⟨w', h1, ?_, ?_, fun u hu hl => ?_⟩
  · obtain ⟨x'', b', f1, f2, f3, _⟩ := elastic_val h2 hn
    rw [h7] at f1
    cases f1
    simp only at f2
    rw [h3 _ _ g2] at f2
    cases f2
    rw [f3]
    rfl
  · rw [elastic_keep I h2 hv hv' h3 (fun y hy => h4 _ y hy), g3]
  · rw [hn]
    obtain ⟨k, hk⟩ := hl
    rw [hk]
    intro hc
    cases hc
    obtain ⟨hul, _⟩ := List.getElem?_eq_some_iff.mp hk
    rw [h5] at hul hk
    simp only [List.length_append, List.length_cons, List.length_nil] at hul
    rw [List.getElem?_append_left (by omega)] at hk
    have := count_pos_of_get hk
    rw [I.no_owner] at this
    omega

/-- **C158** Copies and assigned nuclides have the elastic distribution of the original. -/
theorem C158_copied (w : ElWorld) (hw : Reached w) (v : Nat) (hv : Lives w v) : ∃ w', w.step (.copy v) = .ok w' ∧ w'.elastic w.nucs.length = w.elastic v ∧
    w'.elastic v = w.elastic v ∧ w'.nucs[w.nucs.length]? = w'.nucs[v]? := by
  have I := (reached_inv hw)
  obtain ⟨i, hv⟩ := hv
  obtain ⟨hvl, _⟩ := List.getElem?_eq_some_iff.mp hv
  obtain ⟨w', h1, h2, h3, h4, h5, _⟩ := step_copy I hv
  have hn : w'.nucs[w.nucs.length]? = some (some i) := by rw [h5]; exact get_last _ _
  have hv' : w'.nucs[v]? = some (some i) := by rw [h5, List.getElem?_append_left hvl]; exact hv
  exact ⟨w', h1, elastic_keep I h2 hv hn h3 (fun y hy => h4 _ y hy), elastic_keep I h2 hv hv' h3 (fun y hy => h4 _ y hy), by rw [hn, hv']⟩

theorem C158_assigned (w : ElWorld) (hw : Reached w) (v u : Nat) (hv : Lives w v) (hu : Lives w u) :
    ∃ w', w.step (.assign v u) = .ok w' ∧ w'.elastic v = w.elastic u ∧ w'.elastic u = w.elastic u := by
  have I := (reached_inv hw)
  obtain ⟨i, hv⟩ := hv
  obtain ⟨j, hu⟩ := hu
  obtain ⟨hvl, _⟩ := List.getElem?_eq_some_iff.mp hv
  obtain ⟨w', h1, h2, h3, h4, h5, _⟩ := step_assign I hv hu
  have hv' : w'.nucs[v]? = some (some j) := by rw [h5, List.getElem?_set_self hvl]
  have hu' : w'.nucs[u]? = some (some j) := by
    by_cases e : v = u
    · rw [← e]; exact hv'
    · rw [h5, List.getElem?_set_ne e]; exact hu
  exact ⟨w', h1, elastic_keep I h2 hu hv' h3 (fun y hy => h4 _ y hy), elastic_keep I h2 hu hu' h3 (fun y hy => h4 _ y hy)⟩

/-- Two variables with one elastic distribution. -/
private def NoSharing (w : ElWorld) : Prop := ∀ u v i : Nat, w.nucs[u]? = some (some i) → w.nucs[v]? = some (some i) → u = v

private theorem nosharing_append {w : ElWorld} (I : ElInv w) (h : NoSharing w) {w' : ElWorld} (hn : w'.nucs = w.nucs ++ [some w.els.length]) : NoSharing w' := by
  intro u v i hu hv
  rw [hn] at hu hv
  have key : ∀ {u}, (w.nucs ++ [some w.els.length])[u]? = some (some i) → (u < w.nucs.length ∧ w.nucs[u]? = some (some i)) ∨ (u = w.nucs.length ∧ i = w.els.length) := by
    intro u hu
    by_cases hl : u < w.nucs.length
    · rw [List.getElem?_append_left hl] at hu; exact Or.inl ⟨hl, hu⟩
    · obtain ⟨hul, _⟩ := List.getElem?_eq_some_iff.mp hu
      simp only [List.length_append, List.length_cons, List.length_nil] at hul
      have : u = w.nucs.length := by omega
      subst this
      rw [get_last] at hu
      exact Or.inr ⟨rfl, (Option.some.inj (Option.some.inj hu)).symm⟩
  have none : ∀ {u}, w.nucs[u]? = some (some w.els.length) → False := fun hk => by
    have := count_pos_of_get hk
    rw [I.no_owner] at this
    omega
  rcases key hu with ⟨_, a⟩ | ⟨a, b⟩ <;> rcases key hv with ⟨_, c⟩ | ⟨c, d⟩
  · exact h u v i a c
  · subst d; exact (none a).elim
  · subst b; exact (none c).elim
  · rw [a, c]

private theorem nosharing_step {w w' : ElWorld} (I : ElInv w) (h : NoSharing w) {op : ElOp} (hc : CopyFree [op]) (hs : w.step op = .ok w') : NoSharing w' := by
  have same : w'.nucs = w.nucs → NoSharing w' := fun e u v i hu hv => by rw [e] at hu hv; exact h u v i hu hv
  have idle : w.step op = .ok w → NoSharing w' := fun e => by rw [hs] at e; exact same (by rw [Except.ok.inj e])
  have hc := hc op (List.mem_singleton.mpr rfl)
  cases op with
  | newBroadener b => obtain ⟨x, h1, _, _, _, h5⟩ := step_newBroadener I b; rw [hs] at h1; cases h1; exact same h5
  | dropBroadener b => obtain ⟨x, h1, _, _, _, h5⟩ := step_dropBroadener I b; rw [hs] at h1; cases h1; exact same h5
  | newNuc e b => obtain ⟨x, h1, _, _, _, h5, _⟩ := step_newNuc I e b; rw [hs] at h1; cases h1; exact nosharing_append I h h5
  | derive v T =>
    by_cases hv : Lives w v
    · obtain ⟨i, hv⟩ := hv
      obtain ⟨x, _, h1, _, _, _, h5, _⟩ := step_derive I hv T
      rw [hs] at h1; cases h1; exact nosharing_append I h h5
    · exact idle ((step_idle v hv).1 T)
  | copy v => exact hc.elim
  | assign v u => exact hc.elim
  | destroy v =>
    by_cases hv : Lives w v
    · obtain ⟨i, hv⟩ := hv
      obtain ⟨x, h1, _, _, _, h5, _⟩ := step_destroy I hv
      rw [hs] at h1; cases h1
      intro u t k hu ht
      have key : ∀ {u : Nat}, w'.nucs[u]? = some (some k) → w.nucs[u]? = some (some k) := by
        intro u hu
        rw [h5, List.getElem?_set] at hu
        by_cases e : v = u
        · rw [if_pos e] at hu
          split at hu <;> cases hu
        · rw [if_neg e] at hu; exact hu
      exact h u t k (key hu) (key ht)
    · exact idle (step_idle v hv).2.2.1
  | setBroadener v p =>
    by_cases hv : Lives w v
    · cases p with
      | none => exact idle rfl
      | some q =>
        by_cases hh : ∃ j, w.handles[q]? = some (some j)
        · obtain ⟨i, hv⟩ := hv
          obtain ⟨j, hh⟩ := hh
          obtain ⟨x, _, h1, _, _, _, _, h6, _⟩ := step_setBroadener I hv hh
          rw [hs] at h1; cases h1; exact same h6
        · exact idle (step_idle_handle v q hh)
    · exact idle ((step_idle v hv).2.2.2.2.2.2 p)
  | set v s =>
    by_cases hv : Lives w v
    · obtain ⟨i, hv⟩ := hv
      obtain ⟨x, _, h1, _, _, _, _, h6, _⟩ := step_set I hv s
      rw [hs] at h1; cases h1; exact same h6
    · exact idle ((step_idle v hv).2.2.2.1 s)

private theorem run_cons {w w' : ElWorld} {op : ElOp} {ops : List ElOp} (h : w.run (op :: ops) = .ok w') : ∃ w1, w.step op = .ok w1 ∧ w1.run ops = .ok w' := by
  unfold ElWorld.run at h
  rw [List.foldlM_cons] at h
  exact bind_ok h

private theorem nosharing_run {w w' : ElWorld} (I : ElInv w) (h : NoSharing w) {ops : List ElOp} (hc : CopyFree ops) (hs : w.run ops = .ok w') : NoSharing w' := by
  induction ops generalizing w with
  | nil => cases hs; exact h
  | cons op ops ih =>
    obtain ⟨w1, h1, h2⟩ := run_cons hs
    obtain ⟨x, g1, g2, _⟩ := I.step op
    rw [h1] at g1
    cases g1
    exact ih g2 (nosharing_step I h (fun o ho => hc o (by rw [List.mem_singleton.mp ho]; exact List.mem_cons_self)) h1)
      (fun o ho => hc o (List.mem_cons_of_mem _ ho)) h2

/-- **C158** In a program that does not copy or assign nuclides, the elastic distribution of a nuclide changes only through what is done to that nuclide: no
statement about other nuclides, their settings, their end or the broadeners of the program changes it. -/
theorem C158_independent_partial (ops₁ ops₂ : List ElOp) (hc : CopyFree (ops₁ ++ ops₂)) (w w' : ElWorld) (h1 : ElWorld.empty.run ops₁ = .ok w)
    (h2 : w.run ops₂ = .ok w') (u : Nat) (hu : Lives w u) (ht : ∀ op ∈ ops₂, ¬ Touches u op) : w'.elastic u = w.elastic u := by
  have I := (reached_inv ⟨ops₁, h1⟩ : ElInv w)
  have hns : NoSharing w := nosharing_run ElInv.empty (fun u v i hu => by simp [ElWorld.empty] at hu)
    (fun o ho => hc o (List.mem_append_left _ ho)) h1
  have hc2 : CopyFree ops₂ := fun o ho => hc o (List.mem_append_right _ ho)
  clear h1 hc
  induction ops₂ generalizing w with
  | nil => cases h2; rfl
  | cons op ops ih =>
    obtain ⟨w1, s1, s2⟩ := run_cons h2
    obtain ⟨x, g1, g2, g3, g4, g5⟩ := I.step op
    rw [s1] at g1
    cases g1
    have hop := ht op List.mem_cons_self
    obtain ⟨i, hi⟩ := hu
    have hi' : w1.nucs[u]? = some (some i) := by
      rcases g5 u hop with h | h
      · rw [hi] at h; cases h
      · rw [h]; exact hi
    rw [ih w1 s2 ⟨i, hi'⟩ (fun o ho => ht o (List.mem_cons_of_mem _ ho)) g2
      (nosharing_step I hns (fun o ho => hc2 o (by rw [List.mem_singleton.mp ho]; exact List.mem_cons_self)) s1)
      (fun o ho => hc2 o (List.mem_cons_of_mem _ ho))]
    exact elastic_keep I g2 hi hi' g3 (g4 i (fun v hv => by rw [hns v u i hv hi]; exact hop))

/-- **C158** The full claim is false of the code: a setter called on a copy of a nuclide changes the original. -/
theorem C158_violation_copy (w : ElWorld) (hw : Reached w) (v : Nat) (e : Elastic) (he : w.elastic v = .ok e) (T : ℝ) :
    ∃ w', w.run [.copy v, .set w.nucs.length (.temperature T)] = .ok w' ∧ w'.elastic v = .ok (e.step (.setTemperature T)).1 ∧
      (e.step (.setTemperature T)).1.temperature = T := by
  obtain ⟨i, hv⟩ : ∃ i, w.nucs[v]? = some (some i) := by
    unfold ElWorld.elastic at he
    split at he
    · exact ⟨_, by assumption⟩
    · cases he
  obtain ⟨w1, h1, h2, h3, h4⟩ := C158_copied w hw v ⟨i, hv⟩
  have hw1 : Reached w1 := by
    obtain ⟨ops, h⟩ := hw
    refine ⟨ops ++ [.copy v], ?_⟩
    unfold ElWorld.run at *
    rw [List.foldlM_append, h]
    show ([ElOp.copy v]).foldlM ElWorld.step w = _
    rw [List.foldlM_cons, h1]
    rfl
  rw [he] at h2 h3
  obtain ⟨w2, g1, g2, _⟩ := C158_set w1 hw1 _ v e e h2 h3 (.temperature T)
  refine ⟨w2, ?_, ?_, C49_temperature_round_trip e T⟩
  · unfold ElWorld.run
    rw [List.foldlM_cons, h1]
    show ([ElOp.set w.nucs.length (.temperature T)]).foldlM ElWorld.step w1 = _
    rw [List.foldlM_cons, g1]
    rfl
  · have hs : w2.nucs = w1.nucs := by
      have I1 := (reached_inv hw1)
      obtain ⟨k, hk⟩ : ∃ i, w1.nucs[w.nucs.length]? = some (some i) := by
        unfold ElWorld.elastic at h2
        split at h2
        · exact ⟨_, by assumption⟩
        · cases h2
      obtain ⟨x, _, a1, _, _, _, _, a6, _⟩ := step_set I1 hk (.temperature T)
      rw [g1] at a1
      cases a1
      exact a6
    have : w2.elastic v = w2.elastic w.nucs.length := by
      unfold ElWorld.elastic
      rw [hs, h4]
    rw [this, g2]
    rfl

/-- **C158** A reference returned by `elastic_doppler_broadener()` does not outlive the setter: for every nuclide just made, and every new broadener, using the old
reference after `set_elastic_doppler_broadener` is undefined. -/
theorem C158_violation_reference (w : ElWorld) (e : Elastic) (b b' : Broadener) :
    ∃ w1 w2 r, w.run [.newNuc e b] = .ok w1 ∧ w1.broadenerRef w.nucs.length = .ok r ∧ rcGet w1.brds r = .ok b ∧
      w1.run [.newBroadener b', .setBroadener w.nucs.length (some w.handles.length)] = .ok w2 ∧ Lives w2 w.nucs.length ∧ rcGet w2.brds r = .error .ub := by
  refine ⟨⟨w.brds ++ [⟨b, 1⟩], w.els ++ [⟨⟨e, w.brds.length⟩, 1⟩], w.nucs ++ [some w.els.length], w.handles⟩,
    ⟨((w.brds ++ [(⟨b, 1⟩ : RcCell Broadener)] ++ [(⟨b', 1⟩ : RcCell Broadener)]).set (w.brds.length + 1) ⟨b', 2⟩).set w.brds.length ⟨b, 0⟩,
      (w.els ++ [(⟨⟨e, w.brds.length⟩, 1⟩ : RcCell EObj)]).set w.els.length ⟨⟨e, w.brds.length + 1⟩, 1⟩, w.nucs ++ [some w.els.length],
      w.handles ++ [some (w.brds.length + 1)]⟩, w.brds.length, rfl, ?_, ?_, ?_, ⟨w.els.length, get_last _ _⟩, ?_⟩
  · unfold ElWorld.broadenerRef
    simp only [get_last, rcGet, bind, Except.bind]
    rfl
  · simp only [rcGet, get_last]
    rfl
  · unfold ElWorld.run
    rw [List.foldlM_cons]
    show (do let w' ← ElWorld.step _ _; ([ElOp.setBroadener w.nucs.length (some w.handles.length)]).foldlM ElWorld.step w') = _
    simp only [ElWorld.step, bind, Except.bind]
    rw [List.foldlM_cons]
    have h2 : (w.brds ++ [(⟨b, 1⟩ : RcCell Broadener)] ++ [(⟨b', 1⟩ : RcCell Broadener)])[w.brds.length + 1]? = some ⟨b', 1⟩ := by
      have := get_last (w.brds ++ [(⟨b, 1⟩ : RcCell Broadener)]) ⟨b', 1⟩
      simp
    have h3 : ((w.brds ++ [(⟨b, 1⟩ : RcCell Broadener)] ++ [(⟨b', 1⟩ : RcCell Broadener)]).set (w.brds.length + 1) ⟨b', 2⟩)[w.brds.length]? = some ⟨b, 1⟩ := by
      rw [List.getElem?_set_ne (by omega), List.getElem?_append_left (by simp), get_last]
    simp only [ElWorld.step, get_last, List.length_append, List.length_cons, List.length_nil, Nat.zero_add, rcInc, rcDec, rcGet, h2, bind, Except.bind,
      one_ne_zero, if_false, Nat.reduceAdd, h3]
    rw [store_eq (get_last _ _)]
    rfl
  · unfold rcGet
    rw [List.getElem?_set_self (by simp)]
    rfl

/-- A program with three nuclides, and what is left of them: the hypotheses above hold along it. -/
example (e : Elastic) (b b' : Broadener) : ∃ w, ElWorld.empty.run [.newNuc e b, .derive 0 600, .newBroadener b', .setBroadener 1 (some 0), .copy 1, .destroy 1] = .ok w ∧
    Lives w 0 ∧ ¬ Lives w 1 ∧ Lives w 2 ∧ ∃ e0 e2, w.elastic 0 = .ok e0 ∧ w.elastic 2 = .ok e2 ∧ e2.temperature = 600 ∧ Owned w 1 := by
  obtain ⟨w, h, hs⟩ := C158_safe [.newNuc e b, .derive 0 600, .newBroadener b', .setBroadener 1 (some 0), .copy 1, .destroy 1]
  have hw : w = ⟨[⟨b, 1⟩, ⟨b', 2⟩], [⟨⟨e, 0⟩, 1⟩, ⟨⟨(e.step (.setTemperature 600)).1, 1⟩, 1⟩], [some 0, none, some 1], [some 1]⟩ := by
    have : ElWorld.empty.run [.newNuc e b, .derive 0 600, .newBroadener b', .setBroadener 1 (some 0), .copy 1, .destroy 1] =
      .ok ⟨[⟨b, 1⟩, ⟨b', 2⟩], [⟨⟨e, 0⟩, 1⟩, ⟨⟨(e.step (.setTemperature 600)).1, 1⟩, 1⟩], [some 0, none, some 1], [some 1]⟩ := rfl
    rw [h] at this
    exact Except.ok.inj this
  subst hw
  refine ⟨_, h, ⟨0, rfl⟩, fun ⟨i, hi⟩ => (by cases hi), ⟨1, rfl⟩, _, _, rfl, rfl, ?_, Or.inl (by simp)⟩
  exact C49_temperature_round_trip e 600

/-- The hypotheses of `C158_independent_partial` hold when a derived nuclide is changed and destroyed. -/
example (e : Elastic) (b : Broadener) (T : ℝ) : ∃ w w', ElWorld.empty.run [.newNuc e b, .derive 0 600] = .ok w ∧
    w.run [.newBroadener b, .setBroadener 1 (some 0), .set 1 (.temperature T), .destroy 1] = .ok w' ∧ Lives w 0 ∧ w'.elastic 0 = w.elastic 0 := by
  obtain ⟨w, h, hs⟩ := C158_safe [.newNuc e b, .derive 0 600]
  obtain ⟨w', h', _⟩ := (reached_inv ⟨_, h⟩).run [.newBroadener b, .setBroadener 1 (some 0), .set 1 (.temperature T), .destroy 1]
  have hl : Lives w 0 := by
    have : ElWorld.empty.run [.newNuc e b, .derive 0 600] = .ok ⟨[⟨b, 2⟩], [⟨⟨e, 0⟩, 1⟩, ⟨⟨(e.step (.setTemperature 600)).1, 0⟩, 1⟩], [some 0, some 1], []⟩ := rfl
    rw [h] at this
    rw [Except.ok.inj this]
    exact ⟨0, rfl⟩
  refine ⟨w, w', h, h', hl, C158_independent_partial _ _ ?_ w w' h h' 0 hl ?_⟩
  · intro op hop
    simp only [List.cons_append, List.nil_append, List.mem_cons, List.not_mem_nil, or_false] at hop
    rcases hop with rfl | rfl | rfl | rfl | rfl | rfl <;> trivial
  · intro op hop
    simp only [List.mem_cons, List.not_mem_nil, or_false] at hop
    rcases hop with rfl | rfl | rfl | rfl <;> simp [Touches]

end PNDL
