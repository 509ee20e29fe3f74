import Verif.Spec.LibraryNuc
import Verif.Props.Spndl
import Verif.Props.Library

/-! C146: what a library returns does not depend on the calls made before. -/
namespace PNDL
open Spec

section Same

/-- A nuclide sharing the distributions of another of the same kind (fissile or not) has the cross sections it would have on its own. -/
theorem makeShared_make {a a' : AceIn ℝ} {b s : STN ℝ} (hb : StnOk a' b) (hd : ∀ r ∈ b.rxns, r.dist = 0)
    (hdf : ∀ mt r, b.fis.slot mt = some r → r.dist = 0 ∧ r.mt = mt) (ha : ∀ e ∈ a.rxns, e.dist = 0) (hf : b.fissile = a.fissile)
    (h : STN.makeShared a b = .ok s) : ∃ m, STN.make a = .ok { s with mts := m } := by
  unfold STN.makeShared at h
  rw [stepShared_eq] at h
  obtain ⟨m, h1, h⟩ := bind_ok h
  obtain ⟨st, h2, h⟩ := bind_ok h
  obtain ⟨f, h3, h⟩ := bind_ok h
  obtain ⟨x, h4, h⟩ := bind_ok h
  cases h
  have hself : List.Forall₂ (fun e e' => e = e' ∧ e ∈ a.rxns) a.rxns a.rxns := by
    rw [List.forall₂_iff_get]
    exact ⟨rfl, fun i h1 h2 => ⟨rfl, List.get_mem _ _⟩⟩
  have hmk : ∀ e ∈ a.rxns, ∀ r, mkShared a.grid b e = .ok r → Rxn.fromAce a.grid e = .ok r := by
    intro e he r hr
    unfold mkShared at hr
    obtain ⟨i, hi, hr⟩ := bind_ok hr
    obtain ⟨o, ho, hr⟩ := bind_ok hr
    rw [getAt_eq_ok] at hi
    have hlt : e.mt < 892 := by rw [← hb.len]; exact lt_length_of_some hi
    rcases hb.look e.mt hlt with ⟨_, h5⟩ | ⟨j, e', r', _, _, _, g4, g5, d, g6⟩
    · rw [h5] at hi
      cases hi
      unfold getInt at ho
      rw [if_pos (by norm_num)] at ho
      cases ho
    · rw [g4] at hi
      cases hi
      rw [getInt_natCast, getAt_eq_ok, g5] at ho
      obtain rfl := Option.some.inj ho
      have hm := (rxnMake_ok g6).1
      have hd' := hd _ (List.mem_of_getElem? g5)
      unfold Rxn.fromOther at hr
      unfold Rxn.fromAce
      rw [ha e he, ← hd', ← hm]
      exact hr
  obtain ⟨t, k1, k2, k3⟩ := foldlM_sim (gstep (mkShared a.grid b)) (gstep (Rxn.fromAce a.grid)) (fun e e' => e = e' ∧ e ∈ a.rxns)
    (fun s t => s.idx = t.idx ∧ s.rxns = t.rxns) (by
      rintro e e' s t s' ⟨rfl, he⟩ ⟨r1, r2⟩ hs
      unfold gstep at hs ⊢
      by_cases hfm : isFisMT e.mt = true
      · rw [if_pos hfm] at hs ⊢
        cases hs
        exact ⟨t, rfl, r1, r2⟩
      · rw [if_neg hfm] at hs ⊢
        obtain ⟨r, hr, hs⟩ := bind_ok hs
        rw [hmk e he r hr]
        simp only [bind, Except.bind]
        by_cases hl : e.mt < 892
        · rw [if_pos hl] at hs ⊢
          cases hs
          exact ⟨_, rfl, by simp only [r1, r2], by simp only [r2]⟩
        · rw [if_neg hl] at hs
          cases hs) a.rxns a.rxns hself ⟨List.replicate a.rxns.length 0, List.replicate 892 (-1), []⟩ st ⟨[], List.replicate 892 (-1), []⟩ ⟨rfl, rfl⟩ h2
  have hfis : Fis.make a.fissile a.grid a.rxns = .ok f := by
    unfold Fis.makeShared at h3
    unfold Fis.make
    rw [fisStepShared_eq] at h3
    rw [fisStep_eq]
    split at h3
    · rename_i hz
      rw [if_pos hz]
      exact h3
    · rename_i hz
      rw [if_neg hz]
      obtain ⟨g, g1, g2⟩ := bind_ok h3
      obtain ⟨g', e1, e2⟩ := foldlM_sim (fstep (mkFisShared a.grid b.fis)) (fstep (Rxn.fromAce a.grid)) (fun e e' => e = e' ∧ e ∈ a.rxns)
        (fun s t => s = t) (by
          rintro e e' s t s' ⟨rfl, he⟩ rfl hs
          refine ⟨s', ?_, rfl⟩
          unfold fstep at hs ⊢
          by_cases hfm : isFisMT e.mt = true
          · rw [if_pos hfm] at hs ⊢
            obtain ⟨r, hr, hs⟩ := bind_ok hs
            unfold mkFisShared at hr
            obtain ⟨o, ho, hr⟩ := bind_ok hr
            cases hsl : b.fis.slot e.mt with
            | none => rw [hsl] at ho; cases ho
            | some o' =>
              rw [hsl] at ho
              cases ho
              obtain ⟨d1, d2⟩ := hdf e.mt o hsl
              have : Rxn.fromAce a.grid e = .ok r := by
                unfold Rxn.fromOther at hr
                unfold Rxn.fromAce
                rw [d1, d2] at hr
                rw [ha e he]
                exact hr
              rw [this]
              exact hs
          · rw [if_neg hfm] at hs ⊢
            exact hs) a.rxns a.rxns hself _ g Fis.none rfl g1
      subst e2
      rw [e1]
      exact g2
  refine ⟨(t.mts ++ f.mts).insertionSort (· ≤ ·), ?_⟩
  unfold STN.make
  rw [h1, step_eq, k1, hfis]
  simp only [bind, Except.bind]
  rw [← hf, h4]
  simp only [pure, Except.pure, k2, k3]

theorem map_forget_dist (l : List STRxn) : ∀ r ∈ l.map STRxn.forget, r.dist = 0 := by
  intro r hr
  obtain ⟨x, _, rfl⟩ := List.mem_map.mp hr
  rfl

/-- What a nuclide made from a file is, as far as cross sections go. -/
theorem read_make {fuel : Nat} {f : AceFile} {a : AceIn ℝ} {n : Nuc} (h : Read fuel f a n) (hf : n.fissile = f.fissile) :
    ∃ m, STN.make a = .ok { n.toSTN with mts := m } := by
  cases h with
  | direct h hn => exact ⟨_, makeAce_sim h hn⟩
  | @shared _ f' _ a' o _ ho h hn =>
    have hof : o.fissile = n.fissile := (makeShared_parts hn).choose_spec.choose_spec.choose_spec.choose_spec.2.2.2.2.2.2.2.2.2.2.2.2.1.symm
    refine makeShared_make (built_ok ho.built) (map_forget_dist _) (fun mt r hr => ?_) (fun e he => ?_) ?_ (makeShared_sim h hn)
    · have hfm : FissionMT mt := by
        by_contra hc
        simp only [FissionMT, not_or] at hc
        simp [Fis.slot, hc] at hr
      rcases (built_ok ho.built).flook mt hfm with ⟨_, hx⟩ | ⟨_, e, _, _, r', hr', d, hd⟩
      · rw [hx] at hr; cases hr
      · rw [hr'] at hr
        cases hr
        refine ⟨?_, (rxnMake_ok hd).1⟩
        have hs : (FisState.get ⟨o.fission.m18, o.fission.m19, o.fission.m20, o.fission.m21, o.fission.m38, o.fission.mts⟩ mt).map STRxn.forget = some r := by
          rw [get_slot]; exact hr'
        obtain ⟨x, _, rfl⟩ := Option.map_eq_some_iff.mp hs
        rfl
    · obtain ⟨k, hk⟩ := List.mem_iff_getElem?.mp he
      exact (h.entry k e hk).1
    · rw [show o.toSTN.fissile = o.fissile from rfl, hof, hf, h.fissile]

theorem captureXS_congr {g : List ℝ} {idx : List Int} {l l' : List STRxn} (h : l.map STRxn.forget = l'.map STRxn.forget) :
    captureXS g idx l = captureXS g idx l' := by
  unfold captureXS
  have : ∀ i : Int, (getInt l i).map STRxn.xs = (getInt l' i).map STRxn.xs := by
    intro i
    have h1 := getInt_map STRxn.forget l i
    have h2 := getInt_map STRxn.forget l' i
    rw [h, h2] at h1
    cases e : getInt l i <;> cases e' : getInt l' i <;> rw [e, e'] at h1
    · exact congrArg Except.error (Except.error.inj h1).symm
    · cases h1
    · cases h1
    · have := congrArg Rxn.xs (Except.ok.inj h1)
      exact congrArg Except.ok this.symm
  have hr : (rxnAt idx l 102).map STRxn.xs = (rxnAt idx l' 102).map STRxn.xs := by
    unfold rxnAt
    cases getAt idx 102 with
    | error e => rfl
    | ok i => exact this i
  cases hasIdx idx 102 with
  | error e => rfl
  | ok b =>
    simp only [bind, Except.bind]
    cases b with
    | false => rfl
    | true =>
      rw [if_neg (by simp), if_neg (by simp)]
      exact hr

/-- The parts of a nuclide that come from its own file. -/
theorem made_parts {fuel : Nat} {f : AceFile} {n : Nuc} (h : Made fuel f n) : ∃ m cx, EGrid.readAce f = .ok (n.grid, n.urrMin) ∧
    mainAce f n.grid.energy = .ok (m, n.photon) ∧ captureXS n.grid.energy n.idx n.rxns = .ok cx ∧
    URR.make f.xss f.lunr ⟨n.elasticXS, cx, n.fissionXS, n.heating⟩ (n.rxns.map STRxn.forget) = .ok n.urr ∧ n.temperature = f.temperature := by
  cases h with
  | direct hn =>
    obtain ⟨m, s, fi, l0, ad, cx, h1, h2, _, _, _, _, _, _, h9, h10, _, _, h13, h14, _, _, h17⟩ := makeAce_parts hn
    exact ⟨m, cx, h1, h2, by rw [h13, h14]; exact h9, h10, h17⟩
  | shared _ hn =>
    obtain ⟨m, s, fi, cx, h1, h2, _, _, _, h6, h7, _, _, h10, h11, _, _, h14, _⟩ := makeShared_parts hn
    exact ⟨m, cx, h1, h2, by rw [h10, h11]; exact h6, h7, h14⟩

/-- Two nuclides made from the same file, however they came by their distributions, have the same cross sections. -/
theorem same_of_read {fuel : Nat} {f : AceFile} {a : AceIn ℝ} {n n' : Nuc} (h : Read fuel f a n) (h' : Read fuel f a n') (hf : n.fissile = f.fissile)
    (hf' : n'.fissile = f.fissile) : SameCrossSections n n' := by
  obtain ⟨m, hm⟩ := read_make h hf
  obtain ⟨m', hm'⟩ := read_make h' hf'
  obtain ⟨x, cx, p1, p2, p3, p4, p5⟩ := made_parts h.made.1
  obtain ⟨x', cx', q1, q2, q3, q4, q5⟩ := made_parts h'.made.1
  have he : ({ n.toSTN with mts := m } : STN ℝ) = { n'.toSTN with mts := m' } := by
    rw [hm] at hm'; exact Except.ok.inj hm'
  have hE : ∀ mt, n.toSTN.has mt = n'.toSTN.has mt ∧ n.toSTN.reaction mt = n'.toSTN.reaction mt := by
    intro mt
    have i1 := congrArg (fun s => STN.has s mt) he
    have i2 := congrArg (fun s => STN.reaction s mt) he
    exact ⟨i1, i2⟩
  have hv : ∀ E i, n.toSTN.evaluate E i = n'.toSTN.evaluate E i := by
    intro E i
    have i1 := congrArg (fun s => STN.evaluate s E i) he
    exact i1
  have g1 : n.grid = n'.grid ∧ n.urrMin = n'.urrMin := by
    rw [p1] at q1
    have := Except.ok.inj q1
    exact ⟨congrArg Prod.fst this, congrArg Prod.snd this⟩
  have e1 : n.total = n'.total := congrArg STN.total he
  have e2 : n.disap = n'.disap := congrArg STN.disap he
  have e3 : n.elasticXS = n'.elasticXS := congrArg STN.elastic he
  have e4 : n.heating = n'.heating := congrArg STN.heating he
  have e5 : n.fissionXS = n'.fissionXS := congrArg STN.fissionXS he
  have e6 : n.idx = n'.idx := congrArg STN.idx he
  have e7 : n.rxns.map STRxn.forget = n'.rxns.map STRxn.forget := congrArg STN.rxns he
  refine ⟨p5.trans q5.symm, g1.1, g1.2, e1, e2, e3, e4, e5, ?_, ?_, fun mt => ?_, fun mt => ?_, fun E => ?_⟩
  · rw [g1.1, q2] at p2
    exact (congrArg Prod.snd (Except.ok.inj p2)).symm
  · rw [e6, g1.1, captureXS_congr e7, q3] at p3
    obtain rfl := Except.ok.inj p3
    rw [e3, e4, e5, e7, q4] at p4
    exact (Except.ok.inj p4).symm
  · rw [← has_toSTN, ← has_toSTN, (hE mt).1]
  · have := (hE mt).2
    rw [reaction_toSTN, reaction_toSTN] at this
    cases r : n.reaction mt <;> cases r' : n'.reaction mt <;> rw [r, r'] at this <;> simp only [Except.map] at this ⊢
    · have := Except.error.inj this
      exact congrArg Except.error this
    · cases this
    · cases this
    · have := Except.ok.inj this
      exact congrArg Except.ok (Prod.ext (congrArg Rxn.threshold this) (congrArg Rxn.xs this))
  · unfold Nuc.evaluateE
    rw [g1.1]
    cases n'.grid.lowerIndex E with
    | error e => rfl
    | ok i =>
      have := hv E i
      rw [evaluate_toSTN, evaluate_toSTN] at this
      exact this

end Same

/-! ### Histories -/

theorem bind_map_congr {α β : Type} {x : Res α} {k k' : α → Res β} {g : β → β} (h : ∀ a, k a = (k' a).map g) : (x >>= k) = (x >>= k').map g := by
  cases x with
  | error e => rfl
  | ok a => exact h a

/-- The sharing constructor looks at the settings of elastic scattering only to copy them. -/
theorem makeShared_elastic (f : AceFile) (m : Nuc) (e : Elastic) : Nuc.makeShared f { m with elastic := e } =
    (Nuc.makeShared f m).map (fun n => { n with elastic := (e.step (.setTemperature f.temperature)).1 }) := by
  unfold Nuc.makeShared
  refine bind_map_congr fun g => bind_map_congr fun mm => bind_map_congr fun s => bind_map_congr fun fi => bind_map_congr fun fx =>
    bind_map_congr fun cx => bind_map_congr fun ur => rfl

theorem makeShared_elastic_ok {f : AceFile} {m n : Nuc} {e : Elastic} (h : Nuc.makeShared f { m with elastic := e } = .ok n) :
    ∃ n', Nuc.makeShared f m = .ok n' ∧ n = { n' with elastic := (e.step (.setTemperature f.temperature)).1 } := by
  rw [makeShared_elastic] at h
  cases h' : Nuc.makeShared f m with
  | error x => rw [h'] at h; cases h
  | ok n' => rw [h'] at h; exact ⟨n', rfl, (Except.ok.inj h).symm⟩

/-- One list and the nuclides made. -/
structure NListInv (fuel : Nat) (heap : List Nuc) (s : NList) : Prop where
  len : s.loaded.length = s.temps.length
  empty : s.first = none → ∀ (i : Nat) (o : Nat), s.loaded[i]? ≠ some (some o)
  first : ∀ p, s.first = some p → ∃ (j : Nat) (g : AceFile) (m : Nuc) (e : Elastic), s.loaded[j]? = some (some p) ∧ s.files[j]? = some (.ok g) ∧
    Nuc.makeAce g fuel = .ok m ∧ heap[p]? = some { m with elastic := e } ∧
    ∀ (i o : Nat), s.loaded[i]? = some (some o) → (i = j ∧ o = p) ∨
      ∃ (f : AceFile) (n : Nuc) (e' : Elastic), s.files[i]? = some (.ok f) ∧ Nuc.makeShared f m = .ok n ∧ heap[o]? = some { n with elastic := e' }

theorem NListInv.mono {fuel : Nat} {heap heap' : List Nuc} {s : NList} (h : NListInv fuel heap s)
    (hh : ∀ (i : Nat) (n : Nuc), heap[i]? = some n → ∃ e, heap'[i]? = some { n with elastic := e }) : NListInv fuel heap' s where
  len := h.len
  empty := h.empty
  first := by
    intro p hp
    obtain ⟨j, g, m, e, h1, h2, h3, h4, h5⟩ := h.first p hp
    obtain ⟨e2, he2⟩ := hh p _ h4
    refine ⟨j, g, m, e2, h1, h2, h3, he2, fun i o hi => ?_⟩
    rcases h5 i o hi with h6 | ⟨f, n, e', k1, k2, k3⟩
    · exact Or.inl h6
    · obtain ⟨e3, he3⟩ := hh o _ k3
      exact Or.inr ⟨f, n, e3, k1, k2, he3⟩

variable {Key : Type} [DecidableEq Key]

/-- The library after a history, compared with the one before it. -/
structure NLibInv (fuel : Nat) (L0 L : NLib Key) : Prop where
  absent : ∀ k, L0.neutrons k = none → L.neutrons k = none
  present : ∀ k s0, L0.neutrons k = some s0 → ∃ s, L.neutrons k = some s ∧ s.temps = s0.temps ∧ s.files = s0.files ∧ NListInv fuel L.heap s
  tabsent : ∀ k, L0.tsls k = none → L.tsls k = none
  tpresent : ∀ k s0, L0.tsls k = some s0 → ∃ s, L.tsls k = some s ∧ s.temps = s0.temps ∧ s.files = s0.files ∧ s.loaded.length = s.temps.length ∧
    ∀ (i : Nat) t, s.loaded[i]? = some (some t) → ∃ a, s.files[i]? = some (.ok a) ∧ ThermalLaw.makeAce a false = .ok t

theorem NLibInv.fresh {fuel : Nat} {L : NLib Key} (h : FreshLib L) : NLibInv fuel L L where
  absent := fun _ h => h
  present := by
    intro k s hs
    obtain ⟨h1, h2⟩ := h.neutrons k s hs
    refine ⟨s, hs, rfl, rfl, by rw [h2, List.length_replicate], fun _ i o hi => ?_, fun p hp => by rw [h1] at hp; cases hp⟩
    rw [h2, List.getElem?_replicate] at hi
    split at hi <;> cases hi
  tabsent := fun _ h => h
  tpresent := by
    intro k s hs
    have h2 := h.tsls k s hs
    refine ⟨s, hs, rfl, rfl, by rw [h2, List.length_replicate], fun i t hi => ?_⟩
    rw [h2, List.getElem?_replicate] at hi
    split at hi <;> cases hi

/-- What a call of `load` does. -/
theorem nload_cases (L : NLib Key) (fuel : Nat) (r : NReq Key) :
    ((L.load fuel r).1 = L ∧ ∀ o, (L.load fuel r).2 = .ok o → ∃ s i, L.neutrons r.key = some s ∧ loadIndex r.T r.tol s.temps 0 = some i ∧
      s.loaded[i]? = some (some o)) ∨
    ∃ s i n, L.neutrons r.key = some s ∧ loadIndex r.T r.tol s.temps 0 = some i ∧ s.loaded[i]? = some none ∧ L.build s i fuel = .ok n ∧
      (L.load fuel r).2 = .ok L.heap.length ∧ (L.load fuel r).1 = ⟨fun k => if k = r.key then some ⟨s.temps, s.files, s.loaded.set i (some L.heap.length),
        match s.first with | some p => some p | none => some L.heap.length⟩ else L.neutrons k, L.tsls, L.heap ++ [n]⟩ := by
  unfold NLib.load
  cases h1 : L.neutrons r.key with
  | none => exact Or.inl ⟨rfl, fun o h => by cases h⟩
  | some s =>
    dsimp only
    cases h2 : loadIndex r.T r.tol s.temps 0 with
    | none => exact Or.inl ⟨rfl, fun o h => by cases h⟩
    | some i =>
      dsimp only
      cases h3 : s.loaded[i]? with
      | none => exact Or.inl ⟨rfl, fun o h => by cases h⟩
      | some x =>
        cases x with
        | some o' => exact Or.inl ⟨rfl, fun o h => by cases h; exact ⟨s, i, rfl, h2, h3⟩⟩
        | none =>
          dsimp only
          by_cases hr : r.readable = false
          · rw [if_pos hr]; exact Or.inl ⟨rfl, fun o h => by cases h⟩
          · rw [if_neg hr]
            cases h4 : L.build s i fuel with
            | error e => exact Or.inl ⟨rfl, fun o h => by cases h⟩
            | ok n => exact Or.inr ⟨s, i, n, rfl, h2, h3, h4, rfl, rfl⟩

theorem NLibInv.load {fuel : Nat} {L0 L : NLib Key} (h : NLibInv fuel L0 L) (r : NReq Key) : NLibInv fuel L0 (L.load fuel r).1 := by
  rcases nload_cases L fuel r with ⟨h1, _⟩ | ⟨s, i, n, h1, h2, h3, h4, _, h6⟩
  · rw [h1]; exact h
  · rw [h6]
    have happ : ∀ (i : Nat) (n' : Nuc), L.heap[i]? = some n' → ∃ e, (L.heap ++ [n])[i]? = some { n' with elastic := e } := fun i n' hi =>
      ⟨n'.elastic, by rw [List.getElem?_append_left (lt_length_of_some hi)]; exact hi⟩
    refine ⟨fun k hk => ?_, fun k s0 hk => ?_, h.tabsent, h.tpresent⟩
    · have := h.absent k hk
      dsimp only
      by_cases hkr : k = r.key
      · rw [← hkr, this] at h1; cases h1
      · rw [if_neg hkr]; exact this
    · obtain ⟨s', g1, g2, g3, g4⟩ := h.present k s0 hk
      dsimp only
      by_cases hkr : k = r.key
      · rw [if_pos hkr]
        rw [hkr, h1] at g1
        cases g1
        refine ⟨_, rfl, g2, g3, ?_⟩
        have hi : i < s.loaded.length := lt_length_of_some h3
        unfold NLib.build at h4
        obtain ⟨fr, k1, h4⟩ := bind_ok h4
        rw [getAt_eq_ok] at k1
        replace ⟨f, k2, h4⟩ := bind_ok h4
        subst k2
        have hset : ∀ (i' o : Nat), (s.loaded.set i (some L.heap.length))[i']? = some (some o) → (i' = i ∧ o = L.heap.length) ∨ s.loaded[i']? = some (some o) := by
          intro i' o ho
          rw [List.getElem?_set] at ho
          by_cases hii : i = i'
          · rw [if_pos hii, if_pos (hii ▸ hi)] at ho
            cases ho
            exact Or.inl ⟨hii.symm, rfl⟩
          · rw [if_neg hii] at ho
            exact Or.inr ho
        have hself : (s.loaded.set i (some L.heap.length))[i]? = some (some L.heap.length) := by
          rw [List.getElem?_set, if_pos rfl, if_pos hi]
        cases hf : s.first with
        | none =>
          simp only [hf] at h4
          refine ⟨by simpa using g4.len, fun hx => ?_, fun p hp => ?_⟩
          · dsimp only at hx; cases hx
          dsimp only at hp
          cases hp
          refine ⟨i, f, n, n.elastic, hself, k1, h4, by simp, fun i' o ho => ?_⟩
          rcases hset i' o ho with hx | hx
          · exact Or.inl hx
          · exact absurd hx (g4.empty hf i' o)
        | some p =>
          simp only [hf] at h4
          obtain ⟨o, q1, h5⟩ := bind_ok h4
          rw [getAt_eq_ok] at q1
          refine ⟨by simpa using g4.len, fun hx => ?_, fun p' hp => ?_⟩
          · dsimp only at hx; cases hx
          dsimp only at hp
          cases hp
          obtain ⟨j, g, m, e, r1, r2, r3, r4, r5⟩ := g4.first p hf
          rw [q1] at r4
          cases r4
          obtain ⟨n', t1, t2⟩ := makeShared_elastic_ok h5
          obtain ⟨e2, he2⟩ := happ p _ q1
          refine ⟨j, g, m, e2, ?_, r2, r3, he2, fun i' o ho => ?_⟩
          · dsimp only
            rw [List.getElem?_set]
            by_cases hij : i = j
            · rw [hij, r1] at h3; cases h3
            · rw [if_neg hij]; exact r1
          · rcases hset i' o ho with ⟨hx, hy⟩ | hx
            · refine Or.inr ⟨f, n', n.elastic, hx ▸ k1, t1, ?_⟩
              rw [hy, List.getElem?_append_right (le_refl _), Nat.sub_self, t2]
              rfl
            · rcases r5 i' o hx with h6 | ⟨f', n'', e', k1, k2, k3⟩
              · exact Or.inl h6
              · obtain ⟨e3, he3⟩ := happ o _ k3
                exact Or.inr ⟨f', n'', e3, k1, k2, he3⟩
      · rw [if_neg hkr]
        exact ⟨s', g1, g2, g3, g4.mono happ⟩

theorem nloadTsl_cases (L : NLib Key) (r : NReq Key) :
    ((L.loadTsl r).1 = L ∧ ∀ t, (L.loadTsl r).2 = .ok t → ∃ s i, L.tsls r.key = some s ∧ loadIndex r.T r.tol s.temps 0 = some i ∧ s.loaded[i]? = some (some t)) ∨
    ∃ s i a t, L.tsls r.key = some s ∧ loadIndex r.T r.tol s.temps 0 = some i ∧ s.loaded[i]? = some none ∧ s.files[i]? = some (.ok a) ∧
      ThermalLaw.makeAce a false = .ok t ∧ (L.loadTsl r).2 = .ok t ∧
      (L.loadTsl r).1 = ⟨L.neutrons, fun k => if k = r.key then some ⟨s.temps, s.files, s.loaded.set i (some t)⟩ else L.tsls k, L.heap⟩ := by
  unfold NLib.loadTsl
  cases h1 : L.tsls r.key with
  | none => exact Or.inl ⟨rfl, fun o h => by cases h⟩
  | some s =>
    dsimp only
    cases h2 : loadIndex r.T r.tol s.temps 0 with
    | none => exact Or.inl ⟨rfl, fun o h => by cases h⟩
    | some i =>
      dsimp only
      cases h3 : s.loaded[i]? with
      | none => exact Or.inl ⟨rfl, fun o h => by cases h⟩
      | some x =>
        cases x with
        | some t' => exact Or.inl ⟨rfl, fun o h => by cases h; exact ⟨s, i, rfl, h2, h3⟩⟩
        | none =>
          dsimp only
          by_cases hr : r.readable = false
          · rw [if_pos hr]; exact Or.inl ⟨rfl, fun o h => by cases h⟩
          · rw [if_neg hr]
            cases h4 : (do let f ← getAt s.files i; let a ← f; ThermalLaw.makeAce a false : Res ThermalLaw) with
            | error e => exact Or.inl ⟨rfl, fun o h => by cases h⟩
            | ok t =>
              obtain ⟨f, k1, k2⟩ := bind_ok h4
              obtain ⟨a, k2, k3⟩ := bind_ok k2
              subst k2
              exact Or.inr ⟨s, i, a, t, rfl, h2, h3, getAt_eq_ok.mp k1, k3, rfl, rfl⟩

theorem NLibInv.loadTsl {fuel : Nat} {L0 L : NLib Key} (h : NLibInv fuel L0 L) (r : NReq Key) : NLibInv fuel L0 (L.loadTsl r).1 := by
  rcases nloadTsl_cases L r with ⟨h1, _⟩ | ⟨s, i, a, t, h1, h2, h3, h4, h5, _, h6⟩
  · rw [h1]; exact h
  · rw [h6]
    refine ⟨h.absent, h.present, fun k hk => ?_, fun k s0 hk => ?_⟩
    · have := h.tabsent k hk
      dsimp only
      by_cases hkr : k = r.key
      · rw [← hkr, this] at h1; cases h1
      · rw [if_neg hkr]; exact this
    · obtain ⟨s', g1, g2, g3, g4, g5⟩ := h.tpresent k s0 hk
      dsimp only
      by_cases hkr : k = r.key
      · rw [if_pos hkr]
        rw [hkr, h1] at g1
        cases g1
        refine ⟨_, rfl, g2, g3, by simpa using g4, fun i' t' ht => ?_⟩
        dsimp only at ht ⊢
        rw [List.getElem?_set] at ht
        by_cases hii : i = i'
        · subst hii
          rw [if_pos rfl, if_pos (lt_length_of_some h3)] at ht
          cases ht
          exact ⟨a, h4, h5⟩
        · rw [if_neg hii] at ht
          exact g5 i' t' ht
      · rw [if_neg hkr]
        exact ⟨s', g1, g2, g3, g4, g5⟩

theorem heap_set {heap : List Nuc} {o : Nat} {n : Nuc} {op : ElasticOp} (hn : heap[o]? = some n) (i : Nat) (n' : Nuc) (hi : heap[i]? = some n') :
    (heap.set o { n with elastic := (n.elastic.step op).1 })[i]? = some { n' with elastic := if i = o then (n'.elastic.step op).1 else n'.elastic } := by
  rw [List.getElem?_set]
  by_cases hio : o = i
  · subst hio
    rw [hn] at hi
    cases hi
    rw [if_pos rfl, if_pos (lt_length_of_some hn), if_pos rfl]
  · rw [if_neg hio, if_neg (Ne.symm hio)]
    exact hi

theorem NLibInv.set {fuel : Nat} {L0 L : NLib Key} (h : NLibInv fuel L0 L) (o : Nat) (op : ElasticOp) : NLibInv fuel L0 (L.set o op) := by
  unfold NLib.set
  cases hn : L.heap[o]? with
  | none => exact h
  | some n =>
    refine ⟨h.absent, fun k s0 hk => ?_, h.tabsent, h.tpresent⟩
    obtain ⟨s, g1, g2, g3, g4⟩ := h.present k s0 hk
    exact ⟨s, g1, g2, g3, g4.mono fun i n' hi => ⟨_, heap_set hn i n' hi⟩⟩

theorem NLibInv.run {fuel : Nat} {L0 L : NLib Key} (h : NLibInv fuel L0 L) (hist : List (NOp Key)) : NLibInv fuel L0 (L.run fuel hist) := by
  unfold NLib.run
  induction hist generalizing L with
  | nil => exact h
  | cons op hist ih =>
    refine ih ?_
    cases op with
    | load r => exact h.load r
    | loadTsl r => exact h.loadTsl r
    | set o op => exact h.set o op

/-- **C146** In every history of calls, including failing ones and changes of the settings of nuclides already loaded: the nuclide returned for a request is
the one made from the file of the table selected (which depends on the request and the library only), either on its own or sharing the distributions of the
nuclide made from the file of another table of the same list; later changes concern the settings of elastic scattering only. -/
theorem C146_contents (fuel : Nat) (L : NLib Key) (hL : FreshLib L) (hist : List (NOp Key)) (r : NReq Key) (o : Nat)
    (ho : ((L.run fuel hist).load fuel r).2 = .ok o) :
    ∃ s i f n, L.neutrons r.key = some s ∧ loadIndex r.T r.tol s.temps 0 = some i ∧ s.files[i]? = some (.ok f) ∧
      ((L.run fuel hist).load fuel r).1.heap[o]? = some n ∧ ∃ (j : Nat) (g : AceFile) (m : Nuc), s.files[j]? = some (.ok g) ∧ Nuc.makeAce g fuel = .ok m ∧
        ((j = i ∧ n = { m with elastic := n.elastic }) ∨ ∃ n', Nuc.makeShared f m = .ok n' ∧ n = { n' with elastic := n.elastic }) := by
  have inv := (NLibInv.fresh (fuel := fuel) hL).run hist
  have inv' := inv.load r
  have key : ∃ s0 s i, L.neutrons r.key = some s0 ∧ ((L.run fuel hist).load fuel r).1.neutrons r.key = some s ∧
      loadIndex r.T r.tol s0.temps 0 = some i ∧ s.loaded[i]? = some (some o) := by
    rcases nload_cases (L.run fuel hist) fuel r with ⟨h1, h2⟩ | ⟨s, i, n, h1, h2, h3, h4, h5, h6⟩
    · obtain ⟨s, i, g1, g2, g3⟩ := h2 o ho
      cases h0 : L.neutrons r.key with
      | none => rw [inv.absent _ h0] at g1; cases g1
      | some s0 =>
        obtain ⟨s', k1, k2, _, _⟩ := inv.present _ _ h0
        rw [g1] at k1; cases k1
        exact ⟨s0, s, i, rfl, by rw [h1]; exact g1, by rw [← k2]; exact g2, g3⟩
    · cases h0 : L.neutrons r.key with
      | none => rw [inv.absent _ h0] at h1; cases h1
      | some s0 =>
        obtain ⟨s', k1, k2, _, _⟩ := inv.present _ _ h0
        rw [h1] at k1; cases k1
        rw [h5] at ho
        cases ho
        refine ⟨s0, _, i, rfl, by rw [h6]; dsimp only; rw [if_pos rfl], by rw [← k2]; exact h2, ?_⟩
        dsimp only
        rw [List.getElem?_set, if_pos rfl, if_pos (lt_length_of_some h3)]
  obtain ⟨s0, s, i, a1, a2, a3, a4⟩ := key
  obtain ⟨s', k1, k2, k3, k4⟩ := inv'.present _ _ a1
  rw [a2] at k1; cases k1
  cases hf : s.first with
  | none => exact absurd a4 (k4.empty hf i o)
  | some p =>
    obtain ⟨j, g, m, e, r1, r2, r3, r4, r5⟩ := k4.first p hf
    rcases r5 i o a4 with ⟨e1, e2⟩ | ⟨f, n, e', q1, q2, q3⟩
    · subst e1 e2
      rw [k3] at r2
      exact ⟨s0, i, g, _, a1, a3, r2, r4, i, g, m, r2, r3, Or.inl ⟨rfl, rfl⟩⟩
    · rw [k3] at q1 r2
      exact ⟨s0, i, f, _, a1, a3, q1, q3, j, g, m, r2, r3, Or.inr ⟨n, q2, rfl⟩⟩

/-- Changing the settings of elastic scattering does not change a cross section. -/
theorem same_elastic (n : Nuc) (e : Elastic) : SameCrossSections { n with elastic := e } n :=
  ⟨rfl, rfl, rfl, rfl, rfl, rfl, rfl, rfl, rfl, rfl, fun _ => rfl, fun _ => rfl, fun _ => rfl⟩

theorem Spec.SameCrossSections.symm {n n' : Nuc} (h : SameCrossSections n n') : SameCrossSections n' n :=
  ⟨h.1.symm, h.2.symm, h.3.symm, h.4.symm, h.5.symm, h.6.symm, h.7.symm, h.8.symm, h.9.symm, h.10.symm, fun mt => (h.11 mt).symm, fun mt => (h.12 mt).symm,
    fun E => (h.13 E).symm⟩

theorem Spec.SameCrossSections.trans {n n' n'' : Nuc} (h : SameCrossSections n n') (h' : SameCrossSections n' n'') : SameCrossSections n n'' :=
  ⟨h.1.trans h'.1, h.2.trans h'.2, h.3.trans h'.3, h.4.trans h'.4, h.5.trans h'.5, h.6.trans h'.6, h.7.trans h'.7, h.8.trans h'.8, h.9.trans h'.9,
    h.10.trans h'.10, fun mt => (h.11 mt).trans (h'.11 mt), fun mt => (h.12 mt).trans (h'.12 mt), fun E => (h.13 E).trans (h'.13 E)⟩

/-- **C146** Cross sections do not depend on the history: whatever was done before, with the same or another library object for the same files, two
requests that select the same table get nuclides with the same cross sections, thresholds, energies, probability tables and temperature.  The tables of a
nuclide are required to have contents in the format and to agree on whether it is fissile. -/
theorem C146_cross_sections (fuel : Nat) (L : NLib Key) (hL : FreshLib L) (h1 h2 : List (NOp Key)) (r1 r2 : NReq Key) (o1 o2 : Nat) (n1 n2 : Nuc)
    (s : NList) (i : Nat) (hs : L.neutrons r1.key = some s) (hkey : r2.key = r1.key) (hi1 : loadIndex r1.T r1.tol s.temps 0 = some i)
    (hi2 : loadIndex r2.T r2.tol s.temps 0 = some i) (hfiles : ∀ f, .ok f ∈ s.files → ∃ a, FileHolds f a)
    (hfis : ∀ f g, .ok f ∈ s.files → .ok g ∈ s.files → f.fissile = g.fissile)
    (ho1 : ((L.run fuel h1).load fuel r1).2 = .ok o1) (hn1 : ((L.run fuel h1).load fuel r1).1.heap[o1]? = some n1)
    (ho2 : ((L.run fuel h2).load fuel r2).2 = .ok o2) (hn2 : ((L.run fuel h2).load fuel r2).1.heap[o2]? = some n2) :
    SameCrossSections n1 n2 := by
  have one : ∀ (h : List (NOp Key)) (r : NReq Key) (o : Nat) (n : Nuc), r.key = r1.key → loadIndex r.T r.tol s.temps 0 = some i →
      ((L.run fuel h).load fuel r).2 = .ok o → ((L.run fuel h).load fuel r).1.heap[o]? = some n →
      ∃ f n', s.files[i]? = some (.ok f) ∧ (∀ a, FileHolds f a → Read fuel f a n') ∧ n'.fissile = f.fissile ∧ SameCrossSections n n' := by
    intro h r o n hk hi ho hn
    obtain ⟨s', i', f, n', a1, a2, a3, a4, j, g, m, a5, a6, a7⟩ := C146_contents fuel L hL h r o ho
    rw [hk, hs] at a1; cases a1
    rw [hi] at a2; cases a2
    rw [hn] at a4; cases a4
    have hmg : m.fissile = g.fissile := by
      obtain ⟨_, _, _, _, _, _, _, _, _, _, _, _, _, _, _, _, _, _, _, _, _, hx, _⟩ := makeAce_parts a6
      exact hx
    have hfg : g.fissile = f.fissile := hfis g f (List.mem_of_getElem? a5) (List.mem_of_getElem? a3)
    rcases a7 with ⟨rfl, e⟩ | ⟨n', e1, e2⟩
    · rw [a3] at a5; cases a5
      exact ⟨f, m, a3, fun a ha => .direct ha a6, hmg, by rw [e]; exact same_elastic m _⟩
    · obtain ⟨b, hb⟩ := hfiles g (List.mem_of_getElem? a5)
      refine ⟨f, n', a3, fun a ha => .shared (.direct hb a6) ha e1, ?_, by rw [e2]; exact same_elastic n' _⟩
      obtain ⟨_, _, _, _, _, _, _, _, _, _, _, _, _, _, _, _, hx, _⟩ := makeShared_parts e1
      rw [hx, hmg, hfg]
  obtain ⟨f, m1, b1, b2, b3, b4⟩ := one h1 r1 o1 n1 rfl hi1 ho1 hn1
  obtain ⟨f', m2, c1, c2, c3, c4⟩ := one h2 r2 o2 n2 hkey hi2 ho2 hn2
  rw [b1] at c1; cases c1
  obtain ⟨a, ha⟩ := hfiles f (List.mem_of_getElem? b1)
  exact b4.trans ((same_of_read (b2 a ha) (c2 a ha) b3 c3).trans c4.symm)

/-- **C146** Thermal scattering laws do not depend on the history: whatever was done before, the law returned is the one made from the file of the table
selected. -/
theorem C146_thermal (fuel : Nat) (L : NLib Key) (hL : FreshLib L) (hist : List (NOp Key)) (r : NReq Key) (t : ThermalLaw)
    (ht : ((L.run fuel hist).loadTsl r).2 = .ok t) :
    ∃ s i a, L.tsls r.key = some s ∧ loadIndex r.T r.tol s.temps 0 = some i ∧ s.files[i]? = some (.ok a) ∧ ThermalLaw.makeAce a false = .ok t := by
  have inv := (NLibInv.fresh (fuel := fuel) hL).run hist
  rcases nloadTsl_cases (L.run fuel hist) r with ⟨_, h2⟩ | ⟨s, i, a, t', h1, h2, h3, h4, h5, h6, _⟩
  · obtain ⟨s, i, g1, g2, g3⟩ := h2 t ht
    cases h0 : L.tsls r.key with
    | none => rw [inv.tabsent _ h0] at g1; cases g1
    | some s0 =>
      obtain ⟨s', k1, k2, k3, _, k5⟩ := inv.tpresent _ _ h0
      rw [g1] at k1; cases k1
      obtain ⟨a, q1, q2⟩ := k5 i t g3
      exact ⟨s0, i, a, rfl, by rw [← k2]; exact g2, by rw [← k3]; exact q1, q2⟩
  · rw [h6] at ht
    cases ht
    cases h0 : L.tsls r.key with
    | none => rw [inv.tabsent _ h0] at h1; cases h1
    | some s0 =>
      obtain ⟨s', k1, k2, k3, _, k5⟩ := inv.tpresent _ _ h0
      rw [h1] at k1; cases k1
      exact ⟨s0, i, a, rfl, by rw [← k2]; exact h2, by rw [← k3]; exact h4, h5⟩

/-- **C146** After a nuclide has been returned, only the setters called on it change it, in the order of the calls: loading other tables and changing the
settings of other nuclides leave it as it is. -/
theorem C146_settings (fuel : Nat) (L : NLib Key) (hist : List (NOp Key)) (o : Nat) (n : Nuc) (hn : L.heap[o]? = some n) :
    (L.run fuel hist).heap[o]? = some { n with elastic := n.elastic.run (settersOf o hist) } := by
  unfold NLib.run
  induction hist generalizing L n with
  | nil => exact hn
  | cons op hist ih =>
    rw [List.foldl_cons]
    cases op with
    | load r =>
      refine ih (L.load fuel r).1 n ?_
      rcases nload_cases L fuel r with ⟨h1, _⟩ | ⟨s, i, n', _, _, _, _, _, h6⟩
      · rw [h1]; exact hn
      · rw [h6]
        dsimp only
        rw [List.getElem?_append_left (lt_length_of_some hn)]
        exact hn
    | loadTsl r =>
      refine ih (L.loadTsl r).1 n ?_
      rcases nloadTsl_cases L r with ⟨h1, _⟩ | ⟨s, i, a, t, _, _, _, _, _, _, h6⟩
      · rw [h1]; exact hn
      · rw [h6]; exact hn
    | set p op =>
      simp only [NLib.step, settersOf]
      cases hp : L.heap[p]? with
      | none =>
        have hpo : p ≠ o := by rintro rfl; rw [hn] at hp; cases hp
        rw [if_neg hpo]
        refine ih _ n ?_
        unfold NLib.set
        rw [hp]
        exact hn
      | some m =>
        have hset : (L.set p op).heap[o]? = some { n with elastic := if o = p then (n.elastic.step op).1 else n.elastic } := by
          unfold NLib.set
          rw [hp]
          exact heap_set hp o n hn
        have := ih (L.set p op) _ hset
        rw [this]
        by_cases hpo : p = o
        · rw [if_pos hpo, if_pos hpo.symm]; rfl
        · rw [if_neg hpo, if_neg (Ne.symm hpo)]

/-! ### What depends on the history -/

namespace Example

/-- A library with two tables of one nuclide, at 293 K and at 600 K. -/
noncomputable def twoTables (f1 f2 : AceFile) : NLib Unit := ⟨fun _ => some ⟨[293, 600], [.ok f1, .ok f2], [none, none], none⟩, fun _ => none, []⟩

theorem twoTables_fresh (f1 f2 : AceFile) : FreshLib (twoTables f1 f2) := by
  refine ⟨rfl, fun k s hs => ?_, fun k s hs => by cases hs⟩
  cases hs
  exact ⟨rfl, rfl⟩

/-- The requests for the two tables. -/
noncomputable def cold : NReq Unit := ⟨(), 293, 1, true⟩

noncomputable def hot : NReq Unit := ⟨(), 600, 1, true⟩

theorem cold_index : loadIndex cold.T cold.tol [293, 600] 0 = some 0 := by norm_num [loadIndex, cold, bigT]

theorem hot_index : loadIndex hot.T hot.tol [293, 600] 0 = some 1 := by norm_num [loadIndex, hot, bigT, abs_of_neg]

theorem load_cold {f1 f2 : AceFile} {fuel : Nat} {m : Nuc} (h : Nuc.makeAce f1 fuel = .ok m) :
    (twoTables f1 f2).load fuel cold = (⟨fun k => if k = () then some ⟨[293, 600], [.ok f1, .ok f2], [some 0, none], some 0⟩ else (twoTables f1 f2).neutrons k,
      fun _ => none, [m]⟩, .ok 0) := by
  unfold NLib.load
  rw [show (twoTables f1 f2).neutrons cold.key = some ⟨[293, 600], [.ok f1, .ok f2], [none, none], none⟩ from rfl]
  dsimp only
  rw [cold_index]
  simp [NLib.build, cold, getAt, h, bind, Except.bind, twoTables]

theorem load_hot {f1 f2 : AceFile} {fuel : Nat} {m : Nuc} (h : Nuc.makeAce f2 fuel = .ok m) :
    (((twoTables f1 f2).load fuel hot).2 = .ok 0 ∧ ((twoTables f1 f2).load fuel hot).1.heap = [m]) := by
  unfold NLib.load
  rw [show (twoTables f1 f2).neutrons hot.key = some ⟨[293, 600], [.ok f1, .ok f2], [none, none], none⟩ from rfl]
  dsimp only
  rw [hot_index]
  simp [NLib.build, hot, getAt, h, bind, Except.bind, twoTables]

theorem load_second {f1 f2 : AceFile} {fuel : Nat} {L : NLib Unit} {m : Nuc}
    (hL : L.neutrons () = some ⟨[293, 600], [.ok f1, .ok f2], [some 0, none], some 0⟩) (hh : L.heap = [m]) :
    (∀ n, Nuc.makeShared f2 m = .ok n → (L.load fuel hot).2 = .ok 1 ∧ (L.load fuel hot).1.heap = [m, n]) ∧
    ∀ e, Nuc.makeShared f2 m = .error e → (L.load fuel hot).2 = .error e := by
  unfold NLib.load
  rw [show L.neutrons hot.key = _ from hL]
  dsimp only
  rw [hot_index]
  refine ⟨fun n h => ?_, fun e h => ?_⟩ <;> simp [NLib.build, hot, getAt, h, bind, Except.bind, hh]

/-- The second table of the example: the same numbers at 600 K. -/
noncomputable def hotFile : AceFile := { file with temperature := 600 }

theorem hotFile_holds : FileHolds hotFile contents :=
  { fissile := file_holds.fissile, grid := file_holds.grid, total := file_holds.total, disap := file_holds.disap, elastic := file_holds.elastic,
    heating := file_holds.heating, main := file_holds.main, count := file_holds.count, entry := file_holds.entry }

theorem hotFile_accepted : ∃ n, Nuc.makeAce hotFile 1 = .ok n := by
  obtain ⟨n, hn⟩ := file_accepted
  have h := (C102_accept file 1 contents file_holds (by simp [contents])).mp ⟨n, hn⟩
  obtain ⟨h1, h2, h3, h4, h5, h6, h7, h8, h9, h10, h11, h12⟩ := h
  exact (C102_accept hotFile 1 contents hotFile_holds (by simp [contents])).mpr ⟨h1, h2, h3, h4, h5, h6, h7, by norm_num [hotFile], h9, h10, h11, h12⟩

theorem shared_accepted {o : Nuc} (ho : Nuc.makeAce file 1 = .ok o) : ∃ n, Nuc.makeShared hotFile o = .ok n := by
  have hr : Read 1 file contents o := .direct file_holds ho
  have hof : hotFile.fissile = o.fissile := by
    obtain ⟨m, s, fi, l0, ad, cx, _, _, _, _, _, _, _, _, _, _, _, _, _, _, _, h, _⟩ := makeAce_parts ho
    exact h.symm
  exact C102_shared 1 file hotFile contents contents o hr hotFile_holds (by simp [contents]) hof contents_acceptable
    (by simp [contents]; norm_num) ⟨1, rfl, one_pos⟩ (by intro i hi; cases hi)
    (by
      intro e he _
      rcases C99_reactions file 1 o ho contents file_holds e.mt with ⟨h, _⟩ | ⟨_, h, _⟩
      · exact h
      · refine absurd ⟨⟨e, he, rfl⟩, fun hf => ?_⟩ h
        simp only [contents, List.mem_cons, List.not_mem_nil, or_false] at he
        rcases he with e | e <;> subst e <;> simp [FissionMT] at hf)
    (by intro l hl; cases hl)
    ⟨⟨⟨[], [], 0, true⟩, ⟨[], [], 0, true⟩, ⟨[], [], 0, true⟩, ⟨[], [], 0, true⟩⟩, [⟨102, 0, ⟨[], [], 0, true⟩, 0⟩, ⟨103, 0, ⟨[], [], 0, true⟩, 0⟩],
      _, by decide, rfl⟩

/-- The hypotheses of the C146 theorems are met: both tables loaded one after the other, and the second one alone, in a library with nothing loaded. -/
theorem history_hypotheses : ∃ n1 n2, FreshLib (twoTables file hotFile) ∧ (twoTables file hotFile).neutrons hot.key = some ⟨[293, 600], [.ok file, .ok hotFile], [none, none], none⟩ ∧
    loadIndex hot.T hot.tol [293, 600] 0 = some 1 ∧ (∀ f, .ok f ∈ [Except.ok (ε := Err) file, .ok hotFile] → FileHolds f contents ∧ f.fissile = false) ∧
    (((twoTables file hotFile).run 1 []).load 1 hot).2 = .ok 0 ∧ (((twoTables file hotFile).run 1 []).load 1 hot).1.heap[0]? = some n1 ∧
    (((twoTables file hotFile).run 1 [.load cold]).load 1 hot).2 = .ok 1 ∧ (((twoTables file hotFile).run 1 [.load cold]).load 1 hot).1.heap[1]? = some n2 := by
  obtain ⟨m, hm⟩ := file_accepted
  obtain ⟨m', hm'⟩ := hotFile_accepted
  obtain ⟨n, hn⟩ := shared_accepted hm
  have h0 := load_hot (f1 := file) hm'
  have h1 := load_cold (f2 := hotFile) hm
  have h2 := (load_second (f1 := file) (f2 := hotFile) (fuel := 1) (L := (twoTables file hotFile).run 1 [.load cold]) (m := m)
    (by show ((twoTables file hotFile).load 1 cold).1.neutrons () = _; rw [h1]; rfl) (by show ((twoTables file hotFile).load 1 cold).1.heap = _; rw [h1])).1 n hn
  refine ⟨m', n, twoTables_fresh _ _, rfl, hot_index, ?_, h0.1, ?_, h2.1, by rw [h2.2]; rfl⟩
  · intro f hf
    simp only [List.mem_cons, Except.ok.injEq, List.not_mem_nil, or_false] at hf
    rcases hf with rfl | rfl
    · exact ⟨file_holds, rfl⟩
    · exact ⟨hotFile_holds, rfl⟩
  · show ((twoTables file hotFile).load 1 hot).1.heap[0]? = _
    rw [h0.2]; rfl

end Example

open Example in
/-- **C146 fails** for the settings of elastic scattering: a setter called on the nuclide loaded first also acts on a nuclide loaded later, at another
temperature (src/nd_library.cpp:192-194 shares the first nuclide as it is, src/st_neutron.cpp:195 copies its elastic law).  The second table alone uses the
threshold above which targets are at rest; after `set_use_tar(false)` on the nuclide of the first table it does not. -/
theorem C146_violation_settings : ∃ (L : NLib Unit) (r1 r2 : NReq Unit) (n n' : Nuc), FreshLib L ∧ (L.load 1 r2).2 = .ok 0 ∧
    (L.load 1 r2).1.heap[0]? = some n ∧ n.elastic.useTar = true ∧ ((L.run 1 [.load r1, .set 0 (.setUseTar false)]).load 1 r2).2 = .ok 1 ∧
    ((L.run 1 [.load r1, .set 0 (.setUseTar false)]).load 1 r2).1.heap[1]? = some n' ∧ n'.elastic.useTar = false := by
  obtain ⟨m, hm⟩ := file_accepted
  obtain ⟨m', hm'⟩ := hotFile_accepted
  obtain ⟨n, hn⟩ := shared_accepted hm
  have h0 := load_hot (f1 := file) hm'
  have h1 := load_cold (f2 := hotFile) hm
  have hn2 : Nuc.makeShared hotFile { m with elastic := { m.elastic with useTar := false } } =
      .ok { n with elastic := (({ m.elastic with useTar := false } : Elastic).step (.setTemperature hotFile.temperature)).1 } := by
    rw [makeShared_elastic, hn]; rfl
  have hrun : (twoTables file hotFile).run 1 [.load cold, .set 0 (.setUseTar false)] = ((twoTables file hotFile).load 1 cold).1.set 0 (.setUseTar false) := rfl
  have h2 := (load_second (f1 := file) (f2 := hotFile) (fuel := 1) (L := (twoTables file hotFile).run 1 [.load cold, .set 0 (.setUseTar false)])
    (m := { m with elastic := { m.elastic with useTar := false } }) (by rw [hrun, h1]; rfl) (by rw [hrun, h1]; rfl)).1 _ hn2
  refine ⟨twoTables file hotFile, cold, hot, m', _, twoTables_fresh _ _, h0.1, by rw [h0.2]; rfl, ?_, h2.1, by rw [h2.2]; rfl, rfl⟩
  obtain ⟨_, _, _, _, _, _, _, _, _, _, _, he, _⟩ := makeAce_parts hm'
  unfold Elastic.make at he
  rw [if_neg (by norm_num [hotFile, file]), if_neg (by norm_num [hotFile, kToMeV]), if_neg (by norm_num), if_neg (by simp)] at he
  rw [← Except.ok.inj he]

open Example in
/-- **C146 fails** when the tables of a nuclide do not list the same reactions: a table that can be loaded on its own makes the library read outside of the
list of reactions when another table was loaded before it (src/st_neutron.cpp:185-187 takes the reaction of the first nuclide without asking whether it has
one). -/
theorem C146_violation_order : ∃ (L : NLib Unit) (r1 r2 : NReq Unit), FreshLib L ∧ (L.load 1 r1).2 = .ok 0 ∧ (L.load 1 r2).2 = .ok 0 ∧
    ((L.run 1 [.load r1]).load 1 r2).2 = .error .ub := by
  obtain ⟨m, hm⟩ := file_accepted
  obtain ⟨m', hm'⟩ := evap_accepted
  have h0 := load_hot (f1 := file) hm'
  have h1 := load_cold (f2 := evapFile) hm
  have hno : Nuc.makeShared evapFile m = .error .ub := by
    obtain ⟨mm, _, _, _, _, _, k1, k2, _⟩ := makeAce_parts hm'
    have hidx : ∃ v : Int, v < 0 ∧ getAt m.idx 91 = .ok v := by
      rcases C99_reactions file 1 m hm contents file_holds 91 with ⟨_, ⟨⟨e, he, hx⟩, _⟩, _⟩ | ⟨h, _, _⟩
      · simp only [contents, List.mem_cons, List.not_mem_nil, or_false] at he
        rcases he with e | e <;> subst e <;> cases hx
      · unfold Nuc.has hasIdx at h
        rw [if_neg (by decide), if_neg (by norm_num)] at h
        obtain ⟨v, hv, h⟩ := bind_ok h
        refine ⟨v, ?_, hv⟩
        have := Except.ok.inj h
        simpa using this
    obtain ⟨v, hv, hg⟩ := hidx
    have hmt : natAt evapFile.xss (evapFile.mtr + 0) = .ok 91 := Holds.nat (n := 91) ⟨evapFile.xss.take 0, evapFile.xss.drop 1, by simp [evapFile], by simp [evapFile]⟩
    unfold Nuc.makeShared
    rw [k1]
    simp only [bind, Except.bind]
    rw [k2]
    simp only []
    have hl : List.range evapFile.nmt = [0] := rfl
    rw [hl]
    simp only [List.foldlM_cons, NucState.step, bind, Except.bind, hmt]
    rw [if_neg (by decide)]
    simp only [hg, getInt]
    rw [if_pos hv]
  have h2 := (load_second (f1 := file) (f2 := evapFile) (fuel := 1) (L := (twoTables file evapFile).run 1 [.load cold]) (m := m)
    (by show ((twoTables file evapFile).load 1 cold).1.neutrons () = _; rw [h1]; rfl) (by show ((twoTables file evapFile).load 1 cold).1.heap = _; rw [h1])).2 _ hno
  exact ⟨twoTables file evapFile, cold, hot, twoTables_fresh _ _, by rw [h1], h0.1, h2⟩

end PNDL
