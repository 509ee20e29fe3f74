import Verif.Props.Many
import Verif.Props.NucAccept
import Verif.Props.ReadSample
import Verif.Spec.Tool

/-! C145 — the sampling program saves what was sampled. -/
namespace PNDL
open MeasureTheory Spec Set

theorem collect_iff (run : Tape → Nat → Res (ℝ × ℝ × Nat)) (ω : Tape) : ∀ (n k : Nat) (cols : List (ℝ × ℝ)),
    (∃ k', collect (fun ω k => column (run ω k)) ω n k = .ok (cols, k')) ↔
      cols.length = n ∧ ∃ pos : Nat → Nat, pos 0 = k ∧ ∀ i, i < n → ∃ mu e, run ω (pos i) = .ok (mu, e, pos (i + 1)) ∧ cols[i]? = some (e, mu) := by
  intro n
  induction n with
  | zero =>
    intro k cols
    constructor
    · rintro ⟨k', h⟩
      cases h
      exact ⟨rfl, fun _ => k, rfl, fun i hi => absurd hi (by omega)⟩
    · rintro ⟨h, _⟩
      rw [List.length_eq_zero_iff] at h
      subst h
      exact ⟨k, rfl⟩
  | succ n ih =>
    intro k cols
    constructor
    · rintro ⟨k', h⟩
      simp only [collect] at h
      cases hr : run ω k with
      | error e => simp only [hr, column, Except.map, bind, Except.bind] at h; cases h
      | ok r =>
        obtain ⟨mu, e, k1⟩ := r
        simp only [hr, column, Except.map, bind, Except.bind] at h
        cases hc : collect (fun ω k => column (run ω k)) ω n k1 with
        | error x => simp only [column, Except.map] at hc; rw [hc] at h; cases h
        | ok s =>
          have hc' := hc
          simp only [column, Except.map] at hc
          rw [hc] at h
          cases h
          obtain ⟨h1, pos, h2, h3⟩ := (ih k1 s.1).mp ⟨s.2, hc'⟩
          refine ⟨by simp [h1], fun i => match i with | 0 => k | j + 1 => pos j, rfl, ?_⟩
          rintro (_ | i) hi
          · exact ⟨mu, e, by rw [hr]; show _ = Except.ok (mu, e, pos 0); rw [h2], rfl⟩
          · obtain ⟨mu', e', a, b⟩ := h3 i (by omega)
            exact ⟨mu', e', a, b⟩
    · rintro ⟨h1, pos, h2, h3⟩
      obtain ⟨mu, e, a, b⟩ := h3 0 (by omega)
      cases cols with
      | nil => cases b
      | cons c cs =>
        cases b
        obtain ⟨k', hk⟩ := (ih (pos 1) cs).mpr ⟨by simpa using h1, fun i => pos (i + 1), rfl, fun i hi => h3 (i + 1) (by omega)⟩
        refine ⟨k', ?_⟩
        rw [h2] at a
        simp only [collect]
        have : column (run ω k) = .ok ((e, mu), pos 1) := by rw [a]; rfl
        rw [this]
        simp only [bind, Except.bind]
        rw [hk]
        rfl

theorem columns_iff (run : Tape → Nat → Res (ℝ × ℝ × Nat)) (ω : Tape) (n : Nat) (cols : List (ℝ × ℝ)) :
    columns run ω n = .ok cols ↔ Successive (run ω) n cols := by
  unfold Successive
  rw [← collect_iff run ω n 0 cols]
  unfold columns
  constructor
  · intro h
    cases hc : collect (fun ω k => column (run ω k)) ω n 0 with
    | error e => rw [hc] at h; cases h
    | ok r => rw [hc] at h; cases h; exact ⟨r.2, rfl⟩
  · rintro ⟨k', h⟩
    rw [h]; rfl

theorem saved_columns (run : Tape → Nat → Res (ℝ × ℝ × Nat)) (ω : Tape) (n : Nat) (cols : List (ℝ × ℝ)) :
    Saved (toolMain (do let xs ← columns run ω n; return ⟨0, xs⟩)) cols ↔ Successive (run ω) n cols := by
  rw [← columns_iff]
  unfold Saved
  cases columns run ω n with
  | error e => cases e <;> simp [toolMain, bind, Except.bind]
  | ok xs => simp [toolMain, bind, Except.bind, pure, Except.pure]

/-- **C145** Whatever the mode, an array is saved if and only if the exit status is 0. -/
theorem C145_status (r : Res ToolRun) (o : ToolOut) (h : toolMain r = .ok o) : o.saved.isSome ↔ o.status = 0 := by
  cases r with
  | ok t =>
    simp only [toolMain] at h
    by_cases ht : t.result = 0
    · rw [if_neg (by simpa using ht)] at h
      cases h; simp
    · rw [if_pos ht] at h
      cases h; simpa using ht
  | error e =>
    cases e with
    | exc => simp only [toolMain] at h; cases h; simp
    | ub => simp [toolMain] at h
    | nonfinite => simp [toolMain] at h
    | diverge => simp [toolMain] at h

/-- **C145** Reaction mode, above the threshold of a reaction that emits neutrons: the program ends with status 0 and a saved array if and only if the
array holds the first `nsamples` samples of the distribution of the reaction.  Missing: reactions that emit none, see `C145_violation`. -/
theorem C145_reaction_partial (mt nsamples : Nat) (E : ℝ) (f : AceFile) (rfuel : Nat) (n : Nuc) (hn : Nuc.makeAce f rfuel = .ok n) (r : STRxn)
    (hr : n.reaction mt = .ok r) (hE : r.threshold < E) (hd : ∀ m, r.base.dist ≠ .absorption m) (fuel : Nat) (ω : Tape) (cols : List (ℝ × ℝ)) :
    Saved (toolMain (toolReaction mt nsamples E f rfuel fuel ω)) cols ↔ Successive (fun k => r.base.sample r.threshold fuel E ω k) nsamples cols := by
  have hh : n.has mt = .ok true := by
    unfold Nuc.reaction at hr
    cases h : n.has mt with
    | error e => rw [h] at hr; cases hr
    | ok b => cases b with
      | true => rfl
      | false => rw [h] at hr; cases hr
  have ha : r.base.dist.isAbsorption = false := by
    cases h : r.base.dist with
    | absorption m => exact absurd h (hd m)
    | one l => rfl
    | several ls => rfl
    | cm a q d => rfl
  have hs : (fun k => r.base.sample r.threshold fuel E ω k) = fun k => (r.base.dist.toAE fuel).sample E ω k := by
    funext k
    exact congrFun (congrFun (reaction_run r.base hE.le k) fuel) ω
  rw [hs, ← saved_columns (fun ω k => (r.base.dist.toAE fuel).sample E ω k) ω nsamples cols]
  unfold toolReaction
  rw [hn]
  simp only [bind, Except.bind]
  rw [hh]
  simp only [Bool.true_eq_false, if_false]
  rw [hr]
  simp only [ha, Bool.false_eq_true, if_false]
  rw [if_neg (not_le.mpr hE)]

/-- **C145** A reaction the nuclide does not have, or an energy not above its threshold, is refused: status 1 and no file. -/
theorem C145_refused (mt nsamples : Nat) (E : ℝ) (f : AceFile) (rfuel : Nat) (n : Nuc) (hn : Nuc.makeAce f rfuel = .ok n)
    (h : n.has mt = .ok false ∨ ∃ r, n.reaction mt = .ok r ∧ E ≤ r.threshold) (fuel : Nat) (ω : Tape) :
    Refused (toolMain (toolReaction mt nsamples E f rfuel fuel ω)) := by
  unfold Refused toolReaction
  rw [hn]
  simp only [bind, Except.bind]
  rcases h with h | ⟨r, hr, hE⟩
  · rw [h]; rfl
  · have hh : n.has mt = .ok true := by
      unfold Nuc.reaction at hr
      cases h : n.has mt with
      | error e => rw [h] at hr; cases hr
      | ok b => cases b with
        | true => rfl
        | false => rw [h] at hr; cases hr
    rw [hh]
    simp only [Bool.true_eq_false, if_false]
    rw [hr]
    simp only []
    rw [if_pos hE]; rfl

/-- **C145** So is a file the constructor refuses with an exception. -/
theorem C145_unreadable (mt nsamples : Nat) (E : ℝ) (f : AceFile) (rfuel : Nat) (hn : Nuc.makeAce f rfuel = .error .exc) (fuel : Nat) (ω : Tape) :
    Refused (toolMain (toolReaction mt nsamples E f rfuel fuel ω)) := by
  unfold Refused toolReaction
  rw [hn]; rfl

/-- **C145** Elastic modes: the array holds the first samples of the elastic scattering of the nuclide at temperature `T`, with the target at rest from
400 kT on, or, in the mode with the rejection correction, with that correction at every energy. -/
theorem C145_elastic (dbrc : Bool) (nsamples : Nat) (E T : ℝ) (f : AceFile) (fuel : Nat) (n : Nuc) (hn : Nuc.makeAce f fuel = .ok n) (ω : Tape) (cols : List (ℝ × ℝ)) :
    ∃ l0 ad, intAt f.xss f.land = .ok l0 ∧ AngleDist.makeAce f.xss f.andB l0 = .ok ad ∧
      (Saved (toolMain (toolElastic dbrc nsamples E T f fuel ω)) cols ↔
        Successive (fun k => (Elastic.mk (ad.sample fuel) f.awr (T * kToMeV) (!dbrc) 400
          (some (if dbrc = true then dbrcSample n.grid n.elasticXS fuel fuel else svtSample fuel))).sample E ω k) nsamples cols) := by
  obtain ⟨l0, ad, h1, h2, h3, h4, h5, h6, h7, h8, _⟩ := C99_elastic f fuel n hn
  refine ⟨l0, ad, h1, h2, ?_⟩
  have hel : n.elastic.run (.setTemperature T :: if dbrc then [.setUseTar false, .setBroadener (some (dbrcSample n.grid n.elasticXS fuel fuel))] else []) =
      Elastic.mk (ad.sample fuel) f.awr (T * kToMeV) (!dbrc) 400 (some (if dbrc = true then dbrcSample n.grid n.elasticXS fuel fuel else svtSample fuel)) := by
    cases dbrc with
    | true =>
      simp only [Elastic.run, Elastic.step, if_true, h3, h4, h7]
      rfl
    | false =>
      simp only [Elastic.run, Elastic.step, h3, h4, h6, h7, h8]
      rfl
  rw [← saved_columns (fun ω k => (Elastic.mk (ad.sample fuel) f.awr (T * kToMeV) (!dbrc) 400
    (some (if dbrc = true then dbrcSample n.grid n.elasticXS fuel fuel else svtSample fuel))).sample E ω k), ← hel]
  unfold toolElastic
  rw [hn]
  rfl

/-- **C145** Thermal modes: the array holds the first samples of the law of that name of the file; a file without the law is refused. -/
theorem C145_thermal (nsamples : Nat) (E : ℝ) (a : TslAce) (ω : Tape) (cols : List (ℝ × ℝ)) :
    (∀ d, CohElastic.makeAce a = .ok d → (d.edges = [] → Refused (toolMain (toolCoherent nsamples E a ω))) ∧
      (d.edges ≠ [] → (Saved (toolMain (toolCoherent nsamples E a ω)) cols ↔ Successive (fun k => d.sample E ω k) nsamples cols))) ∧
    (∀ d, IncElastic.makeAce a = .ok d → (d.cosines = [] → Refused (toolMain (toolIncoherent nsamples E a ω))) ∧
      (d.cosines ≠ [] → (Saved (toolMain (toolIncoherent nsamples E a ω)) cols ↔ Successive (fun k => d.sample E ω k) nsamples cols))) ∧
    (∀ d, IncInelastic.makeAce a false = .ok d →
      (Saved (toolMain (toolInelastic nsamples E a ω)) cols ↔ Successive (fun k => d.dist.sample E ω k) nsamples cols)) := by
  refine ⟨fun d hd => ⟨fun h => ?_, fun h => ?_⟩, fun d hd => ⟨fun h => ?_, fun h => ?_⟩, fun d hd => ?_⟩
  · unfold Refused toolCoherent
    rw [hd]
    simp only [bind, Except.bind, h, List.length_nil, if_true]
    rfl
  · rw [← saved_columns (fun ω k => d.sample E ω k)]
    unfold toolCoherent
    rw [hd]
    simp only [bind, Except.bind]
    rw [if_neg (by simpa using h)]
  · unfold Refused toolIncoherent
    rw [hd]
    simp only [bind, Except.bind, h, List.length_nil, if_true]
    rfl
  · rw [← saved_columns (fun ω k => d.sample E ω k)]
    unfold toolIncoherent
    rw [hd]
    simp only [bind, Except.bind]
    rw [if_neg (by simpa using h)]
  · rw [← saved_columns (fun ω k => d.dist.sample E ω k)]
    unfold toolInelastic
    rw [hd]
    rfl

theorem collect_columns (run : Tape → Nat → Res (ℝ × ℝ × Nat)) (ω : Tape) : ∀ n k,
    collect (fun ω k => column (run ω k)) ω n k = (collect (fun ω k => asPair (run ω k)) ω n k).map fun r => (r.1.map Prod.swap, r.2) := by
  intro n
  induction n with
  | zero => intro k; rfl
  | succ n ih =>
    intro k
    simp only [collect]
    cases hr : run ω k with
    | error e => rfl
    | ok r =>
      have e1 : column (.ok r) = .ok ((r.2.1, r.1), r.2.2) := rfl
      have e2 : asPair (.ok r) = .ok ((r.1, r.2.1), r.2.2) := rfl
      rw [e1, e2]
      simp only [bind, Except.bind]
      rw [ih r.2.2]
      cases collect (fun ω k => asPair (run ω k)) ω n r.2.2 <;> rfl

theorem many_columns {run : Nat → Tape → Nat → Res (ℝ × ℝ × Nat)} {n : Nat} {μ : Measure (ℝ × ℝ)} (h : SamplesMany (fun fuel ω k => asPair (run fuel ω k)) n 0 μ)
    (S : Nat → Set (ℝ × ℝ)) (hS : ∀ i, MeasurableSet (S i)) :
    Spec.iid {ω | ∃ fuel cols, Successive (run fuel ω) n cols ∧ ∀ i e mu, cols[i]? = some (e, mu) → (mu, e) ∈ S i} = ∏ i ∈ Finset.range n, μ (S i) := by
  rw [← h S hS]
  congr 1
  ext ω
  simp only [mem_setOf_eq]
  constructor
  · rintro ⟨fuel, cols, h1, h2⟩
    have hc := (columns_iff (run fuel) ω n cols).mpr h1
    unfold columns at hc
    rw [collect_columns] at hc
    cases hd : collect (fun ω k => asPair (run fuel ω k)) ω n 0 with
    | error e => rw [hd] at hc; cases hc
    | ok r =>
      rw [hd] at hc
      cases hc
      refine ⟨fuel, r.1, r.2, hd, by simpa using h1.1, fun i x hx => h2 i x.2 x.1 ?_⟩
      rw [List.getElem?_map, hx]; rfl
  · rintro ⟨fuel, xs, k', h1, h2, h3⟩
    refine ⟨fuel, xs.map Prod.swap, (columns_iff (run fuel) ω n _).mp ?_, fun i e mu hx => ?_⟩
    · unfold columns
      rw [collect_columns, h1]; rfl
    · rw [List.getElem?_map] at hx
      cases hy : xs[i]? with
      | none => rw [hy] at hx; cases hx
      | some y =>
        rw [hy] at hx
        cases hx
        exact h3 i _ hy

/-- **C145** If the law of the reaction, given in the laboratory frame, is one that samples the density it reports (C118), then the columns of the array
are independent and each has that density: the probability that the program saves an array whose column `i` is in `S i`, for every `i`, is the product of
the probabilities of these sets. -/
theorem C145_lab_partial (mt nsamples : Nat) (E a b : ℝ) (f : AceFile) (rfuel : Nat) (n : Nuc) (hn : Nuc.makeAce f rfuel = .ok n) (r : STRxn)
    (hr : n.reaction mt = .ok r) (hE : r.threshold < E) (hd : SoundMix r.base.dist E a b) :
    ∃ p : ℝ → ℝ → ℝ, (∀ mu e, -1 ≤ mu → mu ≤ 1 → a ≤ e → e ≤ b → (r.base.dist.toAE 0).pdf E mu e = .ok (some (p mu e))) ∧
      ∀ S : Nat → Set (ℝ × ℝ), (∀ i, MeasurableSet (S i)) →
        Spec.iid {ω | ∃ fuel cols, Saved (toolMain (toolReaction mt nsamples E f rfuel fuel ω)) cols ∧ ∀ i e mu, cols[i]? = some (e, mu) → (mu, e) ∈ S i} =
          ∏ i ∈ Finset.range nsamples, jointLaw a b p (S i) := by
  obtain ⟨p, h1, h2⟩ := C144_lab r.base r.threshold E a b hE.le hd nsamples 0
  refine ⟨p, h1, fun S hS => ?_⟩
  rw [← many_columns h2 S hS]
  congr 1
  ext ω
  simp only [mem_setOf_eq]
  have hna : ∀ m, r.base.dist ≠ .absorption m := by
    intro m hm
    rw [hm] at hd
    exact hd
  simp only [C145_reaction_partial mt nsamples E f rfuel n hn r hr hE hna]

/-- **C145** The same for a law given in the centre of mass, with the density reported in the laboratory. -/
theorem C145_cm_partial (mt nsamples : Nat) (E a b : ℝ) (f : AceFile) (rfuel : Nat) (n : Nuc) (hn : Nuc.makeAce f rfuel = .ok n) (r : STRxn)
    (hr : n.reaction mt = .ok r) (hE : r.threshold < E) (A q : ℝ) (d : NDist) (hc : r.base.dist = .cm A q d) (h0 : 0 ≤ E) (hA : -1 < A) (ha : 0 ≤ a)
    (hd : SoundMix d E a b) :
    ∃ p : ℝ → ℝ → ℝ, (∀ mu e, (mu, e) ∈ labRegion (Real.sqrt E / (A + 1)) a b → (r.base.dist.toAE 0).pdf E mu e = .ok (some (p mu e))) ∧
      ∀ S : Nat → Set (ℝ × ℝ), (∀ i, MeasurableSet (S i)) →
        Spec.iid {ω | ∃ fuel cols, Saved (toolMain (toolReaction mt nsamples E f rfuel fuel ω)) cols ∧ ∀ i e mu, cols[i]? = some (e, mu) → (mu, e) ∈ S i} =
          ∏ i ∈ Finset.range nsamples, regionLaw (labRegion (Real.sqrt E / (A + 1)) a b) p (S i) := by
  obtain ⟨p, h1, h2⟩ := C144_cm r.base A q d hc r.threshold E a b hE.le h0 hA ha hd nsamples 0
  refine ⟨p, h1, fun S hS => ?_⟩
  rw [← many_columns h2 S hS]
  congr 1
  ext ω
  simp only [mem_setOf_eq]
  have hna : ∀ m, r.base.dist ≠ .absorption m := by
    intro m hm
    rw [hm] at hc
    cases hc
  simp only [C145_reaction_partial mt nsamples E f rfuel n hn r hr hE hna]

/-- **C145** The full claim is false of the code: asked for the capture reaction of an accepted file, above its threshold, the program says that it has no
distribution to sample from, and still ends with status 0 and saves an array, of zeros, with as many columns as were asked for. -/
theorem C145_violation : ∃ n, Nuc.makeAce Example.file 1 = .ok n ∧ ∃ r, n.reaction 102 = .ok r ∧ r.threshold = 1 ∧
    ∀ nsamples E fuel ω, 1 < E → Saved (toolMain (toolReaction 102 nsamples E Example.file 1 fuel ω)) (List.replicate nsamples (0, 0)) := by
  obtain ⟨n, hn⟩ := Example.file_accepted
  refine ⟨n, hn, ?_⟩
  rcases C99_reactions Example.file 1 n hn Example.contents Example.file_holds 102 with ⟨hh, _, r, k, e, h1, h2, h3, _, hb, _, h6⟩ | ⟨_, h, _⟩
  · refine ⟨r, h1, ?_⟩
    match k with
    | 0 =>
      simp only [Example.contents, List.getElem?_cons_zero, Option.some.injEq] at h2
      subst h2
      have ht : r.threshold = 1 := by simpa [Example.contents] using h6.symm
      refine ⟨ht, fun nsamples E fuel ω hE => ?_⟩
      have hd : r.base.dist.isAbsorption = true := by
        unfold RxnBase.makeAce at hb
        rw [show natAt Example.file.xss (Example.file.mtr + 0) = .ok 102 from
          Holds.nat (n := 102) ⟨Example.file.xss.take 15, Example.file.xss.drop 16, by simp [Example.file], by simp [Example.file]⟩] at hb
        simp only [bind, Except.bind] at hb
        rw [show getAt Example.file.xss (Example.file.lqr + 0) = .ok 7 from rfl] at hb
        simp only [] at hb
        rw [show getAt Example.file.xss (Example.file.tyr + 0) = .ok 0 from rfl] at hb
        simp only [] at hb
        cases hy : readYield Example.file.xss Example.file.dlw 0 with
        | error e => rw [hy] at hb; cases hb
        | ok y =>
          rw [hy] at hb
          simp only [] at hb
          rw [if_neg (by simp)] at hb
          rw [← Except.ok.inj hb]
          rfl
      unfold Saved toolReaction
      rw [hn]
      simp only [bind, Except.bind]
      rw [hh]
      simp only [Bool.true_eq_false, if_false]
      rw [h1]
      simp only [hd, if_true]
      rw [if_neg (by rw [ht]; exact not_le.mpr hE)]
      rfl
    | 1 =>
      simp only [Example.contents, List.getElem?_cons_succ, List.getElem?_cons_zero, Option.some.injEq] at h2
      subst h2
      cases h3
    | k + 2 => simp [Example.contents] at h2
  · exact absurd ⟨⟨⟨102, 0, [1, 1, 1], 0⟩, by simp [Example.contents], rfl⟩, by simp [FissionMT]⟩ h

/-! ### A file with an emitting reaction -/

namespace Example

/-- Three energies and one reaction, MT 91: an isotropic evaporation spectrum of temperature 2 in the centre of mass. -/
noncomputable def evapFile : AceFile where
  xss := [91, -2, -1, 0, 0, 1, 0, 9, 10, 0, 2, 1, 9, 1, 1, 0, 2, 1, 9, 2, 2, 1, 2, 4, 8, 5, 5, 6, 0, 0, 0, 2, 2, 2, 0, 0, 0, 1, 1, 3, 1, 1, 1]
  awr := 3
  mtr := 0
  lqr := 1
  tyr := 2
  land := 3
  andB := 43
  ldlw := 5
  dlw := 6
  fissile := false
  temperature := 293
  esz := 22
  ne := 3
  nmt := 1
  lsig := 37
  sig := 38
  gpd := none
  lunr := none
  nu := 0
  dnu := 0
  bdd := 0
  dnedl := 0
  dned := 0
  ngrps := 0

noncomputable def evapContents : AceIn ℝ where
  fissile := false
  grid := [2, 4, 8]
  total := [5, 5, 6]
  disap := [0, 0, 0]
  elastic := [2, 2, 2]
  heating := [0, 0, 0]
  rxns := [⟨91, 0, [1, 1, 1], 0⟩]

theorem evap_holds : FileHolds evapFile evapContents where
  fissile := rfl
  grid := rfl
  total := rfl
  disap := rfl
  elastic := rfl
  heating := rfl
  main := ⟨evapFile.xss.take 22, evapFile.xss.drop 37, by simp [evapFile, evapContents], rfl⟩
  count := rfl
  entry := by
    intro k e he
    match k with
    | 0 =>
      simp only [evapContents, List.getElem?_cons_zero, Option.some.injEq] at he
      subst he
      refine ⟨rfl, ⟨evapFile.xss.take 0, evapFile.xss.drop 1, by simp [evapFile], by simp [evapFile]⟩, 1, le_rfl,
        ⟨evapFile.xss.take 37, evapFile.xss.drop 38, by simp [evapFile], by simp [evapFile]⟩, ⟨evapFile.xss.take 38, evapFile.xss.drop 43, by simp [evapFile], by simp [evapFile]⟩⟩
    | k + 1 => simp [evapContents] at he

theorem evapContents_acceptable : Acceptable evapContents where
  total := ⟨rfl, by simp [evapContents]⟩
  disap := ⟨rfl, by simp [evapContents]⟩
  elastic := ⟨rfl, by simp [evapContents]⟩
  heating := rfl
  entry := by
    intro e he _
    simp only [evapContents, List.mem_cons, List.not_mem_nil, or_false] at he
    subst he
    exact ⟨by norm_num, by simp [evapContents], rfl, by simp⟩
  fission := by intro h; cases h

/-- The temperature of the spectrum. -/
noncomputable def twoTab : Tab1D := ⟨[2], [.linLin], [1, 9], [2, 2], [⟨.linLin, [1, 9], [2, 2]⟩]⟩

theorem twoTab_make : Tab1D.make ((TabRecord.mk [] [1, 9] [2, 2]).effective.map Prod.fst) ((TabRecord.mk [] [1, 9] [2, 2]).effective.map Prod.snd)
    (TabRecord.mk [] [1, 9] [2, 2]).x (TabRecord.mk [] [1, 9] [2, 2]).y = .ok twoTab := by
  have hs2 : isSorted ([1, 9] : List ℝ) = true := isSorted_iff.mpr (by norm_num)
  simp [twoTab, TabRecord.effective, Tab1D.make, buildRegions, slice, hs2, Region.make, Interpolation.verifyX, Interpolation.verifyY, nextLow,
      subIdx, Interpolation.hasSignChange, front, getAt, bind, Except.bind, pure, Except.pure]

theorem evap_reaction : ∃ y, ∀ fuel, RxnBase.makeAce evapFile.toAceBlocks 0 (fuel + 1) =
    .ok ⟨91, -2, 3, y, .cm 3 (-2) (.one (.uncorrelated ⟨⟨[1 / 10 ^ 5], [.isotropic]⟩, .evap twoTab 1⟩))⟩ := by
  obtain ⟨t, ht⟩ := probOne_make
  have hat : ReactionAt evapFile.toAceBlocks 0 91 (-2) (-1) (some ⟨[1 / 10 ^ 5], [.isotropic]⟩) [(9, 10, ⟨[], [1, 9], [1, 1]⟩)] := by
    refine ⟨⟨evapFile.xss.take 0, evapFile.xss.drop 1, by simp [evapFile], by simp [evapFile]⟩,
      ⟨evapFile.xss.take 1, evapFile.xss.drop 2, by simp [evapFile], by simp [evapFile]⟩,
      ⟨evapFile.xss.take 2, evapFile.xss.drop 3, by simp [evapFile], by simp [evapFile]⟩, Or.inr ⟨0, _, rfl, ?_, rfl⟩, 1, le_refl _, ?_, ?_⟩
    · exact ⟨evapFile.xss.take 4, evapFile.xss.drop 5, by simp [evapFile], by simp [evapFile]⟩
    · exact ⟨evapFile.xss.take 5, evapFile.xss.drop 6, by simp [evapFile], by simp [evapFile]⟩
    · exact ⟨le_refl _, by norm_num, rfl, ⟨evapFile.xss.take 6, evapFile.xss.drop 15, by norm_num [evapFile, TabRecord.encode], by simp [evapFile]⟩⟩
  have htemp : tempAce evapFile.xss (evapFile.dlw + (10 - 1)) = .ok (twoTab, 1) := by
    have h := (C76_read_next evapFile.xss 15 ⟨[], [1, 9], [2, 2]⟩ ⟨evapFile.xss.take 15, evapFile.xss.drop 21, by norm_num [evapFile, TabRecord.encode], by simp [evapFile]⟩ rfl).1
    unfold tempAce
    rw [show evapFile.dlw + (10 - 1) = 15 from rfl, h]
    simp only [bind, Except.bind]
    rw [show getAt evapFile.xss (15 + (TabRecord.mk [] [1, 9] [2, 2]).encode.length) = .ok 1 from rfl]
    simp only []
    rw [twoTab_make]
    rfl
  refine ⟨.const |(-1 : ℝ)|, fun fuel => ?_⟩
  have hm := C97_reaction evapFile.toAceBlocks 0 91 (-2) (-1) _ _ hat (by norm_num) (.const |(-1 : ℝ)|)
    (by unfold readYield; rw [if_pos (by norm_num)]) [(.uncorrelated ⟨⟨[1 / 10 ^ 5], [.isotropic]⟩, .evap twoTab 1⟩, t)]
    (.cons ⟨.evap _ _ _ rfl htemp, ht⟩ .nil) (fuel + 1) (by simp)
  rw [if_pos (by norm_num)] at hm
  exact hm

theorem evap_accepted : ∃ n, Nuc.makeAce evapFile 1 = .ok n := by
  obtain ⟨y, hy⟩ := evap_reaction
  refine (C102_accept evapFile 1 evapContents evap_holds (by simp [evapContents])).mpr ⟨evapContents_acceptable, by simp [evapContents]; norm_num,
    ⟨2, rfl, two_pos⟩, (by intro i hi; cases hi), ?_, ?_, by norm_num [evapFile], by norm_num [evapFile], ⟨_, rfl⟩, (by intro h; cases h), (by intro l hl; cases hl), ?_⟩
  · intro k e he _
    match k with
    | 0 => exact ⟨_, hy 0⟩
    | k + 1 => simp [evapContents] at he
  · refine ⟨0, ⟨[1 / 10 ^ 5], [.isotropic]⟩, ?_, rfl⟩
    exact Holds.int (n := 0) ⟨evapFile.xss.take 3, evapFile.xss.drop 4, by simp [evapFile], by simp [evapFile]⟩
  · exact ⟨⟨⟨[], [], 0, true⟩, ⟨[], [], 0, true⟩, ⟨[], [], 0, true⟩, ⟨[], [], 0, true⟩⟩, [⟨91, 0, ⟨[], [], 0, true⟩, 0⟩], _, by decide, rfl⟩

/-- The hypotheses of `C145_reaction_partial` and `C145_cm_partial` are met by this file and reaction at incident energy 5. -/
theorem evap_hypotheses : ∃ n r, Nuc.makeAce evapFile 1 = .ok n ∧ n.reaction 91 = .ok r ∧ r.threshold = 2 ∧ (∀ m, r.base.dist ≠ .absorption m) ∧
    ∃ d, r.base.dist = .cm 3 (-2) d ∧ SoundMix d 5 0 4 := by
  obtain ⟨n, hn⟩ := evap_accepted
  obtain ⟨y, hy⟩ := evap_reaction
  rcases C99_reactions evapFile 1 n hn evapContents evap_holds 91 with ⟨hh, _, r, k, e, h1, h2, h3, _, hb, _, h6⟩ | ⟨_, h, _⟩
  · match k with
    | 0 =>
      simp only [evapContents, List.getElem?_cons_zero, Option.some.injEq] at h2
      subst h2
      have hb' := Except.ok.inj ((hy 0).symm.trans hb)
      refine ⟨n, r, hn, h1, by simpa [evapContents] using h6.symm, by rw [← hb']; simp, .one (.uncorrelated ⟨⟨[1 / 10 ^ 5], [.isotropic]⟩, .evap twoTab 1⟩), by rw [← hb'], ⟨rfl, by simp, by simp⟩, ?_, 2, ?_, by norm_num, by norm_num, le_rfl, by norm_num⟩
      · intro law hl
        simp only [List.mem_cons, List.not_mem_nil, or_false] at hl
        subst hl
        trivial
      · norm_num [twoTab, Tab1D.eval, Region.eval, seekRegion, front, back, getAt, bind, Except.bind, pure, Except.pure, lowerBound, lowerBoundRange, bisect, subIdx,
          Interpolation.interpolate, rdiv]
    | k + 1 => simp [evapContents] at h2
  · exact absurd ⟨⟨⟨91, 0, [1, 1, 1], 0⟩, by simp [evapContents], rfl⟩, by simp [FissionMT]⟩ h

/-- A thousand samples of it are saved with probability one, all above the energy 0. -/
example : Spec.iid {ω | ∃ fuel cols, Saved (toolMain (toolReaction 91 1000 5 evapFile 1 fuel ω)) cols ∧ cols.length = 1000} = 1 := by
  obtain ⟨n, r, hn, hr, ht, hd, d, hc, hs⟩ := evap_hypotheses
  have hE : r.threshold < 5 := by rw [ht]; norm_num
  obtain ⟨p, _, h2⟩ := frame_closed (fun fuel => d.toAE fuel) 3 (-2) 5 0 4 (by norm_num) (by norm_num) le_rfl (mix_faithful hs)
  have hprob := h2.prob
  have h3 := many_columns (h2.many 1000 0) (fun _ => univ) fun _ => .univ
  simp only [measure_univ, Finset.prod_const_one] at h3
  rw [← h3]
  congr 1
  ext ω
  simp only [mem_setOf_eq, mem_univ, implies_true, and_true]
  have hsam : ∀ fuel, (fun k => r.base.sample r.threshold fuel 5 ω k) = (⟨3, -2, d.toAE fuel⟩ : CMDist).sample 5 ω := by
    intro fuel
    funext k
    rw [show r.base.sample r.threshold fuel 5 ω k = _ from congrFun (congrFun (reaction_run r.base hE.le k) fuel) ω, hc]
    rfl
  constructor
  · rintro ⟨fuel, cols, a, _⟩
    refine ⟨fuel, cols, ?_⟩
    rw [← hsam]
    exact (C145_reaction_partial 91 1000 5 evapFile 1 n hn r hr hE hd fuel ω cols).mp a
  · rintro ⟨fuel, cols, a⟩
    refine ⟨fuel, cols, (C145_reaction_partial 91 1000 5 evapFile 1 n hn r hr hE hd fuel ω cols).mpr ?_, a.1⟩
    rw [hsam]
    exact a

end Example

end PNDL
