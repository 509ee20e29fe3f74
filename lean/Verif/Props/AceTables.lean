import Verif.Props.AceLaws

/-! C93, C94: laws with tables per incident energy. -/
namespace PNDL
open Spec

theorem Spec.Holds.incident {xss : List ℝ} {i : Nat} {regions : List (Nat × Interpolation)} {es rest : List ℝ}
    (h : Holds xss i (incident regions es ++ rest)) :
    natAt xss i = .ok regions.length ∧ natAt xss (i + 1 + 2 * regions.length) = .ok es.length ∧
    xssSlice xss (i + 2 + 2 * regions.length) es.length = .ok es ∧ Holds xss (i + 2 + 2 * regions.length + es.length) rest := by
  unfold Spec.incident at h
  have h0 := h.left
  have h1 := h0.left.nat
  have h4 := h0.right.right.right.left.nat
  have h5 := h0.right.right.right.right.slice
  have h6 := h.right
  simp only [List.length_cons, List.length_nil, Nat.zero_add, List.length_map, List.length_append] at h4 h5 h6
  refine ⟨h1, ?_, ?_, ?_⟩
  · rw [← h4]; congr 1; omega
  · rw [← h5]; congr 1; omega
  · rw [show i + 2 + 2 * regions.length + es.length = i + (1 + (regions.length + (regions.length + (1 + es.length)))) by omega]
    exact h6

theorem mapM_length {α β : Type} (f : α → Res β) : ∀ (l : List α) (r : List β), l.mapM f = .ok r → r.length = l.length := by
  intro l
  induction l with
  | nil => intro r e; cases e; rfl
  | cons a as ih =>
    intro r e
    rw [List.mapM_cons] at e
    obtain ⟨x, _, e⟩ := bind_ok e
    obtain ⟨xs, hxs, e⟩ := bind_ok e
    cases e
    simp [ih xs hxs]

theorem tables_read {R T : Type} (At : Nat → R → Prop) (mk : Nat → Res T) (build : R → Res T)
    (hmk : ∀ j r, At j r → mk j = build r) (xss : List ℝ) (base : Nat) : ∀ (locs : List Nat) (tables : List R) (k : Nat),
    List.Forall₂ (fun l r => 1 ≤ l ∧ At (base + (l - 1)) r) locs tables → Holds xss k (locs.map (fun (l : Nat) => (l : ℝ))) →
    tablesAce mk xss base tables.length k = tables.mapM build := by
  intro locs tables k h
  induction h generalizing k with
  | nil => intro _; rfl
  | @cons l r locs tables h0 _ ih =>
    intro hh
    have hh' : Holds xss k ([(l : ℝ)] ++ locs.map (fun (l : Nat) => (l : ℝ))) := hh
    have g1 := hh'.left.nat
    have g2 := hh'.right
    rw [List.length_singleton] at g2
    rw [List.length_cons, tablesAce, g1, List.mapM_cons]
    simp only [bind, Except.bind]
    rw [subIdx_of_le (by omega), show base + l - 1 = base + (l - 1) by omega]
    simp only [hmk _ r h0.2]
    cases build r with
    | error e => rfl
    | ok a => simp only [ih (k + 1) g2]

/-! ### C93 -/

theorem binSets_read (xss : List ℝ) (net k : Nat) : ∀ (sets : List (List ℝ)) (j : Nat), (∀ b ∈ sets, b.length = net) →
    Holds xss (k + j * net) sets.flatten → binSetsAce xss net k sets.length j = .ok sets := by
  intro sets
  induction sets with
  | nil => intro j _ _; rfl
  | cons b bs ih =>
    intro j hl hh
    rw [List.flatten_cons] at hh
    have hb := hl b (by simp)
    have g1 := hh.left.slice
    have g2 := hh.right
    rw [hb] at g1 g2
    rw [List.length_cons, binSetsAce, g1]
    simp only [bind, Except.bind]
    rw [ih (j + 1) (fun c hc => hl c (by simp [hc])) (by rw [Nat.succ_mul, ← Nat.add_assoc]; exact g2)]
    rfl

/-- **C93** Equiprobable bins: the object of the public constructor on the file's energies and bin bounds. -/
theorem C93_bins (xss : List ℝ) (i : Nat) (regions : List (Nat × Interpolation)) (energies : List ℝ) (net : Nat) (sets : List (List ℝ))
    (h : BinSetsAt xss i regions energies net sets) : EnergyBins.makeAce xss i = EnergyBins.make energies sets := by
  obtain ⟨hh, hl, hn⟩ := h
  obtain ⟨g1, g2, g3, g4⟩ := hh.incident
  have g5 := g4.left.nat
  have g6 := g4.right
  rw [List.length_singleton] at g6
  unfold EnergyBins.makeAce EnergyBins.make
  rw [g1]
  simp only [bind, Except.bind]
  rw [g2]
  simp only []
  rw [g3]
  simp only []
  by_cases hs : isSorted energies = false
  · rw [if_pos hs, if_pos hs]
  · rw [if_neg hs, if_neg hs, g5, if_neg (by simpa using hl)]
    simp only []
    rw [hl, binSets_read xss net _ sets 0 hn (by
      rw [Nat.zero_mul, Nat.add_zero, show i + 3 + 2 * regions.length + sets.length = i + 2 + 2 * regions.length + energies.length + 1 by omega]
      exact g6)]

/-- **C93** Tabulated outgoing energies, for incident energies in order: the object of the public constructor on the tables of the file. -/
theorem C93_tabular_partial (xss : List ℝ) (i jed : Nat) (regions : List (Nat × Interpolation)) (energies : List ℝ) (tables : List DensityRec)
    (h : TablesAt (DensityAt xss) xss jed i regions energies tables) (hs : energies.Pairwise (· ≤ ·)) :
    TabEnergy.makeAce xss i jed = (do
      let ts ← tables.mapM DensityRec.build
      TabEnergy.make energies ts) := by
  obtain ⟨locs, hh, hl, hf⟩ := h
  obtain ⟨g1, g2, g3, g4⟩ := hh.incident
  have hm := tables_read (DensityAt xss) (fun loc => PCTable.makeAce xss loc 1) DensityRec.build
    (fun j r hr => density_read xss j r hr.1 hr.2) xss jed locs tables _ hf g4
  unfold TabEnergy.makeAce
  rw [g1]
  simp only [bind, Except.bind]
  rw [g2]
  simp only []
  rw [g3]
  simp only []
  rw [← hl] at hm
  rw [hm]
  cases hb : tables.mapM DensityRec.build with
  | error e => rfl
  | ok ts =>
    simp only [pure, Except.pure]
    unfold TabEnergy.make
    rw [if_neg (by rw [isSorted_iff.mpr hs]; simp), if_neg (by rw [mapM_length _ _ _ hb, hl]; simp)]

/-- **C93** violation: incident energies out of order, which the public constructor refuses whatever the tables, are accepted from a file as
long as each table is acceptable. -/
theorem C93_violation_unsorted (xss : List ℝ) (i jed : Nat) (regions : List (Nat × Interpolation)) (energies : List ℝ)
    (tables : List DensityRec) (ts : List PCTable) (h : TablesAt (DensityAt xss) xss jed i regions energies tables)
    (hs : ¬ energies.Pairwise (· ≤ ·)) (hb : tables.mapM DensityRec.build = .ok ts) :
    TabEnergy.makeAce xss i jed = .ok ⟨energies, ts⟩ ∧ TabEnergy.make energies ts = .error .exc := by
  obtain ⟨locs, hh, hl, hf⟩ := h
  obtain ⟨g1, g2, g3, g4⟩ := hh.incident
  have hm := tables_read (DensityAt xss) (fun loc => PCTable.makeAce xss loc 1) DensityRec.build
    (fun j r hr => density_read xss j r hr.1 hr.2) xss jed locs tables _ hf g4
  constructor
  · unfold TabEnergy.makeAce
    rw [g1]
    simp only [bind, Except.bind]
    rw [g2]
    simp only []
    rw [g3]
    simp only []
    rw [← hl] at hm
    rw [hm, hb]
    rfl
  · unfold TabEnergy.make
    rw [if_pos (by rw [← Bool.not_eq_true, isSorted_iff]; exact hs)]

/-- **C93** N-body: the number of bodies and the total mass of the file, the file's weight ratio and the reaction's Q. -/
theorem C93_nbody (xss : List ℝ) (awr q : ℝ) (i n : Nat) (ap : ℝ) (h : Holds xss i ([(n : ℝ)] ++ [ap])) :
    NBody.makeAce xss awr i q = NBody.make n ap awr q := by
  have h2 := h.right
  rw [List.length_singleton] at h2
  unfold NBody.makeAce
  rw [h.left.nat]
  simp only [bind, Except.bind]
  rw [h2.get]

/-- **C93** Discrete photon: the indicator and energy of the file and its weight ratio. -/
theorem C93_photon (xss : List ℝ) (awr : ℝ) (i : Nat) (lp : Int) (eg : ℝ) (h : Holds xss i ([(lp : ℝ)] ++ [eg])) :
    Photon.makeAce xss awr i = Photon.make lp eg awr := by
  have h2 := h.right
  rw [List.length_singleton] at h2
  unfold Photon.makeAce
  rw [h.left.int]
  simp only [bind, Except.bind]
  rw [h2.get]

/-! ### C94 -/

/-- The object the public constructor makes of a Kalbach-Mann table. -/
noncomputable def Spec.KalbachRec.build (t : KalbachRec) : Res KalbachTable := KalbachTable.make t.x t.pdf t.cdf t.r t.a t.law

theorem kalbach_read (xss : List ℝ) (j : Nat) (t : KalbachRec) (h : KalbachAt xss j t) : KalbachTable.makeAce xss j = t.build := by
  obtain ⟨⟨hp, hc, hn⟩, hr, ha, hh⟩ := h
  have h' := hh.left
  unfold DensityRec.encode at h'
  have h1 := h'.left.get
  have h2 := h'.right.left.get
  have h3 := h'.right.right.left.slice
  have h4 := h'.right.right.right.left.slice
  have h5 := h'.right.right.right.right.slice
  have h6 := hh.right.left.slice
  have h7 := hh.right.right.slice
  simp only [DensityRec.encode, List.length_cons, List.length_nil, Nat.zero_add, List.length_append, hp, hc, hr, ha] at h2 h3 h4 h5 h6 h7
  rw [Nat.add_assoc j 1 1] at h3 h4 h5
  unfold KalbachTable.makeAce KalbachRec.build KalbachTable.make
  rw [h1]
  simp only [bind, Except.bind, interpOfCode_lawCode]
  by_cases hl : t.law ≠ .histogram ∧ t.law ≠ .linLin
  · rw [if_pos hl, if_pos hl]
  · rw [if_neg hl, if_neg hl, h2]
    simp only [Int.floor_natCast, Int.toNat_natCast]
    rw [h3]
    simp only []
    rw [h4]
    simp only []
    rw [h5]
    simp only []
    rw [show j + 2 + t.x.length + t.x.length + t.x.length = j + (1 + (1 + (t.x.length + (t.x.length + t.x.length)))) by omega, h6]
    simp only []
    rw [h7, if_neg (by rw [hp, hc, hr, ha]; simp)]

/-- **C94** Kalbach-Mann systematics: the object of the public constructors on the tables of the file. -/
theorem C94_kalbach (xss : List ℝ) (dlw i : Nat) (regions : List (Nat × Interpolation)) (energies : List ℝ) (tables : List KalbachRec)
    (h : TablesAt (KalbachAt xss) xss dlw i regions energies tables) (hs : energies.Pairwise (· ≤ ·)) :
    Kalbach.makeAce xss dlw i = (do
      let ts ← tables.mapM KalbachRec.build
      Kalbach.make energies ts) := by
  obtain ⟨locs, hh, hl, hf⟩ := h
  obtain ⟨g1, g2, g3, g4⟩ := hh.incident
  have hm := tables_read (KalbachAt xss) (fun loc => KalbachTable.makeAce xss loc) KalbachRec.build
    (fun j r hr => kalbach_read xss j r hr) xss dlw locs tables _ hf g4
  unfold Kalbach.makeAce
  rw [g1]
  simp only [bind, Except.bind]
  rw [g2]
  simp only []
  rw [g3]
  simp only []
  rw [← hl] at hm
  rw [if_neg (by rw [isSorted_iff.mpr hs]; simp), hm]
  cases hb : tables.mapM KalbachRec.build with
  | error e => rfl
  | ok ts =>
    simp only [pure, Except.pure]
    unfold Kalbach.make
    rw [if_neg (by rw [isSorted_iff.mpr hs]; simp), if_neg (by rw [mapM_length _ _ _ hb, hl]; simp)]

/-- **C94** Incident energies out of order are refused, for both correlated laws. -/
theorem C94_unsorted (xss : List ℝ) (dlw i jed : Nat) (regions : List (Nat × Interpolation)) (energies : List ℝ) (rest : List ℝ)
    (h : Holds xss i (incident regions energies ++ rest)) (hs : ¬ energies.Pairwise (· ≤ ·)) :
    Kalbach.makeAce xss dlw i = .error .exc ∧ TabEnergyAngle.makeAce xss dlw i jed = .error .exc := by
  obtain ⟨g1, g2, g3, g4⟩ := h.incident
  have hs' : isSorted energies = false := by rw [← Bool.not_eq_true, isSorted_iff]; exact hs
  constructor
  · unfold Kalbach.makeAce
    rw [g1]
    simp only [bind, Except.bind]
    rw [g2]
    simp only []
    rw [g3]
    simp only [hs', if_true]
  · unfold TabEnergyAngle.makeAce
    rw [g1]
    simp only [bind, Except.bind]
    rw [g2]
    simp only []
    rw [g3]
    simp only [hs', if_true]

/-- The object the public constructors make of a correlated table without isotropic entries. -/
noncomputable def Spec.CorrelatedRec.build (t : CorrelatedRec) (angles : List DensityRec) : Res EATable := do
  let a ← angles.mapM DensityRec.build
  EATable.make t.x t.pdf t.cdf a t.law

theorem angleTables_read (xss : List ℝ) (jed : Nat) : ∀ (locs : List Nat) (angles : List DensityRec),
    List.Forall₂ (AngleTableAt xss jed) locs (angles.map some) →
    (locs.map (fun (l : Nat) => (l : ℝ))).mapM (fun loc => do
        let l ← subIdx (jed + (if 0 ≤ loc then ⌊loc⌋.toNat else ⌊-loc⌋.toNat)) 1
        PCTable.makeAce xss l 1) = angles.mapM DensityRec.build := by
  intro locs angles
  induction angles generalizing locs with
  | nil => intro h; cases h; rfl
  | cons r rs ih =>
    intro h
    rw [List.map_cons] at h
    cases h with
    | @cons l _ ls _ h0 h1 =>
      obtain ⟨hl, hs, hh⟩ := h0
      rw [List.map_cons, List.mapM_cons, List.mapM_cons, ih ls h1]
      simp only [bind, Except.bind, if_pos (Nat.cast_nonneg (α := ℝ) l), Int.floor_natCast, Int.toNat_natCast]
      rw [subIdx_of_le (by omega), show jed + l - 1 = jed + (l - 1) by omega]
      simp only [density_read xss _ r hs hh]

theorem correlated_read_ok (xss : List ℝ) (jed j : Nat) (t : CorrelatedRec) (angles : List DensityRec) (ha : t.angles = angles.map some)
    (h : CorrelatedAt xss jed j t) (e : EATable) : EATable.makeAce xss j jed = .ok e ↔ t.build angles = .ok e := by
  obtain ⟨⟨hp, hc, hn⟩, hal, locs, hh, hf⟩ := h
  have h' := hh.left
  unfold DensityRec.encode at h'
  have h1 := h'.left.get
  have h2 := h'.right.left.get
  have h3 := h'.right.right.left.slice
  have h4 := h'.right.right.right.left.slice
  have h5 := h'.right.right.right.right.slice
  have h6 := hh.right.slice
  have hll : locs.length = t.x.length := by rw [hf.length_eq, hal]
  simp only [DensityRec.encode, List.length_cons, List.length_nil, Nat.zero_add, List.length_append, List.length_map, hll, hp, hc] at h2 h3 h4 h5 h6
  rw [Nat.add_assoc j 1 1] at h3 h4 h5
  rw [ha] at hf
  have hA := angleTables_read xss jed locs angles hf
  unfold EATable.makeAce CorrelatedRec.build EATable.make
  rw [h1]
  simp only [bind, Except.bind, interpOfCode_lawCode]
  by_cases hl : t.law ≠ .histogram ∧ t.law ≠ .linLin
  · rw [if_pos hl]
    simp only [if_pos hl]
    cases angles.mapM DensityRec.build <;> simp
  · rw [if_neg hl]
    simp only [if_neg hl]
    rw [h2]
    simp only [Int.floor_natCast, Int.toNat_natCast]
    rw [h3]
    simp only []
    rw [h4]
    simp only []
    rw [h5]
    simp only []
    rw [show j + 2 + t.x.length + t.x.length + t.x.length = j + (1 + (1 + (t.x.length + (t.x.length + t.x.length)))) by omega, h6]
    simp only [bind, Except.bind] at hA
    simp only [hA]
    cases checkJoint t.x t.pdf t.cdf with
    | error e' =>
      simp only []
      cases angles.mapM DensityRec.build <;> simp
    | ok c => rfl

/-- **C94** Correlated tables none of whose angular tables is given as isotropic: a file is accepted exactly when the public constructors
accept its numbers, and then the object is the same. -/
theorem C94_correlated_partial (xss : List ℝ) (dlw i jed : Nat) (regions : List (Nat × Interpolation)) (energies : List ℝ)
    (tables : List (CorrelatedRec × List DensityRec)) (hA : ∀ t ∈ tables, t.1.angles = t.2.map some)
    (h : TablesAt (CorrelatedAt xss jed) xss dlw i regions energies (tables.map Prod.fst)) (d : TabEnergyAngle) :
    TabEnergyAngle.makeAce xss dlw i jed = .ok d ↔ (do
      let ts ← tables.mapM (fun t : CorrelatedRec × List DensityRec => t.1.build t.2)
      TabEnergyAngle.make energies ts) = .ok d := by
  obtain ⟨locs, hh, hl, hf⟩ := h
  obtain ⟨g1, g2, g3, g4⟩ := hh.incident
  rw [List.length_map] at hl
  have hm : ∀ (tables : List (CorrelatedRec × List DensityRec)) (locs : List Nat) (k : Nat), (∀ t ∈ tables, t.1.angles = t.2.map some) →
      List.Forall₂ (fun l r => 1 ≤ l ∧ CorrelatedAt xss jed (dlw + (l - 1)) r) locs (tables.map Prod.fst) →
      Holds xss k (locs.map (fun (l : Nat) => (l : ℝ))) → ∀ ts,
      (tablesAce (fun loc => EATable.makeAce xss loc jed) xss dlw tables.length k = .ok ts ↔
        tables.mapM (fun t : CorrelatedRec × List DensityRec => t.1.build t.2) = .ok ts) := by
    intro tables
    induction tables with
    | nil => intro locs k _ _ _ ts; rfl
    | cons t tables ih =>
      intro locs k hA hf hh ts
      rw [List.map_cons] at hf
      cases hf with
      | @cons l _ ls _ h0 h1 =>
        have hh' : Holds xss k ([(l : ℝ)] ++ ls.map (fun (l : Nat) => (l : ℝ))) := hh
        have q1 := hh'.left.nat
        have q2 := hh'.right
        rw [List.length_singleton] at q2
        have hone := correlated_read_ok xss jed (dlw + (l - 1)) t.1 t.2 (hA t (by simp)) h0.2
        have hrest := ih ls (k + 1) (fun t ht => hA t (by simp [ht])) h1 q2
        rw [List.length_cons, tablesAce, q1, List.mapM_cons]
        simp only [bind, Except.bind]
        rw [subIdx_of_le (by omega), show dlw + l - 1 = dlw + (l - 1) by omega]
        simp only []
        constructor
        · intro e
          cases ho : EATable.makeAce xss (dlw + (l - 1)) jed with
          | error x => rw [ho] at e; cases e
          | ok x =>
            rw [ho] at e
            simp only [] at e
            rw [(hone x).mp ho]
            simp only []
            cases hr : tablesAce (fun loc => EATable.makeAce xss loc jed) xss dlw tables.length (k + 1) with
            | error y => rw [hr] at e; cases e
            | ok y => rw [hr] at e; rw [(hrest y).mp hr]; exact e
        · intro e
          cases ho : t.1.build t.2 with
          | error x => rw [ho] at e; cases e
          | ok x =>
            rw [ho] at e
            simp only [] at e
            rw [(hone x).mpr ho]
            simp only []
            cases hr : tables.mapM (fun t : CorrelatedRec × List DensityRec => t.1.build t.2) with
            | error y => rw [hr] at e; cases e
            | ok y => rw [hr] at e; rw [(hrest y).mpr hr]; exact e
  have hm' := hm tables locs _ hA hf g4
  unfold TabEnergyAngle.makeAce
  rw [g1]
  simp only [bind, Except.bind]
  rw [g2]
  simp only []
  rw [g3]
  simp only []
  rw [hl]
  by_cases hs : isSorted energies = false
  · rw [if_pos hs]
    unfold TabEnergyAngle.make
    simp only [if_pos hs]
    cases tables.mapM (fun t : CorrelatedRec × List DensityRec => t.1.build t.2) <;> simp
  · rw [if_neg hs]
    unfold TabEnergyAngle.make
    simp only [if_neg hs]
    rw [hl] at hm'
    cases ha : tables.mapM (fun t : CorrelatedRec × List DensityRec => t.1.build t.2) with
    | error x =>
      cases hb : tablesAce (fun loc => EATable.makeAce xss loc jed) xss dlw tables.length (i + 2 + 2 * regions.length + tables.length) with
      | error y => simp
      | ok y => rw [(hm' y).mp hb] at ha; cases ha
    | ok x =>
      rw [(hm' x).mpr ha]
      simp only [pure, Except.pure]
      rw [if_neg (by rw [mapM_length _ _ _ ha, hl]; simp)]

theorem mapM_ok_mem {α β : Type} (f : α → Res β) : ∀ (l : List α) (r : List β), l.mapM f = .ok r → ∀ a ∈ l, ∃ b, f a = .ok b := by
  intro l
  induction l with
  | nil => intro r e a ha; cases ha
  | cons x xs ih =>
    intro r e a ha
    rw [List.mapM_cons] at e
    obtain ⟨y, hy, e⟩ := bind_ok e
    obtain ⟨ys, hys, e⟩ := bind_ok e
    rcases List.mem_cons.mp ha with rfl | ha
    · exact ⟨y, hy⟩
    · exact ih ys hys a ha

/-- **C94** violation: an angular table given as isotropic (locator 0, as the format provides) is not recognised; the reader takes the number
just before the block for the head of a table, and refuses the file unless that number happens to be 1 or 2. -/
theorem C94_violation_isotropic (xss : List ℝ) (jed j : Nat) (t : CorrelatedRec) (h : CorrelatedAt xss jed j t) (hiso : none ∈ t.angles)
    (v : ℝ) (hv : getAt xss (jed - 1) = .ok v) (h1 : ⌊v⌋ ≠ 1) (h2 : ⌊v⌋ ≠ 2) (e : EATable) : EATable.makeAce xss j jed ≠ .ok e := by
  obtain ⟨⟨hp, hc, hn⟩, hal, locs, hh, hf⟩ := h
  have h' := hh.left
  unfold DensityRec.encode at h'
  have g2 := h'.right.left.get
  have h6 := hh.right.slice
  have hll : locs.length = t.x.length := by rw [hf.length_eq, hal]
  simp only [DensityRec.encode, List.length_cons, List.length_nil, Nat.zero_add, List.length_append, List.length_map, hll, hp, hc] at g2 h6
  have h0 : 0 ∈ locs := by
    clear h6 g2 h' hh hll hal
    generalize t.angles = as at hf hiso
    induction hf with
    | nil => cases hiso
    | @cons l r ls rs hlr _ ih =>
      rcases List.mem_cons.mp hiso with rfl | hm
      · have : l = 0 := hlr
        simp [this]
      · exact List.mem_cons_of_mem _ (ih hm)
  have hbad : ∀ b, PCTable.makeAce xss (jed - 1) 1 ≠ .ok b := by
    intro b hb
    unfold PCTable.makeAce at hb
    rw [hv] at hb
    simp only [bind, Except.bind] at hb
    split at hb
    · rename_i r hr
      have hr' : r ≠ .histogram ∧ r ≠ .linLin := by
        unfold interpOfCode at hr
        split at hr <;> simp_all <;> subst hr <;> simp
      rw [if_pos hr'] at hb
      cases hb
    · cases hb
  intro he
  unfold EATable.makeAce at he
  obtain ⟨code, _, he⟩ := bind_ok he
  split at he
  · split_ifs at he
    obtain ⟨np, hnp, he⟩ := bind_ok he
    rw [g2] at hnp
    cases hnp
    simp only [Int.floor_natCast, Int.toNat_natCast] at he
    obtain ⟨es, _, he⟩ := bind_ok he
    obtain ⟨ps, _, he⟩ := bind_ok he
    obtain ⟨cs, _, he⟩ := bind_ok he
    obtain ⟨cs', _, he⟩ := bind_ok he
    obtain ⟨ls, hls, he⟩ := bind_ok he
    rw [show j + 2 + t.x.length + t.x.length + t.x.length = j + (1 + (1 + (t.x.length + (t.x.length + t.x.length)))) by omega, h6] at hls
    cases hls
    obtain ⟨as, has, _⟩ := bind_ok he
    obtain ⟨b, hb⟩ := mapM_ok_mem _ _ _ has 0 (by simpa using h0)
    obtain ⟨l, hl, hb⟩ := bind_ok hb
    have : l = jed - 1 := by
      simp only [le_refl, if_true, Int.floor_zero, Int.toNat_zero, Nat.add_zero] at hl
      unfold subIdx at hl
      split_ifs at hl
      cases hl
      rfl
    subst this
    exact hbad b hb
  · cases he

/-- Two bin sets at two energies. -/
example : BinSetsAt [0, 2, 1, 5, 3, 0, 1, 2, 1, 2, 3] 0 [] [1, 5] 3 [[0, 1, 2], [1, 2, 3]] :=
  ⟨⟨[], [], by norm_num [incident], rfl⟩, rfl, by simp⟩

/-- One table at one energy; regions are skipped. -/
example : TablesAt (DensityAt [1, 1, 2, 1, 5, 7, 2, 2, 0, 1, 1, 1, 0, 1]) [1, 1, 2, 1, 5, 7, 2, 2, 0, 1, 1, 1, 0, 1] 0 0 [(1, .linLin)] [5]
    [⟨.linLin, [0, 1], [1, 1], [0, 1]⟩] := by
  refine ⟨[7], ⟨[], [2, 2, 0, 1, 1, 1, 0, 1], by norm_num [incident, lawCode], rfl⟩, rfl, .cons ⟨by norm_num, ⟨rfl, rfl, by simp⟩,
    ⟨[1, 1, 2, 1, 5, 7], [], by norm_num [DensityRec.encode, lawCode], rfl⟩⟩ .nil⟩

/-- A Kalbach-Mann table. -/
example : KalbachAt [2, 2, 0, 1, 1, 1, 0, 1, 0, 1/2, 1, 2] 0 ⟨⟨.linLin, [0, 1], [1, 1], [0, 1]⟩, [0, 1/2], [1, 2]⟩ :=
  ⟨⟨rfl, rfl, by simp⟩, rfl, rfl, ⟨[], [], by norm_num [DensityRec.encode, lawCode], rfl⟩⟩

/-- A correlated table with an isotropic entry, after a block ending in 0: refused. -/
example : CorrelatedAt [0, 2, 2, 0, 1, 1, 1, 0, 1, 0, 0] 1 1 ⟨⟨.linLin, [0, 1], [1, 1], [0, 1]⟩, [none, none]⟩ ∧
    ∀ e, EATable.makeAce [0, 2, 2, 0, 1, 1, 1, 0, 1, 0, 0] 1 1 ≠ .ok e := by
  have h : CorrelatedAt [0, 2, 2, 0, 1, 1, 1, 0, 1, 0, 0] 1 1 ⟨⟨.linLin, [0, 1], [1, 1], [0, 1]⟩, [none, none]⟩ :=
    ⟨⟨rfl, rfl, by simp⟩, rfl, [0, 0], ⟨[0], [], by norm_num [DensityRec.encode, lawCode], rfl⟩, .cons rfl (.cons rfl .nil)⟩
  exact ⟨h, fun e => C94_violation_isotropic _ 1 1 _ h (by simp) 0 rfl (by norm_num) (by norm_num) e⟩

end PNDL
