import Verif.Props.Thermal
import Verif.Props.UnitBase

/-! C86: incoherent inelastic scattering with continuous outgoing energies. -/
namespace PNDL
open Spec

/-- One table as the file constructor leaves it. -/
structure Spec.ValidCEDC (nmu : Nat) (t : CEDCTable) : Prop where
  ne : t.energy ≠ []
  lenP : t.pdf.length = t.energy.length
  lenC : t.cdf.length = t.energy.length
  lenM : t.cosines.length = t.energy.length
  sortedE : t.energy.Pairwise (· ≤ ·)
  nonneg : ∀ e ∈ t.energy, 0 ≤ e
  sortedC : t.cdf.Pairwise (· ≤ ·)
  pdf_nonneg : ∀ p ∈ t.pdf, 0 ≤ p
  cosines : ∀ u ∈ t.cosines, Cosines nmu u

theorem isoCosine_eq (dmu : ℝ) (i : Nat) : isoCosine dmu i = -1 + ((i : ℝ) + 1 / 2) * dmu := by
  induction i with
  | zero => simp [isoCosine]
  | succ i ih => rw [isoCosine, ih]; push_cast; ring

/-- The isotropic cosines are the midpoints of `n` equal parts of `[-1, 1]`. -/
theorem isoCosine_cosines {n : Nat} (hn : 0 < n) : Cosines n ((List.range n).map (isoCosine (2 / (n : ℝ)))) := by
  have hp : (0 : ℝ) < n := by exact_mod_cast hn
  have hd : (0 : ℝ) < 2 / n := by positivity
  have hnn : (n : ℝ) * (2 / n) = 2 := by field_simp
  refine ⟨by simp, ?_, ?_⟩
  · rw [List.pairwise_map]
    refine List.pairwise_le_range.imp ?_
    intro a b hab
    rw [isoCosine_eq, isoCosine_eq]
    have : (a : ℝ) ≤ b := by exact_mod_cast hab
    nlinarith
  · intro m hm
    obtain ⟨i, hi, rfl⟩ := List.mem_map.mp hm
    have hi : i + 1 ≤ n := List.mem_range.mp hi
    have hi' : (i : ℝ) + 1 ≤ n := by exact_mod_cast hi
    have h0 : (0 : ℝ) ≤ i := Nat.cast_nonneg i
    rw [isoCosine_eq]
    constructor <;> nlinarith

theorem sortIfNeeded_sorted (l : List ℝ) : (sortIfNeeded l).Pairwise (· ≤ ·) := by
  unfold sortIfNeeded
  split
  · rename_i h; exact isSorted_iff.mp h
  · exact List.pairwise_insertionSort _ _

theorem sortIfNeeded_perm (l : List ℝ) : (sortIfNeeded l).Perm l := by
  unfold sortIfNeeded
  split
  · exact List.Perm.refl _
  · exact List.perm_insertionSort _ _

theorem readEntry_ok {xss : List ℝ} {nmu l : Nat} {e : CEDCEntry} (h : readEntry xss nmu l = .ok e) :
    Cosines nmu e.mus ∧ 0 < nmu ∧ xss[l]? = some e.e ∧ xss[l + 2]? = some e.c ∧
    (∃ p, xss[l + 1]? = some p ∧ (0 ≤ p → e.p = p)) ∧ e.mus.Perm ((xss.drop (l + 3)).take nmu) := by
  unfold readEntry at h
  obtain ⟨x, hx, h⟩ := bind_ok h
  obtain ⟨p, hp, h⟩ := bind_ok h
  obtain ⟨c, hc, h⟩ := bind_ok h
  obtain ⟨mus, hm, h⟩ := bind_ok h
  obtain ⟨a, ha, h⟩ := bind_ok h
  split at h
  · cases h
  rename_i h0
  obtain ⟨b, hb, h⟩ := bind_ok h
  split at h
  · cases h
  rename_i h1
  cases h
  have hs := sortIfNeeded_sorted mus
  have hpm := sortIfNeeded_perm mus
  have hf := front_eq_ok.mp ha
  have hlast : (sortIfNeeded mus)[(sortIfNeeded mus).length - 1]? = some b := by
    rw [← List.getLast?_eq_getElem?]; exact back_eq_ok.mp hb
  have hlen : (sortIfNeeded mus).length = nmu := hpm.length_eq.trans (slice_length hm)
  refine ⟨⟨hlen, hs, ?_⟩, ?_, getAt_eq_ok.mp hx, getAt_eq_ok.mp hc, ⟨p, getAt_eq_ok.mp hp, ?_⟩, ?_⟩
  · intro m hmm
    obtain ⟨j, hj⟩ := List.mem_iff_getElem?.mp hmm
    have q1 := pairwise_le_getElem? hs (Nat.zero_le _) hf hj
    have q2 := pairwise_le_getElem? hs (by have := lt_length_of_some hj; simp only at this; omega) hj hlast
    exact ⟨by linarith, by linarith⟩
  · have := lt_length_of_some hf; omega
  · intro hp0
    exact if_neg (fun hx => absurd hx.1 (not_lt.mpr hp0))
  · unfold xssSlice at hm
    split at hm
    · cases hm; exact hpm
    · cases hm

theorem readEntries_ok {xss : List ℝ} {nmu : Nat} : ∀ {n l : Nat} {es : List CEDCEntry}, readEntries xss nmu n l = .ok es →
    es.length = n ∧ ∀ (k : Nat) (e : CEDCEntry), es[k]? = some e → readEntry xss nmu (l + k * (3 + nmu)) = .ok e := by
  intro n
  induction n with
  | zero =>
    intro l es h
    rw [readEntries] at h
    cases h
    exact ⟨rfl, by intro k x hk; simp at hk⟩
  | succ n ih =>
    intro l es h
    rw [readEntries] at h
    obtain ⟨d, hd, h⟩ := bind_ok h
    obtain ⟨ds, hds, h⟩ := bind_ok h
    cases h
    obtain ⟨q1, q2⟩ := ih hds
    refine ⟨by simp [q1], ?_⟩
    intro k x hk
    cases k with
    | zero => simp at hk; subst hk; simpa using hd
    | succ k =>
      have := q2 k x (by simpa using hk)
      rwa [show l + 3 + nmu + k * (3 + nmu) = l + (k + 1) * (3 + nmu) by rw [Nat.succ_mul]; omega] at this

/-- The contents of a table against the file: `noe` records of `3 + nmu` numbers from place `l`, shifted by one place when
the first cumulative of the file is positive. -/
structure Spec.FromFile (xss : List ℝ) (nmu noe l : Nat) (t : CEDCTable) (shift : Nat) : Prop where
  len : t.energy.length = noe + shift
  energy : ∀ k < noe, t.energy[k + shift]? = xss[l + k * (3 + nmu)]?
  cdf : ∀ k < noe, t.cdf[k + shift]? = xss[l + k * (3 + nmu) + 2]?
  pdf : ∀ k < noe, ∀ p, xss[l + k * (3 + nmu) + 1]? = some p → 0 ≤ p → t.pdf[k + shift]? = some p
  cosines : ∀ k < noe, ∃ u, t.cosines[k + shift]? = some u ∧ u.Perm ((xss.drop (l + k * (3 + nmu) + 3)).take nmu)

theorem CEDCTable.read_ok {xss : List ℝ} {nmu noe l : Nat} {t : CEDCTable} (h : CEDCTable.read xss nmu noe l = .ok t) :
    ValidCEDC nmu t ∧ 0 < nmu ∧
    ((∃ c, xss[l + 2]? = some c ∧ c ≤ 0 ∧ FromFile xss nmu noe l t 0) ∨
     (∃ c, xss[l + 2]? = some c ∧ 0 < c ∧ FromFile xss nmu noe l t 1 ∧ t.energy[0]? = some 0 ∧ t.pdf[0]? = some 0 ∧ t.cdf[0]? = some 0 ∧
        ∃ u, t.cosines[0]? = some u ∧ ∀ i < nmu, u[i]? = some (-1 + (2 * (i : ℝ) + 1) / nmu))) := by
  unfold CEDCTable.read at h
  obtain ⟨es, hes, h⟩ := bind_ok h
  dsimp only at h
  split at h
  · cases h
  rename_i hse
  obtain ⟨e0, he0, h⟩ := bind_ok h
  split at h
  · cases h
  rename_i h0
  split at h
  · cases h
  rename_i hsc
  split at h
  · cases h
  rename_i hpd
  cases h
  obtain ⟨hl, hr⟩ := readEntries_ok hes
  have hf := front_eq_ok.mp he0
  have hsE := isSorted_iff.mp (by simpa using hse)
  have hsC := isSorted_iff.mp (by simpa using hsc)
  push Not at hpd
  cases es with
  | nil => simp [addZero] at hf
  | cons x rest =>
    have hx := hr 0 x rfl
    simp only [Nat.zero_mul, Nat.add_zero] at hx
    obtain ⟨x1, x2, x3, x4, _, _⟩ := readEntry_ok hx
    have hmem : ∀ y ∈ x :: rest, Cosines nmu y.mus := by
      intro y hy
      obtain ⟨k, hk⟩ := List.mem_iff_getElem?.mp hy
      exact (readEntry_ok (hr k y hk)).1
    have hmem' : ∀ y ∈ addZero nmu (x :: rest), Cosines nmu y.mus := by
      intro y hy
      unfold addZero at hy
      dsimp only at hy
      split at hy
      · rcases List.mem_cons.mp hy with rfl | hy
        · exact isoCosine_cosines x2
        · exact hmem y hy
      · exact hmem y hy
    have hpos : ∀ y ∈ x :: rest, ∀ p, 0 ≤ p → y.p = p → (if y.p < 0 then 0 else y.p) = p := by
      intro y _ p hp hyp
      rw [hyp, if_neg (not_lt.mpr hp)]
    refine ⟨⟨?_, by simp, by simp, by simp, hsE, ?_, hsC, ?_, ?_⟩, x2, ?_⟩
    · intro hc
      simp only at hc
      rw [hc] at hf; simp at hf
    · intro e he
      obtain ⟨j, hj⟩ := List.mem_iff_getElem?.mp he
      have := pairwise_le_getElem? hsE (Nat.zero_le _) hf hj
      linarith
    · intro p hp
      obtain ⟨q, _, rfl⟩ := List.mem_map.mp hp
      split
      · exact le_rfl
      · rename_i hq; exact not_lt.mp hq
    · intro u hu
      obtain ⟨y, hy, rfl⟩ := List.mem_map.mp hu
      exact hmem' y hy
    · by_cases hc : x.c > 0
      · right
        refine ⟨x.c, x4, hc, ?_⟩
        have hz : addZero nmu (x :: rest) = ⟨0, 0, 0, (List.range nmu).map (isoCosine (2 / (nmu : ℝ)))⟩ :: x :: rest := by
          unfold addZero; dsimp only; rw [if_pos hc]
        rw [hz]
        refine ⟨⟨by simpa using hl, ?_, ?_, ?_, ?_⟩, rfl, by simp, rfl, _, rfl, ?_⟩
        · intro k hk
          obtain ⟨y, hy⟩ := getElem?_of_lt (l := x :: rest) (i := k) (by omega)
          obtain ⟨_, _, y3, _⟩ := readEntry_ok (hr k y hy)
          simp only [List.map_cons, List.getElem?_cons_succ]
          rw [← List.map_cons, List.getElem?_map, hy, y3]; rfl
        · intro k hk
          obtain ⟨y, hy⟩ := getElem?_of_lt (l := x :: rest) (i := k) (by omega)
          obtain ⟨_, _, _, y3, _⟩ := readEntry_ok (hr k y hy)
          simp only [List.map_cons, List.getElem?_cons_succ]
          rw [← List.map_cons, List.getElem?_map, hy, y3]; rfl
        · intro k hk p hp hp0
          obtain ⟨y, hy⟩ := getElem?_of_lt (l := x :: rest) (i := k) (by omega)
          obtain ⟨_, _, _, _, ⟨p', y3, y4⟩, _⟩ := readEntry_ok (hr k y hy)
          rw [y3] at hp; cases hp
          change (((x :: rest).map (·.p)).map (fun p => if p < 0 then 0 else p))[k]? = _
          rw [List.getElem?_map, List.getElem?_map, hy]
          exact congrArg some (hpos y (List.mem_of_getElem? hy) _ hp0 (y4 hp0))
        · intro k hk
          obtain ⟨y, hy⟩ := getElem?_of_lt (l := x :: rest) (i := k) (by omega)
          obtain ⟨_, _, _, _, _, y3⟩ := readEntry_ok (hr k y hy)
          refine ⟨y.mus, ?_, y3⟩
          simp only [List.map_cons, List.getElem?_cons_succ]
          rw [← List.map_cons, List.getElem?_map, hy]; rfl
        · intro i hi
          simp only [List.getElem?_map, List.getElem?_range hi, Option.map_some]
          rw [isoCosine_eq]
          congr 1; field_simp
      · left
        refine ⟨x.c, x4, not_lt.mp hc, ?_⟩
        have hz : addZero nmu (x :: rest) = x :: rest := by
          unfold addZero; dsimp only; rw [if_neg hc]
        rw [hz]
        refine ⟨by simpa using hl, ?_, ?_, ?_, ?_⟩
        · intro k hk
          obtain ⟨y, hy⟩ := getElem?_of_lt (l := x :: rest) (i := k) (by omega)
          obtain ⟨_, _, y3, _⟩ := readEntry_ok (hr k y hy)
          rw [Nat.add_zero, List.getElem?_map, hy, y3]; rfl
        · intro k hk
          obtain ⟨y, hy⟩ := getElem?_of_lt (l := x :: rest) (i := k) (by omega)
          obtain ⟨_, _, _, y3, _⟩ := readEntry_ok (hr k y hy)
          rw [Nat.add_zero, List.getElem?_map, hy, y3]; rfl
        · intro k hk p hp hp0
          obtain ⟨y, hy⟩ := getElem?_of_lt (l := x :: rest) (i := k) (by omega)
          obtain ⟨_, _, _, _, ⟨p', y3, y4⟩, _⟩ := readEntry_ok (hr k y hy)
          rw [y3] at hp; cases hp
          rw [Nat.add_zero, List.getElem?_map, List.getElem?_map, hy]
          exact congrArg some (hpos y (List.mem_of_getElem? hy) _ hp0 (y4 hp0))
        · intro k hk
          obtain ⟨y, hy⟩ := getElem?_of_lt (l := x :: rest) (i := k) (by omega)
          obtain ⟨_, _, _, _, _, y3⟩ := readEntry_ok (hr k y hy)
          refine ⟨y.mus, ?_, y3⟩
          rw [Nat.add_zero, List.getElem?_map, hy]; rfl

theorem readCEDCs_ok {xss : List ℝ} {nmu : Nat} : ∀ {ls : List (Nat × Nat)} {ts : List CEDCTable}, readCEDCs xss nmu ls = .ok ts →
    ts.length = ls.length ∧ ∀ (k loc noe : Nat) (t : CEDCTable), ts[k]? = some t → ls[k]? = some (loc, noe) →
      CEDCTable.read xss nmu noe loc = .ok t := by
  intro ls
  induction ls with
  | nil =>
    intro ts h
    rw [readCEDCs] at h
    cases h
    exact ⟨rfl, by intro k _ _ x hk; simp at hk⟩
  | cons p rest ih =>
    intro ts h
    obtain ⟨loc, noe⟩ := p
    rw [readCEDCs] at h
    obtain ⟨t, ht, h⟩ := bind_ok h
    obtain ⟨ts', hts, h⟩ := bind_ok h
    cases h
    obtain ⟨q1, q2⟩ := ih hts
    refine ⟨by simp [q1], ?_⟩
    intro k loc' noe' x hk hk'
    cases k with
    | zero => simp at hk hk'; obtain ⟨rfl, rfl⟩ := hk'; subst hk; exact ht
    | succ k => exact q2 k loc' noe' x (by simpa using hk) (by simpa using hk')

/-- The data of the law: sorted incoming energies with one well-formed table for each. -/
structure Spec.ValidCCE (d : ContinuousCE) : Prop where
  sorted : d.energy.Pairwise (· ≤ ·)
  len : d.tables.length = d.energy.length
  tables : ∀ t ∈ d.tables, ValidCEDC d.nmu t ∧ 0 < d.nmu

/-- C86: what the constructor accepts is well-formed: sorted non-negative energies, sorted cumulatives, non-negative densities, sorted
cosines in `[-1, 1]`.  Table `n` holds the records of the file at the place and of the number the file gives, cosines sorted; when the
file's cumulative starts above zero the table begins with an added point of energy, density and cumulative zero and isotropic
cosines. -/
theorem C86_read (a : TslAce) (u : Bool) (d : ContinuousCE) (h : ContinuousCE.makeAce a u = .ok d) : ValidCCE d ∧ d.unitBased = u ∧
    ∃ s i : Nat, a.jxs 0 = (s : Int) + 1 ∧ a.jxs 2 = (i : Int) + 1 ∧
      (∀ n < d.energy.length, d.energy[n]? = a.xss[s + 1 + n]?) ∧
      ∀ (n : Nat) (t : CEDCTable) (x y : ℝ), d.tables[n]? = some t → a.xss[i + n]? = some x → a.xss[i + d.energy.length + n]? = some y →
        (∃ c, a.xss[⌊x⌋.toNat + 2]? = some c ∧ c ≤ 0 ∧ FromFile a.xss d.nmu ⌊y⌋.toNat ⌊x⌋.toNat t 0) ∨
        (∃ c, a.xss[⌊x⌋.toNat + 2]? = some c ∧ 0 < c ∧ FromFile a.xss d.nmu ⌊y⌋.toNat ⌊x⌋.toNat t 1 ∧ t.energy[0]? = some 0 ∧
          t.pdf[0]? = some 0 ∧ t.cdf[0]? = some 0 ∧
          ∃ u, t.cosines[0]? = some u ∧ ∀ i < d.nmu, u[i]? = some (-1 + (2 * (i : ℝ) + 1) / d.nmu)) := by
  unfold ContinuousCE.makeAce at h
  split at h
  · cases h
  obtain ⟨s, hs, h⟩ := bind_ok h
  obtain ⟨ne, hne, h⟩ := bind_ok h
  obtain ⟨es, hes, h⟩ := bind_ok h
  split at h
  · cases h
  rename_i hsort
  dsimp only at h
  obtain ⟨i, hi, h⟩ := bind_ok h
  obtain ⟨locs, hlocs, h⟩ := bind_ok h
  obtain ⟨noes, hnoes, h⟩ := bind_ok h
  obtain ⟨ts, hts, h⟩ := bind_ok h
  cases h
  unfold natSlice at hlocs hnoes
  obtain ⟨l1, hl1, hlocs⟩ := bind_ok hlocs
  cases hlocs
  obtain ⟨l2, hl2, hnoes⟩ := bind_ok hnoes
  cases hnoes
  have e0 := slice_length hes
  have e1 := slice_length hl1
  have e2 := slice_length hl2
  obtain ⟨q1, q2⟩ := readCEDCs_ok hts
  have hlen : ts.length = es.length := by rw [q1, List.length_zip]; simp [e0, e1, e2]
  have key : ∀ (n : Nat) (x y : ℝ), n < ne → a.xss[i + n]? = some x → a.xss[i + ne + n]? = some y →
      ((l1.map (fun v => ⌊v⌋.toNat)).zip (l2.map (fun v => ⌊v⌋.toNat)))[n]? = some (⌊x⌋.toNat, ⌊y⌋.toNat) := by
    intro n x y hn hx hy
    have g1 := slice_get hl1 n hn
    have g2 := slice_get hl2 n hn
    rw [hx] at g1; rw [hy] at g2
    rw [List.getElem?_zip_eq_some, List.getElem?_map, List.getElem?_map, g1, g2]
    exact ⟨rfl, rfl⟩
  refine ⟨⟨isSorted_iff.mp (by simpa using hsort), hlen, ?_⟩, rfl, s, i, locator_ok hs, locator_ok hi, ?_, ?_⟩
  · intro t ht
    obtain ⟨n, hn⟩ := List.mem_iff_getElem?.mp ht
    simp only at hn
    have hnl : n < ne := by have := lt_length_of_some hn; omega
    obtain ⟨x, hx⟩ := getElem?_of_lt (l := l1) (i := n) (by omega)
    obtain ⟨y, hy⟩ := getElem?_of_lt (l := l2) (i := n) (by omega)
    rw [slice_get hl1 n hnl] at hx
    rw [slice_get hl2 n hnl] at hy
    obtain ⟨r1, r2, _⟩ := CEDCTable.read_ok (q2 n _ _ t hn (key n x y hnl hx hy))
    exact ⟨r1, r2⟩
  · intro n hn
    exact slice_get hes n (by simp only at hn; omega)
  · intro n t x y ht hx hy
    simp only at ht hy
    rw [e0] at hy
    have hnl : n < ne := by have := lt_length_of_some ht; omega
    exact (CEDCTable.read_ok (q2 n _ _ t ht (key n x y hnl hx hy))).2.2

/-- The energy part of a table as a tabulated distribution with linear densities. -/
noncomputable def Spec.energyPart (t : CEDCTable) : PCTable := ⟨t.energy, t.pdf, t.cdf, .linLin⟩

/-- A usable table: at least two energies, a cumulative from 0 to 1 whose first step is positive, and a density that covers it. -/
structure Spec.GoodCEDC (t : CEDCTable) : Prop where
  two : 2 ≤ t.energy.length
  covered : CoveredPC (energyPart t)
  last : t.cdf.getLast? = some 1
  step : ∀ c, t.cdf[1]? = some c → 0 < c

theorem cell_start {v0 v1 p0 p1 c0 : ℝ} (hv : v0 < v1) (h0 : 0 ≤ p0) (h1 : 0 ≤ p1) (hp : 0 < p0 + p1) :
    cellSample .linLin c0 v0 v1 p0 p1 c0 = .ok v0 := by
  unfold cellSample
  by_cases h : p0 = p1
  · rw [if_pos (Or.inr h), histInterp, rdiv_ok (by intro hz; rw [← h, hz] at hp; simp at hp)]
    simp [bind, Except.bind, pure, Except.pure]
  · have hd : v1 - v0 ≠ 0 := by intro hz; linarith
    have hm : (p1 - p0) / (v1 - v0) ≠ 0 := by
      rw [div_ne_zero_iff]; exact ⟨fun hz => h (by linarith), hd⟩
    rw [if_neg (by simp [h]), linInterp, rdiv_ok hd]
    simp only [bind, Except.bind]
    rw [rdiv_ok hm]
    simp only [sub_self, mul_zero, add_zero, pure, Except.pure]
    rw [max_eq_left (by positivity), Real.sqrt_mul_self h0]
    simp

/-- The interval of outgoing energies that a random number selects, and the energy in it. -/
theorem CEDCTable.sampleEnergy_ok {nmu : Nat} {t : CEDCTable} (hv : ValidCEDC nmu t) (hg : GoodCEDC t) {xi : ℝ} (h0 : 0 ≤ xi) (h1 : xi < 1) :
    ∃ (j : Nat) (e0 e1 p0 p1 c0 c1 Eh : ℝ), t.energy[j]? = some e0 ∧ t.energy[j + 1]? = some e1 ∧ t.pdf[j]? = some p0 ∧
      t.pdf[j + 1]? = some p1 ∧ t.cdf[j]? = some c0 ∧ t.cdf[j + 1]? = some c1 ∧ c0 ≤ xi ∧ xi ≤ c1 ∧ c0 < c1 ∧ e0 < e1 ∧ e0 ≤ Eh ∧ Eh ≤ e1 ∧
      t.sampleEnergy xi = .ok (Eh, j) ∧ cellInt .linLin e0 e1 p0 p1 Eh = xi - c0 := by
  have hlb := fun {i a} => lowerBound_iff (i := i) (a := a) hv.sortedC xi
  have hle := lowerBound_le hv.sortedC xi
  have hlast : t.cdf[t.cdf.length - 1]? = some 1 := by rw [← List.getLast?_eq_getElem?]; exact hg.last
  have hstart : t.cdf[0]? = some 0 := hg.covered.start
  have hlt : lowerBound t.cdf xi < t.cdf.length := by
    have := mt (hlb hlast).mpr (not_lt.mpr h1.le)
    have := lt_length_of_some hlast
    omega
  have hn := hg.two
  have hc := hv.lenC
  have hp := hv.lenP
  obtain ⟨j, hj⟩ : ∃ j, j = (if lowerBound t.cdf xi = 0 then 0 else lowerBound t.cdf xi - 1) := ⟨_, rfl⟩
  have hj1 : j + 1 < t.energy.length := by
    rw [hj]; split <;> omega
  obtain ⟨e0, he0⟩ := getElem?_of_lt (l := t.energy) (i := j) (by omega)
  obtain ⟨e1, he1⟩ := getElem?_of_lt (l := t.energy) (i := j + 1) (by omega)
  obtain ⟨p0, hp0⟩ := getElem?_of_lt (l := t.pdf) (i := j) (by omega)
  obtain ⟨p1, hp1⟩ := getElem?_of_lt (l := t.pdf) (i := j + 1) (by omega)
  obtain ⟨c0, hc0⟩ := getElem?_of_lt (l := t.cdf) (i := j) (by omega)
  obtain ⟨c1, hc1⟩ := getElem?_of_lt (l := t.cdf) (i := j + 1) (by omega)
  have he : e0 ≤ e1 := pairwise_le_getElem? hv.sortedE (by omega) he0 he1
  have q0 := hv.pdf_nonneg _ (List.mem_of_getElem? hp0)
  have q1 := hv.pdf_nonneg _ (List.mem_of_getElem? hp1)
  have harea : c1 - c0 ≤ cellArea .linLin e0 e1 p0 p1 := hg.covered.step j e0 e1 p0 p1 c0 c1 he0 he1 hp0 hp1 hc0 hc1
  have hidx : (if lowerBound t.cdf xi = 0 then .ok 0 else if lowerBound t.cdf xi = t.cdf.length then subIdx t.energy.length 2
      else subIdx (lowerBound t.cdf xi) 1 : Res Nat) = .ok j := by
    rw [hj]
    by_cases hz : lowerBound t.cdf xi = 0
    · rw [if_pos hz, if_pos hz]
    · rw [if_neg hz, if_neg (by omega), if_neg hz, subIdx_of_le (by omega)]
  have hcells : c0 ≤ xi ∧ xi ≤ c1 ∧ c0 < c1 ∧ (c0 = xi → xi = 0) := by
    by_cases hz : lowerBound t.cdf xi = 0
    · rw [if_pos hz] at hj; subst hj
      rw [hstart] at hc0; cases hc0
      have hx : xi ≤ 0 := not_lt.mp (mt (hlb hstart).mp (by omega))
      have := hg.step c1 hc1
      exact ⟨h0, by linarith, this, fun h => h.symm⟩
    · rw [if_neg hz] at hj
      have a := (hlb hc0).mpr (by omega)
      have b := not_lt.mp (mt (hlb hc1).mp (by omega))
      exact ⟨a.le, b, by linarith, fun h => absurd h a.ne⟩
  obtain ⟨z0, z1, z2, z3⟩ := hcells
  have hap : 0 < cellArea .linLin e0 e1 p0 p1 := by linarith
  have hee : e0 < e1 := by
    rcases he.lt_or_eq with h | h
    · exact h
    · rw [h] at hap; simp [cellArea] at hap
  have hE : ∃ Eh, cellSample .linLin xi e0 e1 p0 p1 c0 = .ok Eh ∧ e0 ≤ Eh ∧ Eh ≤ e1 ∧ cellInt .linLin e0 e1 p0 p1 Eh = xi - c0 := by
    rcases z0.lt_or_eq with h | h
    · exact cell_ok he q0 q1 h z1 harea
    · rw [← h]
      have hpp : 0 < p0 + p1 := by
        unfold cellArea at hap
        rw [if_neg (by simp)] at hap
        by_contra hc
        nlinarith
      refine ⟨e0, cell_start hee q0 q1 hpp, le_rfl, hee.le, ?_⟩
      simp [cellInt]
  obtain ⟨Eh, hEh, b1, b2, b3⟩ := hE
  refine ⟨j, e0, e1, p0, p1, c0, c1, Eh, he0, he1, hp0, hp1, hc0, hc1, z0, z1, z2, hee, b1, b2, ?_, b3⟩
  unfold CEDCTable.sampleEnergy
  dsimp only
  rw [hidx]
  simp only [bind, Except.bind, getAt_eq_ok.mpr he0, getAt_eq_ok.mpr he1, getAt_eq_ok.mpr hp0, getAt_eq_ok.mpr hp1, getAt_eq_ok.mpr hc0]
  unfold cellSample at hEh
  have : (if p0 = p1 then histInterp xi e0 p0 c0 else linInterp xi e0 e1 p0 p1 c0 : Res ℝ) = .ok Eh := by
    rw [← hEh]
    by_cases h : p0 = p1
    · rw [if_pos h, if_pos (Or.inr h)]
    · rw [if_neg h, if_neg (by simp [h])]
  rw [this]; rfl

theorem CEDCTable.sampleMu_ok {nmu : Nat} {t : CEDCTable} (hv : ValidCEDC nmu t) (hn : 0 < nmu) {j : Nat} {xi c0 c1 r1 r2 : ℝ}
    (hc0 : t.cdf[j]? = some c0) (hc1 : t.cdf[j + 1]? = some c1) (z0 : c0 ≤ xi) (z1 : xi ≤ c1) (z2 : c0 < c1) (a0 : 0 ≤ r1) (a1 : r1 < 1)
    (b0 : 0 ≤ r2) (b1 : r2 < 1) : ∃ mu u v, t.sampleMu nmu j xi r1 r2 = .ok mu ∧ -1 ≤ mu ∧ mu ≤ 1 ∧ t.cosines[j]? = some u ∧
      t.cosines[j + 1]? = some v ∧ smear u v ((xi - c0) / (c1 - c0)) nmu ⌊(nmu : ℝ) * r1⌋₊ r2 = .ok mu := by
  have hl := hv.lenM
  have hl' := hv.lenC
  have hjj := lt_length_of_some hc1
  obtain ⟨u, hu⟩ := getElem?_of_lt (l := t.cosines) (i := j) (by omega)
  obtain ⟨v, hv'⟩ := getElem?_of_lt (l := t.cosines) (i := j + 1) (by omega)
  have hd : 0 < c1 - c0 := by linarith
  obtain ⟨m, mu, _, hs, m0, m1, _⟩ := C66_smear u v ((xi - c0) / (c1 - c0)) r2 nmu ⌊(nmu : ℝ) * r1⌋₊
    (hv.cosines u (List.mem_of_getElem? hu)) (hv.cosines v (List.mem_of_getElem? hv')) (by apply div_nonneg <;> linarith)
    (by rw [div_le_one hd]; linarith) (floor_lt_of_unit hn a0 a1) b0 b1.le
  refine ⟨mu, u, v, ?_, m0, m1, hu, hv', hs⟩
  unfold CEDCTable.sampleMu
  simp only [bind, Except.bind, getAt_eq_ok.mpr hc0, getAt_eq_ok.mpr hc1, rdiv_ok hd.ne', getAt_eq_ok.mpr hu, getAt_eq_ok.mpr hv', hs,
    clampMu_of_mem m0 m1]
  rfl

/-- C86: the outgoing energy of a usable table is the inverse of its cumulative: the tabulated cumulative at the lower end of the
selected interval plus the integral of the (linear) density up to the sampled energy is the random number. -/
theorem C86_inverts_partial (nmu : Nat) (t : CEDCTable) (hv : ValidCEDC nmu t) (hg : GoodCEDC t) (xi : ℝ) (h0 : 0 ≤ xi) (h1 : xi < 1) :
    ∃ (j : Nat) (e0 e1 p0 p1 c0 Eh : ℝ), t.energy[j]? = some e0 ∧ t.energy[j + 1]? = some e1 ∧ t.pdf[j]? = some p0 ∧
      t.pdf[j + 1]? = some p1 ∧ t.cdf[j]? = some c0 ∧ t.sampleEnergy xi = .ok (Eh, j) ∧ e0 ≤ Eh ∧ Eh ≤ e1 ∧
      c0 + ∫ x in e0..Eh, (p0 + (p1 - p0) / (e1 - e0) * (x - e0)) = xi := by
  obtain ⟨j, e0, e1, p0, p1, c0, c1, Eh, g1, g2, g3, g4, g5, _, _, _, _, _, b1, b2, hE, hI⟩ := t.sampleEnergy_ok hv hg h0 h1
  refine ⟨j, e0, e1, p0, p1, c0, Eh, g1, g2, g3, g4, g5, hE, b1, b2, ?_⟩
  have : ∫ x in e0..Eh, (p0 + (p1 - p0) / (e1 - e0) * (x - e0)) = cellInt .linLin e0 e1 p0 p1 Eh := by
    obtain ⟨m, hm⟩ : ∃ m, m = (p1 - p0) / (e1 - e0) := ⟨_, rfl⟩
    unfold cellInt
    rw [if_neg (by simp), ← hm]
    have hder : ∀ x ∈ Set.uIcc e0 Eh, HasDerivAt (fun x => p0 * (x - e0) + m / 2 * (x - e0) ^ 2) (p0 + m * (x - e0)) x := by
      intro x _
      have h := ((hasDerivAt_id x).sub_const e0)
      have := (h.const_mul p0).add ((h.pow 2).const_mul (m / 2))
      refine this.congr_deriv ?_
      simp only [id]; push_cast; ring
    rw [intervalIntegral.integral_eq_sub_of_hasDerivAt hder (Continuous.intervalIntegrable (by fun_prop) _ _)]
    ring
  rw [this, hI]; ring

/-- C86, unit-based interpolation: with at least two incoming energies and usable tables every draw takes four random numbers and gives a
cosine in `[-1, 1]` and an energy in the window interpolated between the windows of the two neighbouring tables, hence not
negative.  Missing: tables that are not usable (`C86_violation_single`, `C86_violation_flat_start`). -/
theorem C86_unit_partial (d : ContinuousCE) (hv : ValidCCE d) (hn : 2 ≤ d.energy.length) (hg : ∀ t ∈ d.tables, GoodCEDC t) (hu : d.unitBased = true)
    (E : ℝ) (ω : Tape) (hω : UnitTape ω) (k : Nat) :
    ∃ (l : Nat) (f : ℝ) (t0 t1 : CEDCTable) (a0 b0 a1 b1 mu v : ℝ), bracketIn d.energy E = .ok (l, f) ∧ d.tables[l]? = some t0 ∧
      d.tables[l + 1]? = some t1 ∧ t0.energy[0]? = some a0 ∧ t0.energy.getLast? = some b0 ∧ t1.energy[0]? = some a1 ∧
      t1.energy.getLast? = some b1 ∧ d.sample E ω k = .ok (mu, v, k + 4) ∧ -1 ≤ mu ∧ mu ≤ 1 ∧
      (1 - f) * a0 + f * a1 ≤ v ∧ v ≤ (1 - f) * b0 + f * b1 ∧ 0 ≤ v := by
  obtain ⟨first, h0⟩ := getElem?_of_lt (l := d.energy) (i := 0) (by omega)
  obtain ⟨last, hlast⟩ := last_exists (l := d.energy) (by omega)
  obtain ⟨l, f, _, _, hb, hlt, _, _, f0, f1, _⟩ := C67_bracket d.energy E first last hv.sorted hn h0 hlast
  have hlen := hv.len
  obtain ⟨t0, ht0⟩ := getElem?_of_lt (l := d.tables) (i := l) (by omega)
  obtain ⟨t1, ht1⟩ := getElem?_of_lt (l := d.tables) (i := l + 1) (by omega)
  have ends : ∀ t ∈ d.tables, ∃ a b, t.energy[0]? = some a ∧ t.energy.getLast? = some b ∧ 0 ≤ a ∧ a ≤ b ∧
      ∀ (j : Nat) (e : ℝ), t.energy[j]? = some e → a ≤ e ∧ e ≤ b := by
    intro t ht
    have h2 := (hg t ht).two
    obtain ⟨a, ha⟩ := getElem?_of_lt (l := t.energy) (i := 0) (by omega)
    obtain ⟨b, hb⟩ := last_exists (l := t.energy) (by omega)
    have hb' : t.energy[t.energy.length - 1]? = some b := by rw [← List.getLast?_eq_getElem?]; exact hb
    have hs := (hv.tables t ht).1.sortedE
    exact ⟨a, b, ha, hb, (hv.tables t ht).1.nonneg a (List.mem_of_getElem? ha), pairwise_le_getElem? hs (Nat.zero_le _) ha hb',
      fun j e he => ⟨pairwise_le_getElem? hs (Nat.zero_le _) ha he,
        pairwise_le_getElem? hs (by have := lt_length_of_some he; omega) he hb'⟩⟩
  obtain ⟨a0, b0, ha0, hb0, na0, w0, in0⟩ := ends t0 (List.mem_of_getElem? ht0)
  obtain ⟨a1, b1, ha1, hb1, na1, w1, in1⟩ := ends t1 (List.mem_of_getElem? ht1)
  have one : ∀ (t : CEDCTable) (a b : ℝ), t ∈ d.tables → (∀ (j : Nat) (e : ℝ), t.energy[j]? = some e → a ≤ e ∧ e ≤ b) →
      ∃ (Eh mu : ℝ) (j : Nat), t.sampleEnergy (ω k) = .ok (Eh, j) ∧ t.sampleMu d.nmu j (ω k) (ω (k + 2)) (ω (k + 3)) = .ok mu ∧
        a ≤ Eh ∧ Eh ≤ b ∧ a < b ∧ -1 ≤ mu ∧ mu ≤ 1 := by
    intro t a b ht hin
    obtain ⟨j, e0, e1, p0, p1, c0, c1, Eh, g1, g2, g3, g4, g5, g6, z0, z1, z2, hee, r1, r2, hE, _⟩ :=
      t.sampleEnergy_ok (hv.tables t ht).1 (hg t ht) (hω k).1 (hω k).2
    obtain ⟨mu, _, _, hmu, m0, m1, _⟩ := t.sampleMu_ok (hv.tables t ht).1 (hv.tables t ht).2 g5 g6 z0 z1 z2 (hω (k + 2)).1 (hω (k + 2)).2
      (hω (k + 3)).1 (hω (k + 3)).2
    exact ⟨Eh, mu, j, hE, hmu, (hin j e0 g1).1.trans r1, r2.trans (hin _ e1 g2).2,
      lt_of_le_of_lt (hin j e0 g1).1 (lt_of_lt_of_le hee (hin _ e1 g2).2), m0, m1⟩
  have fin : ∃ mu v, d.sample E ω k = .ok (mu, v, k + 4) ∧ -1 ≤ mu ∧ mu ≤ 1 ∧
      (1 - f) * a0 + f * a1 ≤ v ∧ v ≤ (1 - f) * b0 + f * b1 := by
    by_cases hx : ω (k + 1) > f
    · obtain ⟨Eh, mu, j, hE, hmu, r1, r2, r3, m0, m1⟩ := one t0 a0 b0 (List.mem_of_getElem? ht0) in0
      obtain ⟨s1, s2⟩ := unit_window f0 f1 w0 w1 r1 r2 r3
      refine ⟨mu, _, ?_, m0, m1, s1, s2⟩
      unfold ContinuousCE.sample ContinuousCE.sampleUnit
      rw [if_neg (by simp [hu])]
      simp only [bind, Except.bind, hb, getAt_eq_ok.mpr ht0, getAt_eq_ok.mpr ht1, front_eq_ok.mpr ha0, front_eq_ok.mpr ha1,
        back_eq_ok.mpr hb0, back_eq_ok.mpr hb1, if_pos hx, hE, hmu, rdiv_ok (show b0 - a0 ≠ 0 by intro h; linarith)]
      rfl
    · obtain ⟨Eh, mu, j, hE, hmu, r1, r2, r3, m0, m1⟩ := one t1 a1 b1 (List.mem_of_getElem? ht1) in1
      obtain ⟨s1, s2⟩ := unit_window f0 f1 w0 w1 r1 r2 r3
      refine ⟨mu, _, ?_, m0, m1, s1, s2⟩
      unfold ContinuousCE.sample ContinuousCE.sampleUnit
      rw [if_neg (by simp [hu])]
      simp only [bind, Except.bind, hb, getAt_eq_ok.mpr ht0, getAt_eq_ok.mpr ht1, front_eq_ok.mpr ha0, front_eq_ok.mpr ha1,
        back_eq_ok.mpr hb0, back_eq_ok.mpr hb1, if_neg hx, hE, hmu, rdiv_ok (show b1 - a1 ≠ 0 by intro h; linarith)]
      rfl
  obtain ⟨mu, v, hs, m0, m1, s1, s2⟩ := fin
  exact ⟨l, f, t0, t1, a0, b0, a1, b1, mu, v, hb, ht0, ht1, ha0, hb0, ha1, hb1, hs, m0, m1, s1, s2, by nlinarith⟩

/-- C86, without unit-based interpolation: the nearer table (`f > 1/2` takes the upper one) of incoming energy `Ei` gives `Eo`, and the
outgoing energy is `Eo (2 E / Ei - 1)` below `Ei / 2` and `Eo + E - Ei` above.  It is not negative when `E ≥ Ei / 2`.
Missing: unusable tables and incoming energies below half the lowest one (`C86_violation_negative`). -/
theorem C86_plain_partial (d : ContinuousCE) (hv : ValidCCE d) (hn : 2 ≤ d.energy.length) (hg : ∀ t ∈ d.tables, GoodCEDC t)
    (hpos : ∀ e ∈ d.energy, 0 < e) (hu : d.unitBased = false) (E : ℝ) (ω : Tape) (hω : UnitTape ω) (k : Nat) :
    ∃ (l i : Nat) (f : ℝ) (t : CEDCTable) (Ei mu Eo v : ℝ) (j : Nat), bracketIn d.energy E = .ok (l, f) ∧
      (1 / 2 < f → i = l + 1) ∧ (f ≤ 1 / 2 → i = l) ∧ d.tables[i]? = some t ∧ d.energy[i]? = some Ei ∧
      t.sampleEnergy (ω k) = .ok (Eo, j) ∧ d.sample E ω k = .ok (mu, v, k + 3) ∧ -1 ≤ mu ∧ mu ≤ 1 ∧ 0 ≤ Eo ∧
      (Eo < Ei / 2 → v = Eo * (2 * E / Ei - 1)) ∧ (Ei / 2 ≤ Eo → v = Eo + (E - Ei)) ∧ (Ei / 2 ≤ E → 0 ≤ v) := by
  obtain ⟨first, h0⟩ := getElem?_of_lt (l := d.energy) (i := 0) (by omega)
  obtain ⟨last, hlast⟩ := last_exists (l := d.energy) (by omega)
  obtain ⟨l, f, _, _, hb, hlt, _, _, f0, f1, _⟩ := C67_bracket d.energy E first last hv.sorted hn h0 hlast
  have hlen := hv.len
  obtain ⟨i, hi⟩ : ∃ i, i = (if f > 1 / 2 then l + 1 else l) := ⟨_, rfl⟩
  have hil : i < d.energy.length := by rw [hi]; split <;> omega
  obtain ⟨t, ht⟩ := getElem?_of_lt (l := d.tables) (i := i) (by omega)
  obtain ⟨Ei, hEi⟩ := getElem?_of_lt (l := d.energy) (i := i) hil
  have hEp := hpos Ei (List.mem_of_getElem? hEi)
  have hm := List.mem_of_getElem? ht
  obtain ⟨j, e0, e1, p0, p1, c0, c1, Eo, g1, g2, g3, g4, g5, g6, z0, z1, z2, hee, r1, r2, hE, _⟩ :=
    t.sampleEnergy_ok (hv.tables t hm).1 (hg t hm) (hω k).1 (hω k).2
  obtain ⟨mu, _, _, hmu, m0, m1, _⟩ := t.sampleMu_ok (hv.tables t hm).1 (hv.tables t hm).2 g5 g6 z0 z1 z2 (hω (k + 1)).1 (hω (k + 1)).2
    (hω (k + 2)).1 (hω (k + 2)).2
  have hEo : 0 ≤ Eo := le_trans ((hv.tables t hm).1.nonneg e0 (List.mem_of_getElem? g1)) r1
  obtain ⟨v, hvv⟩ : ∃ v, v = (if Eo < 1 / 2 * Ei then Eo * (2 * E / Ei - 1) else Eo + (E - Ei)) := ⟨_, rfl⟩
  refine ⟨l, i, f, t, Ei, mu, Eo, v, j, hb, ?_, ?_, ht, hEi, hE, ?_, m0, m1, hEo, ?_, ?_, ?_⟩
  · intro h; rw [hi, if_pos h]
  · intro h; rw [hi, if_neg (not_lt.mpr h)]
  · unfold ContinuousCE.sample ContinuousCE.samplePlain
    rw [if_pos hu]
    simp only [bind, Except.bind, hb, ← hi, getAt_eq_ok.mpr ht, hE, getAt_eq_ok.mpr hEi, rdiv_ok hEp.ne', hmu]
    by_cases h : Eo < 1 / 2 * Ei
    · rw [if_pos h] at hvv ⊢; rw [hvv]; rfl
    · rw [if_neg h] at hvv ⊢; rw [hvv]; rfl
  · intro h; rw [hvv, if_pos (by linarith)]
  · intro h; rw [hvv, if_neg (by linarith)]
  · intro h
    have : 1 ≤ 2 * E / Ei := by rw [le_div_iff₀ hEp]; linarith
    rw [hvv]; split
    · exact mul_nonneg hEo (by linarith)
    · linarith

/-- C86, without unit-based interpolation, in terms of the whole law: no incoming energy of at least half the lowest tabulated one
gives a negative outgoing energy (the nearer tabulated energy is never more than twice `E`). -/
theorem C86_plain_nonneg_partial (d : ContinuousCE) (hv : ValidCCE d) (hn : 2 ≤ d.energy.length) (hg : ∀ t ∈ d.tables, GoodCEDC t)
    (hpos : ∀ e ∈ d.energy, 0 < e) (hu : d.unitBased = false)
    (E first : ℝ) (h0 : d.energy[0]? = some first) (hE : first / 2 ≤ E) (ω : Tape) (hω : UnitTape ω) (k : Nat) :
    ∃ mu v, d.sample E ω k = .ok (mu, v, k + 3) ∧ -1 ≤ mu ∧ mu ≤ 1 ∧ 0 ≤ v := by
  obtain ⟨l, i, f, t, Ei, mu, Eo, v, j, hb, i1, i2, _, hEi, _, hs, m0, m1, _, _, _, hnn⟩ := C86_plain_partial d hv hn hg hpos hu E ω hω k
  refine ⟨mu, v, hs, m0, m1, hnn ?_⟩
  obtain ⟨last, hlast⟩ := last_exists (l := d.energy) (by omega)
  obtain ⟨l', f', e0, e1, hb', hlt, g0, g1, f0, f1, hcl, hmid, hlo, hhi⟩ := C67_bracket d.energy E first last hv.sorted hn h0 hlast
  rw [hb] at hb'; cases hb'
  have hfp := hpos first (List.mem_of_getElem? h0)
  have hep := hpos e0 (List.mem_of_getElem? g0)
  by_cases hA : E ≤ first
  · obtain ⟨rfl, rfl⟩ := hlo hA
    rw [i2 (by norm_num), h0] at hEi; cases hEi; exact hE
  · by_cases hB : last < E
    · obtain ⟨_, rfl⟩ := hhi hB
      rw [i1 (by norm_num), g1] at hEi; cases hEi
      have hlast' : d.energy[d.energy.length - 1]? = some last := by rw [← List.getLast?_eq_getElem?]; exact hlast
      have := pairwise_le_getElem? hv.sorted (show l + 1 ≤ d.energy.length - 1 by omega) g1 hlast'
      linarith
    · push Not at hA hB
      obtain ⟨y0, y1⟩ := hmid hA hB
      have hcl' : e0 + f * (e1 - e0) = E := by
        rw [hcl, clip, min_eq_left hB, max_eq_right hA.le]
      by_cases hf : 1 / 2 < f
      · rw [i1 hf, g1] at hEi; cases hEi
        have hle := pairwise_le_getElem? hv.sorted (Nat.le_succ l) g0 g1
        have := mul_nonneg (sub_nonneg.mpr hf.le) (sub_nonneg.mpr hle)
        linarith
      · push Not at hf
        rw [i2 hf, g0] at hEi; cases hEi
        linarith

/-- Uniform outgoing energies on `[0, 1]`, one cosine. -/
noncomputable def Spec.flatCEDC : CEDCTable := ⟨[0, 1], [1, 1], [0, 1], [[-1 / 2], [1 / 2]]⟩

/-- A law with two incoming energies. -/
noncomputable def Spec.flatCCE (u : Bool) : ContinuousCE := ⟨[1, 2], [flatCEDC, flatCEDC], 1, u⟩

theorem flatCEDC_valid : ValidCEDC 1 flatCEDC := by
  refine ⟨by simp [flatCEDC], rfl, rfl, rfl, by simp [flatCEDC], ?_, by simp [flatCEDC], ?_, ?_⟩
  · intro e he
    simp only [flatCEDC, List.mem_cons, List.not_mem_nil, or_false] at he
    rcases he with rfl | rfl <;> norm_num
  · intro e he
    simp only [flatCEDC, List.mem_cons, List.not_mem_nil, or_false] at he
    rcases he with rfl | rfl <;> norm_num
  · intro u hu
    simp only [flatCEDC, List.mem_cons, List.not_mem_nil, or_false] at hu
    rcases hu with rfl | rfl <;> refine ⟨rfl, by simp, ?_⟩ <;> intro m hm <;>
      simp only [List.mem_cons, List.not_mem_nil, or_false] at hm <;> rw [hm] <;> norm_num

theorem flatCEDC_good : GoodCEDC flatCEDC := by
  refine ⟨by simp [flatCEDC], ⟨rfl, ?_⟩, rfl, ?_⟩
  · intro i v0 v1 p0 p1 c0 c1 h0 h1 h2 h3 h4 h5
    simp only [energyPart, flatCEDC] at h0 h1 h2 h3 h4 h5
    have hi : i = 0 := by have := lt_length_of_some h1; simp at this; exact this
    subst hi
    simp at h0 h1 h2 h3 h4 h5
    subst h0 h1 h2 h3 h4 h5
    simp only [cellArea, energyPart]
    norm_num
  · intro c hc
    simp [flatCEDC] at hc
    rw [← hc]; norm_num

theorem flatCCE_valid (u : Bool) : ValidCCE (flatCCE u) := by
  refine ⟨by norm_num [flatCCE], rfl, ?_⟩
  intro t ht
  simp only [flatCCE, List.mem_cons, List.not_mem_nil, or_false] at ht
  rcases ht with rfl | rfl <;> exact ⟨flatCEDC_valid, by norm_num [flatCCE]⟩

/-- The hypotheses are met by the uniform law, with and without unit-based interpolation. -/
example (E : ℝ) (hE : 1 / 2 ≤ E) (ω : Tape) (hω : UnitTape ω) : ∃ mu v, (flatCCE false).sample E ω 0 = .ok (mu, v, 3) ∧ -1 ≤ mu ∧ mu ≤ 1 ∧ 0 ≤ v := by
  refine C86_plain_nonneg_partial (flatCCE false) (flatCCE_valid _) (by simp [flatCCE]) ?_ ?_ rfl E 1 rfl hE ω hω 0
  · intro t ht
    simp only [flatCCE, List.mem_cons, List.not_mem_nil, or_false] at ht
    rcases ht with rfl | rfl <;> exact flatCEDC_good
  · intro e he
    simp only [flatCCE, List.mem_cons, List.not_mem_nil, or_false] at he
    rcases he with rfl | rfl <;> norm_num

/-- The full claim is false of the code, whatever the law: without unit-based interpolation, an incoming energy below half the lowest
tabulated one and a draw from its table that is positive and below half of it give a negative outgoing energy. -/
theorem C86_violation_negative (d : ContinuousCE) (hv : ValidCCE d) (hn : 2 ≤ d.energy.length) (hg : ∀ t ∈ d.tables, GoodCEDC t)
    (hpos : ∀ e ∈ d.energy, 0 < e) (hu : d.unitBased = false) (first E : ℝ) (h0 : d.energy[0]? = some first) (hE : E < first / 2)
    (t : CEDCTable) (ht : d.tables[0]? = some t) (ω : Tape) (hω : UnitTape ω) (k j : Nat) (Eo : ℝ)
    (hs : t.sampleEnergy (ω k) = .ok (Eo, j)) (hEo : 0 < Eo) (hEo' : Eo < first / 2) :
    ∃ mu v, d.sample E ω k = .ok (mu, v, k + 3) ∧ v < 0 := by
  obtain ⟨l, i, f, t', Ei, mu, Eo', v, j', hb, i1, i2, htt, hEi, hE', hs', _, _, _, hv1, _, _⟩ := C86_plain_partial d hv hn hg hpos hu E ω hω k
  obtain ⟨last, hlast⟩ := last_exists (l := d.energy) (by omega)
  have hfp := hpos first (List.mem_of_getElem? h0)
  obtain ⟨l', f', _, _, hb', _, _, _, _, _, _, _, hlo, _⟩ := C67_bracket d.energy E first last hv.sorted hn h0 hlast
  rw [hb] at hb'; cases hb'
  obtain ⟨rfl, rfl⟩ := hlo (by linarith)
  have hi := i2 (by norm_num)
  subst hi
  rw [ht] at htt; cases htt
  rw [h0] at hEi; cases hEi
  rw [hs] at hE'; cases hE'
  refine ⟨mu, v, hs', ?_⟩
  rw [hv1 hEo']
  have : 2 * E / first < 1 := by rw [div_lt_one hfp]; linarith
  nlinarith

/-- Such a law and draw exist. -/
theorem C86_violation_negative_witness : ∃ (d : ContinuousCE) (E : ℝ) (ω : Tape), ValidCCE d ∧ (∀ t ∈ d.tables, GoodCEDC t) ∧ 0 < E ∧ UnitTape ω ∧
    ∃ mu v, d.sample E ω 0 = .ok (mu, v, 3) ∧ v < 0 := by
  have hg : ∀ t ∈ (flatCCE false).tables, GoodCEDC t := by
    intro t ht
    simp only [flatCCE, List.mem_cons, List.not_mem_nil, or_false] at ht
    rcases ht with rfl | rfl <;> exact flatCEDC_good
  refine ⟨flatCCE false, 1 / 4, fun _ => 1 / 4, flatCCE_valid _, hg, by norm_num, fun _ => by norm_num, ?_⟩
  refine C86_violation_negative (flatCCE false) (flatCCE_valid _) (by simp [flatCCE]) hg ?_ rfl 1 (1 / 4) rfl (by norm_num) flatCEDC rfl
    (fun _ => 1 / 4) (fun _ => by norm_num) 0 0 (1 / 4) ?_ (by norm_num) (by norm_num)
  · intro e he
    simp only [flatCCE, List.mem_cons, List.not_mem_nil, or_false] at he
    rcases he with rfl | rfl <;> norm_num
  · have hb : lowerBound [(0 : ℝ), 1] (1 / 4) = 1 := by norm_num [lowerBound, lowerBoundRange, bisect]
    have hb' : lowerBound flatCEDC.cdf (1 / 4) = 1 := hb
    unfold CEDCTable.sampleEnergy
    dsimp only
    rw [hb']
    norm_num [flatCEDC, subIdx, getAt, bind, Except.bind, pure, Except.pure, histInterp, rdiv]

/-- The full claim is false of the code: a file whose only table has a single outgoing energy with cumulative 0 is accepted, and
sampling reads out of range, with and without unit-based interpolation. -/
theorem C86_violation_single (u : Bool) : ∃ d, ContinuousCE.makeAce ⟨fun _ => 2, fun n => if n = 0 then 1 else 4, [2, 1, 2, 7, 7, 1, 1, 1, 0, 0, 0]⟩ u = .ok d ∧
    ∀ E ω k, d.sample E ω k = .error .ub := by
  have h1 : ⌊(1 : ℝ)⌋.toNat = 1 := by norm_num
  have h2 : Int.toNat 2 = 2 := rfl
  have h3 : Int.toNat 3 = 3 := rfl
  have h7 : Int.toNat 7 = 7 := rfl
  obtain ⟨t, ht⟩ : ∃ t : CEDCTable, t = ⟨[1], [0], [0], [[0]]⟩ := ⟨_, rfl⟩
  refine ⟨⟨[1, 2], [t, t], 1, u⟩, ?_, ?_⟩
  · subst ht
    norm_num [ContinuousCE.makeAce, locator, natAt, getAt, bind, Except.bind, pure, Except.pure, h1, h2, h3, h7, xssSlice, natSlice, isSorted, asU32,
      readCEDCs, CEDCTable.read, readEntries, readEntry, addZero, front, back, sortIfNeeded]
  · intro E ω k
    obtain ⟨l, f, _, _, hb, hlt, _⟩ := C67_bracket [1, 2] E 1 2 (by norm_num) (by simp) rfl rfl
    have hl : l = 0 := by simp at hlt; exact hlt
    subst hl
    have hse : ∀ xi, t.sampleEnergy xi = .error .ub := by
      intro xi
      subst ht
      have hle := lowerBound_le (l := [(0 : ℝ)]) (by simp) xi
      simp only [List.length_cons, List.length_nil] at hle
      unfold CEDCTable.sampleEnergy
      dsimp only
      by_cases h : lowerBound [(0 : ℝ)] xi = 0
      · rw [if_pos h]; rfl
      · rw [if_neg h, if_pos (by simp only [List.length_cons, List.length_nil]; omega)]; rfl
    cases u
    · unfold ContinuousCE.sample ContinuousCE.samplePlain
      rw [if_pos rfl]
      simp only [bind, Except.bind, hb]
      have : ∀ i, i = 0 ∨ i = 1 → getAt [t, t] i = .ok t := by rintro i (rfl | rfl) <;> rfl
      rw [this _ (by split <;> simp), ]
      simp only [hse]
    · have f1 : front t.energy = .ok 1 := by rw [ht]; rfl
      have f2 : back t.energy = .ok 1 := by rw [ht]; rfl
      unfold ContinuousCE.sample ContinuousCE.sampleUnit
      rw [if_neg (by simp)]
      simp only [bind, Except.bind, hb, f1, f2, show getAt [t, t] 0 = .ok t from rfl, show getAt [t, t] (0 + 1) = .ok t from rfl, ite_self, hse]

/-- The full claim is false of the code: when the first two cumulative values are equal, the random number 0 divides zero by zero,
whatever the rest of the table. -/
theorem C86_violation_flat_start (t : CEDCTable) (nmu : Nat) (c r1 r2 : ℝ) (h0 : t.cdf[0]? = some c) (h1 : t.cdf[1]? = some c) :
    t.sampleMu nmu 0 c r1 r2 = .error .nonfinite := by
  unfold CEDCTable.sampleMu
  simp only [bind, Except.bind, getAt_eq_ok.mpr h0, getAt_eq_ok.mpr h1, sub_self, rdiv_zero]

/-- Such a table, otherwise well-formed, whose energy is sampled from the first interval at the random number 0. -/
theorem C86_violation_flat_start_witness : ∃ (t : CEDCTable) (Eh : ℝ), ValidCEDC 1 t ∧ CoveredPC (energyPart t) ∧ t.cdf.getLast? = some 1 ∧
    t.sampleEnergy 0 = .ok (Eh, 0) ∧ ∀ r1 r2, t.sampleMu 1 0 0 r1 r2 = .error .nonfinite := by
  refine ⟨⟨[0, 1, 2], [1, 1, 1], [0, 0, 1], [[0], [0], [0]]⟩, 0, ?_, ⟨rfl, ?_⟩, rfl, ?_, fun r1 r2 => C86_violation_flat_start _ 1 0 r1 r2 rfl rfl⟩
  · refine ⟨by simp, rfl, rfl, rfl, by norm_num, ?_, by norm_num, ?_, ?_⟩
    · intro e he
      simp only [List.mem_cons, List.not_mem_nil, or_false] at he
      rcases he with rfl | rfl | rfl <;> norm_num
    · intro e he
      simp only [List.mem_cons, List.not_mem_nil, or_false] at he
      rcases he with rfl | rfl | rfl <;> norm_num
    · intro u hu
      simp only [List.mem_cons, List.not_mem_nil, or_false] at hu
      rcases hu with rfl | rfl | rfl <;> refine ⟨rfl, by simp, ?_⟩ <;> intro m hm <;>
        simp only [List.mem_cons, List.not_mem_nil, or_false] at hm <;> rw [hm] <;> norm_num
  · intro i v0 v1 p0 p1 c0 c1 h0 h1 h2 h3 h4 h5
    simp only [energyPart] at h0 h1 h2 h3 h4 h5
    have hi : i = 0 ∨ i = 1 := by have := lt_length_of_some h1; simp at this; omega
    rcases hi with rfl | rfl <;>
    · simp at h0 h1 h2 h3 h4 h5
      subst h0 h1 h2 h3 h4 h5
      simp only [cellArea, energyPart]
      norm_num
  · have hb : lowerBound [(0 : ℝ), 0, 1] 0 = 0 := by norm_num [lowerBound, lowerBoundRange, bisect]
    unfold CEDCTable.sampleEnergy
    dsimp only
    rw [hb]
    norm_num [subIdx, getAt, bind, Except.bind, pure, Except.pure, histInterp, rdiv]

end PNDL
