import Verif.Model.Angle
import Verif.Props.PCTable
import Verif.Props.Legendre

/-! C35 (range of sampled cosines), C36 (equiprobable bins), C39 (mixing of neighbouring laws). -/
namespace PNDL
open Spec MeasureTheory

/-- A stream of random numbers in `[0,1)`. -/
def Spec.UnitTape (ω : Tape) : Prop := ∀ k, 0 ≤ ω k ∧ ω k < 1

theorem clampMu_mem (x : ℝ) : -1 ≤ clampMu x ∧ clampMu x ≤ 1 := by
  unfold clampMu
  split_ifs with h h2
  · norm_num
  · norm_num
  · exact abs_le.mp (not_lt.mp h)

theorem clampMu_of_mem {x : ℝ} (h1 : -1 ≤ x) (h2 : x ≤ 1) : clampMu x = x := by
  unfold clampMu; rw [if_neg (not_lt.mpr (abs_le.mpr ⟨h1, h2⟩))]

/-! ## C35 -/

theorem legendre_sample_mem {s : Legendre} {ω : Tape} (hω : UnitTape ω) : ∀ (fuel k : Nat) (mu : ℝ) (k' : Nat),
    s.sample ω fuel k = .ok (mu, k') → -1 ≤ mu ∧ mu < 1 := by
  intro fuel
  induction fuel with
  | zero => intro k mu k' h; cases h
  | succ fuel ih =>
    intro k mu k' h
    rw [Legendre.sample] at h
    rcases rdiv_cases (legPdf s.a (2 * ω k - 1)) s.pdfMax with e | e
    · rw [e] at h
      simp only [bind, Except.bind] at h
      split at h
      · cases h; have := hω k; constructor <;> linarith [this.1, this.2]
      · exact ih _ _ _ h
    · rw [e] at h; cases h

/-- C35: whatever an angle law returns is a cosine in `[-1,1]`, for every law, every object state and every stream of numbers
in `[0,1)`. -/
theorem C35_law_range (law : AngleLaw) (ω : Tape) (hω : UnitTape ω) (fuel k k' : Nat) (mu : ℝ)
    (h : law.sample fuel ω k = .ok (mu, k')) : -1 ≤ mu ∧ mu ≤ 1 := by
  cases law with
  | isotropic => cases h; exact clampMu_mem _
  | bins b =>
    simp only [AngleLaw.sample, binsSample, bind, Except.bind] at h
    split at h
    · cases h
    · cases h; exact clampMu_mem _
  | table t =>
    simp only [AngleLaw.sample, angleTableSample, bind, Except.bind] at h
    split at h
    · cases h
    · cases h; exact clampMu_mem _
  | legendre s =>
    obtain ⟨h1, h2⟩ := legendre_sample_mem hω fuel k mu k' h
    exact ⟨h1, h2.le⟩

/-- C35: the same for the distribution over incoming energies. -/
theorem C35_distribution_range (d : AngleDist) (E : ℝ) (ω : Tape) (hω : UnitTape ω) (fuel k k' : Nat) (mu : ℝ)
    (h : d.sample fuel E ω k = .ok (mu, k')) : -1 ≤ mu ∧ mu ≤ 1 := by
  unfold AngleDist.sample at h
  cases hf : d.find E with
  | error e => rw [hf] at h; cases h
  | ok r =>
    rw [hf] at h
    simp only [bind, Except.bind] at h
    rcases r with law | ⟨a, b, f⟩
    · exact C35_law_range law ω hω fuel k k' mu h
    · simp only at h
      split at h
      · cases h
      · cases h; exact clampMu_mem _

/-- The laws for which the underlying tables are as C32 requires and the bins passed the constructor. -/
def Spec.GoodLaw : AngleLaw → Prop
  | .isotropic => True
  | .bins b => binsMake b = .ok b
  | .table t => ValidPC t ∧ CoveredPC t
  | .legendre s => 0 < s.pdfMax

theorem binsMake_ok {b b' : List ℝ} (h : binsMake b = .ok b') :
    b' = b ∧ b.length = 33 ∧ b.Pairwise (· ≤ ·) ∧ ∀ x ∈ b, -1 ≤ x ∧ x ≤ 1 := by
  unfold binsMake at h
  split at h
  · cases h
  rename_i h1
  split at h
  · cases h
  rename_i h2
  rw [not_not] at h1
  have hs := isSorted_iff.mp (by simpa using h2)
  obtain ⟨b0, hb0⟩ := getElem?_of_lt (l := b) (i := 0) (by omega)
  obtain ⟨b32, hb32⟩ := getElem?_of_lt (l := b) (i := 32) (by omega)
  simp only [getAt_eq_ok.mpr hb0, getAt_eq_ok.mpr hb32, bind, Except.bind] at h
  split at h
  · cases h
  rename_i h3
  split at h
  · cases h
  rename_i h4
  cases h
  refine ⟨rfl, h1, hs, fun x hx => ?_⟩
  obtain ⟨i, hi⟩ := List.getElem?_of_mem hx
  have := lt_length_of_some hi
  have := pairwise_le_getElem? hs (Nat.zero_le i) hb0 hi
  have := pairwise_le_getElem? hs (show i ≤ 32 by omega) hi hb32
  constructor <;> linarith

theorem bin_lt {xi : ℝ} (h0 : 0 ≤ xi) (h1 : xi < 1) : ⌊33 * xi⌋₊ < 33 := by
  rw [Nat.floor_lt (by linarith)]; push_cast; linarith

/-- C35: sampling is defined (it returns, or keeps rejecting) for every law in a good state.
Missing for the full claim: tables accepted by the constructor although their cumulative does not start at 0 or their density
does not cover it; see `C35_violation`. -/
theorem C35_defined_partial (law : AngleLaw) (hl : GoodLaw law) (ω : Tape) (hω : UnitTape ω) (fuel k : Nat) :
    (∃ mu k', law.sample fuel ω k = .ok (mu, k') ∧ -1 ≤ mu ∧ mu ≤ 1) ∨
      (∃ s, law = .legendre s) ∧ law.sample fuel ω k = .error .diverge := by
  cases law with
  | isotropic => left; exact ⟨_, _, rfl, clampMu_mem _⟩
  | bins b =>
    left
    obtain ⟨_, hlen, _⟩ := binsMake_ok hl
    have hb := bin_lt (hω k).1 (hω k).2
    obtain ⟨x, hx⟩ := getElem?_of_lt (l := b) (i := ⌊33 * ω k⌋₊) (by omega)
    refine ⟨_, k + 1, ?_, clampMu_mem ((ω k - (⌊33 * ω k⌋₊ : ℝ) * (1 / 32)) / (1 / 32) + x)⟩
    · simp only [AngleLaw.sample, binsSample]
      rw [if_neg hb.ne, getAt_eq_ok.mpr hx]; rfl
  | table t =>
    left
    obtain ⟨x, _, _, hx, _⟩ := C32_in_range_partial t hl.1 hl.2 (ω k) (hω k).1 (hω k).2.le
    refine ⟨_, k + 1, ?_, clampMu_mem x⟩
    · simp only [AngleLaw.sample, angleTableSample, hx]; rfl
  | legendre s =>
    have hp : s.pdfMax ≠ 0 := (show 0 < s.pdfMax from hl).ne'
    have : ∀ (fuel k : Nat), (∃ mu k', s.sample ω fuel k = .ok (mu, k')) ∨ s.sample ω fuel k = .error .diverge := by
      intro fuel
      induction fuel with
      | zero => intro k; right; rfl
      | succ fuel ih =>
        intro k
        rw [Legendre.sample, rdiv_ok hp]
        simp only [bind, Except.bind]
        split
        · left; exact ⟨_, _, rfl⟩
        · exact ih _
    rcases this fuel k with ⟨mu, k', h⟩ | h
    · left; exact ⟨mu, k', h, C35_law_range (.legendre s) ω hω fuel k k' mu h⟩
    · right; exact ⟨⟨s, rfl⟩, h⟩

/-- The result of the Legendre rejection loop does not depend on the bound on its iterations. -/
theorem C35_legendre_fuel (s : Legendre) (ω : Tape) : ∀ (fuel fuel' k : Nat) (r : ℝ × Nat), fuel ≤ fuel' →
    s.sample ω fuel k = .ok r → s.sample ω fuel' k = .ok r := by
  intro fuel
  induction fuel with
  | zero => intro fuel' k r _ h; cases h
  | succ fuel ih =>
    intro fuel' k r hle h
    obtain ⟨n, rfl⟩ : ∃ n, fuel' = n + 1 := ⟨fuel' - 1, by omega⟩
    rw [Legendre.sample] at h ⊢
    rcases rdiv_cases (legPdf s.a (2 * ω k - 1)) s.pdfMax with e | e
    · rw [e] at h ⊢
      simp only [bind, Except.bind] at h ⊢
      split at h
      · rename_i hc; rw [if_pos hc]; exact h
      · rename_i hc; rw [if_neg hc]; exact ih n _ r (by omega) h
    · rw [e] at h; cases h

/-- The full claim is false of the code: the constructor accepts a cosine table whose cumulative starts at 1/2, and a stream with
values in `[0,1)` makes sampling read outside the table. -/
theorem C35_violation : ∃ t t', PCTable.make [-1, 1] [1 / 2, 1 / 2] [1 / 2, 1] .linLin = .ok t ∧ angleTableMake t = .ok t' ∧
    ∃ ω, UnitTape ω ∧ (AngleLaw.table t').sample 0 ω 0 = .error .ub := by
  have hm : PCTable.make [-1, 1] [1 / 2, 1 / 2] [1 / 2, 1] .linLin =
      .ok ⟨[-1, 1], [1 / 2, 1 / 2], [1 / 2, 1], .linLin⟩ := by
    norm_num [PCTable.make, PCTable.check, isSorted, back, bind, Except.bind]
  refine ⟨_, ⟨[-1, 1], [1 / 2, 1 / 2], [1 / 2, 1], .linLin⟩, hm, ?_, fun _ => 0, fun _ => by norm_num, ?_⟩
  · norm_num [angleTableMake, PCTable.minValue, PCTable.maxValue, front, back, getAt, bind, Except.bind]
  · simp only [AngleLaw.sample, angleTableSample]
    rw [(C32_undefined_iff _ (PCTable.make_valid hm).1 0 (1 / 2) rfl (by norm_num)).mpr (by norm_num)]
    rfl

/-- Good laws: 33 equally spaced bounds, and a uniform table. -/
example : GoodLaw (.bins ((List.range 33).map (fun i : Nat => -1 + (i : ℝ) / 16))) := by
  have hs : ((List.range 33).map (fun i : Nat => -1 + (i : ℝ) / 16)).Pairwise (· ≤ ·) := by
    rw [List.pairwise_map]
    refine (List.pairwise_lt_range).imp ?_
    intro a b hab
    have : (a : ℝ) ≤ b := by exact_mod_cast hab.le
    linarith
  show binsMake _ = _
  unfold binsMake
  rw [if_neg (by simp), if_neg (by simp [isSorted_iff.mpr hs])]
  simp only [getAt, List.getElem?_map, List.getElem?_range (show 0 < 33 by norm_num),
    List.getElem?_range (show 32 < 33 by norm_num), Option.map_some, bind, Except.bind]
  norm_num

/-! ## C36 -/

/-- C36, the density: inside a bin of positive width it is `1/32` over the width. -/
theorem binsPdf_inside {b : List ℝ} (hb : binsMake b = .ok b) {i : Nat} {lo hi mu : ℝ} (h1 : b[i]? = some lo)
    (h2 : b[i + 1]? = some hi) (hlo : lo < mu) (hhi : mu < hi) : binsPdf b mu = .ok (1 / 32 / (hi - lo)) := by
  obtain ⟨_, hlen, hs, _⟩ := binsMake_ok hb
  obtain ⟨b0, hb0⟩ := getElem?_of_lt (l := b) (i := 0) (by omega)
  obtain ⟨b32, hb32⟩ := getElem?_of_lt (l := b) (i := 32) (by omega)
  have hb32' : b.getLast? = some b32 := by rw [List.getLast?_eq_getElem?, hlen]; exact hb32
  have hi32 := lt_length_of_some h2
  have a1 := pairwise_le_getElem? hs (Nat.zero_le i) hb0 h1
  have a2 := pairwise_le_getElem? hs (show i + 1 ≤ 32 by omega) h2 hb32
  have search : ∀ n j, j ≤ i → i < j + n → j + n = 32 → binSearch b mu n j = .ok i := by
    intro n
    induction n with
    | zero => intro j _ _ _; omega
    | succ n ih =>
      intro j hj hj2 hj3
      obtain ⟨u, hu⟩ := getElem?_of_lt (l := b) (i := j) (by omega)
      obtain ⟨v, hv⟩ := getElem?_of_lt (l := b) (i := j + 1) (by omega)
      rw [binSearch, getAt_eq_ok.mpr hu, getAt_eq_ok.mpr hv]
      simp only [bind, Except.bind]
      rcases hj.lt_or_eq with hlt | rfl
      · have : v ≤ lo := pairwise_le_getElem? hs (by omega) hv h1
        rw [if_neg (by rintro ⟨_, h⟩; linarith)]
        exact ih (j + 1) (by omega) (by omega) (by omega)
      · rw [h1] at hu; rw [h2] at hv; cases hu; cases hv
        rw [if_pos ⟨hlo.le, hhi.le⟩]
  rw [binsPdf, front_eq_ok.mpr hb0, back_eq_ok.mpr hb32']
  simp only [bind, Except.bind]
  rw [if_neg (by rintro (h | h) <;> linarith), search 32 0 (Nat.zero_le _) (by omega) (by omega)]
  simp only [getAt_eq_ok.mpr h1, getAt_eq_ok.mpr h2]
  exact rdiv_ok (by linarith)

/-- C36, the half that holds: the reported density is uniform inside each bin of positive width and gives every such bin
probability 1/32.
Missing for the full claim: sampling does not follow this density, see the violations below. -/
theorem C36_density_partial (b : List ℝ) (hb : binsMake b = .ok b) (G : ℝ → ℝ) (hG : ∀ mu, -1 ≤ mu → mu ≤ 1 → binsPdf b mu = .ok (G mu))
    (i : Nat) (lo hi : ℝ) (h1 : b[i]? = some lo) (h2 : b[i + 1]? = some hi) (hlt : lo < hi) :
    (∀ mu, lo < mu → mu < hi → G mu = 1 / 32 / (hi - lo)) ∧ ∫ s in lo..hi, G s = 1 / 32 := by
  obtain ⟨_, _, _, hmem⟩ := binsMake_ok hb
  have m1 := hmem _ (List.mem_of_getElem? h1)
  have m2 := hmem _ (List.mem_of_getElem? h2)
  have e : ∀ mu, lo < mu → mu < hi → G mu = 1 / 32 / (hi - lo) := by
    intro mu a c
    have := binsPdf_inside hb h1 h2 a c
    rw [hG mu (by linarith) (by linarith)] at this
    exact Except.ok.inj this
  refine ⟨e, ?_⟩
  have heq : Set.EqOn (fun _ => 1 / 32 / (hi - lo)) G (Set.uIoo lo hi) := by
    intro s hs
    rw [Set.uIoo_of_le hlt.le] at hs
    exact (e s hs.1 hs.2).symm
  rw [← intervalIntegral.integral_congr_uIoo heq, intervalIntegral.integral_const, smul_eq_mul]
  have : hi - lo ≠ 0 := by intro h; linarith
  field_simp

/-- Equally spaced bounds. -/
noncomputable def evenBins : List ℝ := (List.range 33).map (fun i : Nat => -1 + (i : ℝ) / 16)

theorem evenBins_get {i : Nat} (h : i < 33) : evenBins[i]? = some (-1 + (i : ℝ) / 16) := by
  simp [evenBins, h]

/-- What the code samples when `xi` selects the first bin: `-1 + 32·xi` moved to the first bound; the width of the bin is
ignored. -/
theorem binsSample_first {b : List ℝ} {b0 : ℝ} (h0 : b[0]? = some b0) (ω : Tape) (k : Nat) (hx : ω k < 1 / 33) :
    binsSample b ω k = .ok (clampMu (32 * ω k + b0), k + 1) := by
  have hf : ⌊33 * ω k⌋₊ = 0 := by rw [Nat.floor_eq_zero]; linarith
  simp only [binsSample, hf]
  rw [if_neg (by norm_num), getAt_eq_ok.mpr h0]
  simp only [bind, Except.bind, pure, Except.pure]
  congr 2; push_cast; ring_nf

/-- The full claim is false of the code, for every bin set whose first bin is narrower than 1/2: a draw of 1/64, the middle of the
first bin in probability, is sampled outside the first bin. -/
theorem C36_violation_outside_bin (b : List ℝ) (hb : binsMake b = .ok b) (b0 b1 : ℝ) (h0 : b[0]? = some b0) (_ : b[1]? = some b1)
    (hw : b1 < b0 + 1 / 2) (hb1 : b1 < 1) : ∃ mu k', binsSample b (fun _ => 1 / 64) 0 = .ok (mu, k') ∧ b1 < mu := by
  obtain ⟨_, _, _, hmem⟩ := binsMake_ok hb
  have m0 := hmem _ (List.mem_of_getElem? h0)
  refine ⟨_, _, binsSample_first h0 _ 0 (by norm_num), ?_⟩
  unfold clampMu
  split_ifs with h h'
  · exfalso; rw [abs_of_neg h'] at h; norm_num at h h'; linarith [m0.1]
  · exact hb1
  · norm_num; linarith

/-- The full claim is false of the code: the probability that the code samples a cosine above a given value differs from the
reported distribution.  With equally spaced bounds (an isotropic law), every draw in `(1/64, 1/33)` gives a cosine above -1/2,
although a quarter of the reported probability lies below -1/2 and the draws are in the lowest 1/33. -/
theorem C36_violation_distribution (ω : Tape) (k : Nat) (h1 : 1 / 64 < ω k) (h2 : ω k < 1 / 33) :
    ∃ mu k', binsSample evenBins ω k = .ok (mu, k') ∧ -(1 / 2) < mu := by
  have h0 : evenBins[0]? = some (-1 + ((0 : ℕ) : ℝ) / 16) := evenBins_get (by norm_num)
  refine ⟨_, _, binsSample_first h0 ω k h2, ?_⟩
  rw [clampMu_of_mem] <;> push_cast <;> linarith

/-! ## C39 -/

/-- The valid distributions: what the constructor accepts, with at least one energy. -/
structure Spec.ValidDist (d : AngleDist) : Prop where
  len : d.laws.length = d.energy.length
  ne : d.energy ≠ []
  sorted : d.energy.Pairwise (· ≤ ·)

/-- `find`: one law at the ends, otherwise the two laws bracketing `E` with the linear weight. -/
theorem AngleDist.find_cases {d : AngleDist} (hv : ValidDist d) (E mn mx : ℝ) (hmn : d.energy[0]? = some mn)
    (hmx : d.energy.getLast? = some mx) :
    (∃ law, E ≤ mn ∧ d.laws[0]? = some law ∧ d.find E = .ok (.inl law)) ∨
    (∃ law, mx < E ∧ d.laws.getLast? = some law ∧ d.find E = .ok (.inl law)) ∨
    (∃ (i : Nat) (e0 e1 : ℝ) (a b : AngleLaw), mn < E ∧ E ≤ mx ∧ d.energy[i]? = some e0 ∧ d.energy[i + 1]? = some e1 ∧
      d.laws[i]? = some a ∧ d.laws[i + 1]? = some b ∧ e0 < E ∧ E ≤ e1 ∧
      d.find E = .ok (.inr (a, b, (E - e0) / (e1 - e0)))) := by
  have hpos : 0 < d.energy.length := List.length_pos_iff.mpr hv.ne
  have hlen := hv.len
  have hlast : d.energy[d.energy.length - 1]? = some mx := by rw [← List.getLast?_eq_getElem?]; exact hmx
  by_cases h1 : E ≤ mn
  · left
    obtain ⟨law, hl⟩ := getElem?_of_lt (l := d.laws) (i := 0) (by omega)
    refine ⟨law, h1, hl, ?_⟩
    have : lowerBound d.energy E = 0 := by
      have := mt (lowerBound_iff hv.sorted E hmn).mpr (not_lt.mpr h1); omega
    rw [AngleDist.find, this]; simp only [if_true, front_eq_ok.mpr hl, bind, Except.bind, pure, Except.pure]
  · rw [not_le] at h1
    right
    by_cases h2 : mx < E
    · left
      obtain ⟨law, hl⟩ := last_exists (l := d.laws) (by omega)
      refine ⟨law, h2, hl, ?_⟩
      have : lowerBound d.energy E = d.energy.length := by
        have := (lowerBound_iff hv.sorted E hlast).mp h2
        have := lowerBound_le hv.sorted E
        omega
      rw [AngleDist.find, this]
      rw [if_neg (by omega), if_pos rfl, back_eq_ok.mpr hl]; rfl
    · right
      rw [not_lt] at h2
      obtain ⟨i, e0, e1, hi, he0, he1, b0, b1⟩ := bracket_index hv.sorted hmn hmx h1 h2
      have := lt_length_of_some he1
      obtain ⟨a, ha⟩ := getElem?_of_lt (l := d.laws) (i := i) (by omega)
      obtain ⟨b, hb⟩ := getElem?_of_lt (l := d.laws) (i := i + 1) (by omega)
      refine ⟨i, e0, e1, a, b, h1, h2, he0, he1, ha, hb, b0, b1, ?_⟩
      rw [AngleDist.find, hi, if_neg (by omega), if_neg (by omega), subIdx_of_le (by omega)]
      simp only [Nat.add_sub_cancel, bind, Except.bind, getAt_eq_ok.mpr he0, getAt_eq_ok.mpr he1, getAt_eq_ok.mpr ha,
        getAt_eq_ok.mpr hb, rdiv_ok (show e1 - e0 ≠ 0 by intro h; linarith), pure, Except.pure]

/-- C39: for every energy there are two laws (the same one twice at the ends), at energies `e0`, `e1` of neighbouring grid points,
and a weight `f` in `[0,1]` with `(1-f) e0 + f e1` equal to the energy clipped to the grid, such that at every cosine the density
is the convex combination of the two laws' densities. -/
theorem C39_mix (d : AngleDist) (hv : ValidDist d) (E mn mx : ℝ) (hmn : d.energy[0]? = some mn)
    (hmx : d.energy.getLast? = some mx) :
    ∃ (i j : Nat) (e0 e1 f : ℝ) (a b : AngleLaw), (j = i ∨ j = i + 1) ∧ d.energy[i]? = some e0 ∧ d.energy[j]? = some e1 ∧
      d.laws[i]? = some a ∧ d.laws[j]? = some b ∧ 0 ≤ f ∧ f ≤ 1 ∧ (1 - f) * e0 + f * e1 = clip E mn mx ∧
      ∀ mu pa pb, a.pdf mu = .ok pa → b.pdf mu = .ok pb → d.pdf E mu = .ok ((1 - f) * pa + f * pb) := by
  have hpos : 0 < d.energy.length := List.length_pos_iff.mpr hv.ne
  have hlen := hv.len
  have hlast : d.energy[d.energy.length - 1]? = some mx := by rw [← List.getLast?_eq_getElem?]; exact hmx
  have hmm : mn ≤ mx := pairwise_le_getElem? hv.sorted (Nat.zero_le _) hmn hlast
  rcases AngleDist.find_cases hv E mn mx hmn hmx with ⟨law, h1, h2, h3⟩ | ⟨law, h1, h2, h3⟩ |
    ⟨i, e0, e1, a, b, h1, h2, he0, he1, ha, hb, b0, b1, h3⟩
  · refine ⟨0, 0, mn, mn, 0, law, law, Or.inl rfl, hmn, hmn, h2, h2, le_rfl, zero_le_one, ?_, ?_⟩
    · unfold clip; rw [min_eq_left (h1.trans hmm), max_eq_left h1]; ring
    · intro mu pa pb e1 e2
      rw [e1] at e2; cases e2
      rw [AngleDist.pdf, h3]; simp only [bind, Except.bind]; rw [e1]; congr 1; ring
  · have h2' : d.laws[d.energy.length - 1]? = some law := by
      rw [← hlen, ← List.getLast?_eq_getElem?]; exact h2
    refine ⟨d.energy.length - 1, d.energy.length - 1, mx, mx, 0, law, law, Or.inl rfl, hlast, hlast, h2', h2', le_rfl,
      zero_le_one, ?_, ?_⟩
    · unfold clip; rw [min_eq_right h1.le, max_eq_right hmm]; ring
    · intro mu pa pb e1 e2
      rw [e1] at e2; cases e2
      rw [AngleDist.pdf, h3]; simp only [bind, Except.bind]; rw [e1]; congr 1; ring
  · have hd : 0 < e1 - e0 := by linarith
    refine ⟨i, i + 1, e0, e1, (E - e0) / (e1 - e0), a, b, Or.inr rfl, he0, he1, ha, hb, div_nonneg (by linarith) hd.le, ?_, ?_, ?_⟩
    · rw [div_le_one hd]; linarith
    · unfold clip; rw [min_eq_left h2, max_eq_right h1.le]; field_simp; ring
    · intro mu pa pb p1 p2
      rw [AngleDist.pdf, h3]; simp only [bind, Except.bind, p1, p2, pure, Except.pure]

/-- C39: hence a mixture of densities that are non-negative and normalised on `[-1,1]` is non-negative and normalised. -/
theorem C39_density (d : AngleDist) (hv : ValidDist d) (E : ℝ) (D : AngleLaw → ℝ → ℝ)
    (hD : ∀ law ∈ d.laws, (∀ mu, law.pdf mu = .ok (D law mu)) ∧ (∀ mu, -1 ≤ mu → mu ≤ 1 → 0 ≤ D law mu) ∧
      IntervalIntegrable (D law) volume (-1) 1 ∧ ∫ s in (-1 : ℝ)..1, D law s = 1) :
    ∃ G : ℝ → ℝ, (∀ mu, d.pdf E mu = .ok (G mu)) ∧ (∀ mu, -1 ≤ mu → mu ≤ 1 → 0 ≤ G mu) ∧ ∫ s in (-1 : ℝ)..1, G s = 1 := by
  have hpos : 0 < d.energy.length := List.length_pos_iff.mpr hv.ne
  obtain ⟨mn, hmn⟩ := getElem?_of_lt (l := d.energy) (i := 0) (by omega)
  obtain ⟨mx, hmx⟩ := last_exists hpos
  obtain ⟨i, j, e0, e1, f, a, b, _, _, _, ha, hb, f0, f1, _, hp⟩ := C39_mix d hv E mn mx hmn hmx
  obtain ⟨a1, a2, a3, a4⟩ := hD a (List.mem_of_getElem? ha)
  obtain ⟨b1, b2, b3, b4⟩ := hD b (List.mem_of_getElem? hb)
  refine ⟨fun mu => (1 - f) * D a mu + f * D b mu, fun mu => hp mu _ _ (a1 mu) (b1 mu), fun mu m1 m2 => ?_, ?_⟩
  · have := mul_nonneg (show 0 ≤ 1 - f by linarith) (a2 mu m1 m2)
    have := mul_nonneg f0 (b2 mu m1 m2)
    linarith
  · rw [intervalIntegral.integral_add (a3.const_mul _) (b3.const_mul _), intervalIntegral.integral_const_mul,
      intervalIntegral.integral_const_mul, a4, b4]
    ring

/-- C39: sampling picks the upper law exactly when the draw does not exceed the weight `f` used by the density, and passes the
chosen law's cosine on unchanged. -/
theorem C39_sample (d : AngleDist) (hv : ValidDist d) (E mn mx : ℝ) (hmn : d.energy[0]? = some mn)
    (hmx : d.energy.getLast? = some mx) (ω : Tape) (hω : UnitTape ω) (fuel k : Nat) :
    ∃ (i j : Nat) (e0 e1 f : ℝ) (a b : AngleLaw), d.energy[i]? = some e0 ∧ d.energy[j]? = some e1 ∧
      d.laws[i]? = some a ∧ d.laws[j]? = some b ∧ 0 ≤ f ∧ f ≤ 1 ∧ (1 - f) * e0 + f * e1 = clip E mn mx ∧
      (i = j ∧ d.sample fuel E ω k = a.sample fuel ω k ∨
       j = i + 1 ∧ d.sample fuel E ω k = if ω k > f then a.sample fuel ω (k + 1) else b.sample fuel ω (k + 1)) := by
  have hpos : 0 < d.energy.length := List.length_pos_iff.mpr hv.ne
  have hlen := hv.len
  have hlast : d.energy[d.energy.length - 1]? = some mx := by rw [← List.getLast?_eq_getElem?]; exact hmx
  have hmm : mn ≤ mx := pairwise_le_getElem? hv.sorted (Nat.zero_le _) hmn hlast
  rcases AngleDist.find_cases hv E mn mx hmn hmx with ⟨law, h1, h2, h3⟩ | ⟨law, h1, h2, h3⟩ |
    ⟨i, e0, e1, a, b, h1, h2, he0, he1, ha, hb, b0, b1, h3⟩
  · refine ⟨0, 0, mn, mn, 0, law, law, hmn, hmn, h2, h2, le_rfl, zero_le_one, ?_, Or.inl ⟨rfl, ?_⟩⟩
    · unfold clip; rw [min_eq_left (h1.trans hmm), max_eq_left h1]; ring
    · rw [AngleDist.sample, h3]; rfl
  · have h2' : d.laws[d.energy.length - 1]? = some law := by
      rw [← hlen, ← List.getLast?_eq_getElem?]; exact h2
    refine ⟨d.energy.length - 1, d.energy.length - 1, mx, mx, 0, law, law, hlast, hlast, h2', h2', le_rfl,
      zero_le_one, ?_, Or.inl ⟨rfl, ?_⟩⟩
    · unfold clip; rw [min_eq_right h1.le, max_eq_right hmm]; ring
    · rw [AngleDist.sample, h3]; rfl
  · have hd : 0 < e1 - e0 := by linarith
    refine ⟨i, i + 1, e0, e1, (E - e0) / (e1 - e0), a, b, he0, he1, ha, hb, div_nonneg (by linarith) hd.le, ?_, ?_,
      Or.inr ⟨rfl, ?_⟩⟩
    · rw [div_le_one hd]; linarith
    · unfold clip; rw [min_eq_left h2, max_eq_right h1.le]; field_simp; ring
    · rw [AngleDist.sample, h3]
      simp only [bind, Except.bind]
      by_cases hc : ω k > (E - e0) / (e1 - e0)
      · rw [if_pos hc]
        cases hs : a.sample fuel ω (k + 1) with
        | error e => rfl
        | ok v =>
          obtain ⟨m1, m2⟩ := C35_law_range a ω hω fuel (k + 1) v.2 v.1 hs
          simp only [pure, Except.pure, clampMu_of_mem m1 m2]
      · rw [if_neg hc]
        cases hs : b.sample fuel ω (k + 1) with
        | error e => rfl
        | ok v =>
          obtain ⟨m1, m2⟩ := C35_law_range b ω hω fuel (k + 1) v.2 v.1 hs
          simp only [pure, Except.pure, clampMu_of_mem m1 m2]

/-- The constructor checks exactly the sizes and the order; an empty grid is accepted and then read out of range. -/
theorem C39_constructor (energy : List ℝ) (laws : List AngleLaw) :
    ((∃ d, AngleDist.make energy laws = .ok d) ↔ energy.length = laws.length ∧ energy.Pairwise (· ≤ ·)) ∧
    (∀ d, AngleDist.make energy laws = .ok d → energy ≠ [] → ValidDist d) ∧
    (∀ d, AngleDist.make [] [] = .ok d → ∀ E mu, d.pdf E mu = .error .ub) := by
  unfold AngleDist.make
  refine ⟨?_, ?_, ?_⟩
  · by_cases h1 : energy.length ≠ laws.length
    · rw [if_pos h1]; simp [h1]
    · rw [if_neg h1]
      rw [not_not] at h1
      by_cases h2 : isSorted energy = false
      · rw [if_pos h2]
        have : ¬ energy.Pairwise (· ≤ ·) := fun hc => by rw [isSorted_iff.mpr hc] at h2; cases h2
        simp [this]
      · rw [if_neg h2]
        exact ⟨fun _ => ⟨h1, isSorted_iff.mp (by simpa using h2)⟩, fun _ => ⟨_, rfl⟩⟩
  · intro d h hne
    split at h
    · cases h
    rename_i h1
    split at h
    · cases h
    rename_i h2
    cases h
    exact ⟨by simp only; omega, hne, isSorted_iff.mp (by simpa using h2)⟩
  · intro d h E mu
    simp [isSorted] at h
    subst h
    rfl

/-- A concrete distribution: isotropic at 1, a two-bin table at 2. -/
example : ValidDist ⟨[1, 2], [.isotropic, .table ⟨[-1, 1], [1 / 2, 1 / 2], [0, 1], .histogram⟩]⟩ :=
  ⟨rfl, by simp, by norm_num⟩

end PNDL
