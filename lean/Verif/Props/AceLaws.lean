import Verif.Model.AceLaws
import Verif.Spec.AceLaws
import Verif.Props.TabRead
import Verif.Props.Angle

/-! C92, C93, C94: secondary distributions are what the file describes. -/
namespace PNDL
open Spec

theorem Spec.Holds.int {xss : List ℝ} {i : Nat} {n : Int} (h : Holds xss i [(n : ℝ)]) : intAt xss i = .ok n := by
  unfold intAt
  rw [h.get]
  simp [bind, Except.bind, pure, Except.pure]

theorem interpOfCode_lawCode (r : Interpolation) : interpOfCode (lawCode r) = some r := by
  cases r <;> simp [interpOfCode, lawCode]

/-- The object the public constructor makes of the lists of a density record. -/
noncomputable def Spec.DensityRec.build (r : DensityRec) : Res PCTable := PCTable.make r.x r.pdf r.cdf r.law

theorem density_read (xss : List ℝ) (i : Nat) (r : DensityRec) (hs : r.Sized) (h : Holds xss i r.encode) :
    PCTable.makeAce xss i 1 = r.build := by
  obtain ⟨hp, hc, hn⟩ := hs
  unfold DensityRec.encode at h
  have h1 := h.left.get
  have h2 := h.right.left.get
  have h3 := h.right.right.left.slice
  have h4 := h.right.right.right.left.slice
  have h5 := h.right.right.right.right.slice
  simp only [List.length_cons, List.length_nil, Nat.zero_add] at h2 h3 h4 h5
  rw [Nat.add_assoc i 1 1] at h3 h4 h5
  rw [hp] at h4 h5
  rw [hc] at h5
  have hl : r.x.length ≠ 0 := by simpa using hn
  unfold PCTable.makeAce DensityRec.build PCTable.make
  rw [h1]
  simp only [bind, Except.bind, interpOfCode_lawCode]
  by_cases hr : r.law ≠ .histogram ∧ r.law ≠ .linLin
  · rw [if_pos hr, if_pos hr]
  · rw [if_neg hr, if_neg hr, h2]
    simp only [Int.floor_natCast, Int.toNat_natCast]
    rw [if_neg hl, h3]
    simp only []
    rw [h4]
    simp only []
    rw [h5, if_neg (by rw [hp, hc]; simp), if_neg hl]
    simp

/-- The object the public constructors make of an angular law. -/
noncomputable def Spec.AngleRec.build : AngleRec → Res AngleLaw
  | .isotropic => .ok .isotropic
  | .bins b => (binsMake b).map .bins
  | .table r => do
    let t ← r.build
    let t ← angleTableMake t
    return .table t

theorem angleLaw_read (xss : List ℝ) (andB : Nat) (l : Int) (r : AngleRec) (h : r.At xss andB l) : angleLawAce xss andB l = r.build := by
  unfold angleLawAce
  cases r with
  | isotropic =>
    have h0 : l = 0 := h
    subst h0
    rfl
  | bins b =>
    obtain ⟨n, hn, e, hl, hh⟩ := h
    subst e
    rw [if_pos (by omega), Int.natAbs_natCast, subIdx_of_le (by omega)]
    have := hh.slice
    rw [hl] at this
    simp only [bind, Except.bind, binsAce, show andB + n - 1 = andB + (n - 1) by omega, this, AngleRec.build]
    cases binsMake b <;> rfl
  | table r =>
    obtain ⟨n, hn, e, hs, hh⟩ := h
    subst e
    rw [if_neg (by omega), if_pos (by omega), Int.natAbs_neg, Int.natAbs_natCast, subIdx_of_le (by omega)]
    simp only [bind, Except.bind, angleTableAce, show andB + n - 1 = andB + (n - 1) by omega, density_read xss _ r hs hh, AngleRec.build]
    cases r.build <;> rfl

theorem angleLaws_read (xss : List ℝ) (andB : Nat) : ∀ (locs : List Int) (laws : List AngleRec) (k : Nat),
    List.Forall₂ (fun l r => AngleRec.At xss andB l r) locs laws → Holds xss k (locs.map (fun l => (l : ℝ))) →
    angleLawsAce xss andB laws.length k = laws.mapM AngleRec.build := by
  intro locs laws k h
  induction h generalizing k with
  | nil => intro _; rfl
  | @cons l r locs laws h0 _ ih =>
    intro hh
    have hh' : Holds xss k ([(l : ℝ)] ++ locs.map (fun l => (l : ℝ))) := hh
    have g1 := hh'.left.int
    have g2 := hh'.right
    rw [List.length_singleton] at g2
    rw [List.length_cons, angleLawsAce, g1, List.mapM_cons]
    simp only [bind, Except.bind, angleLaw_read xss andB l r h0]
    cases r.build with
    | error e => rfl
    | ok a => simp only [ih (k + 1) g2]

/-- **C92** An angular distribution read from a file has the energies of the file and, at each energy, the law its locator describes: the
same object as the public constructors make of the file's numbers (and the same rejections). -/
theorem C92_read (xss : List ℝ) (andB locb : Nat) (energies : List ℝ) (laws : List AngleRec) (h : AnglesAt xss andB locb energies laws)
    (hs : energies.Pairwise (· ≤ ·)) :
    AngleDist.makeAce xss andB locb = (do
      let ls ← laws.mapM AngleRec.build
      AngleDist.make energies ls) := by
  obtain ⟨h1, locs, hh, hl, hf⟩ := h
  have hb : ∀ (laws : List AngleRec) ls, laws.mapM AngleRec.build = .ok ls → ls.length = laws.length := by
    intro laws
    induction laws with
    | nil => intro ls e; cases e; rfl
    | cons a as ih =>
      intro ls e
      rw [List.mapM_cons] at e
      obtain ⟨x, _, e⟩ := bind_ok e
      obtain ⟨xs, hxs, e⟩ := bind_ok e
      cases e
      simp [ih xs hxs]
  have g1 := hh.left.nat
  have g2 := hh.right.left.slice
  have g3 := hh.right.right
  simp only [List.length_cons, List.length_nil, Nat.zero_add] at g1 g2 g3
  unfold AngleDist.makeAce
  rw [if_neg (by omega), if_pos (by omega), Int.toNat_natCast, subIdx_of_le (by omega), show andB + locb - 1 = andB + (locb - 1) by omega]
  simp only [bind, Except.bind]
  rw [g1]
  simp only []
  rw [g2]
  simp only []
  rw [if_neg (by rw [isSorted_iff.mpr hs]; simp), hl, ← hl]
  have hmain := angleLaws_read xss andB locs laws _ hf g3
  rw [← hl] at hmain
  rw [hmain]
  cases hm : laws.mapM AngleRec.build with
  | error e => rfl
  | ok ls =>
    simp only [pure, Except.pure]
    unfold AngleDist.make
    rw [if_neg (by rw [hb laws ls hm, hl]; simp), if_neg (by rw [isSorted_iff.mpr hs]; simp)]

/-- **C92** Energies out of order are refused. -/
theorem C92_unsorted (xss : List ℝ) (andB locb : Nat) (energies : List ℝ) (laws : List AngleRec) (h : AnglesAt xss andB locb energies laws)
    (hs : ¬ energies.Pairwise (· ≤ ·)) : AngleDist.makeAce xss andB locb = .error .exc := by
  obtain ⟨h1, locs, hh, hl, hf⟩ := h
  have g1 := hh.left.nat
  have g2 := hh.right.left.slice
  simp only [List.length_cons, List.length_nil, Nat.zero_add] at g1 g2
  unfold AngleDist.makeAce
  rw [if_neg (by omega), if_pos (by omega), Int.toNat_natCast, subIdx_of_le (by omega), show andB + locb - 1 = andB + (locb - 1) by omega]
  simp only [bind, Except.bind]
  rw [g1]
  simp only []
  rw [g2]
  simp only []
  rw [if_pos (by rw [← Bool.not_eq_true, isSorted_iff]; exact hs)]

/-- **C92** `LOCB = 0` means isotropic at every energy: one draw, `2 ξ - 1` for draws in [0, 1), density 1/2 on [-1, 1]; a negative
`LOCB` (no angular distribution) is refused. -/
theorem C92_isotropic (xss : List ℝ) (andB : Nat) : ∃ d, AngleDist.makeAce xss andB 0 = .ok d ∧
    (∀ (E : ℝ) (ω : Tape) (k fuel : Nat), 0 ≤ ω k → ω k < 1 → d.sample fuel E ω k = .ok (2 * ω k - 1, k + 1)) ∧
    (∀ E mu : ℝ, -1 ≤ mu → mu ≤ 1 → d.pdf E mu = .ok (1 / 2)) ∧
    ∀ n : Int, n < 0 → AngleDist.makeAce xss andB n = .error .exc := by
  have hfind : ∀ E : ℝ, AngleDist.find ⟨[1 / 10 ^ 5], [.isotropic]⟩ E = .ok (.inl .isotropic) := by
    intro E
    unfold AngleDist.find
    have hle : lowerBound [(1 : ℝ) / 10 ^ 5] E ≤ 1 := lowerBound_le (List.pairwise_singleton _ _) E
    by_cases h0 : lowerBound [(1 : ℝ) / 10 ^ 5] E = 0
    · simp only [h0, if_true]
      rfl
    · have h1 : lowerBound [(1 : ℝ) / 10 ^ 5] E = 1 := by omega
      simp only [h1, Nat.one_ne_zero, if_false, List.length_singleton, if_true]
      rfl
  refine ⟨⟨[1 / 10 ^ 5], [.isotropic]⟩, rfl, ?_, ?_, ?_⟩
  · intro E ω k fuel h0 h1
    unfold AngleDist.sample
    rw [hfind]
    simp only [bind, Except.bind, AngleLaw.sample, isoSample]
    rw [clampMu_of_mem (by linarith) (by linarith)]
  · intro E mu h0 h1
    unfold AngleDist.pdf
    rw [hfind]
    simp only [bind, Except.bind, AngleLaw.pdf, isoPdf]
    rw [if_neg (by rintro (h | h) <;> linarith)]
    norm_num
  · intro n hn
    unfold AngleDist.makeAce
    rw [if_pos hn]

/-- **C92** violation: an entry with no energies is accepted, and then every use is undefined behaviour. -/
theorem C92_violation_empty (xss : List ℝ) (andB locb : Nat) (h : AnglesAt xss andB locb [] []) :
    ∃ d, AngleDist.makeAce xss andB locb = .ok d ∧ ∀ (E mu : ℝ) (ω : Tape) (k fuel : Nat),
      d.sample fuel E ω k = .error .ub ∧ d.pdf E mu = .error .ub := by
  refine ⟨⟨[], []⟩, ?_, ?_⟩
  · rw [C92_read xss andB locb [] [] h List.Pairwise.nil]
    rfl
  · intro E mu ω k fuel
    have hf : AngleDist.find ⟨[], []⟩ E = .error .ub := by
      unfold AngleDist.find
      have h0 : lowerBound ([] : List ℝ) E = 0 := Nat.le_zero.mp (lowerBound_le List.Pairwise.nil E)
      simp only [h0, if_true]
      rfl
    constructor
    · unfold AngleDist.sample; rw [hf]; rfl
    · unfold AngleDist.pdf; rw [hf]; rfl

/-- A file with one energy of each kind that needs no long table: isotropic and tabulated. -/
example : AnglesAt [2, 1, 5, 0, -6, 2, 2, -1, 1, 1/2, 1/2, 0, 1] 0 1 [1, 5] [.isotropic, .table ⟨.linLin, [-1, 1], [1/2, 1/2], [0, 1]⟩] := by
  refine ⟨le_refl _, [0, -6], ⟨[], [2, 2, -1, 1, 1/2, 1/2, 0, 1], by norm_num, rfl⟩, rfl, ?_⟩
  refine .cons rfl (.cons ⟨6, by norm_num, rfl, ⟨rfl, rfl, by simp⟩, ⟨[2, 1, 5, 0, -6], [], ?_, rfl⟩⟩ .nil)
  norm_num [DensityRec.encode, lawCode]

end PNDL
