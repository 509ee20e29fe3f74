import Verif.Model.AceObj
import Verif.Spec.AceObj
import Verif.Spec.AceBinary
import Verif.Props.AceText
import Verif.Props.AceBinary
import Verif.Props.NucAce
import Verif.Props.NucAccept

/-! C153: from the characters or bytes of a file to the nuclide. -/
namespace PNDL
open Spec

/-- The object that the reader of text files fills in. -/
noncomputable def textObj (kT w t : ℝ) (b : Body) : AceObj :=
  ⟨(zaidOfNxs (entry b.nxsValues 2)).Z, (zaidOfNxs (entry b.nxsValues 2)).A, t * kT, w, decide (0 < entry b.jxsValues 2), b.nxsValues, b.jxsValues, b.xssValues⟩

theorem readAscii_derived {cv : TextConv ℝ} {kT : ℝ} {file : List Char} {a : TextAce ℝ} (h : readAscii cv kT file = .ok a) :
    ∃ z j, a.nxs[1]? = some z ∧ a.zaid = zaidOfNxs z ∧ a.jxs[1]? = some j ∧ a.fissile = decide (0 < j) := by
  unfold readAscii at h
  obtain ⟨⟨hd, s⟩, _, h⟩ := bind_ok h
  obtain ⟨⟨iz, s1⟩, _, h⟩ := bind_ok h
  dsimp only at h
  generalize textInts 16 s1 = q at h
  generalize textInts 32 q.2 = q' at h
  obtain ⟨n, _, h⟩ := bind_ok h
  split at h
  · cases h
  · split at h
    · cases h
    · obtain ⟨z, hz, h⟩ := bind_ok h
      obtain ⟨j, hj, h⟩ := bind_ok h
      have h := Except.ok.inj h
      subst h
      exact ⟨z, j, getAt_eq_ok.mp hz, by dsimp only, getAt_eq_ok.mp hj, by dsimp only⟩

theorem textFile_read (cv : TextConv ℝ) (kT w t : ℝ) (b : Body) (file : List Char) (h : TextFile cv w t b file) :
    ∃ a, readAscii cv kT file = .ok a ∧ a.obj = textObj kT w t b := by
  have main : ∃ a, readAscii cv kT file = .ok a ∧ b.Read a ∧ a.temperature = t * kT ∧ a.awr = w := by
    cases h with
    | old h awr temp blank tail hf hmid ha hl hw ht hz hb =>
      obtain ⟨a, h1, h2, h3, h4, _⟩ := C89_exact cv kT h hf awr temp blank hmid ha hl w t hw ht hz b hb.wf tail hb.stop hb.more hb.nonneg hb.enough
      exact ⟨a, h1, h2, h3, h4⟩
    | new nh w0 w1 w3 h tail hn h0 h1 h3 hw ht hk hf hb =>
      obtain ⟨a, q1, q2, q3, q4, _⟩ := C89_exact_new cv kT nh hn w0 w1 w3 h0 h1 h3 w t hw ht hk h hf b hb.wf tail hb.stop hb.more hb.nonneg hb.enough
      exact ⟨a, q1, q2, q3, q4⟩
    | comments nh w0 w1 w3 lines tail hn h0 h1 h3 hw ht hl hk h2 hb =>
      obtain ⟨a, q1, q2, q3, q4, _⟩ :=
        C89_exact_comments cv kT nh hn w0 w1 w3 h0 h1 h3 w t hw ht lines hl hk h2 b hb.wf tail hb.stop hb.more hb.nonneg hb.enough
      exact ⟨a, q1, q2, q3, q4⟩
  obtain ⟨a, h1, h2, h3, h4⟩ := main
  refine ⟨a, h1, ?_⟩
  obtain ⟨z, j, hz, hza, hj, hf⟩ := readAscii_derived h1
  have ez : entry b.nxsValues 2 = z := by
    rw [h2.nxs] at hz
    simp [entry, Body.nxsValues, List.getD, hz]
  have ej : entry b.jxsValues 2 = j := by
    rw [h2.jxs] at hj
    simp [entry, Body.jxsValues, List.getD, hj]
  unfold TextAce.obj textObj
  rw [ez, ej, hza, h3, h4, hf, h2.nxs, h2.jxs, h2.xss]
  rfl

/-- C153: two ACE text files with the same header numbers and the same `NXS`, `JXS` and `XSS` values give the same nuclide (or the same error), and the same thermal scattering law, whatever the form
of the header, the white space and the spelling of the numbers. -/
theorem C153_spelling (cv : TextConv ℝ) (kT w t : ℝ) (b b' : Body) (file file' : List Char) (hf : TextFile cv w t b file) (hf' : TextFile cv w t b' file')
    (hn : b.nxsValues = b'.nxsValues) (hj : b.jxsValues = b'.jxsValues) (hx : b.xssValues = b'.xssValues) :
    (∀ fuel, nuclideText cv kT file fuel = nuclideText cv kT file' fuel) ∧ ∀ u, thermalText cv kT file u = thermalText cv kT file' u := by
  obtain ⟨a, h1, h2⟩ := textFile_read cv kT w t b file hf
  obtain ⟨a', h1', h2'⟩ := textFile_read cv kT w t b' file' hf'
  have e : a.obj = a'.obj := by
    rw [h2, h2']
    unfold textObj
    rw [hn, hj, hx]
  refine ⟨fun fuel => ?_, fun u => ?_⟩
  · unfold nuclideText
    rw [h1, h1']
    change a.obj.nuclide fuel = a'.obj.nuclide fuel
    rw [e]
  · unfold thermalText
    rw [h1, h1']
    change a.obj.thermal u = a'.obj.thermal u
    rw [e]

private theorem blockAt_pos {j : Int} (h : 1 ≤ j) (h' : j < 2 ^ 31) : blockAt j = (j - 1).toNat := by unfold blockAt; omega

private theorem asU32_val {z : Int} {n : Nat} (h : z = n) (h' : n < 2 ^ 31) : asU32 z = n := by unfold asU32; omega

private theorem entry_succ (l : List Int) (k : Nat) : entry l (k + 1) = l.getD k 0 := by simp [entry]

theorem table_holds {o : AceObj} {a : AceIn ℝ} (h : NeutronTable o.nxs o.jxs o.xss a) (hf : o.fissile = decide (0 < entry o.jxs 2)) : FileHolds o.neutron a := by
  have hj : ∀ k, o.J k = entry o.jxs (k + 1) := fun k => (entry_succ _ _).symm
  have hn : ∀ k, o.N k = entry o.nxs (k + 1) := fun k => (entry_succ _ _).symm
  have ne : o.neutron.ne = a.grid.length := by
    change asU32 (o.N 2) = _
    rw [hn]
    exact asU32_val h.grid h.small.1
  have nm : o.neutron.nmt = a.rxns.length := by
    change asU32 (o.N 3) = _
    rw [hn]
    exact asU32_val h.count h.small.2.1
  have small := h.small.2.2
  refine ⟨?_, ne.symm, h.columns.1.trans ne.symm, h.columns.2.1.trans ne.symm, h.columns.2.2.1.trans ne.symm, h.columns.2.2.2.trans ne.symm, ?_, nm.symm, ?_⟩
  · change a.fissile = o.fissile
    rw [hf]
    have := h.fissile
    cases ha : a.fissile <;> simp_all
  · change Holds o.xss (blockAt (o.J 0)) _
    rw [hj, blockAt_pos h.main.1 (small _)]
    exact h.main.2
  · intro k e he
    obtain ⟨h0, hm, loc, hl, h1, h2⟩ := h.rxns k e he
    obtain ⟨b1, b2, b3⟩ := h.blocks (fun hc => by rw [hc] at he; simp at he)
    refine ⟨h0, ?_, loc, hl, ?_, ?_⟩
    · change Holds o.xss (blockAt (o.J 2) + k) _
      rw [hj, blockAt_pos b1 (small _), show (entry o.jxs (2 + 1) - 1).toNat + k = (entry o.jxs 3 + k - 1).toNat by norm_num; omega]
      exact hm.2
    · change Holds o.xss (blockAt (o.J 5) + k) _
      rw [hj, blockAt_pos b2 (small _), show (entry o.jxs (5 + 1) - 1).toNat + k = (entry o.jxs 6 + k - 1).toNat by norm_num; omega]
      exact h1.2
    · change Holds o.xss (blockAt (o.J 6) + (loc - 1)) _
      rw [hj, blockAt_pos b3 (small _), show (entry o.jxs (6 + 1) - 1).toNat + (loc - 1) = (entry o.jxs 7 + ((loc : Int) - 1) - 1).toNat by norm_num; omega]
      exact h2.2

theorem nuclide_ok {o : AceObj} {fuel : Nat} {z : Nat × Nat} {n : Nuc} (h : o.nuclide fuel = .ok (z, n)) : z = (o.Z, o.A) ∧ Nuc.makeAce o.neutron fuel = .ok n := by
  unfold AceObj.nuclide at h
  obtain ⟨m, hm, h⟩ := bind_ok h
  cases h
  exact ⟨rfl, hm⟩

theorem zaidOfNxs_val (Z A : Nat) (hZ : Z < 256) (hA : A < 1000) : (zaidOfNxs ((1000 * Z + A : Nat) : Int)).Z = Z ∧ (zaidOfNxs ((1000 * Z + A : Nat) : Int)).A = A := by
  have hu : txtU32 ((1000 * Z + A : Nat) : Int) = 1000 * Z + A := by unfold txtU32; omega
  have hd : (1000 * Z + A) / 1000 % 2 ^ 8 = Z := by omega
  constructor
  · change txtU32 _ / 1000 % 2 ^ 8 = Z
    rw [hu, hd]
  · change txtU32 _ - (txtU32 _ / 1000 % 2 ^ 8) * 1000 = A
    rw [hu, hd]; omega

/-- C153: the nuclide made from the characters of an ACE text file that contains a neutron table.  Z and A are those of `NXS(2)`, the atomic weight ratio and the temperature those of the header
(the temperature times `kT`); the nuclide is fissile exactly if the table says so; energies and columns are those of the table; `has_reaction` is true exactly for the MTs of the
table, and `reaction` gives the values, start and threshold of an entry with this MT. -/
theorem C153_contents (cv : TextConv ℝ) (kT w t : ℝ) (b : Body) (file : List Char) (hf : TextFile cv w t b file) (a : AceIn ℝ)
    (ha : NeutronTable b.nxsValues b.jxsValues b.xssValues a) (fuel : Nat) (z : Nat × Nat) (n : Nuc) (h : nuclideText cv kT file fuel = .ok (z, n)) :
    (∀ Z A : Nat, Z < 256 → A < 1000 → entry b.nxsValues 2 = ((1000 * Z + A : Nat) : Int) → z = (Z, A)) ∧
    n.awr = w ∧ n.temperature = t * kT ∧ n.fissile = a.fissile ∧
    n.grid.energy = a.grid ∧ n.total = ⟨a.grid, a.total, 0, false⟩ ∧ n.disap = ⟨a.grid, a.disap, 0, false⟩ ∧
    n.elasticXS = ⟨a.grid, a.elastic, 0, false⟩ ∧ n.heating = ⟨a.grid, a.heating, 0, false⟩ ∧
    ∀ mt, (n.has mt = .ok true ∧ Provides a mt ∧ ∃ (r : STRxn) (k : Nat) (e : RxnIn ℝ), n.reaction mt = .ok r ∧ a.rxns[k]? = some e ∧ e.mt = mt ∧
        r.xs = ⟨a.grid, e.values, e.idx, false⟩ ∧ a.grid[e.idx]? = some r.threshold) ∨
      (n.has mt = .ok false ∧ ¬ Provides a mt ∧ n.reaction mt = .error .exc) := by
  obtain ⟨x, h1, h2⟩ := textFile_read cv kT w t b file hf
  unfold nuclideText at h
  rw [h1] at h
  change x.obj.nuclide fuel = _ at h
  rw [h2] at h
  obtain ⟨hz, hn⟩ := nuclide_ok h
  have hh : FileHolds (textObj kT w t b).neutron a := table_holds (o := textObj kT w t b) ha rfl
  obtain ⟨_, _, _, _, _, _, _, _, _, _, _, _, _, _, _, _, _, _, _, _, p1, p2, p3⟩ := makeAce_parts hn
  obtain ⟨c1, c2, c3, c4, c5⟩ := C99_columns fuel _ n (.direct hn) a hh
  refine ⟨?_, p1, p3, p2.trans hh.fissile.symm, c1, c2, c3, c4, c5, fun mt => ?_⟩
  · intro Z A hZ hA he
    rw [hz]
    obtain ⟨q1, q2⟩ := zaidOfNxs_val Z A hZ hA
    change ((zaidOfNxs (entry b.nxsValues 2)).Z, (zaidOfNxs (entry b.nxsValues 2)).A) = _
    rw [he, q1, q2]
  · rcases C99_reactions _ fuel n hn a hh mt with ⟨r1, r2, r, k, e, r3, r4, r5, _, _, r6, r7⟩ | r
    · exact Or.inl ⟨r1, r2, r, k, e, r3, r4, r5, r6, r7⟩
    · exact Or.inr r

/-- Where the ACE format keeps the blocks of a neutron table, with the numbers of the format: MTR, LQR, TYR, LAND, AND, LDLW, DLW at `JXS(3)`, `JXS(4)`, `JXS(5)`, `JXS(8)`, `JXS(9)`, `JXS(10)`,
`JXS(11)` (here as indices from 0). -/
def Spec.reactionBlocks (jxs : List Int) (xss : List ℝ) (w : ℝ) : AceBlocks where
  xss := xss
  awr := w
  mtr := (entry jxs 3 - 1).toNat
  lqr := (entry jxs 4 - 1).toNat
  tyr := (entry jxs 5 - 1).toNat
  land := (entry jxs 8 - 1).toNat
  andB := (entry jxs 9 - 1).toNat
  ldlw := (entry jxs 10 - 1).toNat
  dlw := (entry jxs 11 - 1).toNat

/-- C153: the other members of the nuclide come from the blocks where the ACE format has them: the secondary distributions of the reactions and the angular distribution of elastic scattering
(LAND `JXS(8)`, AND `JXS(9)`, …), the numbers of fission neutrons (NU `JXS(2)`, DNU `JXS(24)`), the `NXS(8)` delayed families (BDD `JXS(25)`, DNEDL `JXS(26)`, DNED `JXS(27)`), photon production (GPD `JXS(12)`) and the
probability tables (LUNR `JXS(23)`). -/
theorem C153_blocks (cv : TextConv ℝ) (kT w t : ℝ) (b : Body) (file : List Char) (hf : TextFile cv w t b file) (a : AceIn ℝ)
    (ha : NeutronTable b.nxsValues b.jxsValues b.xssValues a) (fuel : Nat) (z : Nat × Nat) (n : Nuc) (h : nuclideText cv kT file fuel = .ok (z, n))
    (hpos : ∀ k ∈ [3, 4, 5, 8, 9, 10, 11], 1 ≤ entry b.jxsValues k) :
    (∀ mt r, n.reaction mt = .ok r → ∃ k e, a.rxns[k]? = some e ∧ e.mt = mt ∧
      RxnBase.makeAce (reactionBlocks b.jxsValues b.xssValues w) k fuel = .ok r.base) ∧
    (∃ l0 ad, intAt b.xssValues (entry b.jxsValues 8 - 1).toNat = .ok l0 ∧ AngleDist.makeAce b.xssValues (entry b.jxsValues 9 - 1).toNat l0 = .ok ad ∧
      n.elastic.angle = ad.sample fuel ∧ n.elastic.awr = w ∧ n.elastic.kT = t * kT * kToMeV) ∧
    Nu.make a.fissile b.xssValues (entry b.jxsValues 2) (entry b.jxsValues 24) = .ok n.fission.nu ∧
    (a.fissile = true → ∀ ng : Nat, ng < 2 ^ 31 → entry b.nxsValues 8 = ng → 1 ≤ entry b.jxsValues 26 → 1 ≤ entry b.jxsValues 27 →
      families (familyLawAce b.xssValues (entry b.jxsValues 27 - 1).toNat) b.xssValues (entry b.jxsValues 25) (entry b.jxsValues 26 - 1).toNat
        (entry b.jxsValues 27 - 1).toNat ng = .ok n.fission.families) ∧
    (1 ≤ entry b.jxsValues 12 → ∀ vs, vs.length = a.grid.length → Stands b.xssValues (entry b.jxsValues 12) vs → n.photon = ⟨a.grid, vs, 0, false⟩) ∧
    (entry b.jxsValues 12 = 0 → ∀ E e0, a.grid.head? = some e0 → n.photon.eval E = .ok 0) ∧
    (1 ≤ entry b.jxsValues 23 → getAt b.xssValues ((entry b.jxsValues 23 - 1).toNat + 6) = .ok n.urrMin ∧
      ∃ cx, URR.make b.xssValues (some (entry b.jxsValues 23 - 1).toNat) ⟨n.elasticXS, cx, n.fissionXS, n.heating⟩ (n.rxns.map STRxn.forget) = .ok n.urr ∧
        (∀ r, n.reaction 102 = .ok r → cx = r.xs)) ∧
    (entry b.jxsValues 23 = 0 → n.urr.energy = []) := by
  obtain ⟨x, h1, h2⟩ := textFile_read cv kT w t b file hf
  unfold nuclideText at h
  rw [h1] at h
  change x.obj.nuclide fuel = _ at h
  rw [h2] at h
  obtain ⟨hz, hn⟩ := nuclide_ok h
  have hh : FileHolds (textObj kT w t b).neutron a := table_holds (o := textObj kT w t b) ha rfl
  have small := ha.small.2.2
  have hj : ∀ k, (textObj kT w t b).J k = entry b.jxsValues (k + 1) := fun k => (entry_succ _ _).symm
  have hN : ∀ k, (textObj kT w t b).N k = entry b.nxsValues (k + 1) := fun k => (entry_succ _ _).symm
  have pos : ∀ k, 1 ≤ entry b.jxsValues (k + 1) → blockAt ((textObj kT w t b).J k) = (entry b.jxsValues (k + 1) - 1).toNat := by
    intro k hk
    rw [hj, blockAt_pos hk (small _)]
  have hb : (textObj kT w t b).neutron.toAceBlocks = reactionBlocks b.jxsValues b.xssValues w := by
    change AceBlocks.mk b.xssValues w (blockAt _) (blockAt _) (blockAt _) (blockAt _) (blockAt _) (blockAt _) (blockAt _) = _
    rw [pos 2 (hpos 3 (by decide)), pos 3 (hpos 4 (by decide)), pos 4 (hpos 5 (by decide)), pos 7 (hpos 8 (by decide)), pos 8 (hpos 9 (by decide)),
      pos 9 (hpos 10 (by decide)), pos 10 (hpos 11 (by decide))]
    rfl
  have hfis : (textObj kT w t b).neutron.fissile = a.fissile := hh.fissile.symm
  refine ⟨?_, ?_, ?_, ?_, ?_, ?_, ?_, ?_⟩
  · intro mt r hr
    rcases C99_reactions _ fuel n hn a hh mt with ⟨_, _, r', k, e, r3, r4, r5, _, r6, _⟩ | ⟨_, _, hc⟩
    · rw [hr] at r3
      cases r3
      rw [hb] at r6
      exact ⟨k, e, r4, r5, r6⟩
    · rw [hr] at hc
      cases hc
  · obtain ⟨l0, ad, e1, e2, e3, e4, e5, _⟩ := C99_elastic _ fuel n hn
    refine ⟨l0, ad, ?_, ?_, e3, e4, e5⟩
    · rw [← pos 7 (hpos 8 (by decide))]
      exact e1
    · rw [← pos 8 (hpos 9 (by decide))]
      exact e2
  · have := (C99_fission _ fuel n hn).1
    rw [hfis] at this
    change Nu.make a.fissile b.xssValues ((textObj kT w t b).J 1) ((textObj kT w t b).J 23) = _ at this
    rw [hj, hj] at this
    exact this
  · intro hfi ng hng hnx h26 h27
    have := (C99_fission _ fuel n hn).2.1 (hfis.trans hfi)
    change families (familyLawAce b.xssValues (blockAt ((textObj kT w t b).J 26))) b.xssValues ((textObj kT w t b).J 24) (blockAt ((textObj kT w t b).J 25))
      (blockAt ((textObj kT w t b).J 26)) (asU32 ((textObj kT w t b).N 7)) = _ at this
    rw [pos 26 h27, pos 25 h26, hj, hN, asU32_val hnx hng] at this
    exact this
  · intro hg vs hvs hs
    have hp := (C99_photon fuel _ n (.direct hn) a hh).1 (entry b.jxsValues 12 - 1).toNat vs ?_ (hvs.trans hh.grid) hs.2
    · exact hp.1
    · change (if (textObj kT w t b).J 11 = 0 then none else some (blockAt ((textObj kT w t b).J 11))) = _
      rw [if_neg (by rw [hj]; norm_num; omega), pos 11 hg]
  · intro hg
    refine (C99_photon fuel _ n (.direct hn) a hh).2 ?_
    change (if (textObj kT w t b).J 11 = 0 then none else some (blockAt ((textObj kT w t b).J 11))) = _
    rw [if_pos (by rw [hj]; exact hg)]
  · intro hu
    have hl : (textObj kT w t b).neutron.lunr = some (entry b.jxsValues 23 - 1).toNat := by
      change (if (textObj kT w t b).J 22 = 0 then none else some (blockAt ((textObj kT w t b).J 22))) = _
      rw [if_neg (by rw [hj]; norm_num; omega), pos 22 hu]
    obtain ⟨⟨cx, u1, u2, _⟩, u3, _⟩ := C99_urr fuel _ n (.direct hn)
    rw [hl] at u1
    exact ⟨(u3 _ hl).1, cx, u1, u2⟩
  · intro hu
    refine ((C99_urr fuel _ n (.direct hn)).2.2 ?_).2
    change (if (textObj kT w t b).J 22 = 0 then none else some (blockAt ((textObj kT w t b).J 22))) = _
    rw [if_pos (by rw [hj]; exact hu)]

/-- C153: a nuclide made from an object whose temperature was changed differs in nothing but its temperature and the target temperature of its elastic scattering. -/
theorem C153_temperature (o : AceObj) (T : ℝ) (hT : 0 ≤ T) (fuel : Nat) (z : Nat × Nat) (n : Nuc) (h : o.nuclide fuel = .ok (z, n)) :
    ({ o with temperature := T }).nuclide fuel = .ok (z, { n with temperature := T, elastic := { n.elastic with kT := T * kToMeV } }) := by
  obtain ⟨hz, hn⟩ := nuclide_ok h
  have hk : (0 : ℝ) < kToMeV := by unfold kToMeV; norm_num
  have key : Nuc.makeAce ({ o with temperature := T } : AceObj).neutron fuel =
      .ok { n with temperature := T, elastic := { n.elastic with kT := T * kToMeV } } := by
    unfold Nuc.makeAce at hn
    obtain ⟨⟨g, u⟩, hg, hn⟩ := bind_ok hn
    obtain ⟨⟨m, ph⟩, hm, hn⟩ := bind_ok hn
    obtain ⟨s, hs, hn⟩ := bind_ok hn
    obtain ⟨l0, hl, hn⟩ := bind_ok hn
    obtain ⟨ad, hd, hn⟩ := bind_ok hn
    obtain ⟨el, hel, hn⟩ := bind_ok hn
    obtain ⟨fi, hfi, hn⟩ := bind_ok hn
    obtain ⟨fx, hfx, hn⟩ := bind_ok hn
    obtain ⟨cx, hcx, hn⟩ := bind_ok hn
    obtain ⟨ur, hur, hn⟩ := bind_ok hn
    have hel' : Elastic.make (some (svtSample fuel)) (ad.sample fuel) o.awr T true 400 = .ok { el with kT := T * kToMeV } := by
      change Elastic.make (some (svtSample fuel)) (ad.sample fuel) o.awr o.temperature true 400 = .ok el at hel
      unfold Elastic.make at hel ⊢
      split_ifs at hel with w1 w2 w3 w4
      rw [if_neg w1, if_neg (not_lt.mpr (mul_nonneg hT hk.le)), if_neg w3, if_neg w4]
      cases hel
      rfl
    have e : Nuc.makeAce ({ o with temperature := T } : AceObj).neutron fuel = (do
        let (g, u) ← EGrid.readAce o.neutron
        let (m, ph) ← mainAce o.neutron g.energy
        let s ← (List.range o.neutron.nmt).foldlM (NucState.step o.neutron (fun _ i => STRxn.fromAce o.neutron fuel g.energy i)) ⟨[], List.replicate 892 (-1), []⟩
        let l0 ← intAt o.neutron.xss o.neutron.land
        let ad ← AngleDist.makeAce o.neutron.xss o.neutron.andB l0
        let el ← Elastic.make (some (svtSample fuel)) (ad.sample fuel) o.awr T true 400
        let fi ← Fission.makeAce o.neutron fuel g.energy
        let fx ← computeFission o.neutron.fissile g.energy fi.forget
        let cx ← captureXS g.energy s.idx s.rxns
        let ur ← URR.make o.neutron.xss o.neutron.lunr ⟨m.elastic, cx, fx, m.heating⟩ (s.rxns.map STRxn.forget)
        return ⟨o.awr, o.neutron.fissile, T, g, u, m.total, m.disap, m.elastic, m.heating, fx, ph, el, fi, ur,
          (s.mts ++ fi.mts).insertionSort (· ≤ ·), s.idx, s.rxns⟩) := rfl
    rw [e, hg]
    simp only [bind, Except.bind, hm, hs, hl, hd, hel', hfi, hfx, hcx, hur, pure, Except.pure]
    cases hn
    rfl
  unfold AceObj.nuclide
  rw [key, hz]
  rfl

/-- C153: an object written with `save_binary` and read back gives the nuclide of the object before it was written, with the temperature that the two scalings leave. -/
theorem C153_binary (dbl : Nat → ℝ) (mulT divT : Nat → Nat) (a : ACE) (ht : AceTyped a) (hn : NxsMatches a) (hd : DerivedOk a) (h64 : divT a.temperature < 2 ^ 64) :
    (∀ fuel, nuclideBinary dbl mulT (a.saveBinary divT).2 fuel = ({ a.obj dbl with temperature := dbl (mulT (divT a.temperature)) }).nuclide fuel) ∧
    (∀ u, thermalBinary dbl mulT (a.saveBinary divT).2 u = ({ a.obj dbl with temperature := dbl (mulT (divT a.temperature)) }).thermal u) := by
  constructor <;> intro x
  · unfold nuclideBinary
    rw [C10_roundtrip mulT divT a ht hn hd h64]
    rfl
  · unfold thermalBinary
    rw [C10_roundtrip mulT divT a ht hn hd h64]
    rfl

/-- C153: converting a text file: if the object holds the numbers that the text reader gives and the two scalings undo each other, the binary file made by `save_binary` gives the nuclide and the thermal
scattering law of the text file. -/
theorem C153_convert (cv : TextConv ℝ) (kT : ℝ) (dbl : Nat → ℝ) (mulT divT : Nat → Nat) (file : List Char) (x : TextAce ℝ) (hx : readAscii cv kT file = .ok x) (a : ACE)
    (ha : a.obj dbl = x.obj) (ht : AceTyped a) (hn : NxsMatches a) (hd : DerivedOk a) (h64 : divT a.temperature < 2 ^ 64)
    (hT : dbl (mulT (divT a.temperature)) = dbl a.temperature) :
    (∀ fuel, nuclideBinary dbl mulT (a.saveBinary divT).2 fuel = nuclideText cv kT file fuel) ∧
    (∀ u, thermalBinary dbl mulT (a.saveBinary divT).2 u = thermalText cv kT file u) := by
  obtain ⟨h1, h2⟩ := C153_binary dbl mulT divT a ht hn hd h64
  have e : ({ a.obj dbl with temperature := dbl (mulT (divT a.temperature)) } : AceObj) = x.obj := by rw [hT, ← ha]; rfl
  refine ⟨fun fuel => ?_, fun u => ?_⟩
  · rw [h1, e]
    unfold nuclideText
    rw [hx]
    rfl
  · rw [h2, e]
    unfold thermalText
    rw [hx]
    rfl

/-- C11, violation as a user sees it: a nuclide made from an object after `save_binary` has the divided temperature, in all else it is the nuclide one gets before. -/
theorem C11_violation_nuclide (dbl : Nat → ℝ) (divT : Nat → Nat) (a : ACE) (fuel : Nat) (z : Nat × Nat) (n : Nuc) (h : (a.obj dbl).nuclide fuel = .ok (z, n))
    (hT : 0 ≤ dbl (divT a.temperature)) (hne : dbl (divT a.temperature) ≠ dbl a.temperature) :
    ∃ n', ((a.saveBinary divT).1.obj dbl).nuclide fuel = .ok (z, n') ∧ n'.temperature = dbl (divT a.temperature) ∧ n'.temperature ≠ n.temperature := by
  refine ⟨_, C153_temperature (a.obj dbl) (dbl (divT a.temperature)) hT fuel z n h, rfl, ?_⟩
  obtain ⟨_, hn⟩ := nuclide_ok h
  obtain ⟨_, _, _, _, _, _, _, _, _, _, _, _, _, _, _, _, _, _, _, _, _, _, p3⟩ := makeAce_parts hn
  rw [p3]
  exact hne

/-- C153: the thermal scattering law made from the characters of an ACE text file has the weight ratio and temperature of the header, and its data are read with the `NXS` and `JXS` entries of the file
(counted from 1 in the file, from 0 by the readers of C82 to C88) and the interpolation that was asked for. -/
theorem C153_thermal (cv : TextConv ℝ) (kT w t : ℝ) (b : Body) (file : List Char) (hf : TextFile cv w t b file) (u : Bool) (o : TslObj) :
    thermalText cv kT file u = .ok o ↔ o.awr = w ∧ o.temperature = t * kT ∧ (o.Z = (zaidOfNxs (entry b.nxsValues 2)).Z ∧ o.A = (zaidOfNxs (entry b.nxsValues 2)).A) ∧
      ThermalLaw.makeAce ⟨fun i => entry b.nxsValues (i + 1), fun i => entry b.jxsValues (i + 1), b.xssValues⟩ u = .ok o.law := by
  obtain ⟨x, h1, h2⟩ := textFile_read cv kT w t b file hf
  have e : (textObj kT w t b).tsl = ⟨fun i => entry b.nxsValues (i + 1), fun i => entry b.jxsValues (i + 1), b.xssValues⟩ := by
    unfold AceObj.tsl
    congr 1 <;> funext i <;> exact (entry_succ _ _).symm
  have hu : thermalText cv kT file u = (textObj kT w t b).thermal u := by
    unfold thermalText
    rw [h1]
    change x.obj.thermal u = _
    rw [h2]
  rw [hu]
  unfold AceObj.thermal
  rw [e]
  constructor
  · intro h
    obtain ⟨l, hl, h⟩ := bind_ok h
    cases h
    exact ⟨rfl, rfl, ⟨rfl, rfl⟩, hl⟩
  · rintro ⟨q1, q2, ⟨q3, q4⟩, q5⟩
    rw [q5]
    obtain ⟨Z, A, aw, T, l⟩ := o
    simp only at q1 q2 q3 q4
    subst q1 q2 q3 q4
    rfl

/-- C153: what the constructors see of an object read from a binary file: the numbers that the bits of its members stand for, 32-bit entries in two's complement. -/
theorem C153_object (dbl : Nat → ℝ) (a : ACE) (ht : AceTyped a) :
    ((a.obj dbl).Z = a.Z ∧ (a.obj dbl).A = a.A ∧ (a.obj dbl).fissile = a.fissile ∧ (a.obj dbl).awr = dbl a.awr ∧ (a.obj dbl).temperature = dbl a.temperature) ∧
    ((a.obj dbl).nxs.length = 16 ∧ (a.obj dbl).jxs.length = 32 ∧ (a.obj dbl).xss.length = a.xss.length) ∧
    (∀ i v : Nat, a.xss[i]? = some v → (a.obj dbl).xss[i]? = some (dbl v)) ∧
    (∀ i v : Nat, a.nxs[i]? = some v → ∃ z : Int, (a.obj dbl).nxs[i]? = some z ∧ -2 ^ 31 ≤ z ∧ z < 2 ^ 31 ∧ (2 ^ 32 : Int) ∣ z - v) ∧
    (∀ i v : Nat, a.jxs[i]? = some v → ∃ z : Int, (a.obj dbl).jxs[i]? = some z ∧ -2 ^ 31 ≤ z ∧ z < 2 ^ 31 ∧ (2 ^ 32 : Int) ∣ z - v) := by
  have key : ∀ v : Nat, v < 2 ^ 32 → -2 ^ 31 ≤ i32 v ∧ i32 v < 2 ^ 31 ∧ (2 ^ 32 : Int) ∣ i32 v - v := by
    intro v hv
    unfold i32
    split <;> omega
  refine ⟨⟨rfl, rfl, rfl, rfl, rfl⟩, ⟨by simp [ACE.obj, ht.nxs], by simp [ACE.obj, ht.jxs], by simp [ACE.obj]⟩, ?_, ?_, ?_⟩
  · intro i v hv
    simp [ACE.obj, hv]
  · intro i v hv
    exact ⟨i32 v, by simp [ACE.obj, hv], key v (ht.nxsB v (List.mem_of_getElem? hv))⟩
  · intro i v hv
    exact ⟨i32 v, by simp [ACE.obj, hv], key v (ht.jxsB v (List.mem_of_getElem? hv))⟩

/-! ### A file -/
namespace Example

/-- Five decimal digits. -/
def five (n : Nat) : List (Fin 10) := [Fin.ofNat 10 (n / 10000), Fin.ofNat 10 (n / 1000), Fin.ofNat 10 (n / 100), Fin.ofNat 10 (n / 10), Fin.ofNat 10 n]

theorem five_val (n : Nat) (h : n < 100000) : natOf (five n) = n := by
  simp only [natOf, five, List.reverse_cons, List.reverse_nil, List.nil_append, List.cons_append, List.map_cons, List.map_nil, Nat.ofDigits, Fin.val_ofNat]
  push_cast
  omega

/-- An integer and a number of a file, after a blank. -/
def int (z : Int) : Entry IntNum := ([' '], ⟨if z < 0 then .minus else .none, five z.natAbs⟩)
def num (z : Int) : Entry Spec.Num := ([' '], ⟨if z < 0 then .minus else .none, five z.natAbs, none, none⟩)

theorem int_val (z : Int) (h : z.natAbs < 100000) : (int z).2.value = z := by
  unfold int IntNum.value
  dsimp only
  rw [five_val _ h]
  by_cases hz : z < 0
  · rw [if_pos hz]
    simp only [if_true]
    omega
  · rw [if_neg hz]
    simp only [reduceCtorEq, if_false]
    omega

theorem num_val (z : Int) (h : z.natAbs < 100000) : ((num z).2.value : ℝ) = z := by
  unfold num Num.value Num.frac
  dsimp only
  rw [five_val _ h]
  have : ((z.natAbs : ℕ) : ℝ) = |(z : ℝ)| := by rw [Nat.cast_natAbs]; simp
  by_cases hz : z < 0
  · simp [hz, natOf, this, abs_of_neg (show (z : ℝ) < 0 by exact_mod_cast hz)]
  · simp [hz, natOf, this, abs_of_nonneg (show (0 : ℝ) ≤ z by exact_mod_cast not_lt.mp hz)]

def exNxs : List Int := [33, 5010, 3, 2, 0, 0, 0, 0, 0, 0, 0, 0, 0, 0, 0, 0]
def exJxs : List Int := [1, 0, 16, 18, 20, 22, 24, 33, 34, 34, 34, 0, 0, 0, 0, 0, 0, 0, 0, 0, 0, 0, 0, 0, 0, 1, 1, 0, 0, 0, 0, 0]
def exXss : List Int := [1, 2, 4, 5, 5, 6, 1, 2, 3, 2, 2, 2, 0, 0, 0, 102, 103, 7, -3, 0, 0, 1, 6, 1, 3, 1, 1, 1, 2, 2, 1, 2, 0]

/-- The numbers of the file. -/
def body : Body := ⟨List.replicate 16 (int 0, num 0), exNxs.map int, exJxs.map int, exXss.map num⟩

theorem ints_val (l : List Int) (h : ∀ z ∈ l, z.natAbs < 100000) : (l.map int).map (fun p => p.2.value) = l := by
  induction l with
  | nil => rfl
  | cons z l ih =>
    simp only [List.map_cons]
    rw [int_val z (h z (by simp)), ih (fun y hy => h y (by simp [hy]))]

theorem nums_val (l : List Int) (h : ∀ z ∈ l, z.natAbs < 100000) : (l.map num).map (fun p => (p.2.value : ℝ)) = l.map (fun z : Int => (z : ℝ)) := by
  induction l with
  | nil => rfl
  | cons z l ih =>
    simp only [List.map_cons]
    rw [num_val z (h z (by simp)), ih (fun y hy => h y (by simp [hy]))]

theorem body_nxs : body.nxsValues = exNxs := ints_val exNxs (by decide)

theorem body_jxs : body.jxsValues = exJxs := ints_val exJxs (by decide)

theorem body_size : body.size = 33 := by
  change (((exNxs.map int)[0]?).map (fun p => p.2.value)).getD 0 = 33
  rw [← List.getElem?_map, ints_val exNxs (by decide)]
  rfl

theorem body_xss : body.xssValues = file.xss := by
  unfold Body.xssValues
  rw [body_size, show body.xss.take (33 : Int).toNat = exXss.map num from by
    change (exXss.map num).take 33 = _
    rw [List.take_of_length_le (by simp [exXss])], nums_val exXss (by decide)]
  simp [exXss, file]

theorem int_fields (l : List Int) (h : ∀ z ∈ l, z.natAbs < 100000) : Fields IntNum.Wf IntNum.sign (l.map int) := by
  intro p hp
  obtain ⟨z, hz, rfl⟩ := List.mem_map.mp hp
  have hv := int_val z (h z hz)
  have := h z hz
  exact ⟨by intro c hc; simp [int] at hc; subst hc; decide, Or.inl (by simp [int]), by simp [int, five], by rw [hv]; omega, by rw [hv]; omega⟩

theorem num_fields (l : List Int) : Fields Num.Wf Num.sign (l.map num) := by
  intro p hp
  obtain ⟨z, hz, rfl⟩ := List.mem_map.mp hp
  exact ⟨by intro c hc; simp [num] at hc; subst hc; decide, Or.inl (by simp [num]), by simp [num, five], by simp [num]⟩

theorem body_complete : Complete body ['\n'] where
  wf :=
    { n_izaw := by simp [body]
      n_nxs := by simp [body, exNxs]
      n_jxs := by simp [body, exJxs]
      izaw := by
        intro p hp
        rw [List.eq_of_mem_replicate hp]
        exact ⟨int_fields [0] (by decide), num_fields [0]⟩
      nxs := int_fields exNxs (by decide)
      jxs := int_fields exJxs (by decide)
      xss := num_fields exXss }
  stop := by intro c hc; simp at hc; subst hc; decide
  more := Or.inr (by simp)
  nonneg := by rw [body_size]; decide
  enough := by rw [body_size]; simp [body, exXss]

/-- `std::stod` and `std::stoi`: white space, then a number. -/
noncomputable def plainConv : TextConv ℝ where
  stod t := let r := scanDouble (t.dropWhile isSpaceC); if r.2.1 then .ok r.1 else .error .exc
  stoi t := let r := scanInt (t.dropWhile isSpaceC); if r.2.1 then .ok r.1 else .error .exc

/-- `2.53E-08`. -/
def roomTemp : Spec.Num := ⟨.none, [2], some [5, 3], some (true, .minus, [0, 8])⟩

/-- The header: name, weight ratio `00010`, temperature, date, comment, material. -/
def header : Fixed where
  zaid := "  5010.00c".toList
  mid := List.replicate 7 ' ' ++ (num 10).2.text ++ (List.replicate 4 ' ' ++ roomTemp.text) ++ [' ']
  date := "  18/11/26".toList
  nl := ['\n']
  comment := List.replicate 70 'c'
  mat := "   mat 525".toList

theorem plain_stod (k : Nat) (n : Spec.Num) (hn : n.Wf) : plainConv.stod (List.replicate k ' ' ++ n.text) = .ok (n.value : ℝ) := by
  have hw : White (List.replicate k ' ') := by intro c hc; rw [List.eq_of_mem_replicate hc]; decide
  obtain ⟨c, t, hc, hs⟩ := n.head hn
  have hd : (List.replicate k ' ' ++ n.text).dropWhile isSpaceC = n.text ++ [] := by
    rw [dropWhile_white hw, hc, List.dropWhile_cons, if_neg (by simp [hs]), List.append_nil]
  unfold plainConv
  dsimp only
  rw [hd, n.scan hn [] (by intro c hc; simp at hc)]
  simp

/-- The characters of the file. -/
def text : List Char := header.text ++ (body.text ++ ['\n'])

/-- It is an ACE text file. -/
theorem text_file : TextFile plainConv 10 (roomTemp.value : ℝ) body text := by
  refine .old header (List.replicate 7 ' ' ++ (num 10).2.text) (List.replicate 4 ' ' ++ roomTemp.text) ' ' ['\n'] ?_ rfl (by decide) (by decide) ?_ ?_ (by decide) body_complete
  · exact ⟨by decide, by decide, by decide, Or.inl rfl, List.length_replicate, by decide,
      by intro c hc; change c ∈ (List.replicate 70 'c').head? at hc; simp at hc; subst hc; decide⟩
  · rw [plain_stod _ _ (by simp [Num.Wf, num, five, Num.frac]), num_val 10 (by decide)]
    norm_num
  · exact plain_stod _ _ (by simp [Num.Wf, roomTemp, Num.frac])

/-- It contains a neutron table. -/
theorem text_table : NeutronTable body.nxsValues body.jxsValues body.xssValues contents := by
  rw [body_nxs, body_jxs, body_xss]
  refine ⟨by simp [contents, entry, exJxs], ⟨by simp [contents], by simp [contents], ?_⟩, by simp [contents, entry, exNxs], by simp [contents], ⟨by decide, file_holds.main⟩,
    by simp [contents, entry, exNxs], fun _ => by decide, ?_⟩
  · have hall : ∀ z ∈ exJxs, z < 2 ^ 31 := by decide
    intro k
    unfold entry
    split
    · norm_num
    · rw [List.getD_eq_getElem?_getD]
      cases hk : exJxs[k - 1]? with
      | none => norm_num
      | some z => exact hall z (List.mem_of_getElem? hk)
  · intro k e he
    obtain ⟨h0, hm, loc, hl, h1, h2⟩ := file_holds.entry k e he
    refine ⟨h0, ⟨by change (1 : Int) ≤ 16 + k; omega, ?_⟩, loc, hl, ⟨by change (1 : Int) ≤ 22 + k; omega, ?_⟩, ⟨by change (1 : Int) ≤ 24 + ((loc : Int) - 1); omega, ?_⟩⟩
    · rw [show (entry exJxs 3 + (k : Int) - 1).toNat = file.mtr + k by change ((16 : Int) + k - 1).toNat = 15 + k; omega]
      exact hm
    · rw [show (entry exJxs 6 + (k : Int) - 1).toNat = file.lsig + k by change ((22 : Int) + k - 1).toNat = 21 + k; omega]
      exact h1
    · rw [show (entry exJxs 7 + ((loc : Int) - 1) - 1).toNat = file.sig + (loc - 1) by change ((24 : Int) + ((loc : Int) - 1) - 1).toNat = 23 + (loc - 1); omega]
      exact h2

theorem room_nonneg : (0 : ℝ) ≤ roomTemp.value := by
  unfold Num.value
  simp only [roomTemp, reduceCtorEq, if_false]
  positivity

/-- A nuclide is made from it. -/
theorem text_accepted : ∃ n, nuclideText plainConv 11604518120 text 1 = .ok ((5, 10), n) := by
  obtain ⟨a, h1, h2⟩ := textFile_read plainConv 11604518120 10 roomTemp.value body text text_file
  obtain ⟨n, hn⟩ := file_accepted
  have ho : AceObj.nuclide ⟨5, 10, 293, 10, false, exNxs, exJxs, file.xss⟩ 1 = .ok ((5, 10), n) := by
    unfold AceObj.nuclide
    rw [show (AceObj.neutron ⟨5, 10, 293, 10, false, exNxs, exJxs, file.xss⟩) = file by
      simp [AceObj.neutron, AceObj.J, AceObj.N, exNxs, exJxs, blockAt, asU32, file], hn]
    rfl
  have hT := C153_temperature _ (roomTemp.value * 11604518120) (mul_nonneg room_nonneg (by norm_num)) 1 _ n ho
  have : textObj 11604518120 10 roomTemp.value body = ⟨5, 10, roomTemp.value * 11604518120, 10, false, exNxs, exJxs, file.xss⟩ := by
    unfold textObj
    rw [body_nxs, body_jxs, body_xss]
    simp [exNxs, exJxs, entry, zaidOfNxs, txtU32]
  obtain ⟨n', hn'⟩ : ∃ n', AceObj.nuclide ⟨5, 10, roomTemp.value * 11604518120, 10, false, exNxs, exJxs, file.xss⟩ 1 = .ok ((5, 10), n') := ⟨_, hT⟩
  refine ⟨n', ?_⟩
  unfold nuclideText
  rw [h1]
  change a.obj.nuclide 1 = _
  rw [h2, this, hn']

/-- The theorem about contents applies to this file: energies 1, 2, 4 and capture. -/
example : ∃ n, nuclideText plainConv 11604518120 text 1 = .ok ((5, 10), n) ∧ n.grid.energy = [1, 2, 4] ∧ n.awr = 10 ∧ n.has 102 = .ok true := by
  obtain ⟨n, hn⟩ := text_accepted
  obtain ⟨_, h1, _, _, h2, _, _, _, _, h3⟩ := C153_contents plainConv 11604518120 10 roomTemp.value body text text_file contents text_table 1 (5, 10) n hn
  refine ⟨n, hn, h2, h1, ?_⟩
  rcases h3 102 with ⟨h, _⟩ | ⟨_, h, _⟩
  · exact h
  · exact absurd ⟨⟨_, List.mem_cons_self, rfl⟩, fun h => by revert h; unfold FissionMT; decide⟩ h

end Example

end PNDL
