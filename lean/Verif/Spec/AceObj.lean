import Verif.Spec.AceText
import Verif.Spec.NucAce

/-! An ACE text file as characters, and where the ACE format keeps the data of a neutron table.  Nothing here refers to the readers of the blocks. -/
namespace PNDL.Spec

/-- The numbers of a file are complete: `NXS(1)` is not negative and at least so many numbers follow; what follows them does not continue the last. -/
structure Complete (b : Body) (tail : List Char) : Prop where
  wf : b.Wf
  stop : Stop tail
  more : b.xss ≠ [] ∨ tail ≠ []
  nonneg : 0 ≤ b.size
  enough : b.size ≤ b.xss.length

/-- The characters `file` are an ACE file in one of the three forms of header, with the atomic weight ratio `w` and the temperature `t` (in MeV, as `cv` reads
them), and the numbers `b` after the header. -/
inductive TextFile (cv : TextConv ℝ) (w t : ℝ) (b : Body) : List Char → Prop
  | old (h : Fixed) (awr temp : List Char) (blank : Char) (tail : List Char) (hf : h.Wf) (hmid : h.mid = awr ++ temp ++ [blank]) (ha : awr.length = 12)
      (hl : temp.length = 12) (hw : cv.stod awr = .ok w) (ht : cv.stod temp = .ok t) (hz : h.zaid.take 2 ≠ ['2', '.']) (hb : Complete b tail) :
      TextFile cv w t b (h.text ++ (b.text ++ tail))
  | new (nh : NewHeader) (w0 w1 w3 : List Char) (h : Fixed) (tail : List Char) (hn : nh.Wf) (h0 : nh.ws[0]?.map Prod.snd = some w0)
      (h1 : nh.ws[1]?.map Prod.snd = some w1) (h3 : nh.ws[3]?.map Prod.snd = some w3) (hw : cv.stod w0 = .ok w) (ht : cv.stod w1 = .ok t)
      (hk : cv.stoi w3 = .ok 2) (hf : h.Wf) (hb : Complete b tail) : TextFile cv w t b (nh.text ++ (h.text ++ (b.text ++ tail)))
  | comments (nh : NewHeader) (w0 w1 w3 : List Char) (lines : List (List Char)) (tail : List Char) (hn : nh.Wf) (h0 : nh.ws[0]?.map Prod.snd = some w0)
      (h1 : nh.ws[1]?.map Prod.snd = some w1) (h3 : nh.ws[3]?.map Prod.snd = some w3) (hw : cv.stod w0 = .ok w) (ht : cv.stod w1 = .ok t)
      (hl : ∀ x ∈ lines, '\n' ∉ x) (hk : cv.stoi w3 = .ok lines.length) (h2 : lines.length ≠ 2) (hb : Complete b tail) :
      TextFile cv w t b (nh.text ++ (linesText lines ++ (b.text ++ tail)))

/-- The values of `NXS`, `JXS` and `XSS` that are written in a file. -/
def Body.nxsValues (b : Body) : List Int := b.nxs.map (fun p => p.2.value)
def Body.jxsValues (b : Body) : List Int := b.jxs.map (fun p => p.2.value)
noncomputable def Body.xssValues (b : Body) : List ℝ := (b.xss.take b.size.toNat).map (fun p => p.2.value)

/-- Entry `k` of an array, counted from 1 as in the ACE format. -/
def entry (l : List Int) (k : Nat) : Int := if k = 0 then 0 else l.getD (k - 1) 0

/-- The numbers `block` stand in the array from its entry `p` on, counted from 1. -/
def Stands (xss : List ℝ) (p : Int) (block : List ℝ) : Prop := 1 ≤ p ∧ Holds xss (p - 1).toNat block

/-- A neutron table of the ACE format with contents `a`.  `NXS(3)` energies, followed by the total, disappearance, elastic and heating columns, at `JXS(1)`;
`NXS(4)` reactions: the MT of reaction `k` at `JXS(3) + k`, its locator at `JXS(6) + k`, and at that place of the block at `JXS(7)` the number of the first energy of its cross section,
the number of values and the values.  The nuclide is fissile if there is a block at `JXS(2)`. -/
structure NeutronTable (nxs jxs : List Int) (xss : List ℝ) (a : AceIn ℝ) : Prop where
  fissile : a.fissile = true ↔ 0 < entry jxs 2
  small : a.grid.length < 2 ^ 31 ∧ a.rxns.length < 2 ^ 31 ∧ ∀ k, entry jxs k < 2 ^ 31
  grid : entry nxs 3 = a.grid.length
  columns : a.total.length = a.grid.length ∧ a.disap.length = a.grid.length ∧ a.elastic.length = a.grid.length ∧ a.heating.length = a.grid.length
  main : Stands xss (entry jxs 1) (a.grid ++ (a.total ++ (a.disap ++ (a.elastic ++ a.heating))))
  count : entry nxs 4 = a.rxns.length
  blocks : a.rxns ≠ [] → 1 ≤ entry jxs 3 ∧ 1 ≤ entry jxs 6 ∧ 1 ≤ entry jxs 7
  rxns : ∀ (k : Nat) (e : RxnIn ℝ), a.rxns[k]? = some e → e.dist = 0 ∧ Stands xss (entry jxs 3 + k) [(e.mt : ℝ)] ∧ ∃ loc : Nat, 1 ≤ loc ∧
    Stands xss (entry jxs 6 + k) [(loc : ℝ)] ∧ Stands xss (entry jxs 7 + (loc - 1)) ([((e.idx + 1 : ℕ) : ℝ)] ++ ([(e.values.length : ℝ)] ++ e.values))

end PNDL.Spec
