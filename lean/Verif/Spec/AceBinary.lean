import Verif.Model.AceBinary

/-! Well-formedness of an in-memory ACE table, and what a binary file's record structure promises. -/
namespace PNDL.Spec
open PNDL

/-- The shape every `ACE` object has by its C++ types: fixed-width strings and arrays, 32 or 64 bit entries. -/
structure AceTyped (a : ACE) : Prop where
  zaidTxt : a.zaidTxt.length = 10
  date : a.date.length = 10
  comment : a.comment.length = 70
  mat : a.mat.length = 10
  izaw : a.izaw.length = 16
  nxs : a.nxs.length = 16
  jxs : a.jxs.length = 32
  awr64 : a.awr < 2 ^ 64
  izawB : ∀ p ∈ a.izaw, p.1 < 2 ^ 32 ∧ p.2 < 2 ^ 64
  nxsB : ∀ n ∈ a.nxs, n < 2 ^ 32
  jxsB : ∀ n ∈ a.jxs, n < 2 ^ 32
  xssB : ∀ x ∈ a.xss, x < 2 ^ 64

/-- `NXS(1)` is the length of XSS (a positive `int32_t`). -/
def NxsMatches (a : ACE) : Prop := a.nxs[0]? = some a.xss.length ∧ a.xss.length < 2 ^ 31

/-- The derived members agree with NXS(2) and JXS(2), as they do after any read. -/
def DerivedOk (a : ACE) : Prop :=
  ∃ n j, a.nxs[1]? = some n ∧ a.jxs[1]? = some j ∧
    a.Z = (n / 1000) % 256 ∧ a.A = n - a.Z * 1000 ∧ a.fissile = decide (0 < j ∧ j < 2 ^ 31)

/-- The record structure of the XSS part of a file for `room` remaining 8-byte slots: each record's length marker
is a multiple of 8, does not exceed the room left, and is followed by that many bytes and the closing marker. -/
inductive RecordsFit : Nat → List Byte → Prop
  | full (b) : RecordsFit 0 b
  | record (room n : Nat) (data close rest : List Byte) (hn : n ≤ room) (h32 : n * 8 < 2 ^ 32) (hd : data.length = n * 8)
      (hc : close.length = 4) (h : RecordsFit (room - n) rest) :
      RecordsFit room (le 4 (n * 8) ++ data ++ close ++ rest)

end PNDL.Spec
