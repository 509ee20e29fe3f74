import Verif.Model.Prelude
import Verif.Model.Nuclide

/-! ACE binary files: `ACE::save_binary`, `ACE::read_binary` (src/ace.cpp:189-325).

Bytes are natural numbers below 256.  `int32_t` and `double` values are their little-endian bit patterns (naturals below
`2^32`, `2^64`).  The scaling of the temperature by `MEV_TO_EV*EV_TO_K` acts on bit patterns through the abstract functions
`mulT` (×) and `divT` (÷): no assumption is made about floating point. -/
namespace PNDL

abbrev Byte := Nat

/-- Little-endian bytes of `n` (what `file.write(reinterpret_cast<char*>(&n), k)` writes). -/
def le : Nat → Nat → List Byte
  | 0, _ => []
  | k + 1, n => n % 256 :: le k (n / 256)

/-- The value of little-endian bytes. -/
def unle : List Byte → Nat
  | [] => 0
  | b :: r => b + 256 * unle r

/-- The members of `class ACE` that the binary format concerns (include/PapillonNDL/ace.hpp:311-325). -/
structure ACE where
  Z : Nat
  A : Nat
  temperature : Nat
  awr : Nat
  fissile : Bool
  zaidTxt : List Byte
  date : List Byte
  comment : List Byte
  mat : List Byte
  izaw : List (Nat × Nat)
  nxs : List Nat
  jxs : List Nat
  xss : List Nat
  deriving DecidableEq, Repr

/-- `int32_t` value of a 32-bit pattern. -/
def i32 (n : Nat) : Int := if n < 2 ^ 31 then n else (n : Int) - 2 ^ 32

/-! ### Writing -/

/-- The record loop of `save_binary` (src/ace.cpp:300-322); fuel: `xss.length` iterations suffice. -/
def saveRecords : Nat → List Nat → List Byte
  | 0, _ => []
  | f + 1, xs =>
    if xs.length > 0 then
      let n := if xs.length > 512 then 512 else xs.length
      let rlen := (n * 8) % 2 ^ 32
      le 4 rlen ++ (xs.take n).flatMap (le 8) ++ le 4 rlen ++ saveRecords f (xs.drop n)
    else []

/-- `ACE::save_binary` (src/ace.cpp:258-325): the bytes written and the object afterwards.  Line 273
(`temperature_ /= MEV_TO_EV * EV_TO_K`) modifies the object in place. -/
def ACE.saveBinary (divT : Nat → Nat) (a : ACE) : ACE × List Byte :=
  let rlen := 100 + 64 * 4 + 18 * 8
  let a' := { a with temperature := divT a.temperature }
  let bytes :=
    le 4 rlen ++ a.zaidTxt.take 10 ++ le 8 a.awr ++ le 8 a'.temperature ++ a.date.take 10 ++ a.comment.take 70
    ++ a.mat.take 10
    ++ (a.izaw.take 16).flatMap (fun p => le 4 p.1 ++ le 8 p.2)
    ++ (a.nxs.take 16).flatMap (le 4) ++ (a.jxs.take 32).flatMap (le 4)
    ++ le 4 rlen ++ saveRecords a.xss.length a.xss
  (a', bytes)

/-! ### Reading -/

/-- An input stream: unread bytes, `eofbit`, `failbit`. -/
structure Stream where
  bytes : List Byte
  eof : Bool
  fail : Bool
  deriving DecidableEq, Repr

/-- `istream::read(ptr, n)`: the bytes stored and the stream afterwards. -/
def Stream.read (n : Nat) (s : Stream) : List Byte × Stream :=
  if s.eof || s.fail then ([], { s with fail := true })
  else if n ≤ s.bytes.length then (s.bytes.take n, { s with bytes := s.bytes.drop n })
  else (s.bytes, ⟨[], true, true⟩)

/-- `istream::ignore(n)`. -/
def Stream.ignore (n : Nat) (s : Stream) : Stream :=
  if s.eof || s.fail then { s with fail := true }
  else if n ≤ s.bytes.length then { s with bytes := s.bytes.drop n }
  else ⟨[], true, s.fail⟩

/-- Storing `got` over the first bytes of an object whose old bytes are `old`. -/
def overwrite (old got : List Byte) : List Byte := got ++ old.drop got.length

/-- `file.read` into an initialised object of `n` bytes with contents `old`. -/
def readInto (old : List Byte) (n : Nat) (s : Stream) : List Byte × Stream :=
  let r := s.read n
  (overwrite old r.1, r.2)

/-- `file.read` into an uninitialised local of `n` bytes that is then used: a short read leaves it
indeterminate (undefined behaviour). -/
def readUninit (n : Nat) (s : Stream) : Res (List Byte × Stream) :=
  let r := s.read n
  if r.1.length = n then .ok r else .error .ub

/-- The IZAW loop (src/ace.cpp:213-220), `k` entries. -/
def readIzaw : Nat → Stream → Res (List (Nat × Nat) × Stream)
  | 0, s => .ok ([], s)
  | k + 1, s => do
    let (b1, s1) ← readUninit 4 s
    let (b2, s2) ← readUninit 8 s1
    let (r, s3) ← readIzaw k s2
    return ((unle b1, unle b2) :: r, s3)

/-- The NXS and JXS loops (src/ace.cpp:223-230): `k` entries, value-initialised to 0. -/
def readInts : Nat → Stream → List Nat × Stream
  | 0, s => ([], s)
  | k + 1, s =>
    let (b, s1) := readInto (le 4 0) 4 s
    let (r, s2) := readInts k s1
    (unle b :: r, s2)

/-- `file.read(&xss_[i], rlen)` into the array's bytes `buf`: writing past the end is undefined behaviour. -/
def writeAt (buf : List Byte) (off : Nat) (got : List Byte) : Res (List Byte) :=
  if off + got.length ≤ buf.length then .ok (buf.take off ++ got ++ buf.drop (off + got.length))
  else .error .ub

/-- The XSS record loop (src/ace.cpp:237-248). `size` is `xss_.size()`, `buf` its bytes, `i` the entry index,
`rlenB` the bytes of the local `rlen` (empty = uninitialised).  Every iteration consumes bytes or reaches end of file, so
the fuel `bytes + 2` suffices. -/
def readRecords (size : Nat) : Nat → Nat → List Byte → List Byte → Stream → Res (List Byte × Stream)
  | 0, _, _, _, _ => .error .diverge
  | f + 1, i, rlenB, buf, s =>
    if s.eof = false ∧ i < size then do
      let (got, s1) := s.read 4
      let rlenB' := overwrite rlenB got
      if rlenB'.length < 4 then .error .ub
      else do
        let rlen := unle (rlenB'.take 4)
        let (data, s2) := s1.read rlen
        let buf' ← writeAt buf (8 * i) data
        readRecords size f (i + rlen / 8) rlenB' buf' (s2.ignore 4)
    else .ok (buf, s)

/-- Reassemble 8-byte words. -/
def words : Nat → List Byte → List Nat
  | 0, _ => []
  | k + 1, b => unle (b.take 8) :: words k (b.drop 8)

/-- `ACE::read_binary` (src/ace.cpp:189-256) on a freshly constructed object (src/ace.cpp:37-50: strings of
blanks, numbers 0, `fissile_` false). A negative `nxs_[0]` makes `resize` throw `std::length_error`. -/
def ACE.readBinary (mulT : Nat → Nat) (file : List Byte) : Res ACE := do
  let s := (Stream.mk file false false).ignore 4
  let (zaidTxt, s) := readInto (List.replicate 10 32) 10 s
  let (awr, s) := readInto (le 8 0) 8 s
  let (temp, s) := readInto (le 8 0) 8 s
  let (date, s) := readInto (List.replicate 10 32) 10 s
  let (comment, s) := readInto (List.replicate 70 32) 70 s
  let (mat, s) := readInto (List.replicate 10 32) 10 s
  let (izaw, s) ← readIzaw 16 s
  let (nxs, s) := readInts 16 s
  let (jxs, s) := readInts 32 s
  let s := s.ignore 4
  let n0 ← getAt nxs 0
  if i32 n0 < 0 then .error .exc
  else do
    let size := (i32 n0).toNat
    let (buf, _) ← readRecords size (s.bytes.length + 2) 0 [] (List.replicate (8 * size) 0) s
    let zaidInt ← getAt nxs 1
    let Z := (zaidInt / 1000) % 2 ^ 8
    let A := sub32 zaidInt (Z * 1000)
    let j1 ← getAt jxs 1
    return {
      Z := Z, A := A, temperature := mulT (unle temp), awr := unle awr, fissile := decide (i32 j1 > 0),
      zaidTxt := zaidTxt, date := date, comment := comment, mat := mat,
      izaw := izaw, nxs := nxs, jxs := jxs, xss := words size buf }

end PNDL
