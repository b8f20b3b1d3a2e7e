import Verif.Model.Params

/-!
# Byte streams: readers and writers

An `io.Reader` is the list of bytes still to come (a `bytes.Buffer`, a file, or any reader that
delivers all its bytes before it reports EOF); an `io.Writer` is one that takes all bytes it is
given, so what a `WriteTo` method wrote is a byte list.  Writers that fail are in `Model/Sink.lean`.
-/
namespace Tfhe.Ser

/-- A Go `[]byte`. -/
abbrev Bytes := List (BitVec 8)

/-- What a `ReadFrom` method does: it returns the reported count, the object and what is left in
the stream; or an error with the reported count; or it panics. -/
inductive Rd (α : Type) where
  | ok (n : ℕ) (a : α) (rest : Bytes)
  | err (n : ℕ)
  | panic
deriving DecidableEq

/-- A `ReadFrom` method as a function of the stream. -/
def Reader (α : Type) := Bytes → Rd α

/-- Returning without reading. -/
def Reader.pure {α : Type} (a : α) : Reader α := fun s => .ok 0 a s

/-- One read after another, in the pattern
`if nRead, err = ...; err != nil { return n + nRead, err }; n += nRead` of all `ReadFrom` methods,
for instance tfhe/lwe_marshal.go:507-515. -/
def Reader.bind {α β : Type} (r : Reader α) (f : α → Reader β) : Reader β := fun s =>
  match r s with
  | .ok n a rest =>
    match f a rest with
    | .ok m b rest' => .ok (n + m) b rest'
    | .err m => .err (n + m)
    | .panic => .panic
  | .err n => .err n
  | .panic => .panic

/-- The same, where an error of the second read returns its own count only
(`return int64(nRead), err`), tfhe/fft_glwe_marshal.go:125-127. -/
def Reader.bindForget {α β : Type} (r : Reader α) (f : α → Reader β) : Reader β := fun s =>
  match r s with
  | .ok n a rest =>
    match f a rest with
    | .ok m b rest' => .ok (n + m) b rest'
    | .err m => .err m
    | .panic => .panic
  | .err n => .err n
  | .panic => .panic

/-- The same, where `n += nRead` is missing after the second read,
tfhe/lwe_marshal.go:209-213. -/
def Reader.bindUncounted {α β : Type} (r : Reader α) (f : α → Reader β) : Reader β := fun s =>
  match r s with
  | .ok n a rest =>
    match f a rest with
    | .ok _ b rest' => .ok n b rest'
    | .err m => .err (n + m)
    | .panic => .panic
  | .err n => .err n
  | .panic => .panic

/-- A step that does not read and may panic. -/
def Reader.lift {α : Type} (o : Option α) : Reader α := fun s =>
  match o with
  | some a => .ok 0 a s
  | none => .panic

/-- Applying a function to the result. -/
def Reader.map {α β : Type} (f : α → β) (r : Reader α) : Reader β := r.bind fun a => .pure (f a)

/-- `io.ReadFull` into a buffer of `k` bytes: all of them, or an error with the number of bytes that
were left. -/
def readFull (k : ℕ) : Reader Bytes := fun s =>
  if k ≤ s.length then .ok k (s.take k) (s.drop k) else .err s.length

/-- A loop that reads into every element of a slice. -/
def readEach {α β : Type} (f : α → Reader β) : List α → Reader (List β)
  | [] => .pure []
  | a :: l => (f a).bind fun b => (readEach f l).map (b :: ·)

/-- `binary.BigEndian.PutUint32`/`PutUint64` (`k` is 4 or 8): the last `k` bytes of the number, most
significant first. -/
def putBE : ℕ → ℕ → Bytes
  | 0, _ => []
  | k + 1, x => putBE k (x / 256) ++ [BitVec.ofNat 8 x]

/-- `binary.BigEndian.Uint32`/`Uint64`. -/
def getBE (l : Bytes) : ℕ := l.foldl (fun acc b => acc * 256 + b.toNat) 0

/-- A header field. -/
def putU64 (x : BitVec 64) : Bytes := putBE 8 x.toNat

/-- A header field holding a length. -/
def putLen (n : ℕ) : Bytes := putU64 (BitVec.ofNat 64 n)

/-- A header field holding a length minus one, computed as a Go `int`. -/
def putLenPred (n : ℕ) : Bytes := putU64 (BitVec.ofNat 64 n - 1)

/-- Reading a header field. -/
def readU64 : Reader (BitVec 64) := (readFull 8).map fun b => BitVec.ofNat 64 (getBE b)

/-- The bytes of one entry; `v / 8` is `num.ByteSizeT` for the torus types, and 8 for the bit
pattern of a `float64`. math/num/num.go:65-86. -/
def putWord {v : ℕ} (x : BitVec v) : Bytes := putBE (v / 8) x.toNat

/-- An entry from its bytes. -/
def getWord (v : ℕ) (l : Bytes) : BitVec v := BitVec.ofNat v (getBE l)

/-- `vecWriteTo`. tfhe/lwe_marshal.go:12-37; the copy in mktfhe/lwe_marshal.go:13-38. -/
def vecWriteTo {v : ℕ} (x : List (BitVec v)) : Bytes := x.flatMap putWord

/-- The encoding loop of `vecWriteToBuf` and `floatVecWriteToBuf`: the new contents of the buffer,
all of which are then written; a panic if the buffer is too short. tfhe/lwe_marshal.go:41-65,
tfhe/fft_glwe_marshal.go:12-21; the copies in mktfhe/lwe_marshal.go:42-66,
mktfhe/fft_glwe_marshal.go:14-23. -/
def vecWriteToBuf {v : ℕ} (x : List (BitVec v)) (buf : Bytes) : Option Bytes :=
  if x.length * (v / 8) ≤ buf.length then
    some (vecWriteTo x ++ buf.drop (x.length * (v / 8)))
  else none

/-- A loop of `vecWriteToBuf` over vectors with one buffer. -/
def writeVecs {v : ℕ} : List (List (BitVec v)) → Bytes → Option Bytes
  | [], _ => some []
  | x :: l, buf =>
    (vecWriteToBuf x buf).bind fun buf' => (writeVecs l buf').map (buf' ++ ·)

/-- `make([]byte, k)`. -/
def zeroBuf (k : ℕ) : Bytes := List.replicate k 0

/-- `vecReadFrom`: one entry at a time, into a slice. tfhe/lwe_marshal.go:68-95; the copy in
mktfhe/lwe_marshal.go:69-96. -/
def vecReadFrom {v : ℕ} (x : List (BitVec v)) : Reader (List (BitVec v)) :=
  readEach (fun _ => (readFull (v / 8)).map (getWord v)) x

/-- Decoding `n` entries of a buffer. -/
def decodeVec (v : ℕ) : ℕ → Bytes → List (BitVec v)
  | 0, _ => []
  | n + 1, b => getWord v (b.take (v / 8)) :: decodeVec v n (b.drop (v / 8))

/-- `vecReadFromBuf` and `floatVecReadFromBuf`: fill the buffer of `len` bytes, then decode as many
entries as the slice has; a panic if the buffer is too short. tfhe/lwe_marshal.go:99-126,
tfhe/fft_glwe_marshal.go:25-38; the copies in mktfhe/lwe_marshal.go:100-127,
mktfhe/fft_glwe_marshal.go:27-40. -/
def vecReadFromBuf {v : ℕ} (len : ℕ) (x : List (BitVec v)) : Reader (List (BitVec v)) :=
  (readFull len).bind fun b =>
    .lift (if x.length * (v / 8) ≤ len then some (decodeVec v x.length b) else none)

/-- What a `WriteTo` method wrote, and whether it returned `io.ErrShortWrite`.  The reported count
is the number of bytes. -/
structure Wr where
  bytes : Bytes
  short : Bool
deriving DecidableEq

/-- The common body of the `WriteTo` methods: header, value, comparison with `ByteSize`; `none` is a
panic. tfhe/lwe_marshal.go:159-177. -/
def finish (header value : Option Bytes) (size : Option ℕ) : Option Wr :=
  header.bind fun h => value.bind fun b => size.bind fun sz =>
    some { bytes := h ++ b, short := decide ((h ++ b).length < sz) }

/-- One `WriteTo` after another; an error of the first is returned at once. -/
def Wr.andThen (a b : Option Wr) : Option Wr :=
  a.bind fun x => if x.short then some x else b.map fun y => ⟨x.bytes ++ y.bytes, y.short⟩

/-- The comparison with `ByteSize` at the end of a `WriteTo` method that called others. -/
def Wr.check (a : Option Wr) (size : Option ℕ) : Option Wr :=
  a.bind fun x => if x.short then some x else
    size.bind fun sz => some { x with short := decide (x.bytes.length < sz) }

/-- `make` of a slice of length `n`; panics if `n` is negative or more than what can be allocated.
`mem` stands for that limit. -/
def mkSlice {α : Type} (mem : ℕ) (n : BitVec 64) (a : α) : Option (List α) :=
  if n.toInt < 0 ∨ (mem : ℤ) < n.toInt then none else some (List.replicate n.toNat a)

/-- A constructor called `n` times. -/
def fill {α : Type} : ℕ → Option α → Option (List α)
  | 0, _ => some []
  | n + 1, x => x.bind fun a => (fill n x).map (a :: ·)

/-- A slice made and then filled by a constructor. -/
def makeEach {α : Type} (mem : ℕ) (n : BitVec 64) (x : Option α) : Option (List α) :=
  (mkSlice mem n ()).bind fun l => fill l.length x

end Tfhe.Ser
