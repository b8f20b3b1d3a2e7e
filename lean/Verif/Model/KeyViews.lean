import Mathlib.Data.List.Basic
import Mathlib.Data.List.Range

/-!
# Model of `tfhe.SecretKey` as slices over shared memory

A slice is an array, an offset and a length (every array is made with capacity equal to its length).  Keys are held in numbered variables; the zero value of a key has empty slices
of array 0.  The transformed key is one object per key.
-/
namespace Tfhe.Views

/-- A slice of `T`. -/
structure Slice where
  arr : Nat
  off : Nat
  len : Nat
deriving DecidableEq

/-- A slice expression `s[lo:hi]`; `none` is a panic. -/
def Slice.sub (s : Slice) (lo hi : Nat) : Option Slice :=
  if lo ≤ hi ∧ hi ≤ s.len then some ⟨s.arr, s.off + lo, hi - lo⟩ else none

/-- `SecretKey`; `fft` is the object that holds the transformed key, of `fftLen` polynomials with `fftRank` coefficients.
tfhe/encryptor_key.go:14-27. -/
structure SK where
  large : Slice
  glwe : List Slice
  fft : Nat
  fftLen : Nat
  fftRank : Nat
  lwe : Slice

/-- Memory and variables; arrays from `next` on are not allocated. -/
structure State (T F : Type) where
  next : Nat
  arr : Nat → Nat → T
  fft : Nat → Nat → Nat → F
  env : Nat → SK

section
variable {T F : Type} [Zero T] [Zero F]

def State.init : State T F := ⟨1, fun _ _ => 0, fun _ _ _ => 0, fun _ => ⟨⟨0, 0, 0⟩, [], 0, 0, 0, ⟨0, 0, 0⟩⟩⟩

/-- Element `i` of a slice; `none` is a panic. -/
def State.get (s : State T F) (sl : Slice) (i : Nat) : Option T := if i < sl.len then some (s.arr sl.arr (sl.off + i)) else none

/-- Assignment to element `i` of a slice. -/
def State.put (s : State T F) (sl : Slice) (i : Nat) (x : T) : Option (State T F) :=
  if i < sl.len then
    some { s with arr := fun a j => if a = sl.arr ∧ j = sl.off + i then x else s.arr a j }
  else none

/-- The three key fields over an array that holds the large key.
tfhe/encryptor_key.go:53-61. -/
def mkKey (large : Slice) (n k N : Nat) (id : Nat) : Option SK :=
  ((List.range k).mapM fun i => large.sub (i * N) ((i + 1) * N)).bind fun glwe =>
    (large.sub 0 n).map fun lwe => ⟨large, glwe, id, k, N, lwe⟩

/-- Allocation of an array and a transformed key with the given contents. -/
def State.alloc (s : State T F) (vals : Nat → T) (ffts : Nat → Nat → F) : State T F :=
  { s with
    next := s.next + 1
    arr := fun a => if a = s.next then vals else s.arr a
    fft := fun a => if a = s.next then ffts else s.fft a }

def State.set (s : State T F) (v : Nat) (sk : SK) : State T F := { s with env := fun u => if u = v then sk else s.env u }

/-- `NewSecretKeyCustom` (`NewSecretKey` with the dimensions of the parameters).  tfhe/encryptor_key.go:52-69,
tfhe/encryptor_key.go:31-48. -/
def newKey (s : State T F) (v n k N : Nat) : Option (State T F) :=
  (mkKey ⟨s.next, 0, k * N⟩ n k N s.next).map fun sk => (s.alloc (fun _ => 0) fun _ _ => 0).set v sk

/-- The contents of a slice. -/
def State.contents (s : State T F) (sl : Slice) : List T := (List.range sl.len).map fun j => s.arr sl.arr (sl.off + j)

/-- `FwdFFTGLWESecretKeyTo` on the fields of a key, with `tr` the transform of one polynomial.
tfhe/fft_glwe_conv.go:39-43. -/
def State.transform (tr : List T → Nat → F) (s : State T F) (sk : SK) : State T F :=
  { s with fft := fun a i j => if a = sk.fft ∧ i < sk.fftLen ∧ j < sk.fftRank
      then tr (s.contents (sk.glwe.getD i ⟨0, 0, 0⟩)) j else s.fft a i j }

/-- The sampled values are written to the large key.  tfhe/encryptor.go:142-147. -/
def State.fill (s : State T F) (sl : Slice) (vals : Nat → T) : State T F :=
  { s with arr := fun a j => if a = sl.arr ∧ sl.off ≤ j ∧ j < sl.off + sl.len then vals (j - sl.off) else s.arr a j }

/-- `GenSecretKey`, with the sampled values.  tfhe/encryptor.go:139-152. -/
def genKey (tr : List T → Nat → F) (s : State T F) (v n k N : Nat) (vals : Nat → T) : Option (State T F) :=
  (newKey s v n k N).map fun s => (s.fill (s.env v).large vals).transform tr (s.env v)

/-- `Copy`, assigned to variable `v`: every polynomial is a slice of the copied large key, by its own rank.
tfhe/encryptor_key.go:72-90. -/
def copyKey (s : State T F) (v : Nat) (sk : SK) : Option (State T F) :=
  let large : Slice := ⟨s.next, 0, sk.large.len⟩
  ((List.range sk.glwe.length).mapM fun i =>
      let polyRank := (sk.glwe.getD i ⟨0, 0, 0⟩).len
      large.sub (i * polyRank) ((i + 1) * polyRank)).bind fun glwe =>
    (large.sub 0 sk.lwe.len).map fun lwe =>
      (s.alloc (fun j => if j < sk.large.len then s.arr sk.large.arr (sk.large.off + j) else 0) (s.fft sk.fft)).set v
        ⟨large, glwe, s.next, sk.fftLen, sk.fftRank, lwe⟩

/-- `CopyFrom`: `copy` of the large key and, polynomial by polynomial, of the transformed key; a missing polynomial is an index
panic.  tfhe/encryptor_key.go:93-96, tfhe/fft_glwe.go:39-43. -/
def copyFromKey (s : State T F) (dst src : SK) : Option (State T F) :=
  if dst.fftLen ≤ src.fftLen then
    some { s with
      arr := fun a j => if a = dst.large.arr ∧ dst.large.off ≤ j ∧ j < dst.large.off + min dst.large.len src.large.len
        then s.arr src.large.arr (src.large.off + (j - dst.large.off)) else s.arr a j
      fft := fun a i j => if a = dst.fft ∧ i < dst.fftLen ∧ j < min dst.fftRank src.fftRank then s.fft src.fft i j
        else s.fft a i j }
  else none

/-- `Clear`.  tfhe/encryptor_key.go:99-102. -/
def clearKey (s : State T F) (sk : SK) : State T F :=
  { s.fill sk.large (fun _ => 0) with
    fft := fun a i j => if a = sk.fft ∧ i < sk.fftLen ∧ j < sk.fftRank then 0 else s.fft a i j }

/-- `ReadFrom`.  With an incomplete header the key is not touched; otherwise a new key is made, and whatever was read, possibly
only in part, is written to the large and the transformed key.  tfhe/encryptor_key_marshal.go:83-130. -/
def readKey (s : State T F) (v : Nat) (header : Option (Nat × Nat × Nat)) (vals : Nat → T) (ffts : Nat → Nat → F) :
    Option (State T F) :=
  match header with
  | none => some s
  | some (n, k, N) => (newKey s v n k N).map fun s =>
      { s.fill (s.env v).large vals with
        fft := fun a i j => if a = (s.env v).fft ∧ i < (s.env v).fftLen ∧ j < (s.env v).fftRank then ffts i j else s.fft a i j }

/-- What a program can do with keys.  `assign` is the assignment of the struct, which shares the memory. -/
inductive Op (T F : Type) where
  | new (v n k N : Nat)
  | gen (v n k N : Nat) (vals : Nat → T)
  | copy (dst src : Nat)
  | assign (dst src : Nat)
  | copyFrom (dst src : Nat)
  | clear (v : Nat)
  | read (v : Nat) (header : Option (Nat × Nat × Nat)) (vals : Nat → T) (ffts : Nat → Nat → F)
  | putLarge (v i : Nat) (x : T)
  | putLWE (v i : Nat) (x : T)
  | putGLWE (v i j : Nat) (x : T)

/-- One operation; `none` is a panic. -/
def step (tr : List T → Nat → F) (s : State T F) : Op T F → Option (State T F)
  | .new v n k N => newKey s v n k N
  | .gen v n k N vals => genKey tr s v n k N vals
  | .copy dst src => copyKey s dst (s.env src)
  | .assign dst src => some (s.set dst (s.env src))
  | .copyFrom dst src => copyFromKey s (s.env dst) (s.env src)
  | .clear v => some (clearKey s (s.env v))
  | .read v header vals ffts => readKey s v header vals ffts
  | .putLarge v i x => s.put (s.env v).large i x
  | .putLWE v i x => s.put (s.env v).lwe i x
  | .putGLWE v i j x => ((s.env v).glwe[i]?).bind fun sl => s.put sl j x

/-- A history of operations. -/
def run (tr : List T → Nat → F) (ops : List (Op T F)) : Option (State T F) := ops.foldlM (step tr) State.init
end

end Tfhe.Views
