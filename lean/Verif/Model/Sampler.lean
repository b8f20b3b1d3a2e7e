import Verif.Model.Glwe

/-!
# Model of `math/csprng` (uniform and binary samplers) and of secret key generation

The key stream of AES-CTR is an arbitrary sequence of bytes; loops that reject samples consume a list of raw words and
are `none` when the list ends before the loop does (the program would go on reading).
-/
namespace Tfhe.Rng
open Tfhe

/-! ### Raw words -/

/-- `bufSize`.  math/csprng/uniform_sampler.go:14. -/
def bufSize : Nat := 8192

/-- The state of `UniformSampler`: `buf`, `ptr` and how much of the key stream was used.
math/csprng/uniform_sampler.go:18-26. -/
structure Uniform where
  buf : Nat → BitVec 8
  ptr : Nat
  pos : Nat

/-- The state made by `NewUniformSamplerWithSeed`.  math/csprng/uniform_sampler.go:53-61. -/
def Uniform.new : Uniform := ⟨fun _ => 0, bufSize, 0⟩

/-- The refill: `XORKeyStream(buf, buf)` adds the key stream to the old contents.
math/csprng/uniform_sampler.go:66-69. -/
def Uniform.refill (ks : Nat → BitVec 8) (s : Uniform) : Uniform :=
  if s.ptr = bufSize then ⟨fun i => s.buf i ^^^ ks (s.pos + i), 0, s.pos + bufSize⟩ else s

/-- `Sample` for a type of `bytes` bytes; `none` is an index panic.  The sizes 1, 2, 4, 8 are the cases of the switch.
math/csprng/uniform_sampler.go:65-96. -/
def Uniform.sample (ks : Nat → BitVec 8) (bytes : Nat) (s : Uniform) : Option (BitVec (8 * bytes) × Uniform) :=
  let s := s.refill ks
  if s.ptr + bytes ≤ bufSize then
    let res : BitVec 64 := (List.range bytes).foldl (fun r i => r ||| (s.buf (s.ptr + i)).setWidth 64 <<< (8 * i)) 0
    some (res.setWidth _, { s with ptr := s.ptr + bytes })
  else none

/-- `SampleVecTo`.  math/csprng/uniform_sampler.go:110-114. -/
def Uniform.sampleVec (ks : Nat → BitVec 8) (bytes : Nat) : Nat → Uniform → Option (List (BitVec (8 * bytes)) × Uniform)
  | 0, s => some ([], s)
  | n + 1, s => (s.sample ks bytes).bind fun (x, s) => (Uniform.sampleVec ks bytes n s).map fun (l, s) => (x :: l, s)

/-! ### Bounded sampling -/

section
variable {w : Nat}

/-- `MaxT` of a type.  math/num/num.go:38-63. -/
def maxT (w : Nat) (signed : Bool) : BitVec w := if signed then BitVec.ofNat w (2 ^ (w - 1) - 1) else BitVec.ofNat w (2 ^ w - 1)

/-- `%` of a type; the divisor is not zero. -/
def rem (signed : Bool) (x y : BitVec w) : BitVec w := if signed then x.srem y else x.umod y

/-- `bound`.  math/csprng/uniform_sampler.go:100. -/
def bound (signed : Bool) (N : BitVec w) : BitVec w := maxT w signed - rem signed (maxT w signed) N

/-- `0 <= res && res < bound`.  math/csprng/uniform_sampler.go:103. -/
def accept (signed : Bool) (N res : BitVec w) : Bool :=
  if signed then BitVec.sle 0 res && BitVec.slt res (bound signed N) else decide (res.toNat < (bound signed N).toNat)

/-- The loop of `SampleN`.  math/csprng/uniform_sampler.go:101-106. -/
def sampleLoop (signed : Bool) (N : BitVec w) : List (BitVec w) → Option (BitVec w × List (BitVec w))
  | [] => none
  | res :: rest => if accept signed N res then some (rem signed res N, rest) else sampleLoop signed N rest

/-- How a call that reads raw words ends: with a panic, with a value and the words that are left, or it is still
reading when the given words are used up. -/
inductive Outcome (w : Nat) (α : Type) where
  | panic
  | reading
  | ok (a : α) (rest : List (BitVec w))

def Outcome.ofOption {α : Type} : Option (α × List (BitVec w)) → Outcome w α
  | none => .reading
  | some (a, rest) => .ok a rest

/-- `SampleN`.  math/csprng/uniform_sampler.go:99-107. -/
def sampleN (signed : Bool) (N : BitVec w) (words : List (BitVec w)) : Outcome w (BitVec w) :=
  if N = 0 then .panic else .ofOption (sampleLoop signed N words)

/-! ### Binary samples -/

/-- One iteration; the state is the output, `buf` and the words that are left.
math/csprng/binary_sampler.go:41-45. -/
def bitStep (off : Nat) (st : (Nat → BitVec w) × BitVec 64 × List (BitVec 64)) (i : Nat) :
    Option ((Nat → BitVec w) × BitVec 64 × List (BitVec 64)) :=
  (if i &&& 63 = 0 then
    match st.2.2 with
    | [] => none
    | x :: rest => some (x, rest)
  else some st.2).map fun b => (upd st.1 (off + i) ((b.1 &&& 1).setWidth w), b.1.ushiftRight 1, b.2)

/-- `BinarySampler.SampleVecTo` for the slice of `len` elements that starts at `off`.
math/csprng/binary_sampler.go:38-47. -/
def sampleVec (off len : Nat) (out : Nat → BitVec w) (words : List (BitVec 64)) :
    Option ((Nat → BitVec w) × List (BitVec 64)) :=
  ((List.range len).foldlM (bitStep off) (out, 0, words)).map fun st => (st.1, st.2.2)

/-- One block.  math/csprng/binary_sampler.go:61-66. -/
def blockStep (bs : Nat) (st : (Nat → BitVec w) × List (BitVec 64)) (k : Nat) :
    Option ((Nat → BitVec w) × List (BitVec 64)) :=
  let out := (List.range bs).foldl (fun out j => upd out (k * bs + j) 0) st.1
  (sampleLoop false (BitVec.ofNat 64 bs + 1) st.2).map fun (offset, rest) =>
    if offset.toNat = bs then (out, rest) else (upd out (k * bs + offset.toNat) 1, rest)

/-- `SampleBlockVecTo` for a slice of `len` elements.  A block size of zero panics in the remainder, a negative one in the
first slice expression.  math/csprng/binary_sampler.go:55-68. -/
def sampleBlockVec (len : Nat) (blockSize : Int) (out : Nat → BitVec w) (words : List (BitVec 64)) :
    Outcome 64 (Nat → BitVec w) :=
  if blockSize = 0 then .panic
  else if (len : Int).tmod blockSize ≠ 0 then .panic
  else if len = 0 then .ok out words
  else if blockSize < 0 then .panic
  else .ofOption ((List.range (len / blockSize.toNat)).foldlM (blockStep blockSize.toNat) (out, words))

/-- The secret key made by `GenSecretKey`: `LWELargeKey.Value`, of length `dim`, of which the first `n` elements are the LWE
key.  tfhe/encryptor.go:139-147. -/
def genSecretKey (n dim : Nat) (blockSize : Int) (words : List (BitVec 64)) : Outcome 64 (Nat → BitVec w) :=
  if blockSize = 1 then .ofOption (sampleVec 0 dim (fun _ => 0) words)
  else match sampleBlockVec n blockSize (fun _ => (0 : BitVec w)) words with
    | .panic => .panic
    | .reading => .reading
    | .ok out rest => .ofOption (sampleVec n (dim - n) out rest)
end

end Tfhe.Rng
