import Mathlib.Data.Nat.Basic

/-!
# Model of `Copy`, `CopyFrom` and `Clear`

Ciphertexts and keys are trees of slices: a struct with a `Value` (or `Coeffs`) slice, whose elements are
numbers or again such structs, with gadget parameters or without.  A cell of memory holds a number or such a
struct.  Memory is a set of arrays; arrays from `next` on are not allocated.  Numbers are of any type with a
zero: words or floats.
-/
namespace Tfhe.Copies

/-- A slice: array, offset and length. -/
structure Slice where
  arr : ℕ
  off : ℕ
  len : ℕ
deriving DecidableEq

/-- A struct with one slice, and gadget parameters if its type has them. -/
structure Ref (G : Type) where
  g : Option G
  s : Slice
deriving DecidableEq

/-- A cell of memory. -/
inductive Cell (V G : Type) where
  | val (x : V)
  | ref (r : Ref G)

/-- Memory. -/
structure Heap (V G : Type) where
  next : ℕ
  arr : ℕ → ℕ → Cell V G

/-- Computations with memory; `none` is a panic. -/
def M (V G A : Type) : Type := Heap V G → Option (A × Heap V G)

variable {V G A B : Type}

instance : Monad (M V G) where
  pure a := fun h => some (a, h)
  bind p f := fun h => (p h).bind fun r => f r.1 r.2

/-- Element `i` of a slice. -/
def get (s : Slice) (i : ℕ) : M V G (Cell V G) := fun h => if i < s.len then some (h.arr s.arr (s.off + i), h) else none

/-- The struct at index `i` of a slice. -/
def getRef (s : Slice) (i : ℕ) : M V G (Ref G) := fun h =>
  if i < s.len then match h.arr s.arr (s.off + i) with
    | .ref r => some (r, h)
    | .val _ => none
  else none

/-- Assignment to element `i` of a slice. -/
def put (s : Slice) (i : ℕ) (c : Cell V G) : M V G Unit := fun h =>
  if i < s.len then
    some ((), { h with arr := fun a j => if a = s.arr ∧ j = s.off + i then c else h.arr a j })
  else none

/-- `make([]T, n)`. -/
def make (z : Cell V G) (n : ℕ) : M V G Slice := fun h =>
  some (⟨h.next, 0, n⟩, ⟨h.next + 1, fun a j => if a = h.next then z else h.arr a j⟩)

/-- `for i := 0; i < n; i++`. -/
def forN : ℕ → (ℕ → M V G Unit) → M V G Unit
  | 0, _ => pure ()
  | n + 1, f => do forN n f; f n

section
variable [Zero V]

/-! ### Slices of numbers -/

/-- `vec.Copy`: a new array with the same elements (`nil` and an empty slice are not distinguished).
math/vec/vec.go:150-155. -/
def vecCopy (s : Slice) : M V G Slice := do
  let s' ← make (.val 0) s.len
  forN s.len fun i => do put s' i (← get s i)
  return s'

/-- The builtin `copy`, for slices that do not overlap. -/
def goCopy (dst src : Slice) : M V G Unit :=
  forN (min dst.len src.len) fun i => do put dst i (← get src i)

/-- `vec.Fill` with zero.  math/vec/vec.go:44-48. -/
def fillZero (s : Slice) : M V G Unit := forN s.len fun i => put s i (.val 0)

/-- `Copy` of a struct with a slice of numbers. -/
def copyLeaf (r : Ref G) : M V G (Ref G) := do return ⟨none, ← vecCopy r.s⟩

/-- `CopyFrom` of a struct with a slice of numbers. -/
def copyFromLeaf (dst src : Ref G) : M V G (Ref G) := do
  goCopy dst.s src.s
  return dst

/-- `Clear` of a struct with a slice of numbers. -/
def clearLeaf (r : Ref G) : M V G Unit := fillZero r.s

/-! ### Slices of structs -/

/-- The elements of a new slice are copies. -/
def copyElems (f : Ref G → M V G (Ref G)) (s : Slice) : M V G Slice := do
  let s' ← make (.ref ⟨none, ⟨0, 0, 0⟩⟩) s.len
  forN s.len fun i => do put s' i (.ref (← f (← getRef s i)))
  return s'

/-- `for i := range dst { dst[i].CopyFrom(src[i]) }`; the method may change the struct. -/
def copyFromElems (f : Ref G → Ref G → M V G (Ref G)) (dst src : Slice) : M V G Unit :=
  forN dst.len fun i => do
    let d ← getRef dst i
    let x ← getRef src i
    put dst i (.ref (← f d x))

/-- `for i := range s { s[i].Clear() }`. -/
def clearElems (f : Ref G → M V G Unit) (s : Slice) : M V G Unit :=
  forN s.len fun i => do f (← getRef s i)

/-- `Copy` of a struct with a slice of structs, without gadget parameters. -/
def copyArr (f : Ref G → M V G (Ref G)) (r : Ref G) : M V G (Ref G) := do return ⟨none, ← copyElems f r.s⟩

/-- `Copy` of a struct with a slice of structs and gadget parameters. -/
def copyGad (f : Ref G → M V G (Ref G)) (r : Ref G) : M V G (Ref G) := do return ⟨r.g, ← copyElems f r.s⟩

/-- `CopyFrom` of a struct that leaves the gadget parameters alone, or has none. -/
def copyFromArr (f : Ref G → Ref G → M V G (Ref G)) (dst src : Ref G) : M V G (Ref G) := do
  copyFromElems f dst.s src.s
  return dst

/-- `CopyFrom` of a struct, which also assigns the gadget parameters. -/
def copyFromGad (f : Ref G → Ref G → M V G (Ref G)) (dst src : Ref G) : M V G (Ref G) := do
  copyFromElems f dst.s src.s
  return { dst with g := src.g }

/-- `Clear` of a struct with a slice of structs. -/
def clearArr (f : Ref G → M V G Unit) (r : Ref G) : M V G Unit := clearElems f r.s

/-! ### The types, one by one -/

/-- `poly.Poly.Copy`.  math/poly/poly.go:39-41. -/
def polyCopy : Ref G → M V G (Ref G) := copyLeaf

/-- `poly.Poly.CopyFrom`.  math/poly/poly.go:44-46. -/
def polyCopyFrom : Ref G → Ref G → M V G (Ref G) := copyFromLeaf

/-- `poly.Poly.Clear`.  math/poly/poly.go:55-57. -/
def polyClear : Ref G → M V G Unit := clearLeaf

/-- `poly.FFTPoly.Copy`.  math/poly/poly.go:101-103. -/
def fftPolyCopy : Ref G → M V G (Ref G) := copyLeaf

/-- `poly.FFTPoly.CopyFrom`.  math/poly/poly.go:106-108. -/
def fftPolyCopyFrom : Ref G → Ref G → M V G (Ref G) := copyFromLeaf

/-- `poly.FFTPoly.Clear`.  math/poly/poly.go:111-113. -/
def fftPolyClear : Ref G → M V G Unit := clearLeaf

/-- `tfhe.LWESecretKey.Copy`.  tfhe/lwe.go:24-26. -/
def lweSKCopy : Ref G → M V G (Ref G) := copyLeaf

/-- `tfhe.LWESecretKey.CopyFrom`.  tfhe/lwe.go:29-31. -/
def lweSKCopyFrom : Ref G → Ref G → M V G (Ref G) := copyFromLeaf

/-- `tfhe.LWESecretKey.Clear`.  tfhe/lwe.go:34-36. -/
def lweSKClear : Ref G → M V G Unit := clearLeaf

/-- `tfhe.LWECiphertext.Copy`.  tfhe/lwe.go:141-143. -/
def lweCopy : Ref G → M V G (Ref G) := copyLeaf

/-- `tfhe.LWECiphertext.CopyFrom`.  tfhe/lwe.go:146-148. -/
def lweCopyFrom : Ref G → Ref G → M V G (Ref G) := copyFromLeaf

/-- `tfhe.LWECiphertext.Clear`.  tfhe/lwe.go:151-153. -/
def lweClear : Ref G → M V G Unit := clearLeaf

/-- `mktfhe.LWECiphertext.Copy`.  mktfhe/lwe.go:25-27. -/
def mkLWECopy : Ref G → M V G (Ref G) := copyLeaf

/-- `mktfhe.LWECiphertext.CopyFrom`.  mktfhe/lwe.go:30-32. -/
def mkLWECopyFrom : Ref G → Ref G → M V G (Ref G) := copyFromLeaf

/-- `mktfhe.LWECiphertext.Clear`.  mktfhe/lwe.go:49-51. -/
def mkLWEClear : Ref G → M V G Unit := clearLeaf

/-- `tfhe.GLWESecretKey.Copy`.  tfhe/glwe.go:32-38. -/
def glweSKCopy : Ref G → M V G (Ref G) := copyArr polyCopy

/-- `tfhe.GLWESecretKey.CopyFrom`.  tfhe/glwe.go:41-45. -/
def glweSKCopyFrom : Ref G → Ref G → M V G (Ref G) := copyFromArr polyCopyFrom

/-- `tfhe.GLWESecretKey.Clear`.  tfhe/glwe.go:48-52. -/
def glweSKClear : Ref G → M V G Unit := clearArr polyClear

/-- `tfhe.GLWECiphertext.Copy`.  tfhe/glwe.go:178-184. -/
def glweCopy : Ref G → M V G (Ref G) := copyArr polyCopy

/-- `tfhe.GLWECiphertext.CopyFrom`.  tfhe/glwe.go:187-191. -/
def glweCopyFrom : Ref G → Ref G → M V G (Ref G) := copyFromArr polyCopyFrom

/-- `tfhe.GLWECiphertext.Clear`.  tfhe/glwe.go:194-198. -/
def glweClear : Ref G → M V G Unit := clearArr polyClear

/-- `tfhe.GLWEPublicKey.Copy`.  tfhe/glwe.go:98-104. -/
def glwePKCopy : Ref G → M V G (Ref G) := copyArr glweCopy

/-- `tfhe.GLWEPublicKey.CopyFrom`.  tfhe/glwe.go:107-111. -/
def glwePKCopyFrom : Ref G → Ref G → M V G (Ref G) := copyFromArr glweCopyFrom

/-- `tfhe.GLWEPublicKey.Clear`.  tfhe/glwe.go:114-118. -/
def glwePKClear : Ref G → M V G Unit := clearArr glweClear

/-- `tfhe.LWEPublicKey.Copy`.  tfhe/lwe.go:72-78. -/
def lwePKCopy : Ref G → M V G (Ref G) := copyArr glweCopy

/-- `tfhe.LWEPublicKey.CopyFrom`.  tfhe/lwe.go:81-85. -/
def lwePKCopyFrom : Ref G → Ref G → M V G (Ref G) := copyFromArr glweCopyFrom

/-- `tfhe.LWEPublicKey.Clear`.  tfhe/lwe.go:88-92. -/
def lwePKClear : Ref G → M V G Unit := clearArr glweClear

/-- `tfhe.FFTGLWESecretKey.Copy`.  tfhe/fft_glwe.go:30-36. -/
def fftGLWESKCopy : Ref G → M V G (Ref G) := copyArr fftPolyCopy

/-- `tfhe.FFTGLWESecretKey.CopyFrom`.  tfhe/fft_glwe.go:39-43. -/
def fftGLWESKCopyFrom : Ref G → Ref G → M V G (Ref G) := copyFromArr fftPolyCopyFrom

/-- `tfhe.FFTGLWESecretKey.Clear`.  tfhe/fft_glwe.go:46-50. -/
def fftGLWESKClear : Ref G → M V G Unit := clearArr fftPolyClear

/-- `tfhe.FFTGLWECiphertext.Copy`.  tfhe/fft_glwe.go:79-85. -/
def fftGLWECopy : Ref G → M V G (Ref G) := copyArr fftPolyCopy

/-- `tfhe.FFTGLWECiphertext.CopyFrom`.  tfhe/fft_glwe.go:88-92. -/
def fftGLWECopyFrom : Ref G → Ref G → M V G (Ref G) := copyFromArr fftPolyCopyFrom

/-- `tfhe.FFTGLWECiphertext.Clear`.  tfhe/fft_glwe.go:95-99. -/
def fftGLWEClear : Ref G → M V G Unit := clearArr fftPolyClear

/-- `mktfhe.GLWECiphertext.Copy`.  mktfhe/glwe.go:35-41. -/
def mkGLWECopy : Ref G → M V G (Ref G) := copyArr polyCopy

/-- `mktfhe.GLWECiphertext.CopyFrom`.  mktfhe/glwe.go:44-48. -/
def mkGLWECopyFrom : Ref G → Ref G → M V G (Ref G) := copyFromArr polyCopyFrom

/-- `mktfhe.GLWECiphertext.Clear`.  mktfhe/glwe.go:64-68. -/
def mkGLWEClear : Ref G → M V G Unit := clearArr polyClear

/-- `mktfhe.FFTGLWECiphertext.Copy`.  mktfhe/fft_glwe.go:33-39. -/
def mkFFTGLWECopy : Ref G → M V G (Ref G) := copyArr fftPolyCopy

/-- `mktfhe.FFTGLWECiphertext.CopyFrom`.  mktfhe/fft_glwe.go:42-46. -/
def mkFFTGLWECopyFrom : Ref G → Ref G → M V G (Ref G) := copyFromArr fftPolyCopyFrom

/-- `mktfhe.FFTGLWECiphertext.Clear`.  mktfhe/fft_glwe.go:62-66. -/
def mkFFTGLWEClear : Ref G → M V G Unit := clearArr fftPolyClear

/-- `tfhe.LookUpTable.Copy`.  tfhe/bootstrap_lut.go:37-43. -/
def lutCopy : Ref G → M V G (Ref G) := copyArr polyCopy

/-- `tfhe.LookUpTable.CopyFrom`.  tfhe/bootstrap_lut.go:46-50. -/
def lutCopyFrom : Ref G → Ref G → M V G (Ref G) := copyFromArr polyCopyFrom

/-- `tfhe.LookUpTable.Clear`.  tfhe/bootstrap_lut.go:53-57. -/
def lutClear : Ref G → M V G Unit := clearArr polyClear

/-- `tfhe.LevCiphertext.Copy`.  tfhe/lwe.go:182-188. -/
def levCopy : Ref G → M V G (Ref G) := copyGad lweCopy

/-- `tfhe.LevCiphertext.CopyFrom`.  tfhe/lwe.go:191-196. -/
def levCopyFrom : Ref G → Ref G → M V G (Ref G) := copyFromGad lweCopyFrom

/-- `tfhe.LevCiphertext.Clear`.  tfhe/lwe.go:199-203. -/
def levClear : Ref G → M V G Unit := clearArr lweClear

/-- `tfhe.GSWCiphertext.Copy`.  tfhe/lwe.go:234-240. -/
def gswCopy : Ref G → M V G (Ref G) := copyGad levCopy

/-- `tfhe.GSWCiphertext.CopyFrom`.  tfhe/lwe.go:243-248. -/
def gswCopyFrom : Ref G → Ref G → M V G (Ref G) := copyFromGad levCopyFrom

/-- `tfhe.GSWCiphertext.Clear`.  tfhe/lwe.go:251-255. -/
def gswClear : Ref G → M V G Unit := clearArr levClear

/-- `tfhe.GLevCiphertext.Copy`.  tfhe/glwe.go:252-258. -/
def glevCopy : Ref G → M V G (Ref G) := copyGad glweCopy

/-- `tfhe.GLevCiphertext.CopyFrom`.  tfhe/glwe.go:261-266. -/
def glevCopyFrom : Ref G → Ref G → M V G (Ref G) := copyFromGad glweCopyFrom

/-- `tfhe.GLevCiphertext.Clear`.  tfhe/glwe.go:269-273. -/
def glevClear : Ref G → M V G Unit := clearArr glweClear

/-- `tfhe.GGSWCiphertext.Copy`.  tfhe/glwe.go:303-309. -/
def ggswCopy : Ref G → M V G (Ref G) := copyGad glevCopy

/-- `tfhe.GGSWCiphertext.CopyFrom`.  tfhe/glwe.go:312-317. -/
def ggswCopyFrom : Ref G → Ref G → M V G (Ref G) := copyFromGad glevCopyFrom

/-- `tfhe.GGSWCiphertext.Clear`.  tfhe/glwe.go:320-324. -/
def ggswClear : Ref G → M V G Unit := clearArr glevClear

/-- `tfhe.FFTGLevCiphertext.Copy`.  tfhe/fft_glwe.go:128-134. -/
def fftGLevCopy : Ref G → M V G (Ref G) := copyGad fftGLWECopy

/-- `tfhe.FFTGLevCiphertext.CopyFrom`.  tfhe/fft_glwe.go:137-142. -/
def fftGLevCopyFrom : Ref G → Ref G → M V G (Ref G) := copyFromGad fftGLWECopyFrom

/-- `tfhe.FFTGLevCiphertext.Clear`.  tfhe/fft_glwe.go:145-149. -/
def fftGLevClear : Ref G → M V G Unit := clearArr fftGLWEClear

/-- `tfhe.FFTGGSWCiphertext.Copy`.  tfhe/fft_glwe.go:178-184. -/
def fftGGSWCopy : Ref G → M V G (Ref G) := copyGad fftGLevCopy

/-- `tfhe.FFTGGSWCiphertext.CopyFrom`.  tfhe/fft_glwe.go:187-192. -/
def fftGGSWCopyFrom : Ref G → Ref G → M V G (Ref G) := copyFromGad fftGLevCopyFrom

/-- `tfhe.FFTGGSWCiphertext.Clear`.  tfhe/fft_glwe.go:195-199. -/
def fftGGSWClear : Ref G → M V G Unit := clearArr fftGLevClear

/-- `tfhe.BlindRotateKey.Copy`.  tfhe/bootstrap_key.go:79-85. -/
def brkCopy : Ref G → M V G (Ref G) := copyGad fftGGSWCopy

/-- `tfhe.BlindRotateKey.CopyFrom`.  tfhe/bootstrap_key.go:88-93. -/
def brkCopyFrom : Ref G → Ref G → M V G (Ref G) := copyFromGad fftGGSWCopyFrom

/-- `tfhe.BlindRotateKey.Clear`.  tfhe/bootstrap_key.go:96-100. -/
def brkClear : Ref G → M V G Unit := clearArr fftGGSWClear

/-- `tfhe.LWEKeySwitchKey.Copy`.  tfhe/keyswitch_key.go:45-51. -/
def lweKSKCopy : Ref G → M V G (Ref G) := copyGad levCopy

/-- `tfhe.LWEKeySwitchKey.CopyFrom`.  tfhe/keyswitch_key.go:54-59. -/
def lweKSKCopyFrom : Ref G → Ref G → M V G (Ref G) := copyFromGad levCopyFrom

/-- `tfhe.LWEKeySwitchKey.Clear`.  tfhe/keyswitch_key.go:62-66. -/
def lweKSKClear : Ref G → M V G Unit := clearArr levClear

/-- `tfhe.GLWEKeySwitchKey.Copy`.  tfhe/keyswitch_key.go:100-106. -/
def glweKSKCopy : Ref G → M V G (Ref G) := copyGad fftGLevCopy

/-- `tfhe.GLWEKeySwitchKey.CopyFrom`.  tfhe/keyswitch_key.go:109-114. -/
def glweKSKCopyFrom : Ref G → Ref G → M V G (Ref G) := copyFromGad fftGLevCopyFrom

/-- `tfhe.GLWEKeySwitchKey.Clear`.  tfhe/keyswitch_key.go:117-121. -/
def glweKSKClear : Ref G → M V G Unit := clearArr fftGLevClear

/-- `mktfhe.UniEncryption.Copy`.  mktfhe/glwe.go:127-133. -/
def uniCopy : Ref G → M V G (Ref G) := copyGad glevCopy

/-- `mktfhe.UniEncryption.CopyFrom`. It does not assign `GadgetParams`.  mktfhe/glwe.go:136-140. -/
def uniCopyFrom : Ref G → Ref G → M V G (Ref G) := copyFromArr glevCopyFrom

/-- `mktfhe.UniEncryption.Clear`.  mktfhe/glwe.go:143-147. -/
def uniClear : Ref G → M V G Unit := clearArr glevClear

/-- `mktfhe.FFTUniEncryption.Copy`.  mktfhe/fft_glwe.go:100-106. -/
def fftUniCopy : Ref G → M V G (Ref G) := copyGad fftGLevCopy

/-- `mktfhe.FFTUniEncryption.CopyFrom`. It does not assign `GadgetParams`.  mktfhe/fft_glwe.go:109-113. -/
def fftUniCopyFrom : Ref G → Ref G → M V G (Ref G) := copyFromArr fftGLevCopyFrom

/-- `mktfhe.FFTUniEncryption.Clear`.  mktfhe/fft_glwe.go:116-120. -/
def fftUniClear : Ref G → M V G Unit := clearArr fftGLevClear

/-- The types with one slice. -/
inductive Kind where
  | poly | fftPoly | lweSK | lwe | mkLWE
  | glweSK | glwe | glwePK | lwePK | fftGLWESK | fftGLWE | mkGLWE | mkFFTGLWE | lut
  | lev | gsw | glev | ggsw | fftGLev | fftGGSW | brk | lweKSK | glweKSK | uni | fftUni
deriving DecidableEq

/-- The method `Copy` of a type. -/
def Kind.copy : Kind → Ref G → M V G (Ref G)
  | .poly => polyCopy
  | .fftPoly => fftPolyCopy
  | .lweSK => lweSKCopy
  | .lwe => lweCopy
  | .mkLWE => mkLWECopy
  | .glweSK => glweSKCopy
  | .glwe => glweCopy
  | .glwePK => glwePKCopy
  | .lwePK => lwePKCopy
  | .fftGLWESK => fftGLWESKCopy
  | .fftGLWE => fftGLWECopy
  | .mkGLWE => mkGLWECopy
  | .mkFFTGLWE => mkFFTGLWECopy
  | .lut => lutCopy
  | .lev => levCopy
  | .gsw => gswCopy
  | .glev => glevCopy
  | .ggsw => ggswCopy
  | .fftGLev => fftGLevCopy
  | .fftGGSW => fftGGSWCopy
  | .brk => brkCopy
  | .lweKSK => lweKSKCopy
  | .glweKSK => glweKSKCopy
  | .uni => uniCopy
  | .fftUni => fftUniCopy

/-- The method `CopyFrom` of a type. -/
def Kind.copyFrom : Kind → Ref G → Ref G → M V G (Ref G)
  | .poly => polyCopyFrom
  | .fftPoly => fftPolyCopyFrom
  | .lweSK => lweSKCopyFrom
  | .lwe => lweCopyFrom
  | .mkLWE => mkLWECopyFrom
  | .glweSK => glweSKCopyFrom
  | .glwe => glweCopyFrom
  | .glwePK => glwePKCopyFrom
  | .lwePK => lwePKCopyFrom
  | .fftGLWESK => fftGLWESKCopyFrom
  | .fftGLWE => fftGLWECopyFrom
  | .mkGLWE => mkGLWECopyFrom
  | .mkFFTGLWE => mkFFTGLWECopyFrom
  | .lut => lutCopyFrom
  | .lev => levCopyFrom
  | .gsw => gswCopyFrom
  | .glev => glevCopyFrom
  | .ggsw => ggswCopyFrom
  | .fftGLev => fftGLevCopyFrom
  | .fftGGSW => fftGGSWCopyFrom
  | .brk => brkCopyFrom
  | .lweKSK => lweKSKCopyFrom
  | .glweKSK => glweKSKCopyFrom
  | .uni => uniCopyFrom
  | .fftUni => fftUniCopyFrom

/-- The method `Clear` of a type. -/
def Kind.clear : Kind → Ref G → M V G Unit
  | .poly => polyClear
  | .fftPoly => fftPolyClear
  | .lweSK => lweSKClear
  | .lwe => lweClear
  | .mkLWE => mkLWEClear
  | .glweSK => glweSKClear
  | .glwe => glweClear
  | .glwePK => glwePKClear
  | .lwePK => lwePKClear
  | .fftGLWESK => fftGLWESKClear
  | .fftGLWE => fftGLWEClear
  | .mkGLWE => mkGLWEClear
  | .mkFFTGLWE => mkFFTGLWEClear
  | .lut => lutClear
  | .lev => levClear
  | .gsw => gswClear
  | .glev => glevClear
  | .ggsw => ggswClear
  | .fftGLev => fftGLevClear
  | .fftGGSW => fftGGSWClear
  | .brk => brkClear
  | .lweKSK => lweKSKClear
  | .glweKSK => glweKSKClear
  | .uni => uniClear
  | .fftUni => fftUniClear

/-! ### Keys with several parts -/

/-- `tfhe.EvaluationKey.Copy`.  tfhe/bootstrap_key.go:31-36. -/
def evkCopy (k : Ref G × Ref G) : M V G (Ref G × Ref G) := do
  let b ← brkCopy k.1
  let s ← lweKSKCopy k.2
  return (b, s)

/-- `tfhe.EvaluationKey.CopyFrom`.  tfhe/bootstrap_key.go:39-42. -/
def evkCopyFrom (k kIn : Ref G × Ref G) : M V G (Ref G × Ref G) := do
  let b ← brkCopyFrom k.1 kIn.1
  let s ← lweKSKCopyFrom k.2 kIn.2
  return (b, s)

/-- `tfhe.EvaluationKey.Clear`.  tfhe/bootstrap_key.go:45-48. -/
def evkClear (k : Ref G × Ref G) : M V G Unit := do
  brkClear k.1
  lweKSKClear k.2

/-- `tfhe.PublicKey.Copy`.  tfhe/encryptor_key.go:144-149. -/
def pkCopy (k : Ref G × Ref G) : M V G (Ref G × Ref G) := do
  let l ← lwePKCopy k.1
  let g ← glwePKCopy k.2
  return (l, g)

/-- `tfhe.PublicKey.CopyFrom`.  tfhe/encryptor_key.go:152-155. -/
def pkCopyFrom (k kIn : Ref G × Ref G) : M V G (Ref G × Ref G) := do
  let l ← lwePKCopyFrom k.1 kIn.1
  let g ← glwePKCopyFrom k.2 kIn.2
  return (l, g)

/-- `tfhe.PublicKey.Clear`.  tfhe/encryptor_key.go:158-161. -/
def pkClear (k : Ref G × Ref G) : M V G Unit := do
  lwePKClear k.1
  glwePKClear k.2

/-- `mktfhe.EvaluationKey.Copy`.  mktfhe/bootstrap_key.go:34-40. -/
def mkEvkCopy (k : (Ref G × Ref G) × Ref G × Ref G) : M V G ((Ref G × Ref G) × Ref G × Ref G) := do
  let e ← evkCopy k.1
  let c ← fftGLevCopy k.2.1
  let u ← fftUniCopy k.2.2
  return (e, c, u)

/-- `mktfhe.EvaluationKey.CopyFrom`.  mktfhe/bootstrap_key.go:43-47. -/
def mkEvkCopyFrom (k kIn : (Ref G × Ref G) × Ref G × Ref G) : M V G ((Ref G × Ref G) × Ref G × Ref G) := do
  let e ← evkCopyFrom k.1 kIn.1
  let c ← fftGLevCopyFrom k.2.1 kIn.2.1
  let u ← fftUniCopyFrom k.2.2 kIn.2.2
  return (e, c, u)

/-- `mktfhe.EvaluationKey.Clear`.  mktfhe/bootstrap_key.go:50-54. -/
def mkEvkClear (k : (Ref G × Ref G) × Ref G × Ref G) : M V G Unit := do
  evkClear k.1
  fftGLevClear k.2.1
  fftUniClear k.2.2

end

end Tfhe.Copies
