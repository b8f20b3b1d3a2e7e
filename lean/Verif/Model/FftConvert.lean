import Mathlib.Data.List.Basic
import Mathlib.Data.Nat.Notation

/-!
# Model of the conversion of keys and ciphertexts to and from the Fourier domain

`tfhe/fft_glwe_conv.go` and `mktfhe/fft_glwe_conv.go`.  The transform of one polynomial is an arbitrary function `f`, for
`FwdFFTTo` or `InvFFTTo`, which overwrite their output (C45, C49); `none` is an index panic.  What a panicking call has written
before the panic is not modelled.
-/
namespace Tfhe.Conv

/-- A loop over the elements of the output: `for i := 0; i < len(out); i++ { inner(out[i], ct[i]) }`.
tfhe/fft_glwe_conv.go:40-42, 54-56, 68-70. -/
def loopOut {A B : Type} (inner : A → B → Option A) : List A → List B → Option (List A)
  | [], _ => some []
  | _ :: _, [] => none
  | o :: out, c :: ct => (inner o c).bind fun o' => (loopOut inner out ct).map (o' :: ·)

/-- A loop over the elements of the input: `for i := 0; i < len(ct); i++ { inner(out[i], ct[i]) }`.
tfhe/fft_glwe_conv.go:82-84, 124-126, 138-140, mktfhe/fft_glwe_conv.go:37-39, 51-53, 65-67, 79-81. -/
def loopIn {A B : Type} (inner : A → B → Option A) : List A → List B → Option (List A)
  | out, [] => some out
  | [], _ :: _ => none
  | o :: out, c :: ct => (inner o c).bind fun o' => (loopIn inner out ct).map (o' :: ·)

/-- A loop over the levels: `for i := 0; i < level; i++ { inner(out[i], ct[i]) }`.
tfhe/fft_glwe_conv.go:96-98, 110-112, mktfhe/fft_glwe_conv.go:93-99, 111-117. -/
def loopLevel {A B : Type} (inner : A → B → Option A) : ℕ → List A → List B → Option (List A)
  | 0, out, _ => some out
  | n + 1, o :: out, c :: ct => (inner o c).bind fun o' => (loopLevel inner n out ct).map (o' :: ·)
  | _ + 1, _, _ => none

/-- `GLevCiphertext` and `FFTGLevCiphertext`: the level of `GadgetParams`, and `Value`.  tfhe/glwe.go:226-231. -/
structure GLev (P : Type) where
  level : ℕ
  value : List (List P)
deriving DecidableEq

section
variable {P Q : Type} (f : P → Q) (zero : Q)

/-- `FwdFFTGLWESecretKeyTo`, `InvFFTGLWESecretKeyTo` and `FwdFFTGLWECiphertextTo` of a single-key transformer.
tfhe/fft_glwe_conv.go:39-43, 53-57, 67-71. -/
def polysTo (out : List Q) (ct : List P) : Option (List Q) := loopOut (fun _ p => some (f p)) out ct

/-- `InvFFTGLWECiphertextTo`, and the functions on keys and ciphertexts of a multi-key transformer.
tfhe/fft_glwe_conv.go:81-85, mktfhe/fft_glwe_conv.go:36-40, 50-54, 64-68, 78-82. -/
def polysInTo (out : List Q) (ct : List P) : Option (List Q) := loopIn (fun _ p => some (f p)) out ct

/-- The functions that allocate a key or a ciphertext, with either loop `conv`: the new one has as many polynomials as the argument.
tfhe/fft_glwe_conv.go:32-36, 46-50, 60-64, 74-78, mktfhe/fft_glwe_conv.go:29-33, 43-47, 57-61, 71-75. -/
def polysNew (conv : List Q → List P → Option (List Q)) (ct : List P) : Option (List Q) :=
  conv (List.replicate ct.length zero) ct

/-- `FwdFFTGLevCiphertextTo` and `InvFFTGLevCiphertextTo`; `conv` is the loop over one ciphertext.
tfhe/fft_glwe_conv.go:95-99, 109-113. -/
def glevTo (conv : List Q → List P → Option (List Q)) (out : GLev Q) (ct : GLev P) : Option (GLev Q) :=
  (loopLevel conv out.level out.value ct.value).map fun v => { out with value := v }

/-- `NewFFTGLevCiphertextCustom` and `NewGLevCiphertextCustom`; `len` is the number of polynomials of a ciphertext.
tfhe/glwe.go:243-249. -/
def glevZero (len level : ℕ) : GLev Q := ⟨level, List.replicate level (List.replicate len zero)⟩

/-- `FwdFFTGLevCiphertext` and `InvFFTGLevCiphertext`: `ct.Value[0]` panics without levels.
tfhe/fft_glwe_conv.go:88-92, 102-106. -/
def glevNew (conv : List Q → List P → Option (List Q)) (ct : GLev P) : Option (GLev Q) :=
  ct.value.head?.bind fun c => glevTo conv (glevZero zero c.length ct.level) ct

/-- `FwdFFTGGSWCiphertextTo` and `InvFFTGGSWCiphertextTo`.  tfhe/fft_glwe_conv.go:123-127, 137-141. -/
def ggswTo (conv : List Q → List P → Option (List Q)) (out : List (GLev Q)) (ct : List (GLev P)) : Option (List (GLev Q)) :=
  loopIn (glevTo conv) out ct

/-- `FwdFFTGGSWCiphertext` and `InvFFTGGSWCiphertext`: rank `len(ct.Value)-1`, so `len(ct.Value)` leveled ciphertexts of as many
polynomials, with the level `level` of `ct.GadgetParams`.  tfhe/fft_glwe_conv.go:116-120, 130-134. -/
def ggswNew (conv : List Q → List P → Option (List Q)) (level : ℕ) (ct : List (GLev P)) : Option (List (GLev Q)) :=
  ggswTo conv (List.replicate ct.length (glevZero zero ct.length level)) ct

/-- The two polynomials of one half of one level of a uni-encryption.  mktfhe/fft_glwe_conv.go:94-95, 97-98, 112-113, 115-116. -/
def pairTo (_ : Q × Q) (ct : P × P) : Option (Q × Q) := some (f ct.1, f ct.2)

/-- `FwdFFTUniEncryptionTo` and `InvFFTUniEncryptionTo`; `level` is that of the input.  The two halves are separate slices, so
that the interleaved loop is one loop for each.  mktfhe/fft_glwe_conv.go:92-100, 110-118. -/
def uniTo (level : ℕ) (out : List (Q × Q) × List (Q × Q)) (ct : List (P × P) × List (P × P)) :
    Option (List (Q × Q) × List (Q × Q)) :=
  (loopLevel (pairTo f) level out.1 ct.1).bind fun a => (loopLevel (pairTo f) level out.2 ct.2).map fun b => (a, b)

/-- `FwdFFTUniEncryption` and `InvFFTUniEncryption`, with `NewFFTUniEncryptionCustom` and `NewUniEncryptionCustom`: two leveled
ciphertexts of rank 1 with the level of the input.
mktfhe/fft_glwe_conv.go:85-89, 103-107, mktfhe/fft_glwe.go:89-97, mktfhe/glwe.go:116-124. -/
def uniNew (level : ℕ) (ct : List (P × P) × List (P × P)) : Option (List (Q × Q) × List (Q × Q)) :=
  uniTo f level (List.replicate level (zero, zero), List.replicate level (zero, zero)) ct
end
end Tfhe.Conv
