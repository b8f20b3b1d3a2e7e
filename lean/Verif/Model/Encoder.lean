import Verif.Model.Float
import Mathlib.Data.BitVec

/-!
# Model of `tfhe/encoder.go`

`w` is the size of the torus type `T` (32 or 64); a Go `int` is `BitVec 64`.
-/
namespace Tfhe

/-- `EncodeLWECustom`. tfhe/encoder.go:37-43. -/
def encodeLWECustom {w : ℕ} (message : BitVec 64) (modulus scale : BitVec w) : BitVec w :=
  let encoded := message.setWidth w
  let encoded := if modulus ≠ 0 then encoded % modulus else encoded
  encoded * scale

/-- `messageModulus = T(math.Round(math.Exp2(logQ) / float64(scale)))`. tfhe/encoder.go:58. -/
def autoModulus (w : ℕ) (scale : ℕ) : Option ℕ :=
  if scale = 0 then none else toUint w (goRound (fl (2 ^ w / fl scale)))

/-- `DecodeLWECustom`; `none` is a panic (remainder by zero) or an out-of-range float conversion.
`int(...)` keeps the low 64 bits.  tfhe/encoder.go:55-61. -/
def decodeLWECustom {w : ℕ} (pt modulus scale : BitVec w) : Option ℤ :=
  (divRound w pt.toNat scale.toNat).bind fun decoded =>
  (if modulus = 0 then autoModulus w scale.toNat else some modulus.toNat).bind fun modulus =>
  if modulus = 0 then none else some (BitVec.ofNat 64 (decoded % modulus)).toInt

/-- `EncodeGLWECustomTo`: the new coefficients of a plaintext of rank `N`.
tfhe/encoder.go:101-111. -/
def encodeGLWECustom {w : ℕ} (N : ℕ) (messages : List (BitVec 64)) (modulus scale : BitVec w) :
    List (BitVec w) :=
  let length := min N messages.length
  (messages.take length).map (fun m => encodeLWECustom m modulus scale) ++
    List.replicate (N - length) 0

/-- `DecodeGLWECustomTo` into a slice of `outLen` elements: the values written (the first
`min N outLen` elements of the slice).  The code writes the automatic modulus back to the variable in
the first iteration, which gives the same value in all the others. tfhe/encoder.go:148-157. -/
def decodeGLWECustom {w : ℕ} (outLen : ℕ) (pt : List (BitVec w)) (modulus scale : BitVec w) :
    Option (List ℤ) :=
  (pt.take outLen).mapM (fun c => decodeLWECustom c modulus scale)

/-- The scale computed by `ParametersLiteral.Compile`. tfhe/params.go:427. -/
def compileScale (w : ℕ) (modulus : ℕ) : Option ℕ := divRound w (2 ^ (w - 1)) modulus

end Tfhe
