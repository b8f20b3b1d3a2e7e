import Verif.Model.Published
import Verif.Model.Gaussian

/-!
# `FHEWEncryptor.GenSecretKey`
-/
namespace Tfhe
open Rng Gauss Published

variable (M : Libm) {w : ℕ}

/-- `FHEWEncryptor.GenSecretKey`: the elements of `LWELargeKey`, in the array that the other keys share.  The Fourier
transform of the key is left out.  xtfhe/fhew_enc.go:70-77, tfhe/encryptor_key.go:31-48. -/
noncomputable def FHEWParams.genSecretKey (p : FHEWParams w) (ws : List (BitVec 32)) : Outcome 32 (List (BitVec w)) :=
  sampleVecTo M (stdDevQ M w p.secretKeyStdDev) (List.replicate p.baseParams.glweDimension.toNat 0) ws

/-- `LWEKey` of a key with these elements.  tfhe/encryptor_key.go:40. -/
def FHEWParams.lweKeyOf (p : FHEWParams w) (key : List (BitVec w)) : List (BitVec w) := key.take p.baseParams.lweDimension.toNat

/-- `GLWEKey.Value[i]` of a key with these elements.  tfhe/encryptor_key.go:34-37. -/
def FHEWParams.glweKeyOf (p : FHEWParams w) (key : List (BitVec w)) (i : ℕ) : List (BitVec w) :=
  (key.drop (i * p.baseParams.polyRank.toNat)).take p.baseParams.polyRank.toNat

end Tfhe
