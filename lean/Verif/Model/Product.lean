import Verif.Model.Glwe
import Verif.Model.Gadget
import Verif.Spec.Noise

/-!
# Model of `tfhe/product.go`, `tfhe/keyswitch.go` and of gadget encryption

Ciphertexts are vectors over a commutative ring (`BitVec w` for LWE, `Poly N (BitVec w)` for GLWE).
The GLWE functions accumulate in the Fourier domain and convert back at the end.  In the model the
accumulation is exact and everything the floating-point computation adds (including the rounding of
keys to Fourier form) is one arbitrary error polynomial per component of the result.
-/
namespace Tfhe

/-- Scalar decomposition as a gadget.  Only digits `j < level` are used, and those exist
(`C01_length`).  tfhe/decomposer.go:114-124, weights `BaseQ(j)` of tfhe/params.go:90-92. -/
def scalarGadget {w : Nat} (g : GadgetParams w) : Gadget (BitVec w) where
  level := g.level
  dec a j := (decomposeScalar g a).getD j 0
  g j := g.baseQ j

/-- `decomposePolyTo`: the scalar decomposition of every coefficient.  tfhe/asm_decompose.go:11-24. -/
def polyGadget {w : Nat} (N : Nat) [NeZero N] (g : GadgetParams w) : Gadget (Poly N (BitVec w)) where
  level := g.level
  dec p j := fun i => (decomposeScalar g (p i)).getD j 0
  g j := Poly.C N (g.baseQ j)

section
variable {R : Type} [CommRing R] {k : Nat}

/-- `ctOut = d * ct` (`ScalarMulTo`, `FFTPolyMulFFTGLWETo`).  tfhe/fft_glwe_ops.go:144-148. -/
def ctMul (d : R) (ct : Fin (k + 1) → R) : Fin (k + 1) → R := fun t => d * ct t
/-- `ctOut += d * ct` (`ScalarMulAddTo`, `FFTPolyMulAddFFTGLWETo`).  tfhe/fft_glwe_ops.go:151-155. -/
def ctMulAdd (acc : Fin (k + 1) → R) (d : R) (ct : Fin (k + 1) → R) : Fin (k + 1) → R :=
  fun t => acc t + d * ct t
/-- `ctOut -= d * ct` (`ScalarMulSubTo`, `FFTPolyMulSubFFTGLWETo`).  tfhe/fft_glwe_ops.go:158-162. -/
def ctMulSub (acc : Fin (k + 1) → R) (d : R) (ct : Fin (k + 1) → R) : Fin (k + 1) → R :=
  fun t => acc t - d * ct t

/-- `GadgetProdLWETo` and `GadgetProdFFTGLWETo`: the first product overwrites, the others accumulate.
tfhe/product.go:16-24, 114-119. -/
def gadgetProd (level : Nat) (lev : Nat → Fin (k + 1) → R) (d : Nat → R) : Fin (k + 1) → R :=
  (List.range' 1 (level - 1)).foldl (fun acc j => ctMulAdd acc (d j) (lev j)) (ctMul (d 0) (lev 0))
/-- `GadgetProdAddLWETo` and `GadgetProdAddFFTGLWETo`.  tfhe/product.go:27-34, 122-126. -/
def gadgetProdAdd (level : Nat) (acc : Fin (k + 1) → R) (lev : Nat → Fin (k + 1) → R) (d : Nat → R) :
    Fin (k + 1) → R :=
  (List.range level).foldl (fun acc j => ctMulAdd acc (d j) (lev j)) acc
/-- `GadgetProdSubLWETo` and `GadgetProdSubFFTGLWETo`.  tfhe/product.go:37-44, 129-133. -/
def gadgetProdSub (level : Nat) (acc : Fin (k + 1) → R) (lev : Nat → Fin (k + 1) → R) (d : Nat → R) :
    Fin (k + 1) → R :=
  (List.range level).foldl (fun acc j => ctMulSub acc (d j) (lev j)) acc

/-- `GadgetProdGLWETo`.  tfhe/product.go:54-71. -/
def gadgetProdGLWE (G : Gadget R) (lev : Nat → Fin (k + 1) → R) (p : R) (err : Fin (k + 1) → R) :
    Fin (k + 1) → R :=
  fun t => gadgetProd G.level lev (G.dec p) t + err t
/-- `GadgetProdAddGLWETo`.  tfhe/product.go:74-91. -/
def gadgetProdAddGLWE (G : Gadget R) (out : Fin (k + 1) → R) (lev : Nat → Fin (k + 1) → R) (p : R)
    (err : Fin (k + 1) → R) : Fin (k + 1) → R :=
  fun t => out t + (gadgetProd G.level lev (G.dec p) t + err t)
/-- `GadgetProdSubGLWETo`.  tfhe/product.go:94-111. -/
def gadgetProdSubGLWE (G : Gadget R) (out : Fin (k + 1) → R) (lev : Nat → Fin (k + 1) → R) (p : R)
    (err : Fin (k + 1) → R) : Fin (k + 1) → R :=
  fun t => out t - (gadgetProd G.level lev (G.dec p) t + err t)

/-- The accumulation of the external products (`ExternalProdLWETo`, `ExternalProdGLWETo`,
`ExternalProdFFTGLWETo`): row 0 first, then rows 1 to `k`.
tfhe/product.go:143-160, 210-229, 276-287. -/
def extProd (level : Nat) (ct : Fin (k + 1) → Nat → Fin (k + 1) → R) (d : Fin (k + 1) → Nat → R) :
    Fin (k + 1) → R :=
  Fin.foldl k (fun acc i => gadgetProdAdd level acc (ct i.succ) (d i.succ)) (gadgetProd level (ct 0) (d 0))
/-- `ExternalProdAddFFTGLWETo`.  tfhe/product.go:290-296. -/
def extProdAddFFT (level : Nat) (acc : Fin (k + 1) → R) (ct : Fin (k + 1) → Nat → Fin (k + 1) → R)
    (d : Fin (k + 1) → Nat → R) : Fin (k + 1) → R :=
  Fin.foldl (k + 1) (fun acc i => gadgetProdAdd level acc (ct i) (d i)) acc
/-- `ExternalProdSubFFTGLWETo`.  tfhe/product.go:299-305. -/
def extProdSubFFT (level : Nat) (acc : Fin (k + 1) → R) (ct : Fin (k + 1) → Nat → Fin (k + 1) → R)
    (d : Fin (k + 1) → Nat → R) : Fin (k + 1) → R :=
  Fin.foldl (k + 1) (fun acc i => gadgetProdSub level acc (ct i) (d i)) acc

/-- A vector as a function on all naturals (only used below its length). -/
def ext0 {n : Nat} (c : Fin n → R) : Nat → R := fun i => if h : i < n then c ⟨i, h⟩ else 0

/-- `ExternalProdLWETo` (`err = 0`) and `ExternalProdGLWETo`: everything is read before the output is
written.  tfhe/product.go:143-160, 210-229. -/
def externalProdTo (G : Gadget R) (k out : Nat) (gsw : Fin (k + 1) → Nat → Fin (k + 1) → R) (ct : Nat)
    (err : Fin (k + 1) → R) (m : Mem R) : Mem R :=
  let acc := extProd G.level gsw (fun i => G.dec (m ct i))
  mapLoopI (fun i _ _ _ => ext0 (fun t => acc t + err t) i) out out out (List.range (k + 1)) m
/-- `ExternalProdAddLWETo` (`err = 0`) and `ExternalProdAddGLWETo`.  tfhe/product.go:163-180, 232-251. -/
def externalProdAddTo (G : Gadget R) (k out : Nat) (gsw : Fin (k + 1) → Nat → Fin (k + 1) → R) (ct : Nat)
    (err : Fin (k + 1) → R) (m : Mem R) : Mem R :=
  let acc := extProd G.level gsw (fun i => G.dec (m ct i))
  mapLoopI (fun i o _ _ => o + ext0 (fun t => acc t + err t) i) out out out (List.range (k + 1)) m
/-- `ExternalProdSubLWETo` (`err = 0`) and `ExternalProdSubGLWETo`.  tfhe/product.go:183-200, 254-273. -/
def externalProdSubTo (G : Gadget R) (k out : Nat) (gsw : Fin (k + 1) → Nat → Fin (k + 1) → R) (ct : Nat)
    (err : Fin (k + 1) → R) (m : Mem R) : Mem R :=
  let acc := extProd G.level gsw (fun i => G.dec (m ct i))
  mapLoopI (fun i o _ _ => o - ext0 (fun t => acc t + err t) i) out out out (List.range (k + 1)) m

/-- `CMuxTo`; `buf` is `e.buf.ctCMux`.  tfhe/product.go:317-321. -/
def cmuxTo (G : Gadget R) (k out : Nat) (gsw : Fin (k + 1) → Nat → Fin (k + 1) → R) (ct0 ct1 buf : Nat)
    (err : Fin (k + 1) → R) (m : Mem R) : Mem R :=
  let m := mapLoopI (fun _ _ a _ => a) out ct0 ct0 (List.range (k + 1)) m
  let m := subGLWETo k buf ct1 ct0 m
  externalProdAddTo G k out gsw buf err m

/-- The accumulation of `KeySwitchLWETo` and `KeySwitchGLWETo`; the input has `n + 1` mask elements.
tfhe/keyswitch.go:13-31, 43-64. -/
def keySwitchAcc (level : Nat) {n : Nat} (ksk : Fin (n + 1) → Nat → Fin (k + 1) → R)
    (d : Fin (n + 1) → Nat → R) : Fin (k + 1) → R :=
  Fin.foldl n (fun acc i => gadgetProdAdd level acc (ksk i.succ) (d i.succ)) (gadgetProd level (ksk 0) (d 0))

/-- `KeySwitchLWETo` (`err = 0`) and `KeySwitchGLWETo`: the body is copied, the accumulator is added to
it, then the masks are written.  tfhe/keyswitch.go:13-31, 43-64. -/
def keySwitchTo (G : Gadget R) (k out : Nat) {n : Nat} (ksk : Fin (n + 1) → Nat → Fin (k + 1) → R) (ct : Nat)
    (err : Fin (k + 1) → R) (m : Mem R) : Mem R :=
  let acc := keySwitchAcc G.level ksk (fun i => G.dec (m ct (i + 1)))
  let m := m.write out 0 (m ct 0)
  let m := m.write out 0 (m out 0 + (acc 0 + err 0))
  mapLoopI (fun i _ _ _ => ext0 (fun t => acc t + err t) i) out out out (List.range' 1 k) m
end

/-- `EncryptLevScalarTo`: `mask j` and `noise j` are the samples of level `j`.
tfhe/lwe_enc.go:68-73. -/
def encryptLevScalar {w n : Nat} (g : GadgetParams w) (sk : Fin n → BitVec w) (mask : Nat → Fin n → BitVec w)
    (noise : Nat → BitVec w) (c : BitVec w) : Nat → Fin (n + 1) → BitVec w :=
  fun j => encryptLWEBody sk (mask j) (noise j) (c <<< g.logBaseQ j)

/-- `EncryptGSWScalarTo` (`*` and `<<` associate to the left in Go).  tfhe/lwe_enc.go:104-113. -/
def encryptGSWScalar {w n : Nat} (g : GadgetParams w) (sk : Fin n → BitVec w)
    (mask : Fin (n + 1) → Nat → Fin n → BitVec w) (noise : Fin (n + 1) → Nat → BitVec w) (c : BitVec w) :
    Fin (n + 1) → Nat → Fin (n + 1) → BitVec w :=
  Fin.cons (encryptLevScalar g sk (mask 0) (noise 0) c) fun i j =>
    encryptLWEBody sk (mask i.succ j) (noise i.succ j) ((sk i * c) <<< g.logBaseQ j)

/-- `EncryptGLevPolyTo` and `EncryptFFTGLevPolyTo`; `err` are the errors of the products with the key.
tfhe/glwe_enc.go:99-104, tfhe/fft_glwe_enc.go:81-87. -/
def encryptGLevPoly {w N k : Nat} [NeZero N] (g : GadgetParams w) (sk : Fin k → Poly N (BitVec w))
    (mask err : Nat → Fin k → Poly N (BitVec w)) (noise : Nat → Poly N (BitVec w)) (p : Poly N (BitVec w)) :
    Nat → Fin (k + 1) → Poly N (BitVec w) :=
  fun j => encryptGLWEBody sk (mask j) (err j) (noise j) (Poly.C N (g.baseQ j) * p)

/-- `EncryptGGSWPolyTo`; `perr i` is the error of the product `p * sk_i`.  tfhe/glwe_enc.go:168-177. -/
def encryptGGSWPoly {w N k : Nat} [NeZero N] (g : GadgetParams w) (sk : Fin k → Poly N (BitVec w))
    (mask err : Fin (k + 1) → Nat → Fin k → Poly N (BitVec w)) (noise : Fin (k + 1) → Nat → Poly N (BitVec w))
    (perr : Fin k → Poly N (BitVec w)) (p : Poly N (BitVec w)) :
    Fin (k + 1) → Nat → Fin (k + 1) → Poly N (BitVec w) :=
  Fin.cons (encryptGLevPoly g sk (mask 0) (err 0) (noise 0) p) fun i =>
    encryptGLevPoly g sk (mask i.succ) (err i.succ) (noise i.succ) (p * sk i + perr i)

/-- `DecryptLevScalar` and `DecryptGSWScalar` (row 0).  tfhe/lwe_enc.go:81-84, 121-123. -/
def decryptLevScalar {w n : Nat} (g : GadgetParams w) (sk : Fin n → BitVec w) (lev : Nat → Fin (n + 1) → BitVec w) :
    BitVec w :=
  divRoundBits (decryptLWEPhase sk (lev 0)) g.logFirstBaseQ % g.base

/-- `DecryptGLevPolyTo` and `DecryptGGSWPolyTo` (row 0).  tfhe/glwe_enc.go:131-136, 195-197. -/
def decryptGLevPoly {w N k : Nat} [NeZero N] (g : GadgetParams w) (sk err : Fin k → Poly N (BitVec w))
    (lev : Nat → Fin (k + 1) → Poly N (BitVec w)) : Poly N (BitVec w) :=
  fun i => divRoundBits (decryptGLWEPhase sk err (lev 0) i) g.logFirstBaseQ % g.base

/-- The scalar that `EncryptLev` and `EncryptGSW` encrypt: `T(message) % messageModulus`; a zero modulus is
a division by zero.  tfhe/lwe_enc.go:51-53, 87-89. -/
def levMessage {w : Nat} (p : BitVec w) (message : BitVec 64) : Option (BitVec w) :=
  if p = 0 then none else some (message.setWidth w % p)

/-- `DecryptLev` and `DecryptGSW`.  tfhe/lwe_enc.go:76-78, 116-118. -/
def decryptLev {w n : Nat} (g : GadgetParams w) (sk : Fin n → BitVec w) (lev : Nat → Fin (n + 1) → BitVec w)
    (p : BitVec w) : Option (BitVec 64) :=
  if p = 0 then none else some ((decryptLevScalar g sk lev % p).setWidth 64)

/-- The polynomial that `EncryptGLevTo` and `EncryptGGSWTo` encrypt: missing messages are zero, surplus
ones ignored.  With a zero modulus and no message nothing is divided; the model does not make that
distinction and panics.  tfhe/glwe_enc.go:81-89, 150-158. -/
def glevMessage {w N : Nat} (p : BitVec w) (messages : List (BitVec 64)) : Option (Poly N (BitVec w)) :=
  if p = 0 then none else some fun i => match messages[i.1]? with
    | some x => x.setWidth w % p
    | none => 0

/-- `DecryptGLevTo` and `DecryptGGSWTo` into a slice of length `len`; elements from `N` on keep their old
value `old`.  tfhe/glwe_enc.go:114-121, 185-187. -/
def decryptGLev {w N k : Nat} [NeZero N] (g : GadgetParams w) (sk err : Fin k → Poly N (BitVec w))
    (lev : Nat → Fin (k + 1) → Poly N (BitVec w)) (p : BitVec w) (old : List (BitVec 64)) :
    Option (List (BitVec 64)) :=
  if p = 0 then none else some (old.mapIdx fun i o =>
    if h : i < N then ((decryptGLevPoly g sk err lev ⟨i, h⟩ % p).setWidth 64) else o)

/-- `GenLWEKeySwitchKey` and `GenDefaultKeySwitchKey` (the same steps written out): a Lev encryption of
every element of the input key.  tfhe/keyswitch_keygen.go:4-12, tfhe/bootstrap_keygen.go:111-126. -/
def genLWEKeySwitchKey {w n nIn : Nat} (g : GadgetParams w) (sk : Fin n → BitVec w)
    (mask : Fin nIn → Nat → Fin n → BitVec w) (noise : Fin nIn → Nat → BitVec w) (skIn : Fin nIn → BitVec w) :
    Fin nIn → Nat → Fin (n + 1) → BitVec w :=
  fun i => encryptLevScalar g sk (mask i) (noise i) (skIn i)

/-- `GenGLWEKeySwitchKey`.  tfhe/keyswitch_keygen.go:15-23. -/
def genGLWEKeySwitchKey {w N k kIn : Nat} [NeZero N] (g : GadgetParams w) (sk : Fin k → Poly N (BitVec w))
    (mask err : Fin kIn → Nat → Fin k → Poly N (BitVec w)) (noise : Fin kIn → Nat → Poly N (BitVec w))
    (skIn : Fin kIn → Poly N (BitVec w)) : Fin kIn → Nat → Fin (k + 1) → Poly N (BitVec w) :=
  fun i => encryptGLevPoly g sk (mask i) (err i) (noise i) (skIn i)

/-- `GenBlindRotateKey`, the GGSW encryption of LWE key element `b`: the plaintext of row 0 is the
constant `b`, of row `j` it is `b * sk_{j-1}` (exact).  tfhe/bootstrap_keygen.go:34-54. -/
def genBlindRotateKeyElem {w N k : Nat} [NeZero N] (g : GadgetParams w) (sk : Fin k → Poly N (BitVec w))
    (mask err : Fin (k + 1) → Nat → Fin k → Poly N (BitVec w)) (noise : Fin (k + 1) → Nat → Poly N (BitVec w))
    (b : BitVec w) : Fin (k + 1) → Nat → Fin (k + 1) → Poly N (BitVec w) :=
  Fin.cons (encryptGLevPoly g sk (mask 0) (err 0) (noise 0) (Poly.C N b)) fun j =>
    encryptGLevPoly g sk (mask j.succ) (err j.succ) (noise j.succ) (Poly.C N b * sk j)

end Tfhe
