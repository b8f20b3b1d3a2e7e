import Verif.Model.Product
import Verif.Model.Float
import Verif.Model.Num

/-!
# Model of `xtfhe/bfv_evaluator.go` and `xtfhe/bfv_keygen.go`

Ciphertexts live in a memory (`Mem`): the arguments of a call and the buffers of the evaluator are vectors
of polynomials with different numbers, so that which vector a call reads and which it writes is visible.

`TensorTo` multiplies in the Fourier domain.  `FwdFFTTo` reads coefficients as signed integers
(math/poly/asm_fold.go:13-135), so before rounding the products are products of integer polynomials; the
result is divided by the scale, rounded and reduced modulo `2^w`.  The floating-point error is one
arbitrary polynomial per component.
-/
namespace Tfhe.Bfv
open Tfhe

variable {w N : Nat} [NeZero N]

/-- `tensorRank`.  xtfhe/bfv_evaluator.go:56, 83, 106, 124. -/
def tensorRank (k : Nat) : Nat := k * (k + 3) / 2

/-- Coefficients as signed integers, as `FwdFFTTo` reads them.  math/poly/asm_fold.go:13-135. -/
def lift (p : Poly N (BitVec w)) : Poly N Int := fun i => (p i).toInt

/-- `InvFFTToUnsafe` of an exact Fourier polynomial divided by the scale: rounding and reduction modulo
`2^w`.  math/poly/fft.go:169-175, math/poly/asm_fold.go:139-183. -/
def invScaled (w : Nat) (scale : Nat) (p : Poly N Int) : Poly N (BitVec w) :=
  fun i => BitVec.ofInt w (goRound ((p i : ℚ) / scale))

section
variable {P : Type} [CommRing P]

/-- State of the tensor loop: `tensorIdx` and the contents of `ctFFTTensor`. -/
abbrev TState (P : Type) := Nat × (Nat → P)

/-- The inner loop body: `ct0[i] * ct1[j]`, then `+= ct0[j] * ct1[i]`.  xtfhe/bfv_evaluator.go:99-103. -/
def tensorCross (a b : Nat → P) (i : Nat) (st : TState P) (j : Nat) : TState P :=
  let v := upd st.2 st.1 (a i * b j)
  let v := upd v st.1 (v st.1 + a j * b i)
  (st.1 + 1, v)

/-- One iteration of the outer loop.  xtfhe/bfv_evaluator.go:96-104. -/
def tensorRow (n : Nat) (a b : Nat → P) (st : TState P) (i : Nat) : TState P :=
  let st := (st.1 + 1, upd st.2 st.1 (a i * b i))
  (List.range' (i + 1) (n - (i + 1))).foldl (tensorCross a b i) st

/-- The products of `TensorTo` for ciphertexts with `n` components; `old` is what the buffer held.
xtfhe/bfv_evaluator.go:95-104. -/
def tensorLoop (n : Nat) (a b old : Nat → P) : TState P := (List.range n).foldl (tensorRow n a b) (0, old)

/-- The products of secret key polynomials computed by `GenRelinKey`; `old` is what the slice held.
xtfhe/bfv_keygen.go:63-69. -/
def relinLoop (k : Nat) (s old : Nat → P) : TState P :=
  (List.range k).foldl (fun st i =>
    (List.range' i (k - i)).foldl (fun st j => (st.1 + 1, upd st.2 st.1 (s i * s j))) st) (0, old)

/-- `GadgetProdAddGLWETo` on memory: `p` is component `pi` of vector `pv`.  tfhe/product.go:74-91. -/
def gadgetProdAddTo (G : Gadget P) (k out : Nat) (lev : Nat → Fin (k + 1) → P) (pv pi : Nat)
    (err : Fin (k + 1) → P) (m : Mem P) : Mem P :=
  let r := gadgetProdAddGLWE G (fun t : Fin (k + 1) => m out t) lev (m pv pi) err
  mapLoopI (fun t _ _ _ => ext0 r t) out out out (List.range (k + 1)) m

/-- `RelinearizeTo(ctOut, ct)`: the argument `ct` is not used; what is relinearized is the buffer
`e.buf.ctTensor`, here vector `tb`.  xtfhe/bfv_evaluator.go:123-131. -/
def relinearizeTo (G : Gadget P) (k out _ct tb : Nat) (rlk : Nat → Nat → Fin (k + 1) → P)
    (err : Nat → Fin (k + 1) → P) (m : Mem P) : Mem P :=
  let m := mapLoopI (fun _ _ a _ => a) out tb tb (List.range (k + 1)) m
  (List.range' (k + 1) (tensorRank k + 1 - (k + 1))).foldl
    (fun m i => gadgetProdAddTo G k out (rlk (i - (k + 1))) tb i (err i) m) m
end

/-- `TensorTo(ctOut, ct0, ct1)`: the result goes to the buffer `e.buf.ctTensor` (vector `tb`), and `ctOut`
is not used.  xtfhe/bfv_evaluator.go:91-111. -/
def tensorTo (scale k _out ct0 ct1 tb : Nat) (old : Nat → Poly N Int) (err : Nat → Poly N (BitVec w))
    (m : Mem (Poly N (BitVec w))) : Mem (Poly N (BitVec w)) :=
  let F := (tensorLoop (k + 1) (fun i => lift (m ct0 i)) (fun i => lift (m ct1 i)) old).2
  mapLoopI (fun i _ _ _ => invScaled w scale (F i) + err i) tb tb tb (List.range (tensorRank k + 1)) m

/-- `Tensor`: `out` is a newly allocated (zero) ciphertext.  xtfhe/bfv_evaluator.go:82-87. -/
def tensor (scale k out ct0 ct1 tb : Nat) (old : Nat → Poly N Int) (err : Nat → Poly N (BitVec w))
    (m : Mem (Poly N (BitVec w))) : Mem (Poly N (BitVec w)) :=
  tensorTo scale k out ct0 ct1 tb old err (mapLoopI (fun _ _ _ _ => 0) out out out (List.range (tensorRank k + 1)) m)

/-- `Relinearize`: `out` is a newly allocated ciphertext.  xtfhe/bfv_evaluator.go:115-119. -/
def relinearize (G : Gadget (Poly N (BitVec w))) (k out ct tb : Nat)
    (rlk : Nat → Nat → Fin (k + 1) → Poly N (BitVec w)) (err : Nat → Fin (k + 1) → Poly N (BitVec w))
    (m : Mem (Poly N (BitVec w))) : Mem (Poly N (BitVec w)) :=
  relinearizeTo G k out ct tb rlk err (mapLoopI (fun _ _ _ _ => 0) out out out (List.range (k + 1)) m)

/-- `MulTo`.  xtfhe/bfv_evaluator.go:141-144. -/
def mulTo (G : Gadget (Poly N (BitVec w))) (scale k out ct0 ct1 tb : Nat)
    (rlk : Nat → Nat → Fin (k + 1) → Poly N (BitVec w)) (old : Nat → Poly N Int)
    (terr : Nat → Poly N (BitVec w)) (err : Nat → Fin (k + 1) → Poly N (BitVec w))
    (m : Mem (Poly N (BitVec w))) : Mem (Poly N (BitVec w)) :=
  relinearizeTo G k out tb tb rlk err (tensorTo scale k tb ct0 ct1 tb old terr m)

/-- The samples drawn (and the errors made) while generating one GLWE key-switching key. -/
structure KeyRand (P : Type) (kIn k : Nat) where
  mask : Fin kIn → Nat → Fin k → P
  err : Fin kIn → Nat → Fin k → P
  noise : Fin kIn → Nat → P

/-- Rank of the relinearization key.  xtfhe/bfv_keygen.go:59. -/
def rlkRank (k : Nat) : Nat := k * (k + 1) / 2

/-- `GenRelinKey`: `ferr` is the error of transforming the products back.
xtfhe/bfv_keygen.go:58-76. -/
def genRelinKey {k : Nat} (g : GadgetParams w) (sk : Fin k → Poly N (BitVec w))
    (old ferr : Nat → Poly N (BitVec w)) (ρ : KeyRand (Poly N (BitVec w)) (rlkRank k) k) :
    Nat → Nat → Fin (k + 1) → Poly N (BitVec w) :=
  let skOut := (relinLoop k (ext0 sk) old).2
  let ksk := genGLWEKeySwitchKey g sk ρ.mask ρ.err ρ.noise (fun i : Fin (rlkRank k) => skOut i + ferr i)
  fun i => if h : i < rlkRank k then ksk ⟨i, h⟩ else fun _ _ => 0

/-- A GLWE key-switching key together with its gadget parameters; rank `n + 1` on both sides. -/
structure GalKey (w N n : Nat) where
  g : GadgetParams w
  val : Fin (n + 1) → Nat → Fin (n + 1 + 1) → Poly N (BitVec w)

/-- A map from automorphism degrees to keys. -/
abbrev GalKeys (w N n : Nat) := BitVec 64 → Option (GalKey w N n)

/-- `GenGaloisKeysTo`: `ρ t` are the samples of iteration `t`.  `PermutePolyTo` panics on an even degree.
xtfhe/bfv_keygen.go:94-103. -/
def genGaloisKeysTo {n : Nat} (g : GadgetParams w) (sk : Fin (n + 1) → Poly N (BitVec w))
    (ρ : Nat → KeyRand (Poly N (BitVec w)) (n + 1) (n + 1)) (idx : List (BitVec 64)) (gk : GalKeys w N n) :
    Option (GalKeys w N n) :=
  idx.zipIdx.foldlM (fun gk dt =>
    if dt.1 &&& 1 = 0 then none
    else some (Function.update gk dt.1 (some ⟨g, genGLWEKeySwitchKey g sk (ρ dt.2).mask (ρ dt.2).err (ρ dt.2).noise
      (fun i => Poly.subst dt.1.toInt (sk i))⟩))) gk

/-- `GenGaloisKeys`: starts from the empty map.  xtfhe/bfv_keygen.go:79-90. -/
def genGaloisKeys {n : Nat} (g : GadgetParams w) (sk : Fin (n + 1) → Poly N (BitVec w))
    (ρ : Nat → KeyRand (Poly N (BitVec w)) (n + 1) (n + 1)) (idx : List (BitVec 64)) : Option (GalKeys w N n) :=
  genGaloisKeysTo g sk ρ idx (fun _ => none)

/-- The degrees of `GenGaloisKeysForPack`.  xtfhe/bfv_keygen.go:107-110, 117-120. -/
def packAuts (logN : Nat) : List (BitVec 64) := (List.range logN).map fun i => (1#64 <<< (logN - i)) + 1#64

/-- `GenGaloisKeysForPack`.  xtfhe/bfv_keygen.go:106-112. -/
def genGaloisKeysForPack {n : Nat} (logN : Nat) (g : GadgetParams w) (sk : Fin (n + 1) → Poly N (BitVec w))
    (ρ : Nat → KeyRand (Poly N (BitVec w)) (n + 1) (n + 1)) : Option (GalKeys w N n) :=
  genGaloisKeys g sk ρ (packAuts logN)

/-- `PermuteTo`: `PermutePolyTo` (which panics on an even degree, see C09) into the buffer `pb`, then key
switching.  A missing key is the zero value of its type, whose `Value[0]` panics.
xtfhe/bfv_evaluator.go:158-161, math/poly/poly_ops.go:277-292. -/
def permuteTo {n : Nat} (gk : GalKeys w N n) (out ct pb : Nat) (d : BitVec 64)
    (err : Fin (n + 1 + 1) → Poly N (BitVec w)) (m : Mem (Poly N (BitVec w))) : Option (Mem (Poly N (BitVec w))) :=
  if d &&& 1 = 0 then none
  else (exactMapGLWETo (n + 1) pb ct (Poly.subst d.toInt) m).bind fun m =>
    (gk d).map fun key => keySwitchTo (polyGadget N key.g) (n + 1) out key.val pb err m

/-- One mask polynomial of the embedding at the start of `PackTo`: coefficient 0, then coefficient `N - j`
for `j = 1, ..., N - 1`.  xtfhe/bfv_evaluator.go:176-179. -/
def embedRow {R : Type} [Neg R] (N off : Nat) (ct old : Nat → R) : Nat → R :=
  (List.range' 1 (N - 1)).foldl (fun a j => upd a (N - j) (-ct (off + j))) (upd old 0 (ct off))

/-- A polynomial as a slice, and back. -/
def polyFn {R : Type} [Zero R] (p : Poly N R) : Nat → R := fun i => if h : i < N then p ⟨i, h⟩ else 0
def fnPoly {R : Type} (N : Nat) (a : Nat → R) : Poly N R := fun i => a i

/-- The embedding at the start of `PackTo`.  xtfhe/bfv_evaluator.go:172-180. -/
def packInit (k out : Nat) (ct : Nat → BitVec w) (m : Mem (Poly N (BitVec w))) : Mem (Poly N (BitVec w)) :=
  let m := m.write out 0 (fnPoly N (upd (fun _ => 0) 0 (ct 0)))
  mapLoopI (fun i old _ _ => fnPoly N (embedRow N (1 + (i - 1) * N) ct (polyFn old))) out out out (List.range' 1 k) m

/-- The halving of all coefficients.  xtfhe/bfv_evaluator.go:183-187. -/
def halveGLWE (k out : Nat) (m : Mem (Poly N (BitVec w))) : Mem (Poly N (BitVec w)) :=
  mapLoopI (fun _ o _ _ => fun l => divRoundBits (o l) 1) out out out (List.range (k + 1)) m

/-- One iteration of the main loop of `PackTo`; `pk` and `pb` are the buffers `ctPack` and `ctPermute`.
xtfhe/bfv_evaluator.go:182-190. -/
def packStep {n : Nat} (gk : GalKeys w N n) (out pk pb : Nat) (err : Nat → Fin (n + 1 + 1) → Poly N (BitVec w))
    (m : Mem (Poly N (BitVec w))) (i : Nat) : Option (Mem (Poly N (BitVec w))) :=
  (permuteTo gk pk out pb ((1#64 <<< (i + 1)) + 1#64) (err i) (halveGLWE (n + 1) out m)).map fun m =>
    addGLWETo (n + 1) out out pk m

/-- `PackTo`.  The LWE ciphertext is a slice of length at least `1 + k N`; a shorter one panics, which is not
modelled.  xtfhe/bfv_evaluator.go:171-191. -/
def packTo {n : Nat} (gk : GalKeys w N n) (logN out pk pb : Nat) (ct : Nat → BitVec w)
    (err : Nat → Fin (n + 1 + 1) → Poly N (BitVec w)) (m : Mem (Poly N (BitVec w))) :
    Option (Mem (Poly N (BitVec w))) :=
  (List.range logN).foldlM (packStep gk out pk pb err) (packInit (n + 1) out ct m)

end Tfhe.Bfv
