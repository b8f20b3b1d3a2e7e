import Verif.Model.Bootstrap
import Verif.Model.Binary
import Verif.Model.Public

/-!
# Model of the package `mktfhe`

Single-key ciphertexts have rank 1 and tables have the size of the ring (`Compile` demands both), so a
multi-key GLWE ciphertext of `P` parties has `P + 1` components.  Which parties an evaluator knows is
`keys : ℕ → Option _`; in Go this is `PartyBitMap`, `EvalKey` and `SubEvaluators` together, which are always
updated together (mktfhe/evaluator.go:87-91, 170-174).  As in `Model/Product.lean`, sums accumulated
in the Fourier domain are exact, and every conversion back adds an arbitrary error.
-/
namespace Tfhe.Mk

/-! ### Encryption -/

/-- `NewEncryptor` and `NewEncryptorWithKey`: only the check of the index is modelled; `none` is the panic.
mktfhe/encryptor.go:52-55, 85-88. -/
def newEncryptor (P : ℕ) (idx : ℤ) : Option ℤ := if idx > P then none else some idx

/-- `Encryptor.EncryptLWEBody` and `EncryptLWEPlaintextTo`: single-key encryption into a buffer, all of whose
elements are overwritten, then the copy into the block of the party.  `n` is `DefaultLWEDimension` of one
party.  mktfhe/encryptor.go:163-175. -/
def encryptLWE {R : Type} [CommRing R] (P n idx : ℕ) (sk mask : Fin n → R) (noise pt : R) : Option (ℕ → R) :=
  mkLWECopyFromSubKey (P * n) n idx (ext0 (encryptLWEBody sk mask noise pt))

/-- `Encryptor.EncryptGLWEBody` and `EncryptGLWEPlaintextTo`.  mktfhe/encryptor.go:197-210. -/
def encryptGLWE {R : Type} [CommRing R] (P idx : ℕ) (sk mask err : Fin 1 → R) (noise pt : R) :
    Option (Fin (P + 1) → R) :=
  mkGLWECopyFromSubKey P idx (encryptGLWEBody sk mask err noise pt)

/-! ### Decryption -/

/-- The state of a `Decryptor` that matters: the slices `SubDecryptors`, `SecretKeys` and `PartyBitMap`; `K` are
keys.  mktfhe/decryptor.go:17-38. -/
structure Decryptor (K : Type) where
  subs : List (Option K)
  keys : List (Option K)
  on : List Bool

/-- The assignments of one key, in the loop of `NewDecryptor` and in `AddSecretKey`; an index outside one of
the slices panics.  mktfhe/decryptor.go:60-62, 93-95. -/
def Decryptor.add {K : Type} (d : Decryptor K) (idx : ℕ) (sk : K) : Option (Decryptor K) :=
  if d.subs.length ≤ idx then none
  else if d.keys.length ≤ idx then none
  else if d.on.length ≤ idx then none
  else some ⟨d.subs.set idx (some sk), d.keys.set idx (some sk), d.on.set idx true⟩

/-- `NewDecryptor`; `sk` is the map in the order in which `range` happens to visit it.  The first two slices
have the length of the map.  mktfhe/decryptor.go:55-63. -/
def newDecryptor {K : Type} (P : ℕ) (sk : List (ℕ × K)) : Option (Decryptor K) :=
  sk.foldlM (fun d e => d.add e.1 e.2)
    ⟨List.replicate sk.length none, List.replicate sk.length none, List.replicate P false⟩

/-- `Decryptor.SafeCopy`: `SubDecryptors` of the copy has `PartyCount` elements, `SecretKeys` keeps its
length.  mktfhe/decryptor.go:99-119. -/
def Decryptor.safeCopy {K : Type} (P : ℕ) (d : Decryptor K) : Option (Decryptor K) :=
  if P < d.subs.length ∧ (∃ i : Fin d.subs.length, P ≤ i ∧ (d.subs[i]).isSome) then none
  else some ⟨(List.range P).map fun i => (d.subs[i]?).join, d.keys, d.on⟩

/-- `DecryptLWEPlaintext`: a loop over the bitmap; `none` is the nil pointer or index panic for a party
without a sub-decryptor.  `ct` has at least `1 + P*n` elements.  mktfhe/decryptor.go:127-136. -/
def decryptLWEPhase {R : Type} [CommRing R] {n : ℕ} (d : Decryptor (Fin n → R)) (ct : ℕ → R) : Option R :=
  (List.range d.on.length).foldlM (fun pt i =>
    if d.on.getD i false then
      (d.subs[i]?).join.map fun s => pt + dot (fun j : Fin n => ct (1 + i * n + j)) s
    else some pt) (ct 0)

/-- `DecryptGLWEPhaseTo`: the body is replaced by the phase with respect to one party after the other; `err i`
is the error of the product for party `i`.  mktfhe/decryptor.go:158-167. -/
def decryptGLWEPhase {R : Type} [CommRing R] (d : Decryptor R) (err : ℕ → R) (ct : ℕ → R) : Option R :=
  (List.range d.on.length).foldlM (fun pt i =>
    if d.on.getD i false then
      (d.subs[i]?).join.map fun s =>
        Tfhe.decryptGLWEPhase (fun _ : Fin 1 => s) (fun _ => err i) (Fin.cons pt fun _ => ct (1 + i))
    else some pt) (ct 0)

/-! ### Key generation -/

/-- `UniEncryption`, and `FFTUniEncryption` with its Fourier polynomials as polynomials.
mktfhe/glwe.go:96-102. -/
structure UniEnc (R : Type) where
  v0 : ℕ → Fin 2 → R
  v1 : ℕ → Fin 2 → R

/-- The parts of an evaluation key that the products use. -/
structure EvalKey (R : Type) where
  /-- `CRSPublicKey` -/
  crs : ℕ → Fin 2 → R
  /-- `RelinKey` -/
  relin : UniEnc R

section
variable {R : Type} [CommRing R]

/-- `GenCRSPublicKey`; `a` is the common reference string and `z` the GLWE key of the party.
mktfhe/bootstrap_keygen.go:44-55. -/
def genCRSPublicKey (a : ℕ → R) (z : R) (noise err : ℕ → R) : ℕ → Fin 2 → R := fun j =>
  ![noise j - (a j * z + err j), a j]

/-- `UniEncryptPolyTo` and `FFTUniEncryptPolyTo`: `r` is the auxiliary key, `g j` is `BaseQ(j)` as a constant.
The levels of the gadget must not exceed those of the common reference string (index panic otherwise).
mktfhe/glwe_enc.go:36-52, mktfhe/fft_glwe_enc.go:36-55. -/
def uniEncryptPoly (g a : ℕ → R) (z r : R) (err0 noise0 mask1 err1 noise1 : ℕ → R) (p : R) : UniEnc R where
  v0 := fun j => ![p * g j + (a j * r + err0 j) + noise0 j, a j]
  v1 := fun j => encryptGLWEBody (fun _ : Fin 1 => z) (fun _ => mask1 j) (fun _ => err1 j) (noise1 j) (r * g j)

/-! ### Products -/

/-- `MulFFTPolyTo` for digit 0, then `MulAddFFTPolyTo` for the others.  mktfhe/product.go:26-29, 31-34, 44-47. -/
def sumDigits (L : ℕ) (row d : ℕ → R) : R :=
  (List.range' 1 (L - 1)).foldl (fun acc j => acc + row j * d j) (row 0 * d 0)
/-- `MulAddFFTPolyTo` for every digit.  mktfhe/product.go:49-51. -/
def addDigits (L : ℕ) (acc : R) (row d : ℕ → R) : R :=
  (List.range L).foldl (fun acc j => acc + row j * d j) acc

/-- The loop over the parties of the hybrid product; the state is `ctFFTProd` and `ctFFTProdSub`.
mktfhe/product.go:37-53. -/
def hybridLoop (P : ℕ) (keys : ℕ → Option (EvalKey R)) (G : Gadget R) (u : UniEnc R) (c : ℕ → R)
    (st : (ℕ → R) × R) : (ℕ → R) × R :=
  (List.range P).foldl (fun st i =>
    match keys i with
    | none => st
    | some k => (upd st.1 (i + 1) (sumDigits G.level (fun j => u.v0 j 0) (G.dec (c (i + 1)))),
        addDigits G.level st.2 (fun j => k.crs j 0) (G.dec (c (i + 1))))) st

/-- `ctFFTProd` before the conversion back, common to `HybridProdGLWETo`, `HybridProdAddGLWETo` and
`HybridProdSubGLWETo`.  `none` is the panic for a party without key or out of range, `buf` are the old contents
of `ctFFTProd` and `errSub` the error of the conversion of `ctFFTProdSub`.
mktfhe/product.go:16-61, 75-120, 132-177. -/
def hybridAcc (P : ℕ) (keys : ℕ → Option (EvalKey R)) (idx : ℕ) (G : Gadget R) (u : UniEnc R) (c buf : ℕ → R)
    (errSub : R) : Option (ℕ → R) :=
  if P ≤ idx then none
  else (keys idx).map fun kIdx =>
    let prod := upd buf 0 (sumDigits G.level (fun j => u.v0 j 0) (G.dec (c 0)))
    let sub := -sumDigits G.level (fun j => kIdx.crs j 1) (G.dec (c 0))
    let st := hybridLoop P keys G u c (prod, sub)
    let v := st.2 + errSub
    (List.range G.level).foldl (fun prod j =>
      let prod := upd prod 0 (prod 0 + u.v1 j 0 * G.dec v j)
      upd prod (1 + idx) (prod (1 + idx) + u.v1 j 1 * G.dec v j)) st.1

/-- Is the party known to the evaluator? -/
def isOn {K : Type} (keys : ℕ → Option K) (i : ℕ) : Bool := (keys i).isSome

/-- `HybridProdGLWETo`: all reads of the input come before the writes to the output, and `err` are the errors of
the conversions.  `c` is the contents of `ctGLWE`.  mktfhe/product.go:15-71. -/
def hybridProdTo (P : ℕ) (keys : ℕ → Option (EvalKey R)) (idx : ℕ) (G : Gadget R) (u : UniEnc R) (c buf : ℕ → R)
    (errSub : R) (err : ℕ → R) (out : ℕ) (m : Mem R) : Option (Mem R) :=
  (hybridAcc P keys idx G u c buf errSub).map fun prod =>
    let m := m.write out 0 (prod 0 + err 0)
    mapLoopI (fun i _ _ _ => if isOn keys (i - 1) then prod i + err i else 0) out out out (List.range' 1 P) m

/-- `HybridProdAddGLWETo`: components of unknown parties are not touched.  mktfhe/product.go:74-128. -/
def hybridProdAddTo (P : ℕ) (keys : ℕ → Option (EvalKey R)) (idx : ℕ) (G : Gadget R) (u : UniEnc R) (c buf : ℕ → R)
    (errSub : R) (err : ℕ → R) (out : ℕ) (m : Mem R) : Option (Mem R) :=
  (hybridAcc P keys idx G u c buf errSub).map fun prod =>
    let m := m.write out 0 (m out 0 + (prod 0 + err 0))
    mapLoopI (fun i o _ _ => if isOn keys (i - 1) then o + (prod i + err i) else o) out out out (List.range' 1 P) m

/-- `HybridProdSubGLWETo`.  mktfhe/product.go:131-185. -/
def hybridProdSubTo (P : ℕ) (keys : ℕ → Option (EvalKey R)) (idx : ℕ) (G : Gadget R) (u : UniEnc R) (c buf : ℕ → R)
    (errSub : R) (err : ℕ → R) (out : ℕ) (m : Mem R) : Option (Mem R) :=
  (hybridAcc P keys idx G u c buf errSub).map fun prod =>
    let m := m.write out 0 (m out 0 - (prod 0 + err 0))
    mapLoopI (fun i o _ _ => if isOn keys (i - 1) then o - (prod i + err i) else o) out out out (List.range' 1 P) m

/-- The gadget products at the start of the external products; the state is `ctRelinT` and `ctRelin`.
mktfhe/product.go:198-205, 221-228, 244-251. -/
def relinLoop (P : ℕ) (keys : ℕ → Option (EvalKey R)) (G : Gadget R) (lev : ℕ → Fin 2 → R) (c : ℕ → R)
    (err : ℕ → Fin 2 → R) (st : (ℕ → Fin 2 → R) × (ℕ → R)) : (ℕ → Fin 2 → R) × (ℕ → R) :=
  let x := gadgetProdGLWE G lev (c 0) (err 0)
  (List.range P).foldl (fun st i =>
    match keys i with
    | none => st
    | some _ =>
      let x := gadgetProdGLWE G lev (c (i + 1)) (err (i + 1))
      (upd st.1 (i + 1) x, upd st.2 (i + 1) (x 1))) (upd st.1 0 x, upd st.2 0 (x 1))

/-- The additions at the end of all three external products.  mktfhe/product.go:209-214, 232-237, 255-260. -/
def addRelinT (P : ℕ) (keys : ℕ → Option (EvalKey R)) (t : ℕ → Fin 2 → R) (out : ℕ) (m : Mem R) : Mem R :=
  let m := m.write out 0 (m out 0 + t 0 0)
  mapLoopI (fun i o _ _ => if isOn keys (i - 1) then o + t i 0 else o) out out out (List.range' 1 P) m

/-- `ExternalProdGLWETo` of a GLev ciphertext of party `idx` with the ciphertext `ct`, which may be the output.
`G` is the gadget of the GLev ciphertext, `Gr` that of the relinearization key; `bufT`, `bufR` and `buf` are old
contents of buffers.  mktfhe/product.go:195-215. -/
def externalProdTo (P : ℕ) (keys : ℕ → Option (EvalKey R)) (idx : ℕ) (G Gr : Gadget R) (lev : ℕ → Fin 2 → R)
    (bufT : ℕ → Fin 2 → R) (bufR buf : ℕ → R) (errT : ℕ → Fin 2 → R) (errSub : R) (err : ℕ → R) (ct out : ℕ)
    (m : Mem R) : Option (Mem R) :=
  (keys idx).bind fun k =>
    let st := relinLoop P keys G lev (m ct) errT (bufT, bufR)
    (hybridProdTo P keys idx Gr k.relin st.2 buf errSub err out m).map (addRelinT P keys st.1 out)

/-- `ExternalProdAddGLWETo`.  mktfhe/product.go:218-238. -/
def externalProdAddTo (P : ℕ) (keys : ℕ → Option (EvalKey R)) (idx : ℕ) (G Gr : Gadget R) (lev : ℕ → Fin 2 → R)
    (bufT : ℕ → Fin 2 → R) (bufR buf : ℕ → R) (errT : ℕ → Fin 2 → R) (errSub : R) (err : ℕ → R) (ct out : ℕ)
    (m : Mem R) : Option (Mem R) :=
  (keys idx).bind fun k =>
    let st := relinLoop P keys G lev (m ct) errT (bufT, bufR)
    (hybridProdAddTo P keys idx Gr k.relin st.2 buf errSub err out m).map (addRelinT P keys st.1 out)

/-- `ExternalProdSubGLWETo`: as written, the last part is added, not subtracted.
mktfhe/product.go:241-261. -/
def externalProdSubTo (P : ℕ) (keys : ℕ → Option (EvalKey R)) (idx : ℕ) (G Gr : Gadget R) (lev : ℕ → Fin 2 → R)
    (bufT : ℕ → Fin 2 → R) (bufR buf : ℕ → R) (errT : ℕ → Fin 2 → R) (errSub : R) (err : ℕ → R) (ct out : ℕ)
    (m : Mem R) : Option (Mem R) :=
  (keys idx).bind fun k =>
    let st := relinLoop P keys G lev (m ct) errT (bufT, bufR)
    (hybridProdSubTo P keys idx Gr k.relin st.2 buf errSub err out m).map (addRelinT P keys st.1 out)
end

/-! ### Bootstrapping -/

section
variable {w N : ℕ} [NeZero N]
local notation "Pol" => Poly N (BitVec w)

/-- `gadgetLUTs[j]`: the constant `BaseQ(j)`.  mktfhe/evaluator.go:98-102. -/
def gadgetLUT (g : GadgetParams w) (N j : ℕ) [NeZero N] : ℕ → Poly N (BitVec w) := fun _ => Poly.C N (g.baseQ j)

/-- `ctRotateIn[i]`: body 0 and the mask block of party `i`; `n` is the LWE dimension of one party.
mktfhe/bootstrap.go:90-91, 119-120. -/
def rotateIn (n i : ℕ) (ct : ℕ → BitVec w) : ℕ → BitVec w := fun t => if t = 0 then 0 else ct (i * n + t)

/-- `ctFFTAccs[i]`, the blind rotations of the gadget tables for party `i`.  `errBR j` are the errors inside
rotation `j`; the rounding by `FwdFFTGLWECiphertextTo` is part of the errors of the products that use the
result.  mktfhe/bootstrap.go:92-95, 121-124. -/
def accOf (gacc : GadgetParams w) (G : Gadget Pol) (bs bc i : ℕ) (brk : ℕ → Fin 2 → ℕ → Fin 2 → Pol)
    (errBR : ℕ → ℕ → ℕ → Fin 2 → Pol) (old : ℕ → Pol) (ct : ℕ → BitVec w) : ℕ → Fin 2 → Pol := fun j =>
  blindRotate G 1 bs bc brk (errBR j) old (rotateIn (bs * bc) i ct) (gadgetLUT gacc N j)

/-- The samples, buffers and errors of the external product of one party. -/
structure ExtArgs (R : Type) where
  bufT : ℕ → Fin 2 → R
  bufR : ℕ → R
  buf : ℕ → R
  errT : ℕ → Fin 2 → R
  errSub : R
  err : ℕ → R

/-- `ctOut.Clear()`, then the body.  mktfhe/bootstrap.go:85-87, 110-112. -/
def rotateInit (P : ℕ) (ct : ℕ → BitVec w) (lut : ℕ → Pol) (out : ℕ) (m : Mem Pol) : Mem Pol :=
  let m := mapLoopI (fun _ _ _ _ => 0) out out out (List.range (P + 1)) m
  m.write out 0 (Poly.mono N (BitVec w) (-(modSwitch w N (ct 0) : ℤ)) * lut 0)

/-- `BlindRotateTo`: for every known party, its blind rotations, then the external product in place.
mktfhe/bootstrap.go:84-99. -/
def blindRotateTo (P : ℕ) (keys : ℕ → Option (EvalKey Pol)) (gacc : GadgetParams w) (Gbr Gr : Gadget Pol)
    (bs bc : ℕ) (brk : ℕ → ℕ → Fin 2 → ℕ → Fin 2 → Pol) (errBR : ℕ → ℕ → ℕ → ℕ → Fin 2 → Pol) (old : ℕ → ℕ → Pol)
    (ext : ℕ → ExtArgs Pol) (ct : ℕ → BitVec w) (lut : ℕ → Pol) (out : ℕ) (m : Mem Pol) : Option (Mem Pol) :=
  (List.range P).foldlM (fun m i =>
    match keys i with
    | none => some m
    | some _ =>
      let acc := accOf gacc Gbr bs bc i (brk i) (errBR i) (old i) ct
      let x := ext i
      externalProdTo P keys i (polyGadget N gacc) Gr acc x.bufT x.bufR x.buf x.errT x.errSub x.err out out m)
    (rotateInit P ct lut out m)
end

/-- `DefaultKeySwitchTo`, one party: the loop works on the body of the output and on the mask block of the
party, exactly like the single-key loop on a whole ciphertext.  `dim` is the GLWE dimension and `n` the LWE
dimension of one party, `out` the output so far.  mktfhe/bootstrap.go:156-169. -/
def keySwitchParty {R : Type} [CommRing R] (G : Gadget R) (n dim i : ℕ) (ksk : Option (ℕ → ℕ → Fin (n + 1) → R))
    (ct out : ℕ → R) : ℕ → R :=
  match ksk with
  | some ksk =>
    let sub := defaultKeySwitch G n dim ksk (fun t => if t = 0 then out 0 else ct (i * dim + t))
    fun t => if t = 0 then sub 0
      else if 1 + i * n ≤ t ∧ t < 1 + (i + 1) * n then ext0 sub (t - i * n) else out t
  | none => fun t => if 1 + i * n ≤ t ∧ t < 1 + (i + 1) * n then 0 else out t

/-- `DefaultKeySwitchTo`; `out` are the old contents of the output.  mktfhe/bootstrap.go:150-171. -/
def defaultKeySwitchTo {R : Type} [CommRing R] (P : ℕ) (G : Gadget R) (n dim : ℕ)
    (ksk : ℕ → Option (ℕ → ℕ → Fin (n + 1) → R)) (ct out : ℕ → R) : ℕ → R :=
  (List.range P).foldl (fun out i => keySwitchParty G n dim i (ksk i) ct out) (upd out 0 (ct 0))

section
variable {w N : ℕ} [NeZero N]
local notation "Pol" => Poly N (BitVec w)

/-- The buffers `e.buf.ctRotate` as a store of one ciphertext, read as a vector. -/
def readCt (P : ℕ) (m : Mem Pol) : Fin (P + 1) → Pol := fun t => m 0 t

/-- `BootstrapLUTTo`; `bufKS`, `bufE` and `rot` are old contents of the buffers `ctKeySwitch`, `ctExtract` and
`ctRotate`, and `out` those of the output.  mktfhe/bootstrap.go:30-41. -/
def bootstrapLUT (order : BootstrapOrder) (P : ℕ) (keys : ℕ → Option (EvalKey Pol)) (gacc : GadgetParams w)
    (Gbr Gr : Gadget Pol) (Gks : Gadget (BitVec w)) (bs bc : ℕ) (brk : ℕ → ℕ → Fin 2 → ℕ → Fin 2 → Pol)
    (ksk : ℕ → Option (ℕ → ℕ → Fin (bs * bc + 1) → BitVec w)) (errBR : ℕ → ℕ → ℕ → ℕ → Fin 2 → Pol)
    (old : ℕ → ℕ → Pol) (ext : ℕ → ExtArgs Pol) (bufKS bufE : ℕ → BitVec w) (rot : Mem Pol) (out ct : ℕ → BitVec w)
    (lut : ℕ → Pol) : Option (ℕ → BitVec w) :=
  match order with
  | .ksBr =>
    let ctKeySwitch := defaultKeySwitchTo P Gks (bs * bc) N ksk ct bufKS
    (blindRotateTo P keys gacc Gbr Gr bs bc brk errBR old ext ctKeySwitch lut 0 rot).map fun m =>
      asLWECiphertext (readCt P m) ⟨0, NeZero.pos N⟩ out
  | .brKs =>
    (blindRotateTo P keys gacc Gbr Gr bs bc brk errBR old ext ct lut 0 rot).map fun m =>
      let ctExtract := asLWECiphertext (readCt P m) ⟨0, NeZero.pos N⟩ bufE
      defaultKeySwitchTo P Gks (bs * bc) N ksk ctExtract out

/-- `BootstrapFuncTo`: the table is generated in a buffer with old contents `raw`.  Tables have the size of the
ring.  mktfhe/bootstrap.go:17-20. -/
def bootstrapFunc (order : BootstrapOrder) (P : ℕ) (keys : ℕ → Option (EvalKey Pol)) (gacc : GadgetParams w)
    (Gbr Gr : Gadget Pol) (Gks : Gadget (BitVec w)) (bs bc : ℕ) (brk : ℕ → ℕ → Fin 2 → ℕ → Fin 2 → Pol)
    (ksk : ℕ → Option (ℕ → ℕ → Fin (bs * bc + 1) → BitVec w)) (p scale : BitVec w) (raw : List (BitVec w))
    (errBR : ℕ → ℕ → ℕ → ℕ → Fin 2 → Pol) (old : ℕ → ℕ → Pol) (ext : ℕ → ExtArgs Pol) (bufKS bufE : ℕ → BitVec w)
    (rot : Mem Pol) (out ct : ℕ → BitVec w) (F : ℕ → BitVec 64) : Option (ℕ → BitVec w) :=
  (genLUTCustom 1 N p scale F raw).bind fun lut =>
    bootstrapLUT order P keys gacc Gbr Gr Gks bs bc brk ksk errBR old ext bufKS bufE rot out ct (ext0 lut)
end

/-! ### Gates -/

/-- The update of the body in multi-key gates.  The loops are those of the package `tfhe` (`Gate.lin`), the constants of
`XOR` and `XNOR` are not. -/
def gateBody {w : ℕ} : Gate → BitVec w → BitVec w
  /- mktfhe/binary_evaluator.go:75 -/
  | .and, x => x - BitVec.ofNat w (1 <<< (w - 3))
  /- mktfhe/binary_evaluator.go:113 -/
  | .nand, x => x + BitVec.ofNat w (1 <<< (w - 3))
  /- mktfhe/binary_evaluator.go:151 -/
  | .or, x => x + BitVec.ofNat w (1 <<< (w - 3))
  /- mktfhe/binary_evaluator.go:189 -/
  | .nor, x => x - BitVec.ofNat w (1 <<< (w - 3))
  /- mktfhe/binary_evaluator.go:227 -/
  | .xor, x => x + BitVec.ofNat w (1 <<< (w - 3))
  /- mktfhe/binary_evaluator.go:265 -/
  | .xnor, x => x - BitVec.ofNat w (1 <<< (w - 3))

/-- The part of a gate before bootstrapping; `dim` is the dimension of multi-key ciphertexts.
mktfhe/binary_evaluator.go:72-75, 110-113, 148-151, 186-189, 224-227, 262-265. -/
def gateLinear {w : ℕ} (g : Gate) (dim out ct0 ct1 : ℕ) (m : Mem (BitVec w)) : Mem (BitVec w) :=
  let m := mapLoop (fun _ x y => g.lin x y) out ct0 ct1 (List.range (dim + 1)) m
  m.write out 0 (gateBody g (m out 0))

/-- `NOTTo` is the function of the package `tfhe`.  mktfhe/binary_evaluator.go:54-59. -/
abbrev notTo {w : ℕ} (dim out ct : ℕ) (m : Mem (BitVec w)) : Mem (BitVec w) := Tfhe.notTo dim out ct m

/-- `ANDTo`, …, `XNORTo`: the linear part into `out`, then `BootstrapLUTTo(ctOut, ctOut, signLUT)`.  The sign table is that of
the package `tfhe` (mktfhe/binary_evaluator.go:23-24).  The slice of the output has at least `P` times the default
dimension plus one elements; elements past that are not written.
mktfhe/binary_evaluator.go:71-78, 109-116, 147-154, 185-192, 223-230, 261-268. -/
def gateTo {w N : ℕ} [NeZero N] (g : Gate) (order : BootstrapOrder) (P : ℕ)
    (keys : ℕ → Option (EvalKey (Poly N (BitVec w)))) (gacc : GadgetParams w)
    (Gbr Gr : Gadget (Poly N (BitVec w))) (Gks : Gadget (BitVec w)) (bs bc : ℕ)
    (brk : ℕ → ℕ → Fin 2 → ℕ → Fin 2 → Poly N (BitVec w))
    (ksk : ℕ → Option (ℕ → ℕ → Fin (bs * bc + 1) → BitVec w)) (errBR : ℕ → ℕ → ℕ → ℕ → Fin 2 → Poly N (BitVec w))
    (old : ℕ → ℕ → Poly N (BitVec w)) (ext : ℕ → ExtArgs (Poly N (BitVec w))) (bufKS bufE : ℕ → BitVec w)
    (rot : Mem (Poly N (BitVec w))) (out ct0 ct1 : ℕ) (m : Mem (BitVec w)) : Option (Mem (BitVec w)) :=
  let m := gateLinear g (P * defaultLWEDim order (bs * bc) N) out ct0 ct1 m
  (bootstrapLUT order P keys gacc Gbr Gr Gks bs bc brk ksk errBR old ext bufKS bufE rot (m out) (m out)
    (signLUT w N)).map fun res v i => if v = out then res i else m v i

end Tfhe.Mk
