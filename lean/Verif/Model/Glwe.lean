import Verif.Model.Lwe
import Verif.Spec.Poly

/-!
# Model of `tfhe/glwe_ops.go`, of the phase part of `tfhe/glwe_enc.go` and of `tfhe/glwe.go`

GLWE ciphertexts live in a store of vectors of polynomials (`Mem P`, with `P` any commutative ring;
`P = Poly N (BitVec w)` in the applications).  The polynomial operations themselves are the ring
operations of `P`; the loops that implement them are modelled in `Model/Poly.lean` and
`Model/Vec.lean`.  A product computed with the FFT is the ring product plus an arbitrary error, an
argument of the model, one for every product that is computed.
-/
namespace Tfhe

/-- `for i in is { ctOut.Value[i] = f i ctOut.Value[i] ct0.Value[i] ct1.Value[i] }`. -/
def mapLoopI {P : Type} (f : Nat → P → P → P → P) (out v0 v1 : Nat) : List Nat → Mem P → Mem P
  | [], m => m
  | i :: is, m => mapLoopI f out v0 v1 is (m.write out i (f i (m out i) (m v0 i) (m v1 i)))

section
variable {P : Type}

/-- `AddGLWETo`. tfhe/glwe_ops.go:15-19. -/
def addGLWETo [Add P] (k out ct0 ct1 : Nat) (m : Mem P) : Mem P :=
  mapLoopI (fun _ _ a b => a + b) out ct0 ct1 (List.range (k + 1)) m
/-- `AddPlainGLWETo`: masks first, then the body. tfhe/glwe_ops.go:29-34. -/
def addPlainGLWETo [Add P] (k out ct : Nat) (pt : P) (m : Mem P) : Mem P :=
  let m := mapLoopI (fun _ _ a _ => a) out ct ct (List.range' 1 k) m
  m.write out 0 (m ct 0 + pt)
/-- `SubGLWETo`. tfhe/glwe_ops.go:44-48. -/
def subGLWETo [Sub P] (k out ct0 ct1 : Nat) (m : Mem P) : Mem P :=
  mapLoopI (fun _ _ a b => a - b) out ct0 ct1 (List.range (k + 1)) m
/-- `SubPlainGLWETo`. tfhe/glwe_ops.go:58-63. -/
def subPlainGLWETo [Sub P] (k out ct : Nat) (pt : P) (m : Mem P) : Mem P :=
  let m := mapLoopI (fun _ _ a _ => a) out ct ct (List.range' 1 k) m
  m.write out 0 (m ct 0 - pt)
/-- `NegGLWETo`. tfhe/glwe_ops.go:73-77. -/
def negGLWETo [Neg P] (k out ct : Nat) (m : Mem P) : Mem P :=
  mapLoopI (fun _ _ a _ => -a) out ct ct (List.range (k + 1)) m
/-- `ScalarMulGLWETo`, `PolyMulGLWETo` and `FFTPolyMulGLWETo`: every component is multiplied by `p`;
`err i` is the FFT error of component `i` (zero for scalars).
tfhe/glwe_ops.go:87-91, 115-119, 143-147. -/
def mulGLWETo [Add P] [Mul P] (k out ct : Nat) (p : P) (err : Nat → P) (m : Mem P) : Mem P :=
  mapLoopI (fun i _ a _ => a * p + err i) out ct ct (List.range (k + 1)) m
/-- `ScalarMulAddGLWETo`, `PolyMulAddGLWETo` and `FFTPolyMulAddGLWETo`.
tfhe/glwe_ops.go:94-98, 122-126, 150-154. -/
def mulAddGLWETo [Add P] [Mul P] (k out ct : Nat) (p : P) (err : Nat → P) (m : Mem P) : Mem P :=
  mapLoopI (fun i o a _ => o + (a * p + err i)) out ct ct (List.range (k + 1)) m
/-- `ScalarMulSubGLWETo`, `PolyMulSubGLWETo` and `FFTPolyMulSubGLWETo`.
tfhe/glwe_ops.go:101-105, 129-133, 157-161. -/
def mulSubGLWETo [Add P] [Sub P] [Mul P] (k out ct : Nat) (p : P) (err : Nat → P) (m : Mem P) : Mem P :=
  mapLoopI (fun i o a _ => o - (a * p + err i)) out ct ct (List.range (k + 1)) m

/-!
The next operations apply an exact map `σ` to every component: multiplication by `X^d` or `X ↦ X^d`.
The `To` forms must not be called with overlapping arguments (the source says so), and the model of a
polynomial as one value would hide what happens then; so they are `none` when `out = ct`.
-/

/-- `MonomialMulGLWETo` and `PermuteGLWETo`. tfhe/glwe_ops.go:174-178, 222-226. -/
def exactMapGLWETo (k out ct : Nat) (σ : P → P) (m : Mem P) : Option (Mem P) :=
  if out = ct then none else some (mapLoopI (fun _ _ a _ => σ a) out ct ct (List.range (k + 1)) m)
/-- `MonomialMulGLWEInPlace` and `PermuteGLWEInPlace`. tfhe/glwe_ops.go:181-185, 232-236. -/
def exactMapGLWEInPlace (k ct : Nat) (σ : P → P) (m : Mem P) : Mem P :=
  mapLoopI (fun _ _ a _ => σ a) ct ct ct (List.range (k + 1)) m
/-- `MonomialMulAddGLWETo` and `PermuteAddGLWETo`. tfhe/glwe_ops.go:190-194, 244-248. -/
def exactMapAddGLWETo [Add P] (k out ct : Nat) (σ : P → P) (m : Mem P) : Option (Mem P) :=
  if out = ct then none else some (mapLoopI (fun _ o a _ => o + σ a) out ct ct (List.range (k + 1)) m)
/-- `MonomialMulSubGLWETo` and `PermuteSubGLWETo`. tfhe/glwe_ops.go:199-203, 256-260. -/
def exactMapSubGLWETo [Sub P] (k out ct : Nat) (σ : P → P) (m : Mem P) : Option (Mem P) :=
  if out = ct then none else some (mapLoopI (fun _ o a _ => o - σ a) out ct ct (List.range (k + 1)) m)

/-- `EncryptGLWEBody`: `mask` is drawn by the uniform sampler, `noise` by the Gaussian sampler,
`err i` is the error of the product `mask i * sk i`.  tfhe/glwe_enc.go:37-44. -/
def encryptGLWEBody [Add P] [Sub P] [Mul P] {k : Nat} (sk mask err : Fin k → P) (noise body : P) :
    Fin (k + 1) → P :=
  let body := Fin.foldl k (fun b i => b - (mask i * sk i + err i)) body
  Fin.cons (body + noise) mask

/-- `EncryptGLWEPlaintextTo`. tfhe/glwe_enc.go:30-33. -/
def encryptGLWEPlaintext [Add P] [Sub P] [Mul P] {k : Nat} (sk mask err : Fin k → P) (noise pt : P) :
    Fin (k + 1) → P := encryptGLWEBody sk mask err noise pt

/-- `DecryptGLWEPhaseTo`. tfhe/glwe_enc.go:66-71. -/
def decryptGLWEPhase [Add P] [Mul P] {k : Nat} (sk err : Fin k → P) (ct : Fin (k + 1) → P) : P :=
  Fin.foldl k (fun b i => b + (ct i.succ * sk i + err i)) (ct 0)
end

/-- `pOut[i] = x` on a slice seen as a function. -/
def upd {R : Type} (f : Nat → R) (i : Nat) (x : R) : Nat → R := fun j => if j = i then x else f j

/-- `AsLWEKeyTo`: component `i` is copied to `skOut[i*N : (i+1)*N]`; `out` is the old contents.
tfhe/glwe.go:64-71. -/
def asLWEKey {N k : Nat} {R : Type} (sk : Fin k → Poly N R) (out : Nat → R) : Nat → R :=
  Fin.foldl k (fun out i => Fin.foldl N (fun out j => upd out (i * N + j) (sk i j)) out) out

/-- One iteration of the outer loop of `AsLWECiphertextTo`: component `a`, written from position `off`.
tfhe/glwe.go:216-221. -/
def extractRow {N : Nat} {R : Type} [Neg R] (a : Poly N R) (idx : Fin N) (off : Nat) (out : Nat → R) :
    Nat → R :=
  let out := (List.range (idx + 1)).foldl
    (fun out j => upd out (off + j) (a ⟨idx - j, by omega⟩)) out
  (List.range' (idx + 1) (N - (idx + 1))).attach.foldl
    (fun out j => upd out (off + j.1)
      (-a ⟨idx + N - j.1, by have := j.2; simp only [List.mem_range'_1] at this; omega⟩)) out

/-- `AsLWECiphertextTo`; `out` is the old contents of the output slice.
tfhe/glwe.go:212-223; mktfhe/glwe.go:82-93 is the same. -/
def asLWECiphertext {N k : Nat} {R : Type} [Neg R] (ct : Fin (k + 1) → Poly N R) (idx : Fin N)
    (out : Nat → R) : Nat → R :=
  Fin.foldl k (fun out i => extractRow (ct i.succ) idx (1 + i * N) out) (upd out 0 (ct 0 idx))

end Tfhe
