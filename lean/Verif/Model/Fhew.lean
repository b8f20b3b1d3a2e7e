import Verif.Model.Bootstrap
import Verif.Model.Bfv

/-!
# Model of `xtfhe/fhew_bootstrap.go`, `xtfhe/fhew_bootstrap_keygen.go` and `xtfhe/fhew_evaluator.go`

`N` is the rank and the table size (`Compile` requires them to be equal) and `n + 1` the GLWE rank.  Vector `out` of the
memory is `ctOut` and vector `pb` the buffer `ctPermute`.  Fourier errors are as in `Model/Product.lean`.  Indices and
exponents are integers; they are far below `2^63`.
-/
namespace Tfhe.Fhew
open Tfhe Bfv

/-! ### Exponents -/

/-- `ModSwitch`.  xtfhe/fhew_bootstrap.go:42-44. -/
def switch (w N : Nat) (x : BitVec w) : Nat := modSwitch w N x ||| 1

/-- Assignment to an element of a slice; `none` is the index panic. -/
def setAt {R : Type} (l : List R) (i : Int) (v : R) : Option (List R) :=
  if 0 ≤ i ∧ i < l.length then some (l.set i.toNat v) else none

/-- One iteration of the loop; the state is `autIdxMap` and `autIdx`.  xtfhe/fhew_evaluator.go:52-56. -/
def autStep (N : Nat) (st : List Int × Nat) (i : Nat) : Option (List Int × Nat) :=
  (setAt st.1 st.2 (i : Int)).bind fun l =>
  (setAt l ((2 * N : Nat) - (st.2 : Int)) (-(i : Int))).map fun l => (l, st.2 * 5 % (2 * N))

/-- `autIdxMap` of `NewFHEWEvaluator`.  xtfhe/fhew_evaluator.go:50-57. -/
def autIdxMap (N : Nat) : Option (List Int) :=
  ((List.range (N / 2)).foldlM (autStep N) (List.replicate (2 * N) 0, 1)).bind fun st =>
  setAt st.1 ((2 * N : Nat) - 1) (2 * N : Nat)

/-- `ctAutIdxMap`; a key is in the map if its list is not empty.  `dim` is the LWE dimension.
xtfhe/fhew_bootstrap.go:57-62. -/
def ctAutIdx {w : Nat} (N dim : Nat) (aut : List Int) (ct : Nat → BitVec w) : Option (Int → List Nat) :=
  (List.range dim).foldlM (fun (M : Int → List Nat) i =>
    (aut[switch w N (-ct (i + 1))]?).map fun a => Function.update M a (M a ++ [i])) (fun _ => [])

/-! ### Blind rotation -/

section
variable {w N n : Nat} [NeZero N]
local notation "P" => Poly N (BitVec w)

/-- The evaluation key and the parameters that are read.  xtfhe/fhew_bootstrap_keygen.go:12-22. -/
structure Keys (w N n : Nat) where
  /-- `BlindRotateParams` -/
  g : GadgetParams w
  /-- `windowSize` -/
  window : Nat
  /-- `BlindRotateKey` -/
  brk : Nat → Fin (n + 1 + 1) → Nat → Fin (n + 1 + 1) → Poly N (BitVec w)
  /-- `GaloisKey` -/
  gal : List (GalKey w N n)

/-- The Fourier errors: one for every product with a key element, and one for every key switch (which half, which `i`,
before or after the products). -/
structure Errs (w N n : Nat) where
  ext : Nat → Fin (n + 1 + 1) → Poly N (BitVec w)
  perm : Bool → Nat → Bool → Fin (n + 1 + 1) → Poly N (BitVec w)

/-- The automorphism `X -> X^(5^skip)` and the key switch back; `none` is a panic.
xtfhe/fhew_bootstrap.go:74-75, 96-97, 124-125, 146-147. -/
def flush (K : Keys w N n) (out pb skip : Nat) (err : Fin (n + 1 + 1) → P) (m : Mem P) : Option (Mem P) :=
  (modExp true 64 5 skip (2 * N : Nat)).bind fun d =>
    permuteTo (fun _ => K.gal[skip]?) out out pb (BitVec.ofInt 64 d) err m

/-- Products with the key elements `js`, in this order.
xtfhe/fhew_bootstrap.go:79-91, 103-115, 129-141, 153-165. -/
def mulKeys (K : Keys w N n) (out : Nat) (err : Nat → Fin (n + 1 + 1) → P) (js : List Nat) (m : Mem P) : Mem P :=
  js.foldl (fun m j => externalProdTo (polyGadget N K.g) (n + 1) out (K.brk j) out (err j) m) m

/-- The part of an iteration that is skipped if no exponent has this index.
xtfhe/fhew_bootstrap.go:72-92, 122-142. -/
def applySet (K : Keys w N n) (out pb : Nat) (js : List Nat) (ext : Nat → Fin (n + 1 + 1) → P)
    (perm : Fin (n + 1 + 1) → P) (st : Mem P × Nat) : Option (Mem P × Nat) :=
  if js ≠ [] then
    (if st.2 ≠ 0 then (flush K out pb st.2 perm st.1).map fun m => (m, 0) else some st).map fun st =>
      (mulKeys K out ext js st.1, st.2)
  else some st

/-- One iteration of a loop over `i`; the state is the memory and `skipCnt`.
xtfhe/fhew_bootstrap.go:71-100, 121-150. -/
def sweepStep (K : Keys w N n) (out pb : Nat) (set : Nat → List Nat) (ext : Nat → Fin (n + 1 + 1) → P)
    (perm : Nat → Bool → Fin (n + 1 + 1) → P) (st : Mem P × Nat) (i : Nat) : Option (Mem P × Nat) :=
  (applySet K out pb (set i) ext (perm i false) st).bind fun st =>
  if st.2 + 1 = K.window ∨ i = 1 then (flush K out pb (st.2 + 1) (perm i true) st.1).map fun m => (m, 0)
  else some (st.1, st.2 + 1)

/-- `for i := PolyRank/2 - 1; i > 0; i--`.  xtfhe/fhew_bootstrap.go:71-100, 121-150. -/
def sweep (K : Keys w N n) (out pb : Nat) (set : Nat → List Nat) (ext : Nat → Fin (n + 1 + 1) → P)
    (perm : Nat → Bool → Fin (n + 1 + 1) → P) (st : Mem P × Nat) : Option (Mem P × Nat) :=
  (List.range' 1 (N / 2 - 1)).reverse.foldlM (sweepStep K out pb set ext perm) st

/-- `BlindRotateTo`; the table does not share memory with the output.  `aut` is `autIdxMap`.
xtfhe/fhew_bootstrap.go:54-167. -/
def blindRotateTo (K : Keys w N n) (dim : Nat) (aut : List Int) (err : Errs w N n) (out pb : Nat)
    (ct : Nat → BitVec w) (lut : P) (m : Mem P) : Option (Mem P) :=
  (ctAutIdx N dim aut ct).bind fun M =>
  let m := m.write out 0 (Poly.subst (-5) lut)
  let m := m.write out 0 (Poly.mono N (BitVec w) (-5 * (switch w N (-ct 0) : Int)) * m out 0)
  let m := mapLoopI (fun _ _ _ _ => 0) out out out (List.range' 1 (n + 1)) m
  (sweep K out pb (fun i => M (-(i : Int))) err.ext (err.perm false) (m, 0)).bind fun st =>
  let m := mulKeys K out err.ext (M (2 * N : Nat)) st.1
  (permuteTo (fun _ => K.gal[st.2]?) out out pb (-5#64) (err.perm false 0 true) m).bind fun m =>
  (sweep K out pb (fun i => M (i : Int)) err.ext (err.perm true) (m, st.2)).map fun st =>
  mulKeys K out err.ext (M 0) st.1

/-! ### Key generation -/

/-- One element of `GenBlindRotateKey`; `s` is the key element.  The monomial has the exponent `int(int32(s))` or
`int(int64(s))`.  xtfhe/fhew_bootstrap_keygen.go:53-76. -/
def genBlindRotateKeyElem (g : GadgetParams w) (sk : Fin (n + 1) → P)
    (mask err : Fin (n + 1 + 1) → Nat → Fin (n + 1) → P) (noise : Fin (n + 1 + 1) → Nat → P) (s : BitVec w) :
    Fin (n + 1 + 1) → Nat → Fin (n + 1 + 1) → P :=
  Fin.cons (encryptGLevPoly g sk (mask 0) (err 0) (noise 0) (Poly.mono N (BitVec w) s.toInt * 1)) fun j =>
    encryptGLevPoly g sk (mask j.succ) (err j.succ) (noise j.succ) (Poly.mono N (BitVec w) s.toInt * sk j)

/-- The degree of Galois key `i`.  xtfhe/fhew_bootstrap_keygen.go:148, 153. -/
def galDegree (N i : Nat) : Option Int := if i = 0 then some (-5) else modExp true 64 5 i (2 * N : Nat)

/-- `GenGaloisKey`: `ρ i` are the samples of key `i`.  xtfhe/fhew_bootstrap_keygen.go:144-161. -/
def genGaloisKey (g : GadgetParams w) (window : Nat) (sk : Fin (n + 1) → P) (ρ : Nat → KeyRand P (n + 1) (n + 1)) :
    Option (List (GalKey w N n)) :=
  (List.range (window + 1)).mapM fun i => (galDegree N i).bind fun d =>
    if BitVec.ofInt 64 d &&& 1 = 0 then none
    else some ⟨g, genGLWEKeySwitchKey g sk (ρ i).mask (ρ i).err (ρ i).noise
      (fun j => Poly.subst (BitVec.ofInt 64 d).toInt (sk j))⟩

/-! ### Bootstrapping -/

/-- `BootstrapLUTTo`.  `rot` is the number of the buffer `ctRotate`; `buf` are the old contents of the buffer for the
extraction and `old` those of the output.  xtfhe/fhew_bootstrap.go:28-39. -/
def bootstrapLUT (order : BootstrapOrder) (K : Keys w N n) (Gks : Gadget (BitVec w)) (dim : Nat)
    (ksk : Nat → Nat → Fin (dim + 1) → BitVec w) (aut : List Int) (err : Errs w N n) (rot pb : Nat)
    (buf old ct : Nat → BitVec w) (lut : P) (m : Mem P) : Option (Nat → BitVec w) :=
  match order with
  | .ksBr =>
    let ctKeySwitch := ext0 (defaultKeySwitch Gks dim ((n + 1) * N) ksk ct)
    (blindRotateTo K dim aut err rot pb ctKeySwitch lut m).map fun m =>
      asLWECiphertext (fun t : Fin (n + 1 + 1) => m rot t) ⟨0, NeZero.pos N⟩ old
  | .brKs =>
    (blindRotateTo K dim aut err rot pb ct lut m).map fun m =>
      ext0 (defaultKeySwitch Gks dim ((n + 1) * N) ksk (asLWECiphertext (fun t : Fin (n + 1 + 1) => m rot t) ⟨0, NeZero.pos N⟩ buf))

/-- `BootstrapFuncTo`; `raw` are the old contents of the table buffer.  xtfhe/fhew_bootstrap.go:15-18. -/
def bootstrapFunc (order : BootstrapOrder) (K : Keys w N n) (Gks : Gadget (BitVec w)) (dim : Nat)
    (ksk : Nat → Nat → Fin (dim + 1) → BitVec w) (aut : List Int) (p scale : BitVec w) (raw : List (BitVec w))
    (err : Errs w N n) (rot pb : Nat) (buf old ct : Nat → BitVec w) (F : Nat → BitVec 64) (m : Mem P) :
    Option (Nat → BitVec w) :=
  (genLUTCustom 1 N p scale F raw).bind fun lut =>
    bootstrapLUT order K Gks dim ksk aut err rot pb buf old ct (lut 0) m
end

end Tfhe.Fhew
