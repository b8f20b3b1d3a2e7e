import Verif.Model.ManyLut
import Verif.Model.Bfv

/-!
# Model of `xtfhe/circuit_bootstrap.go` and `xtfhe/circuit_bootstrap_key.go`

The rank is `n + 1`, `N = 2^logN` and the number of functions of a table is `2^lc`.  Vector `row i j` of the memory is
`ctGGSWOut.Value[i].Value[j]`.  The transforms back are exact up to the error arguments, as in `Model/Product.lean`; the
Fourier form of the result (`FwdFFTGGSWCiphertextTo`, line 177) stands for the ciphertext itself.
-/
namespace Tfhe.Circuit
open Tfhe Bfv

variable {w N n : Nat} [NeZero N]
local notation "P" => Poly N (BitVec w)

/-- The fields of the `CircuitBootstrapper` that are read: parameters and keys.
xtfhe/circuit_bootstrap.go:14-29, xtfhe/circuit_bootstrap_params.go. -/
structure Eval (w N n : Nat) where
  order : BootstrapOrder
  logN : Nat
  lc : Nat
  gbr : GadgetParams w
  gks : GadgetParams w
  bs : Nat
  bc : Nat
  /-- message modulus -/
  p : Nat
  brk : Nat → Fin (n + 1 + 1) → Nat → Fin (n + 1 + 1) → Poly N (BitVec w)
  ksk : Nat → Nat → Fin (bs * bc + 1) → BitVec w
  /-- `TraceKeys` -/
  gk : GalKeys w N n
  /-- `schemeSwitchParameters` -/
  gss : GadgetParams w
  /-- `SchemeSwitchKey` -/
  ssk : Nat → Fin (n + 1 + 1) → Nat → Fin (n + 1 + 1) → Poly N (BitVec w)
  /-- `outputParameters`, which are also the parameters of `ctOut` -/
  gout : GadgetParams w

/-- The Fourier errors: of blind rotation (first index: chunk), of the key switches of the trace (level, step) and of
scheme switching (level, component). -/
structure Errs (w N n : Nat) where
  br : Nat → Nat → Fin (n + 1 + 1) → Poly N (BitVec w)
  tr : Nat → Nat → Fin (n + 1 + 1) → Poly N (BitVec w)
  ss : Nat → Nat → Fin (n + 1 + 1) → Poly N (BitVec w)

/-- The functions of one chunk, written over the first entries of the buffer; the others stay.  The buffer has
`lutCount` entries, so the indices are in range.  xtfhe/circuit_bootstrap.go:132-137. -/
def setFs (g : GadgetParams w) (start stop : Nat) (fs : List (Nat → BitVec w)) : List (Nat → BitVec w) :=
  (List.range (stop - start)).foldl
    (fun fs jj => fs.set jj (fun x => BitVec.ofNat w x <<< g.logBaseQ (start + jj))) fs

/-- All coefficients are divided by `N`.  xtfhe/circuit_bootstrap.go:148-152. -/
def divide (k logN rot : Nat) (m : Mem P) : Mem P :=
  mapLoopI (fun _ o _ _ => fun l => divRoundBits (o l) logN) rot rot rot (List.range (k + 1)) m

/-- One step of the trace; `pk` and `pb` are the buffers `ctPack` and `ctPermute`.
xtfhe/circuit_bootstrap.go:157-158. -/
def traceStep (gk : GalKeys w N n) (logN out pk pb : Nat) (err : Nat → Fin (n + 1 + 1) → P) (m : Mem P) (k : Nat) :
    Option (Mem P) :=
  (permuteTo gk pk out pb ((1#64 <<< (logN - k)) + 1#64) (err k) m).map fun m => addGLWETo (n + 1) out out pk m

/-- The trace.  xtfhe/circuit_bootstrap.go:156-159. -/
def trace (gk : GalKeys w N n) (logN out pk pb : Nat) (err : Nat → Fin (n + 1 + 1) → P) (m : Mem P) :
    Option (Mem P) := (List.range logN).foldlM (traceStep gk logN out pk pb err) m

/-- Scheme switching of level `j`: row 0 is decomposed once, then multiplied by every key.
xtfhe/circuit_bootstrap.go:161-173. -/
def schemeSwitch (g : GadgetParams w) (ssk : Nat → Fin (n + 1 + 1) → Nat → Fin (n + 1 + 1) → P)
    (row : Nat → Nat → Nat) (j : Nat) (err : Nat → Fin (n + 1 + 1) → P) (m : Mem P) : Mem P :=
  let dec := fun i : Fin (n + 1 + 1) => (polyGadget N g).dec (m (row 0 j) i)
  (List.range (n + 1)).foldl (fun m k =>
    let acc := extProd g.level (ssk k) dec
    mapLoopI (fun l _ _ _ => ext0 (fun t => acc t + err k t) l) (row (k + 1) j) (row (k + 1) j) (row (k + 1) j)
      (List.range (n + 1 + 1)) m) m

/-- One level: the coefficient is moved to the front, traced, and switched.  `MonomialMulGLWETo` needs distinct
arguments (C08).  xtfhe/circuit_bootstrap.go:154-174. -/
def level (e : Eval w N n) (err : Errs w N n) (row : Nat → Nat → Nat) (rot pk pb start : Nat) (m : Mem P) (jj : Nat) :
    Option (Mem P) :=
  let j := start + jj
  (exactMapGLWETo (n + 1) (row 0 j) rot (Poly.mono N (BitVec w) (-(jj : Int)) * ·) m).bind fun m =>
  (trace e.gk e.logN (row 0 j) pk pb (err.tr j) m).map fun m => schemeSwitch e.gss e.ssk row j (err.ss j) m

/-- The state of the loop over the chunks: the function buffer, the table buffer and the polynomials. -/
abbrev State (w N : Nat) := List (Nat → BitVec w) × List (BitVec w) × Mem (Poly N (BitVec w))

/-- What is blind rotated.  xtfhe/circuit_bootstrap.go:140-146. -/
def input (e : Eval w N n) (ct : Nat → BitVec w) : Nat → BitVec w :=
  match e.order with
  | .brKs => ct
  | .ksBr => ext0 (defaultKeySwitch (scalarGadget e.gks) (e.bs * e.bc) ((n + 1) * N) e.ksk ct)

/-- One iteration of the outer loop, `i = t * lutCount`.  The table is generated over the old contents of the table
buffer.  xtfhe/circuit_bootstrap.go:128-175. -/
def chunk (e : Eval w N n) (err : Errs w N n) (row : Nat → Nat → Nat) (rot pk pb : Nat) (ct : Nat → BitVec w)
    (st : State w N) (t : Nat) : Option (State w N) :=
  let start := t * 2 ^ e.lc
  let stop := min (start + 2 ^ e.lc) e.gout.level
  let fs := setFs e.gout start stop st.1
  (mlGenRaw w N e.p (2 ^ e.lc) fs st.2.1).bind fun raw =>
  (mlPoly N raw).bind fun lut =>
  let r := mlRotate e.logN e.lc (polyGadget N e.gbr) e.bs e.bc e.brk (err.br t) (input e ct) lut
  let m := mapLoopI (fun i _ _ _ => ext0 r i) rot rot rot (List.range (n + 1 + 1)) st.2.2
  let m := divide (n + 1) e.logN rot m
  ((List.range (stop - start)).foldlM (level e err row rot pk pb start) m).map fun m => (fs, raw, m)

/-- `CircuitBootstrapTo`: the loop `for i := 0; i < level; i += lutCount`.
xtfhe/circuit_bootstrap.go:125-178. -/
def bootstrapTo (e : Eval w N n) (err : Errs w N n) (row : Nat → Nat → Nat) (rot pk pb : Nat) (ct : Nat → BitVec w)
    (st : State w N) : Option (State w N) :=
  (List.range ((e.gout.level + (2 ^ e.lc - 1)) / 2 ^ e.lc)).foldlM (chunk e err row rot pk pb ct) st

/-- The GGSW ciphertext in the memory. -/
def ggswOf (row : Nat → Nat → Nat) (m : Mem P) : Fin (n + 1 + 1) → Nat → Fin (n + 1 + 1) → P :=
  fun i j t => m (row i j) t

/-- `SchemeSwitchKey` of `GenCircuitBootstrapKey`; one set of samples per component.
xtfhe/circuit_bootstrap_key.go:43-46. -/
def genSchemeSwitchKey (g : GadgetParams w) (sk : Fin (n + 1) → P)
    (mask err : Nat → Fin (n + 1 + 1) → Nat → Fin (n + 1) → P) (noise : Nat → Fin (n + 1 + 1) → Nat → P)
    (perr : Nat → Fin (n + 1) → P) : Nat → Fin (n + 1 + 1) → Nat → Fin (n + 1 + 1) → P :=
  fun i => if h : i < n + 1 then encryptGGSWPoly g sk (mask i) (err i) (noise i) (perr i) (sk ⟨i, h⟩) else fun _ _ _ => 0

end Tfhe.Circuit
