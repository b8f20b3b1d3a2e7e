import Verif.Model.Fork

/-!
# Model of parallel multi-key bootstrapping and gates

`BootstrapLUTParallelTo`, `BootstrapFuncParallelTo` and the gates `ANDParallelTo`, …, `XNORParallelTo` of the package
`mktfhe`.  The blind rotation in them runs on the machine of `Model/Fork.lean`, so their results are relations: what some
schedule returns.  Everything else in them runs in the caller, when no goroutine is alive.
-/
namespace Tfhe.Mk
open Tfhe.Fork
variable {w N : ℕ} [NeZero N]
local notation "Pol" => Poly N (BitVec w)

omit [NeZero N] in
/-- The store with another input ciphertext. -/
def setCt (m : Store (Val w N)) (ct : ℕ → BitVec w) : Store (Val w N) := fun a =>
  match a with
  | .ct t => ct t
  | a => m a

/-- The arguments for another table, with the output in the buffer `ctRotate`. -/
def ParArgs.withLUT (x : ParArgs w N) (lut : ℕ → Pol) : ParArgs w N := { x with lut := lut, out := 0 }

/-- `BootstrapLUTParallelTo` may leave `res` in the output: `m0` is the memory at the call, `bufKS` and `bufE` the old contents of
the buffers `ctKeySwitch` and `ctExtract`, `out` those of the output.  mktfhe/bootstrap.go:63-74. -/
def ParArgs.LutReturns (x : ParArgs w N) (order : BootstrapOrder) (Gks : Gadget (BitVec w))
    (ksk : ℕ → Option (ℕ → ℕ → Fin (x.bs * x.bc + 1) → BitVec w)) (bufKS bufE : ℕ → BitVec w) (m0 : Store (Val w N))
    (out ct : ℕ → BitVec w) (lut : ℕ → Pol) (res : ℕ → BitVec w) : Prop :=
  match order with
  | .ksBr =>
    let ctKeySwitch := defaultKeySwitchTo x.P Gks (x.bs * x.bc) N ksk ct bufKS
    ∃ s, Reach (x.withLUT lut).program (setCt m0 ctKeySwitch) s ∧ s.main = .returned ∧
      res = asLWECiphertext (readCt x.P (glweOf s.mem)) ⟨0, NeZero.pos N⟩ out
  | .brKs =>
    ∃ s, Reach (x.withLUT lut).program (setCt m0 ct) s ∧ s.main = .returned ∧
      res = defaultKeySwitchTo x.P Gks (x.bs * x.bc) N ksk
        (asLWECiphertext (readCt x.P (glweOf s.mem)) ⟨0, NeZero.pos N⟩ bufE) out

/-- `BootstrapFuncParallelTo`: the table is generated in a buffer with old contents `raw`.  mktfhe/bootstrap.go:50-53. -/
def ParArgs.FuncReturns (x : ParArgs w N) (order : BootstrapOrder) (Gks : Gadget (BitVec w))
    (ksk : ℕ → Option (ℕ → ℕ → Fin (x.bs * x.bc + 1) → BitVec w)) (p scale : BitVec w) (raw : List (BitVec w))
    (bufKS bufE : ℕ → BitVec w) (m0 : Store (Val w N)) (out ct : ℕ → BitVec w) (F : ℕ → BitVec 64) (res : ℕ → BitVec w) :
    Prop :=
  ∃ lut, genLUTCustom 1 N p scale F raw = some lut ∧ x.LutReturns order Gks ksk bufKS bufE m0 out ct (ext0 lut) res

/-- The linear part of the parallel gates, written out once more in the source.  The loops are those of `Gate.lin`.
mktfhe/binary_evaluator.go:91-94, 129-132, 167-170, 205-208, 243-246, 281-284. -/
def gateLinearPar (g : Gate) (dim out ct0 ct1 : ℕ) (m : Mem (BitVec w)) : Mem (BitVec w) :=
  let lin (x y : BitVec w) : BitVec w := match g with
    | .and => x + y
    | .nand => -x - y
    | .or => x + y
    | .nor => -x - y
    | .xor => 2 * (x + y)
    | .xnor => 2 * (-x - y)
  let body (x : BitVec w) : BitVec w := match g with
    | .and => x - BitVec.ofNat w (1 <<< (w - 3))
    | .nand => x + BitVec.ofNat w (1 <<< (w - 3))
    | .or => x + BitVec.ofNat w (1 <<< (w - 3))
    | .nor => x - BitVec.ofNat w (1 <<< (w - 3))
    | .xor => x + BitVec.ofNat w (1 <<< (w - 3))
    | .xnor => x - BitVec.ofNat w (1 <<< (w - 3))
  let m := mapLoop (fun _ x y => lin x y) out ct0 ct1 (List.range (dim + 1)) m
  m.write out 0 (body (m out 0))

/-- `ANDParallelTo`, …, `XNORParallelTo` may leave the LWE ciphertexts `m'` in memory: the linear part into `out`, then
`BootstrapLUTParallelTo(ctOut, ctOut, signLUT)`.
mktfhe/binary_evaluator.go:90-97, 128-135, 166-173, 204-211, 242-249, 280-287. -/
def ParArgs.GateReturns (x : ParArgs w N) (g : Gate) (order : BootstrapOrder) (Gks : Gadget (BitVec w))
    (ksk : ℕ → Option (ℕ → ℕ → Fin (x.bs * x.bc + 1) → BitVec w)) (bufKS bufE : ℕ → BitVec w) (m0 : Store (Val w N))
    (out ct0 ct1 : ℕ) (m m' : Mem (BitVec w)) : Prop :=
  let m := gateLinearPar g (x.P * defaultLWEDim order (x.bs * x.bc) N) out ct0 ct1 m
  ∃ res, x.LutReturns order Gks ksk bufKS bufE m0 (m out) (m out) (signLUT w N) res ∧
    m' = fun v i => if v = out then res i else m v i
end Tfhe.Mk
