import Verif.Model.Bootstrap
import Verif.Model.Glwe

/-!
# Model of `tfhe/binary_encoder.go`, `tfhe/binary_encryptor.go` and `tfhe/binary_evaluator.go`
-/
namespace Tfhe

/-- `EncodeLWEBool`.  tfhe/binary_encoder.go:26-31. -/
def encodeLWEBool (w : ℕ) (message : Bool) : BitVec w :=
  if message then BitVec.ofNat w (1 <<< (w - 3)) else BitVec.ofNat w (7 <<< (w - 3))

/-- `DecodeLWEBool`.  tfhe/binary_encoder.go:34-36. -/
def decodeLWEBool {w : ℕ} (pt : BitVec w) : Bool := decide (pt.toNat < 1 <<< (w - 1))

/-- `EncryptLWEBool`; `mask` and `noise` are the samples.  tfhe/binary_encryptor.go:48-50. -/
def encryptLWEBool {w n : ℕ} (sk mask : Fin n → BitVec w) (noise : BitVec w) (message : Bool) :
    Fin (n + 1) → BitVec w :=
  encryptLWEPlaintext sk mask noise (encodeLWEBool w message)

/-- `DecryptLWEBool`.  tfhe/binary_encryptor.go:60-62. -/
def decryptLWEBool {w n : ℕ} (sk : Fin n → BitVec w) (ct : Fin (n + 1) → BitVec w) : Bool :=
  decodeLWEBool (decryptLWEPhase sk ct)

/-- `EncryptLWEBitsTo`, `bits` iterations from index `i` (the samples of ciphertext `i` are `mask i` and
`noise i`).  The shift of an `int` is arithmetic.  tfhe/binary_encryptor.go:75-80. -/
def encryptLWEBits {w n : ℕ} (sk : Fin n → BitVec w) (mask : ℕ → Fin n → BitVec w) (noise : ℕ → BitVec w) :
    ℕ → ℕ → BitVec 64 → List (Fin (n + 1) → BitVec w)
  | 0, _, _ => []
  | bits + 1, i, message =>
    encryptLWEBool sk (mask i) (noise i) (message &&& 1 == 1) ::
      encryptLWEBits sk mask noise bits (i + 1) (message.sshiftRight 1)

/-- One iteration of the loop of `DecryptLWEBits`.  tfhe/binary_encryptor.go:88-91. -/
def decryptBitStep {w n : ℕ} (sk : Fin n → BitVec w) (message : BitVec 64) (ct : Fin (n + 1) → BitVec w) :
    BitVec 64 :=
  let message := message <<< 1
  if decryptLWEBool sk ct then message + 1 else message

/-- `DecryptLWEBits`: from the last ciphertext to the first.  tfhe/binary_encryptor.go:85-94. -/
def decryptLWEBits {w n : ℕ} (sk : Fin n → BitVec w) (cts : List (Fin (n + 1) → BitVec w)) : BitVec 64 :=
  cts.reverse.foldl (decryptBitStep sk) 0

/-- The gates that bootstrap. -/
inductive Gate where
  | and | nand | or | nor | xor | xnor

/-- What the loop of a gate computes for every element. -/
def Gate.lin {w : ℕ} : Gate → BitVec w → BitVec w → BitVec w
  /- tfhe/binary_evaluator.go:78-80 -/
  | .and, x, y => x + y
  /- tfhe/binary_evaluator.go:97-99 -/
  | .nand, x, y => -x - y
  /- tfhe/binary_evaluator.go:116-118 -/
  | .or, x, y => x + y
  /- tfhe/binary_evaluator.go:135-137 -/
  | .nor, x, y => -x - y
  /- tfhe/binary_evaluator.go:154-156 -/
  | .xor, x, y => 2 * (x + y)
  /- tfhe/binary_evaluator.go:173-175 -/
  | .xnor, x, y => 2 * (-x - y)

/-- The update of the body. -/
def Gate.body {w : ℕ} : Gate → BitVec w → BitVec w
  /- tfhe/binary_evaluator.go:81 -/
  | .and, x => x - BitVec.ofNat w (1 <<< (w - 3))
  /- tfhe/binary_evaluator.go:100 -/
  | .nand, x => x + BitVec.ofNat w (1 <<< (w - 3))
  /- tfhe/binary_evaluator.go:119 -/
  | .or, x => x + BitVec.ofNat w (1 <<< (w - 3))
  /- tfhe/binary_evaluator.go:138 -/
  | .nor, x => x - BitVec.ofNat w (1 <<< (w - 3))
  /- tfhe/binary_evaluator.go:157 -/
  | .xor, x => x + BitVec.ofNat w (1 <<< (w - 2))
  /- tfhe/binary_evaluator.go:176 -/
  | .xnor, x => x - BitVec.ofNat w (1 <<< (w - 2))

/-- The part of a gate before bootstrapping, on ciphertexts of dimension `dim`; `out` may be `ct0` or
`ct1`.  tfhe/binary_evaluator.go:78-81, 97-100, 116-119, 135-138, 154-157, 173-176. -/
def gateLinear {w : ℕ} (g : Gate) (dim out ct0 ct1 : ℕ) (m : Mem (BitVec w)) : Mem (BitVec w) :=
  let m := mapLoop (fun _ x y => g.lin x y) out ct0 ct1 (List.range (dim + 1)) m
  m.write out 0 (g.body (m out 0))

/-- `NOTTo`.  tfhe/binary_evaluator.go:60-65. -/
def notTo {w : ℕ} (dim out ct : ℕ) (m : Mem (BitVec w)) : Mem (BitVec w) :=
  mapLoop (fun _ x _ => -x) out ct ct (List.range (dim + 1)) m

/-- `signLUT`: every coefficient of every slot.  tfhe/binary_evaluator.go:27-30. -/
def signLUT (w N : ℕ) : ℕ → Poly N (BitVec w) := fun _ _ => BitVec.ofNat w (1 <<< (w - 3))

/-- `DefaultLWEDimension`.  tfhe/params.go:490-495. -/
def defaultLWEDim (order : BootstrapOrder) (n big : ℕ) : ℕ :=
  match order with
  | .ksBr => big
  | .brKs => n

/-- `ANDTo`, …, `XNORTo`: the linear part into `out`, then `BootstrapLUTTo(ctOut, ctOut, signLUT)`.
tfhe/binary_evaluator.go:77-84, 96-103, 115-122, 134-141, 153-160, 172-179. -/
def gateTo {w N k : ℕ} [NeZero N] (g : Gate) (order : BootstrapOrder) (G : Gadget (Poly N (BitVec w)))
    (Gks : Gadget (BitVec w)) (f bs bc : ℕ)
    (brk : ℕ → Fin (k + 1) → ℕ → Fin (k + 1) → Poly N (BitVec w)) (ksk : ℕ → ℕ → Fin (bs * bc + 1) → BitVec w)
    (err : ℕ → ℕ → Fin (k + 1) → Poly N (BitVec w)) (old : ℕ → Poly N (BitVec w)) (buf : ℕ → BitVec w)
    (out ct0 ct1 : ℕ) (m : Mem (BitVec w)) : Mem (BitVec w) :=
  let dim := defaultLWEDim order (bs * bc) (k * N)
  let m := gateLinear g dim out ct0 ct1 m
  let res := bootstrapLUT order G Gks f bs bc brk ksk err old buf (m out) (m out) (signLUT w N)
  fun v i => if v = out ∧ i < dim + 1 then res i else m v i

end Tfhe
