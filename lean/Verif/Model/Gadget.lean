import Verif.Model.Num

/-!
# Model of gadget parameters and gadget decomposition

`tfhe/params.go` (gadget part) and `tfhe/decomposer.go`.
-/
namespace Tfhe

/-- `GadgetParameters[T]`. tfhe/params.go:61-71.  `sizeT` is the word size `w`. -/
structure GadgetParams (w : Nat) where
  base : BitVec w
  logBase : Nat
  level : Nat
deriving DecidableEq

namespace GadgetParams
variable {w : Nat} (g : GadgetParams w)

/-- `LogBaseQ(i)`. tfhe/params.go:106-108. -/
def logBaseQ (i : Nat) : Nat := w - (i + 1) * g.logBase
/-- `BaseQ(i)`. tfhe/params.go:90-92. -/
def baseQ (i : Nat) : BitVec w := 1#w <<< (w - (i + 1) * g.logBase)
/-- `LogFirstBaseQ`. tfhe/params.go:111-113. -/
def logFirstBaseQ : Nat := w - g.logBase
/-- `LogLastBaseQ`. tfhe/params.go:116-118. -/
def logLastBaseQ : Nat := w - g.level * g.logBase

/-- What a compiled gadget guarantees (established by `Compile`, see `Props/C23`). -/
structure Valid : Prop where
  logBase_pos : 1 ≤ g.logBase
  base_eq : g.base.toNat = 2 ^ g.logBase
  level_pos : 1 ≤ g.level
  fits : g.logBase * g.level ≤ w

end GadgetParams

/-- Body of the digit loop of `DecomposeScalarTo`: the digit that is stored.
tfhe/decomposer.go:117,120 (and 122-123 for the top digit). -/
def dcmpDigit {w : Nat} (g : GadgetParams w) (u : BitVec w) : BitVec w :=
  let d := u &&& (g.base - 1#w)
  d - ((d &&& (g.base >>> 1)) <<< 1)

/-- Body of the digit loop of `DecomposeScalarTo`: the next value of `u`.
tfhe/decomposer.go:117-119. -/
def dcmpNext {w : Nat} (g : GadgetParams w) (u : BitVec w) : BitVec w :=
  let d := u &&& (g.base - 1#w)
  (u >>> g.logBase) + (d >>> (g.logBase - 1))

/-- The loop `for i := level-1; i >= 1; i--` of `DecomposeScalarTo`; the first argument is
the number of remaining iterations, `acc` holds the digits already stored (higher indices).
tfhe/decomposer.go:114-124.  The final step stores index 0. -/
def dcmpLoop {w : Nat} (g : GadgetParams w) : Nat → BitVec w → List (BitVec w) → List (BitVec w)
  | 0, u, acc => dcmpDigit g u :: acc
  | n + 1, u, acc => dcmpLoop g n (dcmpNext g u) (dcmpDigit g u :: acc)

/-- `DecomposeScalarTo`; the result is the contents of `dcmpOut[0..level)`.
tfhe/decomposer.go:114-124.  (`decomposePolyTo`, tfhe/asm_decompose.go:11-24, runs the same
code on every coefficient.) -/
def decomposeScalar {w : Nat} (g : GadgetParams w) (x : BitVec w) : List (BitVec w) :=
  dcmpLoop g (g.level - 1) (divRoundBits x g.logLastBaseQ) []

/-- Loop of `RecomposeScalar` starting at index `i`. tfhe/decomposer.go:163-165. -/
def recomposeFrom {w : Nat} (g : GadgetParams w) : Nat → List (BitVec w) → BitVec w
  | _, [] => 0#w
  | i, d :: ds => (d <<< g.logBaseQ i) + recomposeFrom g (i + 1) ds

/-- `RecomposeScalar`. tfhe/decomposer.go:161-167. -/
def recomposeScalar {w : Nat} (g : GadgetParams w) (ds : List (BitVec w)) : BitVec w :=
  recomposeFrom g 0 ds

end Tfhe
