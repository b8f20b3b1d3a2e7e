import Verif.Model.Cdt
import Verif.Model.Sampler

/-!
# Model of the table-driven sampler on vectors and polynomials

The raw words are those that the uniform sampler of the sampler gives, one for each call of `Sample`.
-/
namespace Tfhe.Cdt
open Tfhe Tfhe.Rng

/-- `for i := range out { out[i] = op(out[i], s.Sample()) }`.  xtfhe/sanitization_sampler.go:87-89, 99-101, 106-108. -/
def drawLoop {w : Nat} (op : BitVec w → BitVec w → BitVec w) (s : Sampler) :
    List (BitVec w) → List (BitVec 64) → Outcome 64 (List (BitVec w))
  | [], words => .ok [] words
  | _ :: _, [] => .reading
  | x :: out, r :: words =>
    match drawLoop op s out words with
    | .ok out' rest => .ok (op x (sample w s.table s.offset r) :: out') rest
    | .reading => .reading
    | .panic => .panic

/-- `SampleVecTo`, and `SamplePolyTo` on the coefficients.  xtfhe/sanitization_sampler.go:86-95. -/
def sampleVecTo {w : Nat} (s : Sampler) (out : List (BitVec w)) (words : List (BitVec 64)) : Outcome 64 (List (BitVec w)) :=
  drawLoop (fun _ y => y) s out words

/-- `SamplePolyAddTo`.  xtfhe/sanitization_sampler.go:98-102. -/
def samplePolyAddTo {w : Nat} (s : Sampler) (out : List (BitVec w)) (words : List (BitVec 64)) : Outcome 64 (List (BitVec w)) :=
  drawLoop (· + ·) s out words

/-- `SamplePolySubTo`.  xtfhe/sanitization_sampler.go:105-109. -/
def samplePolySubTo {w : Nat} (s : Sampler) (out : List (BitVec w)) (words : List (BitVec 64)) : Outcome 64 (List (BitVec w)) :=
  drawLoop (· - ·) s out words

end Tfhe.Cdt
