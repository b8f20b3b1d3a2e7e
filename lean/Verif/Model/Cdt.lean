import Verif.Model.Float

/-!
# Model of the table-driven discrete Gaussian sampler of `xtfhe`
-/
namespace Tfhe.Cdt
open Tfhe

/-- `sort.Search` of the Go library: the loop `for i < j { h := (i + j) / 2; if !f(h) { i = h + 1 } else { j = h } }`. -/
def searchLoop (f : Nat → Bool) (i j : Nat) : Nat :=
  if i < j then
    if f ((i + j) / 2) then searchLoop f i ((i + j) / 2) else searchLoop f ((i + j) / 2 + 1) j
  else i
termination_by j - i

/-- `sort.Search(n, f)`. -/
def search (n : Nat) (f : Nat → Bool) : Nat := searchLoop f 0 n

/-- The value of `Sample` before conversion to `T`, for the raw word `r`.  xtfhe/sanitization_sampler.go:75-82. -/
def sampleInt (table : List (BitVec 64)) (offset : Int) (r : BitVec 64) : Int :=
  search table.length (fun i => decide (r.toNat < (table.getD i 0).toNat)) + offset

/-- `Sample`.  xtfhe/sanitization_sampler.go:75-83. -/
def sample (w : Nat) (table : List (BitVec 64)) (offset : Int) (r : BitVec 64) : BitVec w :=
  BitVec.ofInt w (sampleInt table offset r)

/-- The table entry for a value of `cdf`; `math.MaxUint64` is `2^64` as a `float64`.
xtfhe/sanitization_sampler.go:46-50. -/
def entry (cdf : ℚ) : BitVec 64 := if 1 ≤ cdf then BitVec.allOnes 64 else BitVec.ofInt 64 ⌊fl (cdf * 2 ^ 64)⌋

/-- The loop that fills the table; `ws` are the summands of `cdf`.  xtfhe/sanitization_sampler.go:42-51. -/
def fillTable : ℚ → List ℚ → List (BitVec 64)
  | _, [] => []
  | cdf, x :: ws => entry (fl (cdf + x)) :: fillTable (fl (cdf + x)) ws

/-- The fields of `CDTSampler` that `Sample` uses.  xtfhe/sanitization_sampler.go:22-30. -/
structure Sampler where
  table : List (BitVec 64)
  offset : Int

/-- `tailLo`; `rnd` is the rounding of the product, the identity if the compiler fuses it into the subtraction.  Conversion to
`int64` is modelled for values that fit.  xtfhe/sanitization_sampler.go:37. -/
def tailLo (rnd : ℚ → ℚ) (center stdDev : ℚ) : Int := ⌊fl (center - rnd (12 * stdDev))⌋

/-- `tailHi`.  xtfhe/sanitization_sampler.go:38. -/
def tailHi (rnd : ℚ → ℚ) (center stdDev : ℚ) : Int := ⌈fl (center + rnd (12 * stdDev))⌉

/-- `NewCDTSampler`.  The summand of `cdf` (with `math.Exp` and `math.Sqrt`) is the function `rho` of `x`, `cFrac` and `stdDev`.
xtfhe/sanitization_sampler.go:33-62. -/
def new (rnd : ℚ → ℚ) (rho : ℚ → ℚ → ℚ → ℚ) (center stdDev : ℚ) : Sampler :=
  let cFloor := ⌊center⌋
  let cFrac := fl (center - cFloor)
  let lo := tailLo rnd center stdDev
  let hi := tailHi rnd center stdDev
  let tableSize := (hi - lo + 1).toNat
  ⟨fillTable 0 ((List.range tableSize).map fun i : Nat => rho (fl ((lo + (i : Int) : Int) : ℚ)) cFrac stdDev), lo + cFloor⟩

end Tfhe.Cdt
