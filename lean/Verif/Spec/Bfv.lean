import Verif.Spec.Noise
import Mathlib.Data.List.FinRange

/-!
# Vocabulary for BFV multiplication and packing
-/
namespace Tfhe
variable {P : Type} [CommRing P]

/-- The key of a tensored ciphertext: `s_1, ..., s_k`, then `s_i s_j` for `i ≤ j`, row by row. -/
def tensorKey {k : ℕ} (s : Fin k → P) : List P :=
  List.ofFn s ++ (List.finRange k).flatMap fun i => ((List.finRange k).filter (i ≤ ·)).map fun j => s i * s j

/-- `Σ_t T (n + t) * key[t]`. -/
def wsum (T : ℕ → P) (n : ℕ) : List P → P
  | [] => 0
  | x :: l => T n * x + wsum T (n + 1) l

/-- The phase of a tensored ciphertext `T` (component 0 is the body). -/
def tensorPhase {k : ℕ} (s : Fin k → P) (T : ℕ → P) : P := T 0 + wsum T 1 (tensorKey s)

section
variable {N : ℕ}

/-- Largest coefficient of an integer polynomial. -/
def iabs (p : Poly N ℤ) : ℕ := Finset.univ.sup fun i => (p i).natAbs

/-- An integer polynomial modulo `2^w`. -/
def ofIntP (w : ℕ) (p : Poly N ℤ) : Poly N (BitVec w) := fun i => BitVec.ofInt w (p i)

/-- Keep the coefficients whose index is a multiple of `t`. -/
def keepMul {R : Type} [Zero R] (t : ℕ) (p : Poly N R) : Poly N R := fun j => if t ∣ (j : ℕ) then p j else 0
end
end Tfhe
