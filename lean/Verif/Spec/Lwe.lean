import Mathlib.Algebra.BigOperators.Fin
import Mathlib.Algebra.BigOperators.Ring.Finset

/-!
# Specification vocabulary for (G)LWE ciphertexts

An LWE ciphertext of dimension `k` over a commutative ring is a vector `(b, a_1, ..., a_k)`.
The same definition serves LWE (`R` = machine words) and GLWE (`R` = polynomials).
-/
namespace Tfhe

/-- The phase `b + Σ a_i s_i` of a ciphertext under a key. -/
def phase {k : ℕ} {R : Type*} [CommRing R] (s : Fin k → R) (c : Fin (k + 1) → R) : R :=
  c 0 + ∑ i, c i.succ * s i

section
variable {k : ℕ} {R : Type*} [CommRing R] (s : Fin k → R)

theorem phase_add (c d : Fin (k + 1) → R) : phase s (c + d) = phase s c + phase s d := by
  simp only [phase, Pi.add_apply, add_mul, Finset.sum_add_distrib]
  exact add_add_add_comm _ _ _ _

theorem phase_neg (c : Fin (k + 1) → R) : phase s (-c) = -phase s c := by
  simp only [phase, Pi.neg_apply, neg_mul, Finset.sum_neg_distrib, neg_add]

theorem phase_sub (c d : Fin (k + 1) → R) : phase s (c - d) = phase s c - phase s d := by
  rw [sub_eq_add_neg, phase_add, phase_neg, sub_eq_add_neg]

theorem phase_smul (a : R) (c : Fin (k + 1) → R) : phase s (fun i => a * c i) = a * phase s c := by
  simp only [phase, mul_add, Finset.mul_sum, mul_assoc]

theorem phase_zero : phase s (0 : Fin (k + 1) → R) = 0 := by simp [phase]

theorem phase_sum {ι : Type*} (t : Finset ι) (f : ι → Fin (k + 1) → R) :
    phase s (∑ j ∈ t, f j) = ∑ j ∈ t, phase s (f j) := by
  classical
  induction t using Finset.induction_on with
  | empty => simp [phase_zero]
  | insert a t ha ih => rw [Finset.sum_insert ha, Finset.sum_insert ha, phase_add, ih]
end

end Tfhe
