import Verif.Spec.Poly
import Mathlib.RingTheory.AdjoinRoot

/-!
# `Poly N R` is the ring `R[X]/(X^N + 1)`

A check of the specification: the ring used everywhere in the specs is isomorphic to Mathlib's
quotient of the polynomial ring, with `X` going to `mono 1`.
-/
namespace Tfhe
open Polynomial
variable {N : ℕ} [NeZero N] {R : Type*} [CommRing R]

theorem eval_modulus : (X ^ N + 1 : R[X]).eval₂ (Poly.Chom N R) (Poly.mono N R 1) = 0 := by
  rw [eval₂_add, eval₂_pow, eval₂_X, eval₂_one, Poly.mono_one_pow_N, neg_add_cancel]

/-- The homomorphism `R[X]/(X^N + 1) → Poly N R` sending `X` to `mono 1`. -/
noncomputable def quotientHom (N : ℕ) [NeZero N] (R : Type*) [CommRing R] :
    AdjoinRoot (X ^ N + 1 : R[X]) →+* Poly N R :=
  AdjoinRoot.lift (Poly.Chom N R) (Poly.mono N R 1) eval_modulus

theorem quotientHom_root : quotientHom N R (AdjoinRoot.root _) = Poly.mono N R 1 :=
  AdjoinRoot.lift_root _

theorem quotientHom_of (c : R) : quotientHom N R (AdjoinRoot.of _ c) = Poly.C N c :=
  AdjoinRoot.lift_of _

theorem quotientHom_bijective : Function.Bijective (quotientHom N R) := by
  have hpos := NeZero.pos N
  constructor
  · rw [injective_iff_map_eq_zero]
    intro a ha
    rcases subsingleton_or_nontrivial R with hs | hn
    · have : Subsingleton (AdjoinRoot (X ^ N + 1 : R[X])) :=
        (AdjoinRoot.mk_surjective (g := (X ^ N + 1 : R[X]))).subsingleton
      exact Subsingleton.elim _ _
    obtain ⟨f, rfl⟩ := AdjoinRoot.mk_surjective a
    have hmonic : (X ^ N + 1 : R[X]).Monic := by
      have := monic_X_pow_add_C (1 : R) (NeZero.ne N)
      simpa using this
    have hdeg : (X ^ N + 1 : R[X]).degree = N := by
      have := degree_X_pow_add_C hpos (1 : R)
      simpa using this
    rw [AdjoinRoot.mk_eq_zero, ← modByMonic_eq_zero_iff_dvd hmonic]
    have e : AdjoinRoot.mk (X ^ N + 1 : R[X]) f = AdjoinRoot.mk _ (f %ₘ (X ^ N + 1)) := by
      rw [AdjoinRoot.mk_eq_mk]
      have := modByMonic_add_div f (X ^ N + 1 : R[X])
      exact ⟨f /ₘ (X ^ N + 1), by linear_combination -this⟩
    rw [e] at ha
    have hlt : (f %ₘ (X ^ N + 1)).degree < N := by rw [← hdeg]; exact degree_modByMonic_lt _ hmonic
    generalize f %ₘ (X ^ N + 1) = g at *
    have hg : ∀ i, N ≤ i → g.coeff i = 0 := by
      intro i hi
      exact coeff_eq_zero_of_degree_lt (lt_of_lt_of_le hlt (by exact_mod_cast hi))
    have h2 : quotientHom N R (AdjoinRoot.mk _ g) =
        ∑ i : Fin N, Poly.C N (g.coeff i) * Poly.mono N R (i : ℕ) := by
      unfold quotientHom
      rw [AdjoinRoot.lift_mk, eval₂_eq_sum_range' (Poly.Chom N R) (n := N) (by
        by_cases h0 : g = 0
        · simp [h0, hpos]
        · exact (natDegree_lt_iff_degree_lt h0).2 hlt), ← Fin.sum_univ_eq_sum_range
          (fun i => (Poly.Chom N R) (g.coeff i) * Poly.mono N R 1 ^ i)]
      apply Finset.sum_congr rfl
      intro i _
      rw [← Poly.mono_nat]; rfl
    rw [h2] at ha
    have h3 := Poly.eq_sum_mono (fun i : Fin N => g.coeff i : Poly N R)
    rw [ha] at h3
    ext i
    by_cases hi : i < N
    · exact congrFun h3 ⟨i, hi⟩
    · rw [hg i (by omega)]; simp
  · intro p
    refine ⟨∑ i : Fin N, AdjoinRoot.of _ (p i) * AdjoinRoot.root _ ^ (i : ℕ), ?_⟩
    conv_rhs => rw [Poly.eq_sum_mono p]
    rw [map_sum]
    apply Finset.sum_congr rfl
    intro i _
    rw [map_mul, map_pow, quotientHom_of, quotientHom_root, ← Poly.mono_nat]

/-- The isomorphism. -/
noncomputable def quotientEquiv (N : ℕ) [NeZero N] (R : Type*) [CommRing R] :
    AdjoinRoot (X ^ N + 1 : R[X]) ≃+* Poly N R :=
  RingEquiv.ofBijective (quotientHom N R) quotientHom_bijective

end Tfhe
