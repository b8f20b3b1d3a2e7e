import Verif.Spec.Bfv
import Verif.Model.Bfv
import Verif.Props.C16

/-!
# Integer polynomials and their reduction modulo `2^w`
-/
namespace Tfhe
open Finset Poly
variable {w N : ℕ} [NeZero N]

/-- Applying a map to the coefficients. -/
def pmap {R S : Type} (f : R → S) (p : Poly N R) : Poly N S := fun i => f (p i)

omit [NeZero N] in
theorem pmap_apply {R S : Type} (f : R → S) (p : Poly N R) (i : Fin N) : pmap f p i = f (p i) := rfl

theorem at_map {R S : Type} [CommRing R] [CommRing S] (f : R →+* S) (p : Poly N R) (z : ℤ) :
    at' (pmap f p) z = f (at' p z) := by
  unfold at' pmap
  split <;> simp

/-- Applying a ring homomorphism to the coefficients. -/
def mapHom {R S : Type} [CommRing R] [CommRing S] (f : R →+* S) : Poly N R →+* Poly N S where
  toFun := pmap f
  map_zero' := by funext i; exact map_zero f
  map_add' p q := by funext i; exact map_add f _ _
  map_one' := by
    apply at_ext; intro z
    rw [at_map, one_def, one_def, at_C, at_C]
    split <;> [skip; split] <;> simp
  map_mul' p q := by
    apply at_ext; intro z
    rw [at_map, at_mul, at_mul, map_sum]
    refine Finset.sum_congr rfl fun i _ => ?_
    rw [map_mul, at_map, at_map]

/-- Reduction modulo `2^w` as a ring homomorphism. -/
def ofIntHom (w N : ℕ) [NeZero N] : Poly N ℤ →+* Poly N (BitVec w) := mapHom (Int.castRingHom (BitVec w))

theorem ofIntHom_apply (p : Poly N ℤ) : ofIntHom w N p = ofIntP w p := rfl

omit [NeZero N] in
theorem ofIntP_lift (p : Poly N (BitVec w)) : ofIntP w (Bfv.lift p) = p := by
  funext i; simp [ofIntP, Bfv.lift]

omit [NeZero N] in
theorem natAbs_le_iabs (p : Poly N ℤ) (i : Fin N) : (p i).natAbs ≤ iabs p :=
  Finset.le_sup (f := fun i => (p i).natAbs) (Finset.mem_univ i)

omit [NeZero N] in
theorem iabs_le_iff (p : Poly N ℤ) (B : ℕ) : iabs p ≤ B ↔ ∀ i, (p i).natAbs ≤ B := by simp [iabs]

theorem natAbs_at_le (p : Poly N ℤ) (z : ℤ) : (at' p z).natAbs ≤ iabs p := by
  unfold at'
  split
  · exact natAbs_le_iabs _ _
  · rw [Int.natAbs_neg]; exact natAbs_le_iabs _ _

theorem natAbs_sum_le' {ι : Type*} (s : Finset ι) (f : ι → ℤ) : (∑ i ∈ s, f i).natAbs ≤ ∑ i ∈ s, (f i).natAbs := by
  classical
  induction s using Finset.induction_on with
  | empty => simp
  | insert a s ha ih =>
    rw [Finset.sum_insert ha, Finset.sum_insert ha]
    exact (Int.natAbs_add_le _ _).trans (by omega)

/-- Integer polynomials: the largest coefficient. -/
def intNorm (N : ℕ) [NeZero N] : RNorm (Poly N ℤ) where
  f := iabs
  c := N
  zero := by
    have : iabs (0 : Poly N ℤ) ≤ 0 := by rw [iabs_le_iff]; intro i; rw [Poly.zero_apply]; simp
    omega
  neg p := by
    have h : ∀ q : Poly N ℤ, iabs (-q) ≤ iabs q := by
      intro q; rw [iabs_le_iff]; intro i
      rw [Poly.neg_apply, Int.natAbs_neg]; exact natAbs_le_iabs q i
    refine le_antisymm (h p) ?_
    have := h (-p); rwa [neg_neg] at this
  add_le p q := by
    rw [iabs_le_iff]; intro i
    exact (Int.natAbs_add_le _ _).trans (Nat.add_le_add (natAbs_le_iabs p i) (natAbs_le_iabs q i))
  mul_le p q := by
    rw [iabs_le_iff]; intro i
    have e := Poly.at_coe (p * q) i
    rw [Poly.at_mul] at e
    refine (congrArg Int.natAbs e).symm.le.trans ((natAbs_sum_le' _ _).trans ?_)
    have := Finset.sum_le_card_nsmul (Finset.range N)
      (fun j => (Poly.at' p (j : ℤ) * Poly.at' q ((i : ℤ) - (j : ℤ))).natAbs) (iabs p * iabs q)
      (fun j _ => by rw [Int.natAbs_mul]; exact Nat.mul_le_mul (natAbs_at_le _ _) (natAbs_at_le _ _))
    simpa using this

theorem wabs_ofInt_le (x : ℤ) : wabs (BitVec.ofInt w x) ≤ x.natAbs := by
  rw [bv_ofInt_eq_cast]; exact wabs_cast_le x

omit [NeZero N] in
theorem pabs_ofIntP_le (p : Poly N ℤ) : pabs (ofIntP w p) ≤ iabs p := by
  rw [pabs_le_iff]; intro i
  exact (wabs_ofInt_le _).trans (natAbs_le_iabs p i)

omit [NeZero N] in
theorem iabs_lift (p : Poly N (BitVec w)) : iabs (Bfv.lift p) = pabs p := rfl

/-- Two integer polynomials equal modulo `2^w` differ by a multiple of `2^w`. -/
theorem ofIntP_eq_iff (p q : Poly N ℤ) (h : ofIntP w p = ofIntP w q) :
    ∃ K : Poly N ℤ, p = q + C N (2 ^ w : ℤ) * K := by
  have h1 : ∀ i, ((2 : ℤ) ^ w) ∣ p i - q i := by
    intro i
    have e := congrFun h i
    unfold ofIntP at e
    have e2 := congrArg BitVec.toInt e
    rw [BitVec.toInt_ofInt, BitVec.toInt_ofInt] at e2
    have := Int.bmod_eq_bmod_iff_bmod_sub_eq_zero.1 e2
    have h3 := Int.dvd_of_bmod_eq_zero this
    exact_mod_cast h3
  choose K hK using h1
  let K' : Poly N ℤ := K
  have hK : ∀ i, p i - q i = 2 ^ w * K' i := hK
  refine ⟨K', ?_⟩
  funext i
  rw [add_apply, C_mul_apply, ← hK i]; ring

theorem goRound_close (x : ℚ) : |(goRound x : ℚ) - x| ≤ 1 / 2 := by
  by_cases h : 0 ≤ x
  · exact (goRound_err h).1
  · have h' : 0 ≤ -x := by linarith
    have h1 := (goRound_err h').1
    have e : goRound x = -goRound (-x) := by
      simp only [goRound, if_neg h, if_pos h']
    rw [e, ← abs_neg]
    push_cast
    rw [show -(-(goRound (-x) : ℚ) - x) = (goRound (-x) : ℚ) - -x by ring]
    exact h1

/-- The rounding in `invScaled`. -/
theorem invScaled_eq (scale : ℕ) (hs : 0 < scale) (p : Poly N ℤ) :
    ∃ r e : Poly N ℤ, Bfv.invScaled w scale p = ofIntP w r ∧ C N (scale : ℤ) * r = p + e ∧ 2 * iabs e ≤ scale := by
  let r : Poly N ℤ := pmap (fun x : ℤ => goRound ((x : ℚ) / scale)) p
  have hr : ∀ i, r i = goRound ((p i : ℚ) / scale) := fun _ => rfl
  refine ⟨r, C N (scale : ℤ) * r - p, rfl, by ring, ?_⟩
  have h1 : iabs (C N (scale : ℤ) * r - p) ≤ scale / 2 := by
    rw [iabs_le_iff]
    intro i
    rw [sub_apply, C_mul_apply, hr]
    have h2 := goRound_close ((p i : ℚ) / scale)
    have hs' : (0 : ℚ) < scale := by exact_mod_cast hs
    have h3 : |(((scale : ℤ) * goRound ((p i : ℚ) / scale) - p i : ℤ) : ℚ)| ≤ scale / 2 := by
      have e : (((scale : ℤ) * goRound ((p i : ℚ) / scale) - p i : ℤ) : ℚ) =
          scale * ((goRound ((p i : ℚ) / scale) : ℚ) - (p i : ℚ) / scale) := by
        push_cast; field_simp
      rw [e, abs_mul, abs_of_pos hs']
      calc _ ≤ (scale : ℚ) * (1 / 2) := mul_le_mul_of_nonneg_left h2 hs'.le
        _ = _ := by ring
    generalize (scale : ℤ) * goRound ((p i : ℚ) / scale) - p i = y at h3 ⊢
    rw [Nat.le_div_iff_mul_le (by norm_num)]
    have h4 : (y.natAbs : ℚ) * 2 ≤ scale := by
      rw [Nat.cast_natAbs, Int.cast_abs]; linarith
    exact_mod_cast h4
  omega
end Tfhe
