import Verif.Model.Poly
import Verif.Props.C44
import Mathlib.Data.List.OfFn
import Mathlib.Data.Nat.Bitwise

/-!
# Slices as functions on the integers
-/
namespace Tfhe
open Poly
variable {R : Type} {N : ℕ}

/-- The slice with elements `G 0, ..., G (N-1)`. -/
def mkList (N : ℕ) (G : ℤ → R) : List R := List.ofFn (fun i : Fin N => G ((i : ℕ) : ℤ))

@[simp] theorem mkList_length (G : ℤ → R) : (mkList N G).length = N := by simp [mkList]

theorem mkList_getElem? (G : ℤ → R) (i : ℕ) (h : i < N) : (mkList N G)[i]? = some (G i) := by
  simp [mkList, h]

theorem mkList_congr {G H : ℤ → R} (h : ∀ i : ℕ, i < N → G i = H i) : mkList N G = mkList N H := by
  unfold mkList
  congr 1
  funext i
  exact h i i.2

theorem eq_mkList {l : List R} {G : ℤ → R} (hl : l.length = N) (h : ∀ i : ℕ, i < N → l[i]? = some (G i)) :
    l = mkList N G := by
  apply List.ext_getElem?
  intro i
  by_cases hi : i < N
  · rw [h i hi, mkList_getElem? G i hi]
  · rw [List.getElem?_eq_none (by omega), List.getElem?_eq_none (by simp; omega)]

theorem getI_mkList (G : ℤ → R) (i : ℤ) (h0 : 0 ≤ i) (h : i < N) : getI (mkList N G) i = some (G i) := by
  unfold getI
  rw [if_pos h0, mkList_getElem? G i.toNat (by omega), Int.toNat_of_nonneg h0]

theorem set_mkList (G : ℤ → R) (i : ℤ) (h0 : 0 ≤ i) (x : R) :
    (mkList N G).set i.toNat x = mkList N (Function.update G i x) := by
  apply List.ext_getElem?
  intro j
  rw [List.getElem?_set]
  by_cases hj : j < N
  · rw [mkList_getElem? _ j hj, mkList_getElem? _ j hj]
    by_cases hij : (j : ℤ) = i
    · rw [if_pos (by omega)]
      rw [hij, Function.update_self]
      simp [show i.toNat < N by omega]
    · rw [if_neg (by omega), Function.update_of_ne hij]
  · rw [List.getElem?_eq_none (l := mkList N (Function.update G i x)) (by simp; omega)]
    split
    · rw [if_neg (by simp; omega)]
    · rw [List.getElem?_eq_none (by simp; omega)]

theorem toList_eq_mkList [AddCommGroup R] [NeZero N] (p : Poly N R) : p.toList = mkList N (at' p) := by
  unfold Poly.toList mkList
  congr 1
  funext i
  rw [at_coe]

@[simp] theorem toList_length (p : Poly N R) : p.toList.length = N := List.length_ofFn

theorem toList_injective : Function.Injective (Poly.toList : Poly N R → List R) := by
  intro p q h
  exact List.ofFn_injective h

/-- a slice of the right length is the slice of a polynomial -/
theorem exists_toList (l : List R) (h : l.length = N) : ∃ p : Poly N R, l = p.toList := by
  subst h
  exact ⟨fun i => l[i], by simp [Poly.toList, List.ofFn_getElem]⟩

theorem polyLoop_spec (asg : R → R → R) (g : R → R) (P : ℤ → R) (n : ℕ) (a b : ℤ) (G : ℤ → R)
    (ha : 0 ≤ a) (hb : 0 ≤ b) (ha2 : a + n ≤ N) (hb2 : b + n ≤ N) :
    polyLoop asg g (mkList N P) n a b (mkList N G) =
      some (mkList N fun i => if a ≤ i ∧ i < a + n then asg (G i) (g (P (i - a + b))) else G i) := by
  induction n generalizing a b G with
  | zero =>
    simp only [polyLoop]
    congr 1
    apply mkList_congr
    intro i _
    rw [if_neg (by push_cast; omega)]
  | succ n ih =>
    rw [polyLoop, getI_mkList _ _ ha (by push_cast at ha2; omega),
      getI_mkList _ _ hb (by push_cast at hb2; omega)]
    simp only
    rw [set_mkList _ _ ha, ih _ _ _ (by omega) (by omega) (by push_cast at *; omega)
      (by push_cast at *; omega)]
    congr 1
    apply mkList_congr
    intro i _
    by_cases h1 : (i : ℤ) = a
    · rw [if_neg (by omega), if_pos (by push_cast; omega), h1, Function.update_self]
      simp
    · rw [Function.update_of_ne h1]
      by_cases h2 : a + 1 ≤ i ∧ (i : ℤ) < a + 1 + n
      · rw [if_pos h2, if_pos (by push_cast; omega)]
        congr 3; ring
      · rw [if_neg h2, if_neg (by push_cast; omega)]

theorem negLoop_spec [Neg R] (n : ℕ) (a : ℤ) (G : ℤ → R) (ha : 0 ≤ a) (ha2 : a + n ≤ N) :
    negLoop n a (mkList N G) =
      some (mkList N fun i => if a ≤ i ∧ i < a + n then -G i else G i) := by
  induction n generalizing a G with
  | zero =>
    simp only [negLoop]
    congr 1
    apply mkList_congr
    intro i _
    rw [if_neg (by push_cast; omega)]
  | succ n ih =>
    rw [negLoop, getI_mkList _ _ ha (by push_cast at ha2; omega)]
    simp only
    rw [set_mkList _ _ ha, ih _ _ (by omega) (by push_cast at *; omega)]
    congr 1
    apply mkList_congr
    intro i _
    by_cases h1 : (i : ℤ) = a
    · rw [if_neg (by omega), if_pos (by push_cast; omega), h1, Function.update_self]
    · rw [Function.update_of_ne h1]
      by_cases h2 : a + 1 ≤ i ∧ (i : ℤ) < a + 1 + n
      · rw [if_pos h2, if_pos (by push_cast; omega)]
      · rw [if_neg h2, if_neg (by push_cast; omega)]

/-- `d & (2^n - 1)` is the non-negative remainder. -/
theorem goMask_eq (d : BitVec 64) (n : ℕ) (hn : n ≤ 63) : goMask d (2 ^ n) = d.toInt % (2 ^ n : ℕ) := by
  have hp : 2 ^ n ≤ 2 ^ 63 := Nat.pow_le_pow_right (by norm_num) hn
  have hpos : 0 < 2 ^ n := by positivity
  have e : (d &&& (BitVec.ofNat 64 (2 ^ n) - 1)).toNat = d.toNat % 2 ^ n := by
    rw [BitVec.toNat_and, BitVec.toNat_sub, BitVec.toNat_ofNat]
    have h1 : (1 : BitVec 64).toNat = 1 := rfl
    rw [h1, Nat.mod_eq_of_lt (show 2 ^ n < 2 ^ 64 by omega),
      show 2 ^ 64 - 1 + 2 ^ n = 2 ^ n - 1 + 2 ^ 64 by omega, Nat.add_mod_right,
      Nat.mod_eq_of_lt (by omega), Nat.and_two_pow_sub_one_eq_mod]
  unfold goMask
  have hlt : d.toNat % 2 ^ n < 2 ^ n := Nat.mod_lt _ hpos
  rw [BitVec.toInt_eq_toNat_of_lt (by rw [e]; omega), e]
  push_cast
  rw [BitVec.toInt_eq_toNat_cond]
  split
  · rfl
  · have : ((2 ^ 64 : ℕ) : ℤ) = 2 ^ n * 2 ^ (64 - n) := by
      rw [← pow_add, show n + (64 - n) = 64 by omega]; rfl
    rw [this, Int.sub_mul_emod_self_left]

end Tfhe
