import Verif.Props.C08
import Mathlib.RingTheory.Coprime.Lemmas
import Mathlib.Tactic.LinearCombination

/-!
# C09: permutation of coefficients, `p(X) ↦ p(X^d)`
-/
namespace Tfhe
open Poly
variable {R : Type} [CommRing R] {N : ℕ} [NeZero N]

/-- `d * i` computed in 64 bits and masked is `d * i mod 2N`. -/
theorem goMask_mul (n : ℕ) (hn : n ≤ 62) (hN : N = 2 ^ n) (d : BitVec 64) (i : ℕ) :
    goMask (d * BitVec.ofNat 64 i) (2 * N) = (d.toInt * i) % (2 * N : ℕ) := by
  have h2N : 2 * N = 2 ^ (n + 1) := by rw [hN, pow_succ]; ring
  have hdvd : ((2 * N : ℕ) : ℤ) ∣ ((2 ^ 64 : ℕ) : ℤ) := by
    rw [h2N]; exact_mod_cast pow_dvd_pow 2 (by omega)
  have hm : goMask (d * BitVec.ofNat 64 i) (2 * N) = (d * BitVec.ofNat 64 i).toInt % (2 * N : ℕ) := by
    rw [h2N]; exact goMask_eq _ (n + 1) (by omega)
  rw [hm, BitVec.toInt_mul, ← Int.emod_emod_of_dvd (Int.bmod _ _) hdvd, Int.bmod_emod,
    Int.emod_emod_of_dvd _ hdvd]
  have : (BitVec.ofNat 64 i).toInt % (2 ^ 64 : ℕ) = (i : ℤ) % (2 ^ 64 : ℕ) := by
    rw [BitVec.toInt_eq_toNat_bmod, Int.bmod_emod, BitVec.toNat_ofNat]; simp
  rw [← Int.emod_emod_of_dvd (d.toInt * _) hdvd, Int.mul_emod, this, ← Int.mul_emod,
    Int.emod_emod_of_dvd _ hdvd]

/-- Effect of one iteration, on the slice seen as a function. -/
theorem permLoop_spec (pos neg : R → R → R) (n : ℕ) (hn : n ≤ 62) (hN : N = 2 ^ n) (p : Poly N R)
    (d : BitVec 64) (Inv : ℕ → (ℤ → R) → Prop) (cnt i : ℕ) (hi : i + cnt = N) (G : ℤ → R)
    (h0 : Inv i G)
    (hstep : ∀ (i : ℕ) (_ : i < N) (G : ℤ → R), Inv i G → ∀ j : ℤ, j = (d.toInt * i) % (2 * N : ℕ) →
      (j < N → Inv (i + 1) (Function.update G j (pos (G j) (at' p i)))) ∧
      ((N : ℤ) ≤ j → Inv (i + 1) (Function.update G (j - N) (neg (G (j - N)) (at' p i))))) :
    ∃ H, permLoop pos neg N p.toList d cnt i (mkList N G) = some (mkList N H) ∧ Inv N H := by
  have hpos : 0 < N := NeZero.pos N
  induction cnt generalizing i G with
  | zero => exact ⟨G, rfl, by rw [← hi]; exact h0⟩
  | succ c ih =>
    have hiN : i < N := by omega
    simp only [permLoop]
    rw [goMask_mul n hn hN]
    have g0 := Int.emod_nonneg (d.toInt * i) (b := (2 * N : ℕ)) (by omega)
    have g1 := Int.emod_lt_of_pos (d.toInt * i) (b := (2 * N : ℕ)) (by omega)
    have hs := hstep i hiN G h0 _ rfl
    generalize (d.toInt * i) % (2 * N : ℕ) = j at *
    have hgp : getI p.toList i = some (at' p i) := by
      rw [toList_eq_mkList, getI_mkList _ _ (by omega) (by omega)]
    by_cases hj : j < N
    · rw [if_pos hj, getI_mkList _ _ g0 hj, hgp]
      simp only
      rw [set_mkList _ _ g0]
      exact ih (i + 1) (by omega) _ (hs.1 hj)
    · rw [if_neg hj, getI_mkList _ _ (by omega) (by push_cast at g1; omega), hgp]
      simp only
      rw [set_mkList _ _ (by omega)]
      exact ih (i + 1) (by omega) _ (hs.2 (by omega))

theorem coprime_of_odd (n : ℕ) (hN : N = 2 ^ n) (d : ℤ) (hd : d % 2 = 1) : IsCoprime d (2 * N) := by
  have : IsCoprime d (2 ^ (n + 1)) := by
    apply IsCoprime.pow_right
    exact ⟨1, -(d / 2), by omega⟩
  rw [hN]; push_cast
  rwa [← pow_succ']

theorem odd_toInt (d : BitVec 64) : (d &&& 1 = 0) ↔ d.toInt % 2 = 0 := by
  have h := goMask_eq d 1 (by norm_num)
  have e : goMask d (2 ^ 1) = (d &&& 1).toInt := rfl
  rw [e] at h
  rw [show (d.toInt % 2) = d.toInt % ((2 ^ 1 : ℕ) : ℤ) by norm_num, ← h]
  constructor
  · intro h; rw [h]; rfl
  · intro h; exact BitVec.eq_of_toInt_eq h

/-- `PermutePolyTo` writes `p(X^d)` for every odd Go `int` `d`, whatever `pOut` held before. -/
theorem C09_permuteTo (n : ℕ) (hn : n ≤ 62) (hN : N = 2 ^ n) (out p : Poly N R) (d : BitVec 64)
    (hd : d.toInt % 2 = 1) :
    permTo N out.toList p.toList d = some (subst d.toInt p).toList := by
  have hpos : 0 < N := NeZero.pos N
  have hcop := coprime_of_odd n hN d.toInt hd
  have hodd : ¬ (d &&& 1 = 0) := by rw [odd_toInt]; omega
  unfold permTo permWith
  rw [if_neg (by simp), if_neg hodd, toList_eq_mkList out]
  -- written slots hold the right value
  obtain ⟨H, e, hH⟩ := permLoop_spec (fun _ x => x) (fun _ x => -x) n hn hN p d
    (fun k G => ∀ i : ℕ, i < k → ∀ j : ℤ, 0 ≤ j → j < N → (d.toInt * i) % N = j →
      G j = at' (subst d.toInt p) j) N 0 (by omega) (at' out) (by intro i hi; omega) (by
    intro i hi G hG j hj
    have hval : at' (subst d.toInt p) j = at' p i := by
      rw [← at_subst d.toInt hd hcop p i]
      apply at_congr
      rw [hj]; push_cast
      rw [Int.emod_emod_of_dvd _ dvd_rfl]
    have hjN : (d.toInt * i) % N = j % N := by
      rw [hj]; push_cast
      rw [Int.emod_emod_of_dvd _ (Dvd.intro_left _ rfl)]
    have g0 := Int.emod_nonneg (d.toInt * i) (b := (2 * N : ℕ)) (by omega)
    have g1 := Int.emod_lt_of_pos (d.toInt * i) (b := (2 * N : ℕ)) (by omega)
    push_cast at hj g0 g1
    constructor
    · intro hlt i' hi' j' h0' h1' he'
      by_cases hjj : j' = j
      · rw [hjj, Function.update_self, hval]
      · rw [Function.update_of_ne hjj]
        rcases Nat.lt_succ_iff_lt_or_eq.1 hi' with h | h
        · exact hG i' h j' h0' h1' he'
        · rw [h, hjN, Int.emod_eq_of_lt (by omega) hlt] at he'
          exact absurd he'.symm hjj
    · intro hge i' hi' j' h0' h1' he'
      by_cases hjj : j' = j - N
      · rw [hjj, Function.update_self, at_sub_N, hval]
      · rw [Function.update_of_ne hjj]
        rcases Nat.lt_succ_iff_lt_or_eq.1 hi' with h | h
        · exact hG i' h j' h0' h1' he'
        · rw [h, hjN, ← Int.sub_emod_right, Int.emod_eq_of_lt (by omega) (by omega)] at he'
          exact absurd he'.symm hjj)
  rw [e, toList_eq_mkList]
  congr 1
  apply mkList_congr
  intro j hj
  -- every slot is written, because `d` is invertible modulo `N`
  have hcopN : IsCoprime d.toInt (N : ℤ) := hcop.of_mul_right_right
  obtain ⟨a, b, hab⟩ := hcopN
  have hi0 := Int.emod_nonneg (a * j) (b := N) (by omega)
  have hi1 := Int.emod_lt_of_pos (a * j) (b := N) (by omega)
  refine hH ((a * j) % N).toNat (by omega) j (by omega) (by omega) ?_
  rw [Int.toNat_of_nonneg hi0, Int.mul_emod, Int.emod_emod_of_dvd _ dvd_rfl, ← Int.mul_emod,
    show d.toInt * (a * j) = j + N * (-b * j) by linear_combination (j : ℤ) * hab,
    Int.add_mul_emod_self_left, Int.emod_eq_of_lt (by omega) (by omega)]

/-- `at'` of the monomial `X^j` for `0 ≤ j < 2N` -/
theorem at_mono_small (j : ℤ) (h0 : 0 ≤ j) (h1 : j < N) (i : ℕ) (hi : i < N) :
    at' (mono N R j) i = if (i : ℤ) = j then 1 else 0 := by
  rw [at_mono]
  have hpos : 0 < N := NeZero.pos N
  rw [show (1 : Poly N R) = C N 1 from rfl, at_C]
  by_cases h : (i : ℤ) = j
  · rw [if_pos (by rw [h]; simp), if_pos h]
  · rw [if_neg h]
    by_cases hlt : (i : ℤ) < j
    · rw [← Int.add_emod_right, Int.emod_eq_of_lt (by omega) (by omega), if_neg (by omega),
        if_neg (by omega)]
    · rw [Int.emod_eq_of_lt (by omega) (by omega), if_neg (by omega), if_neg (by omega)]

/-- Generic accumulation: each iteration adds `s * p_i X^(d i)`. -/
theorem permAcc (pos neg : R → R → R) (s : R) (hp : ∀ o x, pos o x = o + s * x)
    (hq : ∀ o x, neg o x = o - s * x) (n : ℕ) (hn : n ≤ 62) (hN : N = 2 ^ n) (out p : Poly N R)
    (d : BitVec 64) (hd : d.toInt % 2 = 1) :
    permWith pos neg N out.toList p.toList d = some (out + C N s * subst d.toInt p).toList := by
  have hpos : 0 < N := NeZero.pos N
  have hodd : ¬ (d &&& 1 = 0) := by rw [odd_toInt]; omega
  unfold permWith
  rw [if_neg (by simp), if_neg hodd, toList_eq_mkList out]
  obtain ⟨H, e, hH⟩ := permLoop_spec pos neg n hn hN p d
    (fun k G => ∀ j : ℕ, j < N → G j = at' out j +
      s * ∑ i ∈ Finset.range k, at' p i * at' (mono N R (d.toInt * i)) j) N 0 (by omega) (at' out)
      (by intro j hj; simp) (by
    intro i hi G hG j hj
    have g0 := Int.emod_nonneg (d.toInt * i) (b := (2 * N : ℕ)) (by omega)
    have g1 := Int.emod_lt_of_pos (d.toInt * i) (b := (2 * N : ℕ)) (by omega)
    have hm : mono N R (d.toInt * i) = mono N R j := by
      apply mono_congr; rw [hj]; push_cast; rw [Int.emod_emod_of_dvd _ dvd_rfl]
    push_cast at hj g0 g1
    constructor
    · intro hlt k hk
      rw [Finset.sum_range_succ, hm, at_mono_small j (by omega) hlt k hk]
      by_cases hjj : (k : ℤ) = j
      · rw [← hjj, Function.update_self, hp, hG k hk, if_pos rfl]; ring
      · rw [Function.update_of_ne hjj, if_neg hjj, hG k hk]; ring
    · intro hge k hk
      have : mono N R j = -mono N R (j - N) := by
        rw [show j = (j - N) + N by ring, mono_add, mono_N]; simp
      rw [Finset.sum_range_succ, hm, this, at_neg, at_mono_small (j - N) (by omega) (by omega) k hk]
      by_cases hjj : (k : ℤ) = j - N
      · rw [← hjj, Function.update_self, hq, hG k hk, if_pos rfl]; ring
      · rw [Function.update_of_ne hjj, if_neg hjj, hG k hk]; ring)
  rw [e, toList_eq_mkList]
  congr 1
  apply mkList_congr
  intro j hj
  rw [hH j hj, at_add, C_mul_at, subst, at_sum,
    ← Fin.sum_univ_eq_sum_range (fun i => at' p i * at' (mono N R (d.toInt * i)) j)]
  congr 2
  apply Finset.sum_congr rfl
  intro i _
  rw [C_mul_at, at_coe]

/-- `PermuteAddPolyTo` adds `p(X^d)` to `pOut`. -/
theorem C09_permuteAddTo (n : ℕ) (hn : n ≤ 62) (hN : N = 2 ^ n) (out p : Poly N R) (d : BitVec 64)
    (hd : d.toInt % 2 = 1) :
    permAddTo N out.toList p.toList d = some (out + subst d.toInt p).toList := by
  unfold permAddTo
  rw [permAcc _ _ 1 (by intros; ring) (by intros; ring) n hn hN out p d hd, C_one, one_mul]

/-- `PermuteSubPolyTo` subtracts `p(X^d)` from `pOut`. -/
theorem C09_permuteSubTo (n : ℕ) (hn : n ≤ 62) (hN : N = 2 ^ n) (out p : Poly N R) (d : BitVec 64)
    (hd : d.toInt % 2 = 1) :
    permSubTo N out.toList p.toList d = some (out - subst d.toInt p).toList := by
  unfold permSubTo
  rw [permAcc _ _ (-1) (by intros; ring) (by intros; ring) n hn hN out p d hd, C_neg, C_one,
    neg_one_mul, ← sub_eq_add_neg]

/-- The permutation is a ring homomorphism: it respects sums and products. -/
theorem C09_permute_hom (n : ℕ) (hn : n ≤ 62) (hN : N = 2 ^ n) (out p q : Poly N R) (d : BitVec 64)
    (hd : d.toInt % 2 = 1) : ∃ p' q' : Poly N R, permTo N out.toList p.toList d = some p'.toList ∧
      permTo N out.toList q.toList d = some q'.toList ∧
      permTo N out.toList (p + q).toList d = some (p' + q').toList ∧
      permTo N out.toList (p * q).toList d = some (p' * q').toList := by
  refine ⟨_, _, C09_permuteTo n hn hN out p d hd, C09_permuteTo n hn hN out q d hd, ?_, ?_⟩
  · rw [C09_permuteTo n hn hN _ _ _ hd, subst_add]
  · rw [C09_permuteTo n hn hN _ _ _ hd, subst_mul _ hd]

theorem subst_subst (d e : ℤ) (hd : d % 2 = 1) (p : Poly N R) :
    subst d (subst e p) = subst (d * e) p := by
  conv_lhs => rw [subst.eq_def e, subst_sum]
  rw [subst.eq_def (d * e)]
  apply Finset.sum_congr rfl
  intro i _
  rw [subst_C_mul, subst_mono d hd, mul_assoc]

/-- Two permutations compose to the permutation by the (64-bit) product of the exponents; with
`d * e ≡ 1 mod 2N` the second undoes the first. -/
theorem C09_permute_compose (n : ℕ) (hn : n ≤ 62) (hN : N = 2 ^ n) (out p : Poly N R) (d e : BitVec 64)
    (hd : d.toInt % 2 = 1) (he : e.toInt % 2 = 1) :
    (permTo N out.toList p.toList e).bind (fun q => permTo N out.toList q d) =
      some (subst (d.toInt * e.toInt) p).toList ∧
    ((d.toInt * e.toInt) % (2 * N) = 1 →
      (permTo N out.toList p.toList e).bind (fun q => permTo N out.toList q d) = some p.toList) := by
  have h : (permTo N out.toList p.toList e).bind (fun q => permTo N out.toList q d) =
      some (subst (d.toInt * e.toInt) p).toList := by
    rw [C09_permuteTo n hn hN _ _ _ he, Option.bind_some, C09_permuteTo n hn hN _ _ _ hd, subst_subst _ _ hd]
  refine ⟨h, fun h1 => ?_⟩
  rw [h]
  congr 2
  have : (1 : ℤ) < 2 * N := by have := NeZero.pos N; omega
  conv_rhs => rw [eq_sum_mono p]
  unfold subst
  apply Finset.sum_congr rfl
  intro i _
  congr 1
  apply mono_congr
  rw [Int.mul_emod, h1, one_mul, Int.emod_emod_of_dvd _ dvd_rfl]

omit [NeZero N] in
/-- An even `d` panics. -/
theorem C09_even_panics (out p : List R) (d : BitVec 64) (hd : d.toInt % 2 = 0) :
    permTo N out p d = none ∧ permAddTo N out p d = none ∧ permSubTo N out p d = none := by
  simp only [permTo, permAddTo, permSubTo, permWith]
  simp only [if_pos ((odd_toInt d).2 hd)]
  simp

/-- `d = 3`, `N = 4`: `p(X^3)` for `p = 1 + 2X + 3X^2 + 4X^3` is `1 + 4X - 3X^2 + 2X^3`. -/
example : permTo (R := BitVec 8) 4 [9, 9, 9, 9] [1, 2, 3, 4] 3 = some [1, 4, -3, 2] ∧
    permTo (R := BitVec 8) 4 [9, 9, 9, 9] [1, 4, -3, 2] (-5) = some [1, 2, 3, 4] := by decide +kernel

end Tfhe
