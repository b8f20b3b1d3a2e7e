import Verif.Lemma.Poly

/-!
# C08: multiplication by a monomial
-/
namespace Tfhe
open Poly
variable {R : Type} [CommRing R] {N : ℕ} [NeZero N]

theorem monoMulWith_spec (asg : R → R → R) (n : ℕ) (hn : n ≤ 62) (hN : N = 2 ^ n) (out p : Poly N R)
    (d : BitVec 64) : monoMulWith asg N out.toList p.toList d =
      some (mkList N fun i => asg (at' out i) (at' (mono N R d.toInt * p) i)) := by
  have h2N : 2 * N = 2 ^ (n + 1) := by rw [hN, pow_succ]; ring
  have hpos : 0 < N := NeZero.pos N
  unfold monoMulWith
  rw [if_neg (by simp)]
  simp only
  have hk : goMask d (2 * N) = d.toInt % (2 * N : ℕ) := by rw [h2N]; exact goMask_eq d (n + 1) (by omega)
  rw [hk]
  have h0 := Int.emod_nonneg d.toInt (b := (2 * N : ℕ)) (by omega)
  have h1 := Int.emod_lt_of_pos d.toInt (b := (2 * N : ℕ)) (by omega)
  have hat : ∀ i : ℤ, at' (mono N R d.toInt * p) i = at' p (i - d.toInt % (2 * N : ℕ)) := by
    intro i
    rw [at_mono_mul]
    apply at_congr
    push_cast
    rw [Int.sub_emod, Int.sub_emod i (d.toInt % _), Int.emod_emod_of_dvd _ dvd_rfl]
  simp only [hat]
  generalize d.toInt % (2 * N : ℕ) = k at *
  rw [toList_eq_mkList, toList_eq_mkList]
  push_cast at h1
  by_cases hk : (N : ℤ) ≤ k
  · rw [if_pos hk, polyLoop_spec _ _ _ _ _ _ _ (by omega) (by omega) (by omega) (by omega)]
    rw [Option.bind_some, polyLoop_spec _ _ _ _ _ _ _ (by omega) (by omega) (by omega) (by omega)]
    congr 1
    apply mkList_congr
    intro i hi
    by_cases hi2 : k - N ≤ i
    · rw [if_pos (by omega), if_neg (by omega),
        show (i : ℤ) - (k - N) + 0 = i - k + N by ring, at_add_N, neg_neg]
    · rw [if_neg (by omega), if_pos (by omega), id,
        show (i : ℤ) - 0 + (-k + 2 * N) = i - k + N + N by ring, at_add_N, at_add_N, neg_neg]
  · rw [if_neg hk, if_pos (by omega), polyLoop_spec _ _ _ _ _ _ _ (by omega) (by omega) (by omega) (by omega)]
    rw [Option.bind_some, polyLoop_spec _ _ _ _ _ _ _ (by omega) (by omega) (by omega) (by omega)]
    congr 1
    apply mkList_congr
    intro i hi
    by_cases hi2 : k ≤ i
    · rw [if_pos (by omega), if_neg (by omega), id, add_zero]
    · rw [if_neg (by omega), if_pos (by omega),
        show (i : ℤ) - 0 + (-k + N) = i - k + N by ring, at_add_N, neg_neg]

/-- `MonomialMulPolyTo` writes `X^d * p`, for every rank that is a power of two, every Go `int` `d`
(negative or beyond `2N` too) and whatever `pOut` held before. -/
theorem C08_monomialMulTo (n : ℕ) (hn : n ≤ 62) (hN : N = 2 ^ n) (out p : Poly N R) (d : BitVec 64) :
    monoMulTo N out.toList p.toList d = some (mono N R d.toInt * p).toList := by
  unfold monoMulTo
  rw [monoMulWith_spec _ n hn hN, toList_eq_mkList]

/-- `MonomialMulAddPolyTo` adds `X^d * p` to `pOut`. -/
theorem C08_monomialMulAddTo (n : ℕ) (hn : n ≤ 62) (hN : N = 2 ^ n) (out p : Poly N R) (d : BitVec 64) :
    monoMulAddTo N out.toList p.toList d = some (out + mono N R d.toInt * p).toList := by
  unfold monoMulAddTo
  rw [monoMulWith_spec _ n hn hN, toList_eq_mkList]
  exact congrArg some (mkList_congr fun i _ => (at_add _ _ _).symm)

/-- `MonomialMulSubPolyTo` subtracts `X^d * p` from `pOut`. -/
theorem C08_monomialMulSubTo (n : ℕ) (hn : n ≤ 62) (hN : N = 2 ^ n) (out p : Poly N R) (d : BitVec 64) :
    monoMulSubTo N out.toList p.toList d = some (out - mono N R d.toInt * p).toList := by
  unfold monoMulSubTo
  rw [monoMulWith_spec _ n hn hN, toList_eq_mkList]
  exact congrArg some (mkList_congr fun i _ => (at_sub _ _ _).symm)

/-- `MonomialMulPolyInPlace` replaces `p` by `X^d * p`. -/
theorem C08_monomialMulInPlace (n : ℕ) (hn : n ≤ 62) (hN : N = 2 ^ n) (p : Poly N R) (d : BitVec 64) :
    monoMulInPlace N p.toList d = some (mono N R d.toInt * p).toList := by
  have h2N : 2 * N = 2 ^ (n + 1) := by rw [hN, pow_succ]; ring
  have hpos : 0 < N := NeZero.pos N
  have hle : N ≤ 2 ^ 62 := by rw [hN]; exact Nat.pow_le_pow_right (by norm_num) hn
  unfold monoMulInPlace
  rw [if_neg (by simp)]
  simp only
  have hk : goMask d (2 * N) = d.toInt % (2 * N : ℕ) := by rw [h2N]; exact goMask_eq d (n + 1) (by omega)
  have hkk : goMask d N = d.toInt % N := by
    conv_lhs => rw [hN]
    rw [goMask_eq d n (by omega), ← hN]
  have hkk2 : d.toInt % N = (d.toInt % (2 * N : ℕ)) % N :=
    (Int.emod_emod_of_dvd _ (by push_cast; exact Dvd.intro_left _ rfl)).symm
  rw [hk, hkk, hkk2]
  have h0 := Int.emod_nonneg d.toInt (b := (2 * N : ℕ)) (by omega)
  have h1 := Int.emod_lt_of_pos d.toInt (b := (2 * N : ℕ)) (by omega)
  have hat : ∀ i : ℤ, at' (mono N R d.toInt * p) i = at' p (i - d.toInt % (2 * N : ℕ)) := by
    intro i
    rw [at_mono_mul]
    apply at_congr
    push_cast
    rw [Int.sub_emod, Int.sub_emod i (d.toInt % _), Int.emod_emod_of_dvd _ dvd_rfl]
  rw [toList_eq_mkList (mono N R d.toInt * p), mkList_congr (N := N) (H := fun i => at' p (i - d.toInt % (2 * N : ℕ))) fun i _ => hat i]
  clear hat hkk2 hk hkk
  generalize d.toInt % (2 * N : ℕ) = k at *
  push_cast at h1
  have g0 := Int.emod_nonneg k (b := N) (by omega)
  have g1 := Int.emod_lt_of_pos k (b := N) (by omega)
  obtain ⟨out, e, hlen, hrot⟩ := C44_rotateInPlace p.toList (by
    intro h; have := congrArg List.length h; simp at this; omega)
    (by simp; omega) (k % N) (by omega)
  rw [e, Option.bind_some]
  have key : out = mkList N (fun z => if z < k % N then -at' p (z - k % N) else at' p (z - k % N)) := by
    apply eq_mkList (by simpa using hlen)
    intro i hi
    rw [toList_length] at hrot
    rw [toList_eq_mkList] at hrot
    by_cases hc : (i : ℤ) < k % N
    · have := hrot (i + N - (k % N).toNat) (by omega)
      rw [mkList_getElem? _ _ (by omega)] at this
      rw [show ((((i + N - (k % N).toNat : ℕ) : ℤ) + k % N) % N).toNat = i by
        rw [show ((i + N - (k % N).toNat : ℕ) : ℤ) + k % N = i + N by omega, Int.add_emod_right,
          Int.emod_eq_of_lt (by omega) (by omega)]; simp] at this
      rw [this, if_pos hc]
      rw [show ((i + N - (k % N).toNat : ℕ) : ℤ) = i - k % N + N by omega, at_add_N]
    · have := hrot (i - (k % N).toNat) (by omega)
      rw [mkList_getElem? _ _ (by omega)] at this
      rw [show ((((i - (k % N).toNat : ℕ) : ℤ) + k % N) % N).toNat = i by
        rw [show ((i - (k % N).toNat : ℕ) : ℤ) + k % N = i by omega,
          Int.emod_eq_of_lt (by omega) (by omega)]; simp] at this
      rw [this, if_neg hc]
      rw [show ((i - (k % N).toNat : ℕ) : ℤ) = i - k % N by omega]
  rw [key]
  by_cases hc : (N : ℤ) ≤ k
  · have hm : k % N = k - N := by
      rw [← Int.sub_emod_right, Int.emod_eq_of_lt (by omega) (by omega)]
    rw [if_pos hc, negLoop_spec _ _ _ (by omega) (by omega)]
    congr 1
    apply mkList_congr
    intro i hi
    rw [hm]
    by_cases hi2 : k - N ≤ i
    · rw [if_pos (by omega), if_neg (by omega), show (i : ℤ) - (k - N) = i - k + N by ring, at_add_N,
        neg_neg]
    · rw [if_neg (by omega), if_pos (by omega), show (i : ℤ) - (k - N) = i - k + N by ring, at_add_N,
        neg_neg]
  · have hm : k % N = k := Int.emod_eq_of_lt (by omega) (by omega)
    rw [if_neg hc, if_pos (by omega), negLoop_spec _ _ _ (by omega) (by omega)]
    congr 1
    apply mkList_congr
    intro i hi
    rw [hm]
    by_cases hi2 : k ≤ i
    · rw [if_neg (by omega), if_neg (by omega)]
    · rw [if_pos (by omega), if_pos (by omega), neg_neg]

omit [NeZero N] in
/-- A slice of the wrong length is refused (`checkLength`). -/
theorem C08_length_panics (out p : List R) (d : BitVec 64) (h : out.length ≠ N ∨ p.length ≠ N) :
    monoMulTo N out p d = none ∧ monoMulAddTo N out p d = none ∧ monoMulSubTo N out p d = none := by
  simp [monoMulTo, monoMulAddTo, monoMulSubTo, monoMulWith, h]

/-- Multiplying by `X^d` and then by `X^e` is multiplying by `X^(d+e)` even when `d + e` overflows. -/
theorem C08_compose (n : ℕ) (hn : n ≤ 62) (hN : N = 2 ^ n) (p : Poly N R) (d e : BitVec 64) :
    (monoMulInPlace N p.toList d).bind (fun q => monoMulInPlace N q e) = monoMulInPlace N p.toList (d + e) := by
  rw [C08_monomialMulInPlace n hn hN, Option.bind_some, C08_monomialMulInPlace n hn hN,
    C08_monomialMulInPlace n hn hN, ← mul_assoc, ← mono_add]
  congr 3
  apply mono_congr
  have hdvd : (2 * (N : ℤ)) ∣ ((2 ^ 64 : ℕ) : ℤ) := by
    rw [hN]; push_cast
    exact ⟨2 ^ (63 - n), by rw [← pow_succ', ← pow_add, show n + 1 + (63 - n) = 64 by omega]; norm_num⟩
  rw [BitVec.toInt_add, ← Int.emod_emod_of_dvd (Int.bmod _ _) hdvd, Int.bmod_emod,
    Int.emod_emod_of_dvd _ hdvd, add_comm]

/-- A case that wraps round: `X^(-3) (1 + 2X + 3X^2 + 4X^3) = 4 - X - 2X^2 - 3X^3`. -/
example : monoMulTo (R := BitVec 8) 4 [9, 9, 9, 9] [1, 2, 3, 4] (-3) = some [4, -1, -2, -3] ∧
    monoMulInPlace (R := BitVec 8) 4 [1, 2, 3, 4] (-3) = some [4, -1, -2, -3] := by decide +kernel

end Tfhe
