import Verif.Model.SplitMul
import Verif.Lemma.IntPoly
import Mathlib.Algebra.Order.Archimedean.Real.Basic
import Mathlib.Tactic.LinearCombination

/-!
# Lemmas for exact multiplication: rounding, and splitting a word into limbs
-/
namespace Tfhe.Fft
open Tfhe

/-! ## Rounding -/

theorem round_add (c : ℤ) (d : ℝ) (hd : |d| < 1 / 2) : round ((c : ℝ) + d) = c := by
  obtain ⟨h1, h2⟩ := abs_lt.1 hd
  unfold round
  split
  · rw [Int.floor_eq_iff]; constructor <;> linarith
  · have : ⌊-((c : ℝ) + d) + 1 / 2⌋ = -c := by
      rw [Int.floor_eq_iff]; push_cast; constructor <;> linarith
    rw [this, neg_neg]

theorem round_close (x : ℝ) : |x - round x| ≤ 1 / 2 := by
  unfold round
  split
  · have h1 := Int.floor_le (x + 1 / 2)
    have h2 := Int.lt_floor_add_one (x + 1 / 2)
    rw [abs_le]; constructor <;> linarith
  · have h1 := Int.floor_le (-x + 1 / 2)
    have h2 := Int.lt_floor_add_one (-x + 1 / 2)
    push_cast
    rw [abs_le]; constructor <;> linarith

/-- The reduction of an integer with an error below a half: a representative modulo `2^w`, at most `2^(w-1)` in size. -/
theorem floatModQ_spec (w : ℕ) (hw : 0 < w) (c : ℤ) (d : ℝ) (hd : |d| < 1 / 2) :
    ∃ k : ℤ, floatModQ (2 ^ w) ((c : ℝ) + d) = c - 2 ^ w * k ∧ |c - 2 ^ w * k| ≤ 2 ^ (w - 1) := by
  set k := round (((c : ℝ) + d) / 2 ^ w) with hk
  refine ⟨k, ?_, ?_⟩
  · unfold floatModQ
    rw [← hk]
    have : (c : ℝ) + d - 2 ^ w * k = ((c - 2 ^ w * k : ℤ) : ℝ) + d := by push_cast; ring
    rw [this, round_add _ _ hd]
  · have h1 := round_close (((c : ℝ) + d) / 2 ^ w)
    rw [← hk] at h1
    have hp : (0 : ℝ) < 2 ^ w := by positivity
    have h2 : |(c : ℝ) + d - 2 ^ w * k| ≤ 2 ^ (w - 1) := by
      have e : (c : ℝ) + d - 2 ^ w * k = 2 ^ w * (((c : ℝ) + d) / 2 ^ w - k) := by field_simp
      rw [e, abs_mul, abs_of_pos hp]
      calc (2 : ℝ) ^ w * _ ≤ 2 ^ w * (1 / 2) := mul_le_mul_of_nonneg_left h1 hp.le
        _ = _ := by
          obtain ⟨v, rfl⟩ : ∃ v, w = v + 1 := ⟨w - 1, by omega⟩
          rw [pow_succ, Nat.add_sub_cancel]; ring
    have h3 : |((c - 2 ^ w * k : ℤ) : ℝ)| < 2 ^ (w - 1) + 1 := by
      have e : ((c - 2 ^ w * k : ℤ) : ℝ) = ((c : ℝ) + d - 2 ^ w * k) + (-d) := by push_cast; ring
      rw [e]
      refine (abs_add_le _ _).trans_lt ?_
      rw [abs_neg]; linarith
    have h4 : |c - 2 ^ w * k| < 2 ^ (w - 1) + 1 := by exact_mod_cast h3
    omega

/-- The conversion to a word of an integer that has been reduced. -/
theorem convert_fit (w : ℕ) (c k : ℤ) (h2 : |c - 2 ^ w * k| ≤ 2 ^ (w - 1)) (h : w < 64 ∨ (w = 64 ∧ |c| < 2 ^ 62)) :
    (toInt64 (c - 2 ^ w * k)).map (fun z => BitVec.ofInt w z) = some (BitVec.ofInt w c) := by
  have hfit : -2 ^ 63 ≤ c - 2 ^ w * k ∧ c - 2 ^ w * k < 2 ^ 63 := by
    obtain ⟨ha, hb⟩ := abs_le.1 h2
    rcases h with h | ⟨rfl, h⟩
    · have : (2 : ℤ) ^ (w - 1) ≤ 2 ^ 62 := pow_le_pow_right₀ (by norm_num) (by omega)
      constructor <;> omega
    · obtain ⟨hc, hd⟩ := abs_lt.1 h
      norm_num at ha hb hc hd ⊢
      constructor <;> omega
  rw [toInt64, if_pos hfit, Option.map_some]
  congr 1
  rw [bv_ofInt_eq_cast, bv_ofInt_eq_cast]
  push_cast
  have : (2 : BitVec w) ^ w = 0 := by
    have := bv_ofInt_eq_cast (w := w) (2 ^ w)
    push_cast at this
    rw [← this]
    apply BitVec.eq_of_toNat_eq
    rw [BitVec.toNat_ofInt]; simp
  rw [this]; ring

/-- Reduction and conversion to a word: exact for words below 64 bits, and for 64 bits if the integer is below `2^62`. -/
theorem convert_spec (w : ℕ) (hw : 0 < w) (c : ℤ) (d : ℝ) (hd : |d| < 1 / 2) (h : w < 64 ∨ (w = 64 ∧ |c| < 2 ^ 62)) :
    (toInt64 (floatModQ (2 ^ w) ((c : ℝ) + d))).map (fun z => BitVec.ofInt w z) = some (BitVec.ofInt w c) := by
  obtain ⟨k, h1, h2⟩ := floatModQ_spec w hw c d hd
  rw [h1]
  exact convert_fit w c k h2 h

/-! ## Limbs -/

theorem udigits (x b c : ℕ) :
    ∑ i ∈ Finset.range c, (x / 2 ^ (i * b) % 2 ^ b) * 2 ^ (i * b) = x % 2 ^ (c * b) := by
  induction c with
  | zero => simp [Nat.mod_one]
  | succ c ih =>
    rw [Finset.sum_range_succ, ih, Nat.succ_mul, pow_add, Nat.mod_mul]
    ring

/-- The recombination of truncated digits. -/
theorem tdigits (x : ℤ) (b c : ℕ) :
    ∑ i ∈ Finset.range c, ((x.tdiv (2 ^ (i * b))).tmod (2 ^ b)) * 2 ^ (i * b) = x.tmod (2 ^ (c * b)) := by
  have hnat : ∀ n : ℕ, ∑ i ∈ Finset.range c, (((n : ℤ).tdiv (2 ^ (i * b))).tmod (2 ^ b)) * 2 ^ (i * b) =
      (n : ℤ).tmod (2 ^ (c * b)) := by
    intro n
    have h := congrArg (Nat.cast (R := ℤ)) (udigits n b c)
    have e : ∀ (m k : ℕ), (m : ℤ).tmod (2 ^ k) = ((m % 2 ^ k : ℕ) : ℤ) := by
      intro m k; rw [Int.ofNat_tmod]; push_cast; rfl
    have e' : ∀ (m k : ℕ), (m : ℤ).tdiv (2 ^ k) = ((m / 2 ^ k : ℕ) : ℤ) := by
      intro m k; rw [Int.ofNat_tdiv]; push_cast; rfl
    rw [e, ← h, Nat.cast_sum]
    refine Finset.sum_congr rfl fun i _ => ?_
    rw [e', e, Nat.cast_mul]; push_cast; rfl
  obtain ⟨n, rfl | rfl⟩ := Int.eq_nat_or_neg x
  · exact hnat n
  · rw [Int.neg_tmod, ← hnat n, ← Finset.sum_neg_distrib]
    refine Finset.sum_congr rfl fun i _ => ?_
    rw [Int.neg_tdiv, Int.neg_tmod, neg_mul]

variable {w : ℕ}

theorem toInt_one_shl (n : ℕ) (hn : n + 1 < w) : (1#w <<< n).toInt = 2 ^ n := by
  have hp : (2 : ℕ) ^ n * 2 < 2 ^ w := by
    rw [← pow_succ]; exact Nat.pow_lt_pow_right (by norm_num) hn
  rw [BitVec.toInt_eq_toNat_cond, BitVec.toNat_shiftLeft, Nat.shiftLeft_eq, BitVec.toNat_ofNat,
    Nat.mod_eq_of_lt (a := 1) (Nat.one_lt_two_pow (by omega)), one_mul, Nat.mod_eq_of_lt (by omega), if_pos (by omega)]
  push_cast; rfl

theorem toInt_one_shl_top (n : ℕ) (hn : n + 1 = w) (hn0 : 0 < n) : (1#w <<< n).toInt = -2 ^ n := by
  have hp : (2 : ℕ) ^ n * 2 = 2 ^ w := by rw [← pow_succ, hn]
  have hpos : 0 < 2 ^ n := by positivity
  rw [BitVec.toInt_eq_toNat_cond, BitVec.toNat_shiftLeft, Nat.shiftLeft_eq, BitVec.toNat_ofNat,
    Nat.mod_eq_of_lt (a := 1) (Nat.one_lt_two_pow (by omega)), one_mul, Nat.mod_eq_of_lt (by omega), if_neg (by omega)]
  rw [← hp]; push_cast; ring

/-- A remainder with divisor `2^b` as a word. -/
theorem tmod_chunk (y : ℤ) (b : ℕ) (hb : 0 < b) (hbw : b < w) : y.tmod (1#w <<< b).toInt = y.tmod (2 ^ b) := by
  rcases Nat.lt_or_ge (b + 1) w with h | h
  · rw [toInt_one_shl b h]
  · rw [toInt_one_shl_top b (by omega) hb, Int.tmod_neg]

theorem natAbs_tmod_lt' (y : ℤ) (b : ℕ) : (y.tmod (2 ^ b)).natAbs < 2 ^ b := by
  rw [Int.natAbs_tmod]
  have : ((2 : ℤ) ^ b).natAbs = 2 ^ b := by rw [Int.natAbs_pow]; rfl
  rw [this]
  exact Nat.mod_lt _ (by positivity)

theorem limb_unsigned (b i : ℕ) (hbw : b < w) (x : BitVec w) :
    (limb false b i x).toNat = x.toNat / 2 ^ (i * b) % 2 ^ b := by
  have hpos : 0 < 2 ^ b := by positivity
  have hlt : 2 ^ b < 2 ^ w := Nat.pow_lt_pow_right (by norm_num) hbw
  have h1 : ((1#w <<< b) - 1#w).toNat = 2 ^ b - 1 := by
    rw [BitVec.toNat_sub, BitVec.toNat_shiftLeft, Nat.shiftLeft_eq, BitVec.toNat_ofNat,
      Nat.mod_eq_of_lt (a := 1) (Nat.one_lt_two_pow (by omega)), one_mul, Nat.mod_eq_of_lt hlt,
      show 2 ^ w - 1 + 2 ^ b = (2 ^ b - 1) + 2 ^ w by omega, Nat.add_mod_right, Nat.mod_eq_of_lt (by omega)]
  unfold limb
  simp only [Bool.false_eq_true, if_false]
  rw [BitVec.toNat_and, h1, Nat.and_two_pow_sub_one_eq_mod, BitVec.toNat_ushiftRight, Nat.shiftRight_eq_div_pow]

theorem limb_bound (signed : Bool) (b i : ℕ) (hb : 0 < b) (hbw : b < w) (x : BitVec w) :
    (limb signed b i x).toInt.natAbs ≤ 2 ^ b := by
  cases signed
  · have h2 := limb_unsigned b i hbw x
    have h2' : x.toNat / 2 ^ (i * b) % 2 ^ b < 2 ^ b := Nat.mod_lt _ (by positivity)
    have h3 : 2 ^ b * 2 ≤ 2 ^ w := by rw [← pow_succ]; exact Nat.pow_le_pow_right (by norm_num) hbw
    rw [BitVec.toInt_eq_toNat_cond, h2, if_pos (by omega)]
    exact h2'.le
  · unfold limb
    simp only [if_true]
    rw [BitVec.toInt_srem, tmod_chunk _ b hb hbw]
    exact (natAbs_tmod_lt' _ b).le

theorem cast_toInt (x : BitVec w) : ((x.toInt : ℤ) : BitVec w) = x := by
  rw [← bv_ofInt_eq_cast, BitVec.ofInt_toInt]

theorem two_pow_w : (2 : BitVec w) ^ w = 0 := by
  have := bv_ofInt_eq_cast (w := w) (2 ^ w)
  push_cast at this
  rw [← this]
  apply BitVec.eq_of_toNat_eq
  rw [BitVec.toNat_ofInt]; simp

/-- The limbs put together again. -/
theorem limb_sum (signed : Bool) (b c : ℕ) (hb : 0 < b) (hbw : b < w) (hc : w ≤ c * b) (hc' : (c - 1) * b < w) (x : BitVec w) :
    ∑ i ∈ Finset.range c, limb signed b i x * 2 ^ (i * b) = x := by
  have hib : ∀ i ∈ Finset.range c, i * b < w := by
    intro i hi
    rw [Finset.mem_range] at hi
    exact (Nat.mul_le_mul_right b (by omega : i ≤ c - 1)).trans_lt hc'
  cases signed
  · have h2 : ∀ i, limb false b i x = ((x.toNat / 2 ^ (i * b) % 2 ^ b : ℕ) : BitVec w) := by
      intro i
      rw [← limb_unsigned b i hbw x]
      apply BitVec.eq_of_toNat_eq; simp
    have h3 := congrArg (Nat.cast (R := BitVec w)) (udigits x.toNat b c)
    rw [Finset.sum_congr rfl fun i _ => by rw [h2 i]]
    rw [Nat.mod_eq_of_lt (x.isLt.trans_le (Nat.pow_le_pow_right (by norm_num) hc)), Nat.cast_sum] at h3
    have h4 : ((x.toNat : ℕ) : BitVec w) = x := by apply BitVec.eq_of_toNat_eq; simp
    rw [h4] at h3
    refine Eq.trans (Finset.sum_congr rfl fun i _ => ?_) h3
    rw [Nat.cast_mul]; push_cast; rfl
  · have h2 : ∀ i ∈ Finset.range c, limb true b i x * 2 ^ (i * b) =
        ((((x.toInt.tdiv (2 ^ (i * b))).tmod (2 ^ b)) * 2 ^ (i * b) : ℤ) : BitVec w) := by
      intro i hi
      have h := hib i hi
      have hm1 : (-1#w).toInt = -1 := by rw [BitVec.neg_one_eq_allOnes, BitVec.toInt_allOnes, if_pos (by omega)]
      unfold limb
      simp only [if_true]
      rw [← cast_toInt ((x.sdiv (1#w <<< (i * b))).srem (1#w <<< b)), BitVec.toInt_srem, tmod_chunk _ b hb hbw]
      rcases Nat.lt_or_ge (i * b + 1) w with h1 | h1
      · rw [BitVec.toInt_sdiv_of_ne_or_ne, toInt_one_shl _ h1]
        · push_cast; rfl
        · right
          intro he
          have := congrArg BitVec.toInt he
          rw [toInt_one_shl _ h1, hm1] at this
          have : (0 : ℤ) < 2 ^ (i * b) := by positivity
          omega
      · have h0 : 0 < i * b := by omega
        rw [BitVec.toInt_sdiv_of_ne_or_ne, toInt_one_shl_top _ (by omega) h0, Int.tdiv_neg, Int.neg_tmod]
        · generalize (x.toInt.tdiv (2 ^ (i * b))).tmod (2 ^ b) = D
          have h3 := two_pow_w (w := w)
          replace h3 : (2 : BitVec w) ^ (i * b + 1) = 0 := by rw [show i * b + 1 = w by omega]; exact h3
          rw [pow_succ] at h3
          push_cast
          linear_combination (-(D : BitVec w)) * h3
        · right
          intro he
          have := congrArg BitVec.toInt he
          rw [toInt_one_shl_top _ (by omega) h0, hm1] at this
          have : (2 : ℤ) ^ 1 ≤ 2 ^ (i * b) := pow_le_pow_right₀ (by norm_num) h0
          omega
    rw [Finset.sum_congr rfl h2, ← Int.cast_sum, tdigits]
    have h3 : x.toInt.tmod (2 ^ (c * b)) = x.toInt := by
      have hl := BitVec.le_toInt x
      have hr := BitVec.toInt_lt (x := x)
      have hlt : (2 : ℤ) ^ (w - 1) < 2 ^ (c * b) := pow_lt_pow_right₀ (by norm_num) (by omega)
      rcases le_or_gt 0 x.toInt with h | h
      · exact Int.tmod_eq_of_lt h (by omega)
      · have := Int.tmod_eq_of_lt (a := -x.toInt) (b := 2 ^ (c * b)) (by omega) (by omega)
        rw [Int.neg_tmod] at this; omega
    rw [h3, cast_toInt]
end Tfhe.Fft
