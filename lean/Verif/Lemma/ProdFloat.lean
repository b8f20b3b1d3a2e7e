import Verif.Spec.Ieee

/-!
# Rounding errors of accumulations in the Fourier domain
-/
namespace Tfhe
open Fft Poly Finset

/-! ### Reduction and conversion -/

theorem isFloat_int_mul (m : ℤ) (s : ℤ) (h : |m| ≤ 2 ^ 53) : IsFloat (m * 2 ^ s) := ⟨m, s, h, rfl⟩

theorem IsFloat.mul_pow {x : ℝ} (h : IsFloat x) (k : ℤ) : IsFloat (x * 2 ^ k) := by
  obtain ⟨m, s, hm, rfl⟩ := h
  exact ⟨m, s + k, hm, by rw [zpow_add₀ (by norm_num), mul_assoc]⟩

/-- The nearest integer of a float, and the distance to it, are floats. -/
theorem isFloat_round {r : ℝ → ℤ} (hr' : ∀ x, |x - r x| ≤ 1 / 2) {x : ℝ} (h : IsFloat x) : IsFloat (r x : ℝ) ∧ IsFloat (x - r x) := by
  obtain ⟨m, s, hm, hx⟩ := h
  have hr := hr' x
  by_cases hs : 0 ≤ s
  · -- an integer
    obtain ⟨n, rfl⟩ := Int.eq_ofNat_of_zero_le hs
    have e : x = ((m * 2 ^ n : ℤ) : ℝ) := by rw [hx]; push_cast; simp
    have hrd : r x = m * 2 ^ n := by
      have := nearest_add hr' (m * 2 ^ n) 0 (by norm_num)
      rwa [add_zero, ← e] at this
    rw [hrd, ← e, sub_self]
    exact ⟨⟨m, n, hm, hx⟩, ⟨0, 0, by norm_num, by norm_num⟩⟩
  · obtain ⟨n, rfl⟩ : ∃ n : ℕ, s = -(n + 1 : ℕ) := ⟨(-s - 1).toNat, by omega⟩
    have hp : (0 : ℝ) < 2 ^ (n + 1) := by positivity
    have hx' : x * 2 ^ (n + 1) = m := by
      rw [hx, zpow_neg, zpow_natCast, mul_assoc, inv_mul_cancel₀ hp.ne', mul_one]
    have hmr : |(m : ℝ)| ≤ 2 ^ 53 := by exact_mod_cast hm
    have hxa : |x| * 2 ^ (n + 1) = |(m : ℝ)| := by rw [← hx', abs_mul, abs_of_pos hp]
    have hx2 : |x| ≤ 2 ^ 52 := by
      have h1 : (2 : ℝ) ≤ 2 ^ (n + 1) := by
        rw [pow_succ]; have : (1 : ℝ) ≤ 2 ^ n := one_le_pow₀ (by norm_num)
        linarith
      have h2 := mul_le_mul_of_nonneg_left h1 (abs_nonneg x)
      have : |x| * 2 ≤ 2 ^ 53 := by linarith
      linarith [show (2 : ℝ) ^ 53 = 2 ^ 52 * 2 by norm_num]
    constructor
    · refine ⟨r x, 0, ?_, by simp⟩
      have h1 : |(r x : ℝ)| ≤ 2 ^ 52 + 1 / 2 := by
        have := abs_sub_abs_le_abs_sub (r x : ℝ) x
        rw [abs_sub_comm] at this; linarith
      have h2 : |(r x : ℝ)| ≤ 2 ^ 53 := h1.trans (by norm_num)
      exact_mod_cast h2
    · by_cases hn : n + 1 ≤ 54
      · refine ⟨m - r x * 2 ^ (n + 1), -(n + 1 : ℕ), ?_, ?_⟩
        · have h1 : |((m - r x * 2 ^ (n + 1) : ℤ) : ℝ)| ≤ 2 ^ 53 := by
            push_cast
            rw [← hx', ← sub_mul, abs_mul, abs_of_pos hp]
            have h2 : (2 : ℝ) ^ (n + 1) ≤ 2 ^ 54 := pow_le_pow_right₀ (by norm_num) hn
            calc |x - r x| * 2 ^ (n + 1) ≤ 1 / 2 * 2 ^ 54 := mul_le_mul hr h2 hp.le (by norm_num)
              _ = _ := by norm_num
          exact_mod_cast h1
        · push_cast
          rw [zpow_neg]
          have : (2 : ℝ) ^ ((n : ℤ) + 1) = 2 ^ (n + 1) := by exact_mod_cast zpow_natCast (2 : ℝ) (n + 1)
          rw [this, ← hx']
          field_simp
      · -- below one half
        have h1 : (2 : ℝ) ^ 55 ≤ 2 ^ (n + 1) := pow_le_pow_right₀ (by norm_num) (by omega)
        have h2 := mul_le_mul_of_nonneg_left h1 (abs_nonneg x)
        have h3 : |x| < 1 / 2 := by
          have : |x| * 2 ^ 55 ≤ 2 ^ 53 := by linarith
          linarith [show (2 : ℝ) ^ 55 = 2 ^ 53 * 4 by norm_num, show (0 : ℝ) < 2 ^ 53 by norm_num]
        have hrd : r x = 0 := by
          have := nearest_add hr' 0 x h3
          rwa [Int.cast_zero, zero_add] at this
        rw [hrd, Int.cast_zero, sub_zero]
        exact ⟨m, _, hm, hx⟩

section
variable {M : Machine} (hM : Ieee M)
include hM

/-- The reduction modulo `2^w` does not round, except for the last step. -/
theorem modQ_exact (w : ℕ) (c : ℝ) (hc : IsFloat c) :
    floatModQFl M.arith (2 ^ w) c = M.arith.round (c - 2 ^ w * (M.arith.round (c / 2 ^ w) : ℝ)) := by
  have hq : (2 : ℝ) ^ w = 2 ^ (w : ℤ) := (zpow_natCast _ _).symm
  have hq0 : (2 : ℝ) ^ w ≠ 0 := by positivity
  have h1 : IsFloat (c / 2 ^ w) := by
    have := hc.mul_pow (-w)
    rwa [zpow_neg, zpow_natCast, ← div_eq_mul_inv] at this
  obtain ⟨h2, h3⟩ := isFloat_round (ofFl_ok M.toFloat64 hM.toAccurate).round h1
  have e1 : M.arith.div c (2 ^ w) = c / 2 ^ w := hM.exact _ h1
  have f1 : IsFloat (2 ^ w * (M.arith.round (c / 2 ^ w) : ℝ)) := by
    have := h2.mul_pow w
    rwa [zpow_natCast, mul_comm] at this
  have f2 : IsFloat (c - 2 ^ w * (M.arith.round (c / 2 ^ w) : ℝ)) := by
    have := h3.mul_pow w
    rwa [zpow_natCast, sub_mul, div_mul_cancel₀ _ hq0, mul_comm (M.arith.round (c / 2 ^ w) : ℝ)] at this
  have e2 : M.arith.subMul c (2 ^ w) (M.arith.round (c / 2 ^ w)) = c - 2 ^ w * (M.arith.round (c / 2 ^ w) : ℝ) := by
    show (Arith.ofFl M.fuse M.fl).subMul _ _ _ = _
    simp only [Arith.ofFl]
    cases M.fuse.prod
    · show M.fl (c - M.fl _) = _
      rw [hM.exact _ f1, hM.exact _ f2]
    · exact hM.exact _ f2
    · exact hM.exact _ f2
  unfold floatModQFl
  rw [e1, e2]

omit hM in
theorem ofInt_mod (w : ℕ) (a b : ℤ) : BitVec.ofInt w (a - 2 ^ w * b) = BitVec.ofInt w a := by
  rw [bv_ofInt_eq_cast, bv_ofInt_eq_cast]
  push_cast
  have : (2 : BitVec w) ^ w = 0 := by
    have := bv_ofInt_eq_cast (w := w) (2 ^ w)
    push_cast at this
    rw [← this]
    apply BitVec.eq_of_toNat_eq
    rw [BitVec.toNat_ofInt]; simp
  rw [this]; ring

/-- Reduction and conversion of a float at distance `ε` from an integer: the word of that integer, up to `ε + 3/2`. -/
theorem convert_near (w : ℕ) (hw : 0 < w) (hw64 : w ≤ 64) (c : ℝ) (hc : IsFloat c) (Z : ℤ) (ε : ℝ) (h : |c - Z| ≤ ε) :
    ∃ d : ℤ, |(d : ℝ)| ≤ ε + 3 / 2 ∧ BitVec.ofInt w (M.int64 (floatModQFl M.arith (2 ^ w) c)) = BitVec.ofInt w Z + BitVec.ofInt w d := by
  rw [modQ_exact hM w c hc]
  set K := M.arith.round (c / 2 ^ w) with hK
  set s := c - 2 ^ w * (K : ℝ) with hs
  set r := M.arith.round s with hr
  have hr1 := (ofFl_ok M.toFloat64 hM.toAccurate).round s
  rw [← hr] at hr1
  have hK1 := (ofFl_ok M.toFloat64 hM.toAccurate).round (c / 2 ^ w)
  rw [← hK] at hK1
  have hq : (0 : ℝ) < 2 ^ w := by positivity
  have hs1 : |s| ≤ 2 ^ (w - 1) := by
    have e : s = 2 ^ w * (c / 2 ^ w - K) := by rw [hs]; field_simp
    rw [e, abs_mul, abs_of_pos hq]
    have h1 := mul_le_mul_of_nonneg_left hK1 hq.le
    have h2 : (2 : ℝ) ^ w * (1 / 2) = 2 ^ (w - 1) := by
      obtain ⟨v, rfl⟩ : ∃ v, w = v + 1 := ⟨w - 1, by omega⟩
      rw [pow_succ, Nat.add_sub_cancel]; ring
    linarith
  have hr2 : |r| ≤ 2 ^ (w - 1) := by
    have h1 : |(r : ℝ)| < 2 ^ (w - 1) + 1 := by
      have := abs_sub_abs_le_abs_sub (r : ℝ) s
      rw [abs_sub_comm (r : ℝ) s] at this; linarith
    have h2 : |r| < 2 ^ (w - 1) + 1 := by exact_mod_cast h1
    omega
  have hd : |((r - Z + 2 ^ w * K : ℤ) : ℝ)| ≤ ε + 1 / 2 := by
    have e : ((r - Z + 2 ^ w * K : ℤ) : ℝ) = (c - Z) - (s - r) := by rw [hs]; push_cast; ring
    rw [e]
    exact (abs_sub _ _).trans (by linarith)
  have fin : ∀ t : ℤ, |t| ≤ 1 → BitVec.ofInt w (M.int64 r) = BitVec.ofInt w (r + t) →
      ∃ d : ℤ, |(d : ℝ)| ≤ ε + 3 / 2 ∧ BitVec.ofInt w (M.int64 r) = BitVec.ofInt w Z + BitVec.ofInt w d := by
    intro t ht he
    refine ⟨(r - Z + 2 ^ w * K) + t, ?_, ?_⟩
    · have h1 : |(t : ℝ)| ≤ 1 := by exact_mod_cast ht
      rw [Int.cast_add]
      exact (abs_add_le _ _).trans (by linarith)
    · rw [he, ← BitVec.ofInt_add, show Z + (r - Z + 2 ^ w * K + t) = (r + t) - 2 ^ w * (-K) by ring, ofInt_mod]
  obtain ⟨a1, a2⟩ := abs_le.1 hr2
  have hp : (2 : ℤ) ^ (w - 1) ≤ 2 ^ 63 := pow_le_pow_right₀ (by norm_num) (by omega)
  by_cases hlt : r < 2 ^ 63
  · exact fin 0 (by norm_num) (by rw [hM.fit r (by omega) hlt, add_zero])
  · have hr63 : r = 2 ^ 63 := by omega
    have hw' : w = 64 := by
      by_contra hne
      have : (2 : ℤ) ^ (w - 1) ≤ 2 ^ 62 := pow_le_pow_right₀ (by norm_num) (by omega)
      omega
    rcases hM.top with h | h
    · refine fin 0 (by norm_num) ?_
      rw [hr63, h, add_zero, hw']; rfl
    · refine fin (-1) (by norm_num) ?_
      rw [hr63, h]; rfl
end

end Tfhe
