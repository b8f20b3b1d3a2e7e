import Verif.Props.C61
import Mathlib.Analysis.SpecialFunctions.Log.Base

/-!
# C62: FHEW keys are short
-/
namespace Tfhe
open Rng Gauss Fft Poly Enc Published

/-! ## Specification -/

/-- `math.Log2` is right up to 1/8 on positive finite numbers. -/
def GoodLog2 (log2 : ℝ → ℝ) : Prop := ∀ x : ℝ, 2⁻¹ ^ 1074 ≤ x → x ≤ 2 ^ 1024 → |log2 x - Real.logb 2 x| ≤ 1 / 8

namespace Fhew

theorem f64_pos (x : BitVec 64) (h1 : f64IsNaN x = false) (h2 : f64LeZero x = false) :
    f64Ext x = .inf false ∨ (f64Ext x = .fin (f64Val x : ℚ) ∧ (2⁻¹ : ℝ) ^ 1074 ≤ (f64Val x : ℚ) ∧ ((f64Val x : ℚ) : ℝ) ≤ 2 ^ 1024) := by
  have hm : x.msb = false ∧ x ≠ 0 := by
    unfold f64LeZero at h2
    rw [h1] at h2
    simpa using h2
  have hlt : x.toNat < 2 ^ 63 := by
    have := hm.1
    rw [BitVec.msb_eq_decide] at this
    simpa using this
  have hne : x.toNat ≠ 0 := fun h => hm.2 (BitVec.eq_of_toNat_eq (by simpa using h))
  unfold f64IsNaN at h1
  have h1' : x.toNat ≤ 0x7FF0000000000000 := by
    have := of_decide_eq_false h1
    rw [Nat.mod_eq_of_lt hlt] at this
    omega
  unfold f64Ext
  have hN : ¬f64IsNaN x = true := by unfold f64IsNaN; rw [h1]; simp
  rw [if_neg hN]
  split
  · left; rw [hm.1]
  · next h =>
    rw [Nat.mod_eq_of_lt hlt] at h
    right
    refine ⟨rfl, ?_⟩
    have hv : f64Val x = (f64Parts x).1 * 2 ^ (f64Parts x).2 / 2 ^ 1074 := by
      unfold f64Val; rw [hm.1]; simp
    have hb : 1 ≤ (f64Parts x).1 ∧ (f64Parts x).1 ≤ 2 ^ 53 ∧ (f64Parts x).2 ≤ 2045 := by
      have e0 : x.toNat / 2 ^ 52 < 2047 := by omega
      unfold f64Parts
      simp only
      split
      · next h => simp only; omega
      · next h => simp only; omega
    generalize f64Parts x = q at hv hb
    obtain ⟨m, n⟩ := q
    simp only at hv hb
    obtain ⟨b1, b2, b3⟩ := hb
    rw [hv]
    have c1 : (1 : ℝ) ≤ m := by exact_mod_cast b1
    have c2 : (m : ℝ) ≤ 2 ^ 53 := by exact_mod_cast b2
    have c3 : (2 : ℝ) ^ n ≤ 2 ^ 2045 := pow_le_pow_right₀ (by norm_num) b3
    have c4 : (1 : ℝ) ≤ 2 ^ n := one_le_pow₀ (by norm_num)
    push_cast
    constructor
    · rw [inv_pow, inv_eq_one_div]
      exact div_le_div_of_nonneg_right (by nlinarith) (by positivity)
    · rw [div_le_iff₀ (by positivity)]
      calc (m : ℝ) * 2 ^ n ≤ 2 ^ 53 * 2 ^ 2045 := mul_le_mul c2 c3 (by positivity) (by positivity)
        _ = 2 ^ 1024 * 2 ^ 1074 := by rw [← pow_add, ← pow_add]

theorem logb_bound (x : ℝ) (h1 : 2⁻¹ ^ 1074 ≤ x) (h2 : x ≤ 2 ^ 1024) : |Real.logb 2 x| ≤ 1074 := by
  have hx : 0 < x := lt_of_lt_of_le (by positivity) h1
  have e1 : Real.logb 2 ((2 : ℝ) ^ 1024) = 1024 := by rw [Real.logb_pow]; norm_num
  have e2 : Real.logb 2 ((2⁻¹ : ℝ) ^ 1074) = -1074 := by rw [Real.logb_pow, Real.logb_inv]; norm_num
  rw [abs_le]
  constructor
  · rw [← e2]; exact Real.logb_le_logb_of_le (by norm_num) (by positivity) h1
  · have := Real.logb_le_logb_of_le (b := 2) (by norm_num) hx h2
    rw [e1] at this
    linarith

/-- The test of `Compile` computes the logarithm of 12 standard deviations, up to a half. -/
theorem fhew_sum {M : Libm} (hM : GoodLibm M) {log2 : ℝ → ℝ} (hL : GoodLog2 log2) {w : ℕ} (hw : w ≤ 64) (x : ℝ)
    (h1 : 2⁻¹ ^ 1074 ≤ x) (h2 : x ≤ 2 ^ 1024) :
    |M.fl (M.fl (log2 x + w) + log2 12) - (Real.logb 2 (x * 2 ^ w * 12))| ≤ 1 / 2 := by
  have hx : 0 < x := lt_of_lt_of_le (by positivity) h1
  have a := hL x h1 h2
  have b := hL 12 (by have : (2⁻¹ : ℝ) ^ 1074 ≤ 1 := pow_le_one₀ (by norm_num) (by norm_num : (2⁻¹ : ℝ) ≤ 1)
                      linarith) (by have : (2 : ℝ) ^ 4 ≤ 2 ^ 1024 := pow_le_pow_right₀ (by norm_num) (by norm_num)
                                    exact le_trans (by norm_num) this)
  have lx := logb_bound x h1 h2
  have l12 : |Real.logb 2 12| ≤ 4 := by
    have : Real.logb 2 12 ≤ 4 := by
      rw [Real.logb_le_iff_le_rpow (by norm_num) (by norm_num)]; norm_num
    rw [abs_le]
    exact ⟨by linarith [Real.logb_nonneg (b := 2) (by norm_num) (show (1 : ℝ) ≤ 12 by norm_num)], this⟩
  have e : Real.logb 2 (x * 2 ^ w * 12) = Real.logb 2 x + w + Real.logb 2 12 := by
    rw [Real.logb_mul (by positivity) (by norm_num), Real.logb_mul (by positivity) (by positivity), Real.logb_pow]
    norm_num
  have hw' : (w : ℝ) ≤ 64 := by exact_mod_cast hw
  have f1 := hM.fl (log2 x + w)
  have s1 : |log2 x + w| ≤ 1200 := by rw [abs_le] at *; constructor <;> [skip; skip] <;> linarith [Nat.cast_nonneg (α := ℝ) w]
  have g1 : |M.fl (log2 x + w) - (log2 x + w)| ≤ 1 / 16 := f1.trans (by nlinarith [abs_nonneg (log2 x + w)])
  generalize M.fl (log2 x + w) = y at g1 ⊢
  have f2 := hM.fl (y + log2 12)
  have s2 : |y + log2 12| ≤ 1300 := by rw [abs_le] at *; constructor <;> linarith
  have g2 : |M.fl (y + log2 12) - (y + log2 12)| ≤ 1 / 16 := f2.trans (by nlinarith [abs_nonneg (y + log2 12)])
  rw [e]
  rw [abs_le] at *
  constructor <;> linarith
end Fhew

/-- **C62.**  `ParamsFHEWBinary` compiles. -/
theorem C62_compile {M : Libm} (hM : GoodLibm M) {log2 : ℝ → ℝ} (hL : GoodLog2 log2) (impl : BitVec 64) :
    ∀ lit ∈ allFHEWLit64, (lit.compile M log2 impl).isSome := by
  intro lit hlit
  have hl : lit = paramsFHEWBinary := by simpa [allFHEWLit64] using hlit
  subst hl
  have hb : paramsFHEWBinary.baseParams.compile impl = paramsFHEWBinary.baseParams.compile 0 :=
    Pubd.compile_impl _ _ (by decide +kernel)
  have hbase : ∃ p, paramsFHEWBinary.baseParams.compile 0 = some p ∧ p.blockSize = 1 ∧ p.polyRank = p.lutSize := by
    refine ⟨(paramsFHEWBinary.baseParams.compile 0).get (by decide +kernel), by rw [Option.some_get], ?_, ?_⟩ <;> decide +kernel
  obtain ⟨p, h1, h2, h3⟩ := hbase
  have hv : f64Val paramsFHEWBinary.secretKeyStdDev * 2 ^ 64 * 12 ≤ 64 := by decide +kernel
  have ht : ¬fhewTooLarge M log2 64 paramsFHEWBinary.secretKeyStdDev := by
    rcases Fhew.f64_pos paramsFHEWBinary.secretKeyStdDev (by decide +kernel) (by decide +kernel) with h | ⟨h, b1, b2⟩
    · exfalso
      unfold f64Ext at h
      rw [if_neg (by decide +kernel), if_neg (by decide +kernel)] at h
      cases h
    · have hx : (0 : ℝ) < (f64Val paramsFHEWBinary.secretKeyStdDev : ℚ) := lt_of_lt_of_le (by positivity) b1
      unfold fhewTooLarge
      rw [h]
      simp only [Ext.log2, if_pos hx, if_pos (show (0 : ℝ) < 12 by norm_num), Ext.add, Ext.gtReal, not_lt]
      have := Fhew.fhew_sum hM hL (le_refl 64) _ b1 b2
      have l6 : Real.logb 2 ((f64Val paramsFHEWBinary.secretKeyStdDev : ℚ) * 2 ^ 64 * 12) ≤ 6 := by
        rw [Real.logb_le_iff_le_rpow (by norm_num) (by positivity)]
        have : (((f64Val paramsFHEWBinary.secretKeyStdDev * 2 ^ 64 * 12 : ℚ)) : ℝ) ≤ ((64 : ℚ) : ℝ) := by exact_mod_cast hv
        push_cast at this ⊢
        refine this.trans ?_
        norm_num
      rw [abs_le] at this
      norm_num at this l6 ⊢
      linarith
  rw [FHEWLit.compile, hb, h1]
  simp only [Option.bind_some]
  rw [if_neg (by simp [h2]), if_neg (by simp [h3]), if_neg (by decide +kernel), if_neg ht, if_neg (by decide +kernel)]
  rfl

/-- **C62.**  Whatever parameters `Compile` accepts, other than a NaN for the standard deviation: a coefficient of a key,
sampled with `SecretKeyStdDevQ`, is at most `2^8`, the bound of the products with keys.  So these products are exact (C56). -/
theorem C62_short_partial {M : Libm} (hM : GoodLibm M) {log2 : ℝ → ℝ} (hL : GoodLog2 log2) {w : ℕ} (hw : w ≤ 64)
    (impl : BitVec w) (lit : FHEWLit w) (p : FHEWParams w) (hp : lit.compile M log2 impl = some p)
    (hnan : f64IsNaN p.secretKeyStdDev = false) (ws : List (BitVec 32)) (hs : NoTwoSmall ws) :
    sample M w (stdDevQ M w p.secretKeyStdDev) ws ≠ .panic ∧
    ∀ v rest, sample M w (stdDevQ M w p.secretKeyStdDev) ws = .ok v rest → |v.toInt| ≤ 2 ^ 8 := by
  obtain ⟨base, -, hp⟩ := Option.bind_eq_some_iff.mp hp
  have key : f64LeZero p.secretKeyStdDev = false ∧ ¬fhewTooLarge M log2 w p.secretKeyStdDev := by
    split at hp
    · cases hp
    split at hp
    · cases hp
    split at hp
    · cases hp
    next h3 =>
    split at hp
    · cases hp
    next h4 =>
    split at hp
    · cases hp
    cases hp
    exact ⟨by simpa using h3, h4⟩
  obtain ⟨h1, h2⟩ := key
  generalize p.secretKeyStdDev = x at *
  rcases Fhew.f64_pos x hnan h1 with h | ⟨h, b1, b2⟩
  · exact absurd (by unfold fhewTooLarge; rw [h]; simp [Ext.log2, Ext.add, Ext.gtReal]) h2
  · unfold fhewTooLarge at h2
    unfold stdDevQ
    rw [h] at h2
    generalize ((f64Val x : ℚ) : ℝ) = y at *
    have hx : 0 < y := lt_of_lt_of_le (by positivity) b1
    simp only [Ext.log2, if_pos hx, if_pos (show (0 : ℝ) < 12 by norm_num), Ext.add, Ext.gtReal, not_lt] at h2
    have := Fhew.fhew_sum hM hL hw y b1 b2
    have l : Real.logb 2 (y * 2 ^ w * 12) ≤ 17 / 2 := by rw [abs_le] at this; linarith
    rw [Real.logb_le_iff_le_rpow (by norm_num) (by positivity)] at l
    have r : (2 : ℝ) ^ (17 / 2 : ℝ) ≤ 363 := by
      have : (2 : ℝ) ^ (17 / 2 : ℝ) = √(2 ^ 17) := by
        rw [Real.sqrt_eq_rpow, ← Real.rpow_natCast, ← Real.rpow_mul (by norm_num)]; norm_num
      rw [this, Real.sqrt_le_left (by norm_num)]
      norm_num
    have hq : y * 2 ^ w ≤ 30.25 := by linarith
    have hf := hM.fl (y * 2 ^ w)
    have hq0 : 0 < y * 2 ^ w := by positivity
    rw [abs_of_pos hq0] at hf
    have hf2 : |M.fl (y * 2 ^ w) - y * 2 ^ w| ≤ 1 / 1000 * (y * 2 ^ w) := hf.trans (by
      apply mul_le_mul_of_nonneg_right _ hq0.le; norm_num)
    generalize M.fl (y * 2 ^ w) = σ at hf2 ⊢
    rw [abs_le] at hf2
    have s0 : 0 ≤ σ := by linarith
    have s1 : σ ≤ 30.3 := by linarith
    refine ⟨fun h => absurd ((C60_panic (w := w) (M := M) (σ := σ) ws []).1.mp h) (not_lt.mpr s0), fun v rest hv => ?_⟩
    obtain ⟨k, rfl, hk⟩ := C60_bounded_partial hM hw (by linarith) ws hs v rest hv
    have hk2 : |(k : ℝ)| ≤ ((2 ^ 8 : ℤ) : ℝ) := hk.trans (by push_cast; linarith)
    have hk3 : |k| ≤ 2 ^ 8 := by exact_mod_cast hk2
    have := wabs_ofInt_le (w := w) k
    unfold wabs at this
    rw [Int.abs_eq_natAbs] at hk3 ⊢
    omega

/-- `Compile` accepts a NaN for the standard deviation of the key: the comparisons are false. -/
theorem C62_nan (M : Libm) (log2 : ℝ → ℝ) (impl : BitVec 64) :
    ∃ p, ({ paramsFHEWBinary with secretKeyStdDev := 0x7FF8000000000000 } : FHEWLit 64).compile M log2 impl = some p ∧
      f64IsNaN p.secretKeyStdDev = true := by
  have hb : paramsFHEWBinary.baseParams.compile impl = paramsFHEWBinary.baseParams.compile 0 :=
    Pubd.compile_impl _ _ (by decide +kernel)
  have hbase : ∃ p, paramsFHEWBinary.baseParams.compile 0 = some p ∧ p.blockSize = 1 ∧ p.polyRank = p.lutSize := by
    refine ⟨(paramsFHEWBinary.baseParams.compile 0).get (by decide +kernel), by rw [Option.some_get], ?_, ?_⟩ <;> decide +kernel
  obtain ⟨p, h1, h2, h3⟩ := hbase
  have ht : ¬fhewTooLarge M log2 64 0x7FF8000000000000 := by
    unfold fhewTooLarge f64Ext
    rw [if_pos (by decide +kernel)]
    simp [Ext.log2, Ext.add, Ext.gtReal]
  refine ⟨{ baseParams := p, secretKeyStdDev := 0x7FF8000000000000, windowSize := paramsFHEWBinary.windowSize }, ?_, ?_⟩
  · rw [FHEWLit.compile]
    simp only
    rw [hb, h1]
    simp only [Option.bind_some]
    rw [if_neg (by simp [h2]), if_neg (by simp [h3]), if_neg (by decide +kernel), if_neg ht, if_neg (by decide +kernel)]
  · show f64IsNaN 0x7FF8000000000000 = true; decide +kernel

/-- Without the condition on the words the bound fails, for the published set: `2^63` on a platform that converts like amd64. -/
theorem C62_short_false : ¬ ∀ M : Libm, GoodLibm M → ∀ (ws rest : List (BitVec 32)) (v : BitVec 64),
    sample M 64 (stdDevQ M 64 paramsFHEWBinary.secretKeyStdDev) ws = .ok v rest → |v.toInt| ≤ 2 ^ 8 := by
  intro h
  have h0 : 1 / 8 ≤ f64Val paramsFHEWBinary.secretKeyStdDev * 2 ^ 64 := by decide +kernel
  have := h exLibm exLibm_good [0xFFFFFF00, 0, 0] [] _
    (C60_inf exLibm_good (lt_of_lt_of_le (by norm_num) (Pubd.stdDev_near exLibm_good 64 _ h0).1) 0 0 (by decide) (by decide) [])
  have h4 : BitVec.setWidth 64 (exLibm.int64 (.inf false)) = BitVec.intMin 64 := by simp [exLibm]
  rw [h4] at this
  exact absurd this (by decide +kernel)

/-- A platform and a logarithm that meet the conditions, the published set compiled. -/
example : GoodLibm exLibm ∧ GoodLog2 (Real.logb 2) ∧
    ∃ p, paramsFHEWBinary.compile exLibm (Real.logb 2) 0 = some p ∧ f64IsNaN p.secretKeyStdDev = false := by
  have hL : GoodLog2 (Real.logb 2) := fun x _ _ => by simp
  refine ⟨exLibm_good, hL, ?_⟩
  have h := C62_compile exLibm_good hL 0 paramsFHEWBinary (by simp [allFHEWLit64])
  obtain ⟨p, hp⟩ := Option.isSome_iff_exists.mp h
  refine ⟨p, hp, ?_⟩
  have : p.secretKeyStdDev = paramsFHEWBinary.secretKeyStdDev := by
    obtain ⟨base, -, hp⟩ := Option.bind_eq_some_iff.mp hp
    split at hp
    · cases hp
    split at hp
    · cases hp
    split at hp
    · cases hp
    split at hp
    · cases hp
    split at hp
    · cases hp
    cases hp
    rfl
  rw [this]
  decide +kernel

end Tfhe
