import Verif.Model.Bootstrap
import Verif.Lemma.Float
import Verif.Lemma.Word
import Verif.Spec.Lwe
import Mathlib.Algebra.BigOperators.Group.Finset.Basic
import Mathlib.Algebra.Order.BigOperators.Group.Finset

/-!
# C16: modulus switching rounds to the nearest point of the circle of `2 * LUTSize` points
-/
namespace Tfhe

theorem fl_two_pow (w : ℕ) : fl ((2:ℚ) ^ w) = 2 ^ w := by
  have := fl_two_zpow (w : ℤ); simpa using this

/-- The constant is exact. -/
theorem modSwitchConst_eq (w L : ℕ) (hL : 2 * L ≤ 2 ^ 53) : modSwitchConst w L = (2 * L : ℕ) / 2 ^ w := by
  unfold modSwitchConst
  rw [fl_nat _ hL, fl_two_pow]
  have h := fl_exact ((2 * L : ℕ) : ℤ) (-(w : ℤ))
    (by rw [abs_of_nonneg (by positivity)]; exact_mod_cast hL)
  rw [zpow_neg, zpow_natCast, ← div_eq_mul_inv] at h
  push_cast at h ⊢
  exact h

theorem goRound_err {x : ℚ} (hx : 0 ≤ x) : |(goRound x : ℚ) - x| ≤ 1 / 2 ∧ 0 ≤ goRound x := by
  unfold goRound
  rw [if_pos hx]
  have h1 := Int.floor_le (x + 1 / 2)
  have h2 := Int.lt_floor_add_one (x + 1 / 2)
  refine ⟨?_, Int.floor_nonneg.2 (by linarith)⟩
  rw [abs_le]; constructor <;> linarith

/-- The rounding error of switching, on the circle of `2 * L` points. -/
def switchErr (L : ℕ) : ℚ := 1 / 2 + 2 * L / 2 ^ 51

/-- **C16.** The result is one of the `2L` points, and at distance at most `1/2` (plus a float error
of `2L/2^51`) from the exact quotient `x * 2L / Q`, on the circle. -/
theorem C16_modSwitch (w L : ℕ) (hL0 : 0 < L) (hL : 2 * L ≤ 2 ^ 53) (x : BitVec w) :
    modSwitch w L x < 2 * L ∧
      ∃ q : ℤ, |((modSwitch w L x : ℤ) + 2 * L * q : ℚ) - x.toNat * (2 * L) / 2 ^ w| ≤ switchErr L := by
  refine ⟨Nat.mod_lt _ (by omega), ?_⟩
  unfold modSwitch
  rw [modSwitchConst_eq w L hL]
  set c : ℚ := (2 * L : ℕ) / 2 ^ w with hc
  have hw : (0:ℚ) < 2 ^ w := by positivity
  have hc0 : 0 ≤ c := by positivity
  have hx0 : (0:ℚ) ≤ x.toNat := by positivity
  have hxlt : (x.toNat : ℚ) ≤ 2 ^ w := by exact_mod_cast x.isLt.le
  have e1 := fl_err (x.toNat : ℚ)
  rw [abs_of_nonneg hx0] at e1
  have hfx := fl_nonneg hx0
  have hy0 : 0 ≤ c * fl x.toNat := mul_nonneg hc0 hfx
  have e2 := fl_err (c * fl x.toNat)
  rw [abs_of_nonneg hy0] at e2
  obtain ⟨e3, hr0⟩ := goRound_err (fl_nonneg hy0)
  set r := goRound (fl (c * fl x.toNat)) with hr
  refine ⟨r / (2 * L), ?_⟩
  have hrr : (((r.toNat % (2 * L) : ℕ) : ℤ) : ℤ) + 2 * L * (r / (2 * L)) = r := by
    push_cast
    rw [Int.toNat_of_nonneg hr0]
    exact Int.emod_add_mul_ediv r (2 * L)
  have hrr' : (((r.toNat % (2 * L) : ℕ) : ℤ) : ℚ) + 2 * L * ((r / (2 * L) : ℤ) : ℚ) = r := by
    exact_mod_cast congrArg (Int.cast : ℤ → ℚ) hrr
  rw [hrr']
  have hcx : (x.toNat : ℚ) * (2 * L) / 2 ^ w = c * x.toNat := by rw [hc]; push_cast; ring
  rw [hcx]
  have hcX : c * x.toNat ≤ 2 * L := by
    have : c * x.toNat ≤ c * 2 ^ w := mul_le_mul_of_nonneg_left hxlt hc0
    have e : c * 2 ^ w = 2 * L := by rw [hc]; push_cast; field_simp
    linarith
  have hcx0 : 0 ≤ c * x.toNat := mul_nonneg hc0 hx0
  have e1' : |c * fl x.toNat - c * x.toNat| ≤ c * x.toNat / 2 ^ 53 := by
    rw [← mul_sub, abs_mul, abs_of_nonneg hc0, mul_div_assoc]
    exact mul_le_mul_of_nonneg_left e1 hc0
  unfold switchErr
  rw [abs_le] at *
  constructor <;> linarith [e1'.1, e1'.2, e2.1, e2.2, e3.1, e3.2]

/-- **C16 (exact form).** For a power-of-two table and inputs the float format holds exactly (all of
them when `w ≤ 53`), the result is the nearest point, ties rounded up. -/
theorem C16_exact (w a : ℕ) (ha : a < 52) (x : BitVec w) (hx : x.toNat ≤ 2 ^ 53) :
    modSwitch w (2 ^ a) x = (2 * (2 * 2 ^ a * x.toNat) + 2 ^ w) / (2 * 2 ^ w) % (2 * 2 ^ a) := by
  unfold modSwitch
  have hL : 2 * 2 ^ a ≤ 2 ^ 53 := by
    rw [← pow_succ']; exact Nat.pow_le_pow_right (by norm_num) (by omega)
  rw [modSwitchConst_eq w _ hL, fl_nat _ hx]
  have e : ((2 * 2 ^ a : ℕ) : ℚ) / 2 ^ w * x.toNat = (x.toNat : ℤ) * 2 ^ ((a : ℤ) + 1 - w) := by
    rw [zpow_sub₀ (by norm_num), zpow_add₀ (by norm_num), zpow_natCast, zpow_natCast]
    push_cast; ring
  have hfl : fl (((2 * 2 ^ a : ℕ) : ℚ) / 2 ^ w * x.toNat) = ((2 * 2 ^ a : ℕ) : ℚ) / 2 ^ w * x.toNat := by
    rw [e]
    exact fl_exact _ _ (by rw [abs_of_nonneg (by positivity)]; exact_mod_cast hx)
  rw [hfl]
  have h0 : (0:ℚ) ≤ ((2 * 2 ^ a : ℕ) : ℚ) / 2 ^ w * x.toNat := by positivity
  have hg : goRound (((2 * 2 ^ a : ℕ) : ℚ) / 2 ^ w * x.toNat) =
      (((2 * (2 * 2 ^ a * x.toNat) + 2 ^ w) / (2 * 2 ^ w) : ℕ) : ℤ) := by
    have hq : ((2 * 2 ^ a : ℕ) : ℚ) / 2 ^ w * x.toNat + 1 / 2 =
        ((2 * (2 * 2 ^ a * x.toNat) + 2 ^ w : ℕ) : ℚ) / ((2 * 2 ^ w : ℕ) : ℚ) := by
      push_cast; field_simp
    unfold goRound
    rw [if_pos h0, hq]
    exact Rat.floor_natCast_div_natCast _ _
  rw [hg, Int.toNat_natCast]

/-- The exponent of the blind rotation: `b' + Σ a'_i s_i`, over a binary key given as a predicate. -/
def rotExp (w L n : ℕ) (key : ℕ → Bool) (ct : ℕ → BitVec w) : ℕ :=
  modSwitch w L (ct 0) + ∑ i ∈ Finset.range n, if key i then modSwitch w L (ct (i + 1)) else 0

/-- The phase of a ciphertext under a binary key. -/
def binPhase {w : ℕ} (n : ℕ) (key : ℕ → Bool) (ct : ℕ → BitVec w) : BitVec w :=
  ct 0 + ∑ i ∈ Finset.range n, if key i then ct (i + 1) else 0

/-- The Hamming weight of a binary key. -/
def weight (n : ℕ) (key : ℕ → Bool) : ℕ := ∑ i ∈ Finset.range n, if key i then 1 else 0

/-- **C16 (phase).** Switching a whole ciphertext moves the phase by at most one rounding error for
the body and one for every non-zero key bit. -/
theorem C16_phase (w L n : ℕ) (hL0 : 0 < L) (hL : 2 * L ≤ 2 ^ 53) (key : ℕ → Bool) (ct : ℕ → BitVec w) :
    ∃ q : ℤ, |((rotExp w L n key ct : ℤ) + 2 * L * q : ℚ) - (binPhase n key ct).toNat * (2 * L) / 2 ^ w|
      ≤ (1 + weight n key) * switchErr L := by
  have hw : (0:ℚ) < 2 ^ w := by positivity
  have hmul : ∀ z : ℤ, (2:ℚ) ^ w * z * (2 * L) / 2 ^ w = 2 * L * z := by
    intro z; field_simp
  induction n with
  | zero =>
    obtain ⟨_, q, h⟩ := C16_modSwitch w L hL0 hL (ct 0)
    refine ⟨q, ?_⟩
    simpa [rotExp, binPhase, weight] using h
  | succ n ih =>
    obtain ⟨q, ih⟩ := ih
    by_cases hk : key n
    · obtain ⟨_, q2, h2⟩ := C16_modSwitch w L hL0 hL (ct (n + 1))
      have e1 : rotExp w L (n + 1) key ct = rotExp w L n key ct + modSwitch w L (ct (n + 1)) := by
        simp [rotExp, Finset.sum_range_succ, hk, add_assoc]
      have e2 : binPhase (n + 1) key ct = binPhase n key ct + ct (n + 1) := by
        simp [binPhase, Finset.sum_range_succ, hk, add_assoc]
      have e3 : weight (n + 1) key = weight n key + 1 := by
        unfold weight; rw [Finset.sum_range_succ]; simp only [hk]; rfl
      obtain ⟨z, hz⟩ : ∃ z : ℤ, ((binPhase n key ct + ct (n + 1)).toNat : ℚ) =
          (binPhase n key ct).toNat + (ct (n + 1)).toNat - 2 ^ w * z := by
        refine ⟨((((binPhase n key ct).toNat + (ct (n + 1)).toNat) / 2 ^ w : ℕ) : ℤ), ?_⟩
        rw [BitVec.toNat_add]
        have := Nat.mod_add_div ((binPhase n key ct).toNat + (ct (n + 1)).toNat) (2 ^ w)
        have h' : ((((binPhase n key ct).toNat + (ct (n + 1)).toNat) % 2 ^ w : ℕ) : ℚ)
            + 2 ^ w * ((((binPhase n key ct).toNat + (ct (n + 1)).toNat) / 2 ^ w : ℕ) : ℚ)
            = (binPhase n key ct).toNat + (ct (n + 1)).toNat := by exact_mod_cast this
        rw [Int.cast_natCast]
        linarith
      refine ⟨q + q2 - z, ?_⟩
      rw [e1, e2, e3, hz]
      have hz' := hmul z
      have key2 : (((rotExp w L n key ct + modSwitch w L (ct (n + 1)) : ℕ) : ℤ) + 2 * L * ((q + q2 - z : ℤ) : ℚ) : ℚ)
          - ((binPhase n key ct).toNat + (ct (n + 1)).toNat - 2 ^ w * z) * (2 * L) / 2 ^ w
          = (((rotExp w L n key ct : ℤ) + 2 * L * q : ℚ) - (binPhase n key ct).toNat * (2 * L) / 2 ^ w)
          + (((modSwitch w L (ct (n + 1)) : ℤ) + 2 * L * q2 : ℚ) - (ct (n + 1)).toNat * (2 * L) / 2 ^ w) := by
        push_cast
        rw [show ((binPhase n key ct).toNat + (ct (n + 1)).toNat - 2 ^ w * (z:ℚ)) * (2 * L) / 2 ^ w
          = (binPhase n key ct).toNat * (2 * L) / 2 ^ w + (ct (n + 1)).toNat * (2 * L) / 2 ^ w
            - 2 ^ w * z * (2 * L) / 2 ^ w by ring, hz']
        ring
      rw [key2]
      refine (abs_add_le _ _).trans ((add_le_add ih h2).trans ?_)
      push_cast; apply le_of_eq; ring
    · refine ⟨q, ?_⟩
      have e1 : rotExp w L (n + 1) key ct = rotExp w L n key ct := by
        simp [rotExp, Finset.sum_range_succ, hk]
      have e2 : binPhase (n + 1) key ct = binPhase n key ct := by
        simp [binPhase, Finset.sum_range_succ, hk]
      have e3 : weight (n + 1) key = weight n key := by
        unfold weight; rw [Finset.sum_range_succ]; simp only [hk]; rfl
      rw [e1, e2, e3]; exact ih

/-- The largest word is switched to 0, half the circle to `L`. -/
example : modSwitch 64 1024 (BitVec.allOnes 64) = 0 ∧ modSwitch 64 1024 (2 ^ 63) = 1024 ∧
    modSwitch 32 (3 * 512) (2 ^ 31 + 2 ^ 20) = 1537 := by decide +kernel
end Tfhe
