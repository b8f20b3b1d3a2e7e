import Verif.Model.Published
import Mathlib.Data.Rat.Floor
import Mathlib.Tactic.Linarith
import Mathlib.Tactic.Positivity
import Mathlib.Tactic.FieldSimp
import Mathlib.Tactic.Ring

/-!
# The conversion of constants to `float64` is right up to `2^-53`
-/
namespace Tfhe.F64
open Tfhe

theorem ratLog2_spec (n d : ℕ) (hn : 0 < n) (hd : 0 < d) :
    (2 : ℚ) ^ ratLog2 n d ≤ (n : ℚ) / d ∧ (n : ℚ) / d < 2 ^ (ratLog2 n d + 1) := by
  have hd' : (0 : ℚ) < d := by exact_mod_cast hd
  have n1 : (2 : ℚ) ^ n.log2 ≤ n := by exact_mod_cast Nat.log2_self_le hn.ne'
  have n2 : (n : ℚ) < 2 ^ (n.log2 + 1) := by exact_mod_cast Nat.lt_log2_self
  have d1 : (2 : ℚ) ^ d.log2 ≤ d := by exact_mod_cast Nat.log2_self_le hd.ne'
  have d2 : (d : ℚ) < 2 ^ (d.log2 + 1) := by exact_mod_cast Nat.lt_log2_self
  have hup : (n : ℚ) / d < 2 ^ ((n.log2 : ℤ) - d.log2 + 1) := by
    rw [div_lt_iff₀ hd']
    calc (n : ℚ) < 2 ^ (n.log2 + 1) := n2
      _ = 2 ^ ((n.log2 : ℤ) - d.log2 + 1) * 2 ^ d.log2 := by
        rw [← zpow_natCast, ← zpow_natCast, ← zpow_add₀ (by norm_num)]; congr 1; push_cast; ring
      _ ≤ _ := mul_le_mul_of_nonneg_left d1 (by positivity)
  have hlo : 2 ^ ((n.log2 : ℤ) - d.log2 - 1) < (n : ℚ) / d := by
    rw [lt_div_iff₀ hd']
    calc (2 : ℚ) ^ ((n.log2 : ℤ) - d.log2 - 1) * d < 2 ^ ((n.log2 : ℤ) - d.log2 - 1) * 2 ^ (d.log2 + 1) :=
          mul_lt_mul_of_pos_left d2 (by positivity)
      _ = 2 ^ n.log2 := by
        rw [← zpow_natCast, ← zpow_natCast, ← zpow_add₀ (by norm_num)]; congr 1; push_cast; ring
      _ ≤ n := n1
  unfold ratLog2
  simp only
  generalize (n.log2 : ℤ) - d.log2 = e at *
  have key : ∀ b : Prop, [Decidable b] → (b ↔ (2 : ℚ) ^ e ≤ (n : ℚ) / d) →
      (2 : ℚ) ^ (if b then e else e - 1) ≤ (n : ℚ) / d ∧ (n : ℚ) / d < 2 ^ ((if b then e else e - 1) + 1) := by
    intro b _ hb
    split
    · next h => exact ⟨hb.mp h, hup⟩
    · next h => exact ⟨hlo.le, by rw [sub_add_cancel]; exact not_le.mp fun h' => h (hb.mpr h')⟩
  split
  · next he =>
    refine key _ ?_
    rw [le_div_iff₀ hd']
    obtain ⟨k, rfl⟩ := Int.eq_ofNat_of_zero_le he
    rw [zpow_natCast, Int.toNat_natCast, mul_comm]
    exact ⟨fun h => by exact_mod_cast h, fun h => by exact_mod_cast h⟩
  · next he =>
    refine key _ ?_
    rw [le_div_iff₀ hd']
    obtain ⟨k, hk⟩ := Int.eq_ofNat_of_zero_le (show 0 ≤ -e by omega)
    have : e = -(k : ℤ) := by omega
    subst this
    rw [neg_neg, zpow_neg, zpow_natCast, Int.toNat_natCast, inv_mul_le_iff₀ (by positivity), mul_comm]
    exact ⟨fun h => by exact_mod_cast h, fun h => by exact_mod_cast h⟩

theorem f64Round_spec (n d : ℕ) (hd : 0 < d) : |(f64Round n d : ℚ) - n / d| ≤ 1 / 2 := by
  have hd' : (0 : ℚ) < d := by exact_mod_cast hd
  have e : (n : ℚ) = d * (n / d : ℕ) + (n % d : ℕ) := by exact_mod_cast (Nat.div_add_mod n d).symm
  have hr : (n % d : ℕ) < d := Nat.mod_lt _ hd
  have hr' : ((n % d : ℕ) : ℚ) < d := by exact_mod_cast hr
  have hr0 : (0 : ℚ) ≤ (n % d : ℕ) := by positivity
  unfold f64Round
  simp only
  generalize n / d = q at *
  generalize n % d = r at *
  have h1 : (n : ℚ) / d = q + r / d := by rw [e]; field_simp
  rw [h1]
  have lo : 2 * r ≤ d → |(q : ℚ) - (q + r / d)| ≤ 1 / 2 := by
    intro h
    have h' : (2 : ℚ) * r ≤ d := by exact_mod_cast h
    rw [abs_le, show (q : ℚ) - (q + r / d) = -(r / d) by ring]
    have : (r : ℚ) / d ≤ 1 / 2 := by rw [div_le_iff₀ hd']; linarith
    have : 0 ≤ (r : ℚ) / d := by positivity
    constructor <;> linarith
  have hi : d ≤ 2 * r → |((q + 1 : ℕ) : ℚ) - (q + r / d)| ≤ 1 / 2 := by
    intro h
    have h' : (d : ℚ) ≤ 2 * r := by exact_mod_cast h
    rw [abs_le]
    push_cast
    have : 1 / 2 ≤ (r : ℚ) / d := by rw [le_div_iff₀ hd']; linarith
    have : (r : ℚ) / d ≤ 1 := by rw [div_le_iff₀ hd']; linarith
    constructor <;> linarith
  split
  · exact lo (by omega)
  · split
    · exact hi (by omega)
    · split
      · exact lo (by omega)
      · exact hi (by omega)

/-- The float of a constant in the normal range is right up to a half unit in the last place. -/
theorem f64_near (x : ℚ) (h1 : (2 : ℚ) ^ (-1022 : ℤ) ≤ x) (h2 : x < (2 : ℚ) ^ (1023 : ℤ)) :
    |f64Val (f64 x) - x| ≤ 2⁻¹ ^ 53 * x := by
  have hx : 0 < x := lt_of_lt_of_le (by positivity) h1
  have hnum : 0 < x.num := Rat.num_pos.mpr hx
  have hn : 0 < x.num.toNat := by omega
  have hxe : ((x.num.toNat : ℕ) : ℚ) / x.den = x := by
    have : ((x.num.toNat : ℕ) : ℚ) = (x.num : ℚ) := by exact_mod_cast Int.toNat_of_nonneg hnum.le
    rw [this, Rat.num_div_den]
  obtain ⟨l1, l2⟩ := ratLog2_spec x.num.toNat x.den hn x.den_pos
  rw [hxe] at l1 l2
  unfold f64
  simp only
  generalize ratLog2 x.num.toNat x.den = e at *
  have he1 : -1022 ≤ e := by
    have := (zpow_lt_zpow_iff_right₀ (by norm_num : (1 : ℚ) < 2)).mp (lt_of_le_of_lt h1 l2)
    omega
  have he2 : e < 1023 := (zpow_lt_zpow_iff_right₀ (by norm_num : (1 : ℚ) < 2)).mp (lt_of_le_of_lt l1 h2)
  -- the rounded fraction
  have hm : |(((if e ≤ 52 then f64Round (x.num.toNat * 2 ^ (52 - e).toNat) x.den
      else f64Round x.num.toNat (x.den * 2 ^ (e - 52).toNat) : ℕ)) : ℚ) - x * 2 ^ (52 - e)| ≤ 1 / 2 := by
    split
    · next h =>
      have := f64Round_spec (x.num.toNat * 2 ^ (52 - e).toNat) x.den x.den_pos
      obtain ⟨k, hk⟩ := Int.eq_ofNat_of_zero_le (show 0 ≤ 52 - e by omega)
      rw [hk, Int.toNat_natCast] at this ⊢
      rw [zpow_natCast]
      have e3 : (((x.num.toNat * 2 ^ k : ℕ)) : ℚ) / x.den = x * 2 ^ k := by
        push_cast
        rw [mul_div_right_comm, hxe]
      rwa [e3] at this
    · next h =>
      have := f64Round_spec x.num.toNat (x.den * 2 ^ (e - 52).toNat) (by have := x.den_pos; positivity)
      obtain ⟨k, hk⟩ := Int.eq_ofNat_of_zero_le (show 0 ≤ e - 52 by omega)
      have hk2 : (52 - e : ℤ) = -(k : ℤ) := by omega
      rw [hk, Int.toNat_natCast] at this
      rw [hk, Int.toNat_natCast, hk2, zpow_neg, zpow_natCast]
      have e3 : ((x.num.toNat : ℕ) : ℚ) / ((x.den * 2 ^ k : ℕ) : ℚ) = x * (2 ^ k)⁻¹ := by
        push_cast
        rw [← div_div, hxe, div_eq_mul_inv]
      rwa [e3] at this
  generalize (if e ≤ 52 then f64Round (x.num.toNat * 2 ^ (52 - e).toNat) x.den
      else f64Round x.num.toNat (x.den * 2 ^ (e - 52).toNat) : ℕ) = m at hm ⊢
  have hs : (2 : ℚ) ^ (52 : ℕ) ≤ x * 2 ^ (52 - e) ∧ x * 2 ^ (52 - e) < 2 ^ (53 : ℕ) := by
    constructor
    · calc (2 : ℚ) ^ (52 : ℕ) = 2 ^ e * 2 ^ (52 - e) := by
            rw [← zpow_natCast, ← zpow_add₀ (by norm_num)]; congr 1; push_cast; ring
        _ ≤ _ := mul_le_mul_of_nonneg_right l1 (by positivity)
    · calc x * 2 ^ (52 - e) < 2 ^ (e + 1) * 2 ^ (52 - e) := mul_lt_mul_of_pos_right l2 (by positivity)
        _ = _ := by rw [← zpow_natCast, ← zpow_add₀ (by norm_num)]; congr 1; push_cast; ring
  rw [abs_le] at hm
  have m1 : 2 ^ 52 ≤ m := by
    have : ((2 ^ 52 : ℕ) : ℚ) < m + 1 := by push_cast; linarith [hm.1, hs.1]
    have : 2 ^ 52 < m + 1 := by exact_mod_cast this
    omega
  have m2 : m ≤ 2 ^ 53 := by
    have : (m : ℚ) < ((2 ^ 53 + 1 : ℕ) : ℚ) := by push_cast; linarith [hm.2, hs.2]
    have : m < 2 ^ 53 + 1 := by exact_mod_cast this
    omega
  -- the value of the bits
  have hv : f64Val (BitVec.ofNat 64 ((e + 1022).toNat * 2 ^ 52 + m)) = m * 2 ^ (e - 52) := by
    obtain ⟨k, hk⟩ := Int.eq_ofNat_of_zero_le (show 0 ≤ e + 1022 by omega)
    have hk2 : k ≤ 2044 := by omega
    rw [hk, Int.toNat_natCast]
    have hlt : k * 2 ^ 52 + m < 2 ^ 63 := by
      have : k * 2 ^ 52 ≤ 2044 * 2 ^ 52 := Nat.mul_le_mul_right _ hk2
      omega
    have ht : (BitVec.ofNat 64 (k * 2 ^ 52 + m)).toNat = k * 2 ^ 52 + m := by
      rw [BitVec.toNat_ofNat, Nat.mod_eq_of_lt (by omega)]
    have hmsb : (BitVec.ofNat 64 (k * 2 ^ 52 + m)).msb = false := by
      rw [BitVec.msb_eq_decide, ht]
      simpa using hlt
    have hz : (2 : ℚ) ^ (e - 52) = 2 ^ k / 2 ^ 1074 := by
      have : e - 52 = (k : ℤ) - (1074 : ℕ) := by push_cast; omega
      rw [this, zpow_sub₀ (by norm_num), zpow_natCast, zpow_natCast]
    rw [hz]
    unfold f64Val
    generalize (2 : ℚ) ^ 1074 = c
    rw [hmsb, if_neg (by simp), one_mul]
    unfold f64Parts
    simp only [ht]
    by_cases hc : m = 2 ^ 53
    · have e1 : (k * 2 ^ 52 + m) / 2 ^ 52 % 2 ^ 11 = k + 2 := by rw [hc]; omega
      have e2 : (k * 2 ^ 52 + m) % 2 ^ 52 = 0 := by rw [hc]; omega
      rw [e1, e2, if_neg (by omega), hc]
      simp only [Nat.add_zero, show k + 2 - 1 = k + 1 by omega]
      push_cast
      ring
    · have e1 : (k * 2 ^ 52 + m) / 2 ^ 52 % 2 ^ 11 = k + 1 := by omega
      have e2 : (k * 2 ^ 52 + m) % 2 ^ 52 = m - 2 ^ 52 := by omega
      rw [e1, e2, if_neg (by omega)]
      simp only [Nat.add_sub_cancel]
      rw [Nat.add_sub_cancel' m1]
      ring
  rw [hv]
  have hp : (0 : ℚ) < 2 ^ (e - 52) := by positivity
  have hinv : (2 : ℚ) ^ (52 - e) * 2 ^ (e - 52) = 1 := by rw [← zpow_add₀ (by norm_num)]; simp
  have e4 : (m : ℚ) * 2 ^ (e - 52) - x = (m - x * 2 ^ (52 - e)) * 2 ^ (e - 52) := by rw [sub_mul, mul_assoc x, hinv, mul_one]
  rw [e4, abs_mul, abs_of_pos hp]
  have e5 : |(m : ℚ) - x * 2 ^ (52 - e)| ≤ 1 / 2 := abs_le.mpr hm
  have e6 : (2 : ℚ) ^ (e - 52) = 2 * 2⁻¹ ^ 53 * 2 ^ e := by
    rw [zpow_sub₀ (by norm_num)]
    have : (2 : ℚ) ^ (52 : ℤ) = 2 ^ 52 := by norm_cast
    rw [this, inv_pow]
    ring
  calc |(m : ℚ) - x * 2 ^ (52 - e)| * 2 ^ (e - 52) ≤ 1 / 2 * 2 ^ (e - 52) := mul_le_mul_of_nonneg_right e5 hp.le
    _ = 2⁻¹ ^ 53 * 2 ^ e := by rw [e6]; ring
    _ ≤ 2⁻¹ ^ 53 * x := mul_le_mul_of_nonneg_left l1 (by positivity)
end Tfhe.F64
