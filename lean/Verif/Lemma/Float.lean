import Verif.Model.Float
import Mathlib.Tactic.Linarith
import Mathlib.Tactic.Ring
import Mathlib.Tactic.Positivity
import Mathlib.Tactic.FieldSimp
import Mathlib.Algebra.Order.Field.Power
import Mathlib.Algebra.Order.AbsoluteValue.Basic

/-!
# Error bounds for the float model
-/
namespace Tfhe

theorem roundEven_err (x : ℚ) : |(roundEven x : ℚ) - x| ≤ 1 / 2 := by
  have h1 := Int.floor_le x
  have h2 := Int.lt_floor_add_one x
  unfold roundEven
  rw [abs_le]
  split
  · constructor <;> linarith
  · split
    · push_cast; constructor <;> linarith
    · split
      · constructor <;> linarith
      · push_cast; constructor <;> linarith

theorem roundEven_int (n : ℤ) : roundEven (n : ℚ) = n := by
  unfold roundEven
  rw [Int.floor_intCast]
  norm_num

/-- What IEEE 754 prescribes: a nearest integer, and the even one when there are two.  This determines
`roundEven` (`roundEven_unique`). -/
theorem roundEven_spec (x : ℚ) :
    |x - roundEven x| ≤ 1 / 2 ∧ (|x - roundEven x| = 1 / 2 → roundEven x % 2 = 0) := by
  have h0 := Int.floor_le x
  have h1 := Int.lt_floor_add_one x
  unfold roundEven
  split_ifs with h2 h3 h4
  · rw [abs_of_nonneg (by linarith)]
    exact ⟨by linarith, fun h => by linarith⟩
  · push_cast
    rw [abs_of_nonpos (by linarith)]
    exact ⟨by linarith, fun h => by linarith⟩
  · rw [abs_of_nonneg (by linarith)]
    exact ⟨by linarith, fun _ => h4⟩
  · push_cast
    rw [abs_of_nonpos (by linarith)]
    exact ⟨by linarith, fun _ => by omega⟩

theorem roundEven_unique (x : ℚ) (n : ℤ) (h : |x - n| ≤ 1 / 2) (h' : |x - n| = 1 / 2 → n % 2 = 0) :
    n = roundEven x := by
  obtain ⟨g, g'⟩ := roundEven_spec x
  rw [abs_le] at h g
  have b1 : ((n - roundEven x : ℤ) : ℚ) ≤ 1 := by push_cast; linarith
  have b2 : (-1 : ℚ) ≤ ((n - roundEven x : ℤ) : ℚ) := by push_cast; linarith
  have b1 : n - roundEven x ≤ 1 := by exact_mod_cast b1
  have b2 : -1 ≤ n - roundEven x := by exact_mod_cast b2
  by_contra hne
  rcases (by omega : n = roundEven x + 1 ∨ n = roundEven x - 1) with e | e
  · have ec : (n : ℚ) = roundEven x + 1 := by exact_mod_cast e
    have e1 : x - n = -(1 / 2) := by linarith
    have e2 : x - roundEven x = 1 / 2 := by linarith
    have := h' (by rw [e1]; norm_num)
    have := g' (by rw [e2]; norm_num)
    omega
  · have ec : (n : ℚ) = roundEven x - 1 := by exact_mod_cast e
    have e1 : x - n = 1 / 2 := by linarith
    have e2 : x - roundEven x = -(1 / 2) := by linarith
    have := h' (by rw [e1]; norm_num)
    have := g' (by rw [e2]; norm_num)
    omega

theorem roundEven_mono {x y : ℚ} (h : x ≤ y) : roundEven x ≤ roundEven y := by
  have hf := Int.floor_le_floor h
  have h1 := Int.floor_le x
  have h2 := Int.lt_floor_add_one x
  have h3 := Int.floor_le y
  have h4 := Int.lt_floor_add_one y
  rcases lt_or_eq_of_le hf with hlt | heq
  · have a : roundEven x ≤ ⌊x⌋ + 1 := by
      unfold roundEven; split
      · omega
      · split
        · omega
        · split <;> omega
    have b : ⌊y⌋ ≤ roundEven y := by
      unfold roundEven; split
      · omega
      · split
        · omega
        · split <;> omega
    omega
  · unfold roundEven
    rw [← heq]
    split
    · split
      · omega
      · split
        · omega
        · split <;> omega
    · rename_i g1
      split
      · rename_i g2
        rw [if_neg (by linarith), if_pos (by linarith)]
      · rename_i g2
        split
        · rw [if_neg (by linarith)]
          split
          · omega
          · exact le_rfl
        · rw [if_neg (by linarith)]
          split
          · omega
          · exact le_rfl

theorem fl_zero : fl 0 = 0 := by simp [fl]

theorem zpow_split (q : ℚ) (hq : q ≠ 0) : (2:ℚ) ^ (Int.log 2 |q|) ≤ |q| ∧ |q| < 2 ^ (Int.log 2 |q| + 1) := by
  have hpos : 0 < |q| := abs_pos.2 hq
  constructor
  · have := Int.zpow_log_le_self (b := 2) (r := |q|) (by norm_num) hpos
    exact_mod_cast this
  · have := Int.lt_zpow_succ_log_self (b := 2) (by norm_num) (r := |q|)
    exact_mod_cast this

/-- Relative error of rounding. -/
theorem fl_err (q : ℚ) : |fl q - q| ≤ |q| / 2 ^ 53 := by
  by_cases hq : q = 0
  · simp [hq, fl_zero]
  have hb := (zpow_split q hq).1
  have hz : (0:ℚ) < 2 ^ ulpExp q := by positivity
  have e1 : fl q - q = ((roundEven (q / 2 ^ ulpExp q) : ℚ) - q / 2 ^ ulpExp q) * 2 ^ ulpExp q := by
    unfold fl; rw [if_neg hq]; field_simp
  rw [e1, abs_mul, abs_of_pos hz]
  have h := roundEven_err (q / 2 ^ ulpExp q)
  have e2 : (2:ℚ) ^ ulpExp q = 2 ^ (Int.log 2 |q|) / 2 ^ 52 := by
    unfold ulpExp; rw [zpow_sub₀ (by norm_num)]; norm_num
  calc _ ≤ 1 / 2 * (2:ℚ) ^ ulpExp q := by
        apply mul_le_mul_of_nonneg_right h hz.le
    _ = 2 ^ (Int.log 2 |q|) / 2 ^ 53 := by rw [e2]; ring
    _ ≤ |q| / 2 ^ 53 := by
        apply div_le_div_of_nonneg_right hb; norm_num

/-- Values with at most 53 significant bits are exact. -/
theorem fl_exact (m k : ℤ) (hm : |m| ≤ 2 ^ 53) : fl ((m : ℚ) * 2 ^ k) = m * 2 ^ k := by
  have key : ∀ m k : ℤ, |m| < 2 ^ 53 → fl ((m : ℚ) * 2 ^ k) = m * 2 ^ k := by
    intro m k hm
    by_cases h0 : m = 0
    · simp [h0, fl_zero]
    have hq : (m : ℚ) * 2 ^ k ≠ 0 := by
      apply mul_ne_zero
      · exact_mod_cast h0
      · positivity
    set q := (m : ℚ) * 2 ^ k with hqd
    have hb := (zpow_split q hq).1
    have hle : |q| < 2 ^ (53 + k) := by
      rw [hqd, abs_mul, abs_of_pos (show (0:ℚ) < 2 ^ k by positivity), zpow_add₀ (by norm_num)]
      apply mul_lt_mul_of_pos_right _ (by positivity)
      have : ((|m| : ℤ) : ℚ) < ((2 ^ 53 : ℤ) : ℚ) := by exact_mod_cast hm
      rw [Int.cast_abs] at this
      exact_mod_cast this
    have hlt : Int.log 2 |q| < 53 + k := by
      have := lt_of_le_of_lt hb hle
      exact (zpow_lt_zpow_iff_right₀ (by norm_num)).1 this
    have hek : ulpExp q ≤ k := by unfold ulpExp; omega
    obtain ⟨t, ht⟩ : ∃ t : ℕ, k = ulpExp q + t := ⟨(k - ulpExp q).toNat, by omega⟩
    have hdiv : q / 2 ^ ulpExp q = ((m * 2 ^ t : ℤ) : ℚ) := by
      have hne : (2:ℚ) ^ ulpExp q ≠ 0 := by positivity
      have e : q = m * (2 ^ ulpExp q * 2 ^ (t : ℤ)) := by
        rw [← zpow_add₀ (by norm_num), ← ht]
      rw [div_eq_iff hne]
      calc q = m * (2 ^ ulpExp q * 2 ^ (t : ℤ)) := e
        _ = _ := by push_cast; rw [zpow_natCast]; ring
    unfold fl
    rw [if_neg hq, hdiv, roundEven_int, ← hdiv]
    have : (2:ℚ) ^ ulpExp q ≠ 0 := by positivity
    field_simp
  rcases lt_or_eq_of_le hm with h | h
  · exact key m k h
  · have hpow : (2:ℚ) ^ (53 + k) = 2 ^ 53 * 2 ^ k := by rw [zpow_add₀ (by norm_num)]; norm_num
    rcases abs_choice m with h2 | h2
    · have := key 1 (53 + k) (by norm_num)
      rw [h2] at h
      rw [h]; push_cast at *
      rw [one_mul, hpow] at this
      exact this
    · have := key (-1) (53 + k) (by norm_num)
      rw [h2] at h
      have h : m = -(2 ^ 53) := by omega
      have e : (m : ℚ) * 2 ^ k = ((-1 : ℤ) : ℚ) * 2 ^ (53 + k) := by
        rw [h, hpow]; push_cast; ring
      rw [e]; exact this

theorem fl_int (m : ℤ) (hm : |m| ≤ 2 ^ 53) : fl (m : ℚ) = m := by
  have := fl_exact m 0 hm
  simpa using this

theorem fl_nat (m : ℕ) (hm : m ≤ 2 ^ 53) : fl (m : ℚ) = m := by
  have := fl_int (m : ℤ) (by rw [abs_of_nonneg (by positivity)]; exact_mod_cast hm)
  exact_mod_cast this

theorem fl_two_zpow (k : ℤ) : fl ((2 : ℚ) ^ k) = 2 ^ k := by
  have := fl_exact 1 k (by norm_num)
  simpa using this

theorem fl_nonneg {q : ℚ} (h : 0 ≤ q) : 0 ≤ fl q := by
  have := fl_err q
  rw [abs_of_nonneg h, abs_le] at this
  have : q / 2 ^ 53 ≤ q := by
    apply div_le_self h; norm_num
  linarith

/-- Rounding is monotone (non-negative arguments). -/
theorem fl_mono {q r : ℚ} (h0 : 0 ≤ q) (h : q ≤ r) : fl q ≤ fl r := by
  rcases eq_or_lt_of_le h0 with hq | hq
  · rw [← hq, fl_zero]; exact fl_nonneg (le_trans h0 h)
  have hr : 0 < r := lt_of_lt_of_le hq h
  have hlog : Int.log 2 |q| ≤ Int.log 2 |r| := by
    rw [abs_of_pos hq, abs_of_pos hr]
    exact Int.log_mono_right hq h
  rcases eq_or_lt_of_le hlog with he | hlt
  · have he' : ulpExp q = ulpExp r := by unfold ulpExp; omega
    unfold fl
    rw [if_neg hq.ne', if_neg hr.ne', he']
    apply mul_le_mul_of_nonneg_right _ (by positivity)
    have : roundEven (q / 2 ^ ulpExp r) ≤ roundEven (r / 2 ^ ulpExp r) := by
      apply roundEven_mono
      apply div_le_div_of_nonneg_right h (by positivity)
    exact_mod_cast this
  · have hq2 := (zpow_split q hq.ne').2
    have hr2 := (zpow_split r hr.ne').1
    rw [abs_of_pos hq] at hq2
    rw [abs_of_pos hr] at hr2
    have a : fl q ≤ 2 ^ (Int.log 2 |q| + 1) := by
      unfold fl; rw [if_neg hq.ne']
      have e : (2:ℚ) ^ (Int.log 2 |q| + 1) = ((2 ^ 53 : ℤ) : ℚ) * 2 ^ ulpExp q := by
        unfold ulpExp
        rw [show (((2:ℤ) ^ 53 : ℤ) : ℚ) = 2 ^ (53 : ℤ) by norm_num, ← zpow_add₀ (by norm_num)]
        congr 1; ring
      rw [e]
      apply mul_le_mul_of_nonneg_right _ (by positivity)
      have : roundEven (q / 2 ^ ulpExp q) ≤ roundEven (((2 ^ 53 : ℤ) : ℚ)) := by
        apply roundEven_mono
        rw [div_le_iff₀ (by positivity), ← e, abs_of_pos hq]
        exact hq2.le
      rw [roundEven_int] at this
      exact_mod_cast this
    have b : (2:ℚ) ^ (Int.log 2 |r|) ≤ fl r := by
      unfold fl; rw [if_neg hr.ne']
      have e : (2:ℚ) ^ (Int.log 2 |r|) = ((2 ^ 52 : ℤ) : ℚ) * 2 ^ ulpExp r := by
        unfold ulpExp
        rw [show (((2:ℤ) ^ 52 : ℤ) : ℚ) = 2 ^ (52 : ℤ) by norm_num, ← zpow_add₀ (by norm_num)]
        congr 1; ring
      rw [e]
      apply mul_le_mul_of_nonneg_right _ (by positivity)
      have : roundEven (((2 ^ 52 : ℤ) : ℚ)) ≤ roundEven (r / 2 ^ ulpExp r) := by
        apply roundEven_mono
        rw [le_div_iff₀ (by positivity), ← e, abs_of_pos hr]
        exact hr2
      rw [roundEven_int] at this
      exact_mod_cast this
    calc fl q ≤ 2 ^ (Int.log 2 |q| + 1) := a
      _ ≤ 2 ^ (Int.log 2 |r|) := zpow_le_zpow_right₀ (by norm_num) (by omega)
      _ ≤ fl r := b

/-- `math.Round` returns `m` exactly on `[m - 1/2, m + 1/2)` for `x ≥ 0`. -/
theorem goRound_eq {x : ℚ} {m : ℤ} (h0 : 0 ≤ x) (h1 : (m : ℚ) - 1 / 2 ≤ x) (h2 : x < m + 1 / 2) :
    goRound x = m := by
  unfold goRound
  rw [if_pos h0, Int.floor_eq_iff]
  constructor <;> linarith

/-- Relative error of `fl x / fl y` rounded, for positive arguments: less than `2^-51`. -/
theorem fl_div_err {x y : ℚ} (hx : 0 ≤ x) (hy : 0 < y) :
    |fl (fl x / fl y) - x / y| ≤ x / y / 2 ^ 51 := by
  have ex := fl_err x
  have ey := fl_err y
  rw [abs_of_nonneg hx, abs_le] at ex
  rw [abs_of_pos hy, abs_le] at ey
  set u : ℚ := 1 / 2 ^ 53 with hu
  have hx' : x / 2 ^ 53 = x * u := by rw [hu]; ring
  have hy' : y / 2 ^ 53 = y * u := by rw [hu]; ring
  rw [hx'] at ex
  rw [hy'] at ey
  have hup : 0 < u := by rw [hu]; norm_num
  have hyy : 0 < fl y := by nlinarith [show u < 1 by rw [hu]; norm_num]
  have hxx : 0 ≤ fl x := fl_nonneg hx
  have eq := fl_err (fl x / fl y)
  have hq0 : 0 ≤ fl x / fl y := div_nonneg hxx hyy.le
  rw [abs_of_nonneg hq0] at eq
  have hq' : fl x / fl y / 2 ^ 53 = fl x / fl y * u := by rw [hu]; ring
  rw [hq', abs_le] at eq
  -- bounds on the quotient
  have hub : fl x / fl y ≤ x / y * ((1 + u) / (1 - u)) := by
    rw [div_mul_div_comm]
    apply div_le_div₀
    · exact mul_nonneg hx (by linarith)
    · linarith
    · apply mul_pos hy; rw [hu]; norm_num
    · linarith
  have hlb : x / y * ((1 - u) / (1 + u)) ≤ fl x / fl y := by
    rw [div_mul_div_comm]
    apply div_le_div₀ hxx
    · linarith
    · exact hyy
    · linarith
  have hz : 0 ≤ x / y := div_nonneg hx hy.le
  set z := x / y
  set q := fl x / fl y
  have c1 : (1 + u) * ((1 + u) / (1 - u)) ≤ 1 + 1 / 2 ^ 51 := by rw [hu]; norm_num
  have c2 : 1 - 1 / 2 ^ 51 ≤ (1 - u) * ((1 - u) / (1 + u)) := by rw [hu]; norm_num
  rw [abs_le]
  constructor
  · have h1 : (1 - u) * (z * ((1 - u) / (1 + u))) ≤ (1 - u) * q :=
      mul_le_mul_of_nonneg_left hlb (by rw [hu]; norm_num)
    have h2 := mul_le_mul_of_nonneg_left c2 hz
    have h3 : z - z / 2 ^ 51 ≤ fl q := calc
      z - z / 2 ^ 51 = z * (1 - 1 / 2 ^ 51) := by ring
      _ ≤ _ := h2
      _ = (1 - u) * (z * ((1 - u) / (1 + u))) := by ring
      _ ≤ _ := h1
      _ = q - q * u := by ring
      _ ≤ fl q := by linarith [eq.1]
    linarith
  · have h1 : (1 + u) * q ≤ (1 + u) * (z * ((1 + u) / (1 - u))) :=
      mul_le_mul_of_nonneg_left hub (by linarith)
    have h2 := mul_le_mul_of_nonneg_left c1 hz
    have h3 : fl q ≤ z + z / 2 ^ 51 := calc
      fl q ≤ q + q * u := by linarith [eq.2]
      _ = (1 + u) * q := by ring
      _ ≤ _ := h1
      _ = z * ((1 + u) * ((1 + u) / (1 - u))) := by ring
      _ ≤ _ := h2
      _ = z + z / 2 ^ 51 := by ring
    linarith

end Tfhe
