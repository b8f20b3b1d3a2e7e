import Verif.Props.C52

/-!
# C53: discrete Gaussian samples lie around their center

`NewCDTSampler(center, stdDev)` is documented to sample around `center`, cut at `GaussianTailCut` standard deviations.  The
constructor takes the range of the table around `center` but the weights around its fractional part, and adds the integral
part again in `offset`.  So the range is right only for centers between -1 and 1 (the ones that the library uses).
-/
namespace Tfhe
open Cdt

/-! ### Specification -/

/-- `y` is within the tail cut of the center, up to `slack`. -/
def NearCenter (center stdDev slack y : ℚ) : Prop := |y - center| ≤ 12 * stdDev + slack

/-! ### Theorems -/

/-- **The range.**  Every outcome lies between `tailLo + ⌊center⌋` and `tailHi + 1 + ⌊center⌋` (for `tailLo ≤ tailHi`). -/
theorem C53_range (rnd : ℚ → ℚ) (rho : ℚ → ℚ → ℚ → ℚ) (hrho : ∀ x c s, 0 ≤ rho x c s) (center stdDev : ℚ)
    (r : BitVec 64) :
    tailLo rnd center stdDev + ⌊center⌋ ≤ sampleInt (new rnd rho center stdDev).table (new rnd rho center stdDev).offset r ∧
      sampleInt (new rnd rho center stdDev).table (new rnd rho center stdDev).offset r
        ≤ max (tailHi rnd center stdDev + 1) (tailLo rnd center stdDev) + ⌊center⌋ := by
  obtain ⟨h1, -, h3⟩ := C52_range _ (C52_table rnd rho hrho center stdDev) (new rnd rho center stdDev).offset r r le_rfl
  have hl : (new rnd rho center stdDev).table.length
      = (tailHi rnd center stdDev - tailLo rnd center stdDev + 1).toNat := by
    unfold new
    simp [fillTable_length]
  have ho : (new rnd rho center stdDev).offset = tailLo rnd center stdDev + ⌊center⌋ := rfl
  rw [hl] at h3
  rw [ho] at h1 h3 ⊢
  refine ⟨h1, h3.trans ?_⟩
  rcases le_total (tailHi rnd center stdDev + 1) (tailLo rnd center stdDev) with h | h
  · rw [max_eq_right h]; omega
  · rw [max_eq_left h]; omega

/-- **The property fails.**  With center 100 and standard deviation 1, no raw word and no choice of weights gives a value within
the tail cut of the center: all values are at least 188. -/
theorem C53_far_center (rnd : ℚ → ℚ) (hrnd : rnd 12 = 12) (rho : ℚ → ℚ → ℚ → ℚ) (hrho : ∀ x c s, 0 ≤ rho x c s) (r : BitVec 64) :
    188 ≤ sampleInt (new rnd rho 100 1).table (new rnd rho 100 1).offset r ∧
      ¬ NearCenter 100 1 70 (sampleInt (new rnd rho 100 1).table (new rnd rho 100 1).offset r) := by
  have h1 : tailLo rnd 100 1 = 88 := by
    have := fl_int 88 (by norm_num)
    unfold tailLo
    rw [mul_one, hrnd]
    norm_num at this ⊢
    rw [this]; norm_num
  have h3 := (C53_range rnd rho hrho 100 1 r).1
  have h4 : ⌊(100 : ℚ)⌋ = 100 := by norm_num
  rw [h1, h4] at h3
  refine ⟨by omega, ?_⟩
  unfold NearCenter
  rw [abs_le, not_and, not_le]
  intro _
  have : (188 : ℚ) ≤ (sampleInt (new rnd rho 100 1).table (new rnd rho 100 1).offset r : ℚ) := by exact_mod_cast h3
  linarith

/-- **The range for the centers in use.**  For `-1 ≤ center < 1` every outcome is within the tail cut of the center, up to 4 and the
rounding of the bounds.  `rnd` is the rounding of `12 * stdDev`: `fl`, or the identity. -/
theorem C53_near_partial (rnd : ℚ → ℚ) (hrnd : ∀ q, |rnd q - q| ≤ |q| / 2 ^ 53) (rho : ℚ → ℚ → ℚ → ℚ)
    (hrho : ∀ x c s, 0 ≤ rho x c s) (center stdDev : ℚ) (hc1 : -1 ≤ center) (hc2 : center < 1) (hs : 0 ≤ stdDev)
    (r : BitVec 64) :
    NearCenter center stdDev (4 + (12 * stdDev + 2) / 2 ^ 50)
      (sampleInt (new rnd rho center stdDev).table (new rnd rho center stdDev).offset r) := by
  have e0 := hrnd (12 * stdDev)
  have hs12 : 0 ≤ 12 * stdDev := by linarith
  rw [abs_of_nonneg hs12] at e0
  set W := rnd (12 * stdDev)
  set S := 12 * stdDev
  have hW : |W| ≤ 2 * S := by
    have : S / 2 ^ 53 ≤ S := div_le_self hs12 (by norm_num)
    rw [abs_le] at e0 ⊢
    constructor <;> linarith
  have hac : |center| ≤ 1 := abs_le.2 ⟨hc1, hc2.le⟩
  have e1 := fl_err (center - W)
  have e2 := fl_err (center + W)
  have b1 : |center - W| ≤ 1 + 2 * S := (abs_sub _ _).trans (by linarith)
  have b2 : |center + W| ≤ 1 + 2 * S := (abs_add_le _ _).trans (by linarith)
  have e1 : |fl (center - W) - (center - W)| ≤ (1 + 2 * S) / 2 ^ 53 := e1.trans (by gcongr)
  have e2 : |fl (center + W) - (center + W)| ≤ (1 + 2 * S) / 2 ^ 53 := e2.trans (by gcongr)
  rw [abs_le] at e0 e1 e2
  have k1 : (1 + 2 * S) / 2 ^ 53 + S / 2 ^ 53 ≤ (S + 2) / 2 ^ 50 := by
    rw [← add_div, div_le_div_iff₀ (by norm_num) (by norm_num)]
    linarith
  have k2 : (S + 2) / 2 ^ 50 = (S + 2) * (1 / 2 ^ 50) := by ring
  have f1 := Int.lt_floor_add_one (fl (center - W))
  have f1' := Int.floor_le (fl (center - W))
  have f2 := Int.ceil_lt_add_one (fl (center + W))
  have f2' := Int.le_ceil (fl (center + W))
  have l1 : tailLo rnd center stdDev = ⌊fl (center - W)⌋ := rfl
  have l2 : tailHi rnd center stdDev = ⌈fl (center + W)⌉ := rfl
  have g1 := Int.lt_floor_add_one center
  have g2 := Int.floor_le center
  have c1 : -1 ≤ ⌊center⌋ := Int.le_floor.2 (by push_cast; exact hc1)
  have c2 : ⌊center⌋ ≤ 0 := by
    have : ⌊center⌋ < 1 := Int.floor_lt.2 (by push_cast; exact hc2)
    omega
  have c1' : (-1 : ℚ) ≤ ⌊center⌋ := by exact_mod_cast c1
  have c2' : (⌊center⌋ : ℚ) ≤ 0 := by exact_mod_cast c2
  obtain ⟨h1, h2⟩ := C53_range rnd rho hrho center stdDev r
  set y := sampleInt (new rnd rho center stdDev).table (new rnd rho center stdDev).offset r
  have h1' : (tailLo rnd center stdDev : ℚ) + ⌊center⌋ ≤ y := by exact_mod_cast h1
  rw [l1] at h1'
  unfold NearCenter
  rw [abs_le]
  refine ⟨by linarith, ?_⟩
  rcases le_total (tailHi rnd center stdDev + 1) (tailLo rnd center stdDev) with h | h
  · rw [max_eq_right h] at h2
    have h2' : (y : ℚ) ≤ tailLo rnd center stdDev + ⌊center⌋ := by exact_mod_cast h2
    rw [l1] at h2'
    linarith
  · rw [max_eq_left h] at h2
    have h2' : (y : ℚ) ≤ tailHi rnd center stdDev + 1 + ⌊center⌋ := by exact_mod_cast h2
    rw [l2] at h2'
    linarith

/-- The center `-1/8` used for the second linear evaluation sampler with message modulus 4. -/
example : (-1 : ℚ) ≤ -1 / 8 ∧ (-1 / 8 : ℚ) < 1 := by norm_num

end Tfhe
