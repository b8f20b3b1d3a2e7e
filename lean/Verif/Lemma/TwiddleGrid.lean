import Mathlib.Analysis.SpecialFunctions.Trigonometric.Bounds
import Verif.Lemma.FpuReal
import Verif.Lemma.ProdNear

/-!
# The twiddle factors are not small, so that they are multiples of a power of two
-/
namespace Tfhe
open Fft Asm

theorem abs_sin_odd {n : ℤ} (hn : n % 2 = 1) {m : ℕ} (hm : 1 ≤ m) : 2 / 2 ^ m ≤ |Real.sin (Real.pi * n / 2 ^ m)| := by
  obtain ⟨k, rfl⟩ : ∃ k, m = k + 1 := ⟨m - 1, by omega⟩
  set K : ℤ := 2 ^ k with hK
  have hK0 : 0 < K := by positivity
  have hd := Int.emod_add_mul_ediv (n + K) (2 * K)
  have h0 := Int.emod_nonneg (n + K) (show 2 * K ≠ 0 by omega)
  have h1 := Int.emod_lt_of_pos (n + K) (show 0 < 2 * K by omega)
  set q := (n + K) / (2 * K) with hq
  set r := (n + K) % (2 * K) - K with hr
  have e : n = r + 2 * (K * q) := by rw [hr]; linarith
  have hodd : r % 2 = 1 := by omega
  have hr1 : 1 ≤ |r| := by rcases abs_cases r with ⟨h, _⟩ | ⟨h, _⟩ <;> omega
  have hr2 : |r| ≤ K := by rcases abs_cases r with ⟨h, _⟩ | ⟨h, _⟩ <;> omega
  have hKr : (K : ℝ) = 2 ^ k := by rw [hK]; push_cast; rfl
  have hp : (0 : ℝ) < 2 ^ k := by positivity
  have ex : Real.pi * n / 2 ^ (k + 1) = Real.pi * r / 2 ^ (k + 1) + q * Real.pi := by
    rw [e]; push_cast; rw [hKr, pow_succ]; field_simp
  rw [ex, Real.sin_add_int_mul_pi, abs_mul, abs_zpow, abs_neg, abs_one, one_zpow, one_mul]
  have hr1' : (1 : ℝ) ≤ |(r : ℝ)| := by exact_mod_cast hr1
  have hr2' : |(r : ℝ)| ≤ 2 ^ k := by rw [← hKr]; exact_mod_cast hr2
  have ha : |Real.pi * r / 2 ^ (k + 1)| = Real.pi * |(r : ℝ)| / 2 ^ (k + 1) := by
    rw [abs_div, abs_mul, abs_of_pos Real.pi_pos, abs_of_pos (show (0 : ℝ) < 2 ^ (k + 1) by positivity)]
  have := Real.mul_abs_le_abs_sin (x := Real.pi * r / 2 ^ (k + 1)) (by
    rw [ha, pow_succ, div_le_div_iff₀ (by positivity) (by norm_num)]
    have := mul_le_mul_of_nonneg_left hr2' Real.pi_pos.le
    linarith)
  refine le_trans ?_ this
  rw [ha]
  have e2 : 2 / Real.pi * (Real.pi * |(r : ℝ)| / 2 ^ (k + 1)) = 2 * |(r : ℝ)| / 2 ^ (k + 1) := by field_simp
  rw [e2]
  exact div_le_div_of_nonneg_right (by linarith) (by positivity)

theorem WW_comp (s i : ℕ) : 2 / 2 ^ (s + 2) ≤ |(WW s i).re| ∧ 2 / 2 ^ (s + 2) ≤ |(WW s i).im| := by
  set r : ℤ := ((bitRev s i : ℕ) : ℤ)
  have h : WW s i = Complex.exp (((Real.pi * ((1 - 4 * r : ℤ) : ℝ) / 2 ^ (s + 2) : ℝ) : ℂ) * Complex.I) := by
    unfold WW ex
    congr 1
    push_cast
    rw [pow_add]
    have : ((r : ℤ) : ℂ) = (bitRev s i : ℂ) := by simp only [r]; push_cast; rfl
    rw [this]; field_simp; ring
  rw [h, Complex.exp_ofReal_mul_I_re, Complex.exp_ofReal_mul_I_im]
  constructor
  · have e : Real.cos (Real.pi * ((1 - 4 * r : ℤ) : ℝ) / 2 ^ (s + 2)) =
        Real.sin (Real.pi * ((1 - 4 * r + 2 * 2 ^ s : ℤ) : ℝ) / 2 ^ (s + 2)) := by
      rw [← Real.sin_add_pi_div_two]; congr 1; push_cast; rw [pow_add]; field_simp
    rw [e]; exact abs_sin_odd (by omega) (by omega)
  · exact abs_sin_odd (by omega) (by omega)

/-- A float that is not small is on a grid. -/
theorem dy_of_float {x : ℝ} (h : IsFloat x) {s : ℕ} (h1 : 1 / 2 ^ (s + 2) ≤ |x|) (h2 : |x| ≤ 2) : Dy 1 (s + 55) x := by
  obtain ⟨m, j, hm, rfl⟩ := h
  refine ⟨by rw [zpow_one]; exact h2, ?_⟩
  have hj : -(s + 55 : ℤ) ≤ j := by
    by_contra hc
    have hm' : |(m : ℝ)| ≤ 2 ^ 53 := by exact_mod_cast hm
    have h3 : (2 : ℝ) ^ j ≤ 2 ^ (-(s + 56 : ℤ)) := zpow_le_zpow_right₀ (by norm_num) (by omega)
    rw [abs_mul, abs_of_pos (show (0 : ℝ) < 2 ^ j by positivity)] at h1
    have h4 : |(m : ℝ)| * 2 ^ j ≤ 2 ^ 53 * 2 ^ (-(s + 56 : ℤ)) := mul_le_mul hm' h3 (by positivity) (by positivity)
    have e : (2 : ℝ) ^ 53 * 2 ^ (-(s + 56 : ℤ)) = 1 / 2 ^ (s + 2) / 2 := by
      rw [zpow_neg, show (s + 56 : ℤ) = ((s + 56 : ℕ) : ℤ) by push_cast; rfl, zpow_natCast, pow_add, pow_add]
      field_simp; try norm_num
    have : (0 : ℝ) < 1 / 2 ^ (s + 2) := by positivity
    linarith
  refine ⟨m * 2 ^ (j + (s + 55)).toNat, ?_⟩
  have e : ((2 ^ (j + (s + 55)).toNat : ℤ) : ℝ) = 2 ^ (j + (s + 55)) := by
    push_cast; rw [← zpow_natCast, Int.toNat_of_nonneg (by omega)]
  rw [Int.cast_mul, e, mul_assoc, ← zpow_add₀ (by norm_num)]; congr 2; ring

theorem comp_grid {x y : ℝ} {s : ℕ} (hs : s ≤ 24) (h : IsFloat x) (hd : |x - y| ≤ 40 * 2⁻¹ ^ 53) (hy : 2 / 2 ^ (s + 2) ≤ |y|) (hy1 : |y| ≤ 1) :
    Dy 1 (s + 55) x := by
  have a1 := abs_sub_abs_le_abs_sub x y
  have a2 := abs_sub_abs_le_abs_sub y x
  rw [abs_sub_comm] at a2
  have t : (40 : ℝ) * 2⁻¹ ^ 53 ≤ 1 / 2 ^ (s + 2) := by
    have : (1 : ℝ) / 2 ^ 26 ≤ 1 / 2 ^ (s + 2) := one_div_le_one_div_of_le (by positivity) (pow_le_pow_right₀ (by norm_num) (by omega))
    refine le_trans ?_ this; norm_num
  have t2 : (2 : ℝ) / 2 ^ (s + 2) = 1 / 2 ^ (s + 2) + 1 / 2 ^ (s + 2) := by ring
  refine dy_of_float h (by linarith) ?_
  have : (40 : ℝ) * 2⁻¹ ^ 53 ≤ 1 := by norm_num
  linarith

/-- An index of the table belongs to a stage. -/
theorem split_idx {n k : ℕ} (hk : k < 2 ^ n - 1) : ∃ s < n, ∃ i < 2 ^ s, k = 2 ^ s - 1 + i := by
  have hk0 : k + 1 ≠ 0 := by omega
  have g1 := Nat.pow_log_le_self 2 hk0
  have g2 := Nat.lt_pow_succ_log_self (b := 2) (by norm_num) (k + 1)
  refine ⟨Nat.log 2 (k + 1), ?_, k + 1 - 2 ^ Nat.log 2 (k + 1), by rw [pow_succ] at g2; omega, by omega⟩
  by_contra hc
  have : 2 ^ n ≤ 2 ^ Nat.log 2 (k + 1) := Nat.pow_le_pow_right (by norm_num) (by omega)
  omega

section
variable {M : Machine} (hM : Ieee M) {l : ℕ} {N : BitVec 64} (hN : N.toInt = 2 ^ (l + 4)) {e : Eval ℝ}
  (he : newEvaluatorFl M.arith M.cis N = some e)
include hM hN he

theorem table_isFloat : (∀ s < l + 3, ∀ i < 2 ^ s, IsFloat (e.tw (2 ^ s - 1 + i)).1 ∧ IsFloat (e.tw (2 ^ s - 1 + i)).2) ∧
    (∀ s < l + 3, ∀ i < 2 ^ s, IsFloat (e.twInv (2 ^ (l + 3) - 2 ^ (s + 1) + i)).1 ∧ IsFloat (e.twInv (2 ^ (l + 3) - 2 ^ (s + 1) + i)).2) := by
  have key (f : Fma) (σ x y z t : ℝ) : IsFloat (fused f M.fl σ x y z t) := by
    cases f <;> exact hM.isFloat _
  obtain ⟨e', h0, -, h2, h3, -⟩ := newEvaluatorWith_spec (cmulFl M.arith.atTable) M.cis l N hN (fun _ _ => True) (fun _ _ => True)
    (fun _ _ z => IsFloat z.1 ∧ IsFloat z.2) (fun _ _ z => IsFloat z.1 ∧ IsFloat z.2) (fun _ => trivial) (fun _ => trivial)
    (fun _ _ _ _ _ _ => ⟨key _ _ _ _ _ _, key _ _ _ _ _ _⟩) (fun _ _ _ _ _ _ => ⟨key _ _ _ _ _ _, key _ _ _ _ _ _⟩)
  rw [newEvaluatorFl] at he
  rw [he] at h0
  obtain rfl := Option.some.inj h0
  exact ⟨h2, h3⟩

theorem tw_isFloat (k : ℕ) (hk : k < 2 ^ (l + 3) - 1) : IsFloat (e.tw k).1 ∧ IsFloat (e.tw k).2 := by
  obtain ⟨s, hs, i, hi, rfl⟩ := split_idx hk
  exact (table_isFloat hM hN he).1 s hs i hi

/-- The forward table: every entry is a multiple of `2^-(l+57)`. -/
theorem tw_grid (hl : l ≤ 22) (k : ℕ) (hk : k < 2 ^ (l + 3) - 1) : Dy 1 (l + 57) (e.tw k).1 ∧ Dy 1 (l + 57) (e.tw k).2 := by
  obtain ⟨s, hs, i, hi, rfl⟩ := split_idx hk
  have hd := (goodFl_of hM.toAccurate hN he).tw s hs i hi
  have hf := (table_isFloat hM hN he).1 s hs i hi
  have hc := WW_comp s i
  have hn := norm_WW s i
  have c1 := (Complex.abs_re_le_norm _).trans hd
  have c2 := (Complex.abs_im_le_norm _).trans hd
  rw [Complex.sub_re] at c1
  rw [Complex.sub_im] at c2
  have b1 := (Complex.abs_re_le_norm (WW s i)).trans hn.le
  have b2 := (Complex.abs_im_le_norm (WW s i)).trans hn.le
  exact ⟨(comp_grid (s := s) (by omega) hf.1 c1 hc.1 b1).mono le_rfl (by omega), (comp_grid (s := s) (by omega) hf.2 c2 hc.2 b2).mono le_rfl (by omega)⟩

/-- The inverse table. -/
theorem twInv_grid (hl : l ≤ 22) (s : ℕ) (hs : s < l + 3) (i : ℕ) (hi : i < 2 ^ s) :
    Dy 1 (l + 57) (e.twInv (2 ^ (l + 3) - 2 ^ (s + 1) + i)).1 ∧ Dy 1 (l + 57) (e.twInv (2 ^ (l + 3) - 2 ^ (s + 1) + i)).2 := by
  have hd := (goodFl_of hM.toAccurate hN he).twInv s hs i hi
  have hf := (table_isFloat hM hN he).2 s hs i hi
  have hc := WW_comp s i
  have hn := norm_WW s i
  have hi' : (WW s i)⁻¹ = (starRingEnd ℂ) (WW s i) := by
    rw [Complex.inv_def, Complex.normSq_eq_norm_sq, hn]; simp
  rw [hi'] at hd
  have c1 := (Complex.abs_re_le_norm _).trans hd
  have c2 := (Complex.abs_im_le_norm _).trans hd
  rw [Complex.sub_re, Complex.conj_re] at c1
  rw [Complex.sub_im, Complex.conj_im] at c2
  have b1 := (Complex.abs_re_le_norm (WW s i)).trans hn.le
  have b2 := (Complex.abs_im_le_norm (WW s i)).trans hn.le
  exact ⟨(comp_grid (s := s) (by omega) hf.1 c1 hc.1 b1).mono le_rfl (by omega),
    (comp_grid (s := s) (by omega) hf.2 c2 (by rw [abs_neg]; exact hc.2) (by rw [abs_neg]; exact b2)).mono le_rfl (by omega)⟩

end
end Tfhe
