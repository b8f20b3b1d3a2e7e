import Verif.Lemma.FpuReal
import Verif.Props.C57

/-!
# A processor that rounds to nearest, and a platform with its rounding
-/
namespace Tfhe
namespace Asm
open Fft

theorem rep_pow2 {j : ℤ} (h1 : -1074 ≤ j) (h2 : j ≤ 1023) : F64Rep (2 ^ j) := by
  by_cases h : j ≤ 971
  · exact ⟨1, j, by norm_num, h1, h, by simp⟩
  · exact ⟨2 ^ 52, j - 52, by norm_num, by omega, by omega, by rw [Int.cast_pow, Int.cast_ofNat]; exact (two_add_nat (by omega)).symm⟩

/-- 53 bits and an exponent in range. -/
theorem rep_of {m s : ℤ} (hm : |m| ≤ 2 ^ 53) (hs : -1074 ≤ s) (hb : |(m : ℚ) * 2 ^ s| ≤ 2 ^ (1023 : ℤ)) : F64Rep (m * 2 ^ s) := by
  by_cases h1 : s ≤ 970
  · by_cases h2 : |m| < 2 ^ 53
    · exact ⟨m, s, h2, hs, by omega, rfl⟩
    · have h3 : m = 2 ^ 53 ∨ m = -2 ^ 53 := by
        rcases abs_cases m with ⟨e, -⟩ | ⟨e, -⟩ <;> omega
      have key : F64Rep (2 ^ 53 * 2 ^ s) := by
        rw [two_add_nat (c := s + 53) (by push_cast; ring)]; exact rep_pow2 (by omega) (by omega)
      rcases h3 with rfl | rfl
      · push_cast; exact key
      · have := rep_neg key
        rw [← neg_mul] at this
        push_cast; exact this
  · obtain ⟨n, hn⟩ := Int.eq_ofNat_of_zero_le (show 0 ≤ s - 971 by omega)
    have e : (m : ℚ) * 2 ^ s = ((m * 2 ^ n : ℤ) : ℚ) * 2 ^ (971 : ℤ) := by
      rw [Int.cast_mul, mul_assoc, Int.cast_pow, Int.cast_ofNat, two_add_nat (c := s) (by omega)]
    refine ⟨m * 2 ^ n, 971, ?_, by omega, by omega, e⟩
    rw [e, abs_mul, abs_of_pos (two_pos' 971), ← two_add_nat (n := 52) (b := 971) (c := 1023) (by norm_num)] at hb
    have := le_of_mul_le_mul_right hb (two_pos' 971)
    have h4 : |m * 2 ^ n| ≤ 2 ^ 52 := by exact_mod_cast this
    omega

theorem cast_ge_min {v : ℚ} (h : 2 ^ (-1022 : ℤ) ≤ |(v : ℝ)|) : 2 ^ (-1022 : ℤ) ≤ |v| := by
  refine (Rat.cast_le (K := ℝ)).1 ?_
  rw [Rat.cast_abs, Rat.cast_zpow, Rat.cast_ofNat]; exact h

theorem cast_inj' {v w : ℚ} (h : (v : ℝ) = w) : v = w := by exact_mod_cast h

/-- A float whose value is in range belongs to the format. -/
theorem rep_of_float {v : ℚ} (hf : IsFloat v) (hr : InRange v) : F64Rep v := by
  obtain ⟨m, s, hm, e⟩ := hf
  have e : v = m * 2 ^ s := cast_inj' (by push_cast; exact e)
  have hb : |v| ≤ 2 ^ (1023 : ℤ) := cast_le_max hr.1
  by_cases hs : -1074 ≤ s
  · rw [e] at hb ⊢; exact rep_of hm hs hb
  · have hm' : |(m : ℚ)| ≤ 2 ^ 53 := by exact_mod_cast hm
    have h0 : |v| ≤ 2 ^ (-1022 : ℤ) := by
      rw [e, abs_mul, abs_of_pos (two_pos' s)]
      calc |(m : ℚ)| * 2 ^ s ≤ 2 ^ 53 * 2 ^ (-1075 : ℤ) := mul_le_mul hm' (two_le (by omega)) (two_pos' s).le (by positivity)
        _ = 2 ^ (-1022 : ℤ) := two_add_nat (by norm_num)
    rcases hr.2 with h | ⟨k, hk⟩
    · have h : 2 ^ (-1022 : ℤ) ≤ |v| := cast_ge_min h
      have h1 := le_antisymm h0 h
      rcases abs_cases v with ⟨h2, -⟩ | ⟨h2, -⟩
      · rw [← h2, h1]; exact rep_pow2 (by omega) (by omega)
      · rw [show v = -(2 ^ (-1022 : ℤ)) by rw [← h1, h2, neg_neg]]; exact rep_neg (rep_pow2 (by omega) (by omega))
    · have hk : v = k * 2 ^ (-1074 : ℤ) := cast_inj' (by push_cast; exact hk)
      refine ⟨k, -1074, ?_, by omega, by omega, hk⟩
      rw [hk, abs_mul, abs_of_pos (two_pos' _), ← two_add_nat (n := 52) (b := -1074) (c := -1022) (by norm_num)] at h0
      have := le_of_mul_le_mul_right h0 (two_pos' _)
      have h4 : |k| ≤ 2 ^ 52 := by exact_mod_cast this
      omega

/-- Some number of the format is as near as 53 bits allow. -/
theorem exists_near {v : ℚ} (hr : InRange v) : ∃ s : ℚ, F64Rep s ∧ |s - v| ≤ 2⁻¹ ^ 53 * |v| := by
  have hb : |v| ≤ 2 ^ (1023 : ℤ) := cast_le_max hr.1
  by_cases hn : 2 ^ (-1022 : ℤ) ≤ |v|
  · by_cases ht : |v| = 2 ^ (1023 : ℤ)
    · refine ⟨v, ?_, by rw [sub_self, abs_zero]; positivity⟩
      rcases abs_cases v with ⟨h2, -⟩ | ⟨h2, -⟩
      · rw [← h2, ht]; exact rep_top
      · rw [show v = -(2 ^ (1023 : ℤ)) by rw [← ht, h2, neg_neg]]; exact rep_neg rep_top
    · have hpos : 0 < |v| := lt_of_lt_of_le (two_pos' _) hn
      have l1 := Int.zpow_log_le_self (b := 2) (r := |v|) (by norm_num) hpos
      have l2 := Int.lt_zpow_succ_log_self (b := 2) (by norm_num) |v|
      have lo : -1022 ≤ Int.log 2 |v| := by
        rw [← Int.zpow_le_iff_le_log (by norm_num) hpos]; exact_mod_cast hn
      have hi : Int.log 2 |v| < 1023 := by
        rw [← Int.lt_zpow_iff_log_lt (by norm_num) hpos]
        exact_mod_cast lt_of_le_of_ne hb ht
      generalize Int.log 2 |v| = e at l1 l2 lo hi
      rw [Nat.cast_ofNat] at l1 l2
      have hs0 : (0 : ℚ) < 2 ^ (e - 52) := two_pos' _
      obtain ⟨k, hk, -⟩ := exists_nearestEven (v / 2 ^ (e - 52))
      have hd : |(k : ℚ) * 2 ^ (e - 52) - v| ≤ 1 / 2 * 2 ^ (e - 52) := by
        have : (k : ℚ) * 2 ^ (e - 52) - v = -(v / 2 ^ (e - 52) - k) * 2 ^ (e - 52) := by field_simp; ring
        rw [this, abs_mul, abs_neg, abs_of_pos hs0]
        exact mul_le_mul_of_nonneg_right hk hs0.le
      have e53 : (2 : ℚ) ^ (e + 1) = 2 ^ 53 * 2 ^ (e - 52) := (two_add_nat (by push_cast; ring)).symm
      have e52 : (2 : ℚ) ^ e = 2 ^ 52 * 2 ^ (e - 52) := (two_add_nat (by push_cast; ring)).symm
      have hkb : |k| ≤ 2 ^ 53 := by
        have h1 : |v / 2 ^ (e - 52)| < 2 ^ 53 := by
          rw [abs_div, abs_of_pos hs0, div_lt_iff₀ hs0, ← e53]; exact l2
        have h2 : |(k : ℚ)| < ((2 ^ 53 + 1 : ℤ) : ℚ) := by
          have h4 := abs_sub_abs_le_abs_sub (k : ℚ) (v / 2 ^ (e - 52))
          rw [abs_sub_comm] at h4
          push_cast; linarith
        have h3 : |k| < 2 ^ 53 + 1 := by exact_mod_cast h2
        omega
      refine ⟨k * 2 ^ (e - 52), rep_of hkb (by omega) ?_, hd.trans ?_⟩
      · rw [abs_mul, abs_of_pos hs0]
        have hkq : |(k : ℚ)| ≤ 2 ^ 53 := by exact_mod_cast hkb
        calc |(k : ℚ)| * 2 ^ (e - 52) ≤ 2 ^ 53 * 2 ^ (e - 52) := mul_le_mul_of_nonneg_right hkq hs0.le
          _ = 2 ^ (e + 1) := e53.symm
          _ ≤ 2 ^ (1023 : ℤ) := two_le (by omega)
      · rw [e52] at l1
        have := mul_le_mul_of_nonneg_left l1 (show (0 : ℚ) ≤ 2⁻¹ ^ 53 by positivity)
        refine le_trans (le_of_eq ?_) this
        ring
  · rcases hr.2 with h | ⟨k, hk⟩
    · exact absurd (cast_ge_min h) hn
    · have hk : v = k * 2 ^ (-1074 : ℤ) := cast_inj' (by push_cast; exact hk)
      refine ⟨v, ⟨k, -1074, ?_, by omega, by omega, hk⟩, by rw [sub_self, abs_zero]; positivity⟩
      have h0 := (not_le.1 hn).le
      rw [hk, abs_mul, abs_of_pos (two_pos' _), ← two_add_nat (n := 52) (b := -1074) (c := -1022) (by norm_num)] at h0
      have := le_of_mul_le_mul_right h0 (two_pos' _)
      have h4 : |k| ≤ 2 ^ 52 := by exact_mod_cast this
      omega

theorem exists_fma : ∃ (F : Fpu) (rnd : ℚ → ℚ), IeeeFma F rnd ∧ (∀ v, F64Rep (rnd v)) ∧
    ∀ v : ℚ, InRange v → |rnd v - v| ≤ 2⁻¹ ^ 53 * |v| := by
  classical
  have hpick : ∀ v : ℚ, ∃ x : BitVec 64, F64Rep v → f64Finite x ∧ f64Val x = v := fun v => by
    by_cases h : F64Rep v
    · obtain ⟨x, hx⟩ := exists_pattern h; exact ⟨x, fun _ => hx⟩
    · exact ⟨0, fun h' => absurd h' h⟩
  choose pick hp using hpick
  choose ne hne using exists_nearestEven
  let S : Finset ℚ := (Finset.univ.filter fun x : Fin (2 ^ 64) => f64Finite ⟨x⟩).image fun x => f64Val ⟨x⟩
  have hS (v : ℚ) : v ∈ S ↔ F64Rep v := by
    constructor
    · intro h
      obtain ⟨x, hx, rfl⟩ := Finset.mem_image.1 h
      exact f64Val_rep (Finset.mem_filter.1 hx).2
    · intro h
      obtain ⟨x, fx, rfl⟩ := exists_pattern h
      exact Finset.mem_image.2 ⟨x.toFin, Finset.mem_filter.2 ⟨Finset.mem_univ _, fx⟩, rfl⟩
  have hmin (v : ℚ) : ∃ s ∈ S, ∀ t ∈ S, |s - v| ≤ |t - v| :=
    Finset.exists_min_image S (fun s => |s - v|) ⟨_, (hS _).2 rep_top⟩
  choose rnd h1 h2 using hmin
  have hrep (v : ℚ) : F64Rep (rnd v) := (hS _).1 (h1 v)
  have hmono (v w : ℚ) (h : v ≤ w) : rnd v ≤ rnd w := by
    by_contra hc
    have hc := not_le.1 hc
    have a1 := h2 v (rnd w) (h1 w)
    have a2 := h2 w (rnd v) (h1 v)
    have b1 : rnd v + rnd w ≤ 2 * v := by
      rw [abs_le] at a1
      rcases abs_cases (rnd w - v) with ⟨e, _⟩ | ⟨e, _⟩ <;> rw [e] at a1 <;> linarith
    have b2 : 2 * w ≤ rnd v + rnd w := by
      rw [abs_le] at a2
      rcases abs_cases (rnd v - w) with ⟨e, _⟩ | ⟨e, _⟩ <;> rw [e] at a2 <;> linarith
    have : v = w := by linarith
    rw [this] at hc
    exact lt_irrefl _ hc
  have hex (v : ℚ) (h : F64Rep v) : rnd v = v := by
    have := h2 v v ((hS v).2 h)
    rw [sub_self, abs_zero] at this
    exact sub_eq_zero.1 (abs_eq_zero.1 (le_antisymm this (abs_nonneg _)))
  refine ⟨{
    add := fun x y => pick (rnd (f64Val x + f64Val y))
    sub := fun x y => pick (rnd (f64Val x - f64Val y))
    mul := fun x y => pick (rnd (f64Val x * f64Val y))
    fma := fun x y z => pick (rnd (f64Val x * f64Val y + f64Val z))
    fnma := fun x y z => pick (rnd (f64Val z - f64Val x * f64Val y))
    fms := fun x y z => pick (rnd (f64Val x * f64Val y - f64Val z))
    rne := fun x => pick (ne (f64Val x))
    ofI32 := fun x => pick x.toInt
    toI32 := fun x => if -2 ^ 31 ≤ ne (f64Val x) ∧ ne (f64Val x) < 2 ^ 31 then BitVec.ofInt 32 (ne (f64Val x)) else 0x80000000 },
    rnd, ⟨⟨hmono, hex,
    fun x y _ _ _ => hp _ (hrep _), fun x y _ _ _ => hp _ (hrep _), fun x y _ _ _ => hp _ (hrep _),
    fun x fx => ⟨(hp _ (rep_nearest (f64Val_rep fx) (hne _))).1, _, hne _, (hp _ (rep_nearest (f64Val_rep fx) (hne _))).2⟩,
    fun x => hp _ (rep_int ?_), fun x k fx hk => ?_⟩,
    fun x y z _ _ _ _ => hp _ (hrep _), fun x y z _ _ _ _ => hp _ (hrep _), fun x y z _ _ _ _ => hp _ (hrep _)⟩, hrep, fun v hv => ?_⟩
  · have h1 := BitVec.toInt_lt (x := x)
    have h2 := BitVec.le_toInt x
    norm_num at h1 h2
    rw [abs_le]; constructor <;> omega
  · have : ne (f64Val x) = k := nearestEven_unique (hne _) (by rw [hk]; exact nearestEven_int k)
    simp only [this]
  · obtain ⟨s, hs, hd⟩ := exists_near hv
    exact (h2 v s ((hS s).2 hs)).trans hd

theorem isFloat_of_rep {v : ℚ} (h : F64Rep v) : IsFloat v := by
  obtain ⟨M, j, h1, -, -, rfl⟩ := h
  exact ⟨M, j, h1.le, by push_cast; rfl⟩

/-- There is a processor and a platform with its rounding, of which all holds that is asked elsewhere. -/
theorem exists_platform : ∃ (F : Fpu) (M : Machine), RoundsAs F M.fl ∧ Ieee M ∧ M.fuse = .avx2 := by
  classical
  obtain ⟨F, rnd, hF, hrep, hnear⟩ := exists_fma
  let fl : ℝ → ℝ := fun x => if h : ∃ v : ℚ, (v : ℝ) = x ∧ InRange x then (rnd h.choose : ℝ) else nearest x
  have hq (v : ℚ) (hv : InRange v) : fl v = rnd v := by
    have h : ∃ v' : ℚ, (v' : ℝ) = v ∧ InRange v := ⟨v, rfl, hv⟩
    have e : h.choose = v := cast_inj' h.choose_spec.1
    simp only [fl, dif_pos h, e]
  have hcase (x : ℝ) : (∃ v : ℚ, (v : ℝ) = x ∧ InRange v ∧ fl x = rnd v) ∨ fl x = nearest x := by
    by_cases h : ∃ v : ℚ, (v : ℝ) = x ∧ InRange x
    · obtain ⟨v, rfl, hr⟩ := h
      exact Or.inl ⟨v, rfl, hr, hq v hr⟩
    · exact Or.inr (by simp only [fl, dif_neg h])
  have herr (x : ℝ) : |fl x - x| ≤ 2⁻¹ ^ 53 * |x| := by
    rcases hcase x with ⟨v, rfl, hr, e⟩ | e
    · have := (Rat.cast_le (K := ℝ)).2 (hnear v hr)
      rw [e]; push_cast at this; exact this
    · rw [e]; exact nearest_err x
  refine ⟨F, ⟨⟨fl, .avx2, (exMachine .avx2).sincos⟩, (exMachine .avx2).int64⟩, ⟨rnd, hF, hq⟩, ⟨⟨herr, (exMachine_ok .avx2).cos, (exMachine_ok .avx2).sin⟩, fun x => ?_,
    fun x hx => ?_, (exMachine_ok .avx2).cos2, (exMachine_ok .avx2).sin2, (exMachine_ok .avx2).fit, (exMachine_ok .avx2).top⟩, rfl⟩
  · rcases hcase x with ⟨v, rfl, hr, e⟩ | e
    · show IsFloat (fl _); rw [e]; exact isFloat_of_rep (hrep v)
    · show IsFloat (fl _); rw [e]; exact isFloat_nearest x
  · rcases hcase x with ⟨v, rfl, hr, e⟩ | e
    · show fl _ = _
      rw [e, hF.exact _ (rep_of_float hx hr)]
    · show fl _ = _; rw [e]; exact nearest_exact x hx

end Asm
end Tfhe
