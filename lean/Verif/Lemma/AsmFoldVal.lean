import Mathlib.Tactic.Linarith
import Mathlib.Tactic.NormNum
import Mathlib.Tactic.Positivity
import Mathlib.Tactic.Ring
import Mathlib.Data.Finset.Max
import Mathlib.Data.Fintype.Basic
import Verif.Lemma.AsmFold
import Verif.Spec.Float64

/-!
# What the conversions of `math/poly/asm_fold_amd64.s` compute
-/
namespace Tfhe
namespace Asm

/-! ### Powers of two -/

theorem two_add {a b c : ℤ} (h : a + b = c) : (2 : ℚ) ^ a * 2 ^ b = 2 ^ c := by rw [← zpow_add₀ two_ne_zero, h]

theorem two_add_nat {n : ℕ} {b c : ℤ} (h : n + b = c) : (2 : ℚ) ^ n * 2 ^ b = 2 ^ c := by
  rw [← zpow_natCast, two_add h]

theorem two_le {a b : ℤ} (h : a ≤ b) : (2 : ℚ) ^ a ≤ 2 ^ b := zpow_le_zpow_right₀ one_le_two h

theorem two_pos' (a : ℤ) : (0 : ℚ) < 2 ^ a := zpow_pos two_pos a

theorem half_pow : (1 / 2 : ℚ) = 2 ^ (-1 : ℤ) := by rw [zpow_neg_one, one_div]

/-! ### Integers nearest to a number -/

theorem nearestEven_unique {v : ℚ} {a b : ℤ} (ha : NearestEven v a) (hb : NearestEven v b) : a = b := by
  obtain ⟨h1, h2⟩ := ha
  obtain ⟨h3, h4⟩ := hb
  rw [abs_le] at h1 h3
  have h5 : ((a - b : ℤ) : ℚ) ≤ 1 := by push_cast; linarith
  have h6 : (-1 : ℚ) ≤ ((a - b : ℤ) : ℚ) := by push_cast; linarith
  have h7 : a - b ≤ 1 := by exact_mod_cast h5
  have h8 : -1 ≤ a - b := by exact_mod_cast h6
  by_contra hne
  have : a - b = 1 ∨ a - b = -1 := by omega
  rcases this with h | h
  · have e : (a : ℚ) = b + 1 := by have : a = b + 1 := by omega
                                   rw [this]; push_cast; ring
    have t1 : v - a = -(1 / 2) := by linarith
    have t2 : v - b = 1 / 2 := by linarith
    have e1 := h2 (by rw [t1, abs_neg, abs_of_pos (by norm_num)])
    have e2 := h4 (by rw [t2, abs_of_pos (by norm_num)])
    obtain ⟨p, hp⟩ := e1
    obtain ⟨q, hq⟩ := e2
    omega
  · have e : (b : ℚ) = a + 1 := by have : b = a + 1 := by omega
                                   rw [this]; push_cast; ring
    have t1 : v - a = 1 / 2 := by linarith
    have t2 : v - b = -(1 / 2) := by linarith
    have e1 := h2 (by rw [t1, abs_of_pos (by norm_num)])
    have e2 := h4 (by rw [t2, abs_neg, abs_of_pos (by norm_num)])
    obtain ⟨p, hp⟩ := e1
    obtain ⟨q, hq⟩ := e2
    omega

theorem nearestEven_shift {v : ℚ} {k d : ℤ} (h : NearestEven (v - (2 * d : ℤ)) k) : NearestEven v (k + 2 * d) := by
  have e : v - ((k + 2 * d : ℤ) : ℚ) = v - (2 * d : ℤ) - k := by push_cast; ring
  refine ⟨by rw [e]; exact h.1, fun h' => ?_⟩
  obtain ⟨p, hp⟩ := h.2 (by rw [← e]; exact h')
  exact ⟨p + d, by omega⟩

theorem nearestEven_int (k : ℤ) : NearestEven (k : ℚ) k := by
  refine ⟨by rw [sub_self, abs_zero]; norm_num, fun h => ?_⟩
  rw [sub_self, abs_zero] at h; norm_num at h

theorem nearestEven_small {v : ℚ} (h : |v| ≤ 1 / 2) : NearestEven v 0 :=
  ⟨by simpa using h, fun _ => ⟨0, rfl⟩⟩

/-! ### The format -/

theorem f64Abs_rep (x : BitVec 64) (h : f64Finite x) : ∃ M : ℕ, ∃ j : ℤ, M < 2 ^ 53 ∧ -1074 ≤ j ∧ j ≤ 971 ∧ f64Abs x = M * 2 ^ j := by
  have hf : f64Frac x < 2 ^ 52 := Nat.mod_lt _ (by norm_num)
  have he : f64Exp x < 2 ^ 11 := Nat.mod_lt _ (by norm_num)
  unfold f64Finite at h
  by_cases h0 : f64Exp x = 0
  · exact ⟨f64Frac x, -1074, by omega, by omega, by omega, by rw [f64Abs, if_pos h0]⟩
  · exact ⟨2 ^ 52 + f64Frac x, (f64Exp x : ℤ) - 1075, by omega, by omega, by omega, by rw [f64Abs, if_neg h0]⟩

theorem f64Val_rep {x : BitVec 64} (h : f64Finite x) : F64Rep (f64Val x) := by
  obtain ⟨M, j, h1, h2, h3, h4⟩ := f64Abs_rep x h
  have hM : |(M : ℤ)| < 2 ^ 53 := by rw [abs_of_nonneg (by omega)]; exact_mod_cast h1
  unfold f64Val
  split
  · exact ⟨-M, j, by rwa [abs_neg], h2, h3, by rw [h4]; push_cast; ring⟩
  · exact ⟨M, j, hM, h2, h3, by rw [h4]; push_cast; ring⟩

theorem rep_lt {v : ℚ} (h : F64Rep v) : |v| < 2 ^ (1024 : ℤ) := by
  obtain ⟨M, j, h1, h2, h3, rfl⟩ := h
  rw [abs_mul, abs_of_pos (zpow_pos (by norm_num : (0 : ℚ) < 2) j)]
  have hM : |(M : ℚ)| < 2 ^ 53 := by exact_mod_cast h1
  have hj : (2 : ℚ) ^ j ≤ 2 ^ (971 : ℤ) := two_le h3
  have hp := two_pos' j
  calc |(M : ℚ)| * 2 ^ j < 2 ^ 53 * 2 ^ j := mul_lt_mul_of_pos_right hM hp
    _ ≤ 2 ^ 53 * 2 ^ (971 : ℤ) := mul_le_mul_of_nonneg_left hj (by positivity)
    _ = 2 ^ (1024 : ℤ) := two_add_nat (by omega)

theorem rep_pow {j : ℤ} (h1 : -1074 ≤ j) (h2 : j ≤ 971) : F64Rep (2 ^ j) := ⟨1, j, by norm_num, h1, h2, by simp⟩

theorem rep_neg {v : ℚ} (h : F64Rep v) : F64Rep (-v) := by
  obtain ⟨M, j, h1, h2, h3, rfl⟩ := h
  exact ⟨-M, j, by rwa [abs_neg], h2, h3, by push_cast; ring⟩

theorem IeeeFpu.abs_le {F : Fpu} {rnd : ℚ → ℚ} (I : IeeeFpu F rnd) {v b : ℚ} (hb : F64Rep b) (h : |v| ≤ b) : |rnd v| ≤ b := by
  rw [_root_.abs_le] at h ⊢
  have h1 := I.mono _ _ h.1
  have h2 := I.mono _ _ h.2
  rw [I.exact _ (rep_neg hb)] at h1
  rw [I.exact _ hb] at h2
  exact ⟨h1, h2⟩

/-! ### Reduction -/

/-- The fractional part is in the format. -/
theorem rep_sub_nearest {v : ℚ} {r : ℤ} (h : F64Rep v) (hr : NearestEven v r) :
    ∃ M j : ℤ, |M| < 2 ^ 53 ∧ -1074 ≤ j ∧ j ≤ 0 ∧ v - r = M * 2 ^ j := by
  obtain ⟨M, j, h1, h2, h3, rfl⟩ := h
  by_cases hj : 0 ≤ j
  · obtain ⟨n, rfl⟩ := Int.eq_ofNat_of_zero_le hj
    have e : (M : ℚ) * 2 ^ (n : ℤ) = ((M * 2 ^ n : ℤ) : ℚ) := by push_cast; rw [zpow_natCast]
    have : r = M * 2 ^ n := nearestEven_unique hr (by rw [e]; exact nearestEven_int _)
    exact ⟨0, 0, by norm_num, by norm_num, le_refl _, by rw [e, this]; simp⟩
  · obtain ⟨n, hn⟩ := Int.eq_ofNat_of_zero_le (show 0 ≤ -j by omega)
    have hp : (2 : ℚ) ^ j * 2 ^ n = 1 := by
      rw [← zpow_natCast, ← zpow_add₀ (by norm_num), show j + (n : ℤ) = 0 by omega, zpow_zero]
    have hpos : (0 : ℚ) < 2 ^ j := zpow_pos (by norm_num) j
    have e : (M : ℚ) * 2 ^ j - r = ((M - r * 2 ^ n : ℤ) : ℚ) * 2 ^ j := by
      push_cast
      have : (r : ℚ) = r * (2 ^ j * 2 ^ n) := by rw [hp, mul_one]
      calc (M : ℚ) * 2 ^ j - r = (M : ℚ) * 2 ^ j - r * (2 ^ j * 2 ^ n) := by rw [← this]
        _ = _ := by ring
    refine ⟨M - r * 2 ^ n, j, ?_, h2, by omega, e⟩
    have hle : |(M : ℚ) * 2 ^ j - r| ≤ |(M : ℚ) * 2 ^ j| := by
      by_cases hs : |(M : ℚ) * 2 ^ j| ≤ 1 / 2
      · have : r = 0 := nearestEven_unique hr (nearestEven_small hs)
        rw [this]; simp
      · exact hr.1.trans (le_of_lt (not_le.1 hs))
    rw [e, abs_mul, abs_mul, mul_le_mul_iff_left₀ (by rwa [abs_of_pos hpos])] at hle
    have : |M - r * 2 ^ n| ≤ |M| := by exact_mod_cast hle
    omega

theorem redF_val {F : Fpu} {rnd : ℚ → ℚ} (I : IeeeFpu F rnd) {w : ℕ} (h1 : 1 ≤ w) (h2 : w ≤ 64) {q qInv x : BitVec 64}
    (fq : f64Finite q) (vq : f64Val q = 2 ^ w) (fi : f64Finite qInv) (vi : f64Val qInv = 2 ^ (-(w : ℤ))) (fx : f64Finite x) :
    f64Finite (redF F q qInv x) ∧ ∃ k r : ℤ, f64Val (redF F q qInv x) = k ∧ NearestEven (f64Val x) (k + 2 ^ w * r) ∧
      |k| ≤ 2 ^ (w - 1) := by
  have rx := f64Val_rep fx
  have pw : (0 : ℚ) < 2 ^ (-(w : ℤ)) := zpow_pos (by norm_num) _
  have ip : (2 : ℚ) ^ (-(w : ℤ)) * 2 ^ w = 1 := by
    rw [← zpow_natCast, ← zpow_add₀ (by norm_num)]; simp
  have hb : |f64Val x * 2 ^ (-(w : ℤ))| ≤ 2 ^ (1023 : ℤ) := by
    rw [abs_mul, abs_of_pos pw]
    have : (2 : ℚ) ^ (-(w : ℤ)) ≤ 2 ^ (-1 : ℤ) := two_le (by omega)
    have p1 := two_pos' 1024
    calc |f64Val x| * 2 ^ (-(w : ℤ)) ≤ 2 ^ (1024 : ℤ) * 2 ^ (-1 : ℤ) :=
          mul_le_mul (rep_lt rx).le this pw.le p1.le
      _ = 2 ^ (1023 : ℤ) := two_add (by omega)
  obtain ⟨fa, va⟩ := I.mul x qInv fx fi (by simpa only [vi] using hb)
  rw [vi] at va
  have hpow : (2 : ℤ) ^ w = 2 * 2 ^ (w - 1) := by rw [← pow_succ', Nat.sub_add_cancel h1]
  obtain ⟨fr, r, nr, vr⟩ := I.rne _ fa
  -- the fraction
  have bnd : |f64Val (F.mul x qInv) - f64Val (F.rne (F.mul x qInv))| ≤ 1 / 2 := by rw [vr]; exact nr.1
  have one : (1 / 2 : ℚ) ≤ 2 ^ (1023 : ℤ) := by rw [half_pow]; exact two_le (by omega)
  obtain ⟨fs, vs⟩ := I.sub _ _ fa fr (bnd.trans one)
  obtain ⟨M, j, hM, hj1, hj2, hMj⟩ := rep_sub_nearest (f64Val_rep fa) nr
  rw [vr, hMj, I.exact _ ⟨M, j, hM, hj1, by omega, rfl⟩, ← hMj] at vs
  have hs : |f64Val (F.sub (F.mul x qInv) (F.rne (F.mul x qInv))) * f64Val q| ≤ 2 ^ ((w : ℤ) - 1) := by
    rw [vs, vq, abs_mul, abs_of_pos (show (0 : ℚ) < 2 ^ w by positivity)]
    calc |f64Val (F.mul x qInv) - r| * 2 ^ w ≤ 1 / 2 * 2 ^ w := by gcongr; exact nr.1
      _ = 2 ^ ((w : ℤ) - 1) := by rw [half_pow, mul_comm]; exact two_add_nat (by omega)
  have hbig : (2 : ℚ) ^ ((w : ℤ) - 1) ≤ 2 ^ (1023 : ℤ) := two_le (by omega)
  obtain ⟨fm, vm⟩ := I.mul _ _ fs fq (hs.trans hbig)
  have hm : |rnd (f64Val (F.sub (F.mul x qInv) (F.rne (F.mul x qInv))) * f64Val q)| ≤ 2 ^ ((w : ℤ) - 1) :=
    I.abs_le (rep_pow (by omega) (by omega)) hs
  obtain ⟨fk, k, nk, vk⟩ := I.rne _ fm
  have hw1 : (2 : ℚ) ^ ((w : ℤ) - 1) = ((2 ^ (w - 1) : ℤ) : ℚ) := by
    rw [Int.cast_pow, Int.cast_ofNat, ← zpow_natCast, show ((w - 1 : ℕ) : ℤ) = (w : ℤ) - 1 by omega]
  have hk : |k| ≤ 2 ^ (w - 1) := by
    rw [vm] at nk
    rw [hw1] at hm
    generalize rnd (f64Val (F.sub (F.mul x qInv) (F.rne (F.mul x qInv))) * f64Val q) = z at nk hm
    have n1 := abs_le.1 nk.1
    have n2 := abs_le.1 hm
    generalize (2 : ℤ) ^ (w - 1) = P at n2 ⊢
    have t1 : (k : ℚ) < ((P + 1 : ℤ) : ℚ) := by push_cast; linarith [n1.1, n2.2]
    have t2 : ((-P - 1 : ℤ) : ℚ) < k := by push_cast; linarith [n1.2, n2.1]
    have t1' : k < P + 1 := by exact_mod_cast t1
    have t2' : -P - 1 < k := by exact_mod_cast t2
    exact abs_le.2 ⟨by omega, by omega⟩
  refine ⟨fk, k, r, vk, ?_, hk⟩
  rw [vm, vs, vq] at nk
  by_cases hx : F64Rep (f64Val x * 2 ^ (-(w : ℤ)))
  · -- no underflow
    rw [I.exact _ hx] at va
    have e : (f64Val (F.mul x qInv) - r) * 2 ^ w = f64Val x - ((2 * (2 ^ (w - 1) * r) : ℤ) : ℚ) := by
      rw [show (2 * (2 ^ (w - 1) * r) : ℤ) = 2 ^ w * r by rw [hpow]; ring, va]
      push_cast
      calc (f64Val x * 2 ^ (-(w : ℤ)) - r) * 2 ^ w = f64Val x * (2 ^ (-(w : ℤ)) * 2 ^ w) - 2 ^ w * r := by ring
        _ = _ := by rw [ip, mul_one]
    have he : F64Rep ((f64Val (F.mul x qInv) - r) * 2 ^ w) := by
      refine ⟨M, j + w, hM, by omega, by omega, ?_⟩
      rw [hMj, zpow_add₀ (by norm_num), zpow_natCast]; ring
    rw [I.exact _ he, e] at nk
    have := nearestEven_shift nk
    rwa [show (k + 2 * (2 ^ (w - 1) * r) : ℤ) = k + 2 ^ w * r by rw [hpow]; ring] at this
  · -- underflow: everything is tiny
    obtain ⟨A, i, hA, hi1, hi2, hAi⟩ := rx
    have hi : i < (w : ℤ) - 1074 := by
      by_contra hc
      refine hx ⟨A, i - w, hA, by omega, by omega, ?_⟩
      rw [hAi, zpow_sub₀ (by norm_num), zpow_neg, zpow_natCast]; ring
    have small : |f64Val x| ≤ 2 ^ ((w : ℤ) - 1021) := by
      rw [hAi, abs_mul, abs_of_pos (zpow_pos (by norm_num : (0 : ℚ) < 2) i)]
      have hA' : |(A : ℚ)| ≤ 2 ^ 53 := by exact_mod_cast hA.le
      have hp : (2 : ℚ) ^ i ≤ 2 ^ ((w : ℤ) - 1074) := two_le (by omega)
      have hp' := two_pos' i
      calc |(A : ℚ)| * 2 ^ i ≤ 2 ^ 53 * 2 ^ ((w : ℤ) - 1074) := mul_le_mul hA' hp hp'.le (by positivity)
        _ = 2 ^ ((w : ℤ) - 1021) := two_add_nat (by omega)
    have half : (2 : ℚ) ^ ((w : ℤ) - 1021) ≤ 1 / 2 := by rw [half_pow]; exact two_le (by omega)
    have tiny : |f64Val (F.mul x qInv)| ≤ 2 ^ (-1021 : ℤ) := by
      rw [va]
      refine I.abs_le (rep_pow (by omega) (by omega)) ?_
      rw [abs_mul, abs_of_pos pw]
      calc |f64Val x| * 2 ^ (-(w : ℤ)) ≤ 2 ^ ((w : ℤ) - 1021) * 2 ^ (-(w : ℤ)) :=
            mul_le_mul_of_nonneg_right small pw.le
        _ = 2 ^ (-1021 : ℤ) := two_add (by omega)
    have hr0 : r = 0 := nearestEven_unique nr (nearestEven_small (tiny.trans
      (by rw [half_pow]; exact two_le (by omega))))
    have hk0 : k = 0 := by
      refine nearestEven_unique nk (nearestEven_small ?_)
      refine (I.abs_le (b := 2 ^ ((w : ℤ) - 1021)) (rep_pow (by omega) (by omega)) ?_).trans half
      rw [hr0, Int.cast_zero, sub_zero, abs_mul, abs_of_pos (show (0 : ℚ) < 2 ^ w by positivity)]
      calc |f64Val (F.mul x qInv)| * 2 ^ w ≤ 2 ^ (-1021 : ℤ) * 2 ^ w :=
            mul_le_mul_of_nonneg_right tiny (by positivity)
        _ = 2 ^ ((w : ℤ) - 1021) := by rw [mul_comm]; exact two_add_nat (by omega)
    rw [hk0, hr0]
    simpa using nearestEven_small (small.trans half)

/-! ### Conversion to integers -/

theorem msb_toNat (x : BitVec 64) : x.msb = decide (2 ^ 63 ≤ x.toNat) := by
  rw [BitVec.msb_eq_decide]

theorem expField (x : BitVec 64) : (x >>> 52 &&& 0x7ff#64).toNat = f64Exp x := by
  rw [BitVec.toNat_and, BitVec.toNat_ushiftRight, Nat.shiftRight_eq_div_pow]
  exact Nat.and_two_pow_sub_one_eq_mod _ 11

theorem fracField (x : BitVec 64) :
    ((x &&& 0x000fffffffffffff#64 ||| 0x0010000000000000#64) <<< 11).toNat = (2 ^ 52 + f64Frac x) * 2 ^ 11 := by
  have hf : f64Frac x < 2 ^ 52 := Nat.mod_lt _ (by norm_num)
  have h1 : (x &&& 0x000fffffffffffff#64).toNat = f64Frac x := by
    rw [BitVec.toNat_and]; exact Nat.and_two_pow_sub_one_eq_mod _ 52
  have h2 : (x &&& 0x000fffffffffffff#64 ||| 0x0010000000000000#64).toNat = 2 ^ 52 + f64Frac x := by
    rw [BitVec.toNat_or, h1, Nat.or_comm]
    exact (Nat.two_pow_add_eq_or_of_lt hf 1).symm
  rw [BitVec.toNat_shiftLeft, h2, Nat.shiftLeft_eq]
  exact Nat.mod_eq_of_lt (by omega)

/-- The magnitude. -/
theorem truncAbs (x : BitVec 64) (he : f64Exp x ≤ 1086) :
    (((x &&& 0x000fffffffffffff#64 ||| 0x0010000000000000#64) <<< 11) >>> (0x43e#64 - (x >>> 52 &&& 0x7ff#64)).toNat).toNat =
      ⌊f64Abs x⌋₊ := by
  have hf : f64Frac x < 2 ^ 52 := Nat.mod_lt _ (by norm_num)
  have hs : (0x43e#64 - (x >>> 52 &&& 0x7ff#64)).toNat = 1086 - f64Exp x := by
    rw [BitVec.toNat_sub_of_le (by rw [BitVec.le_def, expField]; exact he), expField]; rfl
  rw [BitVec.toNat_ushiftRight, fracField, hs, Nat.shiftRight_eq_div_pow]
  by_cases h0 : f64Exp x = 0
  · have : f64Abs x < 1 := by
      rw [f64Abs, if_pos h0]
      have hf' : (f64Frac x : ℚ) ≤ 2 ^ 52 := by exact_mod_cast hf.le
      calc (f64Frac x : ℚ) * 2 ^ (-1074 : ℤ) ≤ 2 ^ 52 * 2 ^ (-1074 : ℤ) :=
            mul_le_mul_of_nonneg_right hf' (two_pos' _).le
        _ = 2 ^ (-1022 : ℤ) := two_add_nat (by omega)
        _ ≤ 2 ^ (-1 : ℤ) := two_le (by omega)
        _ < 1 := by rw [← half_pow]; norm_num
    rw [Nat.floor_eq_zero.2 this, h0]
    exact Nat.div_eq_of_lt (by
      calc (2 ^ 52 + f64Frac x) * 2 ^ 11 < 2 ^ 64 := by omega
        _ ≤ 2 ^ (1086 - 0) := Nat.pow_le_pow_right (by norm_num) (by norm_num))
  · have e : f64Abs x * ((2 ^ (1086 - f64Exp x) : ℕ) : ℚ) = (((2 ^ 52 + f64Frac x) * 2 ^ 11 : ℕ) : ℚ) := by
      rw [f64Abs, if_neg h0]
      rw [Nat.cast_mul, mul_assoc, Nat.cast_pow, Nat.cast_pow, mul_comm ((2 : ℚ) ^ _), Nat.cast_ofNat,
        two_add_nat (c := 11) (by omega), ← zpow_natCast]
      rfl
    rw [← Nat.mul_cast_floor_div_cancel (n := 2 ^ (1086 - f64Exp x)) (by positivity), e, Nat.floor_natCast]

/-- Conversion truncates, modulo `2^64`. -/
theorem truncI64_val (x : BitVec 64) (he : f64Exp x ≤ 1086) :
    truncI64 x = BitVec.ofInt 64 (if x.msb then -(⌊f64Abs x⌋₊ : ℤ) else ⌊f64Abs x⌋₊) := by
  have h := truncAbs x he
  unfold truncI64
  simp only
  generalize ((x &&& 0x000fffffffffffff#64 ||| 0x0010000000000000#64) <<< 11) >>> (0x43e#64 - (x >>> 52 &&& 0x7ff#64)).toNat = t at h ⊢
  have ht : t = BitVec.ofInt 64 (⌊f64Abs x⌋₊ : ℤ) := by
    rw [← h]; apply BitVec.eq_of_toNat_eq; rw [BitVec.ofInt_natCast]; simp
  split
  · rw [BitVec.ofInt_neg, ← ht, BitVec.zero_sub]
  · exact ht

/-- Magnitudes from `2^64` on, infinities and NaN give zero. -/
theorem truncI64_big (x : BitVec 64) (he : 1086 < f64Exp x) : truncI64 x = 0 := by
  have hlt : f64Exp x < 2 ^ 11 := Nat.mod_lt _ (by norm_num)
  have hs : (0x43e#64 - (x >>> 52 &&& 0x7ff#64)).toNat = 2 ^ 64 + 1086 - f64Exp x := by
    rw [BitVec.toNat_sub, expField]
    simp only [BitVec.toNat_ofNat]
    omega
  have ht : ((x &&& 0x000fffffffffffff#64 ||| 0x0010000000000000#64) <<< 11) >>> (0x43e#64 - (x >>> 52 &&& 0x7ff#64)).toNat = 0 := by
    apply BitVec.ushiftRight_eq_zero; rw [hs]; omega
  unfold truncI64
  simp only [ht]
  split <;> rfl

theorem f64Abs_nonneg (x : BitVec 64) : 0 ≤ f64Abs x := by
  unfold f64Abs
  split
  · exact mul_nonneg (Nat.cast_nonneg _) (zpow_nonneg (by norm_num) _)
  · exact mul_nonneg (Nat.cast_nonneg _) (zpow_nonneg (by norm_num) _)

theorem exp_le_of {x : BitVec 64} {n : ℕ} (h : f64Abs x < 2 ^ n) (hn : n + 1022 < 2 ^ 20) : f64Exp x ≤ n + 1022 := by
  by_contra hc
  have h0 : f64Exp x ≠ 0 := by omega
  rw [f64Abs, if_neg h0] at h
  have h1 : (2 : ℚ) ^ ((n : ℤ) - 52) ≤ 2 ^ ((f64Exp x : ℤ) - 1075) := zpow_le_zpow_right₀ (by norm_num) (by omega)
  have h2 : (2 : ℚ) ^ 52 ≤ ((2 ^ 52 + f64Frac x : ℕ) : ℚ) := by
    rw [Nat.cast_add, Nat.cast_pow, Nat.cast_ofNat]; exact le_add_of_nonneg_right (Nat.cast_nonneg _)
  have : (2 : ℚ) ^ n ≤ ((2 ^ 52 + f64Frac x : ℕ) : ℚ) * 2 ^ ((f64Exp x : ℤ) - 1075) := by
    calc (2 : ℚ) ^ n = 2 ^ 52 * 2 ^ ((n : ℤ) - 52) := by
          rw [two_add_nat (c := n) (by omega), zpow_natCast]
      _ ≤ _ := mul_le_mul h2 h1 (two_pos' _).le (Nat.cast_nonneg _)
  exact absurd h (not_lt.2 this)

/-- An integer is converted to itself. -/
theorem truncI64_int {x : BitVec 64} {k : ℤ} (hv : f64Val x = k) (hk : |k| < 2 ^ 64) : truncI64 x = BitVec.ofInt 64 k := by
  have ha : f64Abs x = ((|k| : ℤ) : ℚ) := by
    unfold f64Val at hv
    push_cast
    rw [← hv]
    split <;> simp [abs_of_nonneg (f64Abs_nonneg x)]
  have he : f64Exp x ≤ 1086 := exp_le_of (n := 64) (by rw [ha]; exact_mod_cast hk) (by norm_num)
  rw [truncI64_val x he]
  congr 1
  have hfl : (⌊f64Abs x⌋₊ : ℤ) = |k| := by
    obtain ⟨n, hn⟩ := Int.eq_ofNat_of_zero_le (abs_nonneg k)
    rw [ha, hn]; simp
  rw [hfl]
  unfold f64Val at hv
  split at hv
  · have : k ≤ 0 := by have : (k : ℚ) ≤ 0 := by rw [← hv]; linarith [f64Abs_nonneg x]
                       exact_mod_cast this
    rename_i hm
    rw [if_pos hm, abs_of_nonpos this, neg_neg]
  · have : 0 ≤ k := by have : (0 : ℚ) ≤ k := by rw [← hv]; exact f64Abs_nonneg x
                       exact_mod_cast this
    rename_i hm
    rw [if_neg hm, abs_of_nonneg this]

/-! ### Conversion from integers -/

theorem f64_of (e m : ℕ) (he : 0 < e) (he2 : e < 2047) (hm : m < 2 ^ 52) {x : BitVec 64} (hx : x.toNat = e * 2 ^ 52 + m) :
    f64Finite x ∧ f64Val x = ((2 ^ 52 + m : ℕ) : ℚ) * 2 ^ ((e : ℤ) - 1075) := by
  have h1 : f64Exp x = e := by unfold f64Exp; omega
  have h2 : f64Frac x = m := by unfold f64Frac; omega
  have h3 : x.msb = false := by
    rw [BitVec.msb_eq_decide, decide_eq_false_iff_not, hx]
    have : (64 : ℕ) - 1 = 63 := rfl
    rw [this]; omega
  refine ⟨by unfold f64Finite; omega, ?_⟩
  have h0 : ¬ e = 0 := by omega
  simp only [f64Val, h3, f64Abs, h1, h2, Bool.false_eq_true, if_false, h0]

theorem xor_sign {H : ℕ} (hH : H < 2 ^ 32) :
    H ^^^ 0x4530000080000000 = 1107 * 2 ^ 52 + if H < 2 ^ 31 then H + 2 ^ 31 else H - 2 ^ 31 := by
  have h1 : (H ^^^ 0x4530000080000000) % 2 ^ 31 = H % 2 ^ 31 := by
    rw [Nat.xor_mod_two_pow]; norm_num
  have h2 : (H ^^^ 0x4530000080000000) / 2 ^ 31 = H / 2 ^ 31 ^^^ 2321547265 := by
    rw [Nat.xor_div_two_pow]
  have h3 := Nat.div_add_mod (H ^^^ 0x4530000080000000) (2 ^ 31)
  rw [h1, h2] at h3
  by_cases h : H < 2 ^ 31
  · rw [show H / 2 ^ 31 = 0 by omega] at h3
    rw [← h3, if_pos h]; norm_num; omega
  · rw [show H / 2 ^ 31 = 1 by omega, show 1 ^^^ 2321547265 = 2321547264 by rfl] at h3
    rw [← h3, if_neg h]; omega

theorem cvtI64_val {F : Fpu} {rnd : ℚ → ℚ} (I : IeeeFpu F rnd) (x : BitVec 64) :
    f64Finite (cvtI64 F x) ∧ f64Val (cvtI64 F x) = rnd (x.toInt : ℚ) := by
  have hx := x.isLt
  obtain ⟨L, hL⟩ : ∃ L, L = x.toNat % 2 ^ 32 := ⟨_, rfl⟩
  obtain ⟨H, hH⟩ : ∃ H, H = x.toNat / 2 ^ 32 := ⟨_, rfl⟩
  have hH2 : H < 2 ^ 32 := by omega
  have hL2 : L < 2 ^ 32 := by omega
  have l1 : (join (hi EXP2_52) (lo x)).toNat = 1075 * 2 ^ 52 + L := by
    have e : hi EXP2_52 = 0x43300000#32 := by decide
    have e2 : (lo x).toNat = L := by rw [hL]; exact BitVec.toNat_setWidth ..
    rw [e, show (join 0x43300000#32 (lo x)).toNat = 0x43300000 * 2 ^ 32 + (lo x).toNat from ?_, e2]
    · rfl
    · unfold join
      rw [BitVec.toNat_append, ← Nat.shiftLeft_add_eq_or_of_lt (lo x).isLt, Nat.shiftLeft_eq]; rfl
  obtain ⟨fl, vl⟩ := f64_of 1075 L (by norm_num) (by norm_num) (by omega) l1
  have l2 : (x >>> 32 ^^^ EXP2_84_63).toNat = 1107 * 2 ^ 52 + if H < 2 ^ 31 then H + 2 ^ 31 else H - 2 ^ 31 := by
    rw [BitVec.toNat_xor, BitVec.toNat_ushiftRight, Nat.shiftRight_eq_div_pow, ← hH]
    exact xor_sign hH2
  obtain ⟨fh, vh⟩ := f64_of 1107 _ (by norm_num) (by norm_num) (by split <;> omega) l2
  obtain ⟨fc, vc⟩ := f64_of 1107 0x80100000 (by norm_num) (by norm_num) (by norm_num) (x := EXP2_84_63_52) (by decide)
  have hint : (x.toInt : ℤ) = (if H < 2 ^ 31 then (H : ℤ) else H - 2 ^ 32) * 2 ^ 32 + L := by
    rw [BitVec.toInt_eq_toNat_cond]
    split <;> split <;> omega
  obtain ⟨s, hs⟩ : ∃ s : ℤ, s = if H < 2 ^ 31 then (H : ℤ) else H - 2 ^ 32 := ⟨_, rfl⟩
  rw [← hs] at hint
  have hs2 : |s| ≤ 2 ^ 31 := by rw [abs_le]; split at hs <;> omega
  have dif : f64Val (x >>> 32 ^^^ EXP2_84_63) - f64Val EXP2_84_63_52 = ((s - 2 ^ 20 : ℤ) : ℚ) * 2 ^ (32 : ℤ) := by
    rw [vh, vc]
    have : (((2 ^ 52 + if H < 2 ^ 31 then H + 2 ^ 31 else H - 2 ^ 31 : ℕ) : ℤ) : ℚ) = ((2 ^ 52 + s + 2 ^ 31 : ℤ) : ℚ) := by
      congr 1; rw [hs]; split <;> push_cast <;> omega
    rw [Int.cast_natCast] at this
    rw [this]
    norm_num
    ring
  have small {v : ℚ} (h : |v| ≤ 2 ^ 100) : |v| ≤ 2 ^ (1023 : ℤ) := by
    refine h.trans ?_
    rw [← zpow_natCast]; exact two_le (by omega)
  have hs3 := abs_le.1 hs2
  have hs4 : (-2147483648 : ℚ) ≤ s := by exact_mod_cast hs3.1
  have hs5 : (s : ℚ) ≤ 2147483648 := by exact_mod_cast hs3.2
  have hL3 : (L : ℚ) ≤ 4294967296 := by exact_mod_cast hL2.le
  have hL4 : (0 : ℚ) ≤ L := Nat.cast_nonneg _
  obtain ⟨fd, vd⟩ := I.sub _ _ fh fc (small (by
    rw [dif, abs_le]; push_cast; norm_num; constructor <;> linarith))
  rw [dif, I.exact _ ⟨s - 2 ^ 20, 32, by rw [abs_lt]; omega, by omega, by omega, rfl⟩] at vd
  have sum : f64Val (join (hi EXP2_52) (lo x)) + f64Val (F.sub (x >>> 32 ^^^ EXP2_84_63) EXP2_84_63_52) = (x.toInt : ℚ) := by
    rw [vl, vd, hint]; push_cast; norm_num; ring
  obtain ⟨fr, vr⟩ := I.add _ _ fl fd (small (by
    rw [sum, hint, abs_le]; push_cast; norm_num; constructor <;> linarith))
  exact ⟨fr, by rw [cvtI64, vr, sum]⟩

/-! ### The hypotheses about the processor can be met -/

/-- Every number of the format has a pattern. -/
theorem exists_pattern {v : ℚ} (h : F64Rep v) : ∃ x, f64Finite x ∧ f64Val x = v := by
  obtain ⟨M, j, h1, h2, h3, rfl⟩ := h
  -- the magnitude, normalised
  have key : ∀ (n : ℕ) (A : ℕ) (j : ℤ), A < 2 ^ 53 → -1074 ≤ j → j ≤ 971 → (j + 1074).toNat = n →
      ∃ e m : ℕ, e < 2047 ∧ m < 2 ^ 52 ∧ (A : ℚ) * 2 ^ j =
        if e = 0 then (m : ℚ) * 2 ^ (-1074 : ℤ) else ((2 ^ 52 + m : ℕ) : ℚ) * 2 ^ ((e : ℤ) - 1075) := by
    intro n
    induction n with
    | zero =>
      intro A j hA hj1 hj2 hn
      have hj : j = -1074 := by omega
      by_cases hA2 : A < 2 ^ 52
      · exact ⟨0, A, by norm_num, hA2, by rw [if_pos rfl, hj]⟩
      · refine ⟨1, A - 2 ^ 52, by norm_num, by omega, ?_⟩
        rw [if_neg one_ne_zero, hj, show 2 ^ 52 + (A - 2 ^ 52) = A by omega]
        rfl
    | succ n ih =>
      intro A j hA hj1 hj2 hn
      by_cases hA2 : A < 2 ^ 52
      · obtain ⟨e, m, he, hm, hv⟩ := ih (2 * A) (j - 1) (by omega) (by omega) (by omega) (by omega)
        refine ⟨e, m, he, hm, ?_⟩
        rw [← hv, Nat.cast_mul, Nat.cast_ofNat, mul_comm (2 : ℚ), mul_assoc]
        congr 1
        have := two_add (a := 1) (b := j - 1) (c := j) (by omega)
        rw [zpow_one] at this
        exact this.symm
      · refine ⟨(j + 1075).toNat, A - 2 ^ 52, by omega, by omega, ?_⟩
        rw [if_neg (by omega), show 2 ^ 52 + (A - 2 ^ 52) = A by omega, show ((j + 1075).toNat : ℤ) - 1075 = j by omega]
  obtain ⟨e, m, he, hm, hv⟩ := key _ M.natAbs j (by zify; exact h1) h2 h3 rfl
  have pat (s : Bool) : ∃ x : BitVec 64, f64Finite x ∧ f64Val x = if s then -((M.natAbs : ℚ) * 2 ^ j) else (M.natAbs : ℚ) * 2 ^ j := by
    refine ⟨BitVec.ofNat 64 ((if s then 2 ^ 63 else 0) + e * 2 ^ 52 + m), ?_⟩
    have hn : (BitVec.ofNat 64 ((if s then 2 ^ 63 else 0) + e * 2 ^ 52 + m)).toNat = (if s then 2 ^ 63 else 0) + e * 2 ^ 52 + m := by
      rw [BitVec.toNat_ofNat, Nat.mod_eq_of_lt]; split <;> omega
    generalize BitVec.ofNat 64 ((if s then 2 ^ 63 else 0) + e * 2 ^ 52 + m) = x at hn ⊢
    have h1 : f64Exp x = e := by unfold f64Exp; split at hn <;> omega
    have h2 : f64Frac x = m := by unfold f64Frac; split at hn <;> omega
    have h3 : x.msb = s := by
      rw [BitVec.msb_eq_decide, show (64 : ℕ) - 1 = 63 from rfl]
      cases s
      · rw [decide_eq_false_iff_not]; simp only [Bool.false_eq_true, if_false] at hn; omega
      · rw [decide_eq_true_eq]; simp only [if_true] at hn; omega
    refine ⟨by unfold f64Finite; omega, ?_⟩
    rw [f64Val, h3, f64Abs, h1, h2, hv]
  rcases Int.natAbs_eq M with hM | hM
  · obtain ⟨x, fx, vx⟩ := pat false
    refine ⟨x, fx, ?_⟩
    have : (M : ℚ) = (M.natAbs : ℚ) := by conv_lhs => rw [hM]
                                          rw [Int.cast_natCast]
    rw [vx, this]; rfl
  · obtain ⟨x, fx, vx⟩ := pat true
    refine ⟨x, fx, ?_⟩
    have : (M : ℚ) = -(M.natAbs : ℚ) := by conv_lhs => rw [hM]
                                           rw [Int.cast_neg, Int.cast_natCast]
    rw [vx, this, if_pos rfl, neg_mul]

theorem exists_nearestEven (v : ℚ) : ∃ k, NearestEven v k := by
  have h1 := Int.floor_le v
  have h2 := Int.lt_floor_add_one v
  rcases lt_trichotomy (v - ⌊v⌋) (1 / 2) with h | h | h
  · exact ⟨⌊v⌋, by rw [abs_of_nonneg (by linarith)]; exact h.le, fun h' => by rw [abs_of_nonneg (by linarith)] at h'; linarith⟩
  · rcases Int.even_or_odd ⌊v⌋ with he | ho
    · exact ⟨⌊v⌋, by rw [abs_of_nonneg (by linarith)]; exact h.le, fun _ => he⟩
    · have e : v - ((⌊v⌋ + 1 : ℤ) : ℚ) = -(1 / 2) := by push_cast; linarith
      exact ⟨⌊v⌋ + 1, by rw [e, abs_neg, abs_of_pos (by norm_num)], fun _ => ho.add_one⟩
  · have e : |v - ((⌊v⌋ + 1 : ℤ) : ℚ)| = ⌊v⌋ + 1 - v := by
      push_cast; rw [abs_of_neg (by linarith)]; ring
    exact ⟨⌊v⌋ + 1, by rw [e]; linarith, fun h' => by rw [e] at h'; linarith⟩

theorem rep_int {k : ℤ} (h : |k| ≤ 2 ^ 52) : F64Rep k :=
  ⟨k, 0, by rw [abs_le] at h; rw [abs_lt]; omega, by omega, by omega, by simp⟩

theorem rep_nearest {v : ℚ} {k : ℤ} (h : F64Rep v) (hk : NearestEven v k) : F64Rep k := by
  obtain ⟨M, j, h1, h2, h3, hv⟩ := h
  by_cases hj : 0 ≤ j
  · obtain ⟨n, rfl⟩ := Int.eq_ofNat_of_zero_le hj
    have e : v = ((M * 2 ^ n : ℤ) : ℚ) := by rw [hv]; push_cast; rw [zpow_natCast]
    rw [e] at hk
    have := nearestEven_unique hk (nearestEven_int _)
    rw [this, ← e]; exact ⟨M, n, h1, h2, h3, hv⟩
  · refine rep_int ?_
    have hb : |v| ≤ 2 ^ 52 := by
      rw [hv, abs_mul, abs_of_pos (two_pos' j)]
      have hM : |(M : ℚ)| ≤ 2 ^ 53 := by exact_mod_cast h1.le
      calc |(M : ℚ)| * 2 ^ j ≤ 2 ^ 53 * 2 ^ (-1 : ℤ) := mul_le_mul hM (two_le (by omega)) (two_pos' j).le (by positivity)
        _ = 2 ^ 52 := by norm_num
    have t := abs_le.1 hb
    have n := abs_le.1 hk.1
    have t1 : (k : ℚ) < ((2 ^ 52 + 1 : ℤ) : ℚ) := by push_cast; linarith [n.1, t.2]
    have t2 : ((-2 ^ 52 - 1 : ℤ) : ℚ) < k := by push_cast; linarith [n.2, t.1]
    have t1' : k < 2 ^ 52 + 1 := by exact_mod_cast t1
    have t2' : -2 ^ 52 - 1 < k := by exact_mod_cast t2
    exact abs_le.2 ⟨by omega, by omega⟩

open Classical in
/-- Rounding down to the format. -/
noncomputable def downF64 (S : Finset ℚ) (v : ℚ) : ℚ :=
  if h : (S.filter (· ≤ v)).Nonempty then (S.filter (· ≤ v)).max' h else v

theorem downF64_mono (S : Finset ℚ) (v w : ℚ) (h : v ≤ w) : downF64 S v ≤ downF64 S w := by
  unfold downF64
  by_cases hv : (S.filter (· ≤ v)).Nonempty
  · have hw : (S.filter (· ≤ w)).Nonempty := hv.mono (Finset.monotone_filter_right S fun x _ hx => le_trans hx h)
    rw [dif_pos hv, dif_pos hw]
    exact Finset.max'_subset hv (Finset.monotone_filter_right S fun x _ hx => le_trans hx h)
  · rw [dif_neg hv]
    by_cases hw : (S.filter (· ≤ w)).Nonempty
    · rw [dif_pos hw]
      have hm := Finset.mem_filter.1 (Finset.max'_mem _ hw)
      by_contra hc
      exact hv ⟨_, Finset.mem_filter.2 ⟨hm.1, le_of_lt (not_le.1 hc)⟩⟩
    · rw [dif_neg hw]; exact h

theorem downF64_exact (S : Finset ℚ) {v : ℚ} (h : v ∈ S) : downF64 S v = v := by
  have hm : v ∈ S.filter (· ≤ v) := Finset.mem_filter.2 ⟨h, le_refl v⟩
  rw [downF64, dif_pos ⟨v, hm⟩]
  exact le_antisymm (Finset.mem_filter.1 (Finset.max'_mem (S.filter (· ≤ v)) ⟨v, hm⟩)).2 (Finset.le_max' _ _ hm)

theorem downF64_mem (S : Finset ℚ) {v b : ℚ} (hb : b ∈ S) (h : b ≤ v) : downF64 S v ∈ S := by
  have hm : b ∈ S.filter (· ≤ v) := Finset.mem_filter.2 ⟨hb, h⟩
  rw [downF64, dif_pos ⟨b, hm⟩]
  exact (Finset.mem_filter.1 (Finset.max'_mem _ _)).1

theorem exists_ieee : ∃ (F : Fpu) (rnd : ℚ → ℚ), IeeeFpu F rnd := by
  classical
  have hpick : ∀ v : ℚ, ∃ x : BitVec 64, F64Rep v → f64Finite x ∧ f64Val x = v := fun v => by
    by_cases h : F64Rep v
    · obtain ⟨x, hx⟩ := exists_pattern h; exact ⟨x, fun _ => hx⟩
    · exact ⟨0, fun h' => absurd h' h⟩
  choose pick hp using hpick
  choose ne hne using exists_nearestEven
  let S : Finset ℚ := (Finset.univ.filter fun x : Fin (2 ^ 64) => f64Finite ⟨x⟩).image fun x => f64Val ⟨x⟩
  have hS (v : ℚ) : v ∈ S ↔ F64Rep v := by
    constructor
    · intro h
      obtain ⟨x, hx, rfl⟩ := Finset.mem_image.1 h
      exact f64Val_rep (Finset.mem_filter.1 hx).2
    · intro h
      obtain ⟨x, fx, rfl⟩ := exists_pattern h
      exact Finset.mem_image.2 ⟨x.toFin, Finset.mem_filter.2 ⟨Finset.mem_univ _, fx⟩, rfl⟩
  have top : F64Rep (2 ^ (1023 : ℤ)) :=
    ⟨2 ^ 52, 971, by norm_num, by omega, by omega, by rw [Int.cast_pow, Int.cast_ofNat]; exact (two_add_nat (by omega)).symm⟩
  have hr {v : ℚ} (h : |v| ≤ 2 ^ (1023 : ℤ)) : F64Rep (downF64 S v) :=
    (hS _).1 (downF64_mem S ((hS _).2 (rep_neg top)) (abs_le.1 h).1)
  refine ⟨{
    add := fun x y => pick (downF64 S (f64Val x + f64Val y))
    sub := fun x y => pick (downF64 S (f64Val x - f64Val y))
    mul := fun x y => pick (downF64 S (f64Val x * f64Val y))
    fma := fun _ _ _ => 0
    fnma := fun _ _ _ => 0
    fms := fun _ _ _ => 0
    rne := fun x => pick (ne (f64Val x))
    ofI32 := fun x => pick x.toInt
    toI32 := fun x => if -2 ^ 31 ≤ ne (f64Val x) ∧ ne (f64Val x) < 2 ^ 31 then BitVec.ofInt 32 (ne (f64Val x)) else 0x80000000 },
    downF64 S, downF64_mono S, fun v h => downF64_exact S ((hS v).2 h),
    fun x y _ _ h => hp _ (hr h), fun x y _ _ h => hp _ (hr h), fun x y _ _ h => hp _ (hr h),
    fun x fx => ⟨(hp _ (rep_nearest (f64Val_rep fx) (hne _))).1, _, hne _, (hp _ (rep_nearest (f64Val_rep fx) (hne _))).2⟩,
    fun x => hp _ (rep_int ?_), fun x k fx hk => ?_⟩
  · have h1 := BitVec.toInt_lt (x := x)
    have h2 := BitVec.le_toInt x
    norm_num at h1 h2
    rw [abs_le]; constructor <;> omega
  · have : ne (f64Val x) = k := nearestEven_unique (hne _) (by rw [hk]; exact nearestEven_int k)
    simp only [this]

end Asm
end Tfhe
