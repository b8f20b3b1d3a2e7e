import Verif.Model.Gaussian
import Verif.Lemma.SplitMul
import Mathlib.Analysis.Complex.ExponentialBounds
import Mathlib.Algebra.Order.Ring.GeomSum

/-!
# C60: Gaussian samples are bounded, symmetric, and a function of the words read
-/
namespace Tfhe
open Gauss Rng

/-- What is asked of the platform: a result of `float64` arithmetic is off by at most `2^-53` of it; a number with 24 bits is a
`float32`; `math.Log` is off by at most `2^-50` of the logarithm on `(0, 1]`; `int64(x)` is `x` for an integer that fits.  Nothing
is asked of `math.Exp`. -/
structure GoodLibm (M : Libm) : Prop where
  fl : ∀ x, |M.fl x - x| ≤ 2⁻¹ ^ 53 * |x|
  fl32 : ∀ m s : ℤ, |m| ≤ 2 ^ 24 → M.fl32 (m * 2 ^ s) = m * 2 ^ s
  log : ∀ x, 0 < x → x ≤ 1 → |M.log x - Real.log x| ≤ 2⁻¹ ^ 50 * |Real.log x|
  int64 : ∀ z : ℤ, -2 ^ 63 ≤ z → z < 2 ^ 63 → M.int64 (.fin z) = BitVec.ofInt 64 z

/-- No two neighbours in the stream are both below `2^9`. -/
def NoTwoSmall (ws : List (BitVec 32)) : Prop :=
  ∀ pre a b post, ws = pre ++ a :: b :: post → 512 ≤ a.toNat ∨ 512 ≤ b.toNat

/-- An integer of at most 8.074 standard deviations, up to rounding, as a word. -/
def IsNoise {w : ℕ} (stdDev : ℝ) (v : BitVec w) : Prop := ∃ k : ℤ, v = BitVec.ofInt w k ∧ |(k : ℝ)| ≤ 8.074 * stdDev + 1 / 2

/-- The stream with the lowest bit of every word flipped. -/
def flipStream (ws : List (BitVec 32)) : List (BitVec 32) := ws.map (· ^^^ 1)

theorem NoTwoSmall.suffix {pre ws : List (BitVec 32)} (h : NoTwoSmall (pre ++ ws)) : NoTwoSmall ws :=
  fun p a b q e => h (pre ++ p) a b q (by rw [e, List.append_assoc])

namespace Gauss
variable {M : Libm}

/-! ### One uniform float -/

theorem uniformFloat_eq (hM : GoodLibm M) (h : BitVec 32) : uniformFloat M h = (h.toNat / 512 : ℕ) / 2 ^ 23 := by
  have hlt : h.toNat / 512 < 2 ^ 23 := by have := h.isLt; omega
  have e1 : (h >>> 9 + 2 ^ 23 : BitVec 32).toNat = h.toNat / 512 + 2 ^ 23 := by
    have : ((2 : BitVec 32) ^ 23).toNat = 2 ^ 23 := by decide +kernel
    rw [BitVec.toNat_add, this, BitVec.toNat_ushiftRight, Nat.shiftRight_eq_div_pow]
    norm_num at hlt ⊢
    omega
  have a1 := hM.fl32 (h.toNat / 512 + 2 ^ 23 : ℕ) 0 (by rw [Nat.abs_cast]; norm_num at hlt ⊢; omega)
  have a2 := hM.fl32 (h.toNat / 512 + 2 ^ 23 : ℕ) (-23) (by rw [Nat.abs_cast]; norm_num at hlt ⊢; omega)
  have a3 := hM.fl32 (h.toNat / 512 : ℕ) (-23) (by rw [Nat.abs_cast]; norm_num at hlt ⊢; omega)
  have hz : (2 : ℝ) ^ (-23 : ℤ) = 2⁻¹ ^ 23 := by norm_num
  rw [zpow_zero, mul_one] at a1
  rw [hz] at a2 a3
  simp only [uniformFloat, e1]
  rw [Int.cast_natCast] at a1 a2 a3
  rw [a1, a2]
  have : ((h.toNat / 512 + 2 ^ 23 : ℕ) : ℝ) * 2⁻¹ ^ 23 - 1 = (h.toNat / 512 : ℕ) * 2⁻¹ ^ 23 := by
    rw [Nat.cast_add, Nat.cast_pow, Nat.cast_ofNat]; ring
  rw [this, a3, div_eq_mul_inv, ← inv_pow]

theorem log_small (hM : GoodLibm M) (h : BitVec 32) (hs : h.toNat < 512) : Ext.log M (uniformFloat M h) = .inf true := by
  rw [uniformFloat_eq hM, Nat.div_eq_of_lt hs]
  simp [Ext.log]

theorem log_large (hM : GoodLibm M) (h : BitVec 32) (hs : 512 ≤ h.toNat) :
    ∃ L : ℝ, Ext.log M (uniformFloat M h) = .fin L ∧ -15.9424 ≤ L ∧ L ≤ 0 := by
  have hlt : h.toNat / 512 < 2 ^ 23 := by have := h.isLt; omega
  have hpos : 1 ≤ h.toNat / 512 := by omega
  set j := h.toNat / 512
  have hj : (1 : ℝ) ≤ (j : ℕ) := by exact_mod_cast hpos
  have hj2 : (j : ℝ) ≤ 2 ^ 23 := by exact_mod_cast hlt.le
  have hu : 0 < (j : ℝ) / 2 ^ 23 := by positivity
  have hu1 : (j : ℝ) / 2 ^ 23 ≤ 1 := by rw [div_le_one (by positivity)]; exact hj2
  rw [uniformFloat_eq hM]
  refine ⟨M.log (j / 2 ^ 23), by rw [Ext.log, if_neg hu.ne'], ?_, ?_⟩
  all_goals
    have hl := hM.log _ hu hu1
    have h0 : Real.log (j / 2 ^ 23) ≤ 0 := Real.log_nonpos hu.le hu1
    have h1 : -(23 * Real.log 2) ≤ Real.log (j / 2 ^ 23) := by
      rw [Real.log_div (by positivity) (by positivity), Real.log_pow]
      have := Real.log_nonneg hj
      push_cast
      linarith
    have h2 := Real.log_two_lt_d9
    rw [abs_of_nonpos h0, abs_le] at hl
    have h3 : (2⁻¹ : ℝ) ^ 50 ≤ 1 / 10 ^ 9 := by norm_num
    have h4 : (2⁻¹ : ℝ) ^ 50 * -Real.log (j / 2 ^ 23) ≤ 1 / 10 ^ 9 * -Real.log (j / 2 ^ 23) :=
      mul_le_mul_of_nonneg_right h3 (by linarith)
    linarith [hl.1, hl.2]

/-! ### Rounding -/

theorem fl_le (hM : GoodLibm M) {x c : ℝ} (h : |x| ≤ c) : |M.fl x| ≤ c * (1 + 2⁻¹ ^ 53) := by
  have h1 := hM.fl x
  have h2 : |M.fl x| ≤ |M.fl x - x| + |x| := by
    have := abs_add_le (M.fl x - x) x
    rwa [sub_add_cancel] at this
  nlinarith [abs_nonneg x, pow_pos (show (0 : ℝ) < 2⁻¹ by norm_num) 53]

theorem fl_nonneg (hM : GoodLibm M) {x : ℝ} (h : 0 ≤ x) : 0 ≤ M.fl x := by
  have h1 := abs_le.mp (hM.fl x)
  rw [abs_of_nonneg h] at h1
  have : (2⁻¹ : ℝ) ^ 53 ≤ 1 := by norm_num
  nlinarith [h1.1]

theorem fl_neg' (hM : GoodLibm M) {x : ℝ} (h : x < 0) : M.fl x < 0 := by
  have h1 := abs_le.mp (hM.fl x)
  rw [abs_of_neg h] at h1
  have : (2⁻¹ : ℝ) ^ 53 ≤ 1 / 2 := by norm_num
  nlinarith [h1.2]

theorem rnInv_real : ((-rnInv : ℚ) : ℝ) = -(1 / 3.442619855899) := by
  simp only [rnInv, rn]; push_cast; norm_num

/-! ### The tail -/

theorem tail_x (hM : GoodLibm M) (a : BitVec 32) (ha : 512 ≤ a.toNat) :
    ∃ v, Ext.mul M (.fin (M.fl (-rnInv : ℚ))) (Ext.log M (uniformFloat M a)) = .fin v ∧ 0 ≤ v ∧ v ≤ 4.631 := by
  obtain ⟨L, e, h1, h2⟩ := log_large hM a ha
  rw [e, Ext.mul]
  have hr : M.fl (-rnInv : ℚ) < 0 := fl_neg' hM (by rw [rnInv_real]; norm_num)
  have hr2 : |M.fl (-rnInv : ℚ)| ≤ (1 / 3.442619855899) * (1 + 2⁻¹ ^ 53) :=
    fl_le hM (by rw [rnInv_real, abs_neg, abs_of_pos (by norm_num)])
  have hp : 0 ≤ M.fl (-rnInv : ℚ) * L := mul_nonneg_of_nonpos_of_nonpos hr.le h2
  refine ⟨_, rfl, fl_nonneg hM hp, ?_⟩
  have hb : |M.fl (-rnInv : ℚ) * L| ≤ (1 / 3.442619855899) * (1 + 2⁻¹ ^ 53) * 15.9424 := by
    rw [abs_mul]
    exact mul_le_mul hr2 (by rw [abs_of_nonpos h2]; linarith) (abs_nonneg _) (by positivity)
  refine (le_abs_self _).trans ((fl_le hM hb).trans ?_)
  norm_num

theorem tailLoop_bound (hM : GoodLibm M) (ws : List (BitVec 32)) (hw : NoTwoSmall ws) (x : Ext) (rest : List (BitVec 32))
    (h : tailLoop M ws = some (x, rest)) : ∃ v, x = .fin v ∧ 0 ≤ v ∧ v ≤ 4.631 := by
  induction ws using tailLoop.induct M with
  | case1 a b post x' y' hc =>
    rw [tailLoop, if_pos hc] at h
    obtain ⟨rfl, -⟩ := Prod.mk.inj (Option.some.inj h)
    by_cases ha : 512 ≤ a.toNat
    · exact tail_x hM a ha
    · exfalso
      have hb := (hw [] a b post rfl).resolve_left ha
      obtain ⟨L, e, -, -⟩ := log_large hM b hb
      have hr : M.fl (-rnInv : ℚ) < 0 := fl_neg' hM (by rw [rnInv_real]; norm_num)
      simp only [x', y'] at hc
      rw [e, log_small hM a (by omega)] at hc
      generalize M.fl (-rnInv : ℚ) = r at hc hr
      simp [Ext.mul, Ext.neg, Ext.add, Ext.ge, hr.ne, hr] at hc
  | case2 a b post x' y' hc ih =>
    rw [tailLoop, if_neg hc] at h
    exact ih (NoTwoSmall.suffix (pre := [a, b]) hw) h
  | case3 l hl =>
    rw [tailLoop] at h
    · exact absurd h (by simp)
    · exact hl

/-! ### Normal samples -/

theorem wn_table : ∀ i : Fin 128, 0 ≤ wnTab.getD i 0 ∧ (i ≠ 0 → wnTab.getD i 0 * 2 ^ 24 ≤ 3.4427) := by decide +kernel

theorem wn_zero : (kn 0 : ℚ) * wnTab.getD 0 0 ≤ 3.4427 := by decide +kernel

theorem head_bound (hM : GoodLibm M) (u i : ℕ) (hi : i < 128) (hu : u < 2 ^ 24) (h0 : i = 0 → u < kn i) :
    |M.fl (u * wn M i)| ≤ 3.443 := by
  have hq : |((u : ℝ) * (wnTab.getD i 0 : ℚ))| ≤ 3.4427 := by
    have hn := (wn_table ⟨i, hi⟩).1
    have hn' : (0 : ℚ) ≤ u * wnTab.getD i 0 := mul_nonneg (by positivity) hn
    have hle : (u : ℚ) * wnTab.getD i 0 ≤ 3.4427 := by
      by_cases h : i = 0
      · subst h
        exact (mul_le_mul_of_nonneg_right (by exact_mod_cast (h0 rfl).le) hn).trans wn_zero
      · have h1 := (wn_table ⟨i, hi⟩).2 (by intro e; exact h (congrArg Fin.val e))
        have h2 : (u : ℚ) ≤ 2 ^ 24 := by exact_mod_cast hu.le
        exact (mul_le_mul_of_nonneg_right h2 hn).trans (by rw [mul_comm]; exact h1)
    rw [abs_of_nonneg (by exact_mod_cast hn')]
    have := (Rat.cast_le (K := ℝ)).mpr hle
    push_cast at this
    norm_num at this ⊢
    exact this
  have hw : |(u : ℝ) * wn M i| ≤ 3.4427 * (1 + 2⁻¹ ^ 53) := by
    have := fl_le hM (le_refl |((wnTab.getD i 0 : ℚ) : ℝ)|)
    rw [abs_mul] at hq ⊢
    calc |(u : ℝ)| * |wn M i| ≤ |(u : ℝ)| * (|((wnTab.getD i 0 : ℚ) : ℝ)| * (1 + 2⁻¹ ^ 53)) :=
          mul_le_mul_of_nonneg_left this (abs_nonneg _)
      _ = |(u : ℝ)| * |((wnTab.getD i 0 : ℚ) : ℝ)| * (1 + 2⁻¹ ^ 53) := by ring
      _ ≤ _ := mul_le_mul_of_nonneg_right hq (by positivity)
  exact (fl_le hM hw).trans (by norm_num)

theorem index_lt (h : BitVec 32) : ((h >>> 1) &&& 127).toNat < 128 := by
  rw [BitVec.toNat_and]
  exact lt_of_le_of_lt Nat.and_le_right (by decide)

theorem mantissa_lt (h : BitVec 32) : (h >>> 8).toNat < 2 ^ 24 := by
  have := h.isLt
  rw [BitVec.toNat_ushiftRight, Nat.shiftRight_eq_div_pow]
  omega

theorem normFloat_bound (hM : GoodLibm M) (ws : List (BitVec 32)) (hw : NoTwoSmall ws) (x : Ext) (rest : List (BitVec 32))
    (h : normFloat M ws = some (x, rest)) : ∃ v, x = .fin v ∧ |v| ≤ 8.0737 := by
  induction hn : ws.length using Nat.strong_induction_on generalizing ws with
  | _ n ih =>
  match ws, hw, h, hn with
  | [], _, h, _ => rw [normFloat] at h; simp at h
  | hd :: post, hw, h, hn =>
    rw [normFloat.eq_def] at h
    simp only at h
    have hi := index_lt hd
    have hu := mantissa_lt hd
    generalize ((hd >>> 1) &&& 127).toNat = i at h hi
    generalize (hd >>> 8).toNat = u at h hu
    have hx (h0 : i = 0 → u < kn i) :
        |if 0 < (hd &&& 1).toNat then -M.fl (u * wn M i) else M.fl (u * wn M i)| ≤ 8.0737 := by
      have := head_bound hM u i hi hu h0
      split
      · rw [abs_neg]; exact this.trans (by norm_num)
      · exact this.trans (by norm_num)
    generalize (if 0 < (hd &&& 1).toNat then -M.fl (u * wn M i) else M.fl (u * wn M i)) = xv at h hx
    split at h
    · next hk =>
      obtain ⟨rfl, -⟩ := Prod.mk.inj (Option.some.inj h)
      exact ⟨_, rfl, hx fun _ => hk⟩
    · split at h
      · next hk hi0 =>
        obtain ⟨⟨x', r'⟩, e1, e2⟩ := Option.map_eq_some_iff.mp h
        obtain ⟨v, rfl, h1, h2⟩ := tailLoop_bound hM post (NoTwoSmall.suffix (pre := [hd]) hw) x' r' e1
        obtain ⟨e3, -⟩ := Prod.mk.inj e2
        have hr : |M.fl (rn : ℚ)| ≤ 3.442619855899 * (1 + 2⁻¹ ^ 53) := fl_le hM (by
          rw [rn]; push_cast; norm_num)
        have hb : |M.fl (v + M.fl (rn : ℚ))| ≤ 8.0737 := by
          have : |v + M.fl (rn : ℚ)| ≤ 4.631 + 3.442619855899 * (1 + 2⁻¹ ^ 53) :=
            (abs_add_le _ _).trans (add_le_add (by rwa [abs_of_nonneg h1]) hr)
          exact (fl_le hM this).trans (by norm_num)
        subst e3
        split
        · exact ⟨_, rfl, by rw [abs_neg]; exact hb⟩
        · exact ⟨_, rfl, hb⟩
      · next hk hi0 =>
        split at h
        · simp at h
        · next a post' =>
          split at h
          · obtain ⟨rfl, -⟩ := Prod.mk.inj (Option.some.inj h)
            exact ⟨_, rfl, hx fun e => absurd e hi0⟩
          · exact ih post'.length (by rw [← hn]; simp) post' (NoTwoSmall.suffix (pre := [hd, a]) hw) h rfl

/-! ### The words that were read -/

theorem tailLoop_reads (ws : List (BitVec 32)) (x : Ext) (rest : List (BitVec 32)) (h : tailLoop M ws = some (x, rest)) :
    ∃ used, ws = used ++ rest ∧ ∀ more, tailLoop M (used ++ more) = some (x, more) := by
  induction ws using tailLoop.induct M with
  | case1 a b post x' y' hc =>
    rw [tailLoop, if_pos hc] at h
    obtain ⟨e1, rfl⟩ := Prod.mk.inj (Option.some.inj h)
    refine ⟨[a, b], rfl, fun more => ?_⟩
    rw [← e1]
    show tailLoop M (a :: b :: more) = _
    rw [tailLoop, if_pos hc]
  | case2 a b post x' y' hc ih =>
    rw [tailLoop, if_neg hc] at h
    obtain ⟨used, e, hu⟩ := ih h
    refine ⟨a :: b :: used, by rw [e]; rfl, fun more => ?_⟩
    show tailLoop M (a :: b :: (used ++ more)) = _
    rw [tailLoop, if_neg hc, hu]
  | case3 l hl =>
    rw [tailLoop] at h
    · exact absurd h (by simp)
    · exact hl

theorem normFloat_reads (ws : List (BitVec 32)) (x : Ext) (rest : List (BitVec 32)) (h : normFloat M ws = some (x, rest)) :
    ∃ used, used ≠ [] ∧ ws = used ++ rest ∧ ∀ more, normFloat M (used ++ more) = some (x, more) := by
  induction hn : ws.length using Nat.strong_induction_on generalizing ws with
  | _ n ih =>
  match ws, h, hn with
  | [], h, _ => rw [normFloat] at h; simp at h
  | hd :: post, h, hn =>
    rw [normFloat.eq_def] at h
    simp only at h
    generalize hxv : (if 0 < (hd &&& 1).toNat then -M.fl ((hd >>> 8).toNat * wn M ((hd >>> 1) &&& 127).toNat)
      else M.fl ((hd >>> 8).toNat * wn M ((hd >>> 1) &&& 127).toNat)) = xv at h
    split at h
    · next hk =>
      obtain ⟨e, rfl⟩ := Prod.mk.inj (Option.some.inj h)
      refine ⟨[hd], by simp, rfl, fun more => ?_⟩
      rw [normFloat.eq_def]
      simp only [List.cons_append, List.nil_append]
      rw [if_pos hk, hxv, e]
    · next hk =>
      split at h
      · next hi0 =>
        obtain ⟨⟨x', r'⟩, e1, e2⟩ := Option.map_eq_some_iff.mp h
        obtain ⟨used, e, hu⟩ := tailLoop_reads post x' r' e1
        obtain ⟨e3, rfl⟩ := Prod.mk.inj e2
        refine ⟨hd :: used, by simp, by rw [e]; rfl, fun more => ?_⟩
        rw [normFloat.eq_def]
        simp only [List.cons_append]
        rw [if_neg hk, if_pos hi0, hu, Option.map_some, ← e3]
      · next hi0 =>
        split at h
        · simp at h
        · next a post' =>
          split at h
          · next hwd =>
            obtain ⟨e, rfl⟩ := Prod.mk.inj (Option.some.inj h)
            refine ⟨[hd, a], by simp, rfl, fun more => ?_⟩
            rw [normFloat.eq_def]
            simp only [List.cons_append, List.nil_append]
            rw [if_neg hk, if_neg hi0, hxv, if_pos hwd, e]
          · next hwd =>
            obtain ⟨used, h0, e, hu⟩ := ih post'.length (by rw [← hn]; simp) post' h rfl
            refine ⟨hd :: a :: used, by simp, by rw [e]; rfl, fun more => ?_⟩
            rw [normFloat.eq_def]
            simp only [List.cons_append]
            rw [if_neg hk, if_neg hi0, hxv, if_neg hwd, hu]

/-! ### The other half of the streams -/

theorem flip_shift (h : BitVec 32) (n : ℕ) (hn : 1 ≤ n) (hn2 : n < 32) : (h ^^^ 1) >>> n = h >>> n := by
  rw [BitVec.ushiftRight_xor_distrib]
  have : (1 : BitVec 32) >>> n = 0 := by
    apply BitVec.eq_of_toNat_eq
    rw [BitVec.toNat_ushiftRight, Nat.shiftRight_eq_div_pow]
    exact Nat.div_eq_of_lt (by simpa using Nat.one_lt_two_pow (by omega))
  rw [this]; exact BitVec.xor_zero

theorem flip_sign (h : BitVec 32) : 0 < ((h ^^^ 1) &&& 1).toNat ↔ ¬ 0 < (h &&& 1).toNat := by
  have e (x : BitVec 32) : (x &&& 1).toNat = x.toNat % 2 := by
    rw [BitVec.toNat_and]; exact Nat.and_one_is_mod _
  have e1 : (h ^^^ 1).toNat = h.toNat ^^^ 1 := by rw [BitVec.toNat_xor]; rfl
  rw [e, e, e1]
  have := Nat.xor_mod_two_eq_one (a := h.toNat) (b := 1)
  omega

theorem flip_uniform (h : BitVec 32) : uniformFloat M (h ^^^ 1) = uniformFloat M h := by
  simp only [uniformFloat, flip_shift h (32 - 23) (by norm_num) (by norm_num)]

theorem tailLoop_flip (ws : List (BitVec 32)) :
    tailLoop M (flipStream ws) = (tailLoop M ws).map fun r => (r.1, flipStream r.2) := by
  induction ws using tailLoop.induct M with
  | case1 a b post x' y' hc =>
    show tailLoop M ((a ^^^ 1) :: (b ^^^ 1) :: flipStream post) = _
    rw [tailLoop, tailLoop, flip_uniform, flip_uniform, if_pos hc, if_pos hc]
    rfl
  | case2 a b post x' y' hc ih =>
    show tailLoop M ((a ^^^ 1) :: (b ^^^ 1) :: flipStream post) = _
    rw [tailLoop, tailLoop, flip_uniform, flip_uniform, if_neg hc, if_neg hc, ih]
  | case3 l hl =>
    rw [tailLoop, tailLoop]
    · rfl
    · exact hl
    · intro a b rest e
      match l, e with
      | a' :: b' :: r, _ => exact hl a' b' r rfl

theorem wedge_neg (hodd : ∀ x, M.fl (-x) = -M.fl x) (i : ℕ) (u x : ℝ) : wedge M i u (-x) = wedge M i u x := by
  simp only [wedge, mul_neg, hodd, neg_mul, neg_neg]

theorem normFloat_flip (hodd : ∀ x, M.fl (-x) = -M.fl x) (ws : List (BitVec 32)) :
    normFloat M (flipStream ws) = (normFloat M ws).map fun r => (r.1.neg, flipStream r.2) := by
  induction hn : ws.length using Nat.strong_induction_on generalizing ws with
  | _ n ih =>
  match ws, hn with
  | [], _ => rfl
  | hd :: post, hn =>
    show normFloat M ((hd ^^^ 1) :: flipStream post) = _
    rw [normFloat.eq_def, normFloat.eq_def]
    simp only [flip_shift hd 1 (by norm_num) (by norm_num), flip_shift hd 8 (by norm_num) (by norm_num), flip_sign]
    generalize ((hd >>> 1) &&& 127).toNat = i
    generalize (hd >>> 8).toNat = u
    have hs : (if ¬ 0 < (hd &&& 1).toNat then -M.fl (u * wn M i) else M.fl (u * wn M i)) =
        -(if 0 < (hd &&& 1).toNat then -M.fl (u * wn M i) else M.fl (u * wn M i)) := by
      by_cases h : 0 < (hd &&& 1).toNat
      · rw [if_neg (not_not.mpr h), if_pos h, neg_neg]
      · rw [if_pos h, if_neg h]
    rw [hs]
    generalize (if 0 < (hd &&& 1).toNat then -M.fl (u * wn M i) else M.fl (u * wn M i)) = xv
    split
    · rfl
    · split
      · rw [tailLoop_flip, Option.map_map, Option.map_map]
        congr 1
        funext r
        obtain ⟨x, r⟩ := r
        simp only [Function.comp]
        congr 1
        generalize Ext.add M x _ = z
        by_cases h : 0 < (hd &&& 1).toNat
        · simp only [h, not_true, if_false, if_true]
          cases z <;> simp [Ext.neg]
        · simp only [h, not_false_eq_true, if_false, if_true]
      · cases post with
        | nil => rfl
        | cons a post' =>
          simp only [flipStream, List.map_cons]
          rw [flip_uniform, wedge_neg hodd]
          split
          · rfl
          · exact ih post'.length (by rw [← hn]; simp) post' rfl

theorem round_neg (x : ℝ) : Fft.round (-x) = -Fft.round x := by
  unfold Fft.round
  rcases lt_trichotomy x 0 with h | h | h
  · rw [if_pos (by linarith), if_neg (by linarith), neg_neg]
  · subst h; norm_num
  · rw [if_neg (by linarith), if_pos h.le, neg_neg]

/-! ### Words -/

theorem toT_fin (hM : GoodLibm M) {w : ℕ} (hw : w ≤ 64) {σ : ℝ} (h0 : 0 ≤ σ) (hσ : 8.074 * σ + 1 / 2 < 2 ^ 63) {v : ℝ}
    (hv : |v| ≤ 8.0737) : |(Fft.round (M.fl (v * σ)) : ℝ)| ≤ 8.074 * σ + 1 / 2 ∧
      toT M w σ (.fin v) = BitVec.ofInt w (Fft.round (M.fl (v * σ))) := by
  have h1 : |v * σ| ≤ 8.0737 * σ := by
    rw [abs_mul, abs_of_nonneg h0]; exact mul_le_mul_of_nonneg_right hv h0
  have h2 : |M.fl (v * σ)| ≤ 8.074 * σ := (fl_le hM h1).trans (by
    have : (8.0737 : ℝ) * (1 + 2⁻¹ ^ 53) ≤ 8.074 := by norm_num
    nlinarith)
  have h3 := Fft.round_close (M.fl (v * σ))
  have h4 : |(Fft.round (M.fl (v * σ)) : ℝ)| ≤ 8.074 * σ + 1 / 2 := by
    have := abs_sub_abs_le_abs_sub (Fft.round (M.fl (v * σ)) : ℝ) (M.fl (v * σ))
    rw [abs_sub_comm] at h3
    linarith
  refine ⟨h4, ?_⟩
  have h5 := abs_lt.mp (h4.trans_lt hσ)
  have h6 : -2 ^ 63 ≤ Fft.round (M.fl (v * σ)) ∧ Fft.round (M.fl (v * σ)) < 2 ^ 63 :=
    ⟨by exact_mod_cast h5.1.le, by exact_mod_cast h5.2⟩
  simp only [toT, Ext.mul, Ext.round]
  rw [hM.int64 _ h6.1 h6.2]
  apply BitVec.eq_of_toNat_eq
  rw [BitVec.toNat_setWidth, BitVec.toNat_ofInt, BitVec.toNat_ofInt]
  have hd : ((2 ^ w : ℕ) : ℤ) ∣ ((2 ^ 64 : ℕ) : ℤ) := by exact_mod_cast pow_dvd_pow 2 hw
  have hp : (0 : ℤ) < ((2 ^ w : ℕ) : ℤ) := by positivity
  zify
  rw [Int.toNat_of_nonneg (Int.emod_nonneg _ (by positivity)), Int.toNat_of_nonneg (Int.emod_nonneg _ (by positivity))]
  push_cast at hd ⊢
  rw [Int.emod_emod_of_dvd _ hd]

theorem noise_of (hM : GoodLibm M) {w : ℕ} (hw : w ≤ 64) {σ : ℝ} (h0 : 0 ≤ σ) (hσ : 8.074 * σ + 1 / 2 < 2 ^ 63)
    (ws : List (BitVec 32)) (hs : NoTwoSmall ws) (x : Ext) (rest : List (BitVec 32)) (h : normFloat M ws = some (x, rest)) :
    IsNoise σ (toT M w σ x) := by
  obtain ⟨v, rfl, hv⟩ := normFloat_bound hM ws hs x rest h
  obtain ⟨h1, h2⟩ := toT_fin hM hw h0 hσ hv
  exact ⟨_, h2, h1⟩

theorem ofOption_ok {α : Type} {w : ℕ} {o : Option (α × List (BitVec w))} {a : α} {rest : List (BitVec w)}
    (h : Outcome.ofOption o = .ok a rest) : o = some (a, rest) := by
  cases o with
  | none => cases h
  | some r => cases h; rfl

theorem vecLoop_spec (hM : GoodLibm M) {w : ℕ} (hw : w ≤ 64) {σ : ℝ} (h0 : 0 ≤ σ) (hσ : 8.074 * σ + 1 / 2 < 2 ^ 63)
    (op : BitVec w → BitVec w → BitVec w) (cs : List (BitVec w)) (ws : List (BitVec 32)) (hs : NoTwoSmall ws)
    (l : List (BitVec w)) (rest : List (BitVec 32)) (h : vecLoop M op σ cs ws = some (l, rest)) :
    ∃ noise : List (BitVec w), noise.length = cs.length ∧ (∀ v ∈ noise, IsNoise σ v) ∧ l = cs.zipWith op noise ∧
      ∀ old : List (BitVec w), old.length = cs.length → vecLoop M (fun _ x => x) σ old ws = some (noise, rest) := by
  induction cs generalizing ws l with
  | nil =>
    rw [vecLoop] at h
    obtain ⟨rfl, rfl⟩ := Prod.mk.inj (Option.some.inj h)
    refine ⟨[], rfl, by simp, rfl, fun old ho => ?_⟩
    rw [List.length_eq_zero_iff.mp ho, vecLoop]
  | cons c cs ih =>
    rw [vecLoop] at h
    obtain ⟨⟨x, ws'⟩, e1, e2⟩ := Option.bind_eq_some_iff.mp h
    obtain ⟨⟨l', r'⟩, e3, e4⟩ := Option.map_eq_some_iff.mp e2
    obtain ⟨e5, rfl⟩ := Prod.mk.inj e4
    obtain ⟨used, -, e6, -⟩ := normFloat_reads ws x ws' e1
    obtain ⟨noise, n1, n2, n3, n4⟩ := ih ws' (NoTwoSmall.suffix (pre := used) (e6 ▸ hs)) l' e3
    refine ⟨toT M w σ x :: noise, by simp [n1], ?_, by rw [← e5, n3]; rfl, ?_⟩
    · intro v hv
      rcases List.mem_cons.mp hv with rfl | hv
      · exact noise_of hM hw h0 hσ ws hs x ws' e1
      · exact n2 v hv
    · intro old ho
      cases old with
      | nil => simp at ho
      | cons o old =>
        rw [vecLoop, e1, Option.bind_some]
        simp only
        rw [n4 old (by simpa using ho), Option.map_some]

end Gauss

section
variable {M : Libm} {w : ℕ} {σ : ℝ}

/-- **C60.**  A sample is an integer of at most 8.074 standard deviations (up to rounding), whatever words were read, unless two
neighbouring words are below `2^9`. -/
theorem C60_bounded_partial (hM : GoodLibm M) (hw : w ≤ 64) (hσ : 8.074 * σ + 1 / 2 < 2 ^ 63) (ws : List (BitVec 32))
    (hs : NoTwoSmall ws) (v : BitVec w) (rest : List (BitVec 32)) (h : sample M w σ ws = .ok v rest) : IsNoise σ v := by
  rw [sample] at h
  split at h
  · cases h
  · next h0 =>
    obtain ⟨⟨x, r⟩, e1, e2⟩ := Option.map_eq_some_iff.mp (ofOption_ok h)
    obtain ⟨rfl, rfl⟩ := Prod.mk.inj e2
    exact noise_of hM hw (not_lt.mp h0) hσ ws hs x r e1

/-- The same for `SampleVecTo` and `SamplePolyTo`, which keep the length. -/
theorem C60_vec_partial (hM : GoodLibm M) (hw : w ≤ 64) (hσ : 8.074 * σ + 1 / 2 < 2 ^ 63) (ws : List (BitVec 32))
    (hs : NoTwoSmall ws) (vOut l : List (BitVec w)) (rest : List (BitVec 32)) (h : sampleVecTo M σ vOut ws = .ok l rest) :
    l.length = vOut.length ∧ ∀ v ∈ l, IsNoise σ v := by
  rw [sampleVecTo] at h
  split at h
  · cases h
  · next h0 =>
    obtain ⟨noise, n1, n2, -, n4⟩ := vecLoop_spec hM hw (not_lt.mp h0) hσ _ vOut ws hs l rest (ofOption_ok h)
    have := n4 vOut rfl
    rw [ofOption_ok h] at this
    obtain ⟨rfl, -⟩ := Prod.mk.inj (Option.some.inj this)
    exact ⟨n1, n2⟩

/-- `SamplePolyAddTo` adds what `SamplePolyTo` would have written, from the same words, element by element. -/
theorem C60_add_partial (hM : GoodLibm M) (hw : w ≤ 64) (hσ : 8.074 * σ + 1 / 2 < 2 ^ 63) (ws : List (BitVec 32))
    (hs : NoTwoSmall ws) (p l : List (BitVec w)) (rest : List (BitVec 32)) (h : samplePolyAddTo M σ p ws = .ok l rest) :
    ∃ noise : List (BitVec w), noise.length = p.length ∧ (∀ v ∈ noise, IsNoise σ v) ∧ sampleVecTo M σ p ws = .ok noise rest ∧
      l = p.zipWith (· + ·) noise := by
  rw [samplePolyAddTo] at h
  split at h
  · cases h
  · next h0 =>
    obtain ⟨noise, n1, n2, n3, n4⟩ := vecLoop_spec hM hw (not_lt.mp h0) hσ _ p ws hs l rest (ofOption_ok h)
    exact ⟨noise, n1, n2, by rw [sampleVecTo, if_neg h0, n4 p rfl]; rfl, n3⟩

/-- `SamplePolySubTo` subtracts it. -/
theorem C60_sub_partial (hM : GoodLibm M) (hw : w ≤ 64) (hσ : 8.074 * σ + 1 / 2 < 2 ^ 63) (ws : List (BitVec 32))
    (hs : NoTwoSmall ws) (p l : List (BitVec w)) (rest : List (BitVec 32)) (h : samplePolySubTo M σ p ws = .ok l rest) :
    ∃ noise : List (BitVec w), noise.length = p.length ∧ (∀ v ∈ noise, IsNoise σ v) ∧ sampleVecTo M σ p ws = .ok noise rest ∧
      l = p.zipWith (· - ·) noise := by
  rw [samplePolySubTo] at h
  split at h
  · cases h
  · next h0 =>
    obtain ⟨noise, n1, n2, n3, n4⟩ := vecLoop_spec hM hw (not_lt.mp h0) hσ _ p ws hs l rest (ofOption_ok h)
    exact ⟨noise, n1, n2, by rw [sampleVecTo, if_neg h0, n4 p rfl]; rfl, n3⟩

/-- A sample is a function of the words it read: at least one; the words after them are left for the next call and do not matter. -/
theorem C60_reads (ws : List (BitVec 32)) (v : BitVec w) (rest : List (BitVec 32)) (h : sample M w σ ws = .ok v rest) :
    ∃ used, used ≠ [] ∧ ws = used ++ rest ∧ ∀ more, sample M w σ (used ++ more) = .ok v more := by
  rw [sample] at h
  split at h
  · cases h
  · next h0 =>
    obtain ⟨⟨x, r⟩, e1, e2⟩ := Option.map_eq_some_iff.mp (ofOption_ok h)
    obtain ⟨e3, rfl⟩ := Prod.mk.inj e2
    obtain ⟨used, hne, e, hu⟩ := normFloat_reads ws x r e1
    refine ⟨used, hne, e, fun more => ?_⟩
    rw [sample, if_neg h0, hu, Option.map_some, ← e3]
    rfl

/-- The samples are symmetric around zero: flipping the lowest bit of every word is a bijection of the streams, and it negates the
sample. -/
theorem C60_symmetric_partial (hM : GoodLibm M) (hodd : ∀ x, M.fl (-x) = -M.fl x) (hw : w ≤ 64) (hσ : 8.074 * σ + 1 / 2 < 2 ^ 63)
    (ws : List (BitVec 32)) (hs : NoTwoSmall ws) (v : BitVec w) (rest : List (BitVec 32)) (h : sample M w σ ws = .ok v rest) :
    sample M w σ (flipStream ws) = .ok (-v) (flipStream rest) := by
  rw [sample] at h
  split at h
  · cases h
  · next h0 =>
    obtain ⟨⟨x, r⟩, e1, e2⟩ := Option.map_eq_some_iff.mp (ofOption_ok h)
    obtain ⟨rfl, rfl⟩ := Prod.mk.inj e2
    obtain ⟨v, rfl, hv⟩ := normFloat_bound hM ws hs x r e1
    rw [sample, if_neg h0, normFloat_flip hodd, e1, Option.map_some, Option.map_some]
    simp only [Ext.neg]
    rw [(toT_fin hM hw (not_lt.mp h0) hσ hv).2, (toT_fin hM hw (not_lt.mp h0) hσ (v := -v) (by rwa [abs_neg])).2, neg_mul, hodd,
      round_neg, BitVec.ofInt_neg]
    rfl

/-- The functions panic exactly for a negative standard deviation. -/
theorem C60_panic (ws : List (BitVec 32)) (p : List (BitVec w)) :
    (sample M w σ ws = .panic ↔ σ < 0) ∧ (sampleVecTo M σ p ws = .panic ↔ σ < 0) ∧
    (samplePolyAddTo M σ p ws = .panic ↔ σ < 0) ∧ (samplePolySubTo M σ p ws = .panic ↔ σ < 0) := by
  have key {α : Type} (o : Option (α × List (BitVec 32))) :
      ((if σ < 0 then Outcome.panic else Outcome.ofOption o) = Outcome.panic ↔ σ < 0) := by
    by_cases h : σ < 0
    · simp [h]
    · rw [if_neg h]
      cases o <;> simp [Outcome.ofOption, h]
  exact ⟨key _, key _, key _, key _⟩

/-- Two neighbouring words below `2^9` where the tail is sampled: the sample is whatever the platform makes of `int64(+Inf)`, for
every positive standard deviation. -/
theorem C60_inf (hM : GoodLibm M) (hσ : 0 < σ) (a b : BitVec 32) (ha : a.toNat < 512) (hb : b.toNat < 512)
    (rest : List (BitVec 32)) :
    sample M w σ (0xFFFFFF00 :: a :: b :: rest) = .ok ((M.int64 (.inf false)).setWidth w) rest := by
  have hr : M.fl (-rnInv : ℚ) < 0 := fl_neg' hM (by rw [rnInv_real]; norm_num)
  have ht : tailLoop M (a :: b :: rest) = some (.inf false, rest) := by
    rw [tailLoop, log_small hM a ha, log_small hM b hb]
    generalize M.fl (-rnInv : ℚ) = r at hr
    simp [Ext.mul, Ext.neg, Ext.add, Ext.ge, hr.ne, hr]
  have hn : normFloat M (0xFFFFFF00 :: a :: b :: rest) = some (.inf false, rest) := by
    rw [normFloat.eq_def]
    simp only
    rw [if_neg (by decide +kernel), if_pos (by decide +kernel), ht, Option.map_some,
      if_neg (by decide +kernel)]
    rfl
  rw [sample, if_neg hσ.le.not_gt, hn, Option.map_some]
  simp [toT, Ext.mul, Ext.round, hσ.ne', hσ.le.not_gt, Outcome.ofOption]

end

/-! ### The tables -/

/-- 16 terms of the exponential series at `-t`. -/
def expTerms (t : ℚ) : ℚ := ((List.range 16).map fun k => (-t) ^ k / k.factorial).sum

theorem fn_check : ∀ i : Fin 128, i ≠ 0 →
    let t := (2 ^ 24 * wnTab.getD i 0) ^ 2 / 32
    0 ≤ t ∧ t ≤ 1 / 2 ∧ 0 ≤ expTerms t ∧ expTerms t ≤ 1 ∧ |fnTab.getD i 0 - expTerms t ^ 16| ≤ 1 / 10 ^ 14 := by
  decide +kernel

theorem expTerms_near (t : ℚ) (h0 : 0 ≤ t) (h1 : t ≤ 1 / 2) (h2 : 0 ≤ expTerms t) (h3 : expTerms t ≤ 1) :
    |Real.exp (-(t : ℝ)) ^ 16 - ((expTerms t ^ 16 : ℚ) : ℝ)| ≤ 1 / 10 ^ 14 := by
  have ht0 : (0 : ℝ) ≤ t := by exact_mod_cast h0
  have ht1 : (t : ℝ) ≤ 1 / 2 := by have := (Rat.cast_le (K := ℝ)).mpr h1; push_cast at this; exact this
  have e : ((expTerms t : ℚ) : ℝ) = ∑ m ∈ Finset.range 16, (-(t : ℝ)) ^ m / m.factorial := by
    rw [expTerms]
    simp [Finset.sum_range_succ, List.range_succ, add_assoc]
  have hb := Real.exp_bound (x := -(t : ℝ)) (by rw [abs_neg, abs_of_nonneg ht0]; linarith) (n := 16) (by norm_num)
  rw [← e, abs_neg, abs_of_nonneg ht0] at hb
  have hb2 : |Real.exp (-(t : ℝ)) - (expTerms t : ℚ)| ≤ 1 / 10 ^ 16 := by
    refine hb.trans ?_
    have : (t : ℝ) ^ 16 ≤ (1 / 2) ^ 16 := pow_le_pow_left₀ ht0 ht1 16
    refine (mul_le_mul_of_nonneg_right this (by positivity)).trans ?_
    norm_num [Nat.factorial]
  have hm : max |Real.exp (-(t : ℝ))| |((expTerms t : ℚ) : ℝ)| ≤ 1 := by
    rw [abs_of_pos (Real.exp_pos _), abs_of_nonneg (by exact_mod_cast h2)]
    exact max_le (Real.exp_le_one_iff.mpr (by linarith)) (by exact_mod_cast h3)
  push_cast
  refine (abs_pow_sub_pow_le _ _ 16).trans ?_
  have hp : max |Real.exp (-(t : ℝ))| |((expTerms t : ℚ) : ℝ)| ^ (16 - 1) ≤ 1 := pow_le_one₀ (by positivity) hm
  calc |Real.exp (-(t : ℝ)) - (expTerms t : ℚ)| * (16 : ℕ) * max |Real.exp (-(t : ℝ))| |((expTerms t : ℚ) : ℝ)| ^ (16 - 1)
      ≤ (1 / 10 ^ 16 * (16 : ℕ)) * 1 := by gcongr
    _ ≤ _ := by norm_num

/-- The right end of layer `i`, `2^24 * wn[i]`. -/
def layerX (i : ℕ) : ℚ := 2 ^ 24 * wnTab.getD i 0

/-- **C60, the tables.**  `fn` is the density `exp(-x^2/2)` at the ends of the layers. -/
theorem C60_density (i : ℕ) (h0 : 0 < i) (hi : i < 128) :
    |((fnTab.getD i 0 : ℚ) : ℝ) - Real.exp (-(layerX i : ℝ) ^ 2 / 2)| ≤ 1 / 10 ^ 13 := by
  obtain ⟨a1, a2, a3, a4, a5⟩ := fn_check ⟨i, hi⟩ (by intro e; have := congrArg Fin.val e; simp at this; omega)
  have h := expTerms_near _ a1 a2 a3 a4
  have e : Real.exp (-(((2 ^ 24 * wnTab.getD i 0) ^ 2 / 32 : ℚ) : ℝ)) ^ 16 = Real.exp (-(layerX i : ℝ) ^ 2 / 2) := by
    rw [← Real.exp_nat_mul]
    congr 1
    rw [layerX]; push_cast; ring
  simp only at h
  rw [e] at h
  have a6 : |((fnTab.getD i 0 : ℚ) : ℝ) - ((expTerms ((2 ^ 24 * wnTab.getD i 0) ^ 2 / 32) ^ 16 : ℚ) : ℝ)| ≤ 1 / 10 ^ 14 := by
    have := (Rat.cast_le (K := ℝ)).mpr a5
    push_cast at this ⊢
    exact this
  rw [abs_sub_comm] at h
  refine (abs_sub_le _ _ _).trans ((add_le_add a6 h).trans ?_)
  norm_num

/-- The layers grow, all have the same area (the lowest one together with the tail beyond `rn`), and a word is accepted at once
when the point lies left of the end of the layer above (for the one word at the end the other test decides). -/
theorem C60_layers :
    (∀ i < 127, 0 < i → layerX i < layerX (i + 1)) ∧ |layerX 127 - rn| ≤ 1 / 10 ^ 15 ∧ fnTab.getD 0 0 = 1 ∧
    (∀ i < 128, 0 < i → |layerX i * (fnTab.getD (i - 1) 0 - fnTab.getD i 0) - 9.91256303526217e-3| ≤ 2 / 10 ^ 11) ∧
    |layerX 0 * fnTab.getD 127 0 - 9.91256303526217e-3| ≤ 1 / 10 ^ 15 ∧
    (∀ i < 128, 1 < i → ∀ u : ℕ, (u < kn i → u * wnTab.getD i 0 < layerX (i - 1)) ∧
      (kn i < u → layerX (i - 1) < u * wnTab.getD i 0)) ∧ kn 1 = 0 ∧
    |kn 0 * wnTab.getD 0 0 - rn| ≤ wnTab.getD 0 0 := by
  have hk : ∀ i : Fin 128, 1 < i.val → 0 < wnTab.getD i 0 ∧ kn i * wnTab.getD i 0 ≤ layerX (i - 1) ∧
      layerX (i - 1) < (kn i + 1) * wnTab.getD i 0 := by decide +kernel
  refine ⟨by decide +kernel, by decide +kernel, by decide +kernel, by decide +kernel, by decide +kernel, ?_, by decide +kernel,
    by decide +kernel⟩
  intro i hi h1 u
  obtain ⟨p, q, r⟩ := hk ⟨i, hi⟩ h1
  simp only at p q r
  constructor
  · intro h
    have : (u : ℚ) + 1 ≤ kn i := by exact_mod_cast h
    nlinarith
  · intro h
    have : (kn i : ℚ) + 1 ≤ u := by exact_mod_cast h
    nlinarith

/-! ### Cases -/

/-- A platform with exact arithmetic whose conversion of anything that does not fit is the smallest integer, as on amd64. -/
noncomputable def exLibm : Libm where
  fl := id
  fl32 := id
  fuse := false
  log := Real.log
  exp := Real.exp
  int64 := fun x => match x with
    | .fin x => BitVec.ofInt 64 (Fft.round x)
    | _ => BitVec.intMin 64

theorem exLibm_good : GoodLibm exLibm where
  fl := fun x => by simp [exLibm]
  fl32 := fun m s _ => rfl
  log := fun x _ _ => by simp [exLibm]
  int64 := fun z _ _ => by
    have := Fft.round_add z 0 (by norm_num)
    rw [add_zero] at this
    simp [exLibm, this]

/-- Without the condition on the words the bound fails: a sample for the standard deviation 1 that is `2^63`. -/
theorem C60_bounded_false : ¬ ∀ M : Libm, GoodLibm M → ∀ (ws rest : List (BitVec 32)) (v : BitVec 64),
    sample M 64 1 ws = .ok v rest → IsNoise 1 v := by
  intro h
  obtain ⟨k, h1, h2⟩ := h exLibm exLibm_good [0xFFFFFF00, 0, 0] [] _
    (C60_inf exLibm_good one_pos 0 0 (by decide) (by decide) [])
  have h3 : |k| < 9 := by
    have : |(k : ℝ)| < 9 := h2.trans_lt (by norm_num)
    exact_mod_cast this
  rw [abs_lt] at h3
  have h4 : BitVec.setWidth 64 (exLibm.int64 (.inf false)) = BitVec.intMin 64 := by simp [exLibm]
  rw [h4] at h1
  have h5 := congrArg BitVec.toInt h1
  rw [BitVec.toInt_ofInt, Int.bmod_eq_of_le (by omega) (by omega)] at h5
  have h6 : (BitVec.intMin 64).toInt = -2 ^ 63 := by decide +kernel
  rw [h6] at h5
  omega

theorem exTail : tailLoop exLibm [512, 0, 1234] = some (.fin (23 * Real.log 2 / 3.442619855899), [1234]) := by
  have hu : uniformFloat exLibm 512 = 1 / 2 ^ 23 := by
    rw [uniformFloat_eq exLibm_good, show (512 : BitVec 32).toNat / 512 = 1 by decide +kernel, Nat.cast_one]
  have hx : Ext.mul exLibm (.fin (exLibm.fl (-rnInv : ℚ))) (Ext.log exLibm (uniformFloat exLibm 512)) =
      .fin (23 * Real.log 2 / 3.442619855899) := by
    rw [hu, rnInv_real, Ext.log, if_neg (by norm_num)]
    simp only [Ext.mul, exLibm, id]
    rw [one_div ((2 : ℝ) ^ 23), Real.log_inv, Real.log_pow]
    congr 1
    push_cast
    ring
  rw [tailLoop, hx, log_small exLibm_good 0 (by decide)]
  simp [Ext.neg, Ext.add, Ext.mul, Ext.ge]

theorem exNorm : normFloat exLibm [0xFFFFFF00, 512, 0, 1234] =
    some (.fin (23 * Real.log 2 / 3.442619855899 + 3.442619855899), [1234]) := by
  rw [normFloat.eq_def]
  simp only
  rw [if_neg (by decide +kernel), if_pos (by decide +kernel), exTail, Option.map_some, if_neg (by decide +kernel)]
  have : ((rn : ℚ) : ℝ) = 3.442619855899 := by rw [rn]; push_cast; norm_num
  simp only [Ext.add, exLibm, id, this]

/-- A sample at the bound: 807 for the standard deviation 100, where the bound is 807.9. -/
example : sample exLibm 64 100 [0xFFFFFF00, 512, 0, 1234] = .ok 807 [1234] ∧ NoTwoSmall [0xFFFFFF00, 512, 0, 1234] ∧
    (8.074 * (100 : ℝ) + 1 / 2 < 2 ^ 63) := by
  refine ⟨?_, ?_, by norm_num⟩
  · rw [sample, if_neg (by norm_num), exNorm, Option.map_some]
    have h1 := Real.log_two_gt_d9
    have h2 := Real.log_two_lt_d9
    have hr : Fft.round ((23 * Real.log 2 / 3.442619855899 + 3.442619855899) * 100) = 807 := by
      have := Fft.round_add 807 ((23 * Real.log 2 / 3.442619855899 + 3.442619855899) * 100 - 807)
        (by rw [abs_lt]; norm_num at h1 h2 ⊢; constructor <;> linarith)
      rwa [Int.cast_ofNat, add_sub_cancel] at this
    have : toT exLibm 64 100 (.fin (23 * Real.log 2 / 3.442619855899 + 3.442619855899)) = 807 := by
      have h3 : exLibm.int64 (.fin (807 : ℝ)) = 807 := by
        have := exLibm_good.int64 807 (by norm_num) (by norm_num)
        rw [Int.cast_ofNat] at this
        exact this
      have h4 : (Ext.mul exLibm (.fin (23 * Real.log 2 / 3.442619855899 + 3.442619855899)) (.fin 100)).round = .fin (807 : ℝ) := by
        simp only [Ext.mul, Ext.round, exLibm, id, hr, Int.cast_ofNat]
      rw [toT, h4, h3]
      rfl
    simp only [this]
    rfl
  · intro pre a b post e
    match pre, e with
    | [], e => cases e; left; decide
    | [_], e => cases e; left; decide
    | [_, _], e => cases e; right; decide
    | _ :: _ :: _ :: pre, e => exact absurd (congrArg List.length e) (by simp; omega)

end Tfhe
