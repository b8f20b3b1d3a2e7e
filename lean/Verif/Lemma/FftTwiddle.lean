import Verif.Lemma.FftPass
import Verif.Props.C44
import Verif.Props.C23
import Verif.Props.C03
import Mathlib.Analysis.SpecialFunctions.Complex.Log

/-!
# The twiddle factors
-/
namespace Tfhe.Fft
open Tfhe

/-- `cmplx.Exp(complex(0, 2*math.Pi*n/d))` in exact arithmetic. -/
noncomputable def rcis (n : ℤ) (d : ℕ) : ℝ × ℝ := (Real.cos (2 * Real.pi * (n / d)), Real.sin (2 * Real.pi * (n / d)))

/-- `exp(2πiθ)`. -/
noncomputable def ex (θ : ℝ) : ℂ := Complex.exp (2 * Real.pi * θ * Complex.I)

theorem toC_rcis (n : ℤ) (d : ℕ) : toC (rcis n d) = ex (n / d) := by
  have h : ex (n / d) = Complex.exp (((2 * Real.pi * (n / d) : ℝ) : ℂ) * Complex.I) := by
    unfold ex; congr 1; push_cast; ring
  rw [h]
  apply Complex.ext
  · rw [Complex.exp_ofReal_mul_I_re]; rfl
  · rw [Complex.exp_ofReal_mul_I_im]; rfl

theorem toC_cmul (a b : ℝ × ℝ) : toC (cmul a b) = toC a * toC b := by
  apply Complex.ext <;> simp [toC, cmul]

theorem ex_add (a b : ℝ) : ex (a + b) = ex a * ex b := by
  unfold ex; rw [← Complex.exp_add]; congr 1; push_cast; ring
theorem ex_ne_zero (a : ℝ) : ex a ≠ 0 := Complex.exp_ne_zero _
theorem ex_zero : ex 0 = 1 := by simp [ex]
theorem ex_neg (a : ℝ) : ex (-a) = (ex a)⁻¹ := by
  unfold ex; rw [← Complex.exp_neg]; congr 1; push_cast; ring
theorem ex_int (k : ℤ) : ex k = 1 := by
  unfold ex
  rw [Complex.exp_eq_one_iff]
  exact ⟨k, by push_cast; ring⟩
theorem ex_add_int (a : ℝ) (k : ℤ) : ex (a + k) = ex a := by rw [ex_add, ex_int, mul_one]
theorem ex_half : ex (1 / 2) = -1 := by
  unfold ex; rw [← Complex.exp_pi_mul_I]; congr 1; push_cast; ring
theorem ex_quarter : ex (1 / 4) = Complex.I := by
  unfold ex
  rw [show (2 * Real.pi * ((1 / 4 : ℝ) : ℂ) * Complex.I : ℂ) = (Real.pi / 2 : ℂ) * Complex.I by push_cast; ring]
  rw [Complex.exp_mul_I]; simp
theorem ex_pow (a : ℝ) (n : ℕ) : ex a ^ n = ex (n * a) := by
  unfold ex; rw [← Complex.exp_nat_mul]; congr 1; push_cast; ring
theorem ex_conj (a : ℝ) : (starRingEnd ℂ) (ex a) = ex (-a) := by
  unfold ex; rw [← Complex.exp_conj]; congr 1; simp [Complex.conj_ofNat]

/-- The number that position `i` is evaluated at after `s` stages. -/
noncomputable def cc (s i : ℕ) : ℂ := ex ((1 - 4 * (bitRev s i : ℝ)) / (4 * 2 ^ s))
/-- The twiddle factors. -/
noncomputable def WW (s i : ℕ) : ℂ := ex ((1 - 4 * (bitRev s i : ℝ)) / (8 * 2 ^ s))

theorem WW_ne (s i : ℕ) : WW s i ≠ 0 := ex_ne_zero _

theorem WW_sq (s i : ℕ) : WW s i * WW s i = cc s i := by
  unfold WW cc; rw [← ex_add]; congr 1; ring

theorem cc_even (s i : ℕ) : cc (s + 1) (2 * i) = WW s i := by
  unfold WW cc
  rw [bitRev, show 2 * i % 2 = 0 by omega, show 2 * i / 2 = i by omega, zero_mul, zero_add, pow_succ]
  congr 1; ring

theorem cc_odd (s i : ℕ) : cc (s + 1) (2 * i + 1) = -WW s i := by
  unfold WW cc
  rw [bitRev, show (2 * i + 1) % 2 = 1 by omega, show (2 * i + 1) / 2 = i by omega, one_mul]
  have h : (1 - 4 * ((2 ^ s + bitRev s i : ℕ) : ℝ)) / (4 * 2 ^ (s + 1)) =
      (1 - 4 * (bitRev s i : ℝ)) / (8 * 2 ^ s) + 1 / 2 + ((-1 : ℤ) : ℝ) := by
    have : (2 : ℝ) ^ s ≠ 0 := by positivity
    rw [pow_succ]; push_cast; field_simp; ring
  rw [h, ex_add_int, ex_add, ex_half]; ring

theorem bitRev_zero (n : ℕ) : bitRev n 0 = 0 := by
  induction n with
  | zero => rfl
  | succ n ih => simp [bitRev, ih]

theorem bitRev_add (s k i : ℕ) (hi : i < 2 ^ s) : bitRev (s + k) i = 2 ^ k * bitRev s i := by
  induction s generalizing i with
  | zero => obtain rfl : i = 0 := by simpa using hi
            rw [bitRev_zero, bitRev_zero, mul_zero]
  | succ s ih =>
    rw [show s + 1 + k = (s + k) + 1 by ring, bitRev, bitRev, ih (i / 2) (by rw [pow_succ] at hi; omega), pow_add]
    ring

/-! ### The tables -/

/-- What an evaluator must contain. -/
structure Good (l : ℕ) (e : Eval ℝ) : Prop where
  rank : e.rank = 2 ^ (l + 4)
  tw : ∀ s < l + 3, ∀ i < 2 ^ s, toC (e.tw (2 ^ s - 1 + i)) = WW s i
  twInv : ∀ s < l + 3, ∀ i < 2 ^ s, toC (e.twInv (2 ^ (l + 3) - 2 ^ (s + 1) + i)) = (WW s i)⁻¹
  twMono : ∀ i < 2 * 2 ^ (l + 4), toC (e.twMono i) = ex (-(i : ℝ) / (2 * 2 ^ (l + 4)))
  twMonoIdx : ∀ i < 2 ^ (l + 3), e.twMonoIdx i =
    if bitRev (l + 3) i = 0 then 2 * 2 ^ (l + 4) - 1 else 4 * bitRev (l + 3) i - 1

/-- How the code computes a factor. -/
theorem WW_eq (L s i : ℕ) (hs : s < L) (hi : i < 2 ^ s) :
    WW s i = ex (-(bitRev (L - 1) i : ℝ) / 2 ^ L) * ex (((2 ^ (L - 1 - s) : ℕ) : ℤ) / (4 * 2 ^ L : ℕ)) := by
  rw [← ex_add]
  unfold WW
  congr 1
  rw [show L - 1 = s + (L - 1 - s) by omega, bitRev_add _ _ _ hi, show s + (L - 1 - s) - s = L - 1 - s by omega]
  have h2 : (2 : ℝ) ^ L = 2 * 2 ^ s * 2 ^ (L - 1 - s) := by
    rw [← pow_succ', ← pow_add]; congr 1; omega
  push_cast
  rw [h2]
  have : (2 : ℝ) ^ s ≠ 0 := by positivity
  have : (2 : ℝ) ^ (L - 1 - s) ≠ 0 := by positivity
  field_simp; ring

theorem WW_inv_eq (L s i : ℕ) (hs : s < L) (hi : i < 2 ^ s) :
    (WW s i)⁻¹ = ex ((bitRev (L - 1) i : ℝ) / 2 ^ L) * ex ((-(2 ^ (L - 1 - s) : ℕ) : ℤ) / (4 * 2 ^ L : ℕ)) := by
  rw [WW_eq L s i hs hi, mul_inv, ← ex_neg, ← ex_neg]
  congr 2 <;> push_cast <;> ring

section Loops
variable (mul : ℝ × ℝ → ℝ × ℝ → ℝ × ℝ) (cis : ℤ → ℕ → ℝ × ℝ)

theorem twLoop_spec (L : ℕ) (tf : List (ℝ × ℝ)) (_hlen : tf.length = 2 ^ (L - 1))
    (Q : ℕ → ℝ × ℝ → Prop) (P : ℕ → ℕ → ℝ × ℝ → Prop)
    (htf : ∀ i < 2 ^ (L - 1), ∃ z, tf[i]? = some z ∧ Q i z)
    (hP : ∀ s < L, ∀ i < 2 ^ s, ∀ z, Q i z → P s i (mul z (cis (2 ^ (L - 1 - s) : ℕ) (4 * 2 ^ L)))) (k : ℕ) :
    ∀ (s fuel : ℕ) (acc : List (ℝ × ℝ)), s + k = L → 1 ≤ L → k ≤ fuel → acc.length = 2 ^ s - 1 →
      (∀ s' < s, ∀ i < 2 ^ s', ∃ z, acc[2 ^ s' - 1 + i]? = some z ∧ P s' i z) →
      ∃ tw, twLoop mul cis (2 ^ L) tf fuel (2 ^ s) (2 ^ L / 2 / 2 ^ s) acc = some tw ∧ tw.length = 2 ^ L - 1 ∧
        ∀ s' < L, ∀ i < 2 ^ s', ∃ z, tw[2 ^ s' - 1 + i]? = some z ∧ P s' i z := by
  induction k with
  | zero =>
    intro s fuel acc hs hL _ hacc hinv
    obtain rfl : s = L := by omega
    refine ⟨acc, ?_, hacc, hinv⟩
    cases fuel with
    | zero => rfl
    | succ f =>
      rw [twLoop, if_neg]
      have : 0 < 2 ^ s := by positivity
      omega
  | succ k ih =>
    intro s fuel acc hs hL hf hacc hinv
    obtain ⟨f, rfl⟩ : ∃ f, fuel = f + 1 := ⟨fuel - 1, by omega⟩
    have hhalf : 2 ^ L / 2 = 2 ^ (L - 1) := by
      rw [show L = L - 1 + 1 by omega, pow_succ, Nat.mul_div_cancel _ (by norm_num)]; simp
    have hsl : 2 ^ s ≤ 2 ^ (L - 1) := Nat.pow_le_pow_right (by norm_num) (by omega)
    have ht : 2 ^ L / 2 / 2 ^ s = 2 ^ (L - 1 - s) := by
      rw [hhalf, Nat.pow_div (by omega) (by norm_num)]
    rw [twLoop, if_pos (by rw [hhalf]; exact hsl)]
    have hm : (List.range (2 ^ s)).mapM (fun i => (tf[i]?).map fun z => mul z (cis (2 ^ L / 2 / 2 ^ s : ℕ) (4 * 2 ^ L))) =
        some ((List.range (2 ^ s)).map fun i => mul ((tf[i]?).getD (0, 0)) (cis (2 ^ L / 2 / 2 ^ s : ℕ) (4 * 2 ^ L))) := by
      apply mapM_some
      intro i hi
      rw [List.mem_range] at hi
      obtain ⟨z, hz, _⟩ := htf i (by omega)
      rw [hz]; rfl
    rw [hm, Option.bind_some, Nat.div_div_eq_div_mul _ (2 ^ s) 2, ← pow_succ]
    have hps : 0 < 2 ^ s := by positivity
    apply ih (s + 1) f _ (by omega) hL (by omega)
    · rw [List.length_append, hacc, List.length_map, List.length_range, pow_succ]; omega
    · intro s' hs' i hi
      rcases Nat.lt_or_ge s' s with h | h
      · obtain ⟨z, hz, hz'⟩ := hinv s' h i hi
        refine ⟨z, ?_, hz'⟩
        have : 2 ^ (s' + 1) ≤ 2 ^ s := Nat.pow_le_pow_right (by norm_num) h
        rw [List.getElem?_append_left (by rw [hacc]; rw [pow_succ] at this; omega), hz]
      · obtain rfl : s' = s := by omega
        obtain ⟨z, hz, hz'⟩ := htf i (by omega)
        refine ⟨mul ((tf[i]?).getD (0, 0)) (cis (2 ^ L / 2 / 2 ^ s' : ℕ) (4 * 2 ^ L)), ?_, ?_⟩
        · rw [List.getElem?_append_right (by rw [hacc]; omega), hacc, show 2 ^ s' - 1 + i - (2 ^ s' - 1) = i by omega,
            List.getElem?_map, List.getElem?_range hi, Option.map_some]
        · rw [hz, Option.getD_some, ht]
          exact hP s' (by omega) i hi z hz'

theorem twInvLoop_spec (L : ℕ) (tf : List (ℝ × ℝ)) (_hlen : tf.length = 2 ^ (L - 1))
    (Q : ℕ → ℝ × ℝ → Prop) (P : ℕ → ℕ → ℝ × ℝ → Prop)
    (htf : ∀ i < 2 ^ (L - 1), ∃ z, tf[i]? = some z ∧ Q i z)
    (hP : ∀ s < L, ∀ i < 2 ^ s, ∀ z, Q i z → P s i (mul z (cis (-(2 ^ (L - 1 - s) : ℕ)) (4 * 2 ^ L)))) (s : ℕ) :
    ∀ (fuel : ℕ) (acc : List (ℝ × ℝ)), s + 1 ≤ L → s + 1 ≤ fuel → acc.length = 2 ^ L - 2 ^ (s + 1) →
      (∀ s' < L, s < s' → ∀ i < 2 ^ s', ∃ z, acc[2 ^ L - 2 ^ (s' + 1) + i]? = some z ∧ P s' i z) →
      ∃ tw, twInvLoop mul cis (2 ^ L) tf fuel (2 ^ s) (2 ^ (L - 1 - s)) acc = some tw ∧ tw.length = 2 ^ L - 1 ∧
        ∀ s' < L, ∀ i < 2 ^ s', ∃ z, tw[2 ^ L - 2 ^ (s' + 1) + i]? = some z ∧ P s' i z := by
  -- one round
  have step : ∀ (s f : ℕ) (acc : List (ℝ × ℝ)), s + 1 ≤ L → acc.length = 2 ^ L - 2 ^ (s + 1) →
      (∀ s' < L, s < s' → ∀ i < 2 ^ s', ∃ z, acc[2 ^ L - 2 ^ (s' + 1) + i]? = some z ∧ P s' i z) →
      ∃ acc', twInvLoop mul cis (2 ^ L) tf (f + 1) (2 ^ s) (2 ^ (L - 1 - s)) acc =
          twInvLoop mul cis (2 ^ L) tf f (2 ^ s / 2) (2 ^ (L - 1 - s) * 2) acc' ∧ acc'.length = 2 ^ L - 2 ^ s ∧
        ∀ s' < L, s ≤ s' → ∀ i < 2 ^ s', ∃ z, acc'[2 ^ L - 2 ^ (s' + 1) + i]? = some z ∧ P s' i z := by
    intro s f acc hs hacc hinv
    have hsl : 2 ^ s ≤ 2 ^ (L - 1) := Nat.pow_le_pow_right (by norm_num) (by omega)
    have hsL : 2 ^ (s + 1) ≤ 2 ^ L := Nat.pow_le_pow_right (by norm_num) (by omega)
    have hps : 0 < 2 ^ s := by positivity
    have hm : (List.range (2 ^ s)).mapM (fun i => (tf[i]?).map fun z => mul z (cis (-(2 ^ (L - 1 - s) : ℕ)) (4 * 2 ^ L))) =
        some ((List.range (2 ^ s)).map fun i => mul ((tf[i]?).getD (0, 0)) (cis (-(2 ^ (L - 1 - s) : ℕ)) (4 * 2 ^ L))) := by
      apply mapM_some
      intro i hi
      rw [List.mem_range] at hi
      obtain ⟨z, hz, _⟩ := htf i (by omega)
      rw [hz]; rfl
    refine ⟨acc ++ (List.range (2 ^ s)).map fun i => mul ((tf[i]?).getD (0, 0)) (cis (-(2 ^ (L - 1 - s) : ℕ)) (4 * 2 ^ L)),
      ?_, ?_, ?_⟩
    · rw [twInvLoop, if_pos (show 1 ≤ 2 ^ s from hps), hm, Option.bind_some]
    · rw [List.length_append, hacc, List.length_map, List.length_range]; rw [pow_succ] at hsL ⊢; omega
    · intro s' hs' hss i hi
      rcases Nat.lt_or_ge s s' with h | h
      · obtain ⟨z, hz, hz'⟩ := hinv s' hs' h i hi
        refine ⟨z, ?_, hz'⟩
        rw [List.getElem?_append_left (List.getElem?_eq_some_iff.1 hz).1, hz]
      · obtain rfl : s' = s := by omega
        obtain ⟨z, hz, hz'⟩ := htf i (by omega)
        refine ⟨mul ((tf[i]?).getD (0, 0)) (cis (-(2 ^ (L - 1 - s') : ℕ)) (4 * 2 ^ L)), ?_, ?_⟩
        · rw [List.getElem?_append_right (by rw [hacc]; omega), hacc,
            show 2 ^ L - 2 ^ (s' + 1) + i - (2 ^ L - 2 ^ (s' + 1)) = i by omega,
            List.getElem?_map, List.getElem?_range hi, Option.map_some]
        · rw [hz, Option.getD_some]
          exact hP s' (by omega) i hi z hz'
  induction s with
  | zero =>
    intro fuel acc hs hf hacc hinv
    obtain ⟨f, rfl⟩ : ∃ f, fuel = f + 1 := ⟨fuel - 1, by omega⟩
    obtain ⟨acc', e, hl, h⟩ := step 0 f acc hs hacc hinv
    refine ⟨acc', ?_, hl, fun s' hs' => h s' hs' (by omega)⟩
    rw [e]
    cases f with
    | zero => rfl
    | succ f => rw [twInvLoop, if_neg (by norm_num)]
  | succ s ih =>
    intro fuel acc hs hf hacc hinv
    obtain ⟨f, rfl⟩ : ∃ f, fuel = f + 1 := ⟨fuel - 1, by omega⟩
    obtain ⟨acc', e, hl, h⟩ := step (s + 1) f acc hs hacc hinv
    rw [e, pow_succ, Nat.mul_div_cancel _ (by norm_num), ← pow_succ, show L - 1 - (s + 1) + 1 = L - 1 - s by omega]
    exact ih f acc' (by omega) (by omega) hl (fun s' hs' hss => h s' hs' (by omega))

theorem genTwiddle_spec (l : ℕ) (Q Qi : ℕ → ℝ × ℝ → Prop) (P Pi : ℕ → ℕ → ℝ × ℝ → Prop)
    (hQ : ∀ i, Q i (cis (-(bitRev (l + 2) i : ℕ)) (2 ^ (l + 3)))) (hQi : ∀ i, Qi i (cis (bitRev (l + 2) i : ℕ) (2 ^ (l + 3))))
    (hP : ∀ s < l + 3, ∀ i < 2 ^ s, ∀ z, Q i z → P s i (mul z (cis (2 ^ (l + 3 - 1 - s) : ℕ) (4 * 2 ^ (l + 3)))))
    (hPi : ∀ s < l + 3, ∀ i < 2 ^ s, ∀ z, Qi i z → Pi s i (mul z (cis (-(2 ^ (l + 3 - 1 - s) : ℕ)) (4 * 2 ^ (l + 3))))) :
    ∃ t, genTwiddleFactors mul cis (2 ^ (l + 3)) = some t ∧
    (∀ s < l + 3, ∀ i < 2 ^ s, ∃ z, t.1[2 ^ s - 1 + i]? = some z ∧ P s i z) ∧
    (∀ s < l + 3, ∀ i < 2 ^ s, ∃ z, t.2[2 ^ (l + 3) - 2 ^ (s + 1) + i]? = some z ∧ Pi s i z) := by
  have hhalf : 2 ^ (l + 3) / 2 = 2 ^ (l + 2) := by
    rw [pow_succ 2 (l + 2), Nat.mul_div_cancel _ (by norm_num)]
  unfold genTwiddleFactors
  rw [hhalf]
  obtain ⟨v1, e1, l1, g1⟩ := C44_bitReverse (l + 2) ((List.range (2 ^ (l + 2))).map fun i : ℕ => cis (-i) (2 ^ (l + 3)))
    (by simp)
  obtain ⟨v2, e2, l2, g2⟩ := C44_bitReverse (l + 2) ((List.range (2 ^ (l + 2))).map fun i : ℕ => cis i (2 ^ (l + 3)))
    (by simp)
  have hfuel : l + 3 ≤ 2 ^ (l + 3) := Nat.lt_two_pow_self.le
  obtain ⟨tw, et, _, gt⟩ := twLoop_spec mul cis (l + 3) v1 l1 Q P (fun i hi => by
    refine ⟨cis (-(bitRev (l + 2) i : ℕ)) (2 ^ (l + 3)), ?_, hQ i⟩
    rw [g1 i hi, List.getElem?_map, List.getElem?_range (bitRev_lt _ _)]; rfl)
      hP (l + 3) 0 (2 ^ (l + 3)) [] (by omega) (by omega) hfuel rfl (by simp)
  obtain ⟨ti, eti, _, gti⟩ := twInvLoop_spec mul cis (l + 3) v2 l2 Qi Pi (fun i hi => by
    refine ⟨cis ((bitRev (l + 2) i : ℕ)) (2 ^ (l + 3)), ?_, hQi i⟩
    rw [g2 i hi, List.getElem?_map, List.getElem?_range (bitRev_lt _ _)]; rfl)
      hPi (l + 2) (2 ^ (l + 3)) [] (by omega) (by omega) (by simp)
      (by intro s' h1 h2; omega)
  rw [hhalf, pow_zero, Nat.div_one] at et
  rw [show l + 3 - 1 - (l + 2) = 0 by omega, pow_zero] at eti
  refine ⟨(tw, ti), ?_, gt, gti⟩
  rw [e1, e2, Option.bind_some, Option.bind_some, et, Option.bind_some, eti]; rfl

theorem newEvaluatorWith_spec (l : ℕ) (N : BitVec 64) (hN : N.toInt = 2 ^ (l + 4)) (Q Qi : ℕ → ℝ × ℝ → Prop)
    (P Pi : ℕ → ℕ → ℝ × ℝ → Prop)
    (hQ : ∀ i, Q i (cis (-(bitRev (l + 2) i : ℕ)) (2 ^ (l + 3)))) (hQi : ∀ i, Qi i (cis (bitRev (l + 2) i : ℕ) (2 ^ (l + 3))))
    (hP : ∀ s < l + 3, ∀ i < 2 ^ s, ∀ z, Q i z → P s i (mul z (cis (2 ^ (l + 3 - 1 - s) : ℕ) (4 * 2 ^ (l + 3)))))
    (hPi : ∀ s < l + 3, ∀ i < 2 ^ s, ∀ z, Qi i z → Pi s i (mul z (cis (-(2 ^ (l + 3 - 1 - s) : ℕ)) (4 * 2 ^ (l + 3))))) :
    ∃ e, newEvaluatorWith 0 mul cis N = some e ∧ e.rank = 2 ^ (l + 4) ∧
      (∀ s < l + 3, ∀ i < 2 ^ s, P s i (e.tw (2 ^ s - 1 + i))) ∧
      (∀ s < l + 3, ∀ i < 2 ^ s, Pi s i (e.twInv (2 ^ (l + 3) - 2 ^ (s + 1) + i))) ∧
      (∀ i < 2 * 2 ^ (l + 4), e.twMono i = cis (-i) (2 * 2 ^ (l + 4))) ∧
      (∀ i < 2 ^ (l + 3), e.twMonoIdx i =
        if bitRev (l + 3) i = 0 then 2 * 2 ^ (l + 4) - 1 else 4 * bitRev (l + 3) i - 1) := by
  have hp : isPowerOfTwoInt N = true := (isPowerOfTwoInt_iff N).2 ⟨_, hN⟩
  have hn : N.toNat = 2 ^ (l + 4) := by
    have h0 : (0 : ℤ) ≤ N.toInt := by rw [hN]; positivity
    have : (N.toNat : ℤ) = N.toInt := by
      rw [BitVec.toInt_eq_toNat_cond] at h0 ⊢
      split at h0
      · rename_i h; rw [if_pos h]
      · have := N.isLt; omega
    have : (N.toNat : ℤ) = ((2 ^ (l + 4) : ℕ) : ℤ) := by rw [this, hN]; push_cast; rfl
    exact_mod_cast this
  have h16 : ¬ N.toInt < 16 := by
    rw [hN, pow_add]
    have : (1 : ℤ) ≤ 2 ^ l := one_le_pow₀ (by norm_num)
    omega
  obtain ⟨t, et, g1, g2⟩ := genTwiddle_spec mul cis l Q Qi P Pi hQ hQi hP hPi
  have hhalf : 2 ^ (l + 4) / 2 = 2 ^ (l + 3) := by
    rw [pow_succ 2 (l + 3), Nat.mul_div_cancel _ (by norm_num)]
  obtain ⟨v, ev, lv, gv⟩ := C44_bitReverse (l + 3) ((List.range (2 ^ (l + 3))).map fun i =>
    if i = 0 then 2 * 2 ^ (l + 4) - 1 else 4 * i - 1) (by simp)
  unfold newEvaluatorWith
  rw [hp, if_neg (by simp), if_neg h16]
  simp only [hn, hhalf, et, Option.bind_some, ev]
  refine ⟨_, rfl, rfl, ?_, ?_, ?_, ?_⟩
  · intro s hs i hi
    obtain ⟨z, hz, hz'⟩ := g1 s hs i hi
    simpa only [ptr, List.getD_eq_getElem?_getD, hz, Option.getD_some] using hz'
  · intro s hs i hi
    obtain ⟨z, hz, hz'⟩ := g2 s hs i hi
    simpa only [ptr, List.getD_eq_getElem?_getD, hz, Option.getD_some] using hz'
  · intro i hi
    simp only [ptr, List.getD_eq_getElem?_getD, List.getElem?_map, List.getElem?_range hi, Option.map_some, Option.getD_some]
  · intro i hi
    simp only [ptr, List.getD_eq_getElem?_getD, gv i hi, List.getElem?_map, List.getElem?_range (bitRev_lt _ _),
      Option.map_some, Option.getD_some]
end Loops

theorem newEvaluator_good (l : ℕ) (N : BitVec 64) (hN : N.toInt = 2 ^ (l + 4)) :
    ∃ e, newEvaluator rcis N = some e ∧ Good l e := by
  obtain ⟨e, h0, h1, h2, h3, h4, h5⟩ := newEvaluatorWith_spec cmul rcis l N hN
    (fun i z => toC z = ex (-(bitRev (l + 3 - 1) i : ℝ) / 2 ^ (l + 3)))
    (fun i z => toC z = ex ((bitRev (l + 3 - 1) i : ℝ) / 2 ^ (l + 3)))
    (fun s i z => toC z = WW s i) (fun s i z => toC z = (WW s i)⁻¹)
    (fun i => by rw [toC_rcis]; congr 1; push_cast; rfl) (fun i => by rw [toC_rcis]; congr 1; push_cast; rfl)
    (fun s hs i hi z hz => by rw [toC_cmul, hz, toC_rcis, WW_eq (l + 3) s i hs hi])
    (fun s hs i hi z hz => by rw [toC_cmul, hz, toC_rcis, WW_inv_eq (l + 3) s i hs hi])
  refine ⟨e, h0, h1, h2, h3, fun i hi => ?_, h5⟩
  rw [h4 i hi, toC_rcis]; congr 1; push_cast; rfl

end Tfhe.Fft
