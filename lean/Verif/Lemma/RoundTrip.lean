import Verif.Lemma.Enc
import Verif.Lemma.FftOps
import Verif.Model.FftEncFloat
import Verif.Props.C12

/-!
# Through the Fourier domain and back
-/
namespace Tfhe.Enc
open Tfhe Rng Gauss Fft Poly Finset

/-- A bound on the error of every coefficient of a polynomial of degree `2^(l+4)` over `w`-bit words that is transformed and
transformed back. -/
def rtErr (l w : ℕ) : ℕ := 3 * (l + 4) * 2 ^ ((l + 5) / 2) * 2 ^ (w - 1) / 2 ^ 47 + 2

theorem near1_of_near2 {l : ℕ} {fp : ℕ → ℝ} {P : Poly (2 ^ (l + 4)) ℝ} {X Φ : ℝ} (h : Near2 l fp P X Φ) : Near1 l fp P X Φ := by
  have hs : √2 ^ (l + 3) * √2 ^ (l + 3) = (2 : ℝ) ^ (l + 3) := sqrt2_sq _
  have hc : ∀ z : ℕ → ℂ, ∑ j ∈ range (2 ^ (l + 3)), ‖z j‖ ≤ √2 ^ (l + 3) * n2 (2 ^ (l + 3)) z := by
    intro z
    have h1 := sum_mul_le_n2 (2 ^ (l + 3)) (fun _ => 1) z
    simp only [norm_one, one_mul] at h1
    refine h1.trans (mul_le_mul_of_nonneg_right (n2_le (by positivity) ?_) (n2_nonneg _ _))
    rw [sq (√2 ^ (l + 3)), hs]
    simp
  constructor
  · refine (hc _).trans ?_
    rw [← hs, mul_assoc]
    exact mul_le_mul_of_nonneg_left h.1 (by positivity)
  · refine (hc _).trans ?_
    rw [← hs, mul_assoc]
    exact mul_le_mul_of_nonneg_left h.2 (by positivity)

theorem rel_le (l : ℕ) (hl : l + 4 ≤ 27) :
    (1 + (2⁻¹ : ℝ) ^ 53) * (1 + 2⁻¹ ^ 47) ^ (l + 3) * ((1 + 2 * 2⁻¹ ^ 47) ^ (l + 3) * (1 + 2⁻¹ ^ 53)) - 1 ≤ 3 * (l + 4) * 2⁻¹ ^ 47 := by
  have h1 : (1 + (2⁻¹ : ℝ) ^ 47) ≤ Real.exp (2⁻¹ ^ 47) := by have := Real.add_one_le_exp ((2⁻¹ : ℝ) ^ 47); linarith
  have h2 : (1 + 2 * (2⁻¹ : ℝ) ^ 47) ≤ Real.exp (2 * 2⁻¹ ^ 47) := by have := Real.add_one_le_exp (2 * (2⁻¹ : ℝ) ^ 47); linarith
  have h3 : (1 + (2⁻¹ : ℝ) ^ 53) ≤ Real.exp (2⁻¹ ^ 53) := by have := Real.add_one_le_exp ((2⁻¹ : ℝ) ^ 53); linarith
  set t : ℝ := 3 * (l + 3) * 2⁻¹ ^ 47 + 2 * 2⁻¹ ^ 53 with ht
  have hlr : (l : ℝ) ≤ 23 := by exact_mod_cast (show l ≤ 23 by omega)
  have hl0 : (0 : ℝ) ≤ l := Nat.cast_nonneg _
  have ht0 : 0 ≤ t := by positivity
  have ht1 : t ≤ 2⁻¹ ^ 40 := by rw [ht]; nlinarith
  have h4 : (1 + (2⁻¹ : ℝ) ^ 53) * (1 + 2⁻¹ ^ 47) ^ (l + 3) * ((1 + 2 * 2⁻¹ ^ 47) ^ (l + 3) * (1 + 2⁻¹ ^ 53)) ≤ Real.exp t := by
    calc _ ≤ Real.exp (2⁻¹ ^ 53) * Real.exp (2⁻¹ ^ 47) ^ (l + 3) * (Real.exp (2 * 2⁻¹ ^ 47) ^ (l + 3) * Real.exp (2⁻¹ ^ 53)) := by gcongr
      _ = Real.exp t := by
        rw [← Real.exp_nat_mul, ← Real.exp_nat_mul, ← Real.exp_add, ← Real.exp_add, ← Real.exp_add]
        congr 1
        rw [ht]; push_cast; ring
  have h5 : Real.exp t ≤ 1 + t + t ^ 2 := by
    have := Real.abs_exp_sub_one_sub_id_le (x := t) (by rw [abs_of_nonneg ht0]; exact ht1.trans (by norm_num))
    rw [abs_le] at this
    linarith [this.2]
  have h6 : t ^ 2 ≤ 2⁻¹ ^ 40 * 2⁻¹ ^ 40 := by rw [sq]; exact mul_le_mul ht1 ht1 ht0 (by positivity)
  have h7 : (2⁻¹ : ℝ) ^ 40 * 2⁻¹ ^ 40 + 2 * 2⁻¹ ^ 53 ≤ 3 * 2⁻¹ ^ 47 := by norm_num
  have h8 : t = 3 * (l + 4) * 2⁻¹ ^ 47 - 3 * 2⁻¹ ^ 47 + 2 * 2⁻¹ ^ 53 := by rw [ht]; ring
  linarith

section
variable {K : Machine} (hK : Ieee K) {l w : ℕ} {N : BitVec 64} (hN : N.toInt = 2 ^ (l + 4)) {e : Eval ℝ}
  (he : newEvaluatorFl K.arith K.cis N = some e) (hw : 0 < w) (hw64 : w ≤ 64) (hl : l + 4 ≤ 27)
include hK hN he hw hw64 hl

theorem roundtrip (old : ℕ → ℝ) (p : Poly (2 ^ (l + 4)) (BitVec w)) :
    ∃ err, pabs err ≤ rtErr l w ∧ invF K e w (2 ^ (l + 4)) (fwdFFTFl K.arith e old (arr p)) = p + err := by
  have hB : ∀ i, |((p i).toInt : ℝ)| ≤ (2 : ℝ) ^ (w - 1) := by
    intro i
    have h := wabs_le_half (p i)
    unfold wabs at h
    rw [← Int.cast_abs, Int.abs_eq_natAbs]
    have h2 : 2 ^ w = 2 * 2 ^ (w - 1) := by rw [← pow_succ']; congr 1; omega
    have h3 : (p i).toInt.natAbs ≤ 2 ^ (w - 1) := by omega
    exact_mod_cast h3
  have h1 := near1_of_near2 (fwd_near2 (ofFl_ok K.toFloat64 hK.toAccurate) (by positivity) (goodFl_of hK.toAccurate hN he)
    (by positivity) rho_ok old p _ hB)
  have hs : p.signed = toR _ (Bfv.lift p) := rfl
  rw [hs] at h1
  obtain ⟨err, e1, e2⟩ := inv_words1 hK hN he hw hw64 _ _ _ _ _ h1 rfl
  rw [ofIntP_lift] at e2
  refine ⟨err, ?_, e2⟩
  have h3 : √2 ^ (l + 4) ≤ (2 : ℝ) ^ ((l + 5) / 2) := by
    have h2 : √2 ^ 2 = (2 : ℝ) := Real.sq_sqrt (by norm_num)
    calc √2 ^ (l + 4) ≤ √2 ^ (2 * ((l + 5) / 2)) := pow_le_pow_right₀ (Real.one_le_sqrt.2 (by norm_num)) (by omega)
      _ = _ := by rw [pow_mul, h2]
  have h4 := rel_le l hl
  have h5 : ((pabs err : ℕ) : ℝ) ≤ 3 * (l + 4) * 2⁻¹ ^ 47 * (2 ^ ((l + 5) / 2) * 2 ^ (w - 1)) + 3 / 2 := by
    refine e1.trans (add_le_add ?_ le_rfl)
    have h0 : (0 : ℝ) ≤ √2 ^ (l + 4) * 2 ^ (w - 1) := by positivity
    refine (mul_le_mul_of_nonneg_right h4 h0).trans ?_
    exact mul_le_mul_of_nonneg_left (mul_le_mul_of_nonneg_right h3 (by positivity)) (by positivity)
  have h6 : 3 * (l + 4) * (2⁻¹ : ℝ) ^ 47 * (2 ^ ((l + 5) / 2) * 2 ^ (w - 1)) =
      ((3 * (l + 4) * 2 ^ ((l + 5) / 2) * 2 ^ (w - 1) : ℕ) : ℝ) / (2 ^ 47 : ℕ) := by
    push_cast; rw [inv_pow]; ring
  rw [h6] at h5
  unfold rtErr
  set a := 3 * (l + 4) * 2 ^ ((l + 5) / 2) * 2 ^ (w - 1) with ha
  have h7 : ((pabs err : ℕ) : ℝ) < ((a / 2 ^ 47 + 1 : ℕ) : ℝ) + 3 / 2 := by
    refine h5.trans_lt (add_lt_add_left ?_ _)
    rw [div_lt_iff₀ (by positivity)]
    have : a < (a / 2 ^ 47 + 1) * 2 ^ 47 := by have := Nat.div_add_mod a (2 ^ 47); have := Nat.mod_lt a (show 0 < 2 ^ 47 by norm_num); omega
    exact_mod_cast this
  have h8 : (pabs err : ℝ) < ((a / 2 ^ 47 + 3 : ℕ) : ℝ) := by push_cast at h7 ⊢; linarith
  have h9 : pabs err < a / 2 ^ 47 + 3 := by exact_mod_cast h8
  omega

variable {k : ℕ}

theorem roundtrip_ct (old : Fin (k + 1) → FPoly) (ct : Fin (k + 1) → Poly (2 ^ (l + 4)) (BitVec w)) :
    ∃ err : Fin (k + 1) → Poly (2 ^ (l + 4)) (BitVec w), (∀ t, pabs (err t) ≤ rtErr l w) ∧
      invFFTCt K e (fwdFFTCt K e old ct) = ct + err := by
  choose err h1 h2 using fun t => roundtrip hK hN he hw hw64 hl (old t) (ct t)
  exact ⟨err, h1, funext h2⟩

omit hK hN he hw hw64 hl in
theorem phase_small (sk : Fin k → Poly (2 ^ (l + 4)) (BitVec w)) (hs : ∀ i t, sk i t = 0 ∨ sk i t = 1) (E : ℕ)
    (err : Fin (k + 1) → Poly (2 ^ (l + 4)) (BitVec w)) (h : ∀ t, pabs (err t) ≤ E) :
    pabs (phase sk err) ≤ (1 + k * 2 ^ (l + 4)) * E := by
  unfold phase
  have h1 := (polyNorm (2 ^ (l + 4)) w).sum_le_card Finset.univ (fun i : Fin k => err i.succ * sk i) (2 ^ (l + 4) * E)
    (fun i _ => (pabs_mul_binary (sk i) (hs i) (err i.succ)).trans (Nat.mul_le_mul_left _ (h i.succ)))
  rw [Finset.card_fin] at h1
  refine (pabs_add_le _ _).trans ((Nat.add_le_add (h 0) h1).trans (le_of_eq ?_))
  ring

/-- Decryption of what has been transformed: the phase, up to a small error. -/
theorem decryptFFT_phase (signed : Bool) (old old' : Fin k → ℕ → ℝ) (oldOut : Fin (k + 1) → FPoly)
    (sk : Fin k → Poly (2 ^ (l + 4)) (BitVec w)) (hs : ∀ i t, sk i t = 0 ∨ sk i t = 1)
    (ct : Fin (k + 1) → Poly (2 ^ (l + 4)) (BitVec w)) :
    ∃ d, pabs d ≤ (1 + k * 2 ^ (l + 4)) * rtErr l w ∧
      decryptFFTGLWEPhase K signed e old (fwdFFTKey K.toFloat64 e old' sk) (fwdFFTCt K e oldOut ct) = some (phase sk ct + d) := by
  obtain ⟨err, h1, h2⟩ := roundtrip_ct hK hN he hw hw64 hl oldOut ct
  refine ⟨phase sk err, phase_small sk hs _ err h1, ?_⟩
  unfold decryptFFTGLWEPhase
  rw [h2, decryptGLWEPhase_eq hK.toAccurate hN he hw hw64 hl signed old old' sk (fun i t => ?_), phase_add]
  rcases hs i t with h | h <;> rw [h]
  · simp
  · have := wabs_ofInt_le (w := w) 1
    unfold wabs at this
    rw [show BitVec.ofInt w 1 = 1 from rfl] at this
    rw [Int.abs_eq_natAbs]
    have h2 : ((1 : BitVec w).toInt.natAbs : ℤ) ≤ 1 := by exact_mod_cast this
    exact h2.trans (by norm_num)
end
end Tfhe.Enc
