import Verif.Lemma.FftProd
import Mathlib.Analysis.SpecialFunctions.Trigonometric.Bounds
import Mathlib.Analysis.Real.Pi.Bounds
import Mathlib.Data.Int.Log
import Mathlib.Tactic.IntervalCases

/-!
# C56: multiplication of polynomials is exact in floating-point arithmetic
-/
namespace Tfhe
open Fft Poly

/-! ## Specification -/

/-- What is asked of the platform: every operation is rounded with a relative error of at most `2^-53`, and sine and cosine are off
by at most `2^-51` (two units in the last place of 1) for arguments up to 4. -/
structure Accurate (F : Float64) : Prop where
  fl : ∀ x, |F.fl x - x| ≤ 2⁻¹ ^ 53 * |x|
  cos : ∀ θ, |θ| ≤ 4 → |(F.sincos θ).1 - Real.cos θ| ≤ 2⁻¹ ^ 51
  sin : ∀ θ, |θ| ≤ 4 → |(F.sincos θ).2 - Real.sin θ| ≤ 2⁻¹ ^ 51

/-! ## The roots of unity -/

theorem ofFl_ok (F : Float64) (hF : Accurate F) : F.arith.Ok (2⁻¹ ^ 53) :=
  Arith.ofFl_ok _ _ _ (by positivity) (by norm_num) hF.fl

theorem fl_prod (F : Float64) (hF : Accurate F) (x y c : ℝ) (h : |x - y| ≤ c * |y|) :
    |F.fl x - y| ≤ (c + 2⁻¹ ^ 53 * (1 + c)) * |y| := by
  have h1 := hF.fl x
  have h2 : |x| ≤ (1 + c) * |y| := by
    have := abs_add_le (x - y) y
    rw [sub_add_cancel] at this; linarith
  have h3 := abs_sub_le (F.fl x) x y
  have h4 := mul_le_mul_of_nonneg_left h2 (show (0 : ℝ) ≤ 2⁻¹ ^ 53 by positivity)
  linarith

theorem ex_sub_le (a b : ℝ) : ‖Complex.exp (a * Complex.I) - Complex.exp (b * Complex.I)‖ ≤ |a - b| := by
  have e : Complex.exp (a * Complex.I) - Complex.exp (b * Complex.I) =
      Complex.exp (b * Complex.I) * (Complex.exp (Complex.I * ((a - b : ℝ) : ℂ)) - 1) := by
    rw [mul_sub, ← Complex.exp_add, mul_one]; congr 2; push_cast; ring
  rw [e, norm_mul, Complex.norm_exp_ofReal_mul_I, one_mul, ← Real.norm_eq_abs]
  exact Real.norm_exp_I_mul_ofReal_sub_one_le

theorem cis_near (F : Float64) (hF : Accurate F) (n : ℤ) (d : ℕ) (h : 2 * |n| ≤ d) :
    ‖toC (F.cis n d) - ex (n / d)‖ ≤ 2⁻¹ ^ 49 := by
  set θ := 2 * Real.pi * (n / d) with hθ
  set θ' := F.fl (F.fl (F.fl (2 * Real.pi) * n) / d) with hθ'
  have a1 : |F.fl (2 * Real.pi) * n - 2 * Real.pi * n| ≤ 2⁻¹ ^ 53 * |2 * Real.pi * n| := by
    rw [← sub_mul, abs_mul, abs_mul (2 * Real.pi), ← mul_assoc]
    exact mul_le_mul_of_nonneg_right (hF.fl _) (abs_nonneg _)
  have a2 := fl_prod F hF _ _ _ a1
  have a3 : |F.fl (F.fl (2 * Real.pi) * n) / d - θ| ≤ (2⁻¹ ^ 53 + 2⁻¹ ^ 53 * (1 + 2⁻¹ ^ 53)) * |θ| := by
    have e1 : F.fl (F.fl (2 * Real.pi) * n) / d - θ = (F.fl (F.fl (2 * Real.pi) * n) - 2 * Real.pi * n) / d := by rw [hθ]; ring
    have e2 : θ = (2 * Real.pi * n) / d := by rw [hθ]; ring
    rw [e1, e2, abs_div, abs_div, ← mul_div_assoc]
    exact div_le_div_of_nonneg_right a2 (abs_nonneg _)
  have a4 := fl_prod F hF _ _ _ a3
  rw [← hθ'] at a4
  have hθ2 : |θ| ≤ Real.pi := by
    rw [hθ, abs_mul, abs_of_pos Real.two_pi_pos, abs_div, Nat.abs_cast]
    have hr : 2 * |(n : ℝ)| ≤ d := by exact_mod_cast h
    have h0 : (0 : ℝ) ≤ d := Nat.cast_nonneg d
    have : |(n : ℝ)| / d ≤ 1 / 2 := by
      rcases eq_or_lt_of_le h0 with h0 | h0
      · rw [← h0, div_zero]; norm_num
      · rw [div_le_iff₀ h0]; linarith
    nlinarith [Real.two_pi_pos]
  have hπ := Real.pi_lt_d2
  have a5 : |θ' - θ| ≤ 2⁻¹ ^ 53 * (19 / 2) := by
    refine a4.trans ?_
    have : |θ| ≤ 3.15 := by linarith
    refine (mul_le_mul_of_nonneg_left this (by positivity)).trans ?_
    norm_num
  have a6 : |θ'| ≤ 4 := by
    have := abs_add_le (θ' - θ) θ
    rw [sub_add_cancel] at this
    have : (2⁻¹ : ℝ) ^ 53 * (19 / 2) ≤ 0.1 := by norm_num
    linarith
  have c1 := hF.cos θ' a6
  have c2 := hF.sin θ' a6
  have e1 : ex (n / d) = Complex.exp ((θ : ℂ) * Complex.I) := by unfold ex; rw [hθ]; push_cast; rfl
  have e2 : F.cis n d = F.sincos θ' := rfl
  rw [e1, e2]
  have b1 := ex_sub_le θ' θ
  have b2 : ‖toC (F.sincos θ') - Complex.exp ((θ' : ℂ) * Complex.I)‖ ≤ 2⁻¹ ^ 51 * (3 / 2) := by
    apply abs_le_of_sq_le_sq' _ (by positivity) |>.2
    rw [Complex.sq_norm, Complex.normSq_apply, Complex.sub_re, Complex.sub_im, Complex.exp_ofReal_mul_I_re,
      Complex.exp_ofReal_mul_I_im]
    have d1 := mul_self_le_mul_self (abs_nonneg _) c1
    have d2 := mul_self_le_mul_self (abs_nonneg _) c2
    rw [abs_mul_abs_self] at d1 d2
    unfold toC
    simp only
    nlinarith
  have b3 := norm_sub_le_norm_sub_add_norm_sub (toC (F.sincos θ')) (Complex.exp ((θ' : ℂ) * Complex.I))
    (Complex.exp ((θ : ℂ) * Complex.I))
  have : (2⁻¹ : ℝ) ^ 51 * (3 / 2) + 2⁻¹ ^ 53 * (19 / 2) ≤ 2⁻¹ ^ 49 := by norm_num
  linarith

section
variable {F : Float64} (hF : Accurate F) {l : ℕ} {N : BitVec 64} (hN : N.toInt = 2 ^ (l + 4)) {e : Eval ℝ}
  (he : newEvaluatorFl F.arith F.cis N = some e)

include hF hN he in
theorem goodFl_of : GoodFl (40 * 2⁻¹ ^ 53) l e := by
  obtain ⟨e', h1, h2⟩ := newEvaluatorFl_good (ofFl_ok F hF) (by positivity) (2⁻¹ ^ 49) (40 * 2⁻¹ ^ 53) (by norm_num) F.cis
    (cis_near F hF) l N hN
  rw [he] at h1
  exact Option.some.inj h1 ▸ h2

theorem rho_ok : (2⁻¹ : ℝ) ^ 53 + (1 + 2⁻¹ ^ 53) * (6 * 2⁻¹ ^ 53 * (1 + 40 * 2⁻¹ ^ 53) + 40 * 2⁻¹ ^ 53) ≤ 2⁻¹ ^ 47 := by norm_num

/-- The error of a transform. -/
noncomputable def Phi (l : ℕ) : ℝ := (1 + 2 * 2⁻¹ ^ 47) ^ (l + 3) * (1 + 2⁻¹ ^ 53)

theorem one_le_Phi (l : ℕ) : 1 ≤ Phi l := by
  unfold Phi
  have h1 : (1 : ℝ) ≤ (1 + 2 * 2⁻¹ ^ 47) ^ (l + 3) := one_le_pow₀ (by norm_num)
  have h2 : (1 : ℝ) ≤ 1 + 2⁻¹ ^ 53 := by norm_num
  nlinarith

section
include hF hN he

theorem fwd64 {w : ℕ} (out : ℕ → ℝ) (p : Poly (2 ^ (l + 4)) (BitVec w)) (B : ℕ) (hB : iabs (Bfv.lift p) ≤ B) :
    Near2 l (fwdFFTFl F.arith e out p.slice) (toR _ (Bfv.lift p)) (√2 ^ (l + 4) * B) (Phi l) := by
  rw [← signed_eq]
  refine fwd_near2 (ofFl_ok F hF) (by positivity) (goodFl_of hF hN he) (by positivity) rho_ok out p B fun i => ?_
  have h := (natAbs_le_iabs (Bfv.lift p) i).trans hB
  have h2 : ((Bfv.lift p i).natAbs : ℤ) ≤ B := by exact_mod_cast h
  rw [Int.natCast_natAbs] at h2
  exact_mod_cast h2

theorem inv64 {w : ℕ} (hw : 0 < w) (hw64 : w ≤ 64) (hl : l ≤ 200) (fp : ℕ → ℝ) (Z : Poly (2 ^ (l + 4)) ℤ) (t : ℕ) (ht : t ≤ 64) (S : ℕ)
    (h : Near1 l fp (toR _ Z) S ((1 + 3 * 2⁻¹ ^ 53) ^ t * ((1 + 6 * 2⁻¹ ^ 53) * (Phi l * Phi l))))
    (hS : S * (3 * (l + 3) + t + 4) ≤ 900 * 2 ^ 34) :
    invFFTFl F.arith w e fp = some (ofIntP w Z).coeffs := by
  have hS' : (S : ℝ) * (3 * (l + 3) + t + 4 : ℕ) ≤ 900 * 2 ^ 34 := by exact_mod_cast hS
  have hS1 : S ≤ 900 * 2 ^ 34 := le_trans (Nat.le_mul_of_pos_right _ (by omega)) hS
  have hS2 : (S : ℝ) ≤ 900 * 2 ^ 34 := by exact_mod_cast hS1
  refine invFl_int (ofFl_ok F hF) (by positivity) (goodFl_of hF hN he) (by positivity) rho_ok (by norm_num) hw hw64 fp Z S _ h
    (total_err (l + 3) t (by omega) S (Nat.cast_nonneg _) hS') ?_ ?_
  · calc 10 * (2⁻¹ : ℝ) ^ 53 * (S + 1) ≤ 10 * 2⁻¹ ^ 53 * (900 * 2 ^ 34 + 1) := by gcongr
      _ ≤ 1 / 8 := by norm_num
  · exact hS2.trans_lt (by norm_num)
end

theorem sizes (B0 B1 : ℕ) (l : ℕ) : (√2 ^ (l + 4) * (B0 : ℝ)) * (√2 ^ (l + 4) * B1) = ((2 ^ (l + 4) * (B0 * B1) : ℕ) : ℝ) := by
  have := sqrt2_sq (l + 4)
  push_cast
  rw [← this]; ring

/-- The sizes of the limbs fit the precision, up to rank `2^22`. -/
theorem numbers (l w c b : ℕ) (hl : l + 4 ≤ 22) (hw64 : w ≤ 64) (hb : b = (48 - (l + 4)) / 4) (hc : c = splitCount w b) :
    c * (2 ^ (l + 4) * (2 ^ b * 2 ^ b)) * (3 * (l + 3) + c + 4) ≤ 900 * 2 ^ 34 ∧ c ≤ 64 := by
  have hb0 : 0 < b := by omega
  have hc2 : c ≤ (63 + b) / b := by rw [hc, splitCount]; exact Nat.div_le_div_right (by omega)
  have key : ∀ l < 19, (63 + (48 - (l + 4)) / 4) / ((48 - (l + 4)) / 4) *
      (2 ^ (l + 4) * (2 ^ ((48 - (l + 4)) / 4) * 2 ^ ((48 - (l + 4)) / 4))) *
      (3 * (l + 3) + (63 + (48 - (l + 4)) / 4) / ((48 - (l + 4)) / 4) + 4) ≤ 900 * 2 ^ 34 := by decide +kernel
  have := key l (by omega)
  rw [← hb] at this
  refine ⟨le_trans (Nat.mul_le_mul (Nat.mul_le_mul_right _ hc2) (by omega)) this, ?_⟩
  have : (63 + b) / b ≤ 64 := by
    rw [Nat.div_le_iff_le_mul_add_pred hb0]; nlinarith
  omega

theorem numbers_short (l b : ℕ) (hl : l + 4 ≤ 27) (hb : b = (48 - 2 * 8 - (l + 4)) / 2) :
    (2 ^ (l + 4) * (2 ^ b * 2 ^ 8)) * (3 * (l + 3) + 0 + 4) ≤ 900 * 2 ^ 34 := by
  subst hb
  have key : ∀ l < 24, (2 ^ (l + 4) * (2 ^ ((48 - 2 * 8 - (l + 4)) / 2) * 2 ^ 8)) * (3 * (l + 3) + 0 + 4) ≤ 900 * 2 ^ 34 := by
    decide +kernel
  exact key l (by omega)

theorem iabs_word {w M : ℕ} (p : Poly M (BitVec w)) : iabs (Bfv.lift p) ≤ 2 ^ w := by
  rw [iabs_le_iff]
  intro i
  change (p i).toInt.natAbs ≤ _
  have h1 := BitVec.toInt_lt (x := p i)
  have h2 := BitVec.le_toInt (x := p i)
  have h3 : (2 : ℤ) ^ (w - 1) ≤ 2 ^ w := pow_le_pow_right₀ (by norm_num) (by omega)
  have h4 : ((p i).toInt.natAbs : ℤ) ≤ 2 ^ w := by rw [Int.natCast_natAbs, abs_le]; constructor <;> linarith
  exact_mod_cast h4

section
include hF hN he

theorem mulFl_spec {w : ℕ} (hw : 0 < w) (hw64 : w ≤ 64) (hl : l + 4 ≤ 22) (asg0 asg : BitVec w → BitVec w → BitVec w)
    (τ σ : BitVec w) (ha0 : ∀ o x, asg0 o x = τ * o + σ * x) (ha : ∀ o x, asg o x = o + σ * x) (signed : Bool)
    (out p0 p1 : Poly (2 ^ (l + 4)) (BitVec w)) :
    mulPolyWith (floatOps F.arith e) asg0 asg signed out.coeffs p0.slice p1.slice =
      some (C _ τ * out + C _ σ * (p0 * p1)).coeffs := by
  have hr := (goodFl_of hF hN he).rank
  have hA := ofFl_ok F hF
  have hu : (0 : ℝ) ≤ 2⁻¹ ^ 53 := by positivity
  have hbits : splitBits (2 ^ (l + 4)) = (48 - (l + 4)) / 4 := by rw [splitBits, bitLen_two_pow, Nat.add_sub_cancel]
  refine mulPolyWith_spec (floatOps F.arith e) hr hw (by omega) asg0 asg τ σ ha0 ha signed out p0 p1 ?_ ?_
  · intro hwb
    set m : Mem ℝ := fun v => if v = 0 then fwdFFTFl F.arith e (fun _ => 0) p0.slice else
      fwdFFTFl F.arith e (fun _ => 0) p1.slice with hm
    have hpw : 2 ^ w ≤ 2 ^ splitBits (2 ^ (l + 4)) := Nat.pow_le_pow_right (by norm_num) hwb
    have h0 : Near2 l (m 0) _ _ _ := fwd64 hF hN he (fun _ => 0) p0 _ ((iabs_word p0).trans hpw)
    have h1 : Near2 l (m 1) _ _ _ := fwd64 hF hN he (fun _ => 0) p1 _ ((iabs_word p1).trans hpw)
    have h2 := mul_near hA hu m 0 0 1 _ _ _ _ _ _ (by positivity) (one_le_Phi l) h0 h1
    rw [sizes, ← map_mul] at h2
    have hnum := (numbers l w 1 _ hl hw64 hbits (by rw [splitCount]; rw [Nat.div_eq_of_lt_le] <;> omega)).1
    refine (inv64 hF hN he hw hw64 (by omega) _ _ 0 (by omega) _ (by rw [pow_zero, one_mul]; exact h2) ?_).trans ?_
    · refine le_trans ?_ hnum
      rw [one_mul]; exact Nat.mul_le_mul_left _ (by omega)
    · rw [← ofIntHom_apply, map_mul, ofIntHom_apply, ofIntHom_apply, ofIntP_lift, ofIntP_lift]
  · intro b c hbdef hcdef hbw k _
    have hb : 0 < b := by omega
    set f : ℕ → Poly (2 ^ (l + 4)) (BitVec w) := fun i => pmap (limb signed b i) p0 with hf
    set g : ℕ → Poly (2 ^ (l + 4)) (BitVec w) := fun i => pmap (limb signed b i) p1 with hg
    set m : Mem ℝ := fun v =>
      if v % 3 = 0 then fwdFFTFl F.arith e (fun _ => 0) (pmap (limb signed b (v / 3)) p0).slice
      else if v % 3 = 1 then fwdFFTFl F.arith e (fun _ => 0) (pmap (limb signed b (v / 3)) p1).slice
      else fun _ => 0 with hm
    have h0 : ∀ k, Near2 l (m (3 * k)) (toR _ (Bfv.lift (f k))) (√2 ^ (l + 4) * (2 ^ b : ℕ)) (Phi l) := by
      intro k
      rw [hm]; beta_reduce
      rw [if_pos (by omega), show 3 * k / 3 = k by omega]
      exact fwd64 hF hN he _ _ _ (iabs_limb signed b k hb hbw p0)
    have h1 : ∀ k, Near2 l (m (3 * k + 1)) (toR _ (Bfv.lift (g k))) (√2 ^ (l + 4) * (2 ^ b : ℕ)) (Phi l) := by
      intro k
      rw [hm]; beta_reduce
      rw [if_neg (by omega), if_pos (by omega), show (3 * k + 1) / 3 = k by omega]
      exact fwd64 hF hN he _ _ _ (iabs_limb signed b k hb hbw p1)
    have h2 : ∀ k j, view (m (3 * k + 2)) j = 0 := by
      intro k j
      rw [hm]; beta_reduce
      rw [if_neg (by omega), if_neg (by omega)]
      rfl
    have h3 := loop_near hA hu c _ _ m _ _ _ (by positivity) (by positivity) (one_le_Phi l) h0 h1 h2 k
    obtain ⟨hnum, hc64⟩ := numbers l w c b hl hw64 (by omega) hcdef
    rw [sizes, toR_cross] at h3
    rw [← Nat.cast_mul] at h3
    refine (inv64 hF hN he hw hw64 (by omega) _ _ c hc64 _ h3 hnum).trans ?_
    rw [ofInt_cross]

variable {w : ℕ} (hw : 0 < w) (hw64 : w ≤ 64)
include hw hw64

section
variable (hl : l + 4 ≤ 22) (signed : Bool) (out p0 p1 : Poly (2 ^ (l + 4)) (BitVec w))
include hl

/-- **C56.**  `MulPolyTo`, with every operation rounded: the negacyclic product, exactly, for all polynomials of every word size up to
64 bits, signed and unsigned, and every rank from 16 to `2^22`, whatever the compiler fuses. -/
theorem C56_mul : mulPolyToFl F.arith signed e out.coeffs p0.slice p1.slice = some (p0 * p1).coeffs := by
  have := mulFl_spec hF hN he hw hw64 hl (fun _ x => x) (fun o x => o + x) 0 1 (by intro o x; ring) (by intro o x; ring)
    signed out p0 p1
  rwa [C_zero, C_one, zero_mul, zero_add, one_mul] at this

/-- **C56.**  `MulAddPolyTo`. -/
theorem C56_mulAdd : mulAddPolyToFl F.arith signed e out.coeffs p0.slice p1.slice = some (out + p0 * p1).coeffs := by
  have := mulFl_spec hF hN he hw hw64 hl (fun o x => o + x) (fun o x => o + x) 1 1 (by intro o x; ring) (by intro o x; ring)
    signed out p0 p1
  rwa [C_one, one_mul, one_mul] at this

/-- **C56.**  `MulSubPolyTo`. -/
theorem C56_mulSub : mulSubPolyToFl F.arith signed e out.coeffs p0.slice p1.slice = some (out - p0 * p1).coeffs := by
  have := mulFl_spec hF hN he hw hw64 hl (fun o x => o - x) (fun o x => o - x) 1 (-1) (by intro o x; ring)
    (by intro o x; ring) signed out p0 p1
  rwa [C_one, one_mul, C_neg, C_one, neg_one_mul, ← sub_eq_add_neg] at this
end

theorem shortFl_spec (hl : l + 4 ≤ 27) (asg0 asg : BitVec w → BitVec w → BitVec w)
    (τ σ : BitVec w) (ha0 : ∀ o x, asg0 o x = τ * o + σ * x) (ha : ∀ o x, asg o x = o + σ * x) (signed : Bool)
    (old old' : ℕ → ℝ) (out p s : Poly (2 ^ (l + 4)) (BitVec w)) (hs8 : iabs (Bfv.lift s) ≤ 2 ^ 8) :
    shortMulWith (floatOps F.arith e) asg0 asg signed old out.coeffs p.slice (fwdFFTFl F.arith e old' s.slice) =
      some (C _ τ * out + C _ σ * (p * s)).coeffs := by
  have hr := (goodFl_of hF hN he).rank
  have hA := ofFl_ok F hF
  have hu : (0 : ℝ) ≤ 2⁻¹ ^ 53 := by positivity
  have hbits : splitBitsShort (2 ^ (l + 4)) = (48 - 2 * 8 - (l + 4)) / 2 := by
    rw [splitBitsShort, bitLen_two_pow, Nat.add_sub_cancel]
  set fpShort := fwdFFTFl F.arith e old' s.slice with hfp
  have hs : Near2 l fpShort _ _ _ := fwd64 hF hN he old' s _ hs8
  refine shortMulWith_spec (floatOps F.arith e) hr hw (by omega) asg0 asg τ σ ha0 ha signed old out p fpShort s ?_ ?_
  · intro hwb
    set m : Mem ℝ := fun v => if v = 0 then fpShort else fwdFFTFl F.arith e old p.slice with hm
    have hpw : 2 ^ w ≤ 2 ^ splitBitsShort (2 ^ (l + 4)) := Nat.pow_le_pow_right (by norm_num) hwb
    have h0 : Near2 l (m 1) _ _ _ := fwd64 hF hN he old p _ ((iabs_word p).trans hpw)
    have h2 := mul_near hA hu m 1 1 0 _ _ _ _ _ _ (by positivity) (one_le_Phi l) h0 hs
    rw [sizes, ← map_mul] at h2
    refine (inv64 hF hN he hw hw64 (by omega) _ _ 0 (by omega) _ (by rw [pow_zero, one_mul]; exact h2)
      (numbers_short l _ hl hbits)).trans ?_
    rw [← ofIntHom_apply, map_mul, ofIntHom_apply, ofIntHom_apply, ofIntP_lift, ofIntP_lift]
  · intro b c hbdef hcdef hbw k hk
    have hb : 0 < b := by omega
    set f : ℕ → Poly (2 ^ (l + 4)) (BitVec w) := fun i => pmap (limb signed b i) p with hf
    set stp : Mem ℝ → ℕ → Mem ℝ := fun m i =>
      mulCmplxFl F.arith (fun v => if v = i + 1 then fwdFFTFl F.arith e (m v) (f i).slice else m v)
        (i + 1) (i + 1) 0 (2 ^ (l + 4)) with hstp
    have loop : ∀ n, let m := (List.range n).foldl stp (fun v => if v = 0 then fpShort else old)
        Near2 l (m 0) (toR _ (Bfv.lift s)) (√2 ^ (l + 4) * (2 ^ 8 : ℕ)) (Phi l) ∧ ∀ k < n,
        Near1 l (m (k + 1)) (toR _ (Bfv.lift (f k) * Bfv.lift s)) (2 ^ (l + 4) * (2 ^ b * 2 ^ 8) : ℕ)
          ((1 + 6 * 2⁻¹ ^ 53) * (Phi l * Phi l)) := by
      intro n
      induction n with
      | zero => exact ⟨hs, fun k hk => absurd hk (by omega)⟩
      | succ n ih =>
        simp only [List.range_succ, List.foldl_append, List.foldl_cons, List.foldl_nil]
        simp only at ih
        generalize (List.range n).foldl stp (fun v => if v = 0 then fpShort else old) = m at ih ⊢
        set m' : Mem ℝ := fun v => if v = n + 1 then fwdFFTFl F.arith e (m v) (f n).slice else m v with hm'
        have e0 : m' 0 = m 0 := if_neg (by omega)
        have e1 : Near2 l (m' (n + 1)) (toR _ (Bfv.lift (f n))) (√2 ^ (l + 4) * (2 ^ b : ℕ)) (Phi l) := by
          rw [hm']; beta_reduce
          rw [if_pos rfl]
          exact fwd64 hF hN he _ _ _ (iabs_limb signed b n hb hbw p)
        have e2 : stp m n = mulCmplxFl F.arith m' (n + 1) (n + 1) 0 (2 ^ (l + 4)) := rfl
        rw [e2]
        refine ⟨near2_congr l _ _ _ _ _ (fun j _ => mulFl_other F.arith _ _ _ _ _ (by omega) j) (by rw [e0]; exact ih.1),
          fun k hk => ?_⟩
        by_cases hkn : k = n
        · subst hkn
          have := mul_near hA hu m' (k + 1) (k + 1) 0 _ _ _ _ _ _ (by positivity) (one_le_Phi l) e1 (by rw [e0]; exact ih.1)
          rw [sizes, ← map_mul] at this
          exact this
        · refine near1_congr l _ _ _ _ _ (fun j _ => mulFl_other F.arith _ _ _ _ _ (by omega) j) ?_
          have : m' (k + 1) = m (k + 1) := if_neg (by omega)
          rw [this]
          exact ih.2 k (by omega)
    have h3 := (loop c).2 k hk
    have h4 := inv64 hF hN he hw hw64 (by omega) _ _ 0 (by omega) _ (by rw [pow_zero, one_mul]; exact h3)
      (numbers_short l b hl (by omega))
    refine h4.trans ?_
    rw [← ofIntHom_apply, map_mul, ofIntHom_apply, ofIntHom_apply, ofIntP_lift, ofIntP_lift]

section
variable (hl : l + 4 ≤ 27) (signed : Bool) (old old' : ℕ → ℝ) (out p s : Poly (2 ^ (l + 4)) (BitVec w))
  (hs8 : ∀ i, |(s i).toInt| ≤ 2 ^ 8)
include hl hs8

omit hF hN he hw hw64 hl in
theorem short_iabs : iabs (Bfv.lift s) ≤ 2 ^ 8 := by
  rw [iabs_le_iff]
  intro i
  have h := hs8 i
  rw [← Int.natCast_natAbs] at h
  exact_mod_cast h

/-- **C56.**  `ShortFFTPolyMulPolyTo` of the transform of a polynomial with coefficients up to `2^8`: the product, exactly, for
every rank from 16 to `2^27`, whatever the scratch buffers hold. -/
theorem C56_short :
    shortMulToFl F.arith signed e old out.coeffs p.slice (fwdFFTFl F.arith e old' s.slice) = some (p * s).coeffs := by
  have := shortFl_spec hF hN he hw hw64 hl (fun _ x => x) (fun o x => o + x) 0 1 (by intro o x; ring) (by intro o x; ring)
    signed old old' out p s (short_iabs s hs8)
  rwa [C_zero, C_one, zero_mul, zero_add, one_mul] at this

/-- **C56.**  `ShortFFTPolyMulAddPolyTo`. -/
theorem C56_shortAdd :
    shortMulAddToFl F.arith signed e old out.coeffs p.slice (fwdFFTFl F.arith e old' s.slice) = some (out + p * s).coeffs := by
  have := shortFl_spec hF hN he hw hw64 hl (fun o x => o + x) (fun o x => o + x) 1 1 (by intro o x; ring) (by intro o x; ring)
    signed old old' out p s (short_iabs s hs8)
  rwa [C_one, one_mul, one_mul] at this

/-- **C56.**  `ShortFFTPolyMulSubPolyTo`. -/
theorem C56_shortSub :
    shortMulSubToFl F.arith signed e old out.coeffs p.slice (fwdFFTFl F.arith e old' s.slice) = some (out - p * s).coeffs := by
  have := shortFl_spec hF hN he hw hw64 hl (fun o x => o - x) (fun o x => o - x) 1 (-1) (by intro o x; ring)
    (by intro o x; ring) signed old old' out p s (short_iabs s hs8)
  rwa [C_one, one_mul, C_neg, C_one, neg_one_mul, ← sub_eq_add_neg] at this
end
end

include hF hN in
/-- **C56.**  `NewEvaluator` returns an evaluator for every rank that is a power of two from 16 on. -/
theorem C56_newEvaluator : ∃ e, newEvaluatorFl F.arith F.cis N = some e ∧ e.rank = 2 ^ (l + 4) := by
  obtain ⟨e', h1, h2⟩ := newEvaluatorFl_good (ofFl_ok F hF) (by positivity) (2⁻¹ ^ 49) (40 * 2⁻¹ ^ 53) (by norm_num) F.cis
    (cis_near F hF) l N hN
  exact ⟨e', h1, h2.rank⟩
end

/-! ## Cases -/

/-- Rounding to the nearest float, ties to even. -/
noncomputable def nearest (x : ℝ) : ℝ :=
  if x = 0 then 0
  else
    let s : ℝ := 2 ^ (Int.log 2 |x| - 52)
    let y := x / s
    (if Int.fract y < 1 / 2 then (⌊y⌋ : ℝ) else if 1 / 2 < Int.fract y then ⌊y⌋ + 1 else if ⌊y⌋ % 2 = 0 then ⌊y⌋ else ⌊y⌋ + 1) * s

theorem nearest_err (x : ℝ) : |nearest x - x| ≤ 2⁻¹ ^ 53 * |x| := by
  unfold nearest
  split
  · rename_i h; simp [h]
  · rename_i h
    have hpos : 0 < |x| := abs_pos.2 h
    have hlog := Int.zpow_log_le_self (b := 2) (r := |x|) (by norm_num) hpos
    set s : ℝ := 2 ^ (Int.log 2 |x| - 52) with hs
    have hs0 : 0 < s := by positivity
    have hs2 : s * 2 ^ 52 ≤ |x| := by
      rw [hs, zpow_sub₀ (by norm_num)]
      have : (2 : ℝ) ^ (52 : ℤ) = 2 ^ 52 := by norm_cast
      rw [this, div_mul_cancel₀ _ (by positivity)]
      exact_mod_cast hlog
    simp only
    set y := x / s with hy
    have hx : x = y * s := by rw [hy]; field_simp
    have key : ∀ z : ℝ, |z - y| ≤ 1 / 2 → |z * s - x| ≤ 2⁻¹ ^ 53 * |x| := by
      intro z hz
      have e : z * s - x = (z - y) * s := by rw [sub_mul, ← hx]
      rw [e, abs_mul, abs_of_pos hs0]
      have h1 := mul_le_mul_of_nonneg_right hz hs0.le
      have h2 := mul_le_mul_of_nonneg_left hs2 (show (0 : ℝ) ≤ 2⁻¹ ^ 53 by positivity)
      have : (2⁻¹ : ℝ) ^ 53 * (s * 2 ^ 52) = 1 / 2 * s := by ring
      linarith
    have hf := Int.self_sub_floor y
    have hf0 := Int.fract_nonneg y
    have hf1 := Int.fract_lt_one y
    apply key
    rw [abs_le]
    split
    · constructor <;> linarith
    · split
      · constructor <;> linarith
      · have : Int.fract y = 1 / 2 := by linarith
        split <;> constructor <;> linarith

/-- A platform with rounding to nearest, sine and cosine rounded, and the given fusing. -/
noncomputable def exPlatform (f : Fuse) : Float64 :=
  { fl := nearest, fuse := f, sincos := fun θ => (nearest (Real.cos θ), nearest (Real.sin θ)) }

theorem exPlatform_ok (f : Fuse) : Accurate (exPlatform f) where
  fl := nearest_err
  cos := fun θ _ => (nearest_err _).trans (by
    have := Real.abs_cos_le_one θ
    have := mul_le_mul_of_nonneg_left this (show (0 : ℝ) ≤ 2⁻¹ ^ 53 by positivity)
    refine this.trans (by norm_num))
  sin := fun θ _ => (nearest_err _).trans (by
    have := Real.abs_sin_le_one θ
    have := mul_le_mul_of_nonneg_left this (show (0 : ℝ) ≤ 2⁻¹ ^ 53 by positivity)
    refine this.trans (by norm_num))

/-- The rounding is a real one: a third is not a float. -/
example : nearest (1 / 3) ≠ 1 / 3 := by
  have hl : Int.log 2 |(1 / 3 : ℝ)| = -2 := by
    rw [abs_of_pos (by norm_num)]
    apply le_antisymm
    · have : Int.log 2 (1 / 3 : ℝ) < -1 := by
        rw [← Int.lt_zpow_iff_log_lt (by norm_num) (by norm_num)]; norm_num
      omega
    · rw [← Int.zpow_le_iff_le_log (by norm_num) (by norm_num)]; norm_num
  intro h
  unfold nearest at h
  rw [if_neg (by norm_num), hl] at h
  simp only at h
  have key : ∀ z : ℤ, (z : ℝ) * 2 ^ (-2 - 52 : ℤ) ≠ 1 / 3 := by
    intro z hz
    have h1 : (2 : ℝ) ^ (-2 - 52 : ℤ) = 1 / 2 ^ 54 := by norm_num
    rw [h1] at hz
    have h2 : (3 * z : ℝ) = 2 ^ 54 := by linarith
    have h3 : (3 * z : ℤ) = 2 ^ 54 := by exact_mod_cast h2
    omega
  split at h
  · exact key _ h
  · split at h
    · exact key (⌊_⌋ + 1) (by push_cast; exact h)
    · split at h
      · exact key _ h
      · exact key (⌊_⌋ + 1) (by push_cast; exact h)

/-- Rank 2048, 64-bit words, rounding to nearest and products fused as in the AVX2 kernels: any two polynomials and any previous output. -/
example (signed : Bool) (out p q : Poly (2 ^ (7 + 4)) (BitVec 64)) :
    ∃ e, newEvaluatorFl (exPlatform .avx2).arith (exPlatform .avx2).cis 2048#64 = some e ∧
      mulPolyToFl (exPlatform .avx2).arith signed e out.coeffs p.slice q.slice = some (p * q).coeffs := by
  have hN : (2048#64).toInt = 2 ^ (7 + 4) := by decide
  obtain ⟨e, he, -⟩ := C56_newEvaluator (exPlatform_ok .avx2) hN
  exact ⟨e, he, C56_mul (exPlatform_ok .avx2) hN he (by norm_num) (by norm_num) (by norm_num) signed out p q⟩

/-- Rank 1024, 32-bit words, a binary key in the transform domain, nothing fused. -/
example (old : ℕ → ℝ) (out p s : Poly (2 ^ (6 + 4)) (BitVec 32)) (hs : ∀ i, s i = 0 ∨ s i = 1) :
    ∃ e, newEvaluatorFl (exPlatform .none).arith (exPlatform .none).cis 1024#64 = some e ∧
      shortMulAddToFl (exPlatform .none).arith false e old out.coeffs p.slice
        (fwdFFTFl (exPlatform .none).arith e old s.slice) = some (out + p * s).coeffs := by
  have hN : (1024#64).toInt = 2 ^ (6 + 4) := by decide
  obtain ⟨e, he, -⟩ := C56_newEvaluator (exPlatform_ok .none) hN
  refine ⟨e, he, C56_shortAdd (exPlatform_ok .none) hN he (by norm_num) (by norm_num) (by norm_num) false old old out p s ?_⟩
  intro i
  rcases hs i with h | h <;> rw [h] <;> decide

end Tfhe
