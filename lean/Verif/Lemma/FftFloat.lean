import Verif.Model.FftFloat
import Verif.Lemma.FftNorm
import Verif.Lemma.FftTwiddle
import Verif.Lemma.SplitMul

/-!
# Rounding errors of the butterflies, of the tables and of the products
-/
namespace Tfhe.Fft
open Tfhe Finset

/-- The operations are accurate up to the relative error `u`. -/
structure Arith.Ok (A : Arith) (u : ℝ) : Prop where
  add : ∀ x y, |A.add x y - (x + y)| ≤ u * |x + y|
  sub : ∀ x y, |A.sub x y - (x - y)| ≤ u * |x - y|
  div : ∀ x y, |A.div x y - x / y| ≤ u * |x / y|
  mulSub : ∀ x y z t, |A.mulSub x y z t - (x * y - z * t)| ≤ 3 * u * (|x * y| + |z * t|)
  mulAdd : ∀ x y z t, |A.mulAdd x y z t - (x * y + z * t)| ≤ 3 * u * (|x * y| + |z * t|)
  accSub : ∀ σ o x y z t, |σ| = 1 → |A.accSub σ o x y z t - (o + σ * (x * y - z * t))| ≤
    3 * u * |o + σ * (x * y - z * t)| + 3 * u * (1 + u) * (|x * y| + |z * t|)
  accAdd : ∀ σ o x y z t, |σ| = 1 → |A.accAdd σ o x y z t - (o + σ * (x * y + z * t))| ≤
    3 * u * |o + σ * (x * y + z * t)| + 3 * u * (1 + u) * (|x * y| + |z * t|)
  mulSubN : ∀ x y z t, |A.mulSubN x y z t - (x * y - z * t)| ≤ 3 * u * (|x * y| + |z * t|)
  mulAddN : ∀ x y z t, |A.mulAddN x y z t - (x * y + z * t)| ≤ 3 * u * (|x * y| + |z * t|)
  mulSubT : ∀ x y z t, |A.mulSubT x y z t - (x * y - z * t)| ≤ 3 * u * (|x * y| + |z * t|)
  mulAddT : ∀ x y z t, |A.mulAddT x y z t - (x * y + z * t)| ≤ 3 * u * (|x * y| + |z * t|)
  mulSubC : ∀ x y z t, |A.mulSubC x y z t - (x * y - z * t)| ≤ 3 * u * (|x * y| + |z * t|)
  mulAddC : ∀ x y z t, |A.mulAddC x y z t - (x * y + z * t)| ≤ 3 * u * (|x * y| + |z * t|)
  accSubC : ∀ σ o x y z t, |σ| = 1 → |A.accSubC σ o x y z t - (o + σ * (x * y - z * t))| ≤
    3 * u * |o + σ * (x * y - z * t)| + 3 * u * (1 + u) * (|x * y| + |z * t|)
  accAddC : ∀ σ o x y z t, |σ| = 1 → |A.accAddC σ o x y z t - (o + σ * (x * y + z * t))| ≤
    3 * u * |o + σ * (x * y + z * t)| + 3 * u * (1 + u) * (|x * y| + |z * t|)
  subMul : ∀ c q k, |A.subMul c q k - (c - q * k)| ≤ 3 * u * (|c| + |q * k|)
  conv : ∀ z : ℤ, |A.conv z - z| ≤ u * |(z : ℝ)|
  round : ∀ x, |x - A.round x| ≤ 1 / 2

theorem Arith.Ok.atNear {A : Arith} {u : ℝ} (h : A.Ok u) : A.atNear.Ok u := { h with mulSub := h.mulSubN, mulAdd := h.mulAddN }
theorem Arith.Ok.atTable {A : Arith} {u : ℝ} (h : A.Ok u) : A.atTable.Ok u := { h with mulSub := h.mulSubT, mulAdd := h.mulAddT }
theorem Arith.Ok.atConst {A : Arith} {u : ℝ} (h : A.Ok u) : A.atConst.Ok u :=
  { h with mulSub := h.mulSubC, mulAdd := h.mulAddC, accSub := h.accSubC, accAdd := h.accAddC }

theorem fl_abs {fl : ℝ → ℝ} {u : ℝ} (h : ∀ x, |fl x - x| ≤ u * |x|) (x : ℝ) : |fl x| ≤ (1 + u) * |x| := by
  have h1 := h x
  have h2 : |fl x| ≤ |fl x - x| + |x| := by
    have := abs_add_le (fl x - x) x
    rwa [sub_add_cancel] at this
  linarith

/-- Rounding to a nearest integer finds the integer that is closer than one half. -/
theorem nearest_add {r : ℝ → ℤ} (hr : ∀ x, |x - r x| ≤ 1 / 2) (c : ℤ) (d : ℝ) (hd : |d| < 1 / 2) : r ((c : ℝ) + d) = c := by
  have h := hr ((c : ℝ) + d)
  have h1 : |((r ((c : ℝ) + d) - c : ℤ) : ℝ)| < 1 := by
    have := abs_sub ((d : ℝ)) ((c : ℝ) + d - r ((c : ℝ) + d))
    rw [show d - ((c : ℝ) + d - r ((c : ℝ) + d)) = ((r ((c : ℝ) + d) - c : ℤ) : ℝ) by push_cast; ring] at this
    linarith
  have h2 : |r ((c : ℝ) + d) - c| < 1 := by exact_mod_cast h1
  have := Int.abs_lt_one_iff.1 h2
  omega

theorem roundEven_close (x : ℝ) : |x - roundEven x| ≤ 1 / 2 := by
  have h := Int.floor_add_fract x
  have h0 := Int.fract_nonneg x
  have h1 := Int.fract_lt_one x
  unfold roundEven
  rw [abs_le]
  split_ifs <;> push_cast <;> constructor <;> linarith

/-- A rounding function gives accurate operations, fused or not. -/
theorem Arith.ofFl_ok (f : Fuse) (fl : ℝ → ℝ) (u : ℝ) (hu : 0 ≤ u) (hu1 : u ≤ 1) (h : ∀ x, |fl x - x| ≤ u * |x|) :
    (Arith.ofFl f fl).Ok u := by
  have tri : ∀ a b c : ℝ, |a - c| ≤ |a - b| + |b - c| := fun a b c => abs_sub_le a b c
  have key : ∀ (f : Fma) (s x y z t : ℝ), |s| = 1 → |fused f fl s x y z t - (x * y + s * (z * t))| ≤ 3 * u * (|x * y| + |z * t|) := by
    intro f s x y z t hs
    have hx := h (x * y)
    have hz := h (z * t)
    have hz' : |s * fl (z * t) - s * (z * t)| ≤ u * |z * t| := by rw [← mul_sub, abs_mul, hs, one_mul]; exact hz
    have hs' : |s * (z * t)| = |z * t| := by rw [abs_mul, hs, one_mul]
    have hbx := abs_nonneg (x * y)
    have hbz := abs_nonneg (z * t)
    have hfx := fl_abs h (x * y)
    have hfz : |s * fl (z * t)| ≤ (1 + u) * |z * t| := by rw [abs_mul, hs, one_mul]; exact fl_abs h (z * t)
    have fin : ∀ v : ℝ, |v - (x * y + s * (z * t))| ≤ u * (|x * y| + |z * t|) → |v| ≤ (1 + u) * (|x * y| + |z * t|) →
        |fl v - (x * y + s * (z * t))| ≤ 3 * u * (|x * y| + |z * t|) := by
      intro v h1 h2
      have h3 := tri (fl v) v (x * y + s * (z * t))
      have h4 := h v
      have h5 : u * |v| ≤ u * ((1 + u) * (|x * y| + |z * t|)) := mul_le_mul_of_nonneg_left h2 hu
      nlinarith [mul_nonneg hu (add_nonneg hbx hbz), mul_nonneg hu (mul_nonneg hu (add_nonneg hbx hbz))]
    unfold fused
    cases f
    · refine fin _ ?_ ?_
      · calc _ = |(fl (x * y) - x * y) + (s * fl (z * t) - s * (z * t))| := by congr 1; ring
          _ ≤ _ := (abs_add_le _ _).trans (by linarith)
      · exact (abs_add_le _ _).trans (by linarith)
    · refine fin _ ?_ ?_
      · calc _ = |s * fl (z * t) - s * (z * t)| := by congr 1; ring
          _ ≤ _ := by nlinarith
      · exact (abs_add_le _ _).trans (by nlinarith)
    · refine fin _ ?_ ?_
      · calc _ = |fl (x * y) - x * y| := by congr 1; ring
          _ ≤ _ := by nlinarith
      · exact (abs_add_le _ _).trans (by rw [hs']; nlinarith)
  have kS : ∀ (f : Fma) (x y z t : ℝ), |fused f fl (-1) x y z t - (x * y - z * t)| ≤ 3 * u * (|x * y| + |z * t|) := by
    intro f x y z t
    have := key f (-1) x y z t (by norm_num)
    rwa [neg_one_mul, ← sub_eq_add_neg] at this
  have kA : ∀ (f : Fma) (x y z t : ℝ), |fused f fl 1 x y z t - (x * y + z * t)| ≤ 3 * u * (|x * y| + |z * t|) := by
    intro f x y z t
    have := key f 1 x y z t (by norm_num)
    rwa [one_mul] at this
  -- one product after the other
  have two : ∀ o a b : ℝ, |fl (fl (o + a) + b) - (o + (a + b))| ≤ 3 * u * |o + (a + b)| + 3 * u * (1 + u) * |b| := by
    intro o a b
    have h1 := h (o + a)
    have h2 := h (fl (o + a) + b)
    have h3 : |o + a| ≤ |o + (a + b)| + |b| := by
      have := abs_sub (o + (a + b)) b
      rwa [show o + (a + b) - b = o + a by ring] at this
    have h4 : |fl (o + a) + b - (o + (a + b))| ≤ u * (|o + (a + b)| + |b|) := by
      rw [show fl (o + a) + b - (o + (a + b)) = fl (o + a) - (o + a) by ring]
      exact h1.trans (mul_le_mul_of_nonneg_left h3 hu)
    have h5 : |fl (o + a) + b| ≤ |o + (a + b)| + u * (|o + (a + b)| + |b|) := by
      have := abs_add_le (fl (o + a) + b - (o + (a + b))) (o + (a + b))
      rw [sub_add_cancel] at this; linarith
    have h6 := tri (fl (fl (o + a) + b)) (fl (o + a) + b) (o + (a + b))
    have h7 := mul_le_mul_of_nonneg_left h5 hu
    have hb := abs_nonneg b
    have hS := abs_nonneg (o + (a + b))
    nlinarith [mul_nonneg hu hb, mul_nonneg hu hS, mul_nonneg hu (mul_nonneg hu hb), mul_nonneg hu (mul_nonneg hu hS),
      mul_nonneg (mul_nonneg hu hS) (sub_nonneg.2 hu1)]
  have acc : ∀ (c sw : Bool) (f : Fma) (s σ o x y z t : ℝ), |s| = 1 → |σ| = 1 →
      |accum c sw f fl s σ o x y z t - (o + σ * (x * y + s * (z * t)))| ≤
        3 * u * |o + σ * (x * y + s * (z * t))| + 3 * u * (1 + u) * (|x * y| + |z * t|) := by
    intro c sw f s σ o x y z t hs hσ
    have hbx := abs_nonneg (x * y)
    have hbz := abs_nonneg (z * t)
    have n1 : |σ * (s * (z * t))| = |z * t| := by rw [abs_mul, abs_mul, hs, hσ, one_mul, one_mul]
    have n2 : |σ * (x * y)| = |x * y| := by rw [abs_mul, hσ, one_mul]
    have hc : 0 ≤ 3 * u * (1 + u) := by positivity
    unfold accum
    cases c
    · rw [if_neg (by simp)]
      have h1 := key f s x y z t hs
      set p := fused f fl s x y z t with hp
      have h2 : |o + σ * p - (o + σ * (x * y + s * (z * t)))| ≤ 3 * u * (|x * y| + |z * t|) := by
        rw [show o + σ * p - (o + σ * (x * y + s * (z * t))) = σ * (p - (x * y + s * (z * t))) by ring, abs_mul, hσ, one_mul]
        exact h1
      have h3 : |o + σ * p| ≤ |o + σ * (x * y + s * (z * t))| + 3 * u * (|x * y| + |z * t|) := by
        have := abs_add_le (o + σ * p - (o + σ * (x * y + s * (z * t)))) (o + σ * (x * y + s * (z * t)))
        rw [sub_add_cancel] at this; linarith
      have h4 := tri (fl (o + σ * p)) (o + σ * p) (o + σ * (x * y + s * (z * t)))
      have h5 := h (o + σ * p)
      have h6 := mul_le_mul_of_nonneg_left h3 hu
      nlinarith [mul_nonneg hu (abs_nonneg (o + σ * (x * y + s * (z * t))))]
    · rw [if_pos rfl]
      cases sw
      · rw [if_neg (by simp)]
        have h1 := two o (σ * (x * y)) (σ * (s * (z * t)))
        rw [n1, ← mul_add] at h1
        exact h1.trans (by nlinarith [mul_nonneg hc hbx])
      · rw [if_pos rfl]
        have h1 := two o (σ * (s * (z * t))) (σ * (x * y))
        rw [n2, ← mul_add, add_comm (s * (z * t))] at h1
        exact h1.trans (by nlinarith [mul_nonneg hc hbz])
  have aS : ∀ (c sw : Bool) (f : Fma) (σ o x y z t : ℝ), |σ| = 1 →
      |accum c sw f fl (-1) σ o x y z t - (o + σ * (x * y - z * t))| ≤
        3 * u * |o + σ * (x * y - z * t)| + 3 * u * (1 + u) * (|x * y| + |z * t|) := by
    intro c sw f σ o x y z t hσ
    have := acc c sw f (-1) σ o x y z t (by norm_num) hσ
    rwa [neg_one_mul, ← sub_eq_add_neg] at this
  have aA : ∀ (c sw : Bool) (f : Fma) (σ o x y z t : ℝ), |σ| = 1 →
      |accum c sw f fl 1 σ o x y z t - (o + σ * (x * y + z * t))| ≤
        3 * u * |o + σ * (x * y + z * t)| + 3 * u * (1 + u) * (|x * y| + |z * t|) := by
    intro c sw f σ o x y z t hσ
    have := acc c sw f 1 σ o x y z t (by norm_num) hσ
    rwa [one_mul] at this
  refine ⟨fun x y => h _, fun x y => h _, fun x y => h _, kS _, kA _, aS _ _ _, aA _ _ _, kS _, kA _, kS _, kA _, kS _, kA _,
    aS _ _ _, aA _ _ _, ?_, fun z => h _, ?_⟩
  rotate_left
  · intro x
    show |x - ((if f.even then roundEven x else Fft.round x : ℤ) : ℝ)| ≤ 1 / 2
    cases f.even
    · rw [if_neg (by simp)]; exact round_close x
    · rw [if_pos rfl]; exact roundEven_close x
  · intro c q k
    have hc := abs_nonneg c
    have hq := abs_nonneg (q * k)
    have h1 := h (q * k)
    have h2 := fl_abs h (q * k)
    have base : ∀ v : ℝ, |v - (c - q * k)| ≤ u * |q * k| → |v| ≤ |c| + (1 + u) * |q * k| →
        |fl v - (c - q * k)| ≤ 3 * u * (|c| + |q * k|) := by
      intro v h3 h4
      have h5 := tri (fl v) v (c - q * k)
      have h6 := h v
      have h7 : u * |v| ≤ u * (|c| + (1 + u) * |q * k|) := mul_le_mul_of_nonneg_left h4 hu
      nlinarith [mul_nonneg hu hq, mul_nonneg hu hc, mul_nonneg hu (mul_nonneg hu hq)]
    have hne : ∀ v, |v - q * k| ≤ u * |q * k| → |v| ≤ (1 + u) * |q * k| → |fl (c - v) - (c - q * k)| ≤ 3 * u * (|c| + |q * k|) := by
      intro v h3 h4
      refine base _ ?_ ?_
      · calc _ = |v - q * k| := by rw [← abs_neg]; congr 1; ring
          _ ≤ _ := h3
      · exact (abs_sub _ _).trans (by linarith)
    have hx : |q * k - q * k| ≤ u * |q * k| := by rw [sub_self, abs_zero]; positivity
    have hx' : |q * k| ≤ (1 + u) * |q * k| := by nlinarith
    simp only [Arith.ofFl]
    cases f.prod
    · exact hne _ h1 h2
    · exact hne _ hx hx'
    · exact hne _ hx hx'

section
variable {A : Arith} {u : ℝ} (hA : A.Ok u) (hu : 0 ≤ u)

theorem norm_le_of_comp {c : ℝ} (hc : 0 ≤ c) (d x : ℂ) (h1 : |d.re| ≤ c * |x.re|) (h2 : |d.im| ≤ c * |x.im|) :
    ‖d‖ ≤ c * ‖x‖ := by
  apply abs_le_of_sq_le_sq' _ (by positivity) |>.2
  rw [mul_pow, Complex.sq_norm, Complex.sq_norm, Complex.normSq_apply, Complex.normSq_apply]
  have e1 := mul_self_le_mul_self (abs_nonneg _) h1
  have e2 := mul_self_le_mul_self (abs_nonneg _) h2
  rw [abs_mul_abs_self] at e1 e2
  have f1 := abs_mul_abs_self x.re
  have f2 := abs_mul_abs_self x.im
  nlinarith

/-- Cauchy and Schwarz for two terms. -/
theorem two_mul_le (a b c d : ℝ) : |a * c| + |b * d| ≤ ‖(⟨a, b⟩ : ℂ)‖ * ‖(⟨c, d⟩ : ℂ)‖ := by
  rw [abs_mul, abs_mul]
  apply abs_le_of_sq_le_sq' _ (by positivity) |>.2
  rw [mul_pow, Complex.sq_norm, Complex.sq_norm, Complex.normSq_apply, Complex.normSq_apply]
  have := abs_mul_abs_self a
  have := abs_mul_abs_self b
  have := abs_mul_abs_self c
  have := abs_mul_abs_self d
  nlinarith [sq_nonneg (|a| * |d| - |b| * |c|)]

/-- `A.add` and `A.sub` on complex numbers. -/
def caddFl (A : Arith) (x y : ℂ) : ℂ := ⟨A.add x.re y.re, A.add x.im y.im⟩
def csubFl (A : Arith) (x y : ℂ) : ℂ := ⟨A.sub x.re y.re, A.sub x.im y.im⟩
/-- The product of complex numbers. -/
def cmFl (A : Arith) (x y : ℂ) : ℂ := ⟨A.mulSub x.re y.re x.im y.im, A.mulAdd x.re y.im x.im y.re⟩

/-- `o + σ*x*y` on complex numbers. -/
def caccFl (A : Arith) (σ : ℝ) (o x y : ℂ) : ℂ := ⟨A.accSub σ o.re x.re y.re x.im y.im, A.accAdd σ o.im x.re y.im x.im y.re⟩

include hA hu

theorem cadd_err (x y : ℂ) : ‖caddFl A x y - (x + y)‖ ≤ u * ‖x + y‖ :=
  norm_le_of_comp hu _ _ (hA.add _ _) (hA.add _ _)

theorem csub_err (x y : ℂ) : ‖csubFl A x y - (x - y)‖ ≤ u * ‖x - y‖ :=
  norm_le_of_comp hu _ _ (hA.sub _ _) (hA.sub _ _)

theorem cm_err (x y : ℂ) : ‖cmFl A x y - x * y‖ ≤ 6 * u * (‖x‖ * ‖y‖) := by
  refine (Complex.norm_le_abs_re_add_abs_im _).trans ?_
  have h1 := hA.mulSub x.re y.re x.im y.im
  have h2 := hA.mulAdd x.re y.im x.im y.re
  have c1 := two_mul_le x.re x.im y.re y.im
  have c2 := two_mul_le x.re x.im y.im y.re
  have e : ‖(⟨y.im, y.re⟩ : ℂ)‖ = ‖y‖ := by
    rw [← sq_eq_sq₀ (norm_nonneg _) (norm_nonneg _), Complex.sq_norm, Complex.sq_norm, Complex.normSq_apply, Complex.normSq_apply]
    ring
  rw [e] at c2
  have e1 : (cmFl A x y - x * y).re = A.mulSub x.re y.re x.im y.im - (x.re * y.re - x.im * y.im) := by
    rw [Complex.sub_re, Complex.mul_re]; rfl
  have e2 : (cmFl A x y - x * y).im = A.mulAdd x.re y.im x.im y.re - (x.re * y.im + x.im * y.re) := by
    rw [Complex.sub_im, Complex.mul_im]; rfl
  rw [e1, e2]
  have d1 : 3 * u * (|x.re * y.re| + |x.im * y.im|) ≤ 3 * u * (‖x‖ * ‖y‖) := mul_le_mul_of_nonneg_left c1 (by positivity)
  have d2 : 3 * u * (|x.re * y.im| + |x.im * y.re|) ≤ 3 * u * (‖x‖ * ‖y‖) := mul_le_mul_of_nonneg_left c2 (by positivity)
  linarith

theorem cacc_err (σ : ℝ) (hσ : |σ| = 1) (o x y : ℂ) :
    ‖caccFl A σ o x y - (o + σ * (x * y))‖ ≤ 3 * u * ‖o + σ * (x * y)‖ + 6 * u * (1 + u) * (‖x‖ * ‖y‖) := by
  have h1 := hA.accSub σ o.re x.re y.re x.im y.im hσ
  have h2 := hA.accAdd σ o.im x.re y.im x.im y.re hσ
  have c1 := two_mul_le x.re x.im y.re y.im
  have c2 := two_mul_le x.re x.im y.im y.re
  have e : ‖(⟨y.im, y.re⟩ : ℂ)‖ = ‖y‖ := by
    rw [← sq_eq_sq₀ (norm_nonneg _) (norm_nonneg _), Complex.sq_norm, Complex.sq_norm, Complex.normSq_apply, Complex.normSq_apply]
    ring
  rw [e] at c2
  set S := o + σ * (x * y) with hS
  have eS1 : o.re + σ * (x.re * y.re - x.im * y.im) = S.re := by
    rw [hS, Complex.add_re, Complex.re_ofReal_mul, Complex.mul_re]
  have eS2 : o.im + σ * (x.re * y.im + x.im * y.re) = S.im := by
    rw [hS, Complex.add_im, Complex.im_ofReal_mul, Complex.mul_im]
  rw [eS1] at h1
  rw [eS2] at h2
  set b1 := 3 * u * (1 + u) * (|x.re * y.re| + |x.im * y.im|) with hb1
  set b2 := 3 * u * (1 + u) * (|x.re * y.im| + |x.im * y.re|) with hb2
  have hb1' : 0 ≤ b1 := by positivity
  have hb2' : 0 ≤ b2 := by positivity
  have d1 : b1 ≤ 3 * u * (1 + u) * (‖x‖ * ‖y‖) := mul_le_mul_of_nonneg_left c1 (by positivity)
  have d2 : b2 ≤ 3 * u * (1 + u) * (‖x‖ * ‖y‖) := mul_le_mul_of_nonneg_left c2 (by positivity)
  have k1 : ‖caccFl A σ o x y - S‖ ≤ 1 * ‖(⟨3 * u * |S.re|, 3 * u * |S.im|⟩ : ℂ) + ⟨b1, b2⟩‖ := by
    refine norm_le_of_comp zero_le_one _ _ ?_ ?_
    · rw [one_mul, Complex.add_re]
      exact h1.trans (le_abs_self _)
    · rw [one_mul, Complex.add_im]
      exact h2.trans (le_abs_self _)
  have k2 : ‖(⟨3 * u * |S.re|, 3 * u * |S.im|⟩ : ℂ)‖ ≤ 3 * u * ‖S‖ := by
    refine norm_le_of_comp (by positivity) _ _ ?_ ?_
    · exact le_of_eq (abs_of_nonneg (by positivity))
    · exact le_of_eq (abs_of_nonneg (by positivity))
  have k3 : ‖(⟨b1, b2⟩ : ℂ)‖ ≤ b1 + b2 := by
    refine (Complex.norm_le_abs_re_add_abs_im _).trans (le_of_eq ?_)
    rw [abs_of_nonneg hb1', abs_of_nonneg hb2']
  have k4 := norm_add_le (⟨3 * u * |S.re|, 3 * u * |S.im|⟩ : ℂ) ⟨b1, b2⟩
  linarith

/-- The product with a factor that is itself rounded. -/
theorem cm_near (x w' w : ℂ) (τ : ℝ) (hw : ‖w‖ = 1) (hτ : ‖w' - w‖ ≤ τ) :
    ‖cmFl A x w' - x * w‖ ≤ (6 * u * (1 + τ) + τ) * ‖x‖ := by
  have h1 := cm_err hA hu x w'
  have h2 : ‖w'‖ ≤ 1 + τ := by
    have := norm_add_le w (w' - w)
    rw [add_sub_cancel, hw] at this; linarith
  have h3 : ‖x * w' - x * w‖ ≤ ‖x‖ * τ := by
    rw [← mul_sub, norm_mul]; exact mul_le_mul_of_nonneg_left hτ (norm_nonneg _)
  have h4 := norm_sub_le_norm_sub_add_norm_sub (cmFl A x w') (x * w') (x * w)
  have h5 : 6 * u * (‖x‖ * ‖w'‖) ≤ 6 * u * (‖x‖ * (1 + τ)) :=
    mul_le_mul_of_nonneg_left (mul_le_mul_of_nonneg_left h2 (norm_nonneg _)) (by positivity)
  nlinarith
omit hA hu

/-- The butterflies on complex numbers. -/
def bFFl (A : Arith) (a b w : ℂ) : ℂ × ℂ := (caddFl A a (cmFl A b w), csubFl A a (cmFl A b w))
def bIFl (A : Arith) (a b w : ℂ) : ℂ × ℂ := (caddFl A a b, cmFl A (csubFl A a b) w)

theorem repr_fwdFl (A : Arith) : Rep (fwdButterflyFl A) (bFFl A) := fun _ _ _ _ _ _ => rfl
theorem repr_invFl (A : Arith) : Rep (invButterflyFl A) (bIFl A) := fun _ _ _ _ _ _ => rfl

include hA hu
theorem near_fwd (τ ρ : ℝ) (w' w : ℂ) (hw : ‖w‖ = 1) (hτ : ‖w' - w‖ ≤ τ)
    (hρ : u * (1 + (6 * u * (1 + τ) + τ)) + (6 * u * (1 + τ) + τ) ≤ ρ) : Near ρ (bFFl A) bF w' w := by
  have hτ0 : 0 ≤ τ := (norm_nonneg _).trans hτ
  intro a b
  set κ := 6 * u * (1 + τ) + τ with hκ
  have hκ0 : 0 ≤ κ := by positivity
  have h1 := cm_near hA hu b w' w τ hw hτ
  rw [← hκ] at h1
  have h2 : ‖cmFl A b w'‖ ≤ (1 + κ) * ‖b‖ := by
    have := norm_add_le (b * w) (cmFl A b w' - b * w)
    rw [add_sub_cancel, norm_mul, hw] at this; linarith
  have ha := norm_nonneg a
  have hb := norm_nonneg b
  have hρ1 : u ≤ ρ := by nlinarith [mul_nonneg hu hκ0]
  have fin : ∀ c d : ℂ, ‖c‖ ≤ u * (‖a‖ + ‖cmFl A b w'‖) → ‖d‖ ≤ κ * ‖b‖ → ‖c + d‖ ≤ ρ * (‖a‖ + ‖b‖) := by
    intro c d hc hd
    have h3 := norm_add_le c d
    have h4 : u * (‖a‖ + ‖cmFl A b w'‖) ≤ u * (‖a‖ + (1 + κ) * ‖b‖) := mul_le_mul_of_nonneg_left (by linarith) hu
    nlinarith [mul_le_mul_of_nonneg_right hρ1 ha, mul_le_mul_of_nonneg_right hρ hb]
  constructor
  · have e : (bFFl A a b w').1 - (bF a b w).1 =
      (caddFl A a (cmFl A b w') - (a + cmFl A b w')) + (cmFl A b w' - b * w) := by simp only [bFFl, bF]; ring
    rw [e]
    exact fin _ _ ((cadd_err hA hu _ _).trans (mul_le_mul_of_nonneg_left (norm_add_le _ _) hu)) h1
  · have e : (bFFl A a b w').2 - (bF a b w).2 =
      (csubFl A a (cmFl A b w') - (a - cmFl A b w')) + -(cmFl A b w' - b * w) := by simp only [bFFl, bF]; ring
    rw [e]
    exact fin _ _ ((csub_err hA hu _ _).trans (mul_le_mul_of_nonneg_left (norm_sub_le _ _) hu)) (by rw [norm_neg]; exact h1)

theorem near_inv (τ ρ : ℝ) (w' w : ℂ) (hw : ‖w‖ = 1) (hτ : ‖w' - w‖ ≤ τ)
    (hρ : u + (1 + u) * (6 * u * (1 + τ) + τ) ≤ ρ) : Near ρ (bIFl A) bI w' w := by
  have hτ0 : 0 ≤ τ := (norm_nonneg _).trans hτ
  intro a b
  set κ := 6 * u * (1 + τ) + τ with hκ
  have hκ0 : 0 ≤ κ := by positivity
  have ha := norm_nonneg a
  have hb := norm_nonneg b
  have hρ1 : u ≤ ρ := by nlinarith [mul_nonneg hu hκ0]
  constructor
  · exact (cadd_err hA hu a b).trans (mul_le_mul hρ1 (norm_add_le _ _) (norm_nonneg _) (hu.trans hρ1))
  · have h1 := cm_near hA hu (csubFl A a b) w' w τ hw hτ
    rw [← hκ] at h1
    have h2 := csub_err hA hu a b
    have h3 : ‖csubFl A a b‖ ≤ (1 + u) * ‖a - b‖ := by
      have := norm_add_le (a - b) (csubFl A a b - (a - b))
      rw [add_sub_cancel] at this; linarith
    have e : (bIFl A a b w').2 - (bI a b w).2 = (cmFl A (csubFl A a b) w' - csubFl A a b * w) + (csubFl A a b - (a - b)) * w := by
      simp only [bIFl, bI]; ring
    rw [e]
    have h4 := norm_add_le (cmFl A (csubFl A a b) w' - csubFl A a b * w) ((csubFl A a b - (a - b)) * w)
    rw [norm_mul _ w, hw, mul_one] at h4
    have h5 : κ * ‖csubFl A a b‖ ≤ κ * ((1 + u) * ‖a - b‖) := mul_le_mul_of_nonneg_left h3 hκ0
    have h6 : ρ * ‖a - b‖ ≤ ρ * (‖a‖ + ‖b‖) := mul_le_mul_of_nonneg_left (norm_sub_le _ _) (hu.trans hρ1)
    have h7 := mul_le_mul_of_nonneg_right hρ (norm_nonneg (a - b))
    nlinarith
omit hA hu

/-! ### The tables -/

theorem norm_ex (a : ℝ) : ‖ex a‖ = 1 := by
  unfold ex
  rw [show (2 * Real.pi * (a : ℂ) * Complex.I : ℂ) = ((2 * Real.pi * a : ℝ) : ℂ) * Complex.I by push_cast; ring,
    Complex.norm_exp_ofReal_mul_I]

theorem norm_WW (s i : ℕ) : ‖WW s i‖ = 1 := norm_ex _
theorem norm_WW_inv (s i : ℕ) : ‖(WW s i)⁻¹‖ = 1 := by rw [norm_inv, norm_WW, inv_one]

/-- What an evaluator must contain. -/
structure GoodFl (τ : ℝ) (l : ℕ) (e : Eval ℝ) : Prop where
  rank : e.rank = 2 ^ (l + 4)
  tw : ∀ s < l + 3, ∀ i < 2 ^ s, ‖toC (e.tw (2 ^ s - 1 + i)) - WW s i‖ ≤ τ
  twInv : ∀ s < l + 3, ∀ i < 2 ^ s, ‖toC (e.twInv (2 ^ (l + 3) - 2 ^ (s + 1) + i)) - (WW s i)⁻¹‖ ≤ τ

include hA hu in
theorem toC_cmulFl_near (τ0 τ : ℝ) (hτ : 6 * u * ((1 + τ0) * (1 + τ0)) + τ0 * (1 + τ0) + τ0 ≤ τ) (z z' : ℝ × ℝ) (a b : ℂ)
    (ha : ‖a‖ = 1) (hb : ‖b‖ = 1) (h1 : ‖toC z - a‖ ≤ τ0) (h2 : ‖toC z' - b‖ ≤ τ0) : ‖toC (cmulFl A z z') - a * b‖ ≤ τ := by
  have hτ0 : 0 ≤ τ0 := (norm_nonneg _).trans h1
  have e : toC (cmulFl A z z') = cmFl A (toC z) (toC z') := rfl
  have n1 : ‖toC z‖ ≤ 1 + τ0 := by
    have := norm_add_le a (toC z - a); rw [add_sub_cancel, ha] at this; linarith
  have n2 : ‖toC z'‖ ≤ 1 + τ0 := by
    have := norm_add_le b (toC z' - b); rw [add_sub_cancel, hb] at this; linarith
  have h3 := cm_err hA hu (toC z) (toC z')
  have h4 : 6 * u * (‖toC z‖ * ‖toC z'‖) ≤ 6 * u * ((1 + τ0) * (1 + τ0)) :=
    mul_le_mul_of_nonneg_left (mul_le_mul n1 n2 (norm_nonneg _) (by positivity)) (by positivity)
  have h5 : ‖toC z * toC z' - a * b‖ ≤ τ0 * (1 + τ0) + τ0 := by
    rw [show toC z * toC z' - a * b = (toC z - a) * toC z' + a * (toC z' - b) by ring]
    refine (norm_add_le _ _).trans ?_
    rw [norm_mul, norm_mul, ha, one_mul]
    exact add_le_add (mul_le_mul h1 n2 (norm_nonneg _) hτ0) h2
  rw [e]
  have h6 := norm_sub_le_norm_sub_add_norm_sub (cmFl A (toC z) (toC z')) (toC z * toC z') (a * b)
  linarith

include hA hu in
theorem newEvaluatorFl_good (τ0 τ : ℝ) (hτ : 6 * u * ((1 + τ0) * (1 + τ0)) + τ0 * (1 + τ0) + τ0 ≤ τ)
    (cis : ℤ → ℕ → ℝ × ℝ) (hcis : ∀ (n : ℤ) (d : ℕ), 2 * |n| ≤ d → ‖toC (cis n d) - ex (n / d)‖ ≤ τ0)
    (l : ℕ) (N : BitVec 64) (hN : N.toInt = 2 ^ (l + 4)) :
    ∃ e, newEvaluatorFl A cis N = some e ∧ GoodFl τ l e := by
  have hrev : ∀ i, 2 * |((bitRev (l + 2) i : ℕ) : ℤ)| ≤ ((2 ^ (l + 3) : ℕ) : ℤ) := fun i => by
    have := bitRev_lt (l + 2) i
    rw [Nat.abs_cast, pow_succ 2 (l + 2)]
    push_cast
    have : ((bitRev (l + 2) i : ℕ) : ℤ) < 2 ^ (l + 2) := by exact_mod_cast this
    linarith
  have hfold : ∀ s, 2 * |((2 ^ (l + 3 - 1 - s) : ℕ) : ℤ)| ≤ ((4 * 2 ^ (l + 3) : ℕ) : ℤ) := fun s => by
    have : 2 ^ (l + 3 - 1 - s) ≤ 2 ^ (l + 3) := Nat.pow_le_pow_right (by norm_num) (by omega)
    rw [Nat.abs_cast]
    have : ((2 ^ (l + 3 - 1 - s) : ℕ) : ℤ) ≤ ((2 ^ (l + 3) : ℕ) : ℤ) := by exact_mod_cast this
    have : (0 : ℤ) ≤ ((2 ^ (l + 3) : ℕ) : ℤ) := by positivity
    rw [Nat.cast_mul]
    push_cast at *
    linarith
  obtain ⟨e, h0, h1, h2, h3, _⟩ := newEvaluatorWith_spec (cmulFl A.atTable) cis l N hN
    (fun i z => ‖toC z - ex (-(bitRev (l + 3 - 1) i : ℝ) / 2 ^ (l + 3))‖ ≤ τ0)
    (fun i z => ‖toC z - ex ((bitRev (l + 3 - 1) i : ℝ) / 2 ^ (l + 3))‖ ≤ τ0)
    (fun s i z => ‖toC z - WW s i‖ ≤ τ) (fun s i z => ‖toC z - (WW s i)⁻¹‖ ≤ τ)
    (fun i => by
      have := hcis (-(bitRev (l + 2) i : ℕ)) (2 ^ (l + 3)) (by rw [abs_neg]; exact hrev i)
      push_cast at this; exact this)
    (fun i => by
      have := hcis ((bitRev (l + 2) i : ℕ)) (2 ^ (l + 3)) (hrev i)
      push_cast at this; exact this)
    (fun s hs i hi z hz => by
      rw [WW_eq (l + 3) s i hs hi]
      exact toC_cmulFl_near hA.atTable hu τ0 τ hτ _ _ _ _ (norm_ex _) (norm_ex _) hz (hcis _ _ (hfold s)))
    (fun s hs i hi z hz => by
      rw [WW_inv_eq (l + 3) s i hs hi]
      exact toC_cmulFl_near hA.atTable hu τ0 τ hτ _ _ _ _ (norm_ex _) (norm_ex _) hz (hcis _ _ (by rw [abs_neg]; exact hfold s)))
  exact ⟨e, h0, h1, h2, h3⟩
end

end Tfhe.Fft
