import Verif.Spec.FftOps
import Verif.Lemma.ProdNear

/-!
# Operations in the Fourier domain: effects and errors
-/
namespace Tfhe
open Fft Poly Finset

theorem nearFFT_iff {n : ℕ} (δ : ℝ) (fp : ℕ → ℝ) (p : Poly (2 ^ n) ℝ) :
    NearFFT δ fp p ↔ ∀ j < 2 ^ n / 2, ‖view fp j - evalAt (fftPoint n j) p‖ ≤ δ := Iff.rfl

theorem nearFFT_zero {n : ℕ} (fp : ℕ → ℝ) (p : Poly (2 ^ n) ℝ) : NearFFT 0 fp p ↔ IsFFT fp p := by
  rw [nearFFT_iff, isFFT_iff]
  refine forall₂_congr fun j _ => ?_
  rw [norm_le_zero_iff, sub_eq_zero]

theorem norm_evalAt_le (l j : ℕ) (p : Poly (2 ^ (l + 4)) ℝ) : ‖evalAt (fftPoint (l + 4) j) p‖ ≤ l1 p := by
  unfold evalAt l1
  refine (norm_sum_le _ _).trans (sum_le_sum fun i _ => ?_)
  rw [norm_mul, Complex.norm_real, norm_pow, fftPoint_eq, norm_ex, one_pow, mul_one, Real.norm_eq_abs]

theorem l1_nonneg {N : ℕ} (p : Poly N ℝ) : 0 ≤ l1 p := sum_nonneg fun _ _ => abs_nonneg _

theorem point_half (l j : ℕ) : fftPoint (l + 4) j ^ (2 ^ (l + 4) / 2) = Complex.I := by
  have hI : ex (1 / 4) = Complex.I := by
    unfold ex
    rw [show (2 * Real.pi * ((1 / 4 : ℝ) : ℂ) * Complex.I : ℂ) = Real.pi / 2 * Complex.I by push_cast; ring, Complex.exp_pi_div_two_mul_I]
  rw [fftPoint_eq, ex_pow, ← hI]
  have h2 : 2 ^ (l + 4) / 2 = 2 ^ (l + 3) := by rw [pow_succ 2 (l + 3), Nat.mul_div_cancel _ (by norm_num)]
  have h : (((2 ^ (l + 4) / 2 : ℕ) : ℝ) * ((1 - 4 * (bitRev (l + 3) j : ℝ)) / (2 * 2 ^ (l + 4)))) =
      1 / 4 + ((-bitRev (l + 3) j : ℤ) : ℝ) := by
    rw [h2]
    have : (2 : ℝ) ^ (l + 3) ≠ 0 := by positivity
    push_cast; rw [pow_succ (2 : ℝ) (l + 3)]; field_simp; ring
  rw [h, ex_add_int]

theorem ev_cmplx (l j : ℕ) (a b : ℝ) :
    ev l (C _ a + C _ b * mono (2 ^ (l + 4)) ℝ (2 ^ (l + 4) / 2 : ℕ)) j = ⟨a, b⟩ := by
  unfold ev
  rw [← evalHom_apply _ (point_pow_N l j), map_add, map_mul, evalHom_C, evalHom_C, evalHom_mono, zpow_natCast, point_half]
  apply Complex.ext <;> simp

theorem ev_C (l j : ℕ) (a : ℝ) : ev l (C _ a) j = a := by
  unfold ev; rw [← evalHom_apply _ (point_pow_N l j), evalHom_C]

theorem ev_neg (l j : ℕ) (p : Poly (2 ^ (l + 4)) ℝ) : ev l (-p) j = -ev l p j := by
  unfold ev; rw [← evalHom_apply _ (point_pow_N l j), map_neg, evalHom_apply]

/-! ### Errors of one complex number -/

section
variable {A : Arith} {u : ℝ} (hA : A.Ok u) (hu : 0 ≤ u) {o x y O X Y : ℂ} {δo δx δy BO BX BY : ℝ}
include hu

omit hu in
theorem norm_le_of_near (hx : ‖x - X‖ ≤ δx) (bX : ‖X‖ ≤ BX) : ‖x‖ ≤ BX + δx := by
  have := norm_add_le (x - X) X
  rw [sub_add_cancel] at this; linarith

omit hu in
theorem norm_sub_tri {a b c : ℂ} {s t : ℝ} (h1 : ‖a - b‖ ≤ s) (h2 : ‖b - c‖ ≤ t) : ‖a - c‖ ≤ s + t :=
  (norm_sub_le_norm_sub_add_norm_sub a b c).trans (add_le_add h1 h2)

include hA in
theorem cadd_near (hx : ‖x - X‖ ≤ δx) (hy : ‖y - Y‖ ≤ δy) (bx : ‖x‖ ≤ BX) (by' : ‖y‖ ≤ BY) :
    ‖caddFl A x y - (X + Y)‖ ≤ δx + δy + u * (BX + BY) := by
  have h1 : ‖x + y - (X + Y)‖ ≤ δx + δy := by
    rw [add_sub_add_comm]; exact (norm_add_le _ _).trans (add_le_add hx hy)
  have h2 : ‖x + y‖ ≤ BX + BY := (norm_add_le _ _).trans (add_le_add bx by')
  have := norm_sub_tri ((cadd_err hA hu x y).trans (mul_le_mul_of_nonneg_left h2 hu)) h1
  linarith

include hA in
theorem csub_near (hx : ‖x - X‖ ≤ δx) (hy : ‖y - Y‖ ≤ δy) (bx : ‖x‖ ≤ BX) (by' : ‖y‖ ≤ BY) :
    ‖csubFl A x y - (X - Y)‖ ≤ δx + δy + u * (BX + BY) := by
  have h1 : ‖x - y - (X - Y)‖ ≤ δx + δy := by
    rw [sub_sub_sub_comm]; exact (norm_sub_le _ _).trans (add_le_add hx hy)
  have h2 : ‖x - y‖ ≤ BX + BY := (norm_sub_le _ _).trans (add_le_add bx by')
  have := norm_sub_tri ((csub_err hA hu x y).trans (mul_le_mul_of_nonneg_left h2 hu)) h1
  linarith

omit hu in
theorem mul_near (hx : ‖x - X‖ ≤ δx) (hy : ‖y - Y‖ ≤ δy) (bX : ‖X‖ ≤ BX) (bY : ‖Y‖ ≤ BY) :
    ‖x * y - X * Y‖ ≤ BX * δy + δx * (BY + δy) := by
  rw [show x * y - X * Y = X * (y - Y) + (x - X) * y by ring]
  have hy' := norm_le_of_near hy bY
  refine (norm_add_le _ _).trans ?_
  rw [norm_mul, norm_mul]
  exact add_le_add (mul_le_mul bX hy (norm_nonneg _) ((norm_nonneg _).trans bX))
    (mul_le_mul hx hy' (norm_nonneg _) ((norm_nonneg _).trans hx))

include hA in
theorem cm_near' (hx : ‖x - X‖ ≤ δx) (hy : ‖y - Y‖ ≤ δy) (bX : ‖X‖ ≤ BX) (bY : ‖Y‖ ≤ BY) :
    ‖cmFl A x y - X * Y‖ ≤ BX * δy + δx * (BY + δy) + 6 * u * ((BX + δx) * (BY + δy)) := by
  have h1 := cm_err hA hu x y
  have hx' := norm_le_of_near hx bX
  have hy' := norm_le_of_near hy bY
  have h2 : 6 * u * (‖x‖ * ‖y‖) ≤ 6 * u * ((BX + δx) * (BY + δy)) :=
    mul_le_mul_of_nonneg_left (mul_le_mul hx' hy' (norm_nonneg _) ((norm_nonneg _).trans hx')) (by positivity)
  have := norm_sub_tri (h1.trans h2) (mul_near hx hy bX bY)
  linarith

include hA in
theorem cm_norm_le (bx : ‖x‖ ≤ BX) (by' : ‖y‖ ≤ BY) : ‖cmFl A x y‖ ≤ (1 + 6 * u) * (BX * BY) := by
  have h1 := cm_err hA hu x y
  have h2 : ‖x‖ * ‖y‖ ≤ BX * BY := mul_le_mul bx by' (norm_nonneg _) ((norm_nonneg _).trans bx)
  have h3 := norm_add_le (cmFl A x y - x * y) (x * y)
  rw [sub_add_cancel, norm_mul] at h3
  have h4 : 6 * u * (‖x‖ * ‖y‖) ≤ 6 * u * (BX * BY) := mul_le_mul_of_nonneg_left h2 (by positivity)
  linarith

include hA in
/-- A product added to or subtracted from something. -/
theorem cmadd_near (hu1 : u ≤ 1) (ho : ‖o - O‖ ≤ δo) (hx : ‖x - X‖ ≤ δx) (hy : ‖y - Y‖ ≤ δy) (bO : ‖O‖ ≤ BO) (bX : ‖X‖ ≤ BX)
    (bY : ‖Y‖ ≤ BY) :
    ‖caccFl A 1 o x y - (O + X * Y)‖ ≤
      δo + (BX * δy + δx * (BY + δy)) + 15 * u * (BO + δo + (BX + δx) * (BY + δy)) ∧
    ‖caccFl A (-1) o x y - (O - X * Y)‖ ≤
      δo + (BX * δy + δx * (BY + δy)) + 15 * u * (BO + δo + (BX + δx) * (BY + δy)) := by
  have hx' := norm_le_of_near hx bX
  have hy' := norm_le_of_near hy bY
  have ho' := norm_le_of_near ho bO
  have h1 := mul_near hx hy bX bY
  have hxy : ‖x‖ * ‖y‖ ≤ (BX + δx) * (BY + δy) := mul_le_mul hx' hy' (norm_nonneg _) ((norm_nonneg _).trans hx')
  set K := (BX + δx) * (BY + δy) with hK
  have hK0 : 0 ≤ K := mul_nonneg ((norm_nonneg _).trans hx') ((norm_nonneg _).trans hy')
  have hO0 : 0 ≤ BO + δo := (norm_nonneg _).trans ho'
  have key : ∀ σ : ℝ, |σ| = 1 → ‖caccFl A σ o x y - (O + σ * (X * Y))‖ ≤
      δo + (BX * δy + δx * (BY + δy)) + 15 * u * (BO + δo + K) := by
    intro σ hσ
    have hσ' : ‖(σ : ℂ)‖ = 1 := by rw [Complex.norm_real, Real.norm_eq_abs, hσ]
    have c1 := cacc_err hA hu σ hσ o x y
    have c2 : ‖o + σ * (x * y)‖ ≤ BO + δo + K := by
      refine (norm_add_le _ _).trans ?_
      rw [norm_mul, hσ', one_mul, norm_mul]
      exact add_le_add ho' hxy
    have c3 : ‖o + σ * (x * y) - (O + σ * (X * Y))‖ ≤ δo + (BX * δy + δx * (BY + δy)) := by
      rw [show o + σ * (x * y) - (O + σ * (X * Y)) = (o - O) + σ * (x * y - X * Y) by ring]
      refine (norm_add_le _ _).trans ?_
      rw [norm_mul, hσ', one_mul]
      exact add_le_add ho h1
    have c4 := norm_sub_tri c1 c3
    have c5 := mul_le_mul_of_nonneg_left c2 (show 0 ≤ 3 * u by positivity)
    have c6 := mul_le_mul_of_nonneg_left hxy (show 0 ≤ 6 * u * (1 + u) by positivity)
    have h3 : u * (u * K) ≤ u * K := mul_le_of_le_one_left (by positivity) hu1
    have h4 : 0 ≤ u * (BO + δo) := by positivity
    nlinarith
  have k1 := key 1 (by norm_num)
  have k2 := key (-1) (by norm_num)
  rw [Complex.ofReal_one, one_mul] at k1
  rw [Complex.ofReal_neg, Complex.ofReal_one, neg_one_mul, ← sub_eq_add_neg] at k2
  exact ⟨k1, k2⟩
end

theorem norm_le_of_comp2 {a b : ℝ} (ha : 0 ≤ a) (hb : 0 ≤ b) (d x y : ℂ) (h1 : |d.re| ≤ a * |x.re| + b * |y.re|)
    (h2 : |d.im| ≤ a * |x.im| + b * |y.im|) : ‖d‖ ≤ a * ‖x‖ + b * ‖y‖ := by
  have key : ‖d‖ ≤ ‖(⟨a * |x.re| + b * |y.re|, a * |x.im| + b * |y.im|⟩ : ℂ)‖ := by
    apply abs_le_of_sq_le_sq' _ (norm_nonneg _) |>.2
    rw [Complex.sq_norm, Complex.sq_norm, Complex.normSq_apply, Complex.normSq_apply]
    have e1 := mul_self_le_mul_self (abs_nonneg _) h1
    have e2 := mul_self_le_mul_self (abs_nonneg _) h2
    rw [abs_mul_abs_self] at e1 e2
    simpa using add_le_add e1 e2
  have hn : ∀ z : ℂ, ‖(⟨|z.re|, |z.im|⟩ : ℂ)‖ = ‖z‖ := fun z => by
    rw [← sq_eq_sq₀ (norm_nonneg _) (norm_nonneg _), Complex.sq_norm, Complex.sq_norm, Complex.normSq_apply, Complex.normSq_apply]
    simp [abs_mul_abs_self]
  have e : (⟨a * |x.re| + b * |y.re|, a * |x.im| + b * |y.im|⟩ : ℂ) = (a : ℂ) * ⟨|x.re|, |x.im|⟩ + (b : ℂ) * ⟨|y.re|, |y.im|⟩ := by
    apply Complex.ext <;> simp
  rw [e] at key
  refine key.trans ((norm_add_le _ _).trans ?_)
  rw [norm_mul, norm_mul, hn, hn, Complex.norm_real, Complex.norm_real, Real.norm_of_nonneg ha, Real.norm_of_nonneg hb]

section
variable {F : Float64} {u : ℝ} (hF : RoundsTo F u) {o x O X : ℂ} {δo δx BO BX : ℝ}
include hF

theorem arith_ok : F.arith.Ok u := Arith.ofFl_ok F.fuse F.fl u hF.1 hF.2.1 hF.2.2

theorem addMulFl_err (s o c x : ℝ) (hs : |s| = 1) : |addMulFl F s o c x - (o + s * (c * x))| ≤ 3 * u * |o| + 3 * u * |c * x| := by
  obtain ⟨hu, hu1, h⟩ := hF
  have hcx := abs_nonneg (c * x)
  have ho := abs_nonneg o
  have e1 := h (c * x)
  have e2 : ∀ t, |s * t| = |t| := fun t => by rw [abs_mul, hs, one_mul]
  unfold addMulFl
  have fused : |F.fl (o + s * (c * x)) - (o + s * (c * x))| ≤ 3 * u * |o| + 3 * u * |c * x| := by
    have h1 := h (o + s * (c * x))
    have h2 := abs_add_le o (s * (c * x))
    rw [e2] at h2
    nlinarith [mul_le_mul_of_nonneg_left h2 hu, mul_nonneg hu ho, mul_nonneg hu hcx]
  cases F.fuse.prod with
  | none =>
    show |F.fl (o + s * F.fl (c * x)) - _| ≤ _
    have h1 := h (o + s * F.fl (c * x))
    have h2 := abs_add_le o (s * F.fl (c * x))
    rw [e2] at h2
    have h3 := fl_abs h (c * x)
    have h4 : |o + s * F.fl (c * x) - (o + s * (c * x))| ≤ u * |c * x| := by
      rw [add_sub_add_left_eq_sub, ← mul_sub, e2]; exact e1
    have h5 := abs_sub_le (F.fl (o + s * F.fl (c * x))) (o + s * F.fl (c * x)) (o + s * (c * x))
    have h6 := mul_le_mul_of_nonneg_left (h2.trans (add_le_add_right h3 _)) hu
    have h7 : u * (u * |c * x|) ≤ u * |c * x| := mul_le_of_le_one_left (by positivity) hu1
    nlinarith [mul_nonneg hu ho]
  | left => exact fused
  | right => exact fused

theorem addMul_near (s c : ℝ) (hs : |s| = 1) (ho : ‖o - O‖ ≤ δo) (hx : ‖x - X‖ ≤ δx) (bO : ‖O‖ ≤ BO) (bX : ‖X‖ ≤ BX) :
    ‖(⟨addMulFl F s o.re c x.re, addMulFl F s o.im c x.im⟩ : ℂ) - (O + s * (c * X))‖ ≤
      δo + |c| * δx + 3 * u * (BO + δo + |c| * (BX + δx)) := by
  have hu := hF.1
  have h1 : ‖(⟨addMulFl F s o.re c x.re, addMulFl F s o.im c x.im⟩ : ℂ) - (o + s * (c * x))‖ ≤ 3 * u * ‖o‖ + 3 * u * ‖(c : ℂ) * x‖ := by
    apply norm_le_of_comp2 (by positivity) (by positivity)
    · simpa using addMulFl_err hF s o.re c x.re hs
    · simpa using addMulFl_err hF s o.im c x.im hs
  have h2 : ‖(o + s * (c * x)) - (O + s * (c * X))‖ ≤ δo + |c| * δx := by
    rw [show (o + s * (c * x)) - (O + s * (c * X)) = (o - O) + s * (c * (x - X)) by ring]
    refine (norm_add_le _ _).trans ?_
    rw [norm_mul, norm_mul, Complex.norm_real, Complex.norm_real, Real.norm_eq_abs, Real.norm_eq_abs, hs, one_mul]
    exact add_le_add ho (mul_le_mul_of_nonneg_left hx (abs_nonneg _))
  have ho' := norm_le_of_near ho bO
  have hx' := norm_le_of_near hx bX
  have h3 := norm_sub_tri h1 h2
  rw [norm_mul, Complex.norm_real, Real.norm_eq_abs] at h3
  have h4 := mul_le_mul_of_nonneg_left ho' (show 0 ≤ 3 * u by positivity)
  have h5 := mul_le_mul_of_nonneg_left (mul_le_mul_of_nonneg_left hx' (abs_nonneg c)) (show 0 ≤ 3 * u by positivity)
  linarith

theorem floatMul_near (c : ℝ) (hx : ‖x - X‖ ≤ δx) (bX : ‖X‖ ≤ BX) :
    ‖(⟨F.fl (c * x.re), F.fl (c * x.im)⟩ : ℂ) - c * X‖ ≤ |c| * δx + u * (|c| * (BX + δx)) := by
  have hu := hF.1
  have h1 : ‖(⟨F.fl (c * x.re), F.fl (c * x.im)⟩ : ℂ) - c * x‖ ≤ u * ‖(c : ℂ) * x‖ := by
    apply norm_le_of_comp hu
    · simpa using hF.2.2 (c * x.re)
    · simpa using hF.2.2 (c * x.im)
  have h2 : ‖(c : ℂ) * x - c * X‖ ≤ |c| * δx := by
    rw [← mul_sub, norm_mul, Complex.norm_real, Real.norm_eq_abs]
    exact mul_le_mul_of_nonneg_left hx (abs_nonneg _)
  have hx' := norm_le_of_near hx bX
  have h3 := norm_sub_tri h1 h2
  rw [norm_mul, Complex.norm_real, Real.norm_eq_abs] at h3
  have h4 := mul_le_mul_of_nonneg_left (mul_le_mul_of_nonneg_left hx' (abs_nonneg c)) hu
  linarith
end

/-! ### Effects -/

theorem cmplxLoop_frame (op : ℝ × ℝ → ℝ × ℝ → ℝ × ℝ → ℝ × ℝ) (m : Mem ℝ) (out v0 v1 N v : ℕ) (hv : v ≠ out) :
    cmplxLoop op m out v0 v1 N v = m v := by
  have step : ∀ (L : List ℕ) (m : Mem ℝ) (J : ℕ), (L.foldl (fun m l =>
      let at' := fun v => (m v (8 * J + l), m v (8 * J + 4 + l))
      let z := op (at' out) (at' v0) (at' v1)
      (m.write out (8 * J + l) z.1).write out (8 * J + 4 + l) z.2) m) v = m v := by
    intro L
    induction L with
    | nil => intro m J; rfl
    | cons a L ih =>
      intro m J
      rw [List.foldl_cons, ih]
      funext i
      simp [Mem.write, hv]
  have outer : ∀ (L : List ℕ) (m : Mem ℝ), (L.foldl (fun m J => (List.range 4).foldl (fun m l =>
      let at' := fun v => (m v (8 * J + l), m v (8 * J + 4 + l))
      let z := op (at' out) (at' v0) (at' v1)
      (m.write out (8 * J + l) z.1).write out (8 * J + 4 + l) z.2) m) m) v = m v := by
    intro L
    induction L with
    | nil => intro m; rfl
    | cons a L ih => intro m; rw [List.foldl_cons, ih, step]
  exact outer _ m

theorem cmplxLoop_out (op : ℝ × ℝ → ℝ × ℝ → ℝ × ℝ → ℝ × ℝ) (m : Mem ℝ) (out v0 v1 l j : ℕ) (hj : j < 2 ^ (l + 4) / 2) :
    view (cmplxLoop op m out v0 v1 (2 ^ (l + 4)) out) j =
      toC (op (m out (pos j), m out (pos j + 4)) (m v0 (pos j), m v0 (pos j + 4)) (m v1 (pos j), m v1 (pos j + 4))) := by
  rw [cmplxLoop_spec _ _ _ _ _ _ (eight_mul l), if_pos ⟨rfl, by rw [← half_eq]; exact hj⟩]

theorem foldl_sim {α β ι : Type} (R : α → β → Prop) (f : α → ι → α) (g : β → ι → β) (step : ∀ i a b, R a b → R (f a i) (g b i))
    (L : List ι) (a : α) (b : β) (h : R a b) : R (L.foldl f a) (L.foldl g b) := by
  induction L generalizing a b with
  | nil => exact h
  | cons i L ih => exact ih _ _ (step i a b h)

/-- Between different vectors, the permutation in memory is the permutation of their contents. -/
theorem permuteTo_apart (op : ℝ → ℝ → ℝ) (N : ℕ) (d : ℤ) (out v : ℕ) (m : Mem ℝ) (hne : out ≠ v) (hd : d % 2 ≠ 0) :
    ∃ m', permuteTo op N d out v m = some m' ∧ permuteFFTPoly op N (m out) (m v) d = some (m' out) ∧ ∀ v', v' ≠ out → m' v' = m v' := by
  unfold permuteTo permuteFFTPoly
  rw [if_neg hd, if_neg hd]
  have key := foldl_sim (fun (M : Mem ℝ) (f : ℕ → ℝ) => M out = f ∧ ∀ v', v' ≠ out → M v' = m v')
    (fun M J => (List.range 4).foldl (fun M l =>
      let i := 8 * J + l
      let j := permuteIdx (F := ℝ) N d i
      let M := M.write out i (op (M out i) (M v j.1))
      M.write out (i + 4) (op (M out (i + 4)) (j.2 * M v (j.1 + 4)))) M)
    (fun f J => (List.range 4).foldl (fun f l =>
      let i := 8 * J + l
      let j := permuteIdx (F := ℝ) N d i
      let f := upd f i (op (f i) (m v j.1))
      upd f (i + 4) (op (f (i + 4)) (j.2 * m v (j.1 + 4)))) f)
    (fun J M f h => foldl_sim (fun (M : Mem ℝ) (f : ℕ → ℝ) => M out = f ∧ ∀ v', v' ≠ out → M v' = m v') _ _ (by
      rintro k M f ⟨rfl, h2⟩
      have hv : M v = m v := h2 v hne.symm
      refine ⟨?_, ?_⟩
      · funext q
        simp only [Mem.write, upd, true_and, hne.symm, false_and, if_false, hv]
      · intro v' hv'
        funext q
        simp only [Mem.write, hv', false_and, if_false]
        exact congrFun (h2 v' hv') q) _ M f h)
    (List.range ((N + 7) / 8)) m (m out) ⟨rfl, fun _ _ => rfl⟩
  exact ⟨_, rfl, congrArg some key.1.symm, key.2⟩

/-- What a permutation reads is close to the value of `p(X^d)`. -/
theorem permute_near {l : ℕ} (hl : l + 3 ≤ 64) (fp : ℕ → ℝ) (p : Poly (2 ^ (l + 4)) ℝ) (d : ℤ) (δ : ℝ) (hd : d % 2 ≠ 0)
    (h : NearFFT δ fp p) (a : ℕ) (ha : a < 2 ^ (l + 4) / 2) :
    ‖(⟨fp (permuteIdx (F := ℝ) (2 ^ (l + 4)) d (pos a)).1, (permuteIdx (F := ℝ) (2 ^ (l + 4)) d (pos a)).2 *
      fp ((permuteIdx (F := ℝ) (2 ^ (l + 4)) d (pos a)).1 + 4)⟩ : ℂ) - evalAt (fftPoint (l + 4) a) (subst d p)‖ ≤ δ := by
  have hhalf : 2 ^ (l + 4) / 2 = 2 ^ (l + 3) := by
    rw [pow_succ 2 (l + 3), Nat.mul_div_cancel _ (by norm_num)]
  obtain ⟨c, hc, e1, e2⟩ := permuteIdx_spec l hl d hd a (by omega)
  have hv := (nearFFT_iff _ _ _).1 h c (by omega)
  rw [evalAt_subst _ (point_pow_N l a), e1, e2]
  by_cases h4 : d % 4 = 1
  · rw [if_pos h4, if_pos h4]
    simpa [view] using hv
  · rw [if_neg h4, if_neg h4, evalAt_conj]
    have : (⟨fp (pos c), -1 * fp (pos c + 4)⟩ : ℂ) = (starRingEnd ℂ) (view fp c) := by apply Complex.ext <;> simp [view]
    rw [this, ← map_sub, Complex.norm_conj]
    exact hv

theorem permute_slot {l : ℕ} (op : ℝ → ℝ → ℝ) (out fp : ℕ → ℝ) (d : ℤ) (hd : d % 2 ≠ 0) (y : ℕ → ℝ)
    (hy : permuteFFTPoly op (2 ^ (l + 4)) out fp d = some y) (a : ℕ) (ha : a < 2 ^ (l + 4) / 2) :
    view y a = ⟨op (view out a).re (fp (permuteIdx (F := ℝ) (2 ^ (l + 4)) d (pos a)).1),
      op (view out a).im ((permuteIdx (F := ℝ) (2 ^ (l + 4)) d (pos a)).2 *
        fp ((permuteIdx (F := ℝ) (2 ^ (l + 4)) d (pos a)).1 + 4))⟩ := by
  unfold permuteFFTPoly at hy
  rw [if_neg hd] at hy
  have h8 : (2 ^ (l + 4) + 7) / 8 = 2 ^ (l + 1) := by have := eight_mul l; omega
  have := permute_loop op fp (permuteIdx (F := ℝ) (2 ^ (l + 4)) d) (2 ^ (l + 1)) out a
  rw [if_pos (by rw [← half_eq]; exact ha)] at this
  rw [h8] at hy
  rw [← Option.some.inj hy]
  exact this

/-! ### Operations -/

section
variable {F : Float64} {u : ℝ} (hF : RoundsTo F u) {l w : ℕ} {e : Eval ℝ} {b : FBuf}

theorem loop_near (op : ℝ × ℝ → ℝ × ℝ → ℝ × ℝ → ℝ × ℝ) (m : Mem ℝ) (out v0 v1 : ℕ) (δ : ℝ) (P : Poly (2 ^ (l + 4)) ℝ)
    (h : ∀ j < 2 ^ (l + 4) / 2, ‖toC (op (m out (pos j), m out (pos j + 4)) (m v0 (pos j), m v0 (pos j + 4))
      (m v1 (pos j), m v1 (pos j + 4))) - ev l P j‖ ≤ δ) :
    NearFFT δ (cmplxLoop op m out v0 v1 (2 ^ (l + 4)) out) P ∧
      ∀ v, v ≠ out → cmplxLoop op m out v0 v1 (2 ^ (l + 4)) v = m v := by
  refine ⟨(nearFFT_iff _ _ _).2 fun j hj => ?_, fun v hv => cmplxLoop_frame _ _ _ _ _ _ _ hv⟩
  rw [cmplxLoop_out _ _ _ _ _ _ _ hj]
  exact h j hj

variable (hr : e.rank = 2 ^ (l + 4)) (hl : l + 3 ≤ 64) (m : Mem ℝ) (out x y : ℕ) {o' x' y' : Poly (2 ^ (l + 4)) ℝ} {δf δo δx δy : ℝ}

include hF in
theorem add_run (hx : NearFFT δx (m x) x') (hy : NearFFT δy (m y) y') :
    NearFFT (δx + δy + u * (l1 x' + δx + (l1 y' + δy))) (addCmplxTo F (2 ^ (l + 4)) out x y m out) (x' + y') ∧
      ∀ v, v ≠ out → addCmplxTo F (2 ^ (l + 4)) out x y m v = m v :=
  loop_near _ _ _ _ _ _ _ fun j hj => by
    rw [ev_add]
    have h1 := (nearFFT_iff _ _ _).1 hx j hj
    have h2 := (nearFFT_iff _ _ _).1 hy j hj
    exact cadd_near (arith_ok hF) hF.1 h1 h2 (norm_le_of_near h1 (norm_evalAt_le l j _)) (norm_le_of_near h2 (norm_evalAt_le l j _))

include hF in
theorem sub_run (hx : NearFFT δx (m x) x') (hy : NearFFT δy (m y) y') :
    NearFFT (δx + δy + u * (l1 x' + δx + (l1 y' + δy))) (subCmplxTo F (2 ^ (l + 4)) out x y m out) (x' - y') ∧
      ∀ v, v ≠ out → subCmplxTo F (2 ^ (l + 4)) out x y m v = m v :=
  loop_near _ _ _ _ _ _ _ fun j hj => by
    rw [ev_sub]
    have h1 := (nearFFT_iff _ _ _).1 hx j hj
    have h2 := (nearFFT_iff _ _ _).1 hy j hj
    exact csub_near (arith_ok hF) hF.1 h1 h2 (norm_le_of_near h1 (norm_evalAt_le l j _)) (norm_le_of_near h2 (norm_evalAt_le l j _))

include hF in
theorem mul_run (hx : NearFFT δx (m x) x') (hy : NearFFT δy (m y) y') :
    NearFFT (l1 x' * δy + δx * (l1 y' + δy) + 6 * u * ((l1 x' + δx) * (l1 y' + δy)))
      (mulCmplxFl F.arith m out x y (2 ^ (l + 4)) out) (x' * y') ∧
      ∀ v, v ≠ out → mulCmplxFl F.arith m out x y (2 ^ (l + 4)) v = m v :=
  loop_near _ _ _ _ _ _ _ fun j hj => by
    rw [ev_mul]
    exact cm_near' (arith_ok hF) hF.1 ((nearFFT_iff _ _ _).1 hx j hj) ((nearFFT_iff _ _ _).1 hy j hj) (norm_evalAt_le l j _)
      (norm_evalAt_le l j _)

include hF in
theorem mulAdd_run (ho : NearFFT δo (m out) o') (hx : NearFFT δx (m x) x') (hy : NearFFT δy (m y) y') :
    NearFFT (δo + (l1 x' * δy + δx * (l1 y' + δy)) + 15 * u * (l1 o' + δo + (l1 x' + δx) * (l1 y' + δy)))
      (mulAddCmplxFl F.arith m out x y (2 ^ (l + 4)) out) (o' + x' * y') ∧
      ∀ v, v ≠ out → mulAddCmplxFl F.arith m out x y (2 ^ (l + 4)) v = m v :=
  loop_near _ _ _ _ _ _ _ fun j hj => by
    rw [ev_add, ev_mul]
    exact (cmadd_near (arith_ok hF) hF.1 hF.2.1 ((nearFFT_iff _ _ _).1 ho j hj) ((nearFFT_iff _ _ _).1 hx j hj)
      ((nearFFT_iff _ _ _).1 hy j hj) (norm_evalAt_le l j _) (norm_evalAt_le l j _) (norm_evalAt_le l j _)).1

include hF in
theorem mulSub_run (ho : NearFFT δo (m out) o') (hx : NearFFT δx (m x) x') (hy : NearFFT δy (m y) y') :
    NearFFT (δo + (l1 x' * δy + δx * (l1 y' + δy)) + 15 * u * (l1 o' + δo + (l1 x' + δx) * (l1 y' + δy)))
      (mulSubCmplxFl F.arith m out x y (2 ^ (l + 4)) out) (o' - x' * y') ∧
      ∀ v, v ≠ out → mulSubCmplxFl F.arith m out x y (2 ^ (l + 4)) v = m v :=
  loop_near _ _ _ _ _ _ _ fun j hj => by
    rw [ev_sub, ev_mul]
    exact (cmadd_near (arith_ok hF) hF.1 hF.2.1 ((nearFFT_iff _ _ _).1 ho j hj) ((nearFFT_iff _ _ _).1 hx j hj)
      ((nearFFT_iff _ _ _).1 hy j hj) (norm_evalAt_le l j _) (norm_evalAt_le l j _) (norm_evalAt_le l j _)).2

theorem norm_subst_le (l j : ℕ) (d : ℤ) (p : Poly (2 ^ (l + 4)) ℝ) : ‖evalAt (fftPoint (l + 4) j) (subst d p)‖ ≤ l1 p := by
  rw [evalAt_subst _ (point_pow_N l j)]
  unfold evalAt l1
  refine (norm_sum_le _ _).trans (Finset.sum_le_sum fun i _ => ?_)
  rw [norm_mul, Complex.norm_real, norm_pow, norm_zpow, fftPoint_eq, norm_ex, one_zpow, one_pow, mul_one, Real.norm_eq_abs]

theorem ev_cmplx_mul (l j : ℕ) (c' : ℝ × ℝ) (p : Poly (2 ^ (l + 4)) ℝ) :
    ev l ((C _ c'.1 + C _ c'.2 * mono (2 ^ (l + 4)) ℝ (2 ^ (l + 4) / 2 : ℕ)) * p) j = ev l p j * ⟨c'.1, c'.2⟩ := by
  rw [ev_mul, ev_cmplx, mul_comm]

/-- The polynomial is transformed into the buffer first; nothing else changes. -/
theorem fwd_run (p : ℕ → BitVec w) (hf : ∀ old, NearFFT δf (fwdFFTFl F.arith e old p) (signedOf (2 ^ (l + 4)) p)) :
    NearFFT δf (fwdFFTTo F e p out m out) (signedOf (2 ^ (l + 4)) p) ∧ ∀ v, v ≠ out → fwdFFTTo F e p out m v = m v := by
  unfold fwdFFTTo setVec
  exact ⟨by rw [if_pos rfl]; exact hf _, fun v hv => if_neg hv⟩

include hr hl in
theorem permute_run (d : ℤ) (hd : d % 2 ≠ 0) (hne : out ≠ x) (op : ℝ → ℝ → ℝ) (cop : ℂ → ℂ → ℂ)
    (hop : ∀ a z : ℂ, (⟨op a.re z.re, op a.im z.im⟩ : ℂ) = cop a z) (δ : ℝ) (P : Poly (2 ^ (l + 4)) ℝ)
    (hx : NearFFT δx (m x) x')
    (h : ∀ j < 2 ^ (l + 4) / 2, ∀ z, ‖z - ev l (subst d x') j‖ ≤ δx → ‖cop (view (m out) j) z - ev l P j‖ ≤ δ) :
    ∃ m', permuteTo op e.rank d out x m = some m' ∧ NearFFT δ (m' out) P ∧ ∀ v, v ≠ out → m' v = m v := by
  rw [hr]
  obtain ⟨m', e1, e2, e3⟩ := permuteTo_apart op (2 ^ (l + 4)) d out x m hne hd
  refine ⟨m', e1, (nearFFT_iff _ _ _).2 fun j hj => ?_, e3⟩
  rw [permute_slot op _ _ d hd _ e2 j hj]
  have := h j hj _ (permute_near hl (m x) x' d δx hd hx j hj)
  rw [← hop] at this
  exact this
end

/-! ### From and to words -/

section
variable {N : ℕ} [NeZero N] {R S : Type} [CommRing R] [CommRing S] (f : R →+* S)

theorem mapHom_C (c : R) : mapHom f (C N c) = C N (f c) := by
  funext i
  show f (if (i : ℕ) = 0 then c else 0) = if (i : ℕ) = 0 then f c else 0
  split
  · rfl
  · exact map_zero f

theorem mapHom_subst (d : ℤ) (p : Poly N R) : mapHom f (subst d p) = subst d (mapHom f p) := by
  unfold subst
  rw [map_sum]
  refine sum_congr rfl fun i _ => ?_
  rw [map_mul, mapHom_mono, mapHom_C]
  rfl

/-- Operations commute with changes of coefficients. -/
theorem mapHom_over {w : ℕ} (op : FOp w) (cst : ℝ → R) (word : BitVec w → R) (cst' : ℝ → S) (word' : BitVec w → S)
    (hw : ∀ z, f (word z) = word' z)
    (hc : match op with
      | .floatMul c | .floatMulAdd c | .floatMulSub c => f (cst c) = cst' c
      | .cmplxMul c | .cmplxMulAdd c | .cmplxMulSub c => f (cst c.1) = cst' c.1 ∧ f (cst c.2) = cst' c.2
      | _ => True) (o x y : Poly N R) :
    mapHom f (op.over cst word o x y) = op.over cst' word' (mapHom f o) (mapHom f x) (mapHom f y) := by
  have hp : ∀ p : ℕ → BitVec w, mapHom f (ofSlice N fun i => word (p i)) = ofSlice N fun i => word' (p i) := fun p => funext fun i => hw _
  cases op <;> simp only [FOp.over, map_add, map_sub, map_neg, map_mul, mapHom_C, mapHom_mono, mapHom_subst, hp] <;>
    first
    | rw [hc]
    | rw [hc.1, hc.2]
end

theorem val_int {w N : ℕ} [NeZero N] (op : FOp w) (hi : op.integral) (o x y : Poly N ℤ) :
    op.val (toR N o) (toR N x) (toR N y) = toR N (op.over (fun c => ⌊c⌋) BitVec.toInt o x y) := by
  symm
  refine mapHom_over (Int.castRingHom ℝ) op _ _ _ _ (fun z => rfl) ?_ o x y
  cases op <;> trivial

theorem wval_int {w N : ℕ} [NeZero N] (op : FOp w) (o x y : Poly N (BitVec w)) :
    ofIntP w (op.over (fun c => ⌊c⌋) BitVec.toInt (Bfv.lift o) (Bfv.lift x) (Bfv.lift y)) = op.wval o x y := by
  rw [← ofIntHom_apply]
  refine (mapHom_over (Int.castRingHom (BitVec w)) op _ _ (fun c => BitVec.ofInt w ⌊c⌋) id ?_ ?_ _ _ _).trans ?_
  · intro z
    show ((z.toInt : ℤ) : BitVec w) = z
    rw [← bv_ofInt_eq_cast, BitVec.ofInt_toInt]
  · cases op <;> trivial
  · unfold FOp.wval
    congr 1 <;> exact ofIntP_lift _

/-- The error of the inverse transform, for a vector within `δ` of the transform of a polynomial of size `S`. -/
noncomputable def invErr (l : ℕ) (S δ : ℝ) : ℝ :=
  (1 + 2⁻¹ ^ 53) * (1 + 2⁻¹ ^ 47) ^ (l + 3) * δ + ((1 + 2⁻¹ ^ 53) * (1 + 2⁻¹ ^ 47) ^ (l + 3) - 1) * S

/-- The error of the forward transform of a polynomial with coefficients up to `B`. -/
noncomputable def fwdErr (l : ℕ) (B : ℝ) : ℝ := √2 ^ (l + 3) * ((Phi l - 1) * (√2 ^ (l + 4) * B))

theorem norm_le_n2 (n : ℕ) (z : ℕ → ℂ) (j : ℕ) (hj : j < n) : ‖z j‖ ≤ n2 n z := by
  apply abs_le_of_sq_le_sq' _ (n2_nonneg _ _) |>.2
  rw [n2_sq]
  exact single_le_sum (f := fun p => ‖z p‖ ^ 2) (fun p _ => by positivity) (mem_range.2 hj)

theorem near1_of_near {l : ℕ} (fp : ℕ → ℝ) (P : Poly (2 ^ (l + 4)) ℝ) (S δ : ℝ) (hS : 0 < S) (h1 : l1 P ≤ S) (h : NearFFT δ fp P) :
    Near1 l fp P S (1 + δ / S) := by
  have hhalf : 2 ^ (l + 4) / 2 = 2 ^ (l + 3) := by rw [pow_succ 2 (l + 3), Nat.mul_div_cancel _ (by norm_num)]
  have hc : ∀ t : ℝ, (2 : ℝ) ^ (l + 3) * t = ∑ _j ∈ range (2 ^ (l + 3)), t := fun t => by
    rw [sum_const, card_range, nsmul_eq_mul]; push_cast; ring
  refine ⟨?_, ?_⟩
  · rw [hc]; exact sum_le_sum fun j _ => (norm_evalAt_le l j P).trans h1
  · rw [hc, add_sub_cancel_left, div_mul_cancel₀ _ hS.ne']
    exact sum_le_sum fun j hj => h j (by rw [hhalf]; exact mem_range.1 hj)

section
variable {M : Machine} (hM : Ieee M) {l w : ℕ} {N : BitVec 64} (hN : N.toInt = 2 ^ (l + 4)) {e : Eval ℝ}
  (he : newEvaluatorFl M.arith M.cis N = some e)
include hM hN he

theorem fwd_near (old : ℕ → ℝ) (p : Poly (2 ^ (l + 4)) (BitVec w)) (B : ℕ) (hB : pabs p ≤ B) :
    NearFFT (fwdErr l B) (fwdFFTFl M.arith e old p.slice) p.signed := by
  have hhalf : 2 ^ (l + 4) / 2 = 2 ^ (l + 3) := by rw [pow_succ 2 (l + 3), Nat.mul_div_cancel _ (by norm_num)]
  have h := fwd_near2 (ofFl_ok M.toFloat64 hM.toAccurate) (by positivity) (goodFl_of hM.toAccurate hN he) (by positivity) rho_ok old p B
    fun i => by
      have := (pabs_le_iff p B).1 hB i
      unfold wabs at this
      rw [← Int.cast_abs, Int.abs_eq_natAbs]
      exact_mod_cast this
  refine (nearFFT_iff _ _ _).2 fun j hj => ?_
  exact (norm_le_n2 (2 ^ (l + 3)) (fun j => view (fwdFFTFl M.arith e old p.slice) j - ev l p.signed j) j (by omega)).trans h.2

/-- The inverse transform of a vector near the transform of `Z` in the sum norm. -/
theorem inv_words1 (hw : 0 < w) (hw64 : w ≤ 64) (v : FPoly) (Z : Poly (2 ^ (l + 4)) ℤ) (S Ψ E : ℝ) (h2 : Near1 l v (toR _ Z) S Ψ)
    (hrel : ((1 + (2⁻¹ : ℝ) ^ 53) * (1 + 2⁻¹ ^ 47) ^ (l + 3) * Ψ - 1) * S = E) :
    ∃ err, ((pabs err : ℕ) : ℝ) ≤ E + 3 / 2 ∧ invF M e w (2 ^ (l + 4)) v = ofIntP w Z + err := by
  have hr := rank_of hM hN he
  have hpl : 2 ^ (l + 4) = 2 * 2 ^ (l + 3) := by rw [pow_succ]; ring
  have hA := ofFl_ok M.toFloat64 hM.toAccurate
  have hg := goodFl_of hM.toAccurate hN he
  have hall : ∀ i : Fin (2 ^ (l + 4)), ∃ d : BitVec w, ((wabs d : ℕ) : ℝ) ≤ E + 3 / 2 ∧
      invF M e w (2 ^ (l + 4)) v i = ofIntP w Z i + d := by
    intro i
    have key : ∀ c : ℝ, IsFloat c → |c - Z i| ≤ E → ∃ d : BitVec w, ((wabs d : ℕ) : ℝ) ≤ E + 3 / 2 ∧
        BitVec.ofInt w (M.int64 (floatModQFl M.arith (2 ^ w) c)) = ofIntP w Z i + d := by
      intro c hc hd
      obtain ⟨d, d1, d2⟩ := convert_near hM w hw hw64 c hc (Z i) _ hd
      refine ⟨BitVec.ofInt w d, le_trans ?_ d1, d2⟩
      have : ((d.natAbs : ℕ) : ℝ) = |(d : ℝ)| := by rw [Nat.cast_natAbs, Int.cast_abs]
      rw [← this]
      exact_mod_cast wabs_ofInt_le d
    unfold invF
    simp only
    rw [hr, show 2 ^ (l + 4) / 2 = 2 ^ (l + 3) by omega]
    split
    · rename_i hi
      obtain ⟨b1, b2⟩ := inv_near hA (by positivity) hg (by positivity) rho_ok v _ _ _ h2 i hi
      have f := (isFloat_inv hM hr v i hi).1
      have c2 := (Complex.abs_re_le_norm _).trans (b2.trans hrel.le)
      rw [Complex.sub_re] at c2
      have f1 : (folded l (toR _ Z) i).re = Z i := by
        unfold folded; simp only; rw [slice_lt _ i.1 i.2]; rfl
      rw [f1] at c2
      rw [hr] at f c2
      exact key _ f c2
    · rename_i hi
      have hlt := i.2
      obtain ⟨b1, b2⟩ := inv_near hA (by positivity) hg (by positivity) rho_ok v _ _ _ h2 (i - 2 ^ (l + 3)) (by omega)
      have f := (isFloat_inv hM hr v (i - 2 ^ (l + 3)) (by omega)).2
      have c2 := (Complex.abs_im_le_norm _).trans (b2.trans hrel.le)
      rw [Complex.sub_im] at c2
      have f1 : (folded l (toR _ Z) (i - 2 ^ (l + 3))).im = Z i := by
        unfold folded; simp only
        rw [show i.1 - 2 ^ (l + 3) + 2 ^ (l + 3) = i.1 by omega, slice_lt _ i.1 i.2]; rfl
      rw [f1] at c2
      rw [hr] at f c2
      exact key _ f c2
  choose err h3 h4 using hall
  have h0 : 0 ≤ E + 3 / 2 := (Nat.cast_nonneg _).trans (h3 ⟨0, by positivity⟩)
  refine ⟨err, ?_, funext h4⟩
  refine (Nat.le_floor_iff h0).1 ((pabs_le_iff _ _).2 fun i => (Nat.le_floor_iff h0).2 (h3 i))

theorem inv_words (hw : 0 < w) (hw64 : w ≤ 64) (v : FPoly) (Z : Poly (2 ^ (l + 4)) ℤ) (S δ : ℝ) (hS : 0 < S) (h1 : l1 (toR _ Z) ≤ S)
    (h : NearFFT δ v (toR _ Z)) :
    ∃ err, ((pabs err : ℕ) : ℝ) ≤ invErr l S δ + 3 / 2 ∧ invF M e w (2 ^ (l + 4)) v = ofIntP w Z + err :=
  inv_words1 hM hN he hw hw64 v Z S _ _ (near1_of_near v _ S δ hS h1 h) (by unfold invErr; field_simp; ring)

end

end Tfhe
