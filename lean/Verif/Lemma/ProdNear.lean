import Verif.Lemma.ProdFloat

/-!
# Operations in the Fourier domain, and the way back
-/
namespace Tfhe
open Fft Poly Finset

theorem mapHom_mono {N : ℕ} [NeZero N] {R S : Type} [CommRing R] [CommRing S] (f : R →+* S) (d : ℤ) :
    mapHom f (mono N R d) = mono N S d := by
  apply at_ext; intro z
  show at' (pmap f (mono N R d)) z = _
  rw [at_map, at_mono, at_mono, ← at_map]
  exact congrArg (fun q => at' q (z - d)) (map_one (mapHom f))

/-! ### Monomials -/

theorem cis_near2 (M : Machine) (hM : Ieee M) (n : ℤ) (d : ℕ) (h : |n| ≤ d) : ‖toC (M.cis n d) - ex (n / d)‖ ≤ 2⁻¹ ^ 48 := by
  have hF := hM.toAccurate
  set θ := 2 * Real.pi * (n / d) with hθ
  set θ' := M.fl (M.fl (M.fl (2 * Real.pi) * n) / d) with hθ'
  have a1 : |M.fl (2 * Real.pi) * n - 2 * Real.pi * n| ≤ 2⁻¹ ^ 53 * |2 * Real.pi * n| := by
    rw [← sub_mul, abs_mul, abs_mul (2 * Real.pi), ← mul_assoc]
    exact mul_le_mul_of_nonneg_right (hF.fl _) (abs_nonneg _)
  have a2 := fl_prod M.toFloat64 hF _ _ _ a1
  have a3 : |M.fl (M.fl (2 * Real.pi) * n) / d - θ| ≤ (2⁻¹ ^ 53 + 2⁻¹ ^ 53 * (1 + 2⁻¹ ^ 53)) * |θ| := by
    have e1 : M.fl (M.fl (2 * Real.pi) * n) / d - θ = (M.fl (M.fl (2 * Real.pi) * n) - 2 * Real.pi * n) / d := by rw [hθ]; ring
    have e2 : θ = (2 * Real.pi * n) / d := by rw [hθ]; ring
    rw [e1, e2, abs_div, abs_div, ← mul_div_assoc]
    exact div_le_div_of_nonneg_right a2 (abs_nonneg _)
  have a4 := fl_prod M.toFloat64 hF _ _ _ a3
  rw [← hθ'] at a4
  have hθ2 : |θ| ≤ 2 * Real.pi := by
    rw [hθ, abs_mul, abs_of_pos Real.two_pi_pos, abs_div, Nat.abs_cast]
    have hr : |(n : ℝ)| ≤ d := by exact_mod_cast h
    have : |(n : ℝ)| / d ≤ 1 := div_le_one_of_le₀ hr (Nat.cast_nonneg d)
    nlinarith [Real.two_pi_pos]
  have hπ := Real.pi_lt_d2
  have a5 : |θ' - θ| ≤ 2⁻¹ ^ 53 * 19 := by
    refine a4.trans ?_
    have : |θ| ≤ 6.3 := by linarith
    refine (mul_le_mul_of_nonneg_left this (by positivity)).trans ?_
    norm_num
  have a6 : |θ'| ≤ 7 := by
    have := abs_add_le (θ' - θ) θ
    rw [sub_add_cancel] at this
    have : (2⁻¹ : ℝ) ^ 53 * 19 ≤ 0.1 := by norm_num
    linarith
  have c1 := hM.cos2 θ' a6
  have c2 := hM.sin2 θ' a6
  have e1 : ex (n / d) = Complex.exp ((θ : ℂ) * Complex.I) := by unfold ex; rw [hθ]; push_cast; rfl
  have e2 : M.cis n d = M.sincos θ' := rfl
  rw [e1, e2]
  have b1 := ex_sub_le θ' θ
  have b2 : ‖toC (M.sincos θ') - Complex.exp ((θ' : ℂ) * Complex.I)‖ ≤ 2⁻¹ ^ 51 * (3 / 2) := by
    apply abs_le_of_sq_le_sq' _ (by positivity) |>.2
    rw [Complex.sq_norm, Complex.normSq_apply, Complex.sub_re, Complex.sub_im, Complex.exp_ofReal_mul_I_re,
      Complex.exp_ofReal_mul_I_im]
    have d1 := mul_self_le_mul_self (abs_nonneg _) c1
    have d2 := mul_self_le_mul_self (abs_nonneg _) c2
    rw [abs_mul_abs_self] at d1 d2
    unfold toC
    simp only
    nlinarith
  have b3 := norm_sub_le_norm_sub_add_norm_sub (toC (M.sincos θ')) (Complex.exp ((θ' : ℂ) * Complex.I))
    (Complex.exp ((θ : ℂ) * Complex.I))
  have : (2⁻¹ : ℝ) ^ 51 * (3 / 2) + 2⁻¹ ^ 53 * 19 ≤ 2⁻¹ ^ 48 := by norm_num
  linarith

section
variable {M : Machine} (hM : Ieee M) {l : ℕ} {N : BitVec 64} (hN : N.toInt = 2 ^ (l + 4)) {e : Eval ℝ}
  (he : newEvaluatorFl M.arith M.cis N = some e)
include hM hN he

theorem rank_of : e.rank = 2 ^ (l + 4) := (goodFl_of hM.toAccurate hN he).rank

/-- The entries of the table that a monomial reads. -/
theorem twMono_near (j : ℕ) (hj : j < 2 ^ (l + 3)) (d : ℤ) :
    ‖toC (e.twMono (e.twMonoIdx j * (d % (2 * e.rank)).toNat % (2 * e.rank))) - fftPoint (l + 4) j ^ d‖ ≤ 2⁻¹ ^ 48 := by
  obtain ⟨e', g1, g2, -, -, g3, g4⟩ := newEvaluatorWith_spec (cmulFl M.arith.atTable) M.cis l N hN (fun _ _ => True) (fun _ _ => True)
    (fun _ _ _ => True) (fun _ _ _ => True) (fun _ => trivial) (fun _ => trivial) (fun _ _ _ _ _ _ => trivial)
    (fun _ _ _ _ _ _ => trivial)
  have hee : e' = e := Option.some.inj (g1.symm.trans he)
  subst hee
  obtain ⟨e0, h0, -⟩ := newEvaluatorWith_spec cmul rcis l N hN (fun _ _ => True) (fun _ _ => True)
    (fun _ _ _ => True) (fun _ _ _ => True) (fun _ => trivial) (fun _ => trivial) (fun _ _ _ _ _ _ => trivial)
    (fun _ _ _ _ _ _ => trivial)
  have hg := good_of hN (e := e0) h0
  have ht := twMono_point hN (e := e0) h0 j hj d
  rw [← ht, hg.rank, g2, hg.twMonoIdx j hj, g4 j hj]
  have hlt : ∀ x, x % (2 * 2 ^ (l + 4)) < 2 * 2 ^ (l + 4) := fun x => Nat.mod_lt _ (by positivity)
  rw [hg.twMono _ (hlt _), g3 _ (hlt _)]
  generalize hi : (_ % (2 * 2 ^ (l + 4)) : ℕ) = i
  have hi2 : i < 2 * 2 ^ (l + 4) := hi ▸ hlt _
  have := cis_near2 M hM (-i) (2 * 2 ^ (l + 4)) (by rw [abs_neg, Nat.abs_cast]; exact_mod_cast hi2.le)
  push_cast at this
  exact this

theorem view_monoF (j : ℕ) (hj : j < 2 ^ (l + 3)) (d : ℤ) :
    view (monoF e d) j = toC (e.twMono (e.twMonoIdx j * (d % (2 * e.rank)).toNat % (2 * e.rank))) := by
  have e4 : 2 ^ (l + 3) = 2 ^ (l + 1) * 4 := by rw [pow_add, pow_add]; omega
  unfold monoF monomialFwdFFT
  rw [view_setAll _ _ ((rank_of hM hN he).trans (eight_mul l)), if_pos (by omega)]

omit hM hN he in
theorem ev_mono (j : ℕ) (d : ℤ) : ev l (mono (2 ^ (l + 4)) ℝ d) j = fftPoint (l + 4) j ^ d := by
  unfold ev; rw [← evalHom_apply _ (point_pow_N l j), evalHom_mono]

omit hM hN he in
theorem norm_point (j : ℕ) (d : ℤ) : ‖fftPoint (l + 4) j ^ d‖ = 1 := by
  rw [norm_zpow, fftPoint_eq, norm_ex, one_zpow]

/-- The table of a monomial: pointwise close, and of size at most `b`. -/
theorem monoF_near (j : ℕ) (hj : j < 2 ^ (l + 3)) (d : ℤ) :
    ‖ev l (toR _ (mono (2 ^ (l + 4)) ℤ d)) j‖ ≤ 1 ∧
    ‖view (monoF e d) j - ev l (toR _ (mono (2 ^ (l + 4)) ℤ d)) j‖ ≤ 2⁻¹ ^ 47 := by
  rw [show toR _ (mono (2 ^ (l + 4)) ℤ d) = mono _ ℝ d from mapHom_mono _ d, ev_mono, norm_point,
    view_monoF hM hN he j hj]
  exact ⟨le_rfl, (twMono_near hM hN he j hj d).trans (by norm_num)⟩

theorem monoSubOneF_near (j : ℕ) (hj : j < 2 ^ (l + 3)) (d : ℤ) :
    ‖ev l (toR _ (mono (2 ^ (l + 4)) ℤ d - 1)) j‖ ≤ 2 ∧
    ‖view (monoSubOneF M e d) j - ev l (toR _ (mono (2 ^ (l + 4)) ℤ d - 1)) j‖ ≤ 2⁻¹ ^ 47 := by
  have hev : ev l (toR _ (mono (2 ^ (l + 4)) ℤ d - 1)) j = fftPoint (l + 4) j ^ d - 1 := by
    rw [map_sub, map_one, show toR _ (mono (2 ^ (l + 4)) ℤ d) = mono _ ℝ d from mapHom_mono _ d]
    unfold ev; rw [← evalHom_apply _ (point_pow_N l j), map_sub, map_one, evalHom_mono]
  have e4 : 2 ^ (l + 3) = 2 ^ (l + 1) * 4 := by rw [pow_add, pow_add]; omega
  have hn := norm_point (l := l) j d
  have ht := twMono_near hM hN he j hj d
  rw [hev]
  constructor
  · refine (norm_sub_le _ _).trans ?_
    rw [hn, norm_one]; norm_num
  · unfold monoSubOneF
    simp only
    rw [view_setAll _ _ ((rank_of hM hN he).trans (eight_mul l)), if_pos (by omega)]
    set c := e.twMono (e.twMonoIdx j * (d % (2 * e.rank)).toNat % (2 * e.rank)) with hc
    set p := fftPoint (l + 4) j ^ d with hp
    have h1 := (ofFl_ok M.toFloat64 hM.toAccurate).sub c.1 1
    have hcn : ‖toC c‖ ≤ 1 + 2⁻¹ ^ 48 := by
      have := norm_add_le (toC c - p) p
      rw [sub_add_cancel, hn] at this; linarith
    have hc1 : |c.1 - 1| ≤ 3 := by
      have h2 : |c.1| ≤ 1 + 2⁻¹ ^ 48 := (Complex.abs_re_le_norm (toC c)).trans hcn
      have h3 := abs_sub c.1 1
      rw [abs_one] at h3
      have : (2⁻¹ : ℝ) ^ 48 ≤ 1 := by norm_num
      linarith
    have h2 : ‖toC (M.arith.sub c.1 1, c.2) - (toC c - 1)‖ ≤ 2⁻¹ ^ 53 * 3 := by
      have e1 : toC (M.arith.sub c.1 1, c.2) - (toC c - 1) = ((M.arith.sub c.1 1 - (c.1 - 1) : ℝ) : ℂ) := by
        apply Complex.ext <;> simp [toC]
      rw [e1, Complex.norm_real, Real.norm_eq_abs]
      exact h1.trans (mul_le_mul_of_nonneg_left hc1 (by positivity))
    have h3 := norm_sub_le_norm_sub_add_norm_sub (toC (M.arith.sub c.1 1, c.2)) (toC c - 1) (p - 1)
    rw [sub_sub_sub_cancel_right] at h3
    have : (2⁻¹ : ℝ) ^ 53 * 3 + 2⁻¹ ^ 48 ≤ 2⁻¹ ^ 47 := by norm_num
    linarith
end

/-! ### Sums and products -/

/-- As `Near1`, for the complex values. -/
def N1 (l : ℕ) (x : ℕ → ℂ) (P : Poly (2 ^ (l + 4)) ℝ) (Λ Ψ : ℝ) : Prop :=
  ∑ j ∈ range (2 ^ (l + 3)), ‖ev l P j‖ ≤ 2 ^ (l + 3) * Λ ∧
  ∑ j ∈ range (2 ^ (l + 3)), ‖x j - ev l P j‖ ≤ 2 ^ (l + 3) * ((Ψ - 1) * Λ)

theorem N1.near1 {l : ℕ} {x : ℕ → ℂ} {P : Poly (2 ^ (l + 4)) ℝ} {Λ Ψ : ℝ} (h : N1 l x P Λ Ψ) (fp : FPoly)
    (hfp : ∀ j < 2 ^ (l + 3), view fp j = x j) : Near1 l fp P Λ Ψ :=
  ⟨h.1, le_trans (le_of_eq (sum_congr rfl fun j hj => by rw [hfp j (mem_range.1 hj)])) h.2⟩

theorem N1.mono {l : ℕ} {x : ℕ → ℂ} {P : Poly (2 ^ (l + 4)) ℝ} {Λ Ψ Ψ' : ℝ} (h : N1 l x P Λ Ψ) (h0 : 0 ≤ Λ) (h3 : Ψ ≤ Ψ') :
    N1 l x P Λ Ψ' := by
  refine ⟨h.1, h.2.trans (mul_le_mul_of_nonneg_left (mul_le_mul_of_nonneg_right (by linarith) h0) (by positivity))⟩

/-- As `N1`, for products; the error of a product is counted in advance. -/
def NP (u : ℝ) (l : ℕ) (x y : ℕ → ℂ) (P : Poly (2 ^ (l + 4)) ℝ) (Λ Ψ : ℝ) : Prop :=
  ∑ j ∈ range (2 ^ (l + 3)), ‖ev l P j‖ ≤ 2 ^ (l + 3) * Λ ∧
  ∑ j ∈ range (2 ^ (l + 3)), (6 * u * (‖x j‖ * ‖y j‖) + ‖x j * y j - ev l P j‖) ≤ 2 ^ (l + 3) * ((Ψ - 1) * Λ)

theorem NP.mono {u : ℝ} {l : ℕ} {x y : ℕ → ℂ} {P : Poly (2 ^ (l + 4)) ℝ} {Λ Ψ Ψ' : ℝ} (h : NP u l x y P Λ Ψ) (h0 : 0 ≤ Λ)
    (h3 : Ψ ≤ Ψ') : NP u l x y P Λ Ψ' := by
  refine ⟨h.1, h.2.trans (mul_le_mul_of_nonneg_left (mul_le_mul_of_nonneg_right (by linarith) h0) (by positivity))⟩

section
variable {A : Arith} {u : ℝ} (hA : A.Ok u) (hu : 0 ≤ u) {l : ℕ} {x y : ℕ → ℂ} {P Q : Poly (2 ^ (l + 4)) ℝ} {Λ Λ' Ψ : ℝ}
include hA hu

omit hA in
theorem N1.lin (s : ℂ) (hs : ‖s‖ = 1) (op : ℂ → ℂ → ℂ) (hop : ∀ a b, ‖op a b - (a + s * b)‖ ≤ u * ‖a + s * b‖)
    (R : Poly (2 ^ (l + 4)) ℝ) (hR : ∀ j, ev l R j = ev l P j + s * ev l Q j)
    (h0 : N1 l x P Λ Ψ) (h1 : N1 l y Q Λ' Ψ) :
    N1 l (fun j => op (x j) (y j)) R (Λ + Λ') ((1 + u) * Ψ) := by
  refine ⟨?_, ?_⟩
  · have : ∀ j ∈ range (2 ^ (l + 3)), ‖ev l R j‖ ≤ ‖ev l P j‖ + ‖ev l Q j‖ := fun j _ => by
      rw [hR]; refine (norm_add_le _ _).trans ?_; rw [norm_mul, hs, one_mul]
    refine (sum_le_sum this).trans ?_
    rw [sum_add_distrib, mul_add]
    exact add_le_add h0.1 h1.1
  · have hterm : ∀ j ∈ range (2 ^ (l + 3)), ‖op (x j) (y j) - ev l R j‖ ≤
        (1 + u) * (‖x j - ev l P j‖ + ‖y j - ev l Q j‖) + u * (‖ev l P j‖ + ‖ev l Q j‖) := by
      intro j _
      have c1 := hop (x j) (y j)
      have nd : ‖(x j + s * y j) - ev l R j‖ ≤ ‖x j - ev l P j‖ + ‖y j - ev l Q j‖ := by
        rw [hR, show (x j + s * y j) - (ev l P j + s * ev l Q j) = (x j - ev l P j) + s * (y j - ev l Q j) by ring]
        refine (norm_add_le _ _).trans ?_; rw [norm_mul, hs, one_mul]
      have nr : ‖ev l R j‖ ≤ ‖ev l P j‖ + ‖ev l Q j‖ := by
        rw [hR]; refine (norm_add_le _ _).trans ?_; rw [norm_mul, hs, one_mul]
      have c2 : ‖x j + s * y j‖ ≤ (‖x j - ev l P j‖ + ‖y j - ev l Q j‖) + (‖ev l P j‖ + ‖ev l Q j‖) := by
        have := norm_add_le ((x j + s * y j) - ev l R j) (ev l R j)
        rw [sub_add_cancel] at this; linarith
      have c3 := norm_sub_le_norm_sub_add_norm_sub (op (x j) (y j)) (x j + s * y j) (ev l R j)
      nlinarith [mul_le_mul_of_nonneg_left c2 hu]
    refine (sum_le_sum hterm).trans ?_
    rw [sum_add_distrib, ← mul_sum, ← mul_sum, sum_add_distrib, sum_add_distrib]
    have q1 := mul_le_mul_of_nonneg_left (add_le_add h0.2 h1.2) (show 0 ≤ 1 + u by positivity)
    have q2 := mul_le_mul_of_nonneg_left (add_le_add h0.1 h1.1) hu
    calc _ ≤ _ := add_le_add q1 q2
      _ = _ := by ring

/-- The product itself. -/
theorem NP.n1 (h : NP u l x y P Λ Ψ) : N1 l (fun j => cmFl A (x j) (y j)) P Λ Ψ := by
  refine ⟨h.1, (sum_le_sum fun j _ => ?_).trans h.2⟩
  have c1 := cm_err hA hu (x j) (y j)
  have c2 := norm_sub_le_norm_sub_add_norm_sub (cmFl A (x j) (y j)) (x j * y j) (ev l P j)
  linarith

/-- The product added to something. -/
theorem NP.add {o : ℕ → ℂ} (h0 : N1 l o P Λ Ψ) (h1 : NP u l x y Q Λ' Ψ) :
    N1 l (fun j => caccFl A 1 (o j) (x j) (y j)) (P + Q) (Λ + Λ') ((1 + 3 * u) * Ψ) := by
  refine ⟨?_, ?_⟩
  · have : ∀ j ∈ range (2 ^ (l + 3)), ‖ev l (P + Q) j‖ ≤ ‖ev l P j‖ + ‖ev l Q j‖ := fun j _ => by
      rw [ev_add]; exact norm_add_le _ _
    refine (sum_le_sum this).trans ?_
    rw [sum_add_distrib, mul_add]
    exact add_le_add h0.1 h1.1
  · have hterm : ∀ j ∈ range (2 ^ (l + 3)), ‖caccFl A 1 (o j) (x j) (y j) - ev l (P + Q) j‖ ≤
        (1 + 3 * u) * (‖o j - ev l P j‖ + (6 * u * (‖x j‖ * ‖y j‖) + ‖x j * y j - ev l Q j‖)) +
          3 * u * (‖ev l P j‖ + ‖ev l Q j‖) := by
      intro j _
      rw [ev_add]
      have c1 := cacc_err hA hu 1 (by norm_num) (o j) (x j) (y j)
      rw [Complex.ofReal_one, one_mul] at c1
      have hn : 0 ≤ ‖x j‖ * ‖y j‖ := by positivity
      set xy := x j * y j with hxy
      have c2 : ‖o j + xy‖ ≤ (‖o j - ev l P j‖ + ‖xy - ev l Q j‖) + (‖ev l P j‖ + ‖ev l Q j‖) := by
        rw [show o j + xy = ((o j - ev l P j) + (xy - ev l Q j)) + (ev l P j + ev l Q j) by ring]
        exact (norm_add_le _ _).trans (add_le_add (norm_add_le _ _) (norm_add_le _ _))
      set c := caccFl A 1 (o j) (x j) (y j) with hc
      have c3 : ‖c - (ev l P j + ev l Q j)‖ ≤ ‖c - (o j + xy)‖ + (‖o j - ev l P j‖ + ‖xy - ev l Q j‖) := by
        rw [show c - (ev l P j + ev l Q j) = (c - (o j + xy)) + ((o j - ev l P j) + (xy - ev l Q j)) by ring]
        exact (norm_add_le _ _).trans (add_le_add le_rfl (norm_add_le _ _))
      have c4 := mul_le_mul_of_nonneg_left c2 (show 0 ≤ 3 * u by positivity)
      nlinarith [mul_nonneg hu (mul_nonneg hu hn)]
    refine (sum_le_sum hterm).trans ?_
    rw [sum_add_distrib, ← mul_sum, ← mul_sum, sum_add_distrib, sum_add_distrib (f := fun j => ‖ev l P j‖)]
    have q1 := mul_le_mul_of_nonneg_left (add_le_add h0.2 h1.2) (show 0 ≤ 1 + 3 * u by positivity)
    have q2 := mul_le_mul_of_nonneg_left (add_le_add h0.1 h1.1) (show 0 ≤ 3 * u by positivity)
    calc _ ≤ _ := add_le_add q1 q2
      _ = _ := by ring

omit hA hu in
theorem ev_sub (l : ℕ) (P Q : Poly (2 ^ (l + 4)) ℝ) (j : ℕ) : ev l (P - Q) j = ev l P j - ev l Q j := by
  unfold ev; rw [← evalHom_apply _ (point_pow_N l j), map_sub, evalHom_apply, evalHom_apply]

theorem N1.sub (h0 : N1 l x P Λ Ψ) (h1 : N1 l y Q Λ' Ψ) :
    N1 l (fun j => csubFl A (x j) (y j)) (P - Q) (Λ + Λ') ((1 + u) * Ψ) :=
  N1.lin hu (-1) (by rw [norm_neg, norm_one]) (csubFl A)
    (fun a b => by rw [neg_one_mul, ← sub_eq_add_neg]; exact csub_err hA hu a b) _
    (fun j => by rw [ev_sub, neg_one_mul, ← sub_eq_add_neg]) h0 h1

omit hA in
/-- Multiplication by a table that is pointwise close and bounded. -/
theorem NP.table (b τ : ℝ) (hb : 1 ≤ b) (hτ : 0 ≤ τ) (fm : ℕ → ℂ) (hm : ∀ j < 2 ^ (l + 3), ‖ev l Q j‖ ≤ b ∧ ‖fm j - ev l Q j‖ ≤ τ)
    (hΛ : 0 ≤ Λ) (hΨ : 1 ≤ Ψ) (h : N1 l x P Λ Ψ) :
    NP u l x fm (P * Q) (b * Λ) ((1 + 6 * u * (1 + τ) + τ) * Ψ) := by
  have hM : (0 : ℝ) ≤ 2 ^ (l + 3) := by positivity
  have hb0 : 0 ≤ b := by linarith
  refine ⟨?_, ?_⟩
  · have : ∀ j ∈ range (2 ^ (l + 3)), ‖ev l (P * Q) j‖ ≤ b * ‖ev l P j‖ := fun j hj => by
      rw [ev_mul, norm_mul, mul_comm]
      exact mul_le_mul_of_nonneg_right (hm j (mem_range.1 hj)).1 (norm_nonneg _)
    refine (sum_le_sum this).trans ?_
    rw [← mul_sum]
    exact (mul_le_mul_of_nonneg_left h.1 hb0).trans (le_of_eq (by ring))
  · have hterm : ∀ j ∈ range (2 ^ (l + 3)), 6 * u * (‖x j‖ * ‖fm j‖) + ‖x j * fm j - ev l (P * Q) j‖ ≤
        (6 * u * (b + τ) + τ) * (‖x j - ev l P j‖ + ‖ev l P j‖) + b * ‖x j - ev l P j‖ := by
      intro j hj
      obtain ⟨m1, m2⟩ := hm j (mem_range.1 hj)
      have hfm : ‖fm j‖ ≤ b + τ := by
        have := norm_add_le (fm j - ev l Q j) (ev l Q j)
        rw [sub_add_cancel] at this; linarith
      have hx : ‖x j‖ ≤ ‖x j - ev l P j‖ + ‖ev l P j‖ := by
        have := norm_add_le (x j - ev l P j) (ev l P j)
        rwa [sub_add_cancel] at this
      have c2 : ‖x j * fm j - ev l (P * Q) j‖ ≤ ‖x j‖ * τ + ‖x j - ev l P j‖ * b := by
        rw [ev_mul, show x j * fm j - ev l P j * ev l Q j = x j * (fm j - ev l Q j) + (x j - ev l P j) * ev l Q j by ring]
        refine (norm_add_le _ _).trans ?_
        rw [norm_mul, norm_mul]
        exact add_le_add (mul_le_mul_of_nonneg_left m2 (norm_nonneg _)) (mul_le_mul_of_nonneg_left m1 (norm_nonneg _))
      have c4 : 6 * u * (‖x j‖ * ‖fm j‖) ≤ 6 * u * ((‖x j - ev l P j‖ + ‖ev l P j‖) * (b + τ)) :=
        mul_le_mul_of_nonneg_left (mul_le_mul hx hfm (norm_nonneg _) (by positivity)) (by positivity)
      have c5 := mul_le_mul_of_nonneg_right hx hτ
      linarith
    refine (sum_le_sum hterm).trans ?_
    rw [sum_add_distrib, ← mul_sum, ← mul_sum, sum_add_distrib]
    have q0 : 0 ≤ 6 * u * (b + τ) + τ := by positivity
    have q1 := mul_le_mul_of_nonneg_left (add_le_add h.2 h.1) q0
    have q2 := mul_le_mul_of_nonneg_left h.2 hb0
    have q3 : (6 * u * (b + τ) + τ) * (Ψ * Λ) ≤ b * (6 * u * (1 + τ) + τ) * (Ψ * Λ) := by
      refine mul_le_mul_of_nonneg_right ?_ (by positivity)
      have : τ ≤ b * τ := le_mul_of_one_le_left hτ hb
      have := mul_le_mul_of_nonneg_left this (show 0 ≤ 6 * u by positivity)
      linarith
    calc _ ≤ _ := add_le_add q1 q2
      _ = 2 ^ (l + 3) * ((6 * u * (b + τ) + τ) * (Ψ * Λ) + b * (Ψ - 1) * Λ) := by ring
      _ ≤ 2 ^ (l + 3) * (b * (6 * u * (1 + τ) + τ) * (Ψ * Λ) + b * (Ψ - 1) * Λ) := by gcongr
      _ = _ := by ring
end

/-! ### The elements that are computed -/

section
variable {M : Machine} (hM : Ieee M) {l : ℕ} {N : BitVec 64} (hN : N.toInt = 2 ^ (l + 4)) {e : Eval ℝ}
  (he : newEvaluatorFl M.arith M.cis N = some e)
include hM hN he

theorem view_mulF (x y : FPoly) (j : ℕ) (hj : j < 2 ^ (l + 3)) : view (mulF M e x y) j = cmFl M.arith (view x j) (view y j) := by
  have e4 : 2 ^ (l + 3) = 2 ^ (l + 1) * 4 := by rw [pow_add, pow_add]; omega
  rw [mulF, mulCmplxFl, cmplxLoop_spec _ _ _ _ _ _ ((rank_of hM hN he).trans (eight_mul l)), if_pos ⟨rfl, by omega⟩]
  rfl

theorem view_mulAddF (o x y : FPoly) (j : ℕ) (hj : j < 2 ^ (l + 3)) :
    view (mulAddF M e o x y) j = caccFl M.arith 1 (view o j) (view x j) (view y j) := by
  have e4 : 2 ^ (l + 3) = 2 ^ (l + 1) * 4 := by rw [pow_add, pow_add]; omega
  rw [mulAddF, mulAddCmplxFl, cmplxLoop_spec _ _ _ _ _ _ ((rank_of hM hN he).trans (eight_mul l)), if_pos ⟨rfl, by omega⟩]
  rfl

theorem view_subF (x y : FPoly) (j : ℕ) (hj : j < 2 ^ (l + 3)) : view (subF M e x y) j = csubFl M.arith (view x j) (view y j) := by
  have e4 : 2 ^ (l + 3) = 2 ^ (l + 1) * 4 := by rw [pow_add, pow_add]; omega
  rw [subF, cmplxLoop_spec _ _ _ _ _ _ ((rank_of hM hN he).trans (eight_mul l)), if_pos ⟨rfl, by omega⟩]
  rfl

end

/-! ### The relation -/

/-- The growth of the relative error with one operation. -/
noncomputable def gg : ℝ := 1 + 2 * 2⁻¹ ^ 47
/-- The relative error of a product of two transforms. -/
noncomputable def Psi0 (l : ℕ) : ℝ := (1 + 6 * 2⁻¹ ^ 53) * (Phi l * Phi l)

theorem one_le_gg : 1 ≤ gg := by unfold gg; norm_num

theorem one_le_Psi0 (l : ℕ) : 1 ≤ Psi0 l := by
  have := one_le_Phi l
  unfold Psi0
  have h : 1 ≤ Phi l * Phi l := by nlinarith
  nlinarith [show (0 : ℝ) < 2⁻¹ ^ 53 by positivity]

theorem one_le_rel (l n : ℕ) : 1 ≤ gg ^ n * Psi0 l := by
  have := one_le_Psi0 l
  have h : 1 ≤ gg ^ n := one_le_pow₀ one_le_gg
  nlinarith

theorem rel_mono (l : ℕ) {n n' : ℕ} (h : n ≤ n') : gg ^ n * Psi0 l ≤ gg ^ n' * Psi0 l :=
  mul_le_mul_of_nonneg_right (pow_le_pow_right₀ one_le_gg h) (zero_le_one.trans (one_le_Psi0 l))

/-- The size of `T` products of digits up to `D` with words of `w` bits. -/
def size (l w D T : ℕ) : ℕ := T * (2 ^ (l + 4) * (2 ^ (w - 1) * D))

/-- `v` is close to the transform of an integer polynomial that reduces to `q`; `T` products and `n` operations went into it. -/
def AP (l w D T n : ℕ) (v : FPoly) (q : Poly (2 ^ (l + 4)) (BitVec w)) : Prop :=
  ∃ Z : Poly (2 ^ (l + 4)) ℤ, ofIntP w Z = q ∧ Near1 l v (toR _ Z) (size l w D T : ℝ) (gg ^ n * Psi0 l)

theorem AP.mono {l w D T T' n n' : ℕ} {v : FPoly} {q : Poly (2 ^ (l + 4)) (BitVec w)} (h : AP l w D T n v q) (hT : T ≤ T')
    (hn : n ≤ n') : AP l w D T' n' v q := by
  obtain ⟨Z, h1, h2⟩ := h
  refine ⟨Z, h1, h2.mono (Nat.cast_nonneg _) ?_ (one_le_rel l n) (rel_mono l hn)⟩
  exact_mod_cast Nat.mul_le_mul_right _ hT

/-- `v` is the transform of the words `q`. -/
def Keyed (l w : ℕ) (v : FPoly) (q : Poly (2 ^ (l + 4)) (BitVec w)) : Prop :=
  Near2 l v (toR _ (Bfv.lift q)) (√2 ^ (l + 4) * (2 ^ (w - 1) : ℕ)) (Phi l)
/-- `v` is the transform of the digits `q`. -/
def Digit (l w D : ℕ) (v : FPoly) (q : Poly (2 ^ (l + 4)) (BitVec w)) : Prop :=
  Near2 l v (toR _ (Bfv.lift q)) (√2 ^ (l + 4) * D) (Phi l)
/-- `v` is the table of an integer polynomial that reduces to `q`, of size up to `b`. -/
def Table (l w b : ℕ) (v : FPoly) (q : Poly (2 ^ (l + 4)) (BitVec w)) : Prop :=
  ∃ Z : Poly (2 ^ (l + 4)) ℤ, ofIntP w Z = q ∧ ∀ j < 2 ^ (l + 3), ‖ev l (toR _ Z) j‖ ≤ b ∧ ‖view v j - ev l (toR _ Z) j‖ ≤ 2⁻¹ ^ 47

theorem iabs_half {w m : ℕ} (p : Poly m (BitVec w)) : iabs (Bfv.lift p) ≤ 2 ^ (w - 1) := by
  rw [iabs_le_iff]
  intro i
  change (p i).toInt.natAbs ≤ _
  have h1 := BitVec.toInt_lt (x := p i)
  have h2 := BitVec.le_toInt (x := p i)
  have h4 : ((p i).toInt.natAbs : ℤ) ≤ 2 ^ (w - 1) := by rw [Int.natCast_natAbs, abs_le]; constructor <;> linarith
  exact_mod_cast h4

section
variable {M : Machine} (hM : Ieee M) {l : ℕ} {N : BitVec 64} (hN : N.toInt = 2 ^ (l + 4)) {e : Eval ℝ}
  (he : newEvaluatorFl M.arith M.cis N = some e) {w D : ℕ}
include hM hN he

theorem keyed_fwd (q : Poly (2 ^ (l + 4)) (BitVec w)) : Keyed l w (fwdF M e q) q :=
  fwd64 hM.toAccurate hN he _ q _ (iabs_half q)
theorem digit_fwd (q : Poly (2 ^ (l + 4)) (BitVec w)) (h : pabs q ≤ D) : Digit l w D (fwdF M e q) q :=
  fwd64 hM.toAccurate hN he _ q _ h
theorem table_mono (d : ℤ) : Table l w 1 (monoF e d) (mono _ _ d) :=
  ⟨mono _ _ d, (ofIntHom_apply _).symm.trans (mapHom_mono (Int.castRingHom (BitVec w)) d), fun j hj => by
    rw [Nat.cast_one]; exact monoF_near hM hN he j hj d⟩
theorem table_monoSubOne (d : ℤ) : Table l w 2 (monoSubOneF M e d) (monoSubOne _ _ d) :=
  ⟨mono _ _ d - 1, by
    rw [← ofIntHom_apply, map_sub, map_one]
    exact congrArg (· - 1) (mapHom_mono (Int.castRingHom (BitVec w)) d), fun j hj => by
    rw [Nat.cast_ofNat]; exact monoSubOneF_near hM hN he j hj d⟩

omit hM hN he in
theorem uu_le_gg : 1 + (2⁻¹ : ℝ) ^ 53 ≤ gg := by unfold gg; norm_num
omit hM hN he in
theorem uuu_le_gg : 1 + 3 * (2⁻¹ : ℝ) ^ 53 ≤ gg := by unfold gg; norm_num
omit hM hN he in
theorem tab_le_gg : 1 + 6 * (2⁻¹ : ℝ) ^ 53 * (1 + 2⁻¹ ^ 47) + 2⁻¹ ^ 47 ≤ gg := by unfold gg; norm_num

omit hM hN he in
/-- A product of a key element with a digit. -/
theorem prod_np (x d : FPoly) (p q : Poly (2 ^ (l + 4)) (BitVec w)) (hx : Keyed l w x p) (hd : Digit l w D d q) :
    NP (2⁻¹ ^ 53) l (view x) (view d) (toR _ (Bfv.lift p * Bfv.lift q)) (size l w D 1 : ℝ) (Psi0 l) := by
  have h := mul_near0 (show (0 : ℝ) ≤ 2⁻¹ ^ 53 by positivity) (fun v => if v = 0 then x else d) 0 1 _ _ _ _ _ _ (by positivity)
    (one_le_Phi l) hx hd
  rw [sizes, ← map_mul] at h
  unfold size
  rw [one_mul]
  exact h

theorem AP.mul (x d : FPoly) (p q : Poly (2 ^ (l + 4)) (BitVec w)) (hx : Keyed l w x p) (hd : Digit l w D d q) :
    AP l w D 1 0 (mulF M e x d) (q * p) := by
  refine ⟨Bfv.lift p * Bfv.lift q, ?_, ?_⟩
  · rw [← ofIntHom_apply, map_mul, ofIntHom_apply, ofIntHom_apply, ofIntP_lift, ofIntP_lift, mul_comm]
  · rw [pow_zero, one_mul]
    exact ((prod_np x d p q hx hd).n1 (ofFl_ok M.toFloat64 hM.toAccurate) (by positivity)).near1 _ (view_mulF hM hN he x d)

omit hN he hM in
theorem size_add (T T' : ℕ) : (size l w D T : ℝ) + size l w D T' = (size l w D (T + T') : ℕ) := by
  unfold size; push_cast; ring

omit hM hN he in
theorem step_le {n : ℕ} : (1 + (2⁻¹ : ℝ) ^ 53) * (gg ^ n * Psi0 l) ≤ gg ^ (n + 1) * Psi0 l := by
  rw [pow_succ gg, mul_comm (gg ^ n) gg, mul_assoc gg]
  exact mul_le_mul_of_nonneg_right uu_le_gg (zero_le_one.trans (one_le_rel l n))

omit hM hN he in
theorem step3_le {n : ℕ} : (1 + 3 * (2⁻¹ : ℝ) ^ 53) * (gg ^ n * Psi0 l) ≤ gg ^ (n + 1) * Psi0 l := by
  rw [pow_succ gg, mul_comm (gg ^ n) gg, mul_assoc gg]
  exact mul_le_mul_of_nonneg_right uuu_le_gg (zero_le_one.trans (one_le_rel l n))

theorem AP.mulAdd {T n : ℕ} (v x d : FPoly) (s p q : Poly (2 ^ (l + 4)) (BitVec w)) (hv : AP l w D T n v s) (hx : Keyed l w x p)
    (hd : Digit l w D d q) : AP l w D (T + 1) (n + 1) (mulAddF M e v x d) (s + q * p) := by
  obtain ⟨Z, h1, h2⟩ := hv
  have hA := ofFl_ok M.toFloat64 hM.toAccurate
  refine ⟨Z + Bfv.lift p * Bfv.lift q, ?_, ?_⟩
  · rw [← ofIntHom_apply, map_add, map_mul, ofIntHom_apply, ofIntHom_apply, ofIntHom_apply, ofIntP_lift, ofIntP_lift, h1,
      mul_comm p q]
  · have h3 := (prod_np x d p q hx hd).mono (Nat.cast_nonneg _) (show Psi0 l ≤ gg ^ n * Psi0 l by
      have := rel_mono l (Nat.zero_le n); rwa [pow_zero, one_mul] at this)
    have h4 := NP.add hA (by positivity) (show N1 l (view v) _ _ _ from h2) h3
    rw [← map_add, size_add] at h4
    exact (h4.mono (Nat.cast_nonneg _) step3_le).near1 _ (view_mulAddF hM hN he v x d)

theorem AP.sub {T T' n n' : ℕ} (v v' : FPoly) (s s' : Poly (2 ^ (l + 4)) (BitVec w)) (hv : AP l w D T n v s)
    (hv' : AP l w D T' n' v' s') : AP l w D (T + T') (max n n' + 1) (subF M e v v') (s - s') := by
  obtain ⟨Z, h1, h2⟩ := hv.mono le_rfl (le_max_left n n')
  obtain ⟨Z', h1', h2'⟩ := hv'.mono le_rfl (le_max_right n n')
  have hA := ofFl_ok M.toFloat64 hM.toAccurate
  refine ⟨Z - Z', ?_, ?_⟩
  · rw [← ofIntHom_apply, map_sub, ofIntHom_apply, ofIntHom_apply, h1, h1']
  · have h4 := N1.sub hA (by positivity) (show N1 l (view v) _ _ _ from h2) (show N1 l (view v') _ _ _ from h2')
    rw [← map_sub, size_add] at h4
    exact (h4.mono (Nat.cast_nonneg _) step_le).near1 _ (view_subF hM hN he v v')

omit hM hN he in
theorem table_np {T n b : ℕ} (hb : 1 ≤ b) (v t : FPoly) (Z Z' : Poly (2 ^ (l + 4)) ℤ)
    (hv : Near1 l v (toR _ Z) (size l w D T : ℝ) (gg ^ n * Psi0 l))
    (ht : ∀ j < 2 ^ (l + 3), ‖ev l (toR _ Z') j‖ ≤ b ∧ ‖view t j - ev l (toR _ Z') j‖ ≤ 2⁻¹ ^ 47) :
    NP (2⁻¹ ^ 53) l (view v) (view t) (toR _ (Z * Z')) (size l w D (b * T) : ℝ) (gg ^ (n + 1) * Psi0 l) := by
  have h := NP.table (show (0 : ℝ) ≤ 2⁻¹ ^ 53 by positivity) (b : ℝ) (2⁻¹ ^ 47) (by exact_mod_cast hb) (by positivity) (view t) ht (Nat.cast_nonneg _)
    (one_le_rel l n) (show N1 l (view v) _ _ _ from hv)
  rw [← map_mul] at h
  have e1 : (b : ℝ) * (size l w D T : ℕ) = (size l w D (b * T) : ℕ) := by unfold size; push_cast; ring
  rw [e1] at h
  refine h.mono (Nat.cast_nonneg _) ?_
  rw [pow_succ gg, mul_comm (gg ^ n) gg, mul_assoc gg]
  exact mul_le_mul_of_nonneg_right tab_le_gg (zero_le_one.trans (one_le_rel l n))

theorem AP.table {T n b : ℕ} (hb : 1 ≤ b) (v t : FPoly) (s r : Poly (2 ^ (l + 4)) (BitVec w)) (hv : AP l w D T n v s)
    (ht : Table l w b t r) : AP l w D (b * T) (n + 1) (mulF M e v t) (r * s) := by
  obtain ⟨Z, h1, h2⟩ := hv
  obtain ⟨Z', h1', h2'⟩ := ht
  refine ⟨Z * Z', ?_, ?_⟩
  · rw [← ofIntHom_apply, map_mul, ofIntHom_apply, ofIntHom_apply, h1, h1', mul_comm]
  · exact ((table_np hb v t Z Z' h2 h2').n1 (ofFl_ok M.toFloat64 hM.toAccurate) (by positivity)).near1 _ (view_mulF hM hN he v t)

theorem AP.tableAdd {T0 n0 T n b : ℕ} (hb : 1 ≤ b) (o v t : FPoly) (q s r : Poly (2 ^ (l + 4)) (BitVec w)) (ho : AP l w D T0 n0 o q)
    (hv : AP l w D T n v s) (ht : Table l w b t r) :
    AP l w D (T0 + b * T) (max n0 (n + 1) + 1) (mulAddF M e o v t) (q + r * s) := by
  obtain ⟨Z0, h0, h0'⟩ := ho.mono le_rfl (le_max_left n0 (n + 1))
  obtain ⟨Z, h1, h2⟩ := hv
  obtain ⟨Z', h1', h2'⟩ := ht
  have hA := ofFl_ok M.toFloat64 hM.toAccurate
  refine ⟨Z0 + Z * Z', ?_, ?_⟩
  · rw [← ofIntHom_apply, map_add, map_mul, ofIntHom_apply, ofIntHom_apply, ofIntHom_apply, h0, h1, h1', mul_comm s r]
  · have h3 := (table_np hb v t Z Z' h2 h2').mono (Nat.cast_nonneg _) (rel_mono l (le_max_right n0 (n + 1)))
    have h4 := NP.add hA (by positivity) (show N1 l (view o) _ _ _ from h0') h3
    rw [← map_add, size_add] at h4
    exact (h4.mono (Nat.cast_nonneg _) step3_le).near1 _ (view_mulAddF hM hN he o v t)

/-! ### The way back -/

omit hM hN he in
theorem total_rel (l n : ℕ) : (1 + (2⁻¹ : ℝ) ^ 53) * (1 + 2⁻¹ ^ 47) ^ (l + 3) * (gg ^ n * Psi0 l) ≤ gg ^ (3 * (l + 3) + n + 4) := by
  have g0 : (0 : ℝ) ≤ gg := zero_le_one.trans one_le_gg
  have h1 := uu_le_gg
  have h2 : (1 + (2⁻¹ : ℝ) ^ 47) ^ (l + 3) ≤ gg ^ (l + 3) := pow_le_pow_left₀ (by positivity) (by unfold gg; norm_num) _
  have h3 : 1 + 6 * (2⁻¹ : ℝ) ^ 53 ≤ gg := by unfold gg; norm_num
  have h4 : Phi l ≤ gg ^ (l + 3) * gg := by
    unfold Phi
    exact mul_le_mul_of_nonneg_left h1 (by positivity)
  have h5 : (0 : ℝ) ≤ Phi l := zero_le_one.trans (one_le_Phi l)
  have h6 : Psi0 l ≤ gg * ((gg ^ (l + 3) * gg) * (gg ^ (l + 3) * gg)) := by
    unfold Psi0
    exact mul_le_mul h3 (mul_le_mul h4 h4 h5 (by positivity)) (by positivity) g0
  calc _ ≤ gg * gg ^ (l + 3) * (gg ^ n * (gg * ((gg ^ (l + 3) * gg) * (gg ^ (l + 3) * gg)))) := by
        refine mul_le_mul (mul_le_mul h1 h2 (by positivity) g0) (mul_le_mul_of_nonneg_left h6 (by positivity)) ?_ (by positivity)
        exact zero_le_one.trans (one_le_rel l n)
    _ = _ := by
        rw [show 3 * (l + 3) + n + 4 = (l + 3) + (l + 3) + (l + 3) + n + 1 + 1 + 1 + 1 by ring]
        simp only [pow_add, pow_one]; ring

omit hM hN he in
theorem isFloat_inv (hM : Ieee M) (hr : e.rank = 2 ^ (l + 4)) (fp : FPoly) (a : ℕ) (ha : a < 2 ^ (l + 3)) :
    IsFloat (view (invFFTInPlaceFl M.arith e.rank fp e.twInv) a).re ∧ IsFloat (view (invFFTInPlaceFl M.arith e.rank fp e.twInv) a).im := by
  have h3 := view_invFFTStages (repr_invFl M.arith) (repr_invFl M.arith.atNear) l e.twInv (view fp) (fun y => M.arith.div y ((2 ^ (l + 4) / 2 : ℕ) : ℝ)) fp
    (fun _ _ => rfl) a ha
  unfold invFFTInPlaceFl
  rw [hr, h3]
  exact ⟨hM.isFloat _, hM.isFloat _⟩

/-- `InvFFTToUnsafe` and its variants: the polynomial, up to the error that the operations have left. -/
theorem AP.inv {T n : ℕ} (hw : 0 < w) (hw64 : w ≤ 64) (hn : (3 * (l + 3) + n + 4) * 1000 ≤ 2 ^ 46) (v : FPoly)
    (q : Poly (2 ^ (l + 4)) (BitVec w)) (h : AP l w D T n v q) :
    ∃ err, pabs err ≤ fftErr l w D T n ∧ invF M e w (2 ^ (l + 4)) v = q + err := by
  obtain ⟨Z, h1, h2⟩ := h
  have hr := rank_of hM hN he
  have hpl : 2 ^ (l + 4) = 2 * 2 ^ (l + 3) := by rw [pow_succ]; ring
  have hA := ofFl_ok M.toFloat64 hM.toAccurate
  have hg := goodFl_of hM.toAccurate hN he
  set K := 3 * (l + 3) + n + 4 with hK
  set S := size l w D T with hS
  set ε : ℝ := S * K * 1001 / (1000 * 2 ^ 46) with hε
  have hrel : ((1 + (2⁻¹ : ℝ) ^ 53) * (1 + 2⁻¹ ^ 47) ^ (l + 3) * (gg ^ n * Psi0 l) - 1) * S ≤ ε := by
    have hKr : (K : ℝ) * 1000 ≤ 2 ^ 46 := by exact_mod_cast hn
    have e1 : (2 : ℝ) * 2⁻¹ ^ 47 = 1 / 2 ^ 46 := by norm_num
    have h3 := pow_sub_one_le (2 * 2⁻¹ ^ 47) (by positivity) K (by rw [e1]; linarith)
    have h4 := total_rel l n
    rw [← hK] at h4
    have h5 : (1 + (2⁻¹ : ℝ) ^ 53) * (1 + 2⁻¹ ^ 47) ^ (l + 3) * (gg ^ n * Psi0 l) - 1 ≤ K * (2 * 2⁻¹ ^ 47) * (1001 / 1000) := by
      unfold gg at h4 ⊢; linarith
    refine (mul_le_mul_of_nonneg_right h5 (Nat.cast_nonneg S)).trans (le_of_eq ?_)
    rw [hε, e1]; ring
  have key : ∀ (i : Fin (2 ^ (l + 4))) (c : ℝ), IsFloat c → |c - Z i| ≤ ε →
      ∃ d : BitVec w, wabs d ≤ fftErr l w D T n ∧
        BitVec.ofInt w (M.int64 (floatModQFl M.arith (2 ^ w) c)) = q i + d := by
    intro i c hc hd
    obtain ⟨d, d1, d2⟩ := convert_near hM w hw hw64 c hc (Z i) ε hd
    refine ⟨BitVec.ofInt w d, (wabs_ofInt_le d).trans ?_, ?_⟩
    · have hq : ε < ((S * K * 1001 / (1000 * 2 ^ 46) : ℕ) : ℝ) + 1 := by
        have h3 : S * K * 1001 < (S * K * 1001 / (1000 * 2 ^ 46) + 1) * (1000 * 2 ^ 46) := by
          have := Nat.div_add_mod (S * K * 1001) (1000 * 2 ^ 46)
          have h4 := Nat.mod_lt (S * K * 1001) (show 0 < 1000 * 2 ^ 46 by norm_num)
          omega
        rw [hε, div_lt_iff₀ (by positivity)]
        exact_mod_cast h3
      have h5 : ((d.natAbs : ℕ) : ℝ) < ((S * K * 1001 / (1000 * 2 ^ 46) + 3 : ℕ) : ℝ) := by
        have : ((d.natAbs : ℕ) : ℝ) = |(d : ℝ)| := by rw [Nat.cast_natAbs, Int.cast_abs]
        rw [this]; push_cast at hq ⊢; linarith
      have h6 : d.natAbs < S * K * 1001 / (1000 * 2 ^ 46) + 3 := by exact_mod_cast h5
      unfold fftErr
      rw [← hK, show T * (2 ^ (l + 4) * (2 ^ (w - 1) * D)) = S from rfl]
      omega
    · rw [d2, ← h1]; rfl
  have hall : ∀ i : Fin (2 ^ (l + 4)), ∃ d : BitVec w, wabs d ≤ fftErr l w D T n ∧ invF M e w (2 ^ (l + 4)) v i = q i + d := by
    intro i
    unfold invF
    simp only
    rw [hr, show 2 ^ (l + 4) / 2 = 2 ^ (l + 3) by omega]
    split
    · rename_i hi
      obtain ⟨b1, b2⟩ := inv_near hA (by positivity) hg (by positivity) rho_ok v _ _ _ h2 i hi
      have f := (isFloat_inv hM hr v i hi).1
      have c2 := (Complex.abs_re_le_norm _).trans (b2.trans hrel)
      rw [Complex.sub_re] at c2
      have f1 : (folded l (toR _ Z) i).re = Z i := by
        unfold folded; simp only; rw [slice_lt _ i.1 i.2]; rfl
      rw [f1] at c2
      rw [hr] at f c2
      exact key i _ f c2
    · rename_i hi
      have hlt := i.2
      obtain ⟨b1, b2⟩ := inv_near hA (by positivity) hg (by positivity) rho_ok v _ _ _ h2 (i - 2 ^ (l + 3)) (by omega)
      have f := (isFloat_inv hM hr v (i - 2 ^ (l + 3)) (by omega)).2
      have c2 := (Complex.abs_im_le_norm _).trans (b2.trans hrel)
      rw [Complex.sub_im] at c2
      have f1 : (folded l (toR _ Z) (i - 2 ^ (l + 3))).im = Z i := by
        unfold folded; simp only
        rw [show i.1 - 2 ^ (l + 3) + 2 ^ (l + 3) = i.1 by omega, slice_lt _ i.1 i.2]; rfl
      rw [f1] at c2
      rw [hr] at f c2
      exact key i _ f c2
  choose err h3 h4 using hall
  exact ⟨err, (pabs_le_iff _ _).2 h3, funext h4⟩
end

end Tfhe
