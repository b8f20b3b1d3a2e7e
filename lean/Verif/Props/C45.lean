import Verif.Spec.Fft
import Verif.Spec.PolyQuotient
import Verif.Lemma.FftTwiddle
import Verif.Lemma.IntPoly

/-!
# C45: the transform-domain product is the negacyclic product
-/
namespace Tfhe
open Fft Poly

/-! ## Evaluation at a root of `X^N + 1` -/

section Eval
variable {N : ℕ} [NeZero N]

omit [NeZero N] in
theorem eval_root (z : ℂ) (hz : z ^ N = -1) : Polynomial.eval₂ (algebraMap ℝ ℂ) z (Polynomial.X ^ N + 1) = 0 := by
  rw [Polynomial.eval₂_add, Polynomial.eval₂_one, Polynomial.eval₂_X_pow, hz]; ring

/-- Evaluation as a ring homomorphism. -/
noncomputable def evalHom (z : ℂ) (hz : z ^ N = -1) : Poly N ℝ →+* ℂ :=
  (AdjoinRoot.lift (algebraMap ℝ ℂ) z (eval_root z hz)).comp
    (quotientEquiv N ℝ).symm.toRingHom

theorem evalHom_C (z : ℂ) (hz : z ^ N = -1) (c : ℝ) : evalHom z hz (C N c) = c := by
  have h : (quotientEquiv N ℝ).symm (C N c) = AdjoinRoot.of _ c := by
    rw [RingEquiv.symm_apply_eq]; exact (quotientHom_of c).symm
  show AdjoinRoot.lift _ _ (eval_root z hz) ((quotientEquiv N ℝ).symm (C N c)) = _
  rw [h, AdjoinRoot.lift_of]; rfl

theorem evalHom_mono_one (z : ℂ) (hz : z ^ N = -1) : evalHom z hz (mono N ℝ 1) = z := by
  have h : (quotientEquiv N ℝ).symm (mono N ℝ 1) = AdjoinRoot.root _ := by
    rw [RingEquiv.symm_apply_eq]; exact quotientHom_root.symm
  show AdjoinRoot.lift _ _ (eval_root z hz) ((quotientEquiv N ℝ).symm (mono N ℝ 1)) = _
  rw [h, AdjoinRoot.lift_root]

theorem evalHom_apply (z : ℂ) (hz : z ^ N = -1) (p : Poly N ℝ) : evalHom z hz p = evalAt z p := by
  conv_lhs => rw [eq_sum_mono p]
  rw [map_sum, evalAt]
  refine Finset.sum_congr rfl fun i _ => ?_
  rw [map_mul, evalHom_C, mono_nat, map_pow, evalHom_mono_one]

theorem evalHom_mono (z : ℂ) (hz : z ^ N = -1) (d : ℤ) : evalHom z hz (mono N ℝ d) = z ^ d := by
  have hz0 : z ≠ 0 := by
    rintro rfl
    rw [zero_pow (NeZero.ne N)] at hz
    norm_num at hz
  obtain ⟨n, rfl | rfl⟩ := Int.eq_nat_or_neg d
  · rw [mono_nat, map_pow, evalHom_mono_one, zpow_natCast]
  · have h := congrArg (evalHom z hz) (mono_neg_mul (N := N) (R := ℝ) (n : ℤ))
    rw [map_mul, map_one, mono_nat, map_pow, evalHom_mono_one] at h
    rw [zpow_neg, zpow_natCast]
    exact eq_inv_of_mul_eq_one_left h

theorem evalAt_subst (z : ℂ) (hz : z ^ N = -1) (d : ℤ) (p : Poly N ℝ) :
    evalAt z (subst d p) = evalAt (z ^ d) p := by
  rw [← evalHom_apply z hz, subst, map_sum, evalAt]
  refine Finset.sum_congr rfl fun i _ => ?_
  rw [map_mul, evalHom_C, evalHom_mono, zpow_mul, zpow_natCast]
end Eval

/-! ## The points -/

theorem fftPoint_eq (l j : ℕ) : fftPoint (l + 4) j = ex ((1 - 4 * (bitRev (l + 3) j : ℝ)) / (2 * 2 ^ (l + 4))) := by
  unfold fftPoint ex
  rw [show l + 4 - 1 = l + 3 from rfl]
  congr 1
  push_cast
  have : (2 : ℂ) ^ (l + 4) ≠ 0 := pow_ne_zero _ two_ne_zero
  field_simp

theorem cc_eq_point (l j : ℕ) : cc (l + 3) j = fftPoint (l + 4) j := by
  rw [fftPoint_eq, cc]; congr 2; rw [pow_succ 2 (l + 3)]; ring

theorem ex_eq_iff (a b : ℝ) : ex a = ex b ↔ ∃ k : ℤ, a = b + k := by
  unfold ex
  rw [Complex.exp_eq_exp_iff_exists_int]
  constructor
  · rintro ⟨k, hk⟩
    refine ⟨k, ?_⟩
    have h2 : (2 * Real.pi * Complex.I : ℂ) ≠ 0 := Complex.two_pi_I_ne_zero
    have : ((a : ℂ)) = ((b + k : ℝ) : ℂ) := by
      apply mul_left_cancel₀ h2
      push_cast
      linear_combination hk
    exact_mod_cast this
  · rintro ⟨k, rfl⟩
    exact ⟨k, by push_cast; ring⟩

theorem point_pow_N (l j : ℕ) : fftPoint (l + 4) j ^ 2 ^ (l + 4) = -1 := by
  rw [fftPoint_eq, ex_pow, ← ex_half]
  have h : (((2 ^ (l + 4) : ℕ) : ℝ) * ((1 - 4 * (bitRev (l + 3) j : ℝ)) / (2 * 2 ^ (l + 4)))) =
      1 / 2 + ((-2 * bitRev (l + 3) j : ℤ) : ℝ) := by
    have : (2 : ℝ) ^ (l + 4) ≠ 0 := by positivity
    push_cast; field_simp; ring
  rw [h, ex_add_int]

/-- **C45.**  The points of a transform of rank `N = 2^(l+4)` are roots of `X^N + 1`. -/
theorem C45_point_root (l j : ℕ) : fftPoint (l + 4) j ^ 2 ^ (l + 4) = -1 := point_pow_N l j

/-- **C45.**  They are one of each pair of conjugate roots: different positions have different points, and no point is
the conjugate of another or of itself. -/
theorem C45_points_distinct (l j j' : ℕ) (hj : j < 2 ^ (l + 3)) (hj' : j' < 2 ^ (l + 3)) :
    (fftPoint (l + 4) j = fftPoint (l + 4) j' → j = j') ∧
    fftPoint (l + 4) j ≠ (starRingEnd ℂ) (fftPoint (l + 4) j') := by
  have h0 : (2 * 2 ^ (l + 4) : ℝ) ≠ 0 := by positivity
  have hN : (2 : ℤ) * 2 ^ (l + 4) = 4 * 2 ^ (l + 3) := by rw [pow_succ]; ring
  have b1 : (bitRev (l + 3) j : ℤ) < 2 ^ (l + 3) := by exact_mod_cast bitRev_lt (l + 3) j
  have b2 : (bitRev (l + 3) j' : ℤ) < 2 ^ (l + 3) := by exact_mod_cast bitRev_lt (l + 3) j'
  constructor
  · rw [fftPoint_eq, fftPoint_eq, ex_eq_iff]
    rintro ⟨k, hk⟩
    have hz : (1 - 4 * (bitRev (l + 3) j : ℤ)) = (1 - 4 * (bitRev (l + 3) j' : ℤ)) + k * (4 * 2 ^ (l + 3)) := by
      rw [← hN]
      field_simp at hk
      have : (1 - 4 * (bitRev (l + 3) j : ℝ)) = (1 - 4 * (bitRev (l + 3) j' : ℝ)) + k * (2 * 2 ^ (l + 4)) := by linarith
      exact_mod_cast this
    have hk0 : k = 0 := by
      generalize (2 : ℤ) ^ (l + 3) = M at *
      have e : (bitRev (l + 3) j' : ℤ) - bitRev (l + 3) j = k * M := by linarith
      have h1 : k * M < 1 * M := by omega
      have h2 : (-1) * M < k * M := by omega
      have hM : 0 < M := by omega
      have := lt_of_mul_lt_mul_right h1 hM.le
      have := lt_of_mul_lt_mul_right h2 hM.le
      omega
    subst hk0
    have : bitRev (l + 3) j = bitRev (l + 3) j' := by omega
    rw [← bitRev_involutive (l + 3) j hj, ← bitRev_involutive (l + 3) j' hj', this]
  · rw [fftPoint_eq, fftPoint_eq, ex_conj]
    intro h
    obtain ⟨k, hk⟩ := (ex_eq_iff _ _).1 h
    have hz : (1 - 4 * (bitRev (l + 3) j : ℤ)) = -(1 - 4 * (bitRev (l + 3) j' : ℤ)) + k * (4 * 2 ^ (l + 3)) := by
      rw [← hN]
      field_simp at hk
      have : (1 - 4 * (bitRev (l + 3) j : ℝ)) = -(1 - 4 * (bitRev (l + 3) j' : ℝ)) + k * (2 * 2 ^ (l + 4)) := by linarith
      exact_mod_cast this
    have : k * (4 * 2 ^ (l + 3)) = 4 * (k * 2 ^ (l + 3)) := by ring
    omega

/-! ## Writing blocks -/

theorem view_setC (x : ℕ → ℝ) (J k : ℕ) (hk : k < 4) (z : ℝ × ℝ) :
    view (setC x (8 * J) k z) = upd (view x) (4 * J + k) (toC z) := by
  have hp : pos (4 * J + k) = 8 * J + k := by unfold pos; omega
  funext c
  unfold setC view upd
  by_cases hc : c = 4 * J + k
  · subst hc
    rw [if_pos rfl, hp]
    apply Complex.ext
    · show (if 8 * J + k = 8 * J + 4 + k then _ else if 8 * J + k = 8 * J + k then _ else _) = _
      rw [if_neg (by omega), if_pos rfl]; rfl
    · show (if 8 * J + k + 4 = 8 * J + 4 + k then _ else _) = _
      rw [if_pos (by omega)]; rfl
  · rw [if_neg hc]
    have h1 : pos c ≠ 8 * J + k := fun h => hc (pos_inj (h.trans hp.symm))
    have h2 : pos c ≠ 8 * J + 4 + k := by unfold pos; omega
    have h3 : pos c + 4 ≠ 8 * J + 4 + k := by omega
    have h4 : pos c + 4 ≠ 8 * J + k := by unfold pos; omega
    simp [h1, h2, h3, h4]

theorem foldl_updC (z : ℕ → ℂ) (n : ℕ) (v : ℕ → ℂ) (a : ℕ) :
    (List.range n).foldl (fun v q => upd v q (z q)) v a = if a < n then z a else v a := by
  induction n with
  | zero => simp
  | succ n ih =>
    rw [List.range_succ, List.foldl_append, List.foldl_cons, List.foldl_nil]
    show (if a = n then _ else _) = _
    split
    · subst_vars; simp
    · rw [ih]; congr 1; simp; omega

theorem view_setAll (x : ℕ → ℝ) {N : ℕ} (n : ℕ) (hNn : N = 8 * n) (z : ℕ → ℝ × ℝ) (a : ℕ) :
    view (setAll x N z) a = if a < n * 4 then toC (z a) else view x a := by
  subst hNn
  rw [← foldl_updC (fun a => toC (z a)), foldl_range_mul, setAll, show (8 * n + 7) / 8 = n by omega]
  refine congrFun (foldl_hom view _ _ n x fun x J _ => ?_) a
  simp only [show List.range 4 = [0, 1, 2, 3] from rfl, List.foldl_cons, List.foldl_nil, set4]
  rw [view_setC _ _ _ (by norm_num), view_setC _ _ _ (by norm_num), view_setC _ _ _ (by norm_num),
    view_setC _ _ _ (by norm_num)]
  simp only [mul_comm J 4, add_zero]

/-! ## The transform -/

/-- The slice of the coefficients. -/
def Poly.slice {N : ℕ} {R : Type} [Zero R] (p : Poly N R) : ℕ → R := fun i => if h : i < N then p ⟨i, h⟩ else 0

theorem slice_lt {N : ℕ} {R : Type} [Zero R] (p : Poly N R) (i : ℕ) (h : i < N) : p.slice i = p ⟨i, h⟩ := dif_pos h

/-- Integer coefficients, read as signed numbers, as a real polynomial. -/
def Poly.signed {N w : ℕ} (p : Poly N (BitVec w)) : Poly N ℝ := fun i => ((p i).toInt : ℝ)

section
variable {l : ℕ} {e : Eval ℝ} (he : Good l e)
include he

omit he in
/-- The stages evaluate the polynomial whose folded coefficients they start from. -/
theorem after_eval (x : ℕ → ℂ) (p : Poly (2 ^ (l + 4)) ℝ)
    (hx : ∀ a < 2 ^ (l + 3), x a = ⟨p.slice a, p.slice (a + 2 ^ (l + 3))⟩) (j : ℕ) (hj : j < 2 ^ (l + 3)) :
    after bF (l + 3) WW x (l + 3) j = evalAt (fftPoint (l + 4) j) p := by
  have h2 := after_eq WW (l + 3) cc x (fun s _ i _ => WW_sq s i) (fun s _ i _ => cc_even s i)
    (fun s _ i _ => cc_odd s i) (l + 3) le_rfl j hj 0 (by simp)
  rw [Nat.sub_self, pow_zero, mul_one, add_zero] at h2
  rw [h2, cc_eq_point]
  have hI : fftPoint (l + 4) j ^ 2 ^ (l + 3) = Complex.I := by
    rw [fftPoint_eq, ex_pow, ← ex_quarter]
    have h : (((2 ^ (l + 3) : ℕ) : ℝ) * ((1 - 4 * (bitRev (l + 3) j : ℝ)) / (2 * 2 ^ (l + 4)))) =
        1 / 4 + ((-bitRev (l + 3) j : ℤ) : ℝ) := by
      have : (2 : ℝ) ^ (l + 3) ≠ 0 := by positivity
      rw [pow_succ (2 : ℝ) (l + 3)]
      push_cast; field_simp; ring
    rw [h, ex_add_int]
  -- the second half of the coefficients are the imaginary parts
  unfold evalAt
  have hs := Fin.sum_univ_eq_sum_range (fun i => (p.slice i : ℂ) * fftPoint (l + 4) j ^ i) (2 ^ (l + 4))
  have hs' : ∑ i : Fin (2 ^ (l + 4)), (p i : ℂ) * fftPoint (l + 4) j ^ (i : ℕ) =
      ∑ i : Fin (2 ^ (l + 4)), (p.slice i : ℂ) * fftPoint (l + 4) j ^ (i : ℕ) :=
    Finset.sum_congr rfl fun i _ => by rw [slice_lt p i i.2]
  rw [hs', hs]
  generalize p.slice = ps at hx ⊢
  rw [show 2 ^ (l + 4) = 2 ^ (l + 3) + 2 ^ (l + 3) by rw [pow_succ 2 (l + 3)]; ring, Finset.sum_range_add,
    ← Finset.sum_add_distrib]
  refine Finset.sum_congr rfl fun v hv => ?_
  rw [Finset.mem_range] at hv
  rw [zero_add, mul_one, hx v hv, pow_add (fftPoint (l + 4) j), hI, Complex.mk_eq_add_mul_I, add_comm v]
  ring

theorem fwd_isFFT (x : ℕ → ℝ) (p : Poly (2 ^ (l + 4)) ℝ)
    (hx : ∀ a < 2 ^ (l + 3), view x a = ⟨p.slice a, p.slice (a + 2 ^ (l + 3))⟩) :
    IsFFT (fwdFFTInPlace e.rank x e.tw) p := by
  intro j hj
  have hhalf : 2 ^ (l + 4) / 2 = 2 ^ (l + 3) := by
    rw [pow_succ 2 (l + 3), Nat.mul_div_cancel _ (by norm_num)]
  rw [hhalf] at hj
  have h := view_fwdFFT l WW e.tw he.tw (view x) x (fun _ _ => rfl) j hj
  rw [← he.rank] at h
  show view _ j = _
  rw [h, after_eval _ _ hx j hj]

theorem view_fold {w : ℕ} (out : ℕ → ℝ) (p : Poly (2 ^ (l + 4)) (BitVec w)) (a : ℕ) (ha : a < 2 ^ (l + 3)) :
    view (foldPoly e.rank out p.slice) a = ⟨p.signed.slice a, p.signed.slice (a + 2 ^ (l + 3))⟩ := by
  have e8 : 2 ^ (l + 4) = 8 * 2 ^ (l + 1) := by rw [pow_add, pow_add]; omega
  have e4 : 2 ^ (l + 3) = 2 ^ (l + 1) * 4 := by rw [pow_add, pow_add]; omega
  have hhalf : e.rank / 2 = 2 ^ (l + 3) := by
    rw [he.rank, pow_succ 2 (l + 3), Nat.mul_div_cancel _ (by norm_num)]
  unfold foldPoly foldPolyWith
  rw [hhalf, he.rank, view_setAll _ _ e8, if_pos (by omega)]
  simp only [toC]
  rw [slice_lt p _ (by omega), slice_lt p _ (by omega), slice_lt _ _ (by omega), slice_lt _ _ (by omega)]
  rfl

theorem fwdFFT_isFFT {w : ℕ} (out : ℕ → ℝ) (p : Poly (2 ^ (l + 4)) (BitVec w)) :
    IsFFT (fwdFFT e out p.slice) p.signed :=
  fwd_isFFT he _ _ fun a ha => view_fold he out p a ha

/-- The inverse transform of a transform has the coefficients. -/
theorem inv_of_isFFT (fp : ℕ → ℝ) (p : Poly (2 ^ (l + 4)) ℝ) (h : IsFFT fp p) (a : ℕ) (ha : a < 2 ^ (l + 3)) :
    view (invFFTInPlace e.rank fp e.twInv) a = ⟨p.slice a, p.slice (a + 2 ^ (l + 3))⟩ := by
  have hhalf : 2 ^ (l + 4) / 2 = 2 ^ (l + 3) := by
    rw [pow_succ 2 (l + 3), Nat.mul_div_cancel _ (by norm_num)]
  -- some vector with this transform
  have e8 : 2 ^ (l + 4) = 8 * 2 ^ (l + 1) := by rw [pow_add, pow_add]; omega
  have e4 : 2 ^ (l + 3) = 2 ^ (l + 1) * 4 := by rw [pow_add, pow_add]; omega
  set x : ℕ → ℝ := setAll (fun _ => 0) (8 * 2 ^ (l + 1)) (fun a => (p.slice a, p.slice (a + 2 ^ (l + 3)))) with hx
  have hxv : ∀ a < 2 ^ (l + 3), view x a = ⟨p.slice a, p.slice (a + 2 ^ (l + 3))⟩ := by
    intro a ha
    rw [hx, view_setAll _ _ rfl, if_pos (by omega)]; rfl
  have hf := fwd_isFFT he x p hxv
  have hv : ∀ j < 2 ^ (l + 3), view fp j = after bF (l + 3) WW (view x) (l + 3) j := by
    intro j hj
    rw [← view_fwdFFT l WW e.tw he.tw (view x) x (fun _ _ => rfl) j hj, ← he.rank]
    exact (h j (by omega)).trans (hf j (by omega)).symm
  have := view_invFFT l WW e.twInv (fun s _ i _ => WW_ne s i) he.twInv (view x) fp hv a ha
  rw [he.rank, this, hxv a ha]
end

/-- **C45.**  The tables of `NewEvaluator` are defined exactly for the powers of two from 16 on. -/
theorem C45_newEvaluator (N : BitVec 64) :
    (newEvaluator rcis N).isSome ↔ ∃ l, N.toInt = 2 ^ (l + 4) := by
  constructor
  · intro h
    unfold newEvaluator newEvaluatorWith at h
    split at h
    · simp at h
    · rename_i hp
      split at h
      · simp at h
      · rename_i h16
        obtain ⟨k, hk⟩ := (isPowerOfTwoInt_iff N).1 (by simpa using hp)
        refine ⟨k - 4, ?_⟩
        have : 4 ≤ k := by
          by_contra hlt
          rw [hk] at h16
          have : k ≤ 3 := by omega
          interval_cases k <;> norm_num at h16
        rw [hk]; congr 1; omega
  · rintro ⟨l, hl⟩
    obtain ⟨e, h, _⟩ := newEvaluator_good l N hl
    rw [h]; rfl

section
variable {l : ℕ} {N : BitVec 64} (hN : N.toInt = 2 ^ (l + 4)) {e : Eval ℝ} (he : newEvaluator rcis N = some e)
include hN he

theorem good_of : Good l e := by
  obtain ⟨e', h, g⟩ := newEvaluator_good l N hN
  obtain rfl : e = e' := Option.some_injective _ (he.symm.trans h)
  exact g

/-- **C45.**  `FwdFFT` evaluates the polynomial, with its coefficients read as signed numbers, at the points. -/
theorem C45_fwdFFT {w : ℕ} (out : ℕ → ℝ) (p : Poly (2 ^ (l + 4)) (BitVec w)) :
    IsFFT (fwdFFT e out p.slice) p.signed := fwdFFT_isFFT (good_of hN he) out p

/-- **C45.**  The inverse transform undoes the forward transform, on every vector. -/
theorem C45_inv_fwd (x : ℕ → ℝ) (i : ℕ) (hi : i < e.rank) :
    invFFTInPlace e.rank (fwdFFTInPlace e.rank x e.tw) e.twInv i = x i := by
  have hg := good_of hN he
  rw [hg.rank] at hi ⊢
  have hpl : 2 ^ (l + 4) = 16 * 2 ^ l := by rw [pow_add]; omega
  have hpl' : 2 ^ (l + 3) = 8 * 2 ^ l := by rw [pow_add]; omega
  have hv : ∀ a < 2 ^ (l + 3), view (invFFTInPlace (2 ^ (l + 4)) (fwdFFTInPlace (2 ^ (l + 4)) x e.tw) e.twInv) a = view x a :=
    view_invFFT l WW e.twInv (fun s _ i _ => WW_ne s i) hg.twInv (view x) _
      (view_fwdFFT l WW e.tw hg.tw (view x) x (fun _ _ => rfl))
  have h := hv (4 * (i / 8) + i % 4) (by omega)
  by_cases h4 : i % 8 < 4
  · have := congrArg Complex.re h
    change invFFTInPlace _ _ _ (pos _) = x (pos _) at this
    rwa [show pos (4 * (i / 8) + i % 4) = i by unfold pos; omega] at this
  · have := congrArg Complex.im h
    change invFFTInPlace _ _ _ (pos _ + 4) = x (pos _ + 4) at this
    rwa [show pos (4 * (i / 8) + i % 4) + 4 = i by unfold pos; omega] at this

/-- **C45.**  The inverse transform of the transform of a polynomial has its coefficients: real part of position `i` for the first
half, imaginary part for the second. -/
theorem C45_invFFT (fp : ℕ → ℝ) (p : Poly (2 ^ (l + 4)) ℝ) (h : IsFFT fp p) (i : Fin (2 ^ (l + 4))) :
    invFFTInPlace e.rank fp e.twInv
      (if i.val < e.rank / 2 then 8 * (i.val / 4) + i.val % 4
        else 8 * ((i.val - e.rank / 2) / 4) + (i.val - e.rank / 2) % 4 + 4) = p i := by
  have hg := good_of hN he
  have hhalf : e.rank / 2 = 2 ^ (l + 3) := by
    rw [hg.rank, pow_succ 2 (l + 3), Nat.mul_div_cancel _ (by norm_num)]
  have hpl : 2 ^ (l + 4) = 2 * 2 ^ (l + 3) := by rw [pow_succ]; ring
  have hi := i.2
  rw [hhalf]
  split
  · rename_i h1
    have := congrArg Complex.re (inv_of_isFFT hg fp p h i h1)
    exact this.trans (slice_lt p i i.2)
  · rename_i h1
    have := congrArg Complex.im (inv_of_isFFT hg fp p h (i - 2 ^ (l + 3)) (by omega))
    refine Eq.trans this ?_
    show p.slice _ = _
    rw [slice_lt p _ (by omega)]; congr 1; apply Fin.ext; show i.val - _ + _ = _; omega

end

/-! ## Products -/

theorem isFFT_iff {n : ℕ} (fp : ℕ → ℝ) (p : Poly (2 ^ n) ℝ) :
    IsFFT fp p ↔ ∀ j < 2 ^ n / 2, view fp j = evalAt (fftPoint n j) p := Iff.rfl

/-- The effect of an element-wise loop, with any aliasing of the operands. -/
theorem cmplxLoop_spec (op : ℝ × ℝ → ℝ × ℝ → ℝ × ℝ → ℝ × ℝ) (m : Mem ℝ) (out v0 v1 : ℕ) {N : ℕ} (n : ℕ)
    (hNn : N = 8 * n) (v a : ℕ) :
    view (cmplxLoop op m out v0 v1 N v) a =
      if v = out ∧ a < n * 4 then
        toC (op (m out (pos a), m out (pos a + 4)) (m v0 (pos a), m v0 (pos a + 4)) (m v1 (pos a), m v1 (pos a + 4)))
      else view (m v) a := by
  subst hNn
  set stp : Mem ℝ → ℕ → Mem ℝ := fun m q =>
    let z := op (m out (pos q), m out (pos q + 4)) (m v0 (pos q), m v0 (pos q + 4)) (m v1 (pos q), m v1 (pos q + 4))
    (m.write out (pos q) z.1).write out (pos q + 4) z.2 with hstp
  have e1 : cmplxLoop op m out v0 v1 (8 * n) = (List.range (n * 4)).foldl stp m := by
    rw [foldl_range_mul, cmplxLoop, show (8 * n + 7) / 8 = n by omega]
    congr 1
    funext m J
    simp only [show List.range 4 = [0, 1, 2, 3] from rfl, List.foldl_cons, List.foldl_nil, hstp]
    rw [show pos (J * 4 + 0) = 8 * J + 0 by unfold pos; omega, show pos (J * 4 + 1) = 8 * J + 1 by unfold pos; omega,
      show pos (J * 4 + 2) = 8 * J + 2 by unfold pos; omega, show pos (J * 4 + 3) = 8 * J + 3 by unfold pos; omega]
  have e2 : ∀ k v a, let M := (List.range k).foldl stp m
      (M v (pos a), M v (pos a + 4)) = if v = out ∧ a < k then
        op (m out (pos a), m out (pos a + 4)) (m v0 (pos a), m v0 (pos a + 4)) (m v1 (pos a), m v1 (pos a + 4))
      else (m v (pos a), m v (pos a + 4)) := by
    intro k
    induction k with
    | zero => intro v a; simp
    | succ k ih =>
      intro v a
      simp only [List.range_succ, List.foldl_append, List.foldl_cons, List.foldl_nil]
      set M := (List.range k).foldl stp m with hM
      have ih : ∀ v a, (M v (pos a), M v (pos a + 4)) = if v = out ∧ a < k then
        op (m out (pos a), m out (pos a + 4)) (m v0 (pos a), m v0 (pos a + 4)) (m v1 (pos a), m v1 (pos a + 4))
        else (m v (pos a), m v (pos a + 4)) := ih
      have hk : ∀ v, (M v (pos k), M v (pos k + 4)) = (m v (pos k), m v (pos k + 4)) := fun v => by
        rw [ih v k, if_neg (by omega)]
      rw [hstp]
      simp only
      rw [hk out, hk v0, hk v1]
      generalize hz : op (m out (pos k), m out (pos k + 4)) (m v0 (pos k), m v0 (pos k + 4)) (m v1 (pos k), m v1 (pos k + 4)) = z
      unfold Mem.write
      by_cases hv : v = out
      · subst hv
        by_cases ha : a = k
        · subst ha
          simp [hz]
        · have h1 : pos a ≠ pos k := fun h => ha (pos_inj h)
          have h2 := pos_ne4 a k
          have h3 : pos a + 4 ≠ pos k := (pos_ne4 k a).symm
          have h4 : pos a + 4 ≠ pos k + 4 := by omega
          simp only [h1, h2, h3, h4, and_false, if_false, true_and]
          rw [ih v a]
          have : (a < k + 1) = (a < k) := by simp; omega
          simp only [true_and, this]
      · simp only [hv, false_and, if_false]
        rw [ih v a]; simp [hv]
  rw [e1]
  have h := e2 (n * 4) v a
  show toC (_, _) = _
  simp only at h
  rw [h]
  split <;> rfl

section
variable {l : ℕ} (m : Mem ℝ) (out v0 v1 : ℕ) (p0 p1 : Poly (2 ^ (l + 4)) ℝ)

theorem eight_mul (l : ℕ) : 2 ^ (l + 4) = 8 * 2 ^ (l + 1) := by rw [pow_add, pow_add]; omega
theorem half_eq (l : ℕ) : 2 ^ (l + 4) / 2 = 2 ^ (l + 1) * 4 := by rw [pow_add, pow_add]; omega

/-- **C45.**  `MulFFTPolyTo`: the product of transforms is the transform of the negacyclic product, however the operands
are aliased; other vectors keep their contents. -/
theorem C45_mul (h0 : IsFFT (m v0) p0) (h1 : IsFFT (m v1) p1) :
    IsFFT (mulCmplx m out v0 v1 (2 ^ (l + 4)) out) (p0 * p1) ∧
    ∀ v p, v ≠ out → IsFFT (m v) p → IsFFT (mulCmplx m out v0 v1 (2 ^ (l + 4)) v) (p : Poly (2 ^ (l + 4)) ℝ) := by
  simp only [isFFT_iff] at *
  constructor
  · intro j hj
    rw [mulCmplx, cmplxLoop_spec _ _ _ _ _ _ (eight_mul l), if_pos ⟨rfl, by rw [← half_eq]; exact hj⟩]
    rw [← evalHom_apply _ (point_pow_N l j), map_mul, evalHom_apply, evalHom_apply, ← h0 j hj, ← h1 j hj]
    apply Complex.ext <;> simp [view, toC]
  · intro v p hv hp j hj
    rw [mulCmplx, cmplxLoop_spec _ _ _ _ _ _ (eight_mul l), if_neg (by simp [hv])]
    exact hp j hj

/-- **C45.**  `MulAddFFTPolyTo`. -/
theorem C45_mulAdd (p : Poly (2 ^ (l + 4)) ℝ) (h : IsFFT (m out) p) (h0 : IsFFT (m v0) p0) (h1 : IsFFT (m v1) p1) :
    IsFFT (mulAddCmplx m out v0 v1 (2 ^ (l + 4)) out) (p + p0 * p1) := by
  simp only [isFFT_iff] at *
  intro j hj
  rw [mulAddCmplx, cmplxLoop_spec _ _ _ _ _ _ (eight_mul l), if_pos ⟨rfl, by rw [← half_eq]; exact hj⟩]
  rw [← evalHom_apply _ (point_pow_N l j), map_add, map_mul, evalHom_apply, evalHom_apply, evalHom_apply, ← h j hj,
    ← h0 j hj, ← h1 j hj]
  apply Complex.ext <;> simp [view, toC]

/-- **C45.**  `MulSubFFTPolyTo`. -/
theorem C45_mulSub (p : Poly (2 ^ (l + 4)) ℝ) (h : IsFFT (m out) p) (h0 : IsFFT (m v0) p0) (h1 : IsFFT (m v1) p1) :
    IsFFT (mulSubCmplx m out v0 v1 (2 ^ (l + 4)) out) (p - p0 * p1) := by
  simp only [isFFT_iff] at *
  intro j hj
  rw [mulSubCmplx, cmplxLoop_spec _ _ _ _ _ _ (eight_mul l), if_pos ⟨rfl, by rw [← half_eq]; exact hj⟩]
  rw [← evalHom_apply _ (point_pow_N l j), map_sub, map_mul, evalHom_apply, evalHom_apply, evalHom_apply, ← h j hj,
    ← h0 j hj, ← h1 j hj]
  apply Complex.ext <;> simp [view, toC]
end

/-! ## Monomials -/

section
variable {l : ℕ} {N : BitVec 64} (hN : N.toInt = 2 ^ (l + 4)) {e : Eval ℝ} (he : newEvaluator rcis N = some e)
include hN he

theorem twMono_point (j : ℕ) (hj : j < 2 ^ (l + 3)) (d : ℤ) :
    toC (e.twMono (e.twMonoIdx j * (d % (2 * e.rank)).toNat % (2 * e.rank))) = fftPoint (l + 4) j ^ d := by
  have hg := good_of hN he
  have hp : 0 < 2 ^ (l + 4) := by positivity
  rw [hg.rank, hg.twMono _ (Nat.mod_lt _ (by positivity)), hg.twMonoIdx j hj, fftPoint_eq]
  have hz : ∀ (a : ℝ) (d : ℤ), ex a ^ d = ex (d * a) := by
    intro a d
    obtain ⟨n, rfl | rfl⟩ := Int.eq_nat_or_neg d
    · rw [zpow_natCast, ex_pow]; rfl
    · rw [zpow_neg, zpow_natCast, ex_pow, ← ex_neg]; congr 1; push_cast; ring
  rw [hz, ex_eq_iff]
  set r := bitRev (l + 3) j with hr
  set T : ℕ := 2 * 2 ^ (l + 4) with hT
  have hTpos : 0 < T := by positivity
  set t : ℕ := (if r = 0 then T - 1 else 4 * r - 1) with ht
  -- everything modulo 2N
  have h1 : ∃ k : ℤ, ((t * (d % ((2 : ℤ) * (2 ^ (l + 4) : ℕ))).toNat % T : ℕ) : ℤ) = (4 * r - 1) * d + k * T := by
    have hTz : ((2 : ℤ) * (2 ^ (l + 4) : ℕ)) = (T : ℤ) := by rw [hT]; push_cast; ring
    rw [hTz]
    have hd0 : 0 ≤ d % (T : ℤ) := Int.emod_nonneg _ (by omega)
    have ht1 : ∃ k1 : ℤ, (t : ℤ) = 4 * r - 1 + k1 * T := by
      rw [ht]; split
      · rename_i h0; exact ⟨1, by rw [h0]; push_cast [Nat.cast_sub (show 1 ≤ T from hTpos)]; ring⟩
      · exact ⟨0, by push_cast [Nat.cast_sub (show 1 ≤ 4 * r by omega)]; ring⟩
    obtain ⟨k1, hk1⟩ := ht1
    push_cast
    rw [Int.toNat_of_nonneg hd0]
    have a1 := Int.emod_add_mul_ediv ((t : ℤ) * (d % T)) T
    have a2 := Int.emod_add_mul_ediv d T
    refine ⟨k1 * d - t * (d / T) - (t : ℤ) * (d % T) / T, ?_⟩
    have a3 : ((t : ℤ) * (d % T)) % T = t * (d % T) - T * ((t : ℤ) * (d % T) / T) := by linarith
    have a4 : d % T = d - T * (d / T) := by linarith
    rw [a3]
    generalize (t : ℤ) * (d % T) / T = Q
    rw [a4, hk1]
    ring
  obtain ⟨k, hk⟩ := h1
  refine ⟨-k, ?_⟩
  have hkr : (((t * (d % ((2 : ℤ) * (2 ^ (l + 4) : ℕ))).toNat % T : ℕ) : ℤ) : ℝ) = (4 * r - 1) * d + k * T := by
    exact_mod_cast congrArg (fun z : ℤ => (z : ℝ)) hk
  have hTr : (T : ℝ) = 2 * 2 ^ (l + 4) := by rw [hT]; push_cast; rfl
  have hT0 : (2 * 2 ^ (l + 4) : ℝ) ≠ 0 := by positivity
  rw [Int.cast_natCast] at hkr
  rw [hkr, hTr]
  push_cast
  field_simp
  ring

/-- **C45.**  `MonomialFwdFFTTo` computes the transform of `X^d`, for every integer `d`. -/
theorem C45_monomial (out : ℕ → ℝ) (d : ℤ) : IsFFT (monomialFwdFFT e out d) (mono (2 ^ (l + 4)) ℝ d) := by
  rw [isFFT_iff]
  intro j hj
  have hg := good_of hN he
  have hj' : j < 2 ^ (l + 3) := by rw [half_eq] at hj; rw [pow_add] at hj ⊢; omega
  rw [← evalHom_apply _ (point_pow_N l j), evalHom_mono, ← twMono_point hN he j hj' d]
  unfold monomialFwdFFT
  rw [view_setAll _ _ (hg.rank.trans (eight_mul l)), if_pos (by rw [← half_eq]; exact hj)]

/-- **C45.**  `MonomialSubOneFwdFFTTo` computes the transform of `X^d - 1`. -/
theorem C45_monomialSubOne (out : ℕ → ℝ) (d : ℤ) :
    IsFFT (monomialSubOneFwdFFT e out d) (mono (2 ^ (l + 4)) ℝ d - 1) := by
  rw [isFFT_iff]
  intro j hj
  have hg := good_of hN he
  have hj' : j < 2 ^ (l + 3) := by rw [half_eq] at hj; rw [pow_add] at hj ⊢; omega
  rw [← evalHom_apply _ (point_pow_N l j), map_sub, map_one, evalHom_mono, ← twMono_point hN he j hj' d]
  unfold monomialSubOneFwdFFT
  rw [view_setAll _ _ (hg.rank.trans (eight_mul l)), if_pos (by rw [← half_eq]; exact hj)]
  apply Complex.ext <;> simp [toC]

end

/-! ## Permutations -/

theorem testBit_bitRev (n k i : ℕ) : (bitRev n k).testBit i = (decide (i < n) && k.testBit (n - 1 - i)) := by
  induction n generalizing k with
  | zero => simp [bitRev]
  | succ n ih =>
    rw [bitRev, mul_comm, Nat.testBit_two_pow_mul_add _ (bitRev_lt n (k / 2))]
    split
    · rename_i h
      rw [ih, show n + 1 - 1 - i = (n - 1 - i) + 1 by omega, Nat.testBit_succ]
      simp [h, show i < n + 1 by omega]
    · rename_i h
      by_cases hi : i = n
      · subst hi; simp [Nat.testBit_zero]
      · have : ¬ i < n + 1 := by omega
        rw [Nat.testBit_lt_two_pow]
        · simp [this]
        · calc k % 2 < 2 := Nat.mod_lt _ (by norm_num)
            _ = 2 ^ 1 := by norm_num
            _ ≤ 2 ^ (i - n) := Nat.pow_le_pow_right (by norm_num) (by omega)

theorem reverse64_eq (x : ℕ) : reverse64 x = bitRev 64 x := by
  apply Nat.eq_of_testBit_eq
  intro i
  rw [testBit_bitRev, reverse64, BitVec.testBit_toNat, BitVec.getLsbD_reverse, BitVec.getMsbD, BitVec.getLsbD_ofNat]
  by_cases hi : i < 64
  · simp [hi, show 64 - 1 - i < 64 by omega]
  · simp [hi]

theorem reverse64_shift (n x : ℕ) (hn : n ≤ 64) (hx : x < 2 ^ n) : reverse64 x / 2 ^ (64 - n) = bitRev n x := by
  have h := bitRev_add n (64 - n) x hx
  rw [show n + (64 - n) = 64 by omega] at h
  rw [reverse64_eq, h, Nat.mul_div_cancel_left _ (by positivity)]

theorem bitLen_two_pow (n : ℕ) : bitLen (2 ^ n) = n + 1 := by
  have ⟨h1, h2⟩ := bitLen_spec (2 ^ n)
  have h3 := h2 (by positivity)
  have a := (Nat.pow_lt_pow_iff_right (by norm_num : 1 < 2)).1 h1
  have b := (Nat.pow_le_pow_iff_right (by norm_num : 1 < 2)).1 h3
  omega

/-- Where position `a` is read from. -/
theorem permuteIdx_spec (l : ℕ) (hl : l + 3 ≤ 64) (d : ℤ) (hd : d % 2 ≠ 0) (a : ℕ) (ha : a < 2 ^ (l + 3)) :
    ∃ c < 2 ^ (l + 3), permuteIdx (F := ℝ) (2 ^ (l + 4)) d (pos a) = (pos c, if d % 4 = 1 then 1 else -1) ∧
      fftPoint (l + 4) a ^ d =
        if d % 4 = 1 then fftPoint (l + 4) c else (starRingEnd ℂ) (fftPoint (l + 4) c) := by
  have hhalf : 2 ^ (l + 4) / 2 = 2 ^ (l + 3) := by
    rw [pow_succ 2 (l + 3), Nat.mul_div_cancel _ (by norm_num)]
  have hNz : (2 : ℤ) * (2 ^ (l + 4) : ℕ) = 4 * 2 ^ (l + 3) := by push_cast; rw [pow_succ]; ring
  have hM : (0 : ℤ) < 2 ^ (l + 3) := by positivity
  set D : ℤ := d % (2 * (2 ^ (l + 4) : ℕ)) with hD
  have hdD : ∃ k : ℤ, d = D + 4 * 2 ^ (l + 3) * k := by
    refine ⟨d / (4 * 2 ^ (l + 3)), ?_⟩
    rw [hD, hNz]; exact (Int.emod_add_mul_ediv d _).symm
  obtain ⟨k0, hk0⟩ := hdD
  have hD4 : D % 4 = d % 4 := by rw [hk0, mul_assoc]; omega
  set R := bitRev (l + 3) a with hR
  -- the index before the last reversal
  set x : ℤ := if d % 4 = 1 then D * R - (D - 1) / 4 else -D * R + (D - 3) / 4 + 1 with hx
  have hxM : 0 ≤ x % 2 ^ (l + 3) ∧ x % 2 ^ (l + 3) < 2 ^ (l + 3) := ⟨Int.emod_nonneg _ hM.ne', Int.emod_lt_of_pos _ hM⟩
  set c := bitRev (l + 3) (x % 2 ^ (l + 3)).toNat with hc
  have hcl : c < 2 ^ (l + 3) := bitRev_lt _ _
  have hxn : (x % 2 ^ (l + 3)).toNat < 2 ^ (l + 3) := by
    have : ((2 ^ (l + 3) : ℕ) : ℤ) = 2 ^ (l + 3) := by push_cast; rfl
    omega
  have hbc : bitRev (l + 3) c = (x % 2 ^ (l + 3)).toNat := bitRev_involutive _ _ hxn
  refine ⟨c, hcl, ?_, ?_⟩
  · unfold permuteIdx
    simp only [← hD, hD4, hhalf, bitLen_two_pow]
    rw [show 64 - (l + 4 + 1 - 1 - 1) = 64 - (l + 3) by omega]
    rw [show pos a / 8 * 4 + pos a % 4 = a by unfold pos; omega, reverse64_shift (l + 3) a hl ha, ← hR]
    have hcx : (if d % 4 = 1 then (D * R - if d % 4 = 1 then (D - 1) / 4 else (D - 3) / 4) % ((2 ^ (l + 3) : ℕ) : ℤ)
        else (-D * R + (if d % 4 = 1 then (D - 1) / 4 else (D - 3) / 4) + 1) % ((2 ^ (l + 3) : ℕ) : ℤ)) = x % 2 ^ (l + 3) := by
      rw [hx]; push_cast; split <;> rfl
    rw [hcx, reverse64_shift (l + 3) _ hl hxn, ← hc]
    congr 1
    unfold pos; ring
  · have hz : ∀ (a : ℝ) (d : ℤ), ex a ^ d = ex (d * a) := by
      intro a d
      obtain ⟨n, rfl | rfl⟩ := Int.eq_nat_or_neg d
      · rw [zpow_natCast, ex_pow]; rfl
      · rw [zpow_neg, zpow_natCast, ex_pow, ← ex_neg]; congr 1; push_cast; ring
    have hbcz : (bitRev (l + 3) c : ℤ) = x - 2 ^ (l + 3) * (x / 2 ^ (l + 3)) := by
      rw [hbc, Int.toNat_of_nonneg hxM.1]
      have := Int.emod_add_mul_ediv x (2 ^ (l + 3)); linarith
    have hT0 : (2 * 2 ^ (l + 4) : ℝ) ≠ 0 := by positivity
    have hTr : (2 * 2 ^ (l + 4) : ℝ) = 4 * 2 ^ (l + 3) := by rw [pow_succ]; ring
    have hbcr : (bitRev (l + 3) c : ℝ) = x - 2 ^ (l + 3) * ((x / 2 ^ (l + 3) : ℤ) : ℝ) := by
      exact_mod_cast congrArg (fun z : ℤ => (z : ℝ)) hbcz
    have hkr : (d : ℝ) = D + 4 * 2 ^ (l + 3) * k0 := by exact_mod_cast congrArg (fun z : ℤ => (z : ℝ)) hk0
    rw [fftPoint_eq, fftPoint_eq, hz, ← hR]
    split
    · rename_i h1
      rw [if_pos h1] at hx
      have h4 : D = 4 * ((D - 1) / 4) + 1 := by omega
      have hxr : (x : ℝ) = D * R - (((D - 1) / 4 : ℤ) : ℝ) := by exact_mod_cast congrArg (fun z : ℤ => (z : ℝ)) hx
      have h4r : (D : ℝ) = 4 * (((D - 1) / 4 : ℤ) : ℝ) + 1 := by exact_mod_cast congrArg (fun z : ℤ => (z : ℝ)) h4
      rw [ex_eq_iff]
      refine ⟨k0 * (1 - 4 * R) - x / 2 ^ (l + 3), ?_⟩
      rw [hbcr, hkr, hxr]
      rw [hTr] at hT0 ⊢
      push_cast
      field_simp
      linear_combination h4r
    · rename_i h1
      rw [if_neg h1] at hx
      have h4 : D = 4 * ((D - 3) / 4) + 3 := by omega
      have hxr : (x : ℝ) = -D * R + (((D - 3) / 4 : ℤ) : ℝ) + 1 := by exact_mod_cast congrArg (fun z : ℤ => (z : ℝ)) hx
      have h4r : (D : ℝ) = 4 * (((D - 3) / 4 : ℤ) : ℝ) + 3 := by exact_mod_cast congrArg (fun z : ℤ => (z : ℝ)) h4
      rw [ex_conj, ex_eq_iff]
      refine ⟨k0 * (1 - 4 * R) + x / 2 ^ (l + 3), ?_⟩
      rw [hbcr, hkr, hxr]
      rw [hTr] at hT0 ⊢
      push_cast
      field_simp
      linear_combination h4r

theorem permute_loop (op : ℝ → ℝ → ℝ) (fp : ℕ → ℝ) (idx : ℕ → ℕ × ℝ) (n : ℕ) (out : ℕ → ℝ) (a : ℕ) :
    let y := (List.range n).foldl (fun out J =>
      (List.range 4).foldl (fun out k =>
        let i := 8 * J + k
        let j := idx i
        let out := upd out i (op (out i) (fp j.1))
        upd out (i + 4) (op (out (i + 4)) (j.2 * fp (j.1 + 4)))) out) out
    view y a = if a < n * 4 then
      ⟨op (out (pos a)) (fp (idx (pos a)).1), op (out (pos a + 4)) ((idx (pos a)).2 * fp ((idx (pos a)).1 + 4))⟩
      else view out a := by
  set stp : (ℕ → ℝ) → ℕ → (ℕ → ℝ) := fun out q =>
    let i := pos q
    let j := idx i
    let out := upd out i (op (out i) (fp j.1))
    upd out (i + 4) (op (out (i + 4)) (j.2 * fp (j.1 + 4))) with hstp
  have e1 : (List.range n).foldl (fun out J =>
      (List.range 4).foldl (fun out k =>
        let i := 8 * J + k
        let j := idx i
        let out := upd out i (op (out i) (fp j.1))
        upd out (i + 4) (op (out (i + 4)) (j.2 * fp (j.1 + 4)))) out) out = (List.range (n * 4)).foldl stp out := by
    rw [foldl_range_mul]
    congr 1
    funext m J
    simp only [show List.range 4 = [0, 1, 2, 3] from rfl, List.foldl_cons, List.foldl_nil, hstp]
    rw [show pos (J * 4 + 0) = 8 * J + 0 by unfold pos; omega, show pos (J * 4 + 1) = 8 * J + 1 by unfold pos; omega,
      show pos (J * 4 + 2) = 8 * J + 2 by unfold pos; omega, show pos (J * 4 + 3) = 8 * J + 3 by unfold pos; omega]
  intro y
  have e2 : ∀ k a, view ((List.range k).foldl stp out) a = if a < k then
      ⟨op (out (pos a)) (fp (idx (pos a)).1), op (out (pos a + 4)) ((idx (pos a)).2 * fp ((idx (pos a)).1 + 4))⟩
      else view out a := by
    intro k
    induction k with
    | zero => intro a; simp
    | succ k ih =>
      intro a
      simp only [List.range_succ, List.foldl_append, List.foldl_cons, List.foldl_nil]
      generalize hM : (List.range k).foldl stp out = M at ih ⊢
      have hk := ih k
      rw [if_neg (lt_irrefl k)] at hk
      have hk1 : M (pos k) = out (pos k) := congrArg Complex.re hk
      have hk2 : M (pos k + 4) = out (pos k + 4) := congrArg Complex.im hk
      rw [hstp]
      by_cases ha : a = k
      · subst ha
        rw [if_pos (by omega)]
        apply Complex.ext
        · simp [view, upd, hk1]
        · simp [view, upd, hk2]
      · have h1 : pos a ≠ pos k := fun h => ha (pos_inj h)
        have h2 := pos_ne4 a k
        have h3 : pos a + 4 ≠ pos k := (pos_ne4 k a).symm
        have h4 : pos a + 4 ≠ pos k + 4 := by omega
        have : (a < k + 1) = (a < k) := by simp; omega
        simp only [this]
        rw [← ih a]
        simp [view, upd, h1, h2, h3]
  show view y a = _
  rw [show y = _ from e1, e2]

section
variable {l : ℕ} (hl : l + 3 ≤ 64) (fp out : ℕ → ℝ) (p q : Poly (2 ^ (l + 4)) ℝ) (d : ℤ)

theorem evalAt_conj {N : ℕ} (z : ℂ) (p : Poly N ℝ) : evalAt ((starRingEnd ℂ) z) p = (starRingEnd ℂ) (evalAt z p) := by
  unfold evalAt
  rw [map_sum]
  refine Finset.sum_congr rfl fun i _ => ?_
  rw [map_mul, map_pow, Complex.conj_ofReal]

include hl in
/-- What is read is the value of `p(X^d)`. -/
theorem permute_read (hd : d % 2 ≠ 0) (h : IsFFT fp p) (a : ℕ) (ha : a < 2 ^ (l + 4) / 2) :
    (⟨fp (permuteIdx (F := ℝ) (2 ^ (l + 4)) d (pos a)).1, (permuteIdx (F := ℝ) (2 ^ (l + 4)) d (pos a)).2 *
      fp ((permuteIdx (F := ℝ) (2 ^ (l + 4)) d (pos a)).1 + 4)⟩ : ℂ) = evalAt (fftPoint (l + 4) a) (subst d p) := by
  have hhalf : 2 ^ (l + 4) / 2 = 2 ^ (l + 3) := by
    rw [pow_succ 2 (l + 3), Nat.mul_div_cancel _ (by norm_num)]
  obtain ⟨c, hc, e1, e2⟩ := permuteIdx_spec l hl d hd a (by omega)
  have hv := (isFFT_iff _ _).1 h c (by omega)
  rw [evalAt_subst _ (point_pow_N l a), e1, e2]
  by_cases h4 : d % 4 = 1
  · rw [if_pos h4, if_pos h4, ← hv]
    simp [view]
  · rw [if_neg h4, if_neg h4, evalAt_conj, ← hv]
    apply Complex.ext <;> simp [view]

/-- **C45.**  A permutation with an even exponent panics. -/
theorem C45_permute_even (op : ℝ → ℝ → ℝ) (N : ℕ) (hd : d % 2 = 0) : permuteFFTPoly op N out fp d = none := if_pos hd

include hl in
theorem permute_out (op : ℝ → ℝ → ℝ) (hd : d % 2 ≠ 0) (h : IsFFT fp p) :
    ∃ y, permuteFFTPoly op (2 ^ (l + 4)) out fp d = some y ∧ ∀ a < 2 ^ (l + 4) / 2,
      view y a = ⟨op (view out a).re (evalAt (fftPoint (l + 4) a) (subst d p)).re,
        op (view out a).im (evalAt (fftPoint (l + 4) a) (subst d p)).im⟩ := by
  refine ⟨_, if_neg hd, fun a ha => ?_⟩
  have h8 : (2 ^ (l + 4) + 7) / 8 = 2 ^ (l + 1) := by have := eight_mul l; omega
  have := permute_loop op fp (permuteIdx (F := ℝ) (2 ^ (l + 4)) d) (2 ^ (l + 1)) out a
  rw [if_pos (by rw [← half_eq]; exact ha)] at this
  rw [h8]
  refine Eq.trans this ?_
  have hr := permute_read hl fp p d hd h a ha
  rw [← hr]
  rfl

include hl in
/-- **C45.**  `PermuteFFTPolyTo` computes the transform of `p(X^d)`, for every odd `d`. -/
theorem C45_permute (hd : d % 2 ≠ 0) (h : IsFFT fp p) :
    ∃ y, permuteFFTPoly (fun _ z => z) (2 ^ (l + 4)) out fp d = some y ∧ IsFFT y (subst d p) := by
  obtain ⟨y, hy, hv⟩ := permute_out hl fp out p d (fun _ z => z) hd h
  exact ⟨y, hy, (isFFT_iff _ _).2 fun j hj => hv j hj⟩

include hl in
/-- **C45.**  `PermuteAddFFTPolyTo`. -/
theorem C45_permuteAdd (hd : d % 2 ≠ 0) (h : IsFFT fp p) (ho : IsFFT out q) :
    ∃ y, permuteFFTPoly (fun o z => o + z) (2 ^ (l + 4)) out fp d = some y ∧ IsFFT y (q + subst d p) := by
  obtain ⟨y, hy, hv⟩ := permute_out hl fp out p d (fun o z => o + z) hd h
  refine ⟨y, hy, (isFFT_iff _ _).2 fun j hj => ?_⟩
  rw [hv j hj, ← evalHom_apply _ (point_pow_N l j) (q + _), map_add, evalHom_apply, evalHom_apply, ← (isFFT_iff _ _).1 ho j hj]
  apply Complex.ext <;> simp

include hl in
/-- **C45.**  `PermuteSubFFTPolyTo`. -/
theorem C45_permuteSub (hd : d % 2 ≠ 0) (h : IsFFT fp p) (ho : IsFFT out q) :
    ∃ y, permuteFFTPoly (fun o z => o - z) (2 ^ (l + 4)) out fp d = some y ∧ IsFFT y (q - subst d p) := by
  obtain ⟨y, hy, hv⟩ := permute_out hl fp out p d (fun o z => o - z) hd h
  refine ⟨y, hy, (isFFT_iff _ _).2 fun j hj => ?_⟩
  rw [hv j hj, ← evalHom_apply _ (point_pow_N l j) (q - _), map_sub, evalHom_apply, evalHom_apply, ← (isFFT_iff _ _).1 ho j hj]
  apply Complex.ext <;> simp
end

/-! ## A case -/

/-- Rank 1024: the evaluator exists, `FwdFFT` of any two polynomials and the product in place give the transform of the negacyclic
product, `X^-1` and `p(X^3)` are available, and the inverse transform returns the coefficients. -/
example (p q : Poly (2 ^ (6 + 4)) (BitVec 32)) : ∃ e, newEvaluator rcis 1024#64 = some e ∧
    (let m : Mem ℝ := fun v => if v = 0 then fwdFFT e (fun _ => 7) p.slice else fwdFFT e (fun _ => -1) q.slice
     IsFFT (mulCmplx m 0 0 1 1024 0) (p.signed * q.signed) ∧
     invFFTInPlace e.rank (mulCmplx m 0 0 1 1024 0) e.twInv (8 * (700 - 512) / 4 + (700 - 512) % 4 + 4) =
       (p.signed * q.signed) ⟨700, by norm_num⟩) ∧
    IsFFT (monomialFwdFFT e (fun _ => 7) (-1)) (mono (2 ^ (6 + 4)) ℝ (-1)) ∧
    ∃ y, permuteFFTPoly (fun _ z => z) (2 ^ (6 + 4)) (fun _ => 7) (fwdFFT e (fun _ => 7) p.slice) 3 = some y ∧
      IsFFT y (subst 3 p.signed) := by
  have hN : (1024#64).toInt = 2 ^ (6 + 4) := by decide
  obtain ⟨e, he⟩ := Option.isSome_iff_exists.1 ((C45_newEvaluator 1024#64).2 ⟨6, hN⟩)
  have hr : e.rank = 1024 := (good_of hN he).rank
  have hp := C45_fwdFFT hN he (fun _ => 7) p
  have hq := C45_fwdFFT hN he (fun _ => -1) q
  set m : Mem ℝ := fun v => if v = 0 then fwdFFT e (fun _ => 7) p.slice else fwdFFT e (fun _ => -1) q.slice with hm
  have hmul := (C45_mul m 0 0 1 p.signed q.signed hp hq).1
  refine ⟨e, he, ⟨hmul, ?_⟩, C45_monomial hN he _ _, C45_permute (by norm_num) _ _ _ 3 (by norm_num) hp⟩
  have := C45_invFFT hN he _ _ hmul ⟨700, by norm_num⟩
  rw [hr] at this
  rw [hr]
  simpa using this

end Tfhe
