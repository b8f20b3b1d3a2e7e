import Verif.Lemma.FftErr
import Mathlib.Analysis.Complex.Exponential

/-!
# Products of integer polynomials in floating-point arithmetic
-/
namespace Tfhe.Fft
open Tfhe Poly Finset

/-- Reduction and conversion to a word of a value close to an integer. -/
theorem convertFl_spec {A : Arith} {u : ℝ} (hA : A.Ok u) (hu : 0 ≤ u) (hu1 : u ≤ 1 / 16) (w : ℕ) (hw : 0 < w) (Z : ℤ) (c : ℝ)
    (hc : |c - Z| ≤ 1 / 4) (hc2 : 10 * u * |c| ≤ 1 / 8) (h : w < 64 ∨ (w = 64 ∧ |Z| < 2 ^ 62)) :
    (toInt64 (floatModQFl A (2 ^ w) c)).map (fun z => BitVec.ofInt w z) = some (BitVec.ofInt w Z) := by
  have hq : (0 : ℝ) < 2 ^ w := by positivity
  set q : ℝ := 2 ^ w with hqdef
  set x := A.div c q with hx
  set K := A.round x with hK
  have hx1 : |x - c / q| ≤ u * |c / q| := hA.div c q
  have hcq : q * |c / q| = |c| := by rw [abs_div, abs_of_pos hq]; field_simp
  have hx2 : |x| ≤ (1 + u) * |c / q| := by
    have := abs_add_le (x - c / q) (c / q)
    rw [sub_add_cancel] at this; linarith
  have hxK := hA.round x
  rw [← hK] at hxK
  have hK2 : |(K : ℝ)| ≤ 2 * |x| := by
    rcases eq_or_ne K 0 with h0 | h0
    · rw [h0]; simp
    · have h1 : (1 : ℝ) ≤ |(K : ℝ)| := by
        have := Int.one_le_abs h0
        exact_mod_cast this
      have h2 : |(K : ℝ)| ≤ |x| + |x - K| := by
        have := abs_sub_abs_le_abs_sub (K : ℝ) x
        rw [abs_sub_comm (K : ℝ) x] at this; linarith
      linarith
  have hqK : |q * K| ≤ 2 * (1 + u) * |c| := by
    rw [abs_mul, abs_of_pos hq]
    calc q * |(K : ℝ)| ≤ q * (2 * ((1 + u) * |c / q|)) := mul_le_mul_of_nonneg_left (by linarith) hq.le
      _ = 2 * (1 + u) * (q * |c / q|) := by ring
      _ = _ := by rw [hcq]
  have hs := hA.subMul c q K
  have hs2 : |A.subMul c q K - (c - q * K)| ≤ 1 / 8 := by
    refine hs.trans (le_trans ?_ hc2)
    have h1 : |c| + |q * K| ≤ (3 + 2 * u) * |c| := by linarith
    have h2 := mul_le_mul_of_nonneg_left h1 (show 0 ≤ 3 * u by positivity)
    have h3 : u * u * |c| ≤ u * (1 / 16) * |c| :=
      mul_le_mul_of_nonneg_right (mul_le_mul_of_nonneg_left hu1 hu) (abs_nonneg _)
    have h4 : 0 ≤ u * |c| := by positivity
    nlinarith
  have hround : floatModQFl A q c = Z - 2 ^ w * K := by
    unfold floatModQFl
    rw [← hx, ← hK]
    have e : A.subMul c q K = ((Z - 2 ^ w * K : ℤ) : ℝ) + ((A.subMul c q K - (c - q * K)) + (c - Z)) := by
      push_cast; rw [← hqdef]; ring
    rw [e]
    apply nearest_add hA.round
    have := abs_add_le (A.subMul c q K - (c - q * K)) (c - Z)
    linarith
  rw [hround]
  refine convert_fit w Z K ?_ h
  have h3 : |((Z - 2 ^ w * K : ℤ) : ℝ)| < 2 ^ (w - 1) + 1 := by
    have e : ((Z - 2 ^ w * K : ℤ) : ℝ) = ((Z - c) + (-(q * (x - c / q)))) + q * (x - K) := by
      push_cast; rw [← hqdef]; field_simp; ring
    rw [e]
    have a1 := abs_add_le ((Z - c) + (-(q * (x - c / q)))) (q * (x - K))
    have a2 := abs_add_le (Z - c) (-(q * (x - c / q)))
    rw [abs_neg, abs_mul, abs_of_pos hq] at a2
    rw [abs_mul q, abs_of_pos hq] at a1
    have a3 := mul_le_mul_of_nonneg_left hx1 hq.le
    have a4 : q * (u * |c / q|) = u * |c| := by rw [← hcq]; ring
    have a5 := mul_le_mul_of_nonneg_left hxK hq.le
    have a6 : q * (1 / 2) = 2 ^ (w - 1) := by
      obtain ⟨v, rfl⟩ : ∃ v, w = v + 1 := ⟨w - 1, by omega⟩
      rw [hqdef, pow_succ, Nat.add_sub_cancel]; ring
    rw [abs_sub_comm] at hc
    linarith
  have h4 : |Z - 2 ^ w * K| < 2 ^ (w - 1) + 1 := by exact_mod_cast h3
  omega

section
variable {l : ℕ} {A : Arith} {u : ℝ} (hA : A.Ok u) (hu : 0 ≤ u)

section Inv
variable {ρ τ : ℝ} {e : Eval ℝ} (he : GoodFl τ l e) (hτ : 0 ≤ τ) (hρ : u + (1 + u) * (6 * u * (1 + τ) + τ) ≤ ρ)
include hA hu he hτ hρ

/-- The inverse transform of what is close enough to the transform of an integer polynomial. -/
theorem invFl_int {w : ℕ} (hu1 : u ≤ 1 / 16) (hw : 0 < w) (hw64 : w ≤ 64) (fp : ℕ → ℝ) (Z : Poly (2 ^ (l + 4)) ℤ) (Λ Ψ : ℝ)
    (h : Near1 l fp (toR _ Z) Λ Ψ) (hE : ((1 + u) * (1 + ρ) ^ (l + 3) * Ψ - 1) * Λ ≤ 1 / 4) (hΛ : 10 * u * (Λ + 1) ≤ 1 / 8)
    (hΛ2 : Λ < 2 ^ 62) :
    invFFTFl A w e fp = some (ofIntP w Z).coeffs := by
  have hpl : 2 ^ (l + 4) = 2 * 2 ^ (l + 3) := by rw [pow_succ]; ring
  set y := invFFTInPlaceFl A e.rank fp e.twInv with hy
  have key : ∀ (i : Fin (2 ^ (l + 4))) (c : ℝ), ((Z i : ℤ) : ℝ) ≤ Λ ∧ -((Z i : ℤ) : ℝ) ≤ Λ → |c - Z i| ≤ 1 / 4 →
      (toInt64 (floatModQFl A (2 ^ w) c)).map (fun z => BitVec.ofInt w z) = some (ofIntP w Z i) := by
    intro i c hZ hc
    have hZa : |((Z i : ℤ) : ℝ)| ≤ Λ := abs_le.2 ⟨by linarith, hZ.1⟩
    refine convertFl_spec hA hu hu1 w hw (Z i) c hc ?_ ?_
    · refine le_trans (mul_le_mul_of_nonneg_left ?_ (by positivity)) hΛ
      have := abs_add_le (c - Z i) (Z i)
      rw [sub_add_cancel] at this; linarith
    · rcases Nat.lt_or_ge w 64 with h | h
      · exact Or.inl h
      · refine Or.inr ⟨by omega, ?_⟩
        have := hZa.trans_lt hΛ2
        exact_mod_cast this
  have h1 : ∀ i : Fin (2 ^ (l + 4)), invFFTAtFl A w e fp i = some (ofIntP w Z i) := by
    intro i
    unfold invFFTAtFl
    simp only
    rw [← hy, he.rank, show 2 ^ (l + 4) / 2 = 2 ^ (l + 3) by omega]
    split
    · rename_i hi
      obtain ⟨b1, b2⟩ := inv_near hA hu he hτ hρ fp _ Λ Ψ h i hi
      have c1 := (Complex.abs_re_le_norm _).trans b1
      have c2 := (Complex.abs_re_le_norm _).trans (b2.trans hE)
      rw [Complex.sub_re, ← hy] at c2
      have f1 : (folded l (toR _ Z) i).re = Z i := by
        unfold folded; simp only; rw [slice_lt _ i.1 i.2]; rfl
      rw [f1] at c1 c2
      exact key i _ ⟨(abs_le.1 c1).2, by linarith [(abs_le.1 c1).1]⟩ c2
    · rename_i hi
      have hlt := i.2
      obtain ⟨b1, b2⟩ := inv_near hA hu he hτ hρ fp _ Λ Ψ h (i - 2 ^ (l + 3)) (by omega)
      have c1 := (Complex.abs_im_le_norm _).trans b1
      have c2 := (Complex.abs_im_le_norm _).trans (b2.trans hE)
      rw [Complex.sub_im, ← hy] at c2
      have f1 : (folded l (toR _ Z) (i - 2 ^ (l + 3))).im = Z i := by
        unfold folded; simp only
        rw [show i.1 - 2 ^ (l + 3) + 2 ^ (l + 3) = i.1 by omega, slice_lt _ i.1 i.2]; rfl
      rw [f1] at c1 c2
      exact key i _ ⟨(abs_le.1 c1).2, by linarith [(abs_le.1 c1).1]⟩ c2
  unfold invFFTFl
  rw [he.rank, ← List.map_coe_finRange_eq_range, List.mapM_map]
  unfold Poly.coeffs
  rw [List.ofFn_eq_map]
  exact mapM_some _ _ _ fun i _ => h1 i
end Inv

/-! ## The loops -/

theorem near2_congr (l : ℕ) (fp fp' : ℕ → ℝ) (P : Poly (2 ^ (l + 4)) ℝ) (X Φ : ℝ) (hfp : ∀ j < 2 ^ (l + 3), view fp' j = view fp j)
    (h : Near2 l fp P X Φ) : Near2 l fp' P X Φ :=
  ⟨h.1, le_trans (le_of_eq (n2_congr fun j hj => by rw [hfp j hj])) h.2⟩

theorem near1_congr (l : ℕ) (fp fp' : ℕ → ℝ) (P : Poly (2 ^ (l + 4)) ℝ) (X Φ : ℝ) (hfp : ∀ j < 2 ^ (l + 3), view fp' j = view fp j)
    (h : Near1 l fp P X Φ) : Near1 l fp' P X Φ :=
  ⟨h.1, le_trans (le_of_eq (sum_congr rfl fun j hj => by rw [hfp j (mem_range.1 hj)])) h.2⟩

theorem mulAddFl_other (A : Arith) (m : Mem ℝ) (out v0 v1 v : ℕ) (hv : v ≠ out) (j : ℕ) :
    view (mulAddCmplxFl A m out v0 v1 (2 ^ (l + 4)) v) j = view (m v) j := by
  rw [mulAddCmplxFl, cmplxLoop_spec _ _ _ _ _ _ (eight_mul l), if_neg (by simp [hv])]

theorem mulFl_other (A : Arith) (m : Mem ℝ) (out v0 v1 v : ℕ) (hv : v ≠ out) (j : ℕ) :
    view (mulCmplxFl A m out v0 v1 (2 ^ (l + 4)) v) j = view (m v) j := by
  rw [mulCmplxFl, cmplxLoop_spec _ _ _ _ _ _ (eight_mul l), if_neg (by simp [hv])]

include hA hu in
theorem loop_near (c : ℕ) (L0 L1 : ℕ → Poly (2 ^ (l + 4)) ℝ) (m : Mem ℝ) (X Y Φ : ℝ) (hX : 0 ≤ X) (hY : 0 ≤ Y) (hΦ : 1 ≤ Φ)
    (h0 : ∀ k, Near2 l (m (3 * k)) (L0 k) X Φ) (h1 : ∀ k, Near2 l (m (3 * k + 1)) (L1 k) Y Φ)
    (h2 : ∀ k j, view (m (3 * k + 2)) j = 0) (k : ℕ) :
    Near1 l ((List.range c).foldl (fun m i => (List.range (c - i)).foldl (fun m j =>
      mulAddCmplxFl A m (3 * (i + j) + 2) (3 * i) (3 * j + 1) (2 ^ (l + 4))) m) m (3 * k + 2)) (cross c L0 L1 k)
      (c * (X * Y)) ((1 + 3 * u) ^ c * ((1 + 6 * u) * (Φ * Φ))) := by
  set Ψ := (1 + 6 * u) * (Φ * Φ) with hΨ
  have hΨ1 : 1 ≤ Ψ := by
    have : 1 ≤ Φ * Φ := by nlinarith
    rw [hΨ]; nlinarith
  have hpow : ∀ t : ℕ, (1 : ℝ) ≤ (1 + 3 * u) ^ t := fun t => one_le_pow₀ (by linarith)
  have hXY : 0 ≤ X * Y := mul_nonneg hX hY
  let NR : ℕ → (ℕ → ℝ) → Poly (2 ^ (l + 4)) ℝ → Prop := fun t fp P => Near1 l fp P (t * (X * Y)) ((1 + 3 * u) ^ t * Ψ)
  have up : ∀ t t' fp P, t ≤ t' → NR t fp P → NR t' fp P := fun t t' fp P ht h =>
    Near1.mono h (by positivity) (mul_le_mul_of_nonneg_right (by exact_mod_cast ht) hXY)
      (by nlinarith [hpow t]) (mul_le_mul_of_nonneg_right (pow_le_pow_right₀ (by linarith) ht) (by linarith))
  let Rel : (ℕ → ℕ) → (ℕ → Poly (2 ^ (l + 4)) ℝ) → Mem ℝ → Prop := fun T B m =>
    ∀ k, Near2 l (m (3 * k)) (L0 k) X Φ ∧ Near2 l (m (3 * k + 1)) (L1 k) Y Φ ∧ NR (T k) (m (3 * k + 2)) (B k)
  have inner : ∀ i n (B : ℕ → Poly (2 ^ (l + 4)) ℝ) m, Rel (fun _ => i) B m →
      Rel (fun k => if k < i + n then i + 1 else i) (fun k => B k + ∑ j ∈ range n, if i + j = k then L0 i * L1 j else 0)
        ((List.range n).foldl (fun m j => mulAddCmplxFl A m (3 * (i + j) + 2) (3 * i) (3 * j + 1) (2 ^ (l + 4))) m) := by
    intro i n B m hm
    induction n with
    | zero => intro k; refine ⟨(hm k).1, (hm k).2.1, ?_⟩; simp only [range_zero, sum_empty, add_zero]
              exact up _ _ _ _ (by beta_reduce; split <;> omega) (hm k).2.2
    | succ n ih =>
      rw [List.range_succ, List.foldl_append, List.foldl_cons, List.foldl_nil]
      intro k
      refine ⟨near2_congr l _ _ _ _ _ (fun j _ => mulAddFl_other A _ _ _ _ _ (by omega) j) (ih k).1,
        near2_congr l _ _ _ _ _ (fun j _ => mulAddFl_other A _ _ _ _ _ (by omega) j) (ih k).2.1, ?_⟩
      beta_reduce
      rw [sum_range_succ, ← add_assoc (B k)]
      by_cases hk : i + n = k
      · subst hk
        rw [if_pos rfl, if_pos (by omega)]
        have h3 := (ih (i + n)).2.2
        beta_reduce at h3
        rw [if_neg (by omega)] at h3
        have h4 := mulAdd_near hA hu _ (3 * (i + n) + 2) (3 * i) (3 * n + 1) _ _ _ X Y Φ Φ _ _ ((1 + 3 * u) ^ i * Ψ) hX hY
          (by positivity) hΦ (ih i).1 (ih n).2.1 h3 le_rfl (by nlinarith [hpow i])
        have e1 : ((i + 1 : ℕ) : ℝ) * (X * Y) = i * (X * Y) + X * Y := by push_cast; ring
        have e2 : (1 + 3 * u) ^ (i + 1) * Ψ = (1 + 3 * u) * ((1 + 3 * u) ^ i * Ψ) := by rw [pow_succ]; ring
        change Near1 l _ _ (((i + 1 : ℕ) : ℝ) * (X * Y)) ((1 + 3 * u) ^ (i + 1) * Ψ)
        rw [e1, e2]
        exact h4
      · rw [if_neg hk, add_zero]
        refine near1_congr l _ _ _ _ _ (fun j _ => mulAddFl_other A _ _ _ _ _ (by omega) j) ?_
        exact up _ _ _ _ (by beta_reduce; split <;> split <;> omega) (ih k).2.2
  have outer : ∀ n, Rel (fun _ => n) (fun k => ∑ i ∈ range n, ∑ j ∈ range (c - i), if i + j = k then L0 i * L1 j else 0)
      ((List.range n).foldl (fun m i => (List.range (c - i)).foldl (fun m j =>
        mulAddCmplxFl A m (3 * (i + j) + 2) (3 * i) (3 * j + 1) (2 ^ (l + 4))) m) m) := by
    intro n
    induction n with
    | zero =>
      intro k
      refine ⟨h0 k, h1 k, ?_⟩
      simp only [List.range_zero, List.foldl_nil, range_zero, sum_empty]
      refine ⟨?_, ?_⟩
      · simp [ev_zero]
      · simp [ev_zero, h2]
    | succ n ih =>
      rw [List.range_succ, List.foldl_append, List.foldl_cons, List.foldl_nil]
      have := inner n (c - n) _ _ ih
      intro k
      have h := this k
      refine ⟨h.1, h.2.1, ?_⟩
      beta_reduce
      rw [sum_range_succ]
      exact up _ _ _ _ (by beta_reduce; split <;> omega) h.2.2
  exact (outer c k).2.2
end

/-! ## Numbers -/

theorem pow_sub_one_le (x : ℝ) (hx : 0 ≤ x) (k : ℕ) (hk : k * x ≤ 1 / 1000) : (1 + x) ^ k - 1 ≤ k * x * (1001 / 1000) := by
  have h1 : (1 + x) ^ k ≤ Real.exp (k * x) := by
    rw [Real.exp_nat_mul]
    exact pow_le_pow_left₀ (by linarith) (by linarith [Real.add_one_le_exp x]) k
  have h0 : 0 ≤ k * x := by positivity
  have h2 := Real.abs_exp_sub_one_sub_id_le (x := k * x) (by rw [abs_of_nonneg h0]; linarith)
  have h3 := (abs_le.1 h2).2
  nlinarith

/-- The error of everything together. -/
theorem total_err (L t : ℕ) (hk : 3 * L + t + 4 ≤ 1000) (S : ℝ) (hS0 : 0 ≤ S) (hS : S * (3 * L + t + 4 : ℕ) ≤ 900 * 2 ^ 34) :
    ((1 + 2⁻¹ ^ 53) * (1 + 2⁻¹ ^ 47) ^ L * ((1 + 3 * 2⁻¹ ^ 53) ^ t * ((1 + 6 * 2⁻¹ ^ 53) *
      (((1 + 2 * 2⁻¹ ^ 47) ^ L * (1 + 2⁻¹ ^ 53)) * ((1 + 2 * 2⁻¹ ^ 47) ^ L * (1 + 2⁻¹ ^ 53))))) - 1) * S ≤ (1 / 4 : ℝ) := by
  set x : ℝ := 2 * 2⁻¹ ^ 47 with hx
  have hx0 : 0 ≤ x := by rw [hx]; positivity
  have a1 : (1 + 2⁻¹ ^ 53 : ℝ) ≤ 1 + x := by rw [hx]; norm_num
  have a2 : (1 + 2⁻¹ ^ 47 : ℝ) ≤ 1 + x := by rw [hx]; norm_num
  have a3 : (1 + 6 * 2⁻¹ ^ 53 : ℝ) ≤ 1 + x := by rw [hx]; norm_num
  have a4 : (1 + 3 * 2⁻¹ ^ 53 : ℝ) ≤ 1 + x := by rw [hx]; norm_num
  have b1 : (0 : ℝ) ≤ 1 + 2⁻¹ ^ 53 := by positivity
  have b4 : (0 : ℝ) ≤ 1 + 3 * 2⁻¹ ^ 53 := by positivity
  have b2 : (0 : ℝ) ≤ 1 + 2⁻¹ ^ 47 := by positivity
  have b3 : (0 : ℝ) ≤ 1 + 6 * 2⁻¹ ^ 53 := by positivity
  have h1 : (1 + 2⁻¹ ^ 53) * (1 + 2⁻¹ ^ 47) ^ L * ((1 + 3 * 2⁻¹ ^ 53) ^ t * ((1 + 6 * 2⁻¹ ^ 53) *
      (((1 + x) ^ L * (1 + 2⁻¹ ^ 53)) * ((1 + x) ^ L * (1 + 2⁻¹ ^ 53))))) ≤ (1 + x) ^ (3 * L + t + 4) := by
    calc _ ≤ (1 + x) * (1 + x) ^ L * ((1 + x) ^ t * ((1 + x) * (((1 + x) ^ L * (1 + x)) * ((1 + x) ^ L * (1 + x))))) := by gcongr
      _ = _ := by rw [show 3 * L + t + 4 = L + L + L + t + 1 + 1 + 1 + 1 by ring]; simp only [pow_add, pow_one]; ring
  have h2 := pow_sub_one_le x hx0 (3 * L + t + 4) (by
    have : ((3 * L + t + 4 : ℕ) : ℝ) ≤ 1000 := by exact_mod_cast hk
    have := mul_le_mul_of_nonneg_right this hx0
    refine this.trans ?_
    rw [hx]; norm_num)
  have h3 := mul_le_mul_of_nonneg_right (le_trans (sub_le_sub_right h1 1) h2) hS0
  refine h3.trans ?_
  have h4 := mul_le_mul_of_nonneg_right hS (show 0 ≤ x * (1001 / 1000) by positivity)
  have e : ((3 * L + t + 4 : ℕ) : ℝ) * x * (1001 / 1000) * S = S * ((3 * L + t + 4 : ℕ) : ℝ) * (x * (1001 / 1000)) := by ring
  rw [e]
  refine h4.trans ?_
  rw [hx]; norm_num

end Tfhe.Fft
