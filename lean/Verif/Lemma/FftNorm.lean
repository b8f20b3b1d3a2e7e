import Verif.Lemma.FftPass
import Mathlib.Analysis.InnerProductSpace.PiL2
import Mathlib.Tactic.Linarith
import Mathlib.Tactic.Positivity
import Mathlib.Tactic.GCongr

/-!
# How the stages of the transform magnify errors

The forward stages are measured in the Euclidean norm, where an exact stage multiplies by `√2`.  The inverse stages are measured in
sums over residue classes, which an exact stage does not increase.
-/
namespace Tfhe.Fft
open Finset

/-- The Euclidean norm of the first `M` entries. -/
noncomputable def n2 (M : ℕ) (z : ℕ → ℂ) : ℝ := √(∑ p ∈ range M, ‖z p‖ ^ 2)

theorem n2_eq (M : ℕ) (z : ℕ → ℂ) : n2 M z = ‖(WithLp.toLp 2 fun p : Fin M => z p : EuclideanSpace ℂ (Fin M))‖ := by
  rw [EuclideanSpace.norm_eq, n2, ← Fin.sum_univ_eq_sum_range (fun p => ‖z p‖ ^ 2)]

theorem n2_nonneg (M : ℕ) (z : ℕ → ℂ) : 0 ≤ n2 M z := Real.sqrt_nonneg _

theorem n2_sq (M : ℕ) (z : ℕ → ℂ) : n2 M z ^ 2 = ∑ p ∈ range M, ‖z p‖ ^ 2 :=
  Real.sq_sqrt (sum_nonneg fun _ _ => sq_nonneg _)

theorem n2_add_le (M : ℕ) (z z' : ℕ → ℂ) : n2 M (fun p => z p + z' p) ≤ n2 M z + n2 M z' := by
  rw [n2_eq, n2_eq, n2_eq]
  exact norm_add_le (WithLp.toLp 2 fun p : Fin M => z p : EuclideanSpace ℂ (Fin M)) (WithLp.toLp 2 fun p : Fin M => z' p)

theorem n2_congr {M : ℕ} {z z' : ℕ → ℂ} (h : ∀ p < M, z p = z' p) : n2 M z = n2 M z' := by
  unfold n2; congr 1; exact sum_congr rfl fun p hp => by rw [h p (mem_range.1 hp)]

theorem n2_le {M : ℕ} {z : ℕ → ℂ} {c : ℝ} (hc : 0 ≤ c) (h : ∑ p ∈ range M, ‖z p‖ ^ 2 ≤ c ^ 2) : n2 M z ≤ c := by
  rw [n2, ← Real.sqrt_sq hc]; exact Real.sqrt_le_sqrt h

/-- The inequality of Cauchy and Schwarz. -/
theorem sum_mul_le_n2 (M : ℕ) (x y : ℕ → ℂ) : ∑ p ∈ range M, ‖x p‖ * ‖y p‖ ≤ n2 M x * n2 M y :=
  Real.sum_mul_le_sqrt_mul_sqrt _ _ _

theorem sum_blocks (f : ℕ → ℝ) (h n : ℕ) :
    ∑ p ∈ range (2 * h * n), f p = ∑ i ∈ range n, ∑ u ∈ range h, (f (2 * h * i + u) + f (2 * h * i + u + h)) := by
  induction n with
  | zero => simp
  | succ n ih =>
    rw [sum_range_succ, ← ih, show 2 * h * (n + 1) = 2 * h * n + (h + h) by ring, sum_range_add, sum_range_add, sum_add_distrib]
    congr 2
    exact sum_congr rfl fun u _ => by rw [show 2 * h * n + (h + u) = 2 * h * n + u + h by ring]

theorem stg_lo (B : ℂ → ℂ → ℂ → ℂ × ℂ) (w : ℕ → ℂ) (h i u : ℕ) (hu : u < h) (z : ℕ → ℂ) :
    stg B w h z (2 * h * i + u) = (B (z (2 * h * i + u)) (z (2 * h * i + u + h)) (w i)).1 := by
  unfold stg
  rw [Nat.mul_add_mod, Nat.mod_eq_of_lt (by omega : u < 2 * h), if_pos hu, Nat.mul_add_div (by omega),
    Nat.div_eq_of_lt (by omega : u < 2 * h), add_zero]

theorem stg_hi (B : ℂ → ℂ → ℂ → ℂ × ℂ) (w : ℕ → ℂ) (h i u : ℕ) (hu : u < h) (z : ℕ → ℂ) :
    stg B w h z (2 * h * i + u + h) = (B (z (2 * h * i + u)) (z (2 * h * i + u + h)) (w i)).2 := by
  unfold stg
  rw [add_assoc, Nat.mul_add_mod, Nat.mod_eq_of_lt (by omega : u + h < 2 * h), if_neg (by omega), Nat.mul_add_div (by omega),
    Nat.div_eq_of_lt (by omega : u + h < 2 * h), add_zero, show 2 * h * i + (u + h) - h = 2 * h * i + u by omega]

/-- The butterfly `B` with factor `w'` differs from the exact butterfly `B0` with factor `w` by at most `ρ` times its arguments. -/
def Near (ρ : ℝ) (B B0 : ℂ → ℂ → ℂ → ℂ × ℂ) (w' w : ℂ) : Prop :=
  ∀ u v, ‖(B u v w').1 - (B0 u v w).1‖ ≤ ρ * (‖u‖ + ‖v‖) ∧ ‖(B u v w').2 - (B0 u v w).2‖ ≤ ρ * (‖u‖ + ‖v‖)

theorem n2_stg (w : ℕ → ℂ) (h n : ℕ) (hw : ∀ i < n, ‖w i‖ = 1) (z : ℕ → ℂ) :
    n2 (2 * h * n) (stg bF w h z) = √2 * n2 (2 * h * n) z := by
  unfold n2
  rw [← Real.sqrt_mul (by norm_num), sum_blocks, sum_blocks, mul_sum]
  congr 1
  refine sum_congr rfl fun i hi => ?_
  rw [mul_sum]
  refine sum_congr rfl fun u hu => ?_
  rw [stg_lo _ _ _ _ _ (mem_range.1 hu), stg_hi _ _ _ _ _ (mem_range.1 hu)]
  have := parallelogram_law_with_norm ℝ (z (2 * h * i + u)) (z (2 * h * i + u + h) * w i)
  rw [norm_mul, hw i (mem_range.1 hi), mul_one] at this
  simp only [bF]
  nlinarith [this]

theorem n2_stg_near (ρ : ℝ) (hρ : 0 ≤ ρ) (B B0 : ℂ → ℂ → ℂ → ℂ × ℂ) (w' w : ℕ → ℂ) (h n : ℕ)
    (hB : ∀ i < n, Near ρ B B0 (w' i) (w i)) (z : ℕ → ℂ) :
    n2 (2 * h * n) (fun p => stg B w' h z p - stg B0 w h z p) ≤ 2 * ρ * n2 (2 * h * n) z := by
  apply n2_le (by have := n2_nonneg (2 * h * n) z; positivity)
  rw [mul_pow, n2_sq, sum_blocks, sum_blocks, mul_sum]
  refine sum_le_sum fun i hi => ?_
  rw [mul_sum]
  refine sum_le_sum fun u hu => ?_
  rw [stg_lo _ _ _ _ _ (mem_range.1 hu), stg_hi _ _ _ _ _ (mem_range.1 hu), stg_lo _ _ _ _ _ (mem_range.1 hu),
    stg_hi _ _ _ _ _ (mem_range.1 hu)]
  obtain ⟨h1, h2⟩ := hB i (mem_range.1 hi) (z (2 * h * i + u)) (z (2 * h * i + u + h))
  generalize ‖z (2 * h * i + u)‖ = a at *
  generalize ‖z (2 * h * i + u + h)‖ = b at *
  have h1' := pow_le_pow_left₀ (norm_nonneg _) h1 2
  have h2' := pow_le_pow_left₀ (norm_nonneg _) h2 2
  have : (ρ * (a + b)) ^ 2 ≤ ρ ^ 2 * (2 * (a ^ 2 + b ^ 2)) := by
    rw [mul_pow]
    exact mul_le_mul_of_nonneg_left (by nlinarith [sq_nonneg (a - b)]) (sq_nonneg _)
  nlinarith

theorem stg_sub (w : ℕ → ℂ) (h : ℕ) (z z' : ℕ → ℂ) (p : ℕ) :
    stg bF w h z p - stg bF w h z' p = stg bF w h (fun p => z p - z' p) p := by
  unfold stg bF
  split <;> ring

/-- One stage. -/
theorem n2_stg_err (ρ : ℝ) (hρ : 0 ≤ ρ) (B : ℂ → ℂ → ℂ → ℂ × ℂ) (w' w : ℕ → ℂ) (h n : ℕ) (hw : ∀ i < n, ‖w i‖ = 1)
    (hB : ∀ i < n, Near ρ B bF (w' i) (w i)) (z' z : ℕ → ℂ) :
    n2 (2 * h * n) (fun p => stg B w' h z' p - stg bF w h z p) ≤
      √2 * n2 (2 * h * n) (fun p => z' p - z p) + 2 * ρ * n2 (2 * h * n) z' := by
  rw [← n2_stg w h n hw, add_comm]
  refine le_trans (le_of_eq ?_) ((n2_add_le _ _ _).trans (add_le_add_left (n2_stg_near ρ hρ B bF w' w h n hB z') _))
  refine n2_congr fun p _ => ?_
  rw [← stg_sub]; ring

/-! ### Residue classes -/

theorem class_near (ρ : ℝ) (B : ℂ → ℂ → ℂ → ℂ × ℂ) (w' w : ℕ → ℂ) (h n : ℕ) (hw : ∀ i < n, ‖w i‖ = 1)
    (hB : ∀ i < n, Near ρ B bI (w' i) (w i)) (z' z : ℕ → ℂ) (r : ℕ) (hr : r < 2 * h) :
    ∑ i ∈ range n, ‖stg B w' h z' (2 * h * i + r) - stg bI w h z (2 * h * i + r)‖ ≤
      ∑ j ∈ range (2 * n), ‖z' (h * j + r % h) - z (h * j + r % h)‖ + ρ * ∑ j ∈ range (2 * n), ‖z' (h * j + r % h)‖ := by
  have sum2 : ∀ f : ℕ → ℝ, ∑ j ∈ range (2 * n), f j = ∑ i ∈ range n, (f (2 * i) + f (2 * i + 1)) := by
    intro f
    induction n with
    | zero => simp
    | succ n ih =>
      rw [show 2 * (n + 1) = 2 * n + 1 + 1 by ring, sum_range_succ, sum_range_succ,
        ih (fun i hi => hw i (by omega)) (fun i hi => hB i (by omega)), sum_range_succ, add_assoc]
  rw [sum2, sum2, mul_sum, ← sum_add_distrib]
  refine sum_le_sum fun i hi => ?_
  have hi := mem_range.1 hi
  have hwi := hw i hi
  -- the two elements that take part
  have key : ∀ u, u < h → r % h = u → (r = u ∨ r = u + h) →
      ‖stg B w' h z' (2 * h * i + r) - stg bI w h z (2 * h * i + r)‖ ≤
        (‖z' (h * (2 * i) + u) - z (h * (2 * i) + u)‖ + ‖z' (h * (2 * i + 1) + u) - z (h * (2 * i + 1) + u)‖) +
        ρ * (‖z' (h * (2 * i) + u)‖ + ‖z' (h * (2 * i + 1) + u)‖) := by
    intro u hu _ hru
    have e1 : h * (2 * i) + u = 2 * h * i + u := by ring
    have e2 : h * (2 * i + 1) + u = 2 * h * i + u + h := by ring
    rw [e1, e2]
    obtain ⟨h1, h2⟩ := hB i hi (z' (2 * h * i + u)) (z' (2 * h * i + u + h))
    rcases hru with rfl | rfl
    · rw [stg_lo _ _ _ _ _ hu, stg_lo _ _ _ _ _ hu]
      refine le_trans (norm_sub_le_norm_sub_add_norm_sub _ (bI (z' (2 * h * i + r)) (z' (2 * h * i + r + h)) (w i)).1 _) ?_
      rw [add_comm]
      refine add_le_add ?_ h1
      simp only [bI]
      refine le_trans (le_of_eq ?_) (norm_add_le _ _)
      congr 1; ring
    · rw [← add_assoc, stg_hi _ _ _ _ _ hu, stg_hi _ _ _ _ _ hu]
      refine le_trans (norm_sub_le_norm_sub_add_norm_sub _ (bI (z' (2 * h * i + u)) (z' (2 * h * i + u + h)) (w i)).2 _) ?_
      rw [add_comm]
      refine add_le_add ?_ h2
      simp only [bI]
      rw [← sub_mul, norm_mul, hwi, mul_one]
      refine le_trans (le_of_eq ?_) (norm_sub_le _ _)
      congr 1; ring
  rcases Nat.lt_or_ge r h with h' | h'
  · rw [Nat.mod_eq_of_lt h']
    exact key r h' (Nat.mod_eq_of_lt h') (Or.inl rfl)
  · have e : r % h = r - h := by rw [Nat.mod_eq_sub_mod h', Nat.mod_eq_of_lt (by omega)]
    rw [e]
    exact key (r - h) (by omega) e (Or.inr (by omega))

/-- The vector after `s` stages of the inverse transform; `V s i` is the factor of block `i` of stage `s`, and
`B s` the butterfly of the stage. -/
def invAfter (B : ℕ → ℂ → ℂ → ℂ → ℂ × ℂ) (V : ℕ → ℕ → ℂ) (y : ℕ → ℂ) : ℕ → ℕ → ℂ
  | 0 => y
  | s + 1 => stg (B s) (V s) (2 ^ s) (invAfter B V y s)

theorem bI_class (w : ℕ → ℂ) (h n : ℕ) (hw : ∀ i < n, ‖w i‖ = 1) (z : ℕ → ℂ) (r : ℕ) (hr : r < 2 * h) :
    ∑ i ∈ range n, ‖stg bI w h z (2 * h * i + r)‖ ≤ ∑ j ∈ range (2 * n), ‖z (h * j + r % h)‖ := by
  have := class_near 0 bI w w h n hw (fun i _ u v => by simp) z (fun _ => 0) r hr
  simp only [sub_zero, zero_mul, add_zero] at this
  refine le_trans (le_of_eq (sum_congr rfl fun i _ => ?_)) this
  have h0 : stg bI w h (fun _ => 0) (2 * h * i + r) = 0 := by unfold stg bI; split <;> simp
  rw [h0, sub_zero]

section
variable (L : ℕ) (ρ : ℝ) (hρ : 0 ≤ ρ) (B : ℕ → ℂ → ℂ → ℂ → ℂ × ℂ) (V' V : ℕ → ℕ → ℂ)
  (hV : ∀ s < L, ∀ i < 2 ^ (L - 1 - s), ‖V s i‖ = 1)
  (hB : ∀ s < L, ∀ i < 2 ^ (L - 1 - s), Near ρ (B s) bI (V' s i) (V s i)) (y' y : ℕ → ℂ) (A D : ℝ)
  (hA : ∑ p ∈ range (2 ^ L), ‖y p‖ ≤ A) (hD : ∑ p ∈ range (2 ^ L), ‖y' p - y p‖ ≤ D)
include hρ hV hB hA hD

theorem inv_err_aux (s : ℕ) (hs : s ≤ L) : ∀ r < 2 ^ s,
    ∑ j ∈ range (2 ^ (L - s)), ‖invAfter (fun _ => bI) V y s (2 ^ s * j + r)‖ ≤ A ∧
    ∑ j ∈ range (2 ^ (L - s)), ‖invAfter B V' y' s (2 ^ s * j + r) - invAfter (fun _ => bI) V y s (2 ^ s * j + r)‖ ≤
      (1 + ρ) ^ s * (A + D) - A := by
  induction s with
  | zero =>
    intro r hr
    obtain rfl : r = 0 := by simpa using hr
    simpa [invAfter] using ⟨hA, hD⟩
  | succ s ih =>
    intro r hr
    have hp : 0 < 2 ^ s := by positivity
    have e2 : 2 * 2 ^ (L - (s + 1)) = 2 ^ (L - s) := by rw [← pow_succ']; congr 1; omega
    have e1 : 2 ^ (s + 1) = 2 * 2 ^ s := by rw [pow_succ']
    have eL : L - (s + 1) = L - 1 - s := by omega
    obtain ⟨i1, i2⟩ := ih (by omega) (r % 2 ^ s) (Nat.mod_lt _ hp)
    have hV' := hV s (by omega)
    have hB' := hB s (by omega)
    rw [← eL] at hV' hB'
    have c1 := bI_class (V s) (2 ^ s) (2 ^ (L - (s + 1))) hV' (invAfter (fun _ => bI) V y s) r (by omega)
    have c2 := class_near ρ (B s) (V' s) (V s) (2 ^ s) (2 ^ (L - (s + 1))) hV' hB' (invAfter B V' y' s) (invAfter (fun _ => bI) V y s) r
      (by omega)
    rw [e2] at c1 c2
    rw [e1]
    refine ⟨c1.trans i1, c2.trans ?_⟩
    have c3 : ∑ j ∈ range (2 ^ (L - s)), ‖invAfter B V' y' s (2 ^ s * j + r % 2 ^ s)‖ ≤ (1 + ρ) ^ s * (A + D) := by
      have : ∀ j, ‖invAfter B V' y' s (2 ^ s * j + r % 2 ^ s)‖ ≤
          ‖invAfter B V' y' s (2 ^ s * j + r % 2 ^ s) - invAfter (fun _ => bI) V y s (2 ^ s * j + r % 2 ^ s)‖ +
          ‖invAfter (fun _ => bI) V y s (2 ^ s * j + r % 2 ^ s)‖ := fun j => by
        refine le_trans (le_of_eq ?_) (norm_add_le _ _); congr 1; ring
      refine (sum_le_sum fun j _ => this j).trans ?_
      rw [sum_add_distrib]; linarith
    have := mul_le_mul_of_nonneg_left c3 hρ
    calc _ ≤ (1 + ρ) ^ s * (A + D) - A + ρ * ((1 + ρ) ^ s * (A + D)) := add_le_add i2 this
      _ = _ := by rw [pow_succ]; ring

/-- All stages of the inverse transform. -/
theorem inv_err (p : ℕ) (hp : p < 2 ^ L) :
    ‖invAfter B V' y' L p - invAfter (fun _ => bI) V y L p‖ ≤ (1 + ρ) ^ L * (A + D) - A := by
  have := (inv_err_aux L ρ hρ B V' V hV hB y' y A D hA hD L le_rfl p hp).2
  simpa using this
end

end Tfhe.Fft
