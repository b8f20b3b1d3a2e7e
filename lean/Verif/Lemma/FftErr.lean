import Verif.Lemma.FftFloat
import Verif.Props.C46

/-!
# Rounding errors of the transforms and of the multiplications
-/
namespace Tfhe.Fft
open Tfhe Finset

/-! ### All stages of the inverse transform, for any butterfly -/

theorem invAfter_congr (B : ℕ → ℂ → ℂ → ℂ → ℂ × ℂ) (V V' : ℕ → ℕ → ℂ) (L : ℕ) (y y' : ℕ → ℂ) (h : ∀ p < 2 ^ L, y p = y' p)
    (hV : ∀ s < L, ∀ i < 2 ^ (L - 1 - s), V s i = V' s i) (s : ℕ) (hs : s ≤ L) :
    ∀ p < 2 ^ L, invAfter B V y s p = invAfter B V' y' s p := by
  induction s with
  | zero => exact h
  | succ s ih =>
    intro p hp
    have e : 2 * 2 ^ s * 2 ^ (L - 1 - s) = 2 ^ L := by rw [← pow_succ', ← pow_add]; congr 1; omega
    exact stg_congr _ _ _ _ (2 ^ (L - 1 - s)) _ _ (by rw [e]; exact ih (by omega)) (hV s (by omega)) p (by rw [e]; exact hp)

section InvWith
variable {B : ℝ → ℝ → ℝ → ℝ → ℝ → ℝ → ℝ × ℝ × ℝ × ℝ} {B' : ℂ → ℂ → ℂ → ℂ × ℂ} (hB : Rep B B')
  {B1 : ℝ → ℝ → ℝ → ℝ → ℝ → ℝ → ℝ × ℝ × ℝ × ℝ} {B1' : ℂ → ℂ → ℂ → ℂ × ℂ} (hB1 : Rep B1 B1') (l : ℕ)
  (twInv : ℕ → ℝ × ℝ) (y : ℕ → ℂ)

/-- The factors of the inverse transform, as the code reads them. -/
def invFactor (l : ℕ) (twInv : ℕ → ℝ × ℝ) (s i : ℕ) : ℂ := toC (twInv (2 ^ (l + 3) - 2 ^ (l + 3 - s) + i))

/-- The butterflies of the stages: the first one has its own. -/
def atStage (B1' B' : ℂ → ℂ → ℂ → ℂ × ℂ) : ℕ → ℂ → ℂ → ℂ → ℂ × ℂ
  | 0 => B1'
  | _ + 1 => B'

include hB
theorem invMid_gen (k : ℕ) : ∀ (fuel : ℕ) (x : ℕ → ℝ), k ≤ l → k ≤ fuel →
    (∀ p < 2 ^ (l + 3), view x p = invAfter (atStage B1' B') (invFactor l twInv) y (l + 2 - k) p) →
    (invMid B twInv fuel (2 ^ k) (2 ^ (l + 3 - k)) (x, 2 ^ (l + 3) - 2 ^ (k + 1))).2 = 2 ^ (l + 3) - 2 ∧
    ∀ p < 2 ^ (l + 3), view (invMid B twInv fuel (2 ^ k) (2 ^ (l + 3 - k)) (x, 2 ^ (l + 3) - 2 ^ (k + 1))).1 p =
      invAfter (atStage B1' B') (invFactor l twInv) y (l + 2) p := by
  induction k with
  | zero =>
    intro fuel x _ _ hx
    have : ∀ fuel, invMid B twInv fuel (2 ^ 0) (2 ^ (l + 3 - 0)) (x, 2 ^ (l + 3) - 2 ^ (0 + 1)) = (x, 2 ^ (l + 3) - 2 ^ (0 + 1)) := by
      intro fuel
      cases fuel with
      | zero => rfl
      | succ f => rw [invMid, if_neg (by norm_num)]
    rw [this]
    exact ⟨rfl, hx⟩
  | succ k ih =>
    intro fuel x hs hf hx
    obtain ⟨f, rfl⟩ : ∃ f, fuel = f + 1 := ⟨fuel - 1, by omega⟩
    rw [invMid, if_pos (by rw [pow_succ]; have : 0 < 2 ^ k := by positivity
                           omega)]
    have h4 : 2 ^ (l + 3 - 1 - (k + 1)) % 4 = 0 := by
      rw [show l + 3 - 1 - (k + 1) = (l - (k + 1)) + 2 by omega, pow_add]; omega
    have hst := view_bfStage hB twInv x (2 ^ (l + 3) - 2 ^ (k + 1 + 1)) (2 ^ (k + 1)) (2 ^ (l + 3 - 1 - (k + 1))) h4
      (by positivity)
    have e := two_h_m (l + 3) (k + 1) (by omega)
    have et : 2 ^ (l + 3 - (k + 1)) = 2 * 2 ^ (l + 3 - 1 - (k + 1)) := by
      rw [← pow_succ']; congr 1; omega
    rw [et]
    have hle : 2 ^ (k + 1 + 1) ≤ 2 ^ (l + 3) := Nat.pow_le_pow_right (by norm_num) (by omega)
    generalize bfStage B twInv (2 ^ (k + 1)) (2 * 2 ^ (l + 3 - 1 - (k + 1))) _ = S at hst ⊢
    obtain ⟨x1, k1⟩ := S
    obtain ⟨hk1, hx1⟩ := hst
    simp only at hk1 hx1
    have hk1' : k1 = 2 ^ (l + 3) - 2 ^ (k + 1) := by rw [hk1]; rw [pow_succ 2 (k + 1)] at hle ⊢; omega
    subst hk1'
    rw [pow_succ 2 k, Nat.mul_div_cancel _ (by norm_num), ← et, ← pow_succ, show l + 3 - (k + 1) + 1 = l + 3 - k by omega,
      ← pow_succ 2 k]
    refine ih f x1 (by omega) (by omega) fun p hp => ?_
    rw [hx1 p (by rw [e]; exact hp), show l + 2 - k = (l + 2 - (k + 1)) + 1 by omega, invAfter,
      show atStage B1' B' (l + 2 - (k + 1)) = B' by rw [show l + 2 - (k + 1) = (l - k) + 1 by omega]; rfl,
      show l + 3 - 1 - (k + 1) = l + 2 - (k + 1) by omega]
    rw [show l + 3 - 1 - (k + 1) = l + 2 - (k + 1) by omega] at e
    refine stg_congr _ _ _ _ (2 ^ (k + 1)) _ _ (by rw [e]; exact hx) (fun i hi => ?_) p (by rw [e]; exact hp)
    rw [invFactor, show l + 3 - (l + 2 - (k + 1)) = k + 1 + 1 by omega]

include hB1
/-- The inverse transform runs all the stages, then divides. -/
theorem view_invFFTStages (scale : ℝ → ℝ) (x : ℕ → ℝ) (hx : ∀ p < 2 ^ (l + 3), view x p = y p) :
    ∀ p < 2 ^ (l + 3), view (invFFTStages B B1 scale (2 ^ (l + 4)) x twInv) p =
      ⟨scale (invAfter (atStage B1' B') (invFactor l twInv) y (l + 3) p).re, scale (invAfter (atStage B1' B') (invFactor l twInv) y (l + 3) p).im⟩ := by
  intro p hp
  have e8 : 2 ^ (l + 4) = 8 * 2 ^ (l + 1) := by rw [pow_add, pow_add]; omega
  have hN2 : 2 ^ (l + 4) / 2 = 2 * 2 ^ (l + 2) := by rw [pow_add, pow_add]; omega
  have h16 : 2 ^ (l + 4) / 16 = 2 ^ l := by rw [pow_add]; norm_num
  have hpl : 2 ^ (l + 3) = 8 * 2 ^ l := by rw [pow_add]; omega
  have hpl1 : 2 ^ (l + 1) = 2 * 2 ^ l := by rw [pow_add]; omega
  have hpl2 : 2 ^ (l + 2) = 4 * 2 ^ l := by rw [pow_add]; omega
  have hpl4 : 2 ^ (l + 4) = 16 * 2 ^ l := by rw [pow_add]; omega
  have h1 := view_bfStage1 hB1 twInv x 0 (2 ^ (l + 1))
  unfold invFFTStages
  simp only
  rw [← e8] at h1
  generalize bfStage1 B1 twInv (2 ^ (l + 4)) (x, 0) = S at h1 ⊢
  obtain ⟨x1, k1⟩ := S
  obtain ⟨hk1, hx1⟩ := h1
  simp only [zero_add] at hk1 hx1
  have hx1' : ∀ p < 2 ^ (l + 3), view x1 p = invAfter (atStage B1' B') (invFactor l twInv) y 1 p := by
    intro p hp
    rw [hx1 p (by omega), invAfter, invAfter]
    exact stg_congr _ _ _ _ (2 ^ (l + 2)) _ _ (fun q hq => hx q (by omega)) (fun i hi => by
      rw [invFactor, Nat.sub_zero, Nat.sub_self, zero_add]) p (by omega)
  have h2 := view_bfStage2 hB twInv x1 k1 (2 ^ (l + 1))
  rw [← e8] at h2
  generalize bfStage2 B twInv (2 ^ (l + 4)) (x1, k1) = S at h2 ⊢
  obtain ⟨x2, k2⟩ := S
  obtain ⟨hk2, hx2⟩ := h2
  simp only at hk2 hx2
  have hx2' : ∀ p < 2 ^ (l + 3), view x2 p = invAfter (atStage B1' B') (invFactor l twInv) y 2 p := by
    intro p hp
    rw [hx2 p (by omega), show invAfter (atStage B1' B') (invFactor l twInv) y 2 =
      stg B' (invFactor l twInv 1) (2 ^ 1) (invAfter (atStage B1' B') (invFactor l twInv) y 1) from rfl]
    exact stg_congr _ _ _ _ (2 ^ (l + 1)) _ _ (fun q hq => hx1' q (by omega)) (fun i hi => by
      rw [invFactor, hk1, show l + 3 - 1 = l + 2 from rfl]; congr 2; omega) p (by omega)
  have hk2' : k2 = 2 ^ (l + 3) - 2 ^ (l + 1) := by omega
  subst hk2'
  rw [h16]
  have h3 := invMid_gen (B1' := B1') hB l twInv y l (2 ^ (l + 4)) x2 le_rfl (by
    have : l < 2 ^ l := Nat.lt_two_pow_self
    omega) (by rw [show l + 2 - l = 2 by omega]; exact hx2')
  rw [show l + 3 - l = 3 by omega, show 2 ^ 3 = 8 from rfl] at h3
  generalize invMid B twInv (2 ^ (l + 4)) (2 ^ l) 8 _ = S at h3 ⊢
  obtain ⟨x3, k3⟩ := S
  obtain ⟨hk3, hx3⟩ := h3
  simp only at hk3 hx3 ⊢
  have hlast : view (bfRow B x3 0 (2 ^ (l + 4) / 2) (twInv k3)) p = invAfter (atStage B1' B') (invFactor l twInv) y (l + 3) p := by
    rw [hN2, view_bfRow0 hB x3 _ (by omega) (by positivity) _ p (by omega), invAfter]
    exact stg_congr _ _ _ _ 1 _ _ (fun q hq => hx3 q (by omega)) (fun i hi => by
      obtain rfl : i = 0 := by omega
      rw [invFactor, hk3, show l + 3 - (l + 2) = 1 by omega]; rfl) p (by omega)
  rw [← hlast]
  have hp4 : pos p + 4 < 2 ^ (l + 4) := by unfold pos; omega
  apply Complex.ext
  · show (if pos p < _ then _ else _) = _
    rw [if_pos (by omega)]; rfl
  · show (if pos p + 4 < _ then _ else _) = _
    rw [if_pos hp4]; rfl
end InvWith

/-- The exact inverse stages undo the exact forward ones. -/
theorem invAfter_after (L : ℕ) (W : ℕ → ℕ → ℂ) (hW : ∀ s < L, ∀ i < 2 ^ s, W s i ≠ 0) (z : ℕ → ℂ) (s : ℕ) (hs : s ≤ L) :
    ∀ p < 2 ^ L, invAfter (fun _ => bI) (fun s i => (W (L - 1 - s) i)⁻¹) (after bF L W z L) s p = 2 ^ s * after bF L W z (L - s) p := by
  induction s with
  | zero => intro p _; simp [invAfter]
  | succ s ih =>
    intro p hp
    have e : 2 * 2 ^ s * 2 ^ (L - 1 - s) = 2 ^ L := by rw [← pow_succ', ← pow_add]; congr 1; omega
    rw [invAfter, stg_inv (W (L - 1 - s)) (2 ^ s) (2 ^ (L - 1 - s)) (after bF L W z (L - (s + 1))) _ (2 ^ s)
      (hW (L - 1 - s) (by omega)) (by
        rw [e]
        intro q hq
        rw [ih (by omega) q hq, show L - s = (L - (s + 1)) + 1 by omega, after,
          show L - 1 - (L - (s + 1)) = s by omega, show L - (s + 1) = L - 1 - s by omega]) p (by rw [e]; exact hp)]
    rw [pow_succ]; ring

/-! ### The forward transform -/

section Fwd
variable (L : ℕ) (ρ : ℝ) (hρ : 0 ≤ ρ) (B : ℂ → ℂ → ℂ → ℂ × ℂ) (W' W : ℕ → ℕ → ℂ) (hW : ∀ s < L, ∀ i < 2 ^ s, ‖W s i‖ = 1)
  (hB : ∀ s < L, ∀ i < 2 ^ s, Near ρ B bF (W' s i) (W s i)) (z' z : ℕ → ℂ) (X E : ℝ)
  (hX : n2 (2 ^ L) z ≤ X) (hE : n2 (2 ^ L) (fun p => z' p - z p) ≤ E)
include hW

theorem n2_after (s : ℕ) (hs : s ≤ L) : n2 (2 ^ L) (after bF L W z s) = √2 ^ s * n2 (2 ^ L) z := by
  induction s with
  | zero => simp [after]
  | succ s ih =>
    have e := two_h_m L s (by omega)
    have := n2_stg (W s) (2 ^ (L - 1 - s)) (2 ^ s) (hW s (by omega)) (after bF L W z s)
    rw [e] at this
    rw [after, this, ih (by omega), pow_succ]; ring

include hρ hX hE
theorem fwd_err_step (B1 : ℂ → ℂ → ℂ → ℂ × ℂ) (s : ℕ) (hs : s < L) (hB1 : ∀ i < 2 ^ s, Near ρ B1 bF (W' s i) (W s i))
    (ih : n2 (2 ^ L) (fun p => after B L W' z' s p - after bF L W z s p) ≤ √2 ^ s * ((1 + 2 * ρ) ^ s * (X + E) - X)) :
    n2 (2 ^ L) (fun p => stg B1 (W' s) (2 ^ (L - 1 - s)) (after B L W' z' s) p - after bF L W z (s + 1) p) ≤
      √2 ^ (s + 1) * ((1 + 2 * ρ) ^ (s + 1) * (X + E) - X) := by
  have hE0 : 0 ≤ E := (n2_nonneg _ _).trans hE
  have hX0 : 0 ≤ X := (n2_nonneg _ _).trans hX
  have e := two_h_m L s (by omega)
  have h1 := n2_stg_err ρ hρ B1 (W' s) (W s) (2 ^ (L - 1 - s)) (2 ^ s) (hW s (by omega)) hB1
    (after B L W' z' s) (after bF L W z s)
  rw [e] at h1
  have h2 : n2 (2 ^ L) (after B L W' z' s) ≤ √2 ^ s * ((1 + 2 * ρ) ^ s * (X + E)) := by
    have h3 := n2_add_le (2 ^ L) (fun p => after B L W' z' s p - after bF L W z s p) (after bF L W z s)
    simp only [sub_add_cancel] at h3
    rw [n2_after L W hW z s (by omega)] at h3
    have h4 : √2 ^ s * n2 (2 ^ L) z ≤ √2 ^ s * X := mul_le_mul_of_nonneg_left hX (by positivity)
    calc _ ≤ _ := h3
      _ ≤ √2 ^ s * ((1 + 2 * ρ) ^ s * (X + E) - X) + √2 ^ s * X := add_le_add ih h4
      _ = _ := by ring
  have hs2 : 1 ≤ √2 := by rw [Real.one_le_sqrt]; norm_num
  have h5 : 2 * ρ * n2 (2 ^ L) (after B L W' z' s) ≤ √2 * (2 * ρ * (√2 ^ s * ((1 + 2 * ρ) ^ s * (X + E)))) := by
    calc _ ≤ 2 * ρ * (√2 ^ s * ((1 + 2 * ρ) ^ s * (X + E))) := mul_le_mul_of_nonneg_left h2 (by positivity)
      _ ≤ _ := le_mul_of_one_le_left (by positivity) hs2
  have h6 : √2 * n2 (2 ^ L) (fun p => after B L W' z' s p - after bF L W z s p) ≤
      √2 * (√2 ^ s * ((1 + 2 * ρ) ^ s * (X + E) - X)) := mul_le_mul_of_nonneg_left ih (by positivity)
  show n2 (2 ^ L) (fun p => stg B1 (W' s) (2 ^ (L - 1 - s)) (after B L W' z' s) p -
    stg bF (W s) (2 ^ (L - 1 - s)) (after bF L W z s) p) ≤ _
  calc _ ≤ _ := h1
    _ ≤ _ := add_le_add h6 h5
    _ = _ := by rw [pow_succ √2, pow_succ (1 + 2 * ρ)]; ring

include hB
theorem fwd_err (s : ℕ) (hs : s ≤ L) :
    n2 (2 ^ L) (fun p => after B L W' z' s p - after bF L W z s p) ≤ √2 ^ s * ((1 + 2 * ρ) ^ s * (X + E) - X) := by
  have hE0 : 0 ≤ E := (n2_nonneg _ _).trans hE
  have hX0 : 0 ≤ X := (n2_nonneg _ _).trans hX
  induction s with
  | zero => simpa [after] using hE
  | succ s ih =>
    exact fwd_err_step L ρ hρ B W' W hW z' z X E hX hE B s (by omega) (hB s (by omega)) (ih (by omega))
end Fwd

/-! ### Transforms and products of polynomials -/

/-- The exact transform of a polynomial. -/
noncomputable def ev (l : ℕ) (P : Poly (2 ^ (l + 4)) ℝ) (j : ℕ) : ℂ := evalAt (fftPoint (l + 4) j) P

theorem ev_add (l : ℕ) (P Q : Poly (2 ^ (l + 4)) ℝ) (j : ℕ) : ev l (P + Q) j = ev l P j + ev l Q j := by
  unfold ev; rw [← evalHom_apply _ (point_pow_N l j), map_add, evalHom_apply, evalHom_apply]
theorem ev_mul (l : ℕ) (P Q : Poly (2 ^ (l + 4)) ℝ) (j : ℕ) : ev l (P * Q) j = ev l P j * ev l Q j := by
  unfold ev; rw [← evalHom_apply _ (point_pow_N l j), map_mul, evalHom_apply, evalHom_apply]
theorem ev_zero (l j : ℕ) : ev l 0 j = 0 := by
  unfold ev; rw [← evalHom_apply _ (point_pow_N l j), map_zero]

/-- The coefficients in pairs. -/
noncomputable def folded (l : ℕ) (P : Poly (2 ^ (l + 4)) ℝ) (a : ℕ) : ℂ := ⟨P.slice a, P.slice (a + 2 ^ (l + 3))⟩

theorem ev_eq_after (l : ℕ) (P : Poly (2 ^ (l + 4)) ℝ) (j : ℕ) (hj : j < 2 ^ (l + 3)) :
    ev l P j = after bF (l + 3) WW (folded l P) (l + 3) j := (after_eval _ _ (fun _ _ => rfl) j hj).symm

/-- `fp` is the transform of `P`, with size `X` and relative error `Φ - 1` in the Euclidean norm. -/
def Near2 (l : ℕ) (fp : ℕ → ℝ) (P : Poly (2 ^ (l + 4)) ℝ) (X Φ : ℝ) : Prop :=
  n2 (2 ^ (l + 3)) (ev l P) ≤ √2 ^ (l + 3) * X ∧ n2 (2 ^ (l + 3)) (fun j => view fp j - ev l P j) ≤ √2 ^ (l + 3) * ((Φ - 1) * X)

/-- `fp` is the transform of `P`, with size `Λ` and relative error `Ψ - 1` in the sum norm. -/
def Near1 (l : ℕ) (fp : ℕ → ℝ) (P : Poly (2 ^ (l + 4)) ℝ) (Λ Ψ : ℝ) : Prop :=
  ∑ j ∈ range (2 ^ (l + 3)), ‖ev l P j‖ ≤ 2 ^ (l + 3) * Λ ∧
  ∑ j ∈ range (2 ^ (l + 3)), ‖view fp j - ev l P j‖ ≤ 2 ^ (l + 3) * ((Ψ - 1) * Λ)

theorem Near1.mono {l : ℕ} {fp : ℕ → ℝ} {P : Poly (2 ^ (l + 4)) ℝ} {Λ Λ' Ψ Ψ' : ℝ} (h : Near1 l fp P Λ Ψ) (h0 : 0 ≤ Λ)
    (h1 : Λ ≤ Λ') (h2 : 1 ≤ Ψ) (h3 : Ψ ≤ Ψ') : Near1 l fp P Λ' Ψ' := by
  have hp : (0 : ℝ) ≤ 2 ^ (l + 3) := by positivity
  exact ⟨h.1.trans (mul_le_mul_of_nonneg_left h1 hp),
    h.2.trans (mul_le_mul_of_nonneg_left (mul_le_mul (by linarith) h1 h0 (by linarith)) hp)⟩

theorem sqrt2_sq (n : ℕ) : √2 ^ n * √2 ^ n = (2 : ℝ) ^ n := by
  rw [← mul_pow, Real.mul_self_sqrt (by norm_num)]

section
variable {l : ℕ} {A : Arith} {u : ℝ} (hA : A.Ok u) (hu : 0 ≤ u)

theorem n2_folded (P : Poly (2 ^ (l + 4)) ℝ) (B : ℝ) (hB : ∀ i, |P i| ≤ B) : n2 (2 ^ (l + 3)) (folded l P) ≤ √2 ^ (l + 4) * B := by
  have hB0 : 0 ≤ B := (abs_nonneg _).trans (hB 0)
  apply n2_le (by positivity)
  have h1 : ∀ a ∈ range (2 ^ (l + 3)), ‖folded l P a‖ ^ 2 ≤ 2 * B ^ 2 := by
    intro a ha
    have ha := mem_range.1 ha
    have hpl : 2 ^ (l + 4) = 2 * 2 ^ (l + 3) := by rw [pow_succ]; ring
    rw [Complex.sq_norm, Complex.normSq_apply, folded]
    simp only
    rw [slice_lt P a (by omega), slice_lt P (a + 2 ^ (l + 3)) (by omega)]
    have e1 := mul_self_le_mul_self (abs_nonneg _) (hB ⟨a, by omega⟩)
    have e2 := mul_self_le_mul_self (abs_nonneg _) (hB ⟨a + 2 ^ (l + 3), by omega⟩)
    rw [abs_mul_abs_self] at e1 e2
    nlinarith
  refine (sum_le_sum h1).trans (le_of_eq ?_)
  rw [sum_const, card_range, nsmul_eq_mul, mul_pow, pow_two (√2 ^ (l + 4)), sqrt2_sq, pow_succ (2 : ℝ) (l + 3)]
  push_cast; ring

section Transforms
variable {ρ τ : ℝ} {e : Eval ℝ} (he : GoodFl τ l e) (hτ : 0 ≤ τ) (hρ : u + (1 + u) * (6 * u * (1 + τ) + τ) ≤ ρ)
include hA hu he hτ hρ

theorem fwd_near2 {w : ℕ} (out : ℕ → ℝ) (p : Poly (2 ^ (l + 4)) (BitVec w)) (B : ℝ) (hB : ∀ i, |((p i).toInt : ℝ)| ≤ B) :
    Near2 l (fwdFFTFl A e out p.slice) p.signed (√2 ^ (l + 4) * B) ((1 + 2 * ρ) ^ (l + 3) * (1 + u)) := by
  have hρ0 : 0 ≤ ρ := le_trans (by positivity) hρ
  have hX := n2_folded p.signed B hB
  set X := √2 ^ (l + 4) * B with hXdef
  -- the coefficients that are loaded
  have hE : n2 (2 ^ (l + 3)) (fun a => view (foldPolyWith A.conv e.rank out p.slice) a - folded l p.signed a) ≤ u * X := by
    refine le_trans (n2_le (c := u * n2 (2 ^ (l + 3)) (folded l p.signed)) (mul_nonneg hu (n2_nonneg _ _)) ?_)
      (mul_le_mul_of_nonneg_left hX hu)
    rw [mul_pow, n2_sq, mul_sum]
    refine sum_le_sum fun a ha => ?_
    have ha := mem_range.1 ha
    rw [← mul_pow]
    refine pow_le_pow_left₀ (norm_nonneg _) ?_ 2
    have hpl : 2 ^ (l + 4) = 2 * 2 ^ (l + 3) := by rw [pow_succ]; ring
    have e8 : 2 ^ (l + 4) = 8 * 2 ^ (l + 1) := by rw [pow_add, pow_add]; omega
    have e4 : 2 ^ (l + 3) = 2 ^ (l + 1) * 4 := by rw [pow_add, pow_add]; omega
    have hhalf : 2 ^ (l + 4) / 2 = 2 ^ (l + 3) := by omega
    unfold foldPolyWith
    rw [he.rank, hhalf, view_setAll _ _ e8, if_pos (by omega)]
    unfold folded
    rw [slice_lt _ a (by omega), slice_lt _ (a + 2 ^ (l + 3)) (by omega), slice_lt _ a (by omega),
      slice_lt _ (a + 2 ^ (l + 3)) (by omega)]
    exact norm_le_of_comp hu _ _ (hA.conv _) (hA.conv _)
  -- the stages
  have h1 := view_fwdFFTStages l (fun s i => toC (e.tw (2 ^ s - 1 + i))) (repr_fwdFl A) e.tw (fun _ _ _ _ => rfl)
    (view (foldPolyWith A.conv e.rank out p.slice)) (repr_fwdFl A.atNear) (foldPolyWith A.conv e.rank out p.slice) (fun _ _ => rfl)
  have h3 := fwd_err (l + 3) ρ hρ0 (bFFl A) (fun s i => toC (e.tw (2 ^ s - 1 + i))) WW (fun s _ i _ => norm_WW s i)
    (fun s hs i hi => near_fwd hA hu τ ρ _ _ (norm_WW s i) (he.tw s hs i hi) (by linarith))
    (view (foldPolyWith A.conv e.rank out p.slice)) (folded l p.signed) X (u * X) hX hE (l + 2) (by omega)
  have h2 := fwd_err_step (l + 3) ρ hρ0 (bFFl A) (fun s i => toC (e.tw (2 ^ s - 1 + i))) WW (fun s _ i _ => norm_WW s i)
    (view (foldPolyWith A.conv e.rank out p.slice)) (folded l p.signed) X (u * X) hX hE (bFFl A.atNear) (l + 2) (by omega)
    (fun i hi => near_fwd hA.atNear hu τ ρ _ _ (norm_WW (l + 2) i) (he.tw (l + 2) (by omega) i hi) (by linarith)) h3
  rw [show l + 3 - 1 - (l + 2) = 0 by omega] at h2
  refine ⟨?_, ?_⟩
  · rw [n2_congr (ev_eq_after l p.signed), n2_after (l + 3) WW (fun s _ i _ => norm_WW s i) _ (l + 3) le_rfl]
    exact mul_le_mul_of_nonneg_left hX (by positivity)
  · refine le_trans (le_of_eq (n2_congr fun j hj => ?_)) (h2.trans (le_of_eq (by ring)))
    rw [ev_eq_after l p.signed j hj]
    congr 1
    rw [← h1 j hj]
    unfold fwdFFTFl
    congr 2
    exact he.rank

/-- The inverse transform. -/
theorem inv_near (fp : ℕ → ℝ) (P : Poly (2 ^ (l + 4)) ℝ) (Λ Ψ : ℝ) (h : Near1 l fp P Λ Ψ) (a : ℕ) (ha : a < 2 ^ (l + 3)) :
    ‖folded l P a‖ ≤ Λ ∧
    ‖view (invFFTInPlaceFl A e.rank fp e.twInv) a - folded l P a‖ ≤ ((1 + u) * (1 + ρ) ^ (l + 3) * Ψ - 1) * Λ := by
  have hρ0 : 0 ≤ ρ := le_trans (by positivity) hρ
  have hM : (0 : ℝ) < 2 ^ (l + 3) := by positivity
  set V : ℕ → ℕ → ℂ := fun s i => (WW (l + 3 - 1 - s) i)⁻¹ with hV
  have hVn : ∀ s < l + 3, ∀ i < 2 ^ (l + 3 - 1 - s), ‖V s i‖ = 1 := fun s _ i _ => norm_WW_inv _ _
  have hfac : ∀ s < l + 3, ∀ i < 2 ^ (l + 3 - 1 - s), ‖invFactor l e.twInv s i - V s i‖ ≤ τ := by
    intro s hs i hi
    have := he.twInv (l + 3 - 1 - s) (by omega) i hi
    rwa [show l + 3 - 1 - s + 1 = l + 3 - s by omega] at this
  have hB : ∀ s < l + 3, ∀ i < 2 ^ (l + 3 - 1 - s), Near ρ (atStage (bIFl A.atNear) (bIFl A) s) bI
      (invFactor l e.twInv s i) (V s i) := by
    intro s hs i hi
    cases s with
    | zero => exact near_inv hA.atNear hu τ ρ _ _ (hVn 0 hs i hi) (hfac 0 hs i hi) hρ
    | succ s => exact near_inv hA hu τ ρ _ _ (hVn (s + 1) hs i hi) (hfac (s + 1) hs i hi) hρ
  have hex : invAfter (fun _ => bI) V (ev l P) (l + 3) a = 2 ^ (l + 3) * folded l P a := by
    rw [invAfter_congr (fun _ => bI) V V (l + 3) (ev l P) (after bF (l + 3) WW (folded l P) (l + 3)) (ev_eq_after l P)
      (fun _ _ _ _ => rfl) (l + 3) le_rfl a ha, invAfter_after (l + 3) WW (fun s _ i _ => WW_ne s i) _ (l + 3) le_rfl a ha,
      Nat.sub_self]; rfl
  have h1 := (inv_err_aux (l + 3) ρ hρ0 (atStage (bIFl A.atNear) (bIFl A)) (invFactor l e.twInv) V hVn hB (view fp) (ev l P) _ _ h.1 h.2 (l + 3) le_rfl
    a ha)
  simp only [Nat.sub_self, pow_zero, range_one, sum_singleton, mul_zero, zero_add] at h1
  rw [hex] at h1
  obtain ⟨h1, h2⟩ := h1
  have hn : ‖(2 : ℂ) ^ (l + 3) * folded l P a‖ = 2 ^ (l + 3) * ‖folded l P a‖ := by
    rw [norm_mul, norm_pow, Complex.norm_ofNat]
  rw [hn] at h1
  have hb1 : ‖folded l P a‖ ≤ Λ := le_of_mul_le_mul_left h1 hM
  refine ⟨hb1, ?_⟩
  have h3 := view_invFFTStages (repr_invFl A) (repr_invFl A.atNear) l e.twInv (view fp) (fun y => A.div y ((2 ^ (l + 4) / 2 : ℕ) : ℝ)) fp
    (fun _ _ => rfl) a ha
  unfold invFFTInPlaceFl
  rw [he.rank, h3]
  set r := invAfter (atStage (bIFl A.atNear) (bIFl A)) (invFactor l e.twInv) (view fp) (l + 3) a with hr
  have hsc : ((2 ^ (l + 4) / 2 : ℕ) : ℝ) = 2 ^ (l + 3) := by
    rw [show 2 ^ (l + 4) / 2 = 2 ^ (l + 3) by rw [pow_succ 2 (l + 3)]; omega]; push_cast; rfl
  rw [hsc]
  set R : ℂ := ⟨r.re / 2 ^ (l + 3), r.im / 2 ^ (l + 3)⟩ with hR
  have hRr : (2 : ℂ) ^ (l + 3) * R = r := by
    have h2c : (2 ^ (l + 3) : ℂ) = ((2 ^ (l + 3) : ℝ) : ℂ) := by push_cast; rfl
    rw [h2c]
    apply Complex.ext
    · rw [Complex.re_ofReal_mul, hR]; field_simp
    · rw [Complex.im_ofReal_mul, hR]; field_simp
  have h4 : ‖(⟨A.div r.re (2 ^ (l + 3)), A.div r.im (2 ^ (l + 3))⟩ : ℂ) - R‖ ≤ u * ‖R‖ :=
    norm_le_of_comp hu _ _ (hA.div _ _) (hA.div _ _)
  have h5 : ‖R - folded l P a‖ ≤ (1 + ρ) ^ (l + 3) * Ψ * Λ - Λ := by
    have e : r - 2 ^ (l + 3) * folded l P a = 2 ^ (l + 3) * (R - folded l P a) := by rw [← hRr]; ring
    rw [e, norm_mul, norm_pow, Complex.norm_ofNat] at h2
    refine le_of_mul_le_mul_left (h2.trans (le_of_eq ?_)) hM
    ring
  have h6 : ‖R‖ ≤ (1 + ρ) ^ (l + 3) * Ψ * Λ := by
    have := norm_add_le (R - folded l P a) (folded l P a)
    rw [sub_add_cancel] at this; linarith
  have h7 := norm_sub_le_norm_sub_add_norm_sub (⟨A.div r.re (2 ^ (l + 3)), A.div r.im (2 ^ (l + 3))⟩ : ℂ) R (folded l P a)
  have h8 := mul_le_mul_of_nonneg_left h6 hu
  calc _ ≤ _ := h7
    _ ≤ u * ((1 + ρ) ^ (l + 3) * Ψ * Λ) + ((1 + ρ) ^ (l + 3) * Ψ * Λ - Λ) := add_le_add (h4.trans h8) h5
    _ = _ := by ring
end Transforms

include hu

/-- The product of two transforms, and the error of a product. -/
theorem mul_near0 (m : Mem ℝ) (v0 v1 : ℕ) (P Q : Poly (2 ^ (l + 4)) ℝ) (X Y Φ Φ' : ℝ) (hX : 0 ≤ X)
    (hΦ : 1 ≤ Φ) (h0 : Near2 l (m v0) P X Φ) (h1 : Near2 l (m v1) Q Y Φ') :
    ∑ j ∈ range (2 ^ (l + 3)), ‖ev l (P * Q) j‖ ≤ 2 ^ (l + 3) * (X * Y) ∧
    ∑ j ∈ range (2 ^ (l + 3)), (6 * u * (‖view (m v0) j‖ * ‖view (m v1) j‖) + ‖view (m v0) j * view (m v1) j - ev l (P * Q) j‖) ≤
      2 ^ (l + 3) * (((1 + 6 * u) * (Φ * Φ') - 1) * (X * Y)) := by
  have hs : (0 : ℝ) ≤ √2 ^ (l + 3) := by positivity
  have hpx : n2 (2 ^ (l + 3)) (view (m v0)) ≤ √2 ^ (l + 3) * (Φ * X) := by
    have := n2_add_le (2 ^ (l + 3)) (fun j => view (m v0) j - ev l P j) (ev l P)
    simp only [sub_add_cancel] at this
    calc _ ≤ _ := this
      _ ≤ _ := add_le_add h0.2 h0.1
      _ = _ := by ring
  have hpy : n2 (2 ^ (l + 3)) (view (m v1)) ≤ √2 ^ (l + 3) * (Φ' * Y) := by
    have := n2_add_le (2 ^ (l + 3)) (fun j => view (m v1) j - ev l Q j) (ev l Q)
    simp only [sub_add_cancel] at this
    calc _ ≤ _ := this
      _ ≤ _ := add_le_add h1.2 h1.1
      _ = _ := by ring
  have prod : ∀ (f g : ℕ → ℂ) (a b : ℝ), 0 ≤ a → n2 (2 ^ (l + 3)) f ≤ √2 ^ (l + 3) * a → n2 (2 ^ (l + 3)) g ≤ √2 ^ (l + 3) * b →
      ∑ j ∈ range (2 ^ (l + 3)), ‖f j‖ * ‖g j‖ ≤ 2 ^ (l + 3) * (a * b) := by
    intro f g a b ha hf hg
    calc _ ≤ _ := sum_mul_le_n2 _ f g
      _ ≤ (√2 ^ (l + 3) * a) * (√2 ^ (l + 3) * b) := mul_le_mul hf hg (n2_nonneg _ _) (by positivity)
      _ = _ := by rw [← sqrt2_sq]; ring
  refine ⟨?_, ?_⟩
  · refine le_trans (le_of_eq (sum_congr rfl fun j _ => ?_)) (prod _ _ _ _ hX h0.1 h1.1)
    rw [ev_mul, norm_mul]
  · have p1 := prod _ _ _ _ (by positivity) hpx hpy
    have p2 := prod _ _ _ _ (mul_nonneg (by linarith) hX) h0.2 hpy
    have p3 := prod _ _ _ _ hX h0.1 h1.2
    have hterm : ∀ j ∈ range (2 ^ (l + 3)),
        6 * u * (‖view (m v0) j‖ * ‖view (m v1) j‖) + ‖view (m v0) j * view (m v1) j - ev l (P * Q) j‖ ≤
        6 * u * (‖view (m v0) j‖ * ‖view (m v1) j‖) + (‖view (m v0) j - ev l P j‖ * ‖view (m v1) j‖ +
          ‖ev l P j‖ * ‖view (m v1) j - ev l Q j‖) := by
      intro j hj
      rw [ev_mul]
      refine add_le_add le_rfl ?_
      rw [← norm_mul, ← norm_mul]
      refine le_trans (le_of_eq ?_) (norm_add_le _ _)
      congr 1; ring
    refine (sum_le_sum hterm).trans ?_
    rw [sum_add_distrib, sum_add_distrib, ← mul_sum]
    have p1' := mul_le_mul_of_nonneg_left p1 (show 0 ≤ 6 * u by positivity)
    calc _ ≤ _ := add_le_add p1' (add_le_add p2 p3)
      _ = _ := by ring

include hA
/-- The product of two transforms. -/
theorem mul_near1 (m : Mem ℝ) (v0 v1 : ℕ) (P Q : Poly (2 ^ (l + 4)) ℝ) (X Y Φ Φ' : ℝ) (hX : 0 ≤ X)
    (hΦ : 1 ≤ Φ) (h0 : Near2 l (m v0) P X Φ) (h1 : Near2 l (m v1) Q Y Φ') (x : ℕ → ℂ)
    (hx : ∀ j < 2 ^ (l + 3), x j = cmFl A (view (m v0) j) (view (m v1) j)) :
    ∑ j ∈ range (2 ^ (l + 3)), ‖ev l (P * Q) j‖ ≤ 2 ^ (l + 3) * (X * Y) ∧
    ∑ j ∈ range (2 ^ (l + 3)), ‖x j - ev l (P * Q) j‖ ≤ 2 ^ (l + 3) * (((1 + 6 * u) * (Φ * Φ') - 1) * (X * Y)) := by
  obtain ⟨a1, a2⟩ := mul_near0 hu m v0 v1 P Q X Y Φ Φ' hX hΦ h0 h1
  refine ⟨a1, (sum_le_sum fun j hj => ?_).trans a2⟩
  rw [hx j (mem_range.1 hj)]
  have c1 := cm_err hA hu (view (m v0) j) (view (m v1) j)
  have c2 := norm_sub_le_norm_sub_add_norm_sub (cmFl A (view (m v0) j) (view (m v1) j)) (view (m v0) j * view (m v1) j)
    (ev l (P * Q) j)
  linarith

theorem mul_near (m : Mem ℝ) (out v0 v1 : ℕ) (P Q : Poly (2 ^ (l + 4)) ℝ) (X Y Φ Φ' : ℝ) (hX : 0 ≤ X)
    (hΦ : 1 ≤ Φ) (h0 : Near2 l (m v0) P X Φ) (h1 : Near2 l (m v1) Q Y Φ') :
    Near1 l (mulCmplxFl A m out v0 v1 (2 ^ (l + 4)) out) (P * Q) (X * Y) ((1 + 6 * u) * (Φ * Φ')) := by
  have e4 : 2 ^ (l + 3) = 2 ^ (l + 1) * 4 := by rw [pow_add, pow_add]; omega
  refine mul_near1 hA hu m v0 v1 P Q X Y Φ Φ' hX hΦ h0 h1 _ fun j hj => ?_
  rw [mulCmplxFl, cmplxLoop_spec _ _ _ _ _ _ (eight_mul l), if_pos ⟨rfl, by omega⟩]
  rfl

/-- Adding a product of two transforms. -/
theorem mulAdd_near (m : Mem ℝ) (out v0 v1 : ℕ) (S P Q : Poly (2 ^ (l + 4)) ℝ) (X Y Φ Φ' Λ Ψ0 Ψ : ℝ) (hX : 0 ≤ X) (hY : 0 ≤ Y)
    (hΛ : 0 ≤ Λ) (hΦ : 1 ≤ Φ) (h0 : Near2 l (m v0) P X Φ) (h1 : Near2 l (m v1) Q Y Φ') (hS : Near1 l (m out) S Λ Ψ0)
    (hΨ0 : Ψ0 ≤ Ψ) (hΨ : (1 + 6 * u) * (Φ * Φ') ≤ Ψ) :
    Near1 l (mulAddCmplxFl A m out v0 v1 (2 ^ (l + 4)) out) (S + P * Q) (Λ + X * Y) ((1 + 3 * u) * Ψ) := by
  have e4 : 2 ^ (l + 3) = 2 ^ (l + 1) * 4 := by rw [pow_add, pow_add]; omega
  have hM : (0 : ℝ) ≤ 2 ^ (l + 3) := by positivity
  obtain ⟨a1, a2⟩ := mul_near0 hu m v0 v1 P Q X Y Φ Φ' hX hΦ h0 h1
  refine ⟨?_, ?_⟩
  · have : ∀ j ∈ range (2 ^ (l + 3)), ‖ev l (S + P * Q) j‖ ≤ ‖ev l S j‖ + ‖ev l (P * Q) j‖ := fun j _ => by
      rw [ev_add]; exact norm_add_le _ _
    refine (sum_le_sum this).trans ?_
    rw [sum_add_distrib, mul_add]
    exact add_le_add hS.1 a1
  · have hterm : ∀ j ∈ range (2 ^ (l + 3)),
        ‖view (mulAddCmplxFl A m out v0 v1 (2 ^ (l + 4)) out) j - ev l (S + P * Q) j‖ ≤
        (1 + 3 * u) * (‖view (m out) j - ev l S j‖ + (6 * u * (‖view (m v0) j‖ * ‖view (m v1) j‖) +
          ‖view (m v0) j * view (m v1) j - ev l (P * Q) j‖)) + 3 * u * (‖ev l S j‖ + ‖ev l (P * Q) j‖) := by
      intro j hj
      have hj := mem_range.1 hj
      have e : view (mulAddCmplxFl A m out v0 v1 (2 ^ (l + 4)) out) j =
          caccFl A 1 (view (m out) j) (view (m v0) j) (view (m v1) j) := by
        rw [mulAddCmplxFl, cmplxLoop_spec _ _ _ _ _ _ (eight_mul l), if_pos ⟨rfl, by omega⟩]; rfl
      rw [e, ev_add]
      have c1 := cacc_err hA hu 1 (by norm_num) (view (m out) j) (view (m v0) j) (view (m v1) j)
      rw [Complex.ofReal_one, one_mul] at c1
      set xy := view (m v0) j * view (m v1) j with hxy
      have hn : 0 ≤ ‖view (m v0) j‖ * ‖view (m v1) j‖ := by positivity
      have c2 : ‖view (m out) j + xy‖ ≤ (‖view (m out) j - ev l S j‖ + ‖xy - ev l (P * Q) j‖) + (‖ev l S j‖ + ‖ev l (P * Q) j‖) := by
        rw [show view (m out) j + xy = ((view (m out) j - ev l S j) + (xy - ev l (P * Q) j)) + (ev l S j + ev l (P * Q) j) by ring]
        exact (norm_add_le _ _).trans (add_le_add (norm_add_le _ _) (norm_add_le _ _))
      set c := caccFl A 1 (view (m out) j) (view (m v0) j) (view (m v1) j) with hc
      have c3 : ‖c - (ev l S j + ev l (P * Q) j)‖ ≤
          ‖c - (view (m out) j + xy)‖ + (‖view (m out) j - ev l S j‖ + ‖xy - ev l (P * Q) j‖) := by
        rw [show c - (ev l S j + ev l (P * Q) j) =
          (c - (view (m out) j + xy)) + ((view (m out) j - ev l S j) + (xy - ev l (P * Q) j)) by ring]
        exact (norm_add_le _ _).trans (add_le_add le_rfl (norm_add_le _ _))
      have c4 := mul_le_mul_of_nonneg_left c2 (show 0 ≤ 3 * u by positivity)
      nlinarith [mul_nonneg hu (mul_nonneg hu hn)]
    refine (sum_le_sum hterm).trans ?_
    rw [sum_add_distrib, ← mul_sum, ← mul_sum, sum_add_distrib, sum_add_distrib (f := fun j => ‖ev l S j‖)]
    have q1 := mul_le_mul_of_nonneg_left (add_le_add hS.2 a2) (show 0 ≤ 1 + 3 * u by positivity)
    have q2 := mul_le_mul_of_nonneg_left (add_le_add hS.1 a1) (show 0 ≤ 3 * u by positivity)
    have q3 : Ψ0 * Λ ≤ Ψ * Λ := mul_le_mul_of_nonneg_right hΨ0 hΛ
    have q4 : (1 + 6 * u) * (Φ * Φ') * (X * Y) ≤ Ψ * (X * Y) := mul_le_mul_of_nonneg_right hΨ (by positivity)
    calc _ ≤ _ := add_le_add q1 q2
      _ = 2 ^ (l + 3) * ((1 + 3 * u) * (Ψ0 * Λ + (1 + 6 * u) * (Φ * Φ') * (X * Y)) - (Λ + X * Y)) := by ring
      _ ≤ 2 ^ (l + 3) * ((1 + 3 * u) * (Ψ * Λ + Ψ * (X * Y)) - (Λ + X * Y)) := by
          refine mul_le_mul_of_nonneg_left ?_ hM
          nlinarith [mul_le_mul_of_nonneg_left (add_le_add q3 q4) (show 0 ≤ 1 + 3 * u by positivity)]
      _ = _ := by ring
end

end Tfhe.Fft
