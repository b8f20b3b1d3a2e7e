import Verif.Lemma.Fft

/-!
# All stages of the transform together
-/
namespace Tfhe.Fft
open Tfhe

/-- The vector after `s` stages; `W s i` is the twiddle factor of block `i` in stage `s`. -/
def after (B : ℂ → ℂ → ℂ → ℂ × ℂ) (L : ℕ) (W : ℕ → ℕ → ℂ) (z : ℕ → ℂ) : ℕ → ℕ → ℂ
  | 0 => z
  | s + 1 => stg B (W s) (2 ^ (L - 1 - s)) (after B L W z s)

variable (l : ℕ) (W : ℕ → ℕ → ℂ)

theorem two_h_m (L s : ℕ) (hs : s < L) : 2 * 2 ^ (L - 1 - s) * 2 ^ s = 2 ^ L := by
  rw [← pow_succ', ← pow_add]; congr 1; omega

theorem after_congr (L : ℕ) (z z' : ℕ → ℂ) (h : ∀ p < 2 ^ L, z p = z' p) (s : ℕ) (hs : s ≤ L) :
    ∀ p < 2 ^ L, after bF L W z s p = after bF L W z' s p := by
  induction s with
  | zero => exact h
  | succ s ih =>
    intro p hp
    have e := two_h_m L s (by omega)
    exact stg_congr _ _ _ _ (2 ^ s) _ _ (by rw [e]; exact ih (by omega)) (fun _ _ => rfl) p (by rw [e]; exact hp)

section Fwd
variable {B : ℝ → ℝ → ℝ → ℝ → ℝ → ℝ → ℝ × ℝ × ℝ × ℝ} {B' : ℂ → ℂ → ℂ → ℂ × ℂ} (hB : Rep B B') (tw : ℕ → ℝ × ℝ) (htw : ∀ s < l + 3, ∀ i < 2 ^ s, toC (tw (2 ^ s - 1 + i)) = W s i) (z : ℕ → ℂ)
include hB htw

theorem fwdMid_spec (k : ℕ) : ∀ (s fuel : ℕ) (x : ℕ → ℝ), s + k = l + 1 → 1 ≤ s → k ≤ fuel →
    (∀ p < 2 ^ (l + 3), view x p = after B' (l + 3) W z s p) →
    (fwdMid B tw (2 ^ (l + 4)) fuel (2 ^ s) (2 ^ (l + 4 - s)) (x, 2 ^ s - 1)).2 = 2 ^ (l + 1) - 1 ∧
    ∀ p < 2 ^ (l + 3), view (fwdMid B tw (2 ^ (l + 4)) fuel (2 ^ s) (2 ^ (l + 4 - s)) (x, 2 ^ s - 1)).1 p =
      after B' (l + 3) W z (l + 1) p := by
  have h16 : 2 ^ (l + 4) / 16 = 2 ^ l := by rw [pow_add]; norm_num
  induction k with
  | zero =>
    intro s fuel x hs _ _ hx
    have hs : s = l + 1 := by omega
    subst hs
    have : ∀ fuel, fwdMid B tw (2 ^ (l + 4)) fuel (2 ^ (l + 1)) (2 ^ (l + 4 - (l + 1))) (x, 2 ^ (l + 1) - 1) = (x, 2 ^ (l + 1) - 1) := by
      intro fuel
      cases fuel with
      | zero => rfl
      | succ f =>
        rw [fwdMid, if_neg]
        rw [h16, not_le]
        exact Nat.pow_lt_pow_right (by norm_num) (by omega)
    rw [this]
    exact ⟨rfl, hx⟩
  | succ k ih =>
    intro s fuel x hs h1 hf hx
    obtain ⟨f, rfl⟩ : ∃ f, fuel = f + 1 := ⟨fuel - 1, by omega⟩
    rw [fwdMid, if_pos (by rw [h16]; exact Nat.pow_le_pow_right (by norm_num) (by omega))]
    have hh : 2 ^ (l + 4 - s) / 2 = 2 * 2 ^ (l + 3 - 1 - s) := by
      rw [show l + 4 - s = (l + 3 - 1 - s) + 2 by omega, pow_add]; omega
    have h4 : 2 ^ (l + 3 - 1 - s) % 4 = 0 := by
      rw [show l + 3 - 1 - s = (l - s) + 2 by omega, pow_add]; omega
    have hst := view_bfStage hB tw x (2 ^ s - 1) (2 ^ s) (2 ^ (l + 3 - 1 - s)) h4 (by positivity)
    have e := two_h_m (l + 3) s (by omega)
    rw [hh]
    have hp0 : 0 < 2 ^ s := by positivity
    have hidx : (bfStage B tw (2 ^ s) (2 * 2 ^ (l + 3 - 1 - s)) (x, 2 ^ s - 1)) =
        ((bfStage B tw (2 ^ s) (2 * 2 ^ (l + 3 - 1 - s)) (x, 2 ^ s - 1)).1, 2 ^ (s + 1) - 1) :=
      Prod.ext rfl (by rw [hst.1, pow_succ]; show _ = _ - 1; omega)
    simp only
    rw [hidx, ← pow_succ, show 2 * 2 ^ (l + 3 - 1 - s) = 2 ^ (l + 4 - (s + 1)) by
      rw [← pow_succ']; congr 1; omega]
    apply ih (s + 1) f _ (by omega) (by omega) (by omega)
    intro p hp
    rw [show 2 ^ (l + 4 - (s + 1)) = 2 * 2 ^ (l + 3 - 1 - s) by rw [← pow_succ']; congr 1; omega]
    rw [hst.2 p (by rw [e]; exact hp)]
    exact stg_congr _ _ _ _ (2 ^ s) _ _ (by rw [e]; exact hx) (fun i hi => htw s (by omega) i hi) p (by rw [e]; exact hp)

/-- The forward transform runs all the stages, the last one with a butterfly of its own. -/
theorem view_fwdFFTStages {B1 : ℝ → ℝ → ℝ → ℝ → ℝ → ℝ → ℝ × ℝ × ℝ × ℝ} {B1' : ℂ → ℂ → ℂ → ℂ × ℂ} (hB1 : Rep B1 B1') (x : ℕ → ℝ)
    (hx : ∀ p < 2 ^ (l + 3), view x p = z p) :
    ∀ p < 2 ^ (l + 3), view (fwdFFTStages B B1 (2 ^ (l + 4)) x tw) p =
      stg B1' (W (l + 2)) (2 ^ 0) (after B' (l + 3) W z (l + 2)) p := by
  have hN2 : 2 ^ (l + 4) / 2 = 2 * 2 ^ (l + 2) := by rw [pow_add, pow_add]; omega
  have h0 : ∀ p < 2 ^ (l + 3), view (bfRow B x 0 (2 ^ (l + 4) / 2) (tw 0)) p = after B' (l + 3) W z 1 p := by
    intro p hp
    have hp' : p < 2 * 2 ^ (l + 2) := by rw [← pow_succ']; exact hp
    rw [hN2, view_bfRow0 hB x _ (by rw [pow_add]; omega) (by positivity) _ p hp']
    exact stg_congr _ _ _ _ 1 _ _ (by rw [mul_one, ← pow_succ']; exact hx) (fun i hi => by
      have := htw 0 (by omega) 0 (by norm_num)
      obtain rfl : i = 0 := by omega
      simpa using this) p (by rw [mul_one]; exact hp')
  have h1 := fwdMid_spec l W hB tw htw z l 1 (2 ^ (l + 4)) _ (by omega) le_rfl
    (by have : l < 2 ^ l := Nat.lt_two_pow_self
        have : 2 ^ l ≤ 2 ^ (l + 4) := Nat.pow_le_pow_right (by norm_num) (by omega)
        omega) h0
  intro p hp
  unfold fwdFFTStages
  simp only [pow_one, show l + 4 - 1 = l + 3 by omega, show 2 - 1 = 1 from rfl] at h1
  have hN2' : 2 ^ (l + 4) / 2 = 2 ^ (l + 3) := by rw [hN2, ← pow_succ']
  simp only
  rw [hN2'] at h1 ⊢
  generalize fwdMid B tw (2 ^ (l + 4)) (2 ^ (l + 4)) 2 (2 ^ (l + 3)) _ = S at h1 ⊢
  obtain ⟨x1, k1⟩ := S
  obtain ⟨hk1, hx1⟩ := h1
  simp only at hk1 hx1
  subst hk1
  have e8 : 2 ^ (l + 4) = 8 * 2 ^ (l + 1) := by rw [pow_add, pow_add]; omega
  have hpl : 0 < 2 ^ l := by positivity
  rw [e8]
  have h2 := view_bfStage2 hB tw x1 (2 ^ (l + 1) - 1) (2 ^ (l + 1))
  generalize bfStage2 B tw (8 * 2 ^ (l + 1)) _ = S at h2 ⊢
  obtain ⟨x2, k2⟩ := S
  obtain ⟨hk2, hx2⟩ := h2
  simp only at hk2 hx2
  have h3 := view_bfStage1 hB1 tw x2 k2 (2 ^ (l + 1))
  have hx2' : ∀ p < 2 ^ (l + 3), view x2 p = after B' (l + 3) W z (l + 2) p := by
    intro p hp
    have e := two_h_m (l + 3) (l + 1) (by omega)
    rw [hx2 p (by rw [pow_add] at hp ⊢; omega)]
    rw [show after B' (l + 3) W z (l + 2) = stg B' (W (l + 1)) (2 ^ (l + 3 - 1 - (l + 1))) (after B' (l + 3) W z (l + 1)) from rfl,
      show l + 3 - 1 - (l + 1) = 1 by omega, pow_one]
    rw [show l + 3 - 1 - (l + 1) = 1 by omega, pow_one] at e
    exact stg_congr _ _ _ _ (2 ^ (l + 1)) _ _ (by rw [e]; exact hx1) (fun i hi => htw (l + 1) (by omega) i hi) p
      (by rw [e]; exact hp)
  have e := two_h_m (l + 3) (l + 2) (by omega)
  rw [h3.2 p (by rw [pow_add] at hp ⊢; omega)]
  rw [pow_zero]
  rw [show l + 3 - 1 - (l + 2) = 0 by omega, pow_zero] at e
  exact stg_congr _ _ _ _ (2 ^ (l + 2)) _ _ (by rw [e]; exact hx2') (fun i hi => by
    rw [← htw (l + 2) (by omega) i hi]; congr 2; rw [hk2]
    have := pow_succ 2 (l + 1)
    have := pow_succ 2 l
    show _ = 2 ^ (l + 1 + 1) - 1 + i
    omega) p (by rw [e]; exact hp)

/-- The forward transform runs all the stages. -/
theorem view_fwdFFTWith (x : ℕ → ℝ) (hx : ∀ p < 2 ^ (l + 3), view x p = z p) :
    ∀ p < 2 ^ (l + 3), view (fwdFFTWith B (2 ^ (l + 4)) x tw) p = after B' (l + 3) W z (l + 3) p := by
  intro p hp
  rw [← fwdFFTStages_self, view_fwdFFTStages l W hB tw htw z hB x hx p hp,
    show after B' (l + 3) W z (l + 3) = stg B' (W (l + 2)) (2 ^ (l + 3 - 1 - (l + 2))) (after B' (l + 3) W z (l + 2)) from rfl,
    show l + 3 - 1 - (l + 2) = 0 by omega]
end Fwd

theorem view_fwdFFT (tw : ℕ → ℝ × ℝ) (htw : ∀ s < l + 3, ∀ i < 2 ^ s, toC (tw (2 ^ s - 1 + i)) = W s i) (z : ℕ → ℂ)
    (x : ℕ → ℝ) (hx : ∀ p < 2 ^ (l + 3), view x p = z p) :
    ∀ p < 2 ^ (l + 3), view (fwdFFTInPlace (2 ^ (l + 4)) x tw) p = after bF (l + 3) W z (l + 3) p :=
  view_fwdFFTWith l W repr_fwd tw htw z x hx

/-! ### The inverse transform undoes it -/

theorem stg_inv (w : ℕ → ℂ) (h n : ℕ) (z y : ℕ → ℂ) (c : ℂ) (hw : ∀ i < n, w i ≠ 0)
    (hy : ∀ p < 2 * h * n, y p = c * stg bF w h z p) (p : ℕ) (hp : p < 2 * h * n) :
    stg bI (fun i => (w i)⁻¹) h y p = 2 * c * z p := by
  have hh : 0 < 2 * h := Nat.pos_of_ne_zero (by rintro e; rw [e] at hp; omega)
  have hi : p / (2 * h) < n := Nat.div_lt_of_lt_mul hp
  have hm := Nat.div_add_mod p (2 * h)
  have hml := Nat.mod_lt p hh
  have hd : ∀ i r, r < 2 * h → (2 * h * i + r) / (2 * h) = i := fun i r hr => by
    rw [Nat.mul_add_div (by omega), Nat.div_eq_of_lt hr, add_zero]
  have hmd : ∀ i r, r < 2 * h → (2 * h * i + r) % (2 * h) = r := fun i r hr => by
    rw [Nat.mul_add_mod, Nat.mod_eq_of_lt hr]
  generalize p / (2 * h) = i at *
  generalize p % (2 * h) = r at *
  subst hm
  have hin : 2 * h * i + 2 * h ≤ 2 * h * n := by
    calc 2 * h * i + 2 * h = 2 * h * (i + 1) := by ring
      _ ≤ _ := Nat.mul_le_mul_left _ hi
  have hwi := hw i hi
  have key : ∀ u, u < h → y (2 * h * i + u) = c * (z (2 * h * i + u) + z (2 * h * i + u + h) * w i) ∧
      y (2 * h * i + u + h) = c * (z (2 * h * i + u) - z (2 * h * i + u + h) * w i) := by
    intro u hu
    have e : 2 * h * i + u + h = 2 * h * i + (u + h) := by ring
    refine ⟨?_, ?_⟩
    · rw [hy _ (by omega)]; unfold stg
      rw [hmd _ _ (by omega), if_pos hu, hd _ _ (by omega)]; rfl
    · rw [hy _ (by omega)]; unfold stg
      rw [e, hmd _ _ (by omega), if_neg (by omega), hd _ _ (by omega), ← e, Nat.add_sub_cancel]; rfl
  unfold stg
  rw [hmd _ _ hml, hd _ _ hml]
  by_cases hr : r < h
  · rw [if_pos hr]
    obtain ⟨k1, k2⟩ := key r hr
    rw [k1, k2]; simp only [bI]; ring
  · rw [if_neg hr]
    obtain ⟨k1, k2⟩ := key (r - h) (by omega)
    rw [show 2 * h * i + (r - h) + h = 2 * h * i + r by omega] at k1 k2
    rw [show 2 * h * i + r - h = 2 * h * i + (r - h) by omega, k1, k2]; simp only [bI]
    field_simp
    ring

section Inv
variable (twInv : ℕ → ℝ × ℝ) (hW : ∀ s < l + 3, ∀ i < 2 ^ s, W s i ≠ 0)
  (htw : ∀ s < l + 3, ∀ i < 2 ^ s, toC (twInv (2 ^ (l + 3) - 2 ^ (s + 1) + i)) = (W s i)⁻¹) (z : ℕ → ℂ)
include hW htw

theorem inv_step (s : ℕ) (hs : s < l + 3) (x : ℕ → ℝ) (c : ℂ)
    (hx : ∀ p < 2 ^ (l + 3), view x p = c * after bF (l + 3) W z (s + 1) p) (w : ℕ → ℂ)
    (hw : ∀ i < 2 ^ s, w i = toC (twInv (2 ^ (l + 3) - 2 ^ (s + 1) + i))) (p : ℕ) (hp : p < 2 ^ (l + 3)) :
    stg bI w (2 ^ (l + 3 - 1 - s)) (view x) p = 2 * c * after bF (l + 3) W z s p := by
  have e := two_h_m (l + 3) s hs
  rw [← stg_inv (W s) (2 ^ (l + 3 - 1 - s)) (2 ^ s) (after bF (l + 3) W z s) (view x) c (hW s hs) (by rw [e]; exact hx) p
    (by rw [e]; exact hp)]
  exact stg_congr _ _ _ _ (2 ^ s) _ _ (fun _ _ => rfl) (fun i hi => by rw [hw i hi, htw s hs i hi]) p (by rw [e]; exact hp)

theorem invMid_spec (s : ℕ) : ∀ (fuel : ℕ) (x : ℕ → ℝ) (c : ℂ), s ≤ l → s ≤ fuel →
    (∀ p < 2 ^ (l + 3), view x p = c * after bF (l + 3) W z (s + 1) p) →
    (invMid invButterfly twInv fuel (2 ^ s) (2 ^ (l + 3 - s)) (x, 2 ^ (l + 3) - 2 ^ (s + 1))).2 = 2 ^ (l + 3) - 2 ∧
    ∀ p < 2 ^ (l + 3), view (invMid invButterfly twInv fuel (2 ^ s) (2 ^ (l + 3 - s)) (x, 2 ^ (l + 3) - 2 ^ (s + 1))).1 p =
      2 ^ s * c * after bF (l + 3) W z 1 p := by
  induction s with
  | zero =>
    intro fuel x c _ _ hx
    have : ∀ fuel, invMid invButterfly twInv fuel (2 ^ 0) (2 ^ (l + 3 - 0)) (x, 2 ^ (l + 3) - 2 ^ (0 + 1)) = (x, 2 ^ (l + 3) - 2 ^ (0 + 1)) := by
      intro fuel
      cases fuel with
      | zero => rfl
      | succ f => rw [invMid, if_neg (by norm_num)]
    rw [this]
    exact ⟨rfl, by simpa using hx⟩
  | succ s ih =>
    intro fuel x c hs hf hx
    obtain ⟨f, rfl⟩ : ∃ f, fuel = f + 1 := ⟨fuel - 1, by omega⟩
    rw [invMid, if_pos (by rw [pow_succ]; have : 0 < 2 ^ s := by positivity
                           omega)]
    have h4 : 2 ^ (l + 3 - 1 - (s + 1)) % 4 = 0 := by
      rw [show l + 3 - 1 - (s + 1) = (l - (s + 1)) + 2 by omega, pow_add]; omega
    have hst := view_bfStage repr_inv twInv x (2 ^ (l + 3) - 2 ^ (s + 1 + 1)) (2 ^ (s + 1)) (2 ^ (l + 3 - 1 - (s + 1))) h4
      (by positivity)
    have e := two_h_m (l + 3) (s + 1) (by omega)
    have et : 2 ^ (l + 3 - (s + 1)) = 2 * 2 ^ (l + 3 - 1 - (s + 1)) := by
      rw [← pow_succ']; congr 1; omega
    rw [et]
    have hle : 2 ^ (s + 1 + 1) ≤ 2 ^ (l + 3) := Nat.pow_le_pow_right (by norm_num) (by omega)
    generalize bfStage invButterfly twInv (2 ^ (s + 1)) (2 * 2 ^ (l + 3 - 1 - (s + 1))) _ = S at hst ⊢
    obtain ⟨x1, k1⟩ := S
    obtain ⟨hk1, hx1⟩ := hst
    simp only at hk1 hx1
    have hk1' : k1 = 2 ^ (l + 3) - 2 ^ (s + 1) := by rw [hk1]; rw [pow_succ 2 (s + 1)] at hle ⊢; omega
    subst hk1'
    rw [pow_succ 2 s, Nat.mul_div_cancel _ (by norm_num), ← et, ← pow_succ, show l + 3 - (s + 1) + 1 = l + 3 - s by omega,
      ← pow_succ 2 s]
    have := ih f x1 (2 * c) (by omega) (by omega) (by
      intro p hp
      rw [hx1 p (by rw [e]; exact hp)]
      exact inv_step l W twInv hW htw z (s + 1) (by omega) x c hx _ (fun i _ => rfl) p hp)
    refine ⟨this.1, fun p hp => ?_⟩
    rw [this.2 p hp, pow_succ]; ring

/-- The inverse transform of the transform of `z` is `z`. -/
theorem view_invFFT (y : ℕ → ℝ) (hy : ∀ p < 2 ^ (l + 3), view y p = after bF (l + 3) W z (l + 3) p) :
    ∀ p < 2 ^ (l + 3), view (invFFTInPlace (2 ^ (l + 4)) y twInv) p = z p := by
  intro p hp
  have e8 : 2 ^ (l + 4) = 8 * 2 ^ (l + 1) := by rw [pow_add, pow_add]; omega
  have hN2 : 2 ^ (l + 4) / 2 = 2 * 2 ^ (l + 2) := by rw [pow_add, pow_add]; omega
  have h16 : 2 ^ (l + 4) / 16 = 2 ^ l := by rw [pow_add]; norm_num
  have hpos : ∀ k < 2 ^ (l + 3), pos k + 4 < 2 ^ (l + 4) := by
    intro k hk
    have : 2 ^ (l + 3) = 8 * 2 ^ l := by rw [pow_add]; omega
    have : 2 ^ (l + 4) = 16 * 2 ^ l := by rw [pow_add]; omega
    unfold pos; omega
  -- the stages
  have h1 := view_bfStage1 repr_inv twInv y 0 (2 ^ (l + 1))
  unfold invFFTInPlace invFFTWith
  simp only
  rw [← e8] at h1
  generalize bfStage1 invButterfly twInv (2 ^ (l + 4)) (y, 0) = S at h1 ⊢
  obtain ⟨x1, k1⟩ := S
  obtain ⟨hk1, hx1⟩ := h1
  simp only [zero_add] at hk1 hx1
  have hx1' : ∀ p < 2 ^ (l + 3), view x1 p = 2 * 1 * after bF (l + 3) W z (l + 2) p := by
    intro p hp
    rw [hx1 p (by rw [pow_add] at hp ⊢; omega)]
    have := inv_step l W twInv hW htw z (l + 2) (by omega) y 1 (by simpa using hy) (fun i => toC (twInv i))
      (fun i hi => by rw [show l + 2 + 1 = l + 3 from rfl, Nat.sub_self, zero_add]) p hp
    rw [show l + 3 - 1 - (l + 2) = 0 by omega, pow_zero] at this
    exact this
  have h2 := view_bfStage2 repr_inv twInv x1 k1 (2 ^ (l + 1))
  rw [← e8] at h2
  generalize bfStage2 invButterfly twInv (2 ^ (l + 4)) (x1, k1) = S at h2 ⊢
  obtain ⟨x2, k2⟩ := S
  obtain ⟨hk2, hx2⟩ := h2
  simp only at hk2 hx2
  have hpl : 2 ^ (l + 3) = 8 * 2 ^ l := by rw [pow_add]; omega
  have hpl1 : 2 ^ (l + 1) = 2 * 2 ^ l := by rw [pow_add]; omega
  have hpl2 : 2 ^ (l + 2) = 4 * 2 ^ l := by rw [pow_add]; omega
  have hx2' : ∀ p < 2 ^ (l + 3), view x2 p = 2 * (2 * 1) * after bF (l + 3) W z (l + 1) p := by
    intro p hp
    rw [hx2 p (by omega)]
    have := inv_step l W twInv hW htw z (l + 1) (by omega) x1 (2 * 1) hx1' (fun i => toC (twInv (k1 + i)))
      (fun i hi => by rw [hk1]; congr 2; show _ = 2 ^ (l + 3) - 2 ^ (l + 2) + i; omega) p hp
    rw [show l + 3 - 1 - (l + 1) = 1 by omega, pow_one] at this
    exact this
  have hk2' : k2 = 2 ^ (l + 3) - 2 ^ (l + 1) := by omega
  subst hk2'
  rw [h16]
  have h3 := invMid_spec l W twInv hW htw z l (2 ^ (l + 4)) x2 (2 * (2 * 1)) le_rfl (by
    have : l < 2 ^ l := Nat.lt_two_pow_self
    have : 2 ^ l ≤ 2 ^ (l + 4) := Nat.pow_le_pow_right (by norm_num) (by omega)
    omega) hx2'
  rw [show l + 3 - l = 3 by omega, show 2 ^ 3 = 8 from rfl] at h3
  generalize invMid invButterfly twInv (2 ^ (l + 4)) (2 ^ l) 8 _ = S at h3 ⊢
  obtain ⟨x3, k3⟩ := S
  obtain ⟨hk3, hx3⟩ := h3
  simp only at hk3 hx3 ⊢
  have hlast : view (bfRow invButterfly x3 0 (2 ^ (l + 4) / 2) (twInv k3)) p = 2 ^ (l + 3) * z p := by
    rw [hN2, view_bfRow0 repr_inv x3 _ (by rw [pow_add]; omega) (by positivity) _ p (by omega)]
    have := inv_step l W twInv hW htw z 0 (by omega) x3 _ hx3 (fun _ => toC (twInv k3))
      (fun i hi => by obtain rfl : i = 0 := by simpa using hi
                      rw [hk3]; rfl) p hp
    rw [show l + 3 - 1 - 0 = l + 2 by omega] at this
    rw [this]
    show 2 * (2 ^ l * (2 * (2 * 1))) * z p = _
    rw [pow_add]; ring
  have hsc : ((2 ^ (l + 4) / 2 : ℕ) : ℝ) = 2 ^ (l + 3) := by
    rw [show 2 ^ (l + 4) / 2 = 2 ^ (l + 3) by omega]; push_cast; rfl
  have hp4 := hpos p hp
  have hre := congrArg Complex.re hlast
  have him := congrArg Complex.im hlast
  have h2c : (2 ^ (l + 3) : ℂ) = ((2 ^ (l + 3) : ℝ) : ℂ) := by push_cast; rfl
  rw [h2c, Complex.re_ofReal_mul] at hre
  rw [h2c, Complex.im_ofReal_mul] at him
  have hne : (2 ^ (l + 3) : ℝ) ≠ 0 := by positivity
  apply Complex.ext
  · show (if pos p < _ then _ / _ else _) = _
    rw [if_pos (by omega), hsc]
    change bfRow invButterfly x3 0 (2 ^ (l + 4) / 2) (twInv k3) (pos p) = _ at hre
    rw [hre]; field_simp
  · show (if pos p + 4 < _ then _ / _ else _) = _
    rw [if_pos hp4, hsc]
    change bfRow invButterfly x3 0 (2 ^ (l + 4) / 2) (twInv k3) (pos p + 4) = _ at him
    rw [him]; field_simp
end Inv

/-! ### What the stages compute -/

theorem sum_range_two_mul (f : ℕ → ℂ) (n : ℕ) :
    ∑ v ∈ Finset.range (2 * n), f v = ∑ v ∈ Finset.range n, f (2 * v) + ∑ v ∈ Finset.range n, f (2 * v + 1) := by
  induction n with
  | zero => simp
  | succ n ih =>
    rw [show 2 * (n + 1) = 2 * n + 1 + 1 by ring, Finset.sum_range_succ, Finset.sum_range_succ, ih, Finset.sum_range_succ,
      Finset.sum_range_succ]
    ring

/-- After `s` stages, block `i` holds the residues of the vector, seen as a polynomial, modulo `X^(2^(L-s)) - c s i`… written
out: element `u` is the sum over `v` of the elements `u + v * 2^(L-s)`, times powers of `c s i`. -/
theorem after_eq (L : ℕ) (c : ℕ → ℕ → ℂ) (z : ℕ → ℂ)
    (hsq : ∀ s < L, ∀ i < 2 ^ s, W s i * W s i = c s i)
    (hev : ∀ s < L, ∀ i < 2 ^ s, c (s + 1) (2 * i) = W s i)
    (hod : ∀ s < L, ∀ i < 2 ^ s, c (s + 1) (2 * i + 1) = -W s i) (s : ℕ) (hs : s ≤ L) :
    ∀ i < 2 ^ s, ∀ u < 2 ^ (L - s), after bF L W z s (i * 2 ^ (L - s) + u) =
      ∑ v ∈ Finset.range (2 ^ s), z (u + v * 2 ^ (L - s)) * c s i ^ v := by
  induction s with
  | zero => intro i hi u hu; obtain rfl : i = 0 := by simpa using hi
            simp [after]
  | succ s ih =>
    intro i hi u hu
    have ht : 2 ^ (L - s) = 2 * 2 ^ (L - (s + 1)) := by rw [← pow_succ']; congr 1; omega
    have hh : L - 1 - s = L - (s + 1) := by omega
    have ih := ih (by omega)
    rw [ht] at ih
    rw [after, hh]
    generalize 2 ^ (L - (s + 1)) = h at *
    have hd : ∀ i r, r < 2 * h → (2 * h * i + r) / (2 * h) = i := fun i r hr => by
      rw [Nat.mul_add_div (by omega), Nat.div_eq_of_lt hr, add_zero]
    have hmd : ∀ i r, r < 2 * h → (2 * h * i + r) % (2 * h) = r := fun i r hr => by
      rw [Nat.mul_add_mod, Nat.mod_eq_of_lt hr]
    have hj : i / 2 < 2 ^ s := by rw [pow_succ] at hi; omega
    have hA := ih (i / 2) hj u (by omega)
    have hB := ih (i / 2) hj (u + h) (by omega)
    have hW2 := hsq s (by omega) (i / 2) hj
    rw [pow_succ 2 s, mul_comm (2 ^ s) 2, sum_range_two_mul]
    have sA : ∀ w : ℂ, w * w = c s (i / 2) → ∑ v ∈ Finset.range (2 ^ s), z (u + 2 * v * h) * w ^ (2 * v) =
        after bF L W z s (i / 2 * (2 * h) + u) := by
      intro w hw
      rw [hA]
      refine Finset.sum_congr rfl fun v _ => ?_
      rw [← hw, pow_mul, pow_two, show 2 * v * h = v * (2 * h) by ring]
    have sB : ∀ w : ℂ, w * w = c s (i / 2) → ∑ v ∈ Finset.range (2 ^ s), z (u + (2 * v + 1) * h) * w ^ (2 * v + 1) =
        after bF L W z s (i / 2 * (2 * h) + u + h) * w := by
      intro w hw
      rw [add_assoc, hB, Finset.sum_mul]
      refine Finset.sum_congr rfl fun v _ => ?_
      rw [← hw, pow_succ, pow_mul, pow_two, show u + (2 * v + 1) * h = u + h + v * (2 * h) by ring]; ring
    rcases Nat.mod_two_eq_zero_or_one i with h2 | h2
    · have hi2 : i = 2 * (i / 2) := by omega
      have e := hev s (by omega) (i / 2) hj
      rw [← hi2] at e
      rw [e, sA _ hW2, sB _ hW2]
      rw [show i * h + u = 2 * h * (i / 2) + u by rw [show 2 * h * (i / 2) = 2 * (i / 2) * h by ring, ← hi2]]
      unfold stg
      rw [hmd _ _ (by omega), if_pos hu, hd _ _ (by omega), show i / 2 * (2 * h) = 2 * h * (i / 2) by ring]
      rfl
    · have hi2 : i = 2 * (i / 2) + 1 := by omega
      have e := hod s (by omega) (i / 2) hj
      rw [← hi2] at e
      rw [e, sA (-W s (i / 2)) (by rw [neg_mul_neg, hW2]), sB (-W s (i / 2)) (by rw [neg_mul_neg, hW2])]
      rw [show i * h + u = 2 * h * (i / 2) + (u + h) by
        conv_lhs => rw [hi2]
        ring]
      unfold stg
      rw [hmd _ _ (by omega), if_neg (by omega), hd _ _ (by omega), show i / 2 * (2 * h) = 2 * h * (i / 2) by ring,
        show 2 * h * (i / 2) + (u + h) - h = 2 * h * (i / 2) + u by omega, ← add_assoc]
      show _ - _ * _ = _
      ring

end Tfhe.Fft
