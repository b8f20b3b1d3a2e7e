import Verif.Props.C13

/-!
# C14: CMux selects one of its inputs

The full property also asks for it when the output is the second input `ct1`.  There it fails
(`C14_out_is_ct1`, `C14_false`): `CMuxTo` first copies `ct0` to the output and only then forms
`ct1 - ct0`, which is then zero.  The theorem for every other placement is `C14_cmux_partial`.
-/
namespace Tfhe
variable {R : Type} {k : ℕ}

theorem cmux_copy (out ct0 : ℕ) (mem : Mem R) (v : ℕ) :
    ctOf k (mapLoopI (fun _ _ a _ => a) out ct0 ct0 (List.range (k + 1)) mem) v
      = if v = out then ctOf k mem ct0 else ctOf k mem v := by
  by_cases h : v = out
  · subst h; rw [if_pos rfl, (mapLoopI_whole _ _ _ _ _ _).1]
  · rw [if_neg h]; funext i
    exact (mapLoopI_whole _ _ _ _ _ _).2 v i (Or.inl h)

variable [CommRing R]

/-- All placements at once, in terms of what the code subtracts: `d1` is `ct0` if the output is `ct1`. -/
theorem cmux_phase (G : Gadget R) (hL : 0 < G.level) (s : Fin k → R) (m : R)
    (gsw : Fin (k + 1) → ℕ → Fin (k + 1) → R) (e : Fin (k + 1) → ℕ → R) (h : IsGSW G s m gsw e)
    (out ct0 ct1 buf : ℕ) (hb : buf ≠ out) (err : Fin (k + 1) → R) (mem : Mem R) :
    (let d : Fin (k + 1) → R := fun i => (if ct1 = out then ctOf k mem ct0 i else ctOf k mem ct1 i) - ctOf k mem ct0 i
     phase s (ctOf k (cmuxTo G k out gsw ct0 ct1 buf err mem) out)
      = phase s (ctOf k mem ct0) + (m * phase s d + extNoise G s m e d err)) ∧
    ∀ v i, (v ≠ out ∧ v ≠ buf) ∨ k + 1 ≤ i → cmuxTo G k out gsw ct0 ct1 buf err mem v i = mem v i := by
  set m1 := mapLoopI (fun _ _ a _ => a) out ct0 ct0 (List.range (k + 1)) mem with hm1
  set m2 := subGLWETo k buf ct1 ct0 m1 with hm2
  have hc : cmuxTo G k out gsw ct0 ct1 buf err mem = externalProdAddTo G k out gsw buf err m2 := rfl
  have hx := C13_externalProdAdd G hL s m gsw e h out buf err m2
  have h2 := mapLoopI_whole (fun _ _ a b => a - b) k buf ct1 ct0 m1
  have h1 := cmux_copy (k := k) out ct0 mem
  have hout : ctOf k m2 out = ctOf k mem ct0 := by
    have : ctOf k m2 out = ctOf k m1 out := by
      funext i; exact h2.2 out i (Or.inl (Ne.symm hb))
    rw [this, h1, if_pos rfl]
  have hd : ctOf k m2 buf = fun i =>
      (if ct1 = out then ctOf k mem ct0 i else ctOf k mem ct1 i) - ctOf k mem ct0 i := by
    rw [hm2, subGLWETo, h2.1]
    funext i
    rw [h1 ct1, h1 ct0]
    split <;> split <;> simp_all
  constructor
  · intro d
    rw [hc, hx.1, hout, hd]
  · intro v i hv
    rw [hc, hx.2 v i (by tauto), hm2, subGLWETo, h2.2 v i (by tauto), hm1,
      (mapLoopI_whole _ _ _ _ _ _).2 v i (by tauto)]

/-- **C14 (partial: the output is not `ct1`).**  Fresh output or written over `ct0`: the phase is that of
`ct0` if the selector encrypts 0 and that of `ct1` if it encrypts 1, plus the noise of one external
product.  Missing for the full property: output over `ct1`, where it is false, see `C14_false`. -/
theorem C14_cmux_partial (G : Gadget R) (hL : 0 < G.level) (s : Fin k → R) (b : Bool)
    (gsw : Fin (k + 1) → ℕ → Fin (k + 1) → R) (e : Fin (k + 1) → ℕ → R)
    (h : IsGSW G s (if b then 1 else 0) gsw e)
    (out ct0 ct1 buf : ℕ) (hb : buf ≠ out) (h1 : ct1 ≠ out) (err : Fin (k + 1) → R) (mem : Mem R) :
    phase s (ctOf k (cmuxTo G k out gsw ct0 ct1 buf err mem) out)
      = phase s (ctOf k mem (if b then ct1 else ct0))
        + extNoise G s (if b then 1 else 0) e (fun i => ctOf k mem ct1 i - ctOf k mem ct0 i) err := by
  have hx := (cmux_phase G hL s _ gsw e h out ct0 ct1 buf hb err mem).1
  simp only [if_neg h1] at hx
  rw [hx]
  have hs := phase_sub s (ctOf k mem ct1) (ctOf k mem ct0)
  have hs' : phase s (fun i => ctOf k mem ct1 i - ctOf k mem ct0 i)
    = phase s (ctOf k mem ct1) - phase s (ctOf k mem ct0) := hs
  rw [hs']
  cases b
  · simp
  · simp only [if_true, one_mul]; ring

/-- Only the output and the evaluator's buffer change, whatever the placement. -/
theorem C14_frame (G : Gadget R) (gsw : Fin (k + 1) → ℕ → Fin (k + 1) → R)
    (out ct0 ct1 buf : ℕ) (err : Fin (k + 1) → R) (mem : Mem R) (v i : ℕ) (hv : (v ≠ out ∧ v ≠ buf) ∨ k + 1 ≤ i) :
    cmuxTo G k out gsw ct0 ct1 buf err mem v i = mem v i := by
  unfold cmuxTo externalProdAddTo subGLWETo
  rw [(mapLoopI_whole _ _ _ _ _ _).2 v i (by tauto), (mapLoopI_whole _ _ _ _ _ _).2 v i (by tauto),
    (mapLoopI_whole _ _ _ _ _ _).2 v i (by tauto)]

/-- The distance to the selected input is bounded as in `C13_noise_le`. -/
theorem C14_bound_partial (ν : RNorm R) (G : Gadget R) {D E : ℕ} (hG : G.Bounded ν D E) (s : Fin k → R) (b : Bool)
    (gsw : Fin (k + 1) → ℕ → Fin (k + 1) → R) (e : Fin (k + 1) → ℕ → R)
    (h : IsGSW G s (if b then 1 else 0) gsw e)
    (out ct0 ct1 buf : ℕ) (hb : buf ≠ out) (h1 : ct1 ≠ out) (err : Fin (k + 1) → R) (mem : Mem R) (S B F : ℕ)
    (hS : ∀ i x, ν.f (x * s i) ≤ S * ν.f x)
    (hB : ∀ i j, j < G.level → ν.f (e i j) ≤ B) (hF : ν.f (phase s err) ≤ F) :
    ν.f (phase s (ctOf k (cmuxTo G k out gsw ct0 ct1 buf err mem) out)
        - phase s (ctOf k mem (if b then ct1 else ct0)))
      ≤ (if b then 1 else 0) * (E * (1 + k * S)) + (k + 1) * (G.level * (ν.c * (D * B))) + F := by
  rw [C14_cmux_partial G hG.level_pos s b gsw e h out ct0 ct1 buf hb h1 err mem, add_sub_cancel_left]
  refine C13_noise_le ν G hG s _ e _ err _ S B F ?_ hS hB hF
  intro x
  cases b <;> simp [ν.zero]

/-- Output over `ct1`: the result is `ct0` plus noise that does not depend on the selector's message
(except through the loss of decomposing zero), so `ct1` is never selected. -/
theorem C14_out_is_ct1 (G : Gadget R) (hL : 0 < G.level) (s : Fin k → R) (m : R)
    (gsw : Fin (k + 1) → ℕ → Fin (k + 1) → R) (e : Fin (k + 1) → ℕ → R) (h : IsGSW G s m gsw e)
    (ct0 ct1 buf : ℕ) (hb : buf ≠ ct1) (err : Fin (k + 1) → R) (mem : Mem R) :
    phase s (ctOf k (cmuxTo G k ct1 gsw ct0 ct1 buf err mem) ct1)
      = phase s (ctOf k mem ct0) + extNoise G s m e (fun _ => 0) err := by
  have hx := (cmux_phase G hL s m gsw e h ct1 ct0 ct1 buf hb err mem).1
  simp only [if_pos, sub_self] at hx
  rw [hx]
  have hz : phase s (fun _ : Fin (k + 1) => (0 : R)) = 0 := by simp [phase]
  rw [hz, mul_zero, zero_add]

/-- **The full property is false.**  Degree 2, rank 1, a noise-free selector of 1, no FFT error,
`ct0 = 0` and `ct1` with phase 2^31: after `CMuxTo(ct1, sel, ct0, ct1)` the phase is 0, at distance 2^31
from that of `ct1`, although decomposition loses at most 2^19 per component and the key is zero. -/
theorem C14_false : ∃ (s : Fin 1 → Poly 2 (BitVec 32)) (gsw : Fin 2 → ℕ → Fin 2 → Poly 2 (BitVec 32))
    (mem : Mem (Poly 2 (BitVec 32))),
    IsGSW (polyGadget 2 exGadget) s 1 gsw (fun _ _ => 0) ∧
    (∀ i x, pabs (x * s i) ≤ 0 * pabs x) ∧
    phase s (ctOf 1 (cmuxTo (polyGadget 2 exGadget) 1 1 gsw 0 1 2 0 mem) 1) = phase s (ctOf 1 mem 0) ∧
    pabs (phase s (ctOf 1 (cmuxTo (polyGadget 2 exGadget) 1 1 gsw 0 1 2 0 mem) 1) - phase s (ctOf 1 mem 1))
      = 2 ^ 31 := by
  refine ⟨fun _ _ => 0, encryptGGSWPoly exGadget (fun _ _ => 0) (fun i j _ t => BitVec.ofNat 32 (77 * (i + j + t))) 0
    (fun _ _ _ => 0) 0 1, fun v i _ => if v = 1 ∧ i = 0 then 2 ^ 31 else 0, ?_, ?_, ?_, ?_⟩
  · have := isGSW_encryptGGSW exGadget (fun (_ : Fin 1) (_ : Fin 2) => (0 : BitVec 32))
      (fun i j _ t => BitVec.ofNat 32 (77 * (i + j + t))) 0 (fun _ _ _ => 0) 0 1
    refine ⟨fun j hj => (this.1 j hj).trans ?_, fun i j hj => (this.2 i j hj).trans ?_⟩
    all_goals
      congr 1
      have : ∀ i : Fin 2, (Fin.cons 0 0 : Fin 2 → Poly 2 (BitVec 32)) i = 0 := by decide
      beta_reduce
      rw [this]
      funext t
      simp [Poly.sub_apply]
      try rfl
  · intro i x
    have : x * (0 : Poly 2 (BitVec 32)) = 0 := mul_zero _
    refine (congrArg pabs this).le.trans ?_
    rw [zero_mul]
    exact (polyNorm 2 32).zero.le
  · decide +kernel
  · decide +kernel

/-- The hypotheses of `C14_cmux_partial` are met by ciphertexts of the encryptor. -/
example (b : Bool) (sk : Fin 1 → Poly 2 (BitVec 32)) (mask err : Fin 2 → ℕ → Fin 1 → Poly 2 (BitVec 32))
    (noise : Fin 2 → ℕ → Poly 2 (BitVec 32)) :
    IsGSW (polyGadget 2 exGadget) sk (if b then 1 else 0)
      (genBlindRotateKeyElem exGadget sk mask err noise (if b then 1 else 0))
      (fun i j => noise i j - ∑ t, err i j t) := by
  have h := isGSW_blindRotateKey exGadget sk mask err noise (if b then 1 else 0)
  have hc : Poly.C 2 (if b then 1 else 0 : BitVec 32) = if b then 1 else 0 := by cases b <;> decide +kernel
  rwa [hc] at h
end Tfhe
