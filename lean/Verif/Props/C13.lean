import Verif.Props.C12

/-!
# C13: gadget products and external products multiply phases
-/
namespace Tfhe

section
variable {R : Type} [CommRing R] {k : ℕ}

/-- Gadget product (`GadgetProdGLWETo`; `GadgetProdLWETo` has `err = 0`): the phase is `p * m`, plus the
decomposition loss times `m`, plus the noise of the Lev weighted with the digits, plus the FFT error. -/
theorem C13_gadgetProd (G : Gadget R) (hL : 0 < G.level) (s : Fin k → R) (m : R) (lev : ℕ → Fin (k + 1) → R)
    (e : ℕ → R) (h : IsLev G s m lev e) (p : R) (err : Fin (k + 1) → R) :
    phase s (gadgetProdGLWE G lev p err)
      = m * (p + G.eps p) + ∑ j ∈ Finset.range G.level, G.dec p j * e j + phase s err := by
  rw [← sum_dec_lev G s m lev e h p, ← phase_lin]
  unfold gadgetProdGLWE
  rw [gadgetProd_eq _ hL]
  exact phase_add s _ err

/-- `GadgetProdAddGLWETo`. -/
theorem C13_gadgetProdAdd (G : Gadget R) (hL : 0 < G.level) (s : Fin k → R) (m : R) (lev : ℕ → Fin (k + 1) → R)
    (e : ℕ → R) (h : IsLev G s m lev e) (p : R) (err out : Fin (k + 1) → R) :
    phase s (gadgetProdAddGLWE G out lev p err)
      = phase s out + (m * (p + G.eps p) + ∑ j ∈ Finset.range G.level, G.dec p j * e j + phase s err) := by
  rw [← C13_gadgetProd G hL s m lev e h p err]
  exact phase_add s _ _

/-- `GadgetProdSubGLWETo`. -/
theorem C13_gadgetProdSub (G : Gadget R) (hL : 0 < G.level) (s : Fin k → R) (m : R) (lev : ℕ → Fin (k + 1) → R)
    (e : ℕ → R) (h : IsLev G s m lev e) (p : R) (err out : Fin (k + 1) → R) :
    phase s (gadgetProdSubGLWE G out lev p err)
      = phase s out - (m * (p + G.eps p) + ∑ j ∈ Finset.range G.level, G.dec p j * e j + phase s err) := by
  rw [← C13_gadgetProd G hL s m lev e h p err]
  exact phase_sub s _ _

/-- `GadgetProdAddLWETo` and the Fourier form `GadgetProdAddFFTGLWETo` (exact part) accumulate the same
product. -/
theorem C13_gadgetProdAddLWE (G : Gadget R) (s : Fin k → R) (m : R) (lev : ℕ → Fin (k + 1) → R)
    (e : ℕ → R) (h : IsLev G s m lev e) (p : R) (out : Fin (k + 1) → R) :
    phase s (gadgetProdAdd G.level out lev (G.dec p))
      = phase s out + (m * (p + G.eps p) + ∑ j ∈ Finset.range G.level, G.dec p j * e j) := by
  rw [← sum_dec_lev G s m lev e h p, ← phase_lin, gadgetProdAdd_eq]
  exact phase_add s _ _

theorem C13_gadgetProdSubLWE (G : Gadget R) (s : Fin k → R) (m : R) (lev : ℕ → Fin (k + 1) → R)
    (e : ℕ → R) (h : IsLev G s m lev e) (p : R) (out : Fin (k + 1) → R) :
    phase s (gadgetProdSub G.level out lev (G.dec p))
      = phase s out - (m * (p + G.eps p) + ∑ j ∈ Finset.range G.level, G.dec p j * e j) := by
  rw [← sum_dec_lev G s m lev e h p, ← phase_lin, gadgetProdSub_eq]
  exact phase_sub s _ _

/-- What the external product adds to `m * phase(ct)`. -/
def extNoise (G : Gadget R) (s : Fin k → R) (m : R) (e : Fin (k + 1) → ℕ → R) (c err : Fin (k + 1) → R) : R :=
  m * phase s (fun i => G.eps (c i)) + ∑ i, ∑ j ∈ Finset.range G.level, G.dec (c i) j * e i j + phase s err

theorem phase_extProd (G : Gadget R) (hL : 0 < G.level) (s : Fin k → R) (m : R)
    (gsw : Fin (k + 1) → ℕ → Fin (k + 1) → R) (e : Fin (k + 1) → ℕ → R) (h : IsGSW G s m gsw e)
    (c err : Fin (k + 1) → R) :
    phase s (fun t => extProd G.level gsw (fun i => G.dec (c i)) t + err t)
      = m * phase s c + extNoise G s m e c err := by
  have h1 := phase_add s (extProd G.level gsw (fun i => G.dec (c i))) err
  refine h1.trans ?_
  rw [extProd_eq _ hL, phase_lin2, sum_dec_gsw G s m gsw e h c, extNoise]
  ring

theorem ext0_coe {n : ℕ} (c : Fin n → R) (i : Fin n) : ext0 c i = c i := by simp [ext0]

/-- **C13 (exact).** `ExternalProdGLWETo` (`ExternalProdLWETo` has `err = 0`), output anywhere: the phase is
`m * phase(ct)` plus the explicit noise `extNoise`; nothing but the output changes. -/
theorem C13_externalProd (G : Gadget R) (hL : 0 < G.level) (s : Fin k → R) (m : R)
    (gsw : Fin (k + 1) → ℕ → Fin (k + 1) → R) (e : Fin (k + 1) → ℕ → R) (h : IsGSW G s m gsw e)
    (out ct : ℕ) (err : Fin (k + 1) → R) (mem : Mem R) :
    phase s (ctOf k (externalProdTo G k out gsw ct err mem) out)
      = m * phase s (ctOf k mem ct) + extNoise G s m e (ctOf k mem ct) err ∧
    ∀ v i, v ≠ out ∨ k + 1 ≤ i → externalProdTo G k out gsw ct err mem v i = mem v i := by
  refine ⟨?_, (mapLoopI_whole _ _ _ _ _ _).2⟩
  rw [← phase_extProd G hL s m gsw e h]
  unfold externalProdTo
  rw [(mapLoopI_whole _ _ _ _ _ _).1]
  congr 1; funext t
  exact ext0_coe _ t

/-- `ExternalProdAddGLWETo` / `ExternalProdAddLWETo`. -/
theorem C13_externalProdAdd (G : Gadget R) (hL : 0 < G.level) (s : Fin k → R) (m : R)
    (gsw : Fin (k + 1) → ℕ → Fin (k + 1) → R) (e : Fin (k + 1) → ℕ → R) (h : IsGSW G s m gsw e)
    (out ct : ℕ) (err : Fin (k + 1) → R) (mem : Mem R) :
    phase s (ctOf k (externalProdAddTo G k out gsw ct err mem) out)
      = phase s (ctOf k mem out) + (m * phase s (ctOf k mem ct) + extNoise G s m e (ctOf k mem ct) err) ∧
    ∀ v i, v ≠ out ∨ k + 1 ≤ i → externalProdAddTo G k out gsw ct err mem v i = mem v i := by
  refine ⟨?_, (mapLoopI_whole _ _ _ _ _ _).2⟩
  rw [← phase_extProd G hL s m gsw e h]
  unfold externalProdAddTo
  rw [(mapLoopI_whole _ _ _ _ _ _).1, ← phase_add]
  congr 1; funext t
  exact congrArg _ (ext0_coe _ t)

/-- `ExternalProdSubGLWETo` / `ExternalProdSubLWETo`. -/
theorem C13_externalProdSub (G : Gadget R) (hL : 0 < G.level) (s : Fin k → R) (m : R)
    (gsw : Fin (k + 1) → ℕ → Fin (k + 1) → R) (e : Fin (k + 1) → ℕ → R) (h : IsGSW G s m gsw e)
    (out ct : ℕ) (err : Fin (k + 1) → R) (mem : Mem R) :
    phase s (ctOf k (externalProdSubTo G k out gsw ct err mem) out)
      = phase s (ctOf k mem out) - (m * phase s (ctOf k mem ct) + extNoise G s m e (ctOf k mem ct) err) ∧
    ∀ v i, v ≠ out ∨ k + 1 ≤ i → externalProdSubTo G k out gsw ct err mem v i = mem v i := by
  refine ⟨?_, (mapLoopI_whole _ _ _ _ _ _).2⟩
  rw [← phase_extProd G hL s m gsw e h]
  unfold externalProdSubTo
  rw [(mapLoopI_whole _ _ _ _ _ _).1, ← phase_sub]
  congr 1; funext t
  exact congrArg _ (ext0_coe _ t)

/-- The accumulating Fourier forms used by blind rotation (exact part): same product. -/
theorem C13_externalProdAddFFT (G : Gadget R) (s : Fin k → R) (m : R)
    (gsw : Fin (k + 1) → ℕ → Fin (k + 1) → R) (e : Fin (k + 1) → ℕ → R) (h : IsGSW G s m gsw e)
    (c acc : Fin (k + 1) → R) :
    phase s (extProdAddFFT G.level acc gsw (fun i => G.dec (c i)))
      = phase s acc + (m * phase s c + extNoise G s m e c 0) := by
  rw [extProdAddFFT_eq]
  have h1 := phase_add s acc (fun t => ∑ i, ∑ j ∈ Finset.range G.level, G.dec (c i) j * gsw i j t)
  refine h1.trans ?_
  have hz : phase s (0 : Fin (k + 1) → R) = 0 := by simp [phase]
  rw [phase_lin2, sum_dec_gsw G s m gsw e h c, extNoise, hz]
  ring

theorem C13_externalProdSubFFT (G : Gadget R) (s : Fin k → R) (m : R)
    (gsw : Fin (k + 1) → ℕ → Fin (k + 1) → R) (e : Fin (k + 1) → ℕ → R) (h : IsGSW G s m gsw e)
    (c acc : Fin (k + 1) → R) :
    phase s (extProdSubFFT G.level acc gsw (fun i => G.dec (c i)))
      = phase s acc - (m * phase s c + extNoise G s m e c 0) := by
  rw [extProdSubFFT_eq]
  have h1 := phase_sub s acc (fun t => ∑ i, ∑ j ∈ Finset.range G.level, G.dec (c i) j * gsw i j t)
  refine h1.trans ?_
  have hz : phase s (0 : Fin (k + 1) → R) = 0 := by simp [phase]
  rw [phase_lin2, sum_dec_gsw G s m gsw e h c, extNoise, hz]
  ring

/-- **C13 (bound).** The noise of an external product: `M` bounds the growth of a product with the
message, `S` of a product with a key element, `B` the noise of the GGSW, `F` the FFT error. -/
theorem C13_noise_le (ν : RNorm R) (G : Gadget R) {D E : ℕ} (hG : G.Bounded ν D E) (s : Fin k → R) (m : R)
    (e : Fin (k + 1) → ℕ → R) (c err : Fin (k + 1) → R) (M S B F : ℕ)
    (hM : ∀ x, ν.f (m * x) ≤ M * ν.f x) (hS : ∀ i x, ν.f (x * s i) ≤ S * ν.f x)
    (hB : ∀ i j, j < G.level → ν.f (e i j) ≤ B) (hF : ν.f (phase s err) ≤ F) :
    ν.f (extNoise G s m e c err)
      ≤ M * (E * (1 + k * S)) + (k + 1) * (G.level * (ν.c * (D * B))) + F := by
  unfold extNoise
  refine (ν.add_le _ _).trans (Nat.add_le_add ((ν.add_le _ _).trans (Nat.add_le_add ?_ ?_)) hF)
  · exact (hM _).trans (Nat.mul_le_mul_left _ (ν.phase_le s _ E S (fun i => hG.eps_le _) hS))
  · exact noise_le G ν hG _ e B hB
end

section
variable {w N : ℕ} [NeZero N]

/-- A fresh GSW encryption is one. -/
theorem isGSW_encrypt {n : ℕ} (g : GadgetParams w) (sk : Fin n → BitVec w)
    (mask : Fin (n + 1) → ℕ → Fin n → BitVec w) (noise : Fin (n + 1) → ℕ → BitVec w) (c : BitVec w) :
    IsGSW (scalarGadget g) sk c (encryptGSWScalar g sk mask noise c) noise := by
  refine ⟨?_, fun i j _ => ?_⟩
  · exact isLev_encrypt g sk (mask 0) (noise 0) c
  · show phase sk (encryptLWEBody sk (mask i.succ j) (noise i.succ j) ((sk i * c) <<< g.logBaseQ j)) = _
    rw [phase_encryptLWEBody, shl_logBaseQ]
    show sk i * c * g.baseQ j + _ = c * sk i * g.baseQ j + _
    ring

/-- A fresh GGSW encryption is one; the noise contains the FFT errors of encryption. -/
theorem isGSW_encryptGGSW {k : ℕ} (g : GadgetParams w) (sk : Fin k → Poly N (BitVec w))
    (mask err : Fin (k + 1) → ℕ → Fin k → Poly N (BitVec w)) (noise : Fin (k + 1) → ℕ → Poly N (BitVec w))
    (perr : Fin k → Poly N (BitVec w)) (p : Poly N (BitVec w)) :
    IsGSW (polyGadget N g) sk p (encryptGGSWPoly g sk mask err noise perr p)
      (fun i j => Poly.C N (g.baseQ j) * (Fin.cons 0 perr : Fin (k + 1) → Poly N (BitVec w)) i
        + noise i j - ∑ t, err i j t) := by
  refine ⟨?_, fun i j hj => ?_⟩
  · intro j hj
    have h := isLev_encryptGLev g sk (mask 0) (err 0) (noise 0) p j hj
    simpa [encryptGGSWPoly] using h
  · have h := isLev_encryptGLev g sk (mask i.succ) (err i.succ) (noise i.succ) (p * sk i + perr i) j hj
    refine h.trans ?_
    show (p * sk i + perr i) * Poly.C N (g.baseQ j) + _ = p * sk i * Poly.C N (g.baseQ j) + _
    beta_reduce
    rw [Fin.cons_succ]
    ring

/-- Every element of the blind rotation key is a GGSW encryption of that bit of the LWE key. -/
theorem isGSW_blindRotateKey {k : ℕ} (g : GadgetParams w) (sk : Fin k → Poly N (BitVec w))
    (mask err : Fin (k + 1) → ℕ → Fin k → Poly N (BitVec w)) (noise : Fin (k + 1) → ℕ → Poly N (BitVec w))
    (b : BitVec w) :
    IsGSW (polyGadget N g) sk (Poly.C N b) (genBlindRotateKeyElem g sk mask err noise b)
      (fun i j => noise i j - ∑ t, err i j t) :=
  ⟨isLev_encryptGLev g sk _ _ _ _, fun _ => isLev_encryptGLev g sk _ _ _ _⟩

/-- **C13 for the GLWE functions.** GGSW from the encryptor, external product by the evaluator. -/
theorem C13_encrypted {k : ℕ} (g : GadgetParams w) (hg : g.Valid) (sk : Fin k → Poly N (BitVec w))
    (mask err : Fin (k + 1) → ℕ → Fin k → Poly N (BitVec w)) (noise : Fin (k + 1) → ℕ → Poly N (BitVec w))
    (perr : Fin k → Poly N (BitVec w)) (p : Poly N (BitVec w)) (out ct : ℕ)
    (ferr : Fin (k + 1) → Poly N (BitVec w)) (m : Mem (Poly N (BitVec w))) (M S B F : ℕ)
    (hM : ∀ x, pabs (p * x) ≤ M * pabs x) (hS : ∀ i x, pabs (x * sk i) ≤ S * pabs x)
    (hB : ∀ i j, j < g.level → pabs (Poly.C N (g.baseQ j) *
      (Fin.cons 0 perr : Fin (k + 1) → Poly N (BitVec w)) i + noise i j - ∑ t, err i j t) ≤ B)
    (hF : pabs (phase sk ferr) ≤ F) :
    pabs (phase sk (ctOf k (externalProdTo (polyGadget N g) k out
        (encryptGGSWPoly g sk mask err noise perr p) ct ferr m) out) - p * phase sk (ctOf k m ct))
      ≤ M * (2 ^ (w - g.level * g.logBase) / 2 * (1 + k * S))
        + (k + 1) * (g.level * (N * (g.base.toNat / 2 * B))) + F := by
  rw [(C13_externalProd (polyGadget N g) hg.level_pos sk p _ _
    (isGSW_encryptGGSW g sk mask err noise perr p) out ct ferr m).1, add_sub_cancel_left]
  exact C13_noise_le (polyNorm N w) (polyGadget N g) (polyGadget_bounded g hg) sk p _ _ ferr M S B F hM hS hB hF

/-- A concrete product: degree 2, rank 1, the GGSW encrypts `1 + X`. -/
example :
    (let sk : Fin 1 → Poly 2 (BitVec 32) := fun _ i => BitVec.ofNat 32 i
     let m : Mem (Poly 2 (BitVec 32)) := fun _ i t => BitVec.ofNat 32 (0x12345678 * (i + 1) + 0x7654321 * t)
     let p : Poly 2 (BitVec 32) := fun _ => 1
     let gsw := encryptGGSWPoly exGadget sk (fun i j _ t => BitVec.ofNat 32 (77777 * (i + 2 * j + t))) 0
       (fun i j _ => BitVec.ofNat 32 (i + j)) 0 p
     let out := ctOf 1 (externalProdTo (polyGadget 2 exGadget) 1 0 gsw 0 (fun _ _ => 3) m) 0
     let want := p * phase sk (ctOf 1 m 0)
     phase sk out ≠ want ∧ pabs (phase sk out - want) ≤ 2 ^ 22) := by
  decide +kernel
end
end Tfhe
