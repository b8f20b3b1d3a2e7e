import Verif.Props.C11

/-!
# C12: GLWE key switching
-/
namespace Tfhe
variable {w N : ℕ} [NeZero N]

/-- A fresh GLev ciphertext is a GLev encryption of its polynomial; the noise is the sampled noise minus
the errors of the products with the key. -/
theorem isLev_encryptGLev {k : ℕ} (g : GadgetParams w) (sk : Fin k → Poly N (BitVec w))
    (mask err : ℕ → Fin k → Poly N (BitVec w)) (noise : ℕ → Poly N (BitVec w)) (p : Poly N (BitVec w)) :
    IsLev (polyGadget N g) sk p (encryptGLevPoly g sk mask err noise p) (fun j => noise j - ∑ i, err j i) := by
  intro j _
  rw [encryptGLevPoly, phase_encryptGLWEBody]
  show _ = p * Poly.C N (g.baseQ j) + _
  ring

/-- **C12 (exact).** `KeySwitchGLWETo` with a key from `GenGLWEKeySwitchKey`, input of any rank, output
anywhere (also over the input): the phases differ by the decomposition loss weighted with the input key,
the key noise weighted with the digits, and the phase of the FFT errors. -/
theorem C12_keyswitch {k kIn : ℕ} (g : GadgetParams w) (hg : g.Valid) (sk : Fin k → Poly N (BitVec w))
    (skIn : Fin (kIn + 1) → Poly N (BitVec w)) (mask err : Fin (kIn + 1) → ℕ → Fin k → Poly N (BitVec w))
    (noise : Fin (kIn + 1) → ℕ → Poly N (BitVec w)) (ferr : Fin (k + 1) → Poly N (BitVec w))
    (out ct : ℕ) (m : Mem (Poly N (BitVec w))) :
    (phase sk (ctOf k (keySwitchTo (polyGadget N g) k out (genGLWEKeySwitchKey g sk mask err noise skIn)
        ct ferr m) out)
      = phase skIn (ctOf (kIn + 1) m ct)
        + ∑ i, (polyGadget N g).eps (ctOf (kIn + 1) m ct i.succ) * skIn i
        + ∑ i, ∑ j ∈ Finset.range g.level,
            (polyGadget N g).dec (ctOf (kIn + 1) m ct i.succ) j * (noise i j - ∑ t, err i j t)
        + phase sk ferr) ∧
    (∀ v i, v ≠ out ∨ k + 1 ≤ i →
      keySwitchTo (polyGadget N g) k out (genGLWEKeySwitchKey g sk mask err noise skIn) ct ferr m v i = m v i) :=
  ⟨keySwitch_phase (polyGadget N g) hg.level_pos k out sk skIn (genGLWEKeySwitchKey g sk mask err noise skIn) _
      (fun _ => isLev_encryptGLev g sk _ _ _ _) ct ferr m,
    (keySwitchTo_ct (polyGadget N g) hg.level_pos k out _ ct ferr m).2⟩

/-- **C12 (bound).** With key noise (including FFT error) at most `B` and FFT error of the result at most
`F`, every coefficient of the phase moves by at most this much; `S` bounds the growth of a product with
a key polynomial (`N` for binary keys, see `pabs_mul_binary`). -/
theorem C12_bound {k kIn : ℕ} (g : GadgetParams w) (hg : g.Valid) (sk : Fin k → Poly N (BitVec w))
    (skIn : Fin (kIn + 1) → Poly N (BitVec w)) (mask err : Fin (kIn + 1) → ℕ → Fin k → Poly N (BitVec w))
    (noise : Fin (kIn + 1) → ℕ → Poly N (BitVec w)) (ferr : Fin (k + 1) → Poly N (BitVec w))
    (out ct : ℕ) (m : Mem (Poly N (BitVec w))) (S B F : ℕ)
    (hS : ∀ i x, pabs (x * skIn i) ≤ S * pabs x)
    (hB : ∀ i j, j < g.level → pabs (noise i j - ∑ t, err i j t) ≤ B) (hF : pabs (phase sk ferr) ≤ F) :
    pabs (phase sk (ctOf k (keySwitchTo (polyGadget N g) k out (genGLWEKeySwitchKey g sk mask err noise skIn)
        ct ferr m) out) - phase skIn (ctOf (kIn + 1) m ct))
      ≤ (kIn + 1) * (S * (2 ^ (w - g.level * g.logBase) / 2))
        + (kIn + 1) * (g.level * (N * (g.base.toNat / 2 * B))) + F :=
  keySwitch_bound (polyNorm N w) (polyGadget N g) (polyGadget_bounded g hg) k out sk skIn
    (genGLWEKeySwitchKey g sk mask err noise skIn) _ (fun _ => isLev_encryptGLev g sk _ _ _ _) ct ferr m S B F
    hS hB hF

/-- Multiplying by a polynomial with coefficients 0 and 1 grows a polynomial by at most `N`. -/
theorem pabs_mul_binary (s : Poly N (BitVec w)) (hbin : ∀ i, s i = 0 ∨ s i = 1) (x : Poly N (BitVec w)) :
    pabs (x * s) ≤ N * pabs x := by
  refine (pabs_mul_le x s).trans (Nat.mul_le_mul_left _ ?_)
  have hs : ∀ x : BitVec w, (x = 0 ∨ x = 1) → ∀ y : BitVec w, wabs (x * y) ≤ wabs y := by
    rintro x (rfl | rfl) y <;> simp
  have h1 : pabs s ≤ 1 := by
    rw [pabs_le_iff]
    intro i
    rcases hbin i with h | h
    · rw [h, wabs_zero]; omega
    · rw [h]
      have := wabs_cast_le (w := w) 1
      simpa using this
  calc pabs x * pabs s ≤ pabs x * 1 := Nat.mul_le_mul_left _ h1
    _ = pabs x := mul_one _

/-- A concrete key switch, rank 2 to rank 1 with degree 2, noisy and with an FFT error: the phase moves,
but within the bound. -/
example :
    (let sk : Fin 1 → Poly 2 (BitVec 32) := fun _ i => BitVec.ofNat 32 i
     let skIn : Fin 2 → Poly 2 (BitVec 32) := fun _ _ => 1
     let m : Mem (Poly 2 (BitVec 32)) := fun _ i t => BitVec.ofNat 32 (0x12345678 * (i + 1) + 0x7654321 * t)
     let ksk := genGLWEKeySwitchKey exGadget sk (fun i j _ t => BitVec.ofNat 32 (77777 * (i + 2 * j + t))) 0
       (fun i j _ => BitVec.ofNat 32 (i + j)) skIn
     let out := ctOf 1 (keySwitchTo (polyGadget 2 exGadget) 1 0 ksk 0 (fun _ _ => 3) m) 0
     phase sk out ≠ phase skIn (ctOf 2 m 0) ∧ pabs (phase sk out - phase skIn (ctOf 2 m 0)) ≤ 2 ^ 21 + 400) := by
  decide +kernel

end Tfhe
