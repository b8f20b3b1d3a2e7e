import Verif.Lemma.EncLev
import Verif.Props.C57
import Verif.Props.C63

/-!
# C64: encryptions to the Fourier domain and leveled encryptions under the published parameter sets decrypt
-/
namespace Tfhe
open Rng Gauss Fft Poly Enc Published

/-! ## Specification -/

/-- What the way through the Fourier domain may change in a phase, for `k` key polynomials. -/
def fourierErr {w : ℕ} (p : Params w) (k : ℕ) : ℕ := (1 + k * p.polyRank.toNat) * rtErr (p.logPolyRank - 4) w

/-- The first level of the gadget carries errors up to `E`. -/
def Carries {w : ℕ} (g : GadgetParams w) (E : ℚ) : Prop := g.Valid ∧ 2 * E < 2 ^ g.logFirstBaseQ

/-- What the decryption theorems ask of compiled parameters. -/
structure FourierRoom {w : ℕ} (p : Params w) : Prop where
  glwe : noiseMax w p.glweStdDev + fourierErr p p.glweRank.toNat + 2 ^ w / 2 ^ 50 < (p.scale.toNat : ℚ) / 2
  rotate : Carries p.blindRotateParams (noiseMax w p.glweStdDev + fourierErr p p.glweRank.toNat)
  switch : Carries p.keySwitchParams (noiseMax w p.glweStdDev + fourierErr p p.glweRank.toNat)
  lev : Carries p.keySwitchParams (noiseMax w p.defaultLWEStdDev)

namespace Fou

instance {w : ℕ} (g : GadgetParams w) : Decidable g.Valid :=
  decidable_of_iff (1 ≤ g.logBase ∧ g.base.toNat = 2 ^ g.logBase ∧ 1 ≤ g.level ∧ g.logBase * g.level ≤ w)
    ⟨fun ⟨a, b, c, d⟩ => ⟨a, b, c, d⟩, fun ⟨a, b, c, d⟩ => ⟨a, b, c, d⟩⟩

instance {w : ℕ} (g : GadgetParams w) (E : ℚ) : Decidable (Carries g E) := inferInstanceAs (Decidable (_ ∧ _))

instance {w : ℕ} (p : Params w) : Decidable (FourierRoom p) :=
  decidable_of_iff (noiseMax w p.glweStdDev + fourierErr p p.glweRank.toNat + 2 ^ w / 2 ^ 50 < (p.scale.toNat : ℚ) / 2 ∧
    Carries p.blindRotateParams (noiseMax w p.glweStdDev + fourierErr p p.glweRank.toNat) ∧
    Carries p.keySwitchParams (noiseMax w p.glweStdDev + fourierErr p p.glweRank.toNat) ∧
    Carries p.keySwitchParams (noiseMax w p.defaultLWEStdDev))
    ⟨fun ⟨a, b, c, d⟩ => ⟨a, b, c, d⟩, fun ⟨a, b, c, d⟩ => ⟨a, b, c, d⟩⟩

theorem room32 : ∀ lit ∈ base32, ((lit.compile 0).all fun p => decide (FourierRoom p)) = true := by decide +kernel
theorem room64 : ∀ lit ∈ base64, ((lit.compile 0).all fun p => decide (FourierRoom p)) = true := by decide +kernel
end Fou

/-- **C64.**  Every published set leaves room for the rounding of the transforms. -/
theorem C64_room {w : ℕ} {lit : ParamsLit w} (h : IsPublished w lit) {impl : BitVec w} {p : Params w}
    (hp : lit.compile impl = some p) : FourierRoom p := by
  have h1 : (compileScale w lit.messageModulus.toNat).isSome := by
    cases h with
    | w32 _ h => exact (Bool.and_eq_true_iff.mp (Pubd.ok32 _ h)).1
    | w64 _ h => exact (Bool.and_eq_true_iff.mp (Pubd.ok64 _ h)).1
  rw [Pubd.compile_impl lit impl h1] at hp
  cases h with
  | w32 _ h => have := Fou.room32 _ h; rw [hp] at this; simpa using this
  | w64 _ h => have := Fou.room64 _ h; rw [hp] at this; simpa using this

namespace Fou

theorem noise_word {M : Libm} (hM : GoodLibm M) {w : ℕ} {s : BitVec 64} (h : 1 / 8 ≤ f64Val s * 2 ^ w) (v : BitVec w)
    (hv : IsNoise (stdDevQ M w s) v) : wabs v ≤ Pubd.noiseNat w s := by
  obtain ⟨k, rfl, hk⟩ := hv
  refine (wabs_ofInt_le k).trans ?_
  have h1 := hk.trans (Pubd.stdDev_near hM w s h).2
  have h2 : |(k : ℚ)| ≤ noiseMax w s := by exact_mod_cast h1
  unfold Pubd.noiseNat
  apply Nat.le_floor
  rw [Nat.cast_natAbs, Int.cast_abs]
  exact h2

theorem noise_poly' {M : Libm} (hM : GoodLibm M) {w N : ℕ} {s : BitVec 64} (h : 1 / 8 ≤ f64Val s * 2 ^ w) (v : Poly N (BitVec w))
    (hv : ∀ i, IsNoise (stdDevQ M w s) (v i)) : pabs v ≤ Pubd.noiseNat w s :=
  (pabs_le_iff _ _).mpr fun i => noise_word hM h _ (hv i)

theorem carries {w : ℕ} {g : GadgetParams w} {s : BitVec 64} (h : 1 / 8 ≤ f64Val s * 2 ^ w) {E : ℕ}
    (hg : Carries g (noiseMax w s + E)) : 2 * (Pubd.noiseNat w s + E) < 2 ^ g.logFirstBaseQ := by
  have := Pubd.noiseNat_le w s h
  have h2 := hg.2
  have : 2 * ((Pubd.noiseNat w s : ℚ) + E) < 2 ^ g.logFirstBaseQ := by linarith
  exact_mod_cast this

/-- Decoding a phase with noise up to half the modulus and a further error. -/
theorem decode {M : Libm} (hM : GoodLibm M) {w N : ℕ} {p : Params w} (R : Roomy p) (messages : List (BitVec 64))
    (pt n d : Poly N (BitVec w)) (hpt : Poly.toList pt = encodeGLWECustom N messages p.messageModulus p.scale)
    (hn : ∀ i, NearNoise (stdDevQ M w p.glweStdDev) (n i)) (D : ℕ) (hd : pabs d ≤ D)
    (hr : noiseMax w p.glweStdDev + D + 2 ^ w / 2 ^ 50 < (p.scale.toNat : ℚ) / 2) (outLen : ℕ) :
    ∃ out, decodeGLWECustom outLen (Poly.toList (pt + n + d)) p.messageModulus p.scale = some out ∧ out.length = min outLen N ∧
      ∀ i, i < min outLen N → out[i]? = some (if h : i < messages.length then
        (((messages[i].setWidth w).toNat % p.messageModulus.toNat : ℕ) : ℤ) else 0) := by
  choose kk hk1 hk2 using fun i => Pubd.noise_int hM R.sigma.2 (hn i)
  refine Half.decodeGLWE_double N outLen messages p.messageModulus p.scale R.mod (Pubd.exact_nat R) pt _ hpt
    (fun i => kk i + (d i).toInt) (fun i => ?_) (fun i => ?_)
  · rw [BitVec.ofInt_add, BitVec.ofInt_toInt]
    show (pt i + n i + d i) + (pt i + n i + d i) = _
    linear_combination hk1 i
  · have h1 : |(kk i : ℚ)| ≤ noiseMax w p.glweStdDev := by
      refine le_trans ?_ (Pubd.noiseNat_le w _ R.sigma.2)
      rw [← Int.cast_abs, ← Nat.cast_natAbs]
      exact_mod_cast hk2 i
    have h2 : |((d i).toInt : ℚ)| ≤ D := by
      have := (wabs_le_pabs d i).trans hd
      unfold wabs at this
      rw [← Int.cast_abs, ← Nat.cast_natAbs]
      exact_mod_cast this
    have h3 : (2 : ℚ) ^ w / 2 ^ 51 ≤ 2 ^ w / 2 ^ 50 := div_le_div_of_nonneg_left (by positivity) (by positivity) (by norm_num)
    have h4 := abs_add_le (kk i : ℚ) ((d i).toInt : ℚ)
    push_cast
    linarith
end Fou

section
variable {w : ℕ} {lit : ParamsLit w} (hpub : IsPublished w lit) {impl : BitVec w} {p : Params w} (hp : lit.compile impl = some p)
  {M : Libm} (hM : GoodLibm M)
include hpub hp hM

/-! ## Words -/

/-- **C64, Lev and GSW.**  Under every published set, for every key, mask and scalar, on every stream without two small words in a row:
`EncryptLevScalar` and `EncryptGSWScalar` do not panic, every row is an encryption of its multiple of the scalar with an error up to
the bound of one sample, and if the first level of the gadget carries that error, `DecryptLevScalar` and `DecryptGSWScalar` return the
scalar modulo the base. -/
theorem C64_lev_partial {n : ℕ} (g : GadgetParams w) (hg : Carries g (noiseMax w p.defaultLWEStdDev)) (sk : Fin n → BitVec w)
    (mask : Fin (n + 1) → ℕ → Fin n → BitVec w) (ct : Fin (n + 1) → ℕ → Fin (n + 1) → BitVec w) (c : BitVec w) :
    (Mostly (Enc.encryptLevScalar M g (stdDevQ M w p.defaultLWEStdDev) sk (mask 0) (ct 0) c) fun ct =>
      WLevUpTo g sk c ct (Pubd.noiseNat w p.defaultLWEStdDev) ∧ (decryptLevScalar g sk ct).toNat = c.toNat % g.base.toNat) ∧
    (Mostly (Enc.encryptGSWScalar M g (stdDevQ M w p.defaultLWEStdDev) sk mask ct c) fun ct =>
      WGSWUpTo g sk c ct (Pubd.noiseNat w p.defaultLWEStdDev) ∧ (decryptLevScalar g sk (ct 0)).toNat = c.toNat % g.base.toNat) := by
  have R := Pubd.roomy hpub hp
  obtain ⟨w1, w64⟩ := Pubd.width hpub
  have hb : 1 / 8 ≤ f64Val p.defaultLWEStdDev * 2 ^ w ∧
      noiseMax w p.defaultLWEStdDev + p.messageModulus.toNat + 2 ^ w / 2 ^ 50 < (p.scale.toNat : ℚ) / 2 := by
    unfold Params.defaultLWEStdDev
    split
    · exact ⟨R.sigma.1, R.lwe⟩
    · exact ⟨R.sigma.2, R.poly⟩
  obtain ⟨h0, hb⟩ := hb
  have s0 := (Pubd.stdDev_near hM w _ h0).1
  have s1 := Pubd.sigma_lt hM w64 _ h0 hb
  have hE := Fou.carries (E := 0) h0 (by simpa using hg)
  rw [add_zero] at hE
  refine ⟨(mostly_encryptLevScalar w64 hM s0 s1 (Fou.noise_word hM h0) sk g (mask 0) (ct 0) c).mono fun ct h =>
    ⟨h, decryptLev_spec hg.1 h hE⟩, (mostly_encryptGSWScalar w64 hM s0 s1 (Fou.noise_word hM h0) sk g mask ct c).mono fun ct h =>
    ⟨h, ?_⟩⟩
  obtain ⟨err, ⟨h1, -⟩, h2⟩ := h
  exact decryptLev_spec hg.1 ⟨err 0, h1, h2 0⟩ hE

variable {K : Machine} (hK : Ieee K) {l : ℕ} (hl : p.logPolyRank = l + 4) {e : Eval ℝ}
  (he : newEvaluatorFl K.arith K.cis p.polyRank = some e) (signed : Bool)
include hK hl he

/-! ## Polynomials -/

/-- **C64, GLWE.**  Under every published set, for every binary key, mask and list of messages, and every stream of random words: what
`EncryptFFTGLWE` returns decrypts with `DecryptFFTGLWE` to the messages, although both transforms are computed in floating point, and
nothing panics.  (`Always`: as in C61.) -/
theorem C64_glwe {k : ℕ} (hk : k = p.glweRank.toNat) (old old2 old' : Fin k → ℕ → ℝ) (ct : Fin (k + 1) → FPoly)
    (sk mask : Fin k → Poly (2 ^ (l + 4)) (BitVec w)) (hs : ∀ i t, sk i t = 0 ∨ sk i t = 1) (messages : List (BitVec 64))
    (pt : Poly (2 ^ (l + 4)) (BitVec w))
    (hpt : Poly.toList pt = encodeGLWECustom (2 ^ (l + 4)) messages p.messageModulus p.scale) (outLen : ℕ) :
    Always M (encryptFFTGLWE K M signed e (stdDevQ M w p.glweStdDev) old (fwdFFTKey K.toFloat64 e old' sk) mask ct pt) fun ct =>
      ∃ ph out, decryptFFTGLWEPhase K signed e old2 (fwdFFTKey K.toFloat64 e old' sk) ct = some ph ∧
        decodeGLWECustom outLen (Poly.toList (ph : Poly (2 ^ (l + 4)) (BitVec w))) p.messageModulus p.scale = some out ∧
        out.length = min outLen (2 ^ (l + 4)) ∧
        ∀ i, i < min outLen (2 ^ (l + 4)) → out[i]? = some (if h : i < messages.length then
          (((messages[i].setWidth w).toNat % p.messageModulus.toNat : ℕ) : ℤ) else 0) := by
  have R := Pubd.roomy hpub hp
  have F := C64_room hpub hp
  obtain ⟨w1, w64⟩ := Pubd.width hpub
  obtain ⟨r1, r2, r3⟩ := R.rank
  rw [hl] at r2 r3
  refine Always.bind (always_encryptGLWEBody hK.toAccurate r3 he w1 w64 (by omega) signed hM (Pubd.stdDev_near hM w _ R.sigma.2).1
    (Pubd.sigma_lt hM w64 _ R.sigma.2 R.poly) old old' sk mask (fun i t => bit_le _ (hs i t)) pt) ?_
  rintro _ ⟨n, hn, rfl⟩
  refine Always.ret ?_
  obtain ⟨d, d1, d2⟩ := decryptFFT_phase hK r3 he w1 w64 (by omega) signed old2 old' ct sk hs (Tfhe.encryptGLWEBody sk mask 0 n pt)
  have hph : phase sk (Tfhe.encryptGLWEBody sk mask 0 n pt) = pt + n := by
    have := (C07_fresh sk mask 0 n pt).1
    simp only [Pi.zero_apply, Finset.sum_const_zero, sub_zero] at this
    exact this
  rw [hph] at d2
  have hD : (1 + k * 2 ^ (l + 4)) * rtErr l w = fourierErr p p.glweRank.toNat := by
    rw [fourierErr, Pubd.toNat_of_toInt r3, hl, hk, Nat.add_sub_cancel]
  obtain ⟨out, o1, o2, o3⟩ := Fou.decode hM R messages pt n d hpt hn _ (hD ▸ d1) F.glwe outLen
  exact ⟨_, out, d2, o1, o2, o3⟩

omit hM hK he in
theorem Fou.err_eq {k : ℕ} (hk : k = p.glweRank.toNat) : (1 + k * 2 ^ (l + 4)) * rtErr l w = fourierErr p p.glweRank.toNat := by
  have r3 := (Pubd.roomy hpub hp).rank.2.2
  rw [hl] at r3
  rw [fourierErr, Pubd.toNat_of_toInt r3, hl, hk, Nat.add_sub_cancel]

section
variable {k : ℕ} (g : GadgetParams w) (old : Fin (k + 1) → ℕ → Fin k → ℕ → ℝ) (oldG old2 old' : Fin k → ℕ → ℝ)
  (sk : Fin k → Poly (2 ^ (l + 4)) (BitVec w)) (mask : Fin (k + 1) → ℕ → Fin k → Poly (2 ^ (l + 4)) (BitVec w))
  (ptGGSW : Fin k → Poly (2 ^ (l + 4)) (BitVec w)) (m : Poly (2 ^ (l + 4)) (BitVec w))

/-- **C64, GLev and GGSW.**  Under every published set, for keys with coefficients up to `2^8`, on every stream without two small words
in a row: `EncryptGLevPoly` and `EncryptGGSWPoly`, with products computed in floating point, do not panic, every row is an encryption of
its multiple of the polynomial with an error up to the bound of one sample, and if the first level of the gadget carries that error, the
decryptions return the polynomial modulo the base. -/
theorem C64_glev_partial (hg : Carries g (noiseMax w p.glweStdDev)) (hs : ∀ i t, |(sk i t).toInt| ≤ 2 ^ 8)
    (ct : Fin (k + 1) → ℕ → Fin (k + 1) → Poly (2 ^ (l + 4)) (BitVec w)) :
    (Mostly (Enc.encryptGLevPoly K M signed e g (stdDevQ M w p.glweStdDev) (old 0) (fwdFFTKey K.toFloat64 e old' sk) (mask 0) (ct 0) m)
      fun ct => LevUpTo g sk m ct (Pubd.noiseNat w p.glweStdDev) ∧
        ∃ q, Enc.decryptGLevPoly K signed e g old2 (fwdFFTKey K.toFloat64 e old' sk) ct = some q ∧
          ∀ i, (q i).toNat = (m i).toNat % g.base.toNat) ∧
    (Mostly (Enc.encryptGGSWPoly K M signed e g (stdDevQ M w p.glweStdDev) oldG old (fwdFFTKey K.toFloat64 e old' sk) mask ptGGSW ct m)
      fun ct => GSWUpTo g sk m ct (Pubd.noiseNat w p.glweStdDev) ∧
        ∃ q, Enc.decryptGLevPoly K signed e g old2 (fwdFFTKey K.toFloat64 e old' sk) (ct 0) = some q ∧
          ∀ i, (q i).toNat = (m i).toNat % g.base.toNat) := by
  have R := Pubd.roomy hpub hp
  obtain ⟨w1, w64⟩ := Pubd.width hpub
  obtain ⟨r1, r2, r3⟩ := R.rank
  rw [hl] at r2 r3
  have s0 := (Pubd.stdDev_near hM w _ R.sigma.2).1
  have s1 := Pubd.sigma_lt hM w64 _ R.sigma.2 R.poly
  have hE := Fou.carries (E := 0) R.sigma.2 (by simpa using hg)
  rw [add_zero] at hE
  have dec : ∀ ct, LevUpTo g sk m ct (Pubd.noiseNat w p.glweStdDev) →
      ∃ q, Enc.decryptGLevPoly K signed e g old2 (fwdFFTKey K.toFloat64 e old' sk) ct = some q ∧
        ∀ i, (q i).toNat = (m i).toNat % g.base.toNat := fun ct h =>
    ⟨_, congrArg (Option.map (roundFirst g)) (Enc.decryptGLWEPhase_eq hK.toAccurate r3 he w1 w64 (by omega) signed old2 old' sk hs (ct 0)),
      roundFirst_spec hg.1 h hE⟩
  refine ⟨(mostly_encryptGLevPoly hK r3 he w1 w64 (by omega) signed hM s0 s1 (Fou.noise_poly' hM R.sigma.2) sk hs g (old 0) old' (mask 0)
    (ct 0) m).mono fun ct h => ⟨h, dec ct h⟩,
    (mostly_encryptGGSWPoly hK r3 he w1 w64 (by omega) signed hM s0 s1 (Fou.noise_poly' hM R.sigma.2) sk hs g oldG old old' mask
    ptGGSW ct m).mono fun ct h => ⟨h, dec (ct 0) ?_⟩⟩
  obtain ⟨err, ⟨h1, -⟩, h2⟩ := h
  exact ⟨err 0, h1, h2 0⟩

/-- **C64, FFTGLev and FFTGGSW.**  The same for ciphertexts in the Fourier domain, for binary keys: transformed back, every row is an
encryption of its multiple of the polynomial, with an error up to the bound of one sample plus that of the transforms. -/
theorem C64_fourier_partial (hk : k = p.glweRank.toNat) (hg : Carries g (noiseMax w p.glweStdDev + fourierErr p k))
    (hs : ∀ i t, sk i t = 0 ∨ sk i t = 1) (ct : Fin (k + 1) → ℕ → Fin (k + 1) → FPoly) :
    (Mostly (encryptFFTGLevPoly K M signed e g (stdDevQ M w p.glweStdDev) (old 0) (fwdFFTKey K.toFloat64 e old' sk) (mask 0) (ct 0) m)
      fun ct => LevUpTo g sk m (fun j => invFFTCt K e (ct j)) (Pubd.noiseNat w p.glweStdDev + fourierErr p k) ∧
        ∃ q, decryptFFTGLevPoly K signed e g old2 (fwdFFTKey K.toFloat64 e old' sk) ct = some q ∧
          ∀ i : Fin (2 ^ (l + 4)), (q i).toNat = (m i).toNat % g.base.toNat) ∧
    (Mostly (encryptFFTGGSWPoly K M signed e g (stdDevQ M w p.glweStdDev) oldG old (fwdFFTKey K.toFloat64 e old' sk) mask ptGGSW ct m)
      fun ct => GSWUpTo g sk m (fun i j => invFFTCt K e (ct i j)) (Pubd.noiseNat w p.glweStdDev + fourierErr p k) ∧
        ∃ q, decryptFFTGLevPoly K signed e g old2 (fwdFFTKey K.toFloat64 e old' sk) (ct 0) = some q ∧
          ∀ i : Fin (2 ^ (l + 4)), (q i).toNat = (m i).toNat % g.base.toNat) := by
  have R := Pubd.roomy hpub hp
  obtain ⟨w1, w64⟩ := Pubd.width hpub
  obtain ⟨r1, r2, r3⟩ := R.rank
  rw [hl] at r2 r3
  have s0 := (Pubd.stdDev_near hM w _ R.sigma.2).1
  have s1 := Pubd.sigma_lt hM w64 _ R.sigma.2 R.poly
  have hE := Fou.carries R.sigma.2 hg
  have hD : (1 + k * 2 ^ (l + 4)) * rtErr l w = fourierErr p k := by
    rw [Fou.err_eq hpub hp hl hk, hk]
  have hs8 : ∀ i t, |(sk i t).toInt| ≤ 2 ^ 8 := fun i t => bit_le _ (hs i t)
  have dec : ∀ ct : ℕ → Fin (k + 1) → FPoly,
      LevUpTo g sk m (fun j => invFFTCt K e (ct j)) (Pubd.noiseNat w p.glweStdDev + fourierErr p k) →
      ∃ q, decryptFFTGLevPoly K signed e g old2 (fwdFFTKey K.toFloat64 e old' sk) ct = some q ∧
        ∀ i : Fin (2 ^ (l + 4)), (q i).toNat = (m i).toNat % g.base.toNat := by
    intro ct h
    refine ⟨roundFirst g (phase sk (invFFTCt K e (ct 0))), ?_, fun i => roundFirst_spec hg.1 h hE i⟩
    unfold decryptFFTGLevPoly decryptFFTGLWEPhase
    rw [Enc.decryptGLWEPhase_eq hK.toAccurate r3 he w1 w64 (by omega) signed old2 old' sk hs8 _, Option.map_some]
  refine ⟨(mostly_encryptFFTGLevPoly hK r3 he w1 w64 (by omega) signed hM s0 s1 (Fou.noise_poly' hM R.sigma.2) sk g hs (old 0) old'
    (mask 0) (ct 0) m).mono fun ct h => ?_,
    (mostly_encryptFFTGGSWPoly hK r3 he w1 w64 (by omega) signed hM s0 s1 (Fou.noise_poly' hM R.sigma.2) sk g hs oldG old old' mask
    ptGGSW ct m).mono fun ct h => ?_⟩
  · rw [hD] at h
    exact ⟨h, dec ct h⟩
  · rw [hD] at h
    refine ⟨h, dec (ct 0) ?_⟩
    obtain ⟨err, ⟨h1, -⟩, h2⟩ := h
    exact ⟨err 0, h1, h2 0⟩
end
end

/-- **C64, messages.**  `EncryptGLevTo` and its variants encrypt the messages modulo the message modulus, and `DecryptGLevTo` and its
variants, which reduce what the theorems above give once more, return them, if the message modulus does not exceed the base. -/
theorem C64_messages {w N : ℕ} [NeZero N] (hw : w ≤ 64) {g : GadgetParams w} (hg : g.Valid) (p : BitVec w) (hp : p ≠ 0)
    (hpb : p.toNat ≤ g.base.toNat) (messages old : List (BitVec 64)) :
    ∃ m : Poly N (BitVec w), glevMessage p messages = some m ∧
      ∀ q : Poly N (BitVec w), (∀ i, (q i).toNat = (m i).toNat % g.base.toNat) →
        ∃ r, glevMessagesOut p q old = some r ∧ r.length = old.length ∧ ∀ i y, r[i]? = some y →
          if i < N then y.toInt = (match messages[i]? with | some x => ((x.setWidth w).toNat % p.toNat : ℕ) | none => 0 : ℤ)
          else old[i]? = some y := by
  have hp0 : 0 < p.toNat := by
    rcases Nat.eq_zero_or_pos p.toNat with h | h
    · exact absurd (BitVec.eq_of_toNat_eq (by rw [h]; simp)) hp
    · exact h
  have hbl : g.base.toNat ≤ 2 ^ (w - 1) := by
    rw [hg.base_eq]
    exact Nat.pow_le_pow_right (by norm_num) (by have := hg.logBase_lt; omega)
  have h64 : 2 ^ (w - 1) ≤ 2 ^ 63 := Nat.pow_le_pow_right (by norm_num) (by omega)
  obtain ⟨m, hm0, hm⟩ : ∃ m : Poly N (BitVec w), glevMessage p messages = some m ∧
      ∀ i (hi : i < N), ((m ⟨i, hi⟩).toNat : ℤ)
        = (match messages[i]? with | some x => ((x.setWidth w).toNat % p.toNat : ℕ) | none => 0 : ℤ) ∧
        (m ⟨i, hi⟩).toNat < p.toNat := by
    refine ⟨_, if_neg hp, fun i hi => ?_⟩
    cases messages[i]? with
    | none => simp [hp0]
    | some x => simp only [BitVec.toNat_umod]; exact ⟨trivial, Nat.mod_lt _ hp0⟩
  refine ⟨m, hm0, fun q hq => ⟨_, if_neg hp, by simp, fun i y hy => ?_⟩⟩
  rw [List.getElem?_mapIdx, Option.map_eq_some_iff] at hy
  obtain ⟨o, ho, rfl⟩ := hy
  split
  · next hi =>
    obtain ⟨e1, e2⟩ := hm i hi
    have hd : (q ⟨i, hi⟩ % p).toNat = (m ⟨i, hi⟩).toNat := by
      rw [BitVec.toNat_umod, hq, Nat.mod_eq_of_lt (a := (m ⟨i, hi⟩).toNat) (by omega), Nat.mod_eq_of_lt e2]
    rw [← e1, BitVec.toInt_eq_toNat_of_lt, BitVec.toNat_setWidth, hd, Nat.mod_eq_of_lt (by omega)]
    rw [BitVec.toNat_setWidth, hd, Nat.mod_eq_of_lt (by omega)]
    omega
  · exact ho

/-! ## Infinities

On a platform that converts an infinity to the smallest integer, as `CVTTSD2SQ` does, a sample that is infinite is a noise of half the
modulus.  Decoding with the default encoding does not see it (C61), decoding of leveled ciphertexts does. -/

/-- **C64 is false on every stream.**  For every gadget, key, mask and scalar there is a stream on which `EncryptLevScalar` returns a
ciphertext that `DecryptLevScalar` decrypts to the scalar plus half the base. -/
theorem C64_infinity {n : ℕ} {M : Libm} (hM : GoodLibm M) (hinf : M.int64 (.inf false) = BitVec.intMin 64) {σ : ℝ} (hσ : 0 < σ)
    (g : GadgetParams 64) (hg : g.Valid) (sk : Fin n → BitVec 64) (mask : ℕ → Fin n → BitVec 64) (ct : ℕ → Fin (n + 1) → BitVec 64)
    (c : BitVec 64) :
    ∃ ws ct', Enc.encryptLevScalar M g σ sk mask ct c ws = .ok ct' [] ∧
      (decryptLevScalar g sk ct').toNat = (c.toNat + g.base.toNat / 2) % g.base.toNat ∧
      (decryptLevScalar g sk ct').toNat ≠ c.toNat % g.base.toNat := by
  obtain ⟨ct', h1, h2⟩ := encryptLev_inf hM hσ g sk mask ct c []
  refine ⟨_, ct', h1, ?_⟩
  have hb := hg.base_eq
  have hlt := hg.logBase_lt
  have hpos := hg.logBase_pos
  have hpow : g.base.toNat / 2 = 2 ^ (g.logBase - 1) := by
    rw [hb]; conv_lhs => rw [show g.logBase = (g.logBase - 1) + 1 by omega, pow_succ]
    omega
  have e1 : (BitVec.intMin 64) = BitVec.ofNat 64 (g.base.toNat / 2) * g.baseQ 0 := by
    have hbq : g.baseQ 0 = BitVec.ofNat 64 (2 ^ g.logFirstBaseQ) := by
      have : g.logFirstBaseQ = g.logBaseQ 0 := by simp [GadgetParams.logBaseQ, GadgetParams.logFirstBaseQ]
      rw [GadgetParams.baseQ, shl_eq, this]
      show 1 * (2 : BitVec 64) ^ g.logBaseQ 0 = ((2 ^ g.logBaseQ 0 : ℕ) : BitVec 64)
      rw [one_mul]
      push_cast
      rfl
    rw [hbq, hpow, ← BitVec.ofNat_mul, ← pow_add]
    have : g.logBase - 1 + g.logFirstBaseQ = 63 := by unfold GadgetParams.logFirstBaseQ; omega
    rw [this]
    rfl
  have e2 : phase sk (ct' 0) = (c + BitVec.ofNat 64 (g.base.toNat / 2)) * g.baseQ 0 + 0 := by
    rw [h2 0 hg.level_pos, (C05_fresh sk (mask 0) _ _).1, shl_logBaseQ, hinf, BitVec.setWidth_eq, e1]
    ring
  have e3 : (decryptLevScalar g sk ct').toNat = (c.toNat + g.base.toNat / 2) % g.base.toNat := by
    rw [decryptLevScalar, C05_decryptPhase, e2, round_first g hg _ 0 (by simp) (by simp), BitVec.toNat_add, BitVec.toNat_ofNat]
    rw [hb, Nat.mod_mod_of_dvd _ (pow_dvd_pow 2 hlt.le), Nat.add_mod, Nat.mod_mod_of_dvd _ (pow_dvd_pow 2 hlt.le), ← Nat.add_mod]
  refine ⟨e3, ?_⟩
  rw [e3]
  intro h
  have h3 : g.base.toNat ∣ g.base.toNat / 2 := by
    have : (c.toNat + g.base.toNat / 2) ≡ c.toNat + 0 [MOD g.base.toNat] := h
    exact (Nat.modEq_zero_iff_dvd).mp (Nat.ModEq.add_left_cancel' _ this)
  have h4 : 0 < g.base.toNat / 2 := by rw [hpow]; positivity
  have := Nat.le_of_dvd h4 h3
  omega

/-! ## Cases -/
namespace Fou

/-- `k` times the word 512 is what the computation reads. -/
def Runs {α : Type} (m : Stream α) (k : ℕ) : Prop := ∀ rest, ∃ a, m (List.replicate k 512 ++ rest) = .ok a rest

theorem Runs.bind {α β : Type} {m : Stream α} {f : α → Stream β} {k k' : ℕ} (h : Runs m k) (h' : ∀ a, Runs (f a) k') :
    Runs (m >>= f) (k + k') := by
  intro rest
  obtain ⟨a, ha⟩ := h (List.replicate k' 512 ++ rest)
  obtain ⟨b, hb⟩ := h' a rest
  rw [← List.append_assoc, List.replicate_append_replicate] at ha
  exact ⟨b, bind_ok' ha hb⟩

theorem Runs.ret {α : Type} (a : α) : Runs (pure a) 0 := fun _ => ⟨a, rfl⟩

theorem Runs.foldlM {α ι : Type} (f : α → ι → Stream α) (k : ℕ) (h : ∀ a i, Runs (f a i) k) (l : List ι) (a : α) :
    Runs (l.foldlM f a) (l.length * k) := by
  induction l generalizing a with
  | nil => rw [List.length_nil, zero_mul]; exact Runs.ret a
  | cons i l ih =>
    rw [List.foldlM_cons, List.length_cons, Nat.succ_mul, add_comm]
    exact Runs.bind (h a i) ih

theorem norm512 (M : Libm) (rest : List (BitVec 32)) : ∃ x, normFloat M (512 :: rest) = some (x, rest) := by
  rw [normFloat.eq_def]
  simp only
  rw [if_pos (by decide +kernel)]
  exact ⟨_, rfl⟩

theorem runs_addNoise (M : Libm) {w N : ℕ} {σ : ℝ} (h : ¬σ < 0) (p : Poly N (BitVec w)) : Runs (addNoise M σ p) N := by
  have key : ∀ (l : List (BitVec w)) rest, ∃ l', vecLoop M (fun c x => c + x) σ l (List.replicate l.length 512 ++ rest) =
      some (l', rest) := by
    intro l rest
    induction l with
    | nil => exact ⟨[], rfl⟩
    | cons c l ih =>
      obtain ⟨l', hl⟩ := ih
      obtain ⟨x, hx⟩ := norm512 M (List.replicate l.length 512 ++ rest)
      rw [List.length_cons, List.replicate_succ, List.cons_append, vecLoop, hx, Option.bind_some]
      simp only [hl, Option.map_some]
      exact ⟨_, rfl⟩
  intro rest
  obtain ⟨l, hl⟩ := key (Poly.toList p) rest
  have hn : (Poly.toList p).length = N := by unfold Poly.toList; erw [List.length_ofFn]
  rw [hn] at hl
  refine ⟨ofCoeffs N l, bind_ok' (m := samplePolyAddTo M σ (Poly.toList p)) (a := l) (r := rest) ?_ rfl⟩
  rw [samplePolyAddTo, if_neg h, hl]
  rfl

theorem noTwoSmall (k : ℕ) : NoTwoSmall (List.replicate k 512) := by
  intro pre a b post h
  left
  have : a ∈ List.replicate k (512 : BitVec 32) := by rw [h]; simp
  rw [(List.mem_replicate.mp this).2]
  decide
end Fou

/-- `ParamsUint4` on a platform that fuses products with sums, with the gadget of its blind rotation: for every binary key and mask and
every polynomial, `EncryptFFTGLevPoly` reads 2048 words, and `DecryptFFTGLevPoly` returns the polynomial modulo `2^22`. -/
example : ∃ p l e, paramsUint4.compile 0 = some p ∧ p.logPolyRank = l + 4 ∧ l = 7 ∧ p.glweRank.toNat = 1 ∧
    p.blindRotateParams.base = (1 <<< 22 : BitVec 64) ∧ p.blindRotateParams.level = 1 ∧
    newEvaluatorFl (exMachine .avx2).arith (exMachine .avx2).cis p.polyRank = some e ∧
    ∀ (old : Fin 2 → ℕ → Fin 1 → ℕ → ℝ) (old2 old' : Fin 1 → ℕ → ℝ) (sk : Fin 1 → Poly (2 ^ (l + 4)) (BitVec 64))
      (mask : Fin 2 → ℕ → Fin 1 → Poly (2 ^ (l + 4)) (BitVec 64)) (m : Poly (2 ^ (l + 4)) (BitVec 64))
      (ct : Fin 2 → ℕ → Fin 2 → FPoly), (∀ i t, sk i t = 0 ∨ sk i t = 1) → ∃ ct' q,
        encryptFFTGLevPoly (exMachine .avx2) exLibm false e p.blindRotateParams (stdDevQ exLibm 64 p.glweStdDev) (old 0)
          (fwdFFTKey (exMachine .avx2).toFloat64 e old' sk) (mask 0) (ct 0) m (List.replicate 2048 512) = .ok ct' [] ∧
        decryptFFTGLevPoly (exMachine .avx2) false e p.blindRotateParams old2 (fwdFFTKey (exMachine .avx2).toFloat64 e old' sk) ct' =
          some q ∧ ∀ i : Fin (2 ^ (l + 4)), (q i).toNat = (m i).toNat % 2 ^ 22 := by
  have hpub : IsPublished 64 paramsUint4 := .w64 paramsUint4 (by decide +kernel)
  obtain ⟨p, hp, R⟩ := C61_compile hpub 0
  obtain ⟨r1, r2, r3⟩ := R.rank
  have hv : (paramsUint4.compile 0).map (fun p => (p.logPolyRank, p.glweRank.toNat, p.blindRotateParams.base, p.blindRotateParams.level)) =
      some (11, 1, (1 <<< 22 : BitVec 64), 1) := by decide +kernel
  rw [hp, Option.map_some, Option.some.injEq, Prod.mk.injEq, Prod.mk.injEq, Prod.mk.injEq] at hv
  obtain ⟨v1, v2, v3, v4⟩ := hv
  rw [v1] at r3
  obtain ⟨e, he, -⟩ := C56_newEvaluator (exMachine_ok .avx2).toAccurate (l := 7) r3
  refine ⟨p, 7, e, hp, v1, rfl, v2, v3, v4, he, fun old old2 old' sk mask m ct hs => ?_⟩
  have hmostly := (C64_fourier_partial hpub hp exLibm_good (exMachine_ok .avx2) v1 he false p.blindRotateParams old old' old2 old' sk mask sk m
    v2.symm (by have := (C64_room hpub hp).rotate; rw [v2] at this; exact this) hs ct).1 (List.replicate 2048 512) (Fou.noTwoSmall _)
  have s0 := (Pubd.stdDev_near exLibm_good 64 _ R.sigma.2).1
  have hruns : Fou.Runs (encryptFFTGLevPoly (exMachine .avx2) exLibm false e p.blindRotateParams (stdDevQ exLibm 64 p.glweStdDev) (old 0)
      (fwdFFTKey (exMachine .avx2).toFloat64 e old' sk) (mask 0) (ct 0) m) (1 * (0 + (2 ^ (7 + 4) + 0) + 0)) := by
    unfold encryptFFTGLevPoly
    rw [v4]
    refine Fou.Runs.foldlM _ _ (fun c j => Fou.Runs.bind (Fou.Runs.bind ?_ fun b => Fou.Runs.bind
      (Fou.runs_addNoise exLibm (not_lt.mpr (le_trans (by norm_num) s0)) b) fun b => Fou.Runs.ret _) fun b => Fou.Runs.ret _)
      (List.range 1) (ct 0)
    intro rest
    have := foldlM_some _ _ (List.finRange 1) (fun b i => mulSub_eq (exMachine_ok .avx2).toAccurate r3 he (by norm_num) (by norm_num)
      (by norm_num) false (old 0 j i) (old' i) b (mask 0 j i) (sk i) fun t => bit_le _ (hs i t)) (Poly.C _ (p.blindRotateParams.baseQ j) * m)
    exact ⟨_, by rw [show fwdFFTKey (exMachine .avx2).toFloat64 e old' sk = fun i =>
      fwdFFTFl (exMachine .avx2).arith e (old' i) (arr (sk i)) from rfl, this]; rfl⟩
  obtain ⟨ct', hct⟩ := hruns []
  rw [List.append_nil] at hct
  obtain ⟨⟨-, q, q1, q2⟩, -⟩ := hmostly.2 ct' [] hct
  refine ⟨ct', q, hct, q1, fun i => ?_⟩
  rw [q2 i, v3]
  rfl

/-- Messages modulo 16 with that gadget: a list of two messages, one of them negative. -/
example : ∃ m : Poly 2048 (BitVec 64), glevMessage 16 [19, -1] = some m ∧ (m 0, m 1, m 2) = (3, 15, 0) ∧
    glevMessagesOut 16 (fun i => m i % (1 <<< 22 : BitVec 64)) [7, 7, 7] = some [3, 15, 0] := by
  refine ⟨_, rfl, ?_, ?_⟩ <;> decide +kernel

/-- The conditions of `C64_infinity`: the platform of the cases and the gadget of the key switching of `ParamsUint4`. -/
example : GoodLibm exLibm ∧ exLibm.int64 (.inf false) = BitVec.intMin 64 ∧
    ((paramsUint4.compile 0).all fun p => decide p.keySwitchParams.Valid) = true :=
  ⟨exLibm_good, by simp [exLibm], by decide +kernel⟩

end Tfhe

namespace Tfhe.Mk
open Rng Gauss Fft Poly Enc Published

namespace Fresh

/-- The multi-key sets leave room for the rounding of the transforms of the ciphertexts of all parties. -/
theorem room : ∀ lit ∈ allMKParamsLit64, ((lit.compile 0).all fun p => decide
    (noiseMax 64 p.subParams.glweStdDev + fourierErr p.subParams p.partyCount.toNat + 2 ^ 64 / 2 ^ 50 <
      (p.subParams.scale.toNat : ℚ) / 2)) = true := by decide +kernel

theorem room_impl {lit : MKParamsLit 64} (h : lit ∈ allMKParamsLit64) {impl : BitVec 64} {p : MKParams 64}
    (hp : lit.compile impl = some p) :
    noiseMax 64 p.subParams.glweStdDev + fourierErr p.subParams p.partyCount.toNat + 2 ^ 64 / 2 ^ 50 <
      (p.subParams.scale.toNat : ℚ) / 2 := by
  have e1 : ∀ lit ∈ allMKParamsLit64, (compileScale 64 lit.subParams.messageModulus.toNat).isSome := by decide +kernel
  have e2 : lit.compile impl = lit.compile 0 := by
    unfold MKParamsLit.compile
    rw [Pubd.compile_impl _ impl (e1 lit h)]
  rw [e2] at hp
  have := room lit h
  rw [hp] at this
  simpa using this
end Fresh

section
variable {lit : MKParamsLit 64} (hpub : lit ∈ allMKParamsLit64) {impl : BitVec 64} {p : MKParams 64}
  (hp : lit.compile impl = some p) {M : Libm} (hM : GoodLibm M) {idx : ℕ} (hidx : idx < p.partyCount.toNat)
  {K : Machine} (hK : Ieee K) {l : ℕ} (hl : p.subParams.logPolyRank = l + 4) {e : Eval ℝ}
  (he : newEvaluatorFl K.arith K.cis p.subParams.polyRank = some e) (signed : Bool)
include hpub hp hM hidx hK hl he

/-- **C64, multi-key.**  Under every published multi-key set, what `EncryptFFTGLWE` of a party returns decrypts with `DecryptFFTGLWE` of
every decryptor that holds the key of that party, whatever other binary keys it holds, for every stream of random words; nothing
panics. -/
theorem C64_mk {d : Decryptor (Poly (2 ^ (l + 4)) (BitVec 64))} {held} (hd : Holds p.partyCount.toNat d held)
    (hs : ∀ i s, held i = some s → ∀ t, s t = 0 ∨ s t = 1) (sk : Poly (2 ^ (l + 4)) (BitVec 64)) (hk : held idx = some sk)
    (old old' : Fin 1 → ℕ → ℝ) (oldD oldKey : ℕ → Fin 1 → ℕ → ℝ) (mask : Fin 1 → Poly (2 ^ (l + 4)) (BitVec 64))
    (ct : Fin (p.partyCount.toNat + 1) → FPoly) (messages : List (BitVec 64)) (pt : Poly (2 ^ (l + 4)) (BitVec 64))
    (hpt : Poly.toList pt = encodeGLWECustom (2 ^ (l + 4)) messages p.subParams.messageModulus p.subParams.scale) (outLen : ℕ) :
    Always M (encryptFFTGLWEFl K M signed e p.partyCount.toNat idx (stdDevQ M 64 p.subParams.glweStdDev) old
      (fwdFFTKey K.toFloat64 e old' fun _ => sk) mask ct pt) fun ct =>
      ∃ ph out, decryptFFTGLWEPhaseFl K signed e d oldD oldKey ct = some ph ∧
        decodeGLWECustom outLen (Poly.toList ph) p.subParams.messageModulus p.subParams.scale = some out ∧
        out.length = min outLen (2 ^ (l + 4)) ∧
        ∀ i, i < min outLen (2 ^ (l + 4)) → out[i]? = some (if h : i < messages.length then
          ((messages[i].toNat % p.subParams.messageModulus.toNat : ℕ) : ℤ) else 0) := by
  obtain ⟨h1, h2, -⟩ := Fresh.sub_ok hpub hp
  have R := Pubd.roomy h1 h2
  obtain ⟨r1, r2, r3⟩ := R.rank
  rw [hl] at r2 r3
  have hs8 : ∀ i s, held i = some s → ∀ t, |(s t).toInt| ≤ 2 ^ 8 := fun i s h t => bit_le _ (hs i s h t)
  refine Always.bind (Q := fun c => ∃ n : Poly (2 ^ (l + 4)) (BitVec 64),
    (∀ i, NearNoise (stdDevQ M 64 p.subParams.glweStdDev) (n i)) ∧ phase (fun i : Fin p.partyCount.toNat => jointGLWE held i) c = pt + n)
    ?_ ?_
  · refine Always.bind (always_encryptGLWEBody hK.toAccurate r3 he (by norm_num) (by norm_num) (by omega) signed hM
      (Pubd.stdDev_near hM 64 _ R.sigma.2).1 (Pubd.sigma_lt hM (by norm_num) _ R.sigma.2 R.poly) old old' (fun _ => sk) mask
      (fun _ t => hs8 idx sk hk t) pt) ?_
    rintro _ ⟨n, hn, rfl⟩
    obtain ⟨c, e1, e2⟩ := mkGLWECopyFromSubKey_phase p.partyCount.toNat idx hidx (fun i => jointGLWE held i) (fun _ => sk)
      (by simp [jointGLWE, hk]) (Tfhe.encryptGLWEBody (fun _ => sk) mask 0 n pt)
    refine Always.ofPanic e1 ⟨n, hn, e2.trans ?_⟩
    have := (C07_fresh (fun _ => sk) mask 0 n pt).1
    simp only [Pi.zero_apply, Finset.sum_const_zero, sub_zero] at this
    exact this
  · rintro c ⟨n, hn, hc⟩
    refine Always.ret ?_
    obtain ⟨err, g1, g2⟩ := roundtrip_ct hK r3 he (by norm_num) (by norm_num) (by omega) ct c
    have hS : ∀ (i : Fin p.partyCount.toNat) t, jointGLWE held i t = 0 ∨ jointGLWE held i t = 1 := by
      intro i t
      unfold jointGLWE
      cases h : held i with
      | none => exact .inl rfl
      | some s => exact hs i s h t
    have hD := phase_small (fun i : Fin p.partyCount.toNat => jointGLWE held i) hS _ err g1
    have hE : (1 + p.partyCount.toNat * 2 ^ (l + 4)) * rtErr l 64 = fourierErr p.subParams p.partyCount.toNat := by
      rw [fourierErr, Pubd.toNat_of_toInt r3, hl, Nat.add_sub_cancel]
    rw [hE] at hD
    obtain ⟨out, o1, o2, o3⟩ := Fou.decode hM R messages pt n _ hpt hn _ hD (Fresh.room_impl hpub hp) outLen
    refine ⟨_, out, ?_, o1, o2, fun i hi => ?_⟩
    · unfold decryptFFTGLWEPhaseFl
      rw [C63_decryptGLWE hpub hp hK.toAccurate hl he signed hd hs8, g2]
      have e4 : (fun t : Fin (p.partyCount.toNat + 1) => ext0 (c + err) t) = c + err := by
        funext t; simp only [ext0, t.2, dif_pos, Fin.eta]
      rw [e4, phase_add, hc]
    · rw [o3 i hi]
      simp only [BitVec.setWidth_eq]
end


/-- `ParamsBinaryParty2` on a platform that fuses products with sums: the evaluator exists, and the decryptor of the keys of both
parties holds them. -/
example (sk0 sk1 : Poly (2 ^ (7 + 4)) (BitVec 64)) : ∃ p e d, paramsBinaryParty2.compile 0 = some p ∧ p.subParams.logPolyRank = 7 + 4 ∧
    newEvaluatorFl (exMachine .avx2).arith (exMachine .avx2).cis p.subParams.polyRank = some e ∧
    newDecryptor 2 [(0, sk0), (1, sk1)] = some d ∧
    Holds p.partyCount.toNat d (fun i => if i = 0 then some sk0 else some sk1) := by
  have hpub : paramsBinaryParty2 ∈ allMKParamsLit64 := by decide +kernel
  obtain ⟨p, hp⟩ := Option.isSome_iff_exists.mp ((C61_compile_others 0 0).1 _ hpub)
  have hpm : (paramsBinaryParty2.compile 0).map (fun p => (p.partyCount.toNat, p.subParams.logPolyRank)) = some (2, 11) := by
    decide +kernel
  rw [hp, Option.map_some, Option.some.injEq, Prod.mk.injEq] at hpm
  obtain ⟨hP, hr⟩ := hpm
  obtain ⟨h1, h2, -⟩ := Fresh.sub_ok hpub hp
  obtain ⟨-, -, r3⟩ := (Pubd.roomy h1 h2).rank
  rw [hr] at r3
  obtain ⟨e, he, -⟩ := C56_newEvaluator (exMachine_ok .avx2).toAccurate (l := 7) r3
  refine ⟨p, e, ⟨[some sk0, some sk1], [some sk0, some sk1], [true, true]⟩, hp, hr, he, rfl, ?_⟩
  rw [hP]
  refine ⟨rfl, fun i hi => ?_, fun i hi s h => ?_⟩ <;> interval_cases i <;> simp_all

end Tfhe.Mk
