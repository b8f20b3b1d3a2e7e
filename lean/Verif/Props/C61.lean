import Verif.Lemma.Enc
import Verif.Lemma.Half
import Verif.Lemma.F64
import Verif.Props.C41

/-!
# C61: the published parameter sets compile, and fresh encryptions under them always decrypt
-/
namespace Tfhe
open Rng Gauss Fft Poly Enc Published

/-! ## Specification -/

/-- The literal is the base of a published parameter set. -/
inductive IsPublished : (w : ℕ) → ParamsLit w → Prop
  | w32 (lit : ParamsLit 32) : lit ∈ base32 → IsPublished 32 lit
  | w64 (lit : ParamsLit 64) : lit ∈ base64 → IsPublished 64 lit

/-- Above every sample for a standard deviation `s`, in units of `2^-w`. -/
def noiseMax (w : ℕ) (s : BitVec 64) : ℚ := 8.075 * f64Val s * 2 ^ w + 1 / 2

/-- What the decryption theorems ask of compiled parameters. -/
structure Roomy {w : ℕ} (p : Params w) : Prop where
  mod : p.messageModulus ≠ 0
  scale : compileScale w p.messageModulus.toNat = some p.scale.toNat
  exact : (2 : ℚ) ^ w - (2 : ℕ) * p.messageModulus.toNat * p.scale.toNat = 0
  rank : 4 ≤ p.logPolyRank ∧ p.logPolyRank ≤ 22 ∧ p.polyRank.toInt = 2 ^ p.logPolyRank
  glwe : 0 < p.glweRank.toInt
  blocks : 0 < p.blockSize.toInt ∧ p.lweDimension.toNat = p.blockSize.toNat * p.blockCount.toNat ∧
    p.lweDimension.toNat ≤ p.glweDimension.toNat ∧ p.glweDimension.toNat = p.glweRank.toNat * p.polyRank.toNat
  sigma : 1 / 8 ≤ f64Val p.lweStdDev * 2 ^ w ∧ 1 / 8 ≤ f64Val p.glweStdDev * 2 ^ w
  lwe : noiseMax w p.lweStdDev + p.messageModulus.toNat + 2 ^ w / 2 ^ 50 < (p.scale.toNat : ℚ) / 2
  poly : noiseMax w p.glweStdDev + p.messageModulus.toNat + 2 ^ w / 2 ^ 50 < (p.scale.toNat : ℚ) / 2
  pub : p.bootstrapOrder = 0 →
    (2 * p.glweRank.toNat * p.polyRank.toNat + 1) * noiseMax w p.glweStdDev + p.messageModulus.toNat + 2 ^ w / 2 ^ 50 <
      (p.scale.toNat : ℚ) / 2

instance {w : ℕ} (p : Params w) : Decidable (Roomy p) :=
  decidable_of_iff (p.messageModulus ≠ 0 ∧ compileScale w p.messageModulus.toNat = some p.scale.toNat ∧
    (2 : ℚ) ^ w - (2 : ℕ) * p.messageModulus.toNat * p.scale.toNat = 0 ∧
    (4 ≤ p.logPolyRank ∧ p.logPolyRank ≤ 22 ∧ p.polyRank.toInt = 2 ^ p.logPolyRank) ∧ 0 < p.glweRank.toInt ∧
    (0 < p.blockSize.toInt ∧ p.lweDimension.toNat = p.blockSize.toNat * p.blockCount.toNat ∧
      p.lweDimension.toNat ≤ p.glweDimension.toNat ∧ p.glweDimension.toNat = p.glweRank.toNat * p.polyRank.toNat) ∧
    (1 / 8 ≤ f64Val p.lweStdDev * 2 ^ w ∧ 1 / 8 ≤ f64Val p.glweStdDev * 2 ^ w) ∧
    noiseMax w p.lweStdDev + p.messageModulus.toNat + 2 ^ w / 2 ^ 50 < (p.scale.toNat : ℚ) / 2 ∧
    noiseMax w p.glweStdDev + p.messageModulus.toNat + 2 ^ w / 2 ^ 50 < (p.scale.toNat : ℚ) / 2 ∧
    (p.bootstrapOrder = 0 →
      (2 * p.glweRank.toNat * p.polyRank.toNat + 1) * noiseMax w p.glweStdDev + p.messageModulus.toNat + 2 ^ w / 2 ^ 50 <
        (p.scale.toNat : ℚ) / 2))
    ⟨fun ⟨a, b, c, d, e, f, g, h, i, j⟩ => ⟨a, b, c, d, e, f, g, h, i, j⟩,
     fun ⟨a, b, c, d, e, f, g, h, i, j⟩ => ⟨a, b, c, d, e, f, g, h, i, j⟩⟩

/-! ## Constants -/

/-- **C61.**  The standard deviation of a compiled set is the decimal constant of the source up to a half unit in the last place. -/
theorem C61_constant (x : ℚ) (h1 : (2 : ℚ) ^ (-1022 : ℤ) ≤ x) (h2 : x < (2 : ℚ) ^ (1023 : ℤ)) :
    |f64Val (f64 x) - x| ≤ 2⁻¹ ^ 53 * x := F64.f64_near x h1 h2

/-- The LWE constant of `ParamsUint4`, and that the bound is nothing but what a rounding leaves: this float is not exact. -/
example : (2 : ℚ) ^ (-1022 : ℤ) ≤ 0.00000251676160959795544987084234 ∧ (0.00000251676160959795544987084234 : ℚ) < (2 : ℚ) ^ (1023 : ℤ) ∧
    f64Val (f64 0.00000251676160959795544987084234) ≠ 0.00000251676160959795544987084234 := by decide +kernel

/-! ## Compilation -/
namespace Pubd

theorem compile_impl {w : ℕ} (lit : ParamsLit w) (impl : BitVec w) (h : (compileScale w lit.messageModulus.toNat).isSome) :
    lit.compile impl = lit.compile 0 := by
  obtain ⟨s, hs⟩ := Option.isSome_iff_exists.mp h
  have e : lit.defaults.messageModulus = lit.messageModulus := rfl
  unfold ParamsLit.compile
  simp only [e, hs, Option.map_some, Option.getD_some]

/-- The literal compiles to roomy parameters, whatever the platform. -/
def okLit {w : ℕ} (lit : ParamsLit w) : Bool :=
  (compileScale w lit.messageModulus.toNat).isSome && match lit.compile 0 with
    | none => false
    | some p => decide (Roomy p)

theorem ok32 : ∀ lit ∈ base32, okLit lit = true := by decide +kernel
theorem ok64 : ∀ lit ∈ base64, okLit lit = true := by decide +kernel

theorem ok_compile {w : ℕ} (lit : ParamsLit w) (h : okLit lit = true) (impl : BitVec w) :
    ∃ p, lit.compile impl = some p ∧ Roomy p := by
  unfold okLit at h
  rw [Bool.and_eq_true] at h
  obtain ⟨h1, h2⟩ := h
  rw [compile_impl lit impl h1]
  cases hc : lit.compile 0 with
  | none => rw [hc] at h2; cases h2
  | some p => rw [hc] at h2; exact ⟨p, rfl, of_decide_eq_true h2⟩
end Pubd

/-- **C61.**  Every published set compiles, on every platform, and leaves room for the noise of fresh encryptions. -/
theorem C61_compile {w : ℕ} {lit : ParamsLit w} (h : IsPublished w lit) (impl : BitVec w) :
    ∃ p, lit.compile impl = some p ∧ Roomy p := by
  cases h with
  | w32 _ h => exact Pubd.ok_compile _ (Pubd.ok32 _ h) impl
  | w64 _ h => exact Pubd.ok_compile _ (Pubd.ok64 _ h) impl

/-! ## Fresh encryptions -/
namespace Pubd

theorem stdDev_near {M : Libm} (hM : GoodLibm M) (w : ℕ) (s : BitVec 64) (h : 1 / 8 ≤ f64Val s * 2 ^ w) :
    1 / 16 ≤ stdDevQ M w s ∧ 8.074 * stdDevQ M w s + 1 / 2 ≤ ((noiseMax w s : ℚ) : ℝ) := by
  have hq8 : (1 / 8 : ℝ) ≤ (f64Val s : ℚ) * 2 ^ w := by
    have : (((1 / 8 : ℚ)) : ℝ) ≤ ((f64Val s * 2 ^ w : ℚ) : ℝ) := by exact_mod_cast h
    push_cast at this
    exact this
  have hq0 : (0 : ℝ) < (f64Val s : ℚ) * 2 ^ w := lt_of_lt_of_le (by norm_num) hq8
  have hf := hM.fl ((f64Val s : ℚ) * 2 ^ w)
  rw [abs_of_pos hq0] at hf
  have e : ((noiseMax w s : ℚ) : ℝ) = 8.075 * ((f64Val s : ℚ) * 2 ^ w) + 1 / 2 := by
    unfold noiseMax; push_cast; ring
  rw [e, stdDevQ]
  have hf2 : |M.fl ((f64Val s : ℚ) * 2 ^ w) - (f64Val s : ℚ) * 2 ^ w| ≤ 1 / 10000 * ((f64Val s : ℚ) * 2 ^ w) := hf.trans (by
    apply mul_le_mul_of_nonneg_right _ hq0.le; norm_num)
  generalize M.fl ((f64Val s : ℚ) * 2 ^ w) = σ at hf2 ⊢
  rw [abs_le] at hf2
  constructor <;> linarith

/-- The bound of the samples, rounded down. -/
def noiseNat (w : ℕ) (s : BitVec 64) : ℕ := ⌊noiseMax w s⌋₊

theorem noiseNat_le (w : ℕ) (s : BitVec 64) (h : 1 / 8 ≤ f64Val s * 2 ^ w) : (noiseNat w s : ℚ) ≤ noiseMax w s :=
  Nat.floor_le (by unfold noiseMax; linarith)

theorem noise_int {M : Libm} (hM : GoodLibm M) {w : ℕ} {s : BitVec 64} (h : 1 / 8 ≤ f64Val s * 2 ^ w) {v : BitVec w}
    (hv : NearNoise (stdDevQ M w s) v) :
    ∃ k : ℤ, v + v = BitVec.ofInt w k + BitVec.ofInt w k ∧ k.natAbs ≤ noiseNat w s := by
  obtain ⟨n, ⟨k, rfl, hk⟩, hd⟩ := hv
  refine ⟨k, hd, ?_⟩
  have h1 := hk.trans (stdDev_near hM w s h).2
  have h2 : |(k : ℚ)| ≤ noiseMax w s := by exact_mod_cast h1
  unfold noiseNat
  apply Nat.le_floor
  rw [Nat.cast_natAbs, Int.cast_abs]
  exact h2

/-- A polynomial of samples, up to half the modulus. -/
theorem noise_poly {M : Libm} (hM : GoodLibm M) {w N : ℕ} {s : BitVec 64} (h : 1 / 8 ≤ f64Val s * 2 ^ w) {ι : Type}
    {v : ι → Poly N (BitVec w)} (hv : ∀ i t, NearNoise (stdDevQ M w s) (v i t)) :
    ∃ m : ι → Poly N (BitVec w), (∀ i, v i + v i = m i + m i) ∧ ∀ i, pabs (m i) ≤ noiseNat w s := by
  choose k h1 h2 using fun i t => noise_int hM h (hv i t)
  exact ⟨fun i t => BitVec.ofInt w (k i t), fun i => funext fun t => h1 i t,
    fun i => (pabs_le_iff _ _).mpr fun t => (wabs_ofInt_le _).trans (h2 i t)⟩

/-- Samples fit a 64-bit integer. -/
theorem sigma_lt {M : Libm} (hM : GoodLibm M) {w : ℕ} (hw : w ≤ 64) {p : Params w} (s : BitVec 64) (h : 1 / 8 ≤ f64Val s * 2 ^ w)
    (hr : noiseMax w s + p.messageModulus.toNat + 2 ^ w / 2 ^ 50 < (p.scale.toNat : ℚ) / 2) :
    8.074 * stdDevQ M w s + 1 / 2 < 2 ^ 63 := by
  refine (stdDev_near hM w s h).2.trans_lt ?_
  have h1 : (p.scale.toNat : ℚ) < 2 ^ 64 := by
    have := p.scale.isLt
    have h2 : 2 ^ w ≤ 2 ^ 64 := Nat.pow_le_pow_right (by norm_num) hw
    exact_mod_cast lt_of_lt_of_le this h2
  have h3 : (0 : ℚ) ≤ p.messageModulus.toNat := Nat.cast_nonneg _
  have h4 : (0 : ℚ) ≤ 2 ^ w / 2 ^ 50 := by positivity
  have h5 : noiseMax w s < 2 ^ 63 := by linarith
  exact_mod_cast h5

theorem width {w : ℕ} {lit : ParamsLit w} (h : IsPublished w lit) : 1 ≤ w ∧ w ≤ 64 := by
  cases h <;> constructor <;> norm_num

theorem roomy {w : ℕ} {lit : ParamsLit w} (h : IsPublished w lit) {impl : BitVec w} {p : Params w}
    (hp : lit.compile impl = some p) : Roomy p := by
  obtain ⟨p', h1, h2⟩ := C61_compile h impl
  rw [hp] at h1
  cases h1
  exact h2

theorem toNat_of_toInt {x : BitVec 64} {n : ℕ} (h : x.toInt = 2 ^ n) : x.toNat = 2 ^ n := by
  have h0 : 0 ≤ x.toInt := by rw [h]; positivity
  have h1 := BitVec.toInt_eq_toNat_of_msb (x := x) (by
    rw [BitVec.toInt_eq_msb_cond] at h0
    have := x.isLt
    split at h0
    · omega
    · next hm => simpa using hm)
  rw [h1] at h
  exact_mod_cast h

theorem exact_nat {w : ℕ} {p : Params w} (R : Roomy p) : 2 ^ w = 2 * (p.messageModulus.toNat * p.scale.toNat) := by
  have h : (2 : ℚ) ^ w = 2 * (p.messageModulus.toNat * p.scale.toNat) := by have := R.exact; push_cast at this; linarith
  exact_mod_cast h

theorem bit_short {w : ℕ} (x : BitVec w) (h : x = 0 ∨ x = 1) : |x.toInt| ≤ 2 ^ 8 := bit_le x h
end Pubd

section
variable {w : ℕ} {lit : ParamsLit w} (hpub : IsPublished w lit) {impl : BitVec w} {p : Params w} (hp : lit.compile impl = some p)
  {M : Libm} (hM : GoodLibm M)
include hpub hp hM

/-- **C61, LWE.**  Under every published set, for every key, mask and message: what `EncryptLWE` returns decrypts to the message
modulo the message modulus, for every stream of random words, and it never panics.  (`Fair`: every stream, if the platform converts
infinities to the smallest or the largest integer; otherwise those without two small words in a row.) -/
theorem C61_lwe {n : ℕ} (sk mask : Fin n → BitVec w) (message : BitVec 64) :
    Always M (encryptLWE M (stdDevQ M w p.defaultLWEStdDev) sk mask (encodeLWECustom message p.messageModulus p.scale)) fun ct =>
      decodeLWECustom (decryptLWEPhase sk ct) p.messageModulus p.scale =
        some (((message.setWidth w).toNat % p.messageModulus.toNat : ℕ) : ℤ) := by
  have R := Pubd.roomy hpub hp
  obtain ⟨w1, w64⟩ := Pubd.width hpub
  have hb : 1 / 8 ≤ f64Val p.defaultLWEStdDev * 2 ^ w ∧
      noiseMax w p.defaultLWEStdDev + p.messageModulus.toNat + 2 ^ w / 2 ^ 50 < (p.scale.toNat : ℚ) / 2 := by
    unfold Params.defaultLWEStdDev
    split
    · exact ⟨R.sigma.1, R.lwe⟩
    · exact ⟨R.sigma.2, R.poly⟩
  obtain ⟨h0, hb⟩ := hb
  refine Always.bind (always_sample hM w64 (Pubd.stdDev_near hM w _ h0).1 (Pubd.sigma_lt hM w64 _ h0 hb)) fun v hv => Always.ret ?_
  obtain ⟨k, hd, hk⟩ := Pubd.noise_int hM h0 hv
  rw [C05_decryptPhase, (C05_fresh sk mask _ _).1]
  refine Half.decode_double message _ _ R.mod (Pubd.exact_nat R) _ k (by linear_combination hd) ?_
  have h1 : |(k : ℚ)| ≤ noiseMax w p.defaultLWEStdDev := by
    refine le_trans ?_ (Pubd.noiseNat_le w _ h0)
    rw [← Int.cast_abs, ← Nat.cast_natAbs]
    exact_mod_cast hk
  have h2 : (2 : ℚ) ^ w / 2 ^ 51 ≤ 2 ^ w / 2 ^ 50 := div_le_div_of_nonneg_left (by positivity) (by positivity) (by norm_num)
  have h3 : (0 : ℚ) ≤ p.messageModulus.toNat := Nat.cast_nonneg _
  linarith

omit hM in
/-- **C61, secret keys.**  The keys of `GenSecretKey` consist of bits. -/
theorem C61_secretKey (words rest : List (BitVec 64)) (key : ℕ → BitVec w)
    (h : genSecretKey p.lweDimension.toNat p.glweDimension.toNat p.blockSize.toNat words = .ok key rest) :
    ∀ i, i < p.glweDimension.toNat → key i = 0 ∨ key i = 1 := by
  have R := Pubd.roomy hpub hp
  obtain ⟨b1, b2, b3, -⟩ := R.blocks
  have hm : p.blockSize.toNat < 2 ^ 63 := by
    rw [BitVec.toInt_eq_msb_cond] at b1
    have := p.blockSize.isLt
    split at b1
    · omega
    · next hm => rw [BitVec.msb_eq_decide] at hm; simpa using hm
  have hpos : 0 < p.blockSize.toNat := by
    by_contra h0
    have : p.blockSize = 0 := BitVec.eq_of_toNat_eq (by simpa using h0)
    rw [this] at b1
    simp at b1
  rw [b2] at h b3
  obtain ⟨lk, h1, -⟩ := C41_genSecretKey (Pubd.width hpub).1 _ _ _ hm hpos b3 words rest key h
  intro i hi
  rw [h1 i hi]
  unfold kbit
  split <;> simp

variable {F : Float64} (hF : Accurate F) {l : ℕ} (hl : p.logPolyRank = l + 4) {e : Eval ℝ}
  (he : newEvaluatorFl F.arith F.cis p.polyRank = some e) (signed : Bool)
include hF hl he

/-- **C61, GLWE.**  The same for `EncryptGLWE`, with products computed in floating point, for keys with coefficients up to `2^8`:
neither encryption nor decryption panics, and the messages come back. -/
theorem C61_glwe {k : ℕ} (old old2 old' : Fin k → ℕ → ℝ) (sk mask : Fin k → Poly (2 ^ (l + 4)) (BitVec w))
    (hs : ∀ i t, |(sk i t).toInt| ≤ 2 ^ 8) (messages : List (BitVec 64)) (pt : Poly (2 ^ (l + 4)) (BitVec w))
    (hpt : Poly.toList pt = encodeGLWECustom (2 ^ (l + 4)) messages p.messageModulus p.scale) (outLen : ℕ) :
    Always M (Enc.encryptGLWEBody F M signed e (stdDevQ M w p.glweStdDev) old (fwdFFTKey F e old' sk) mask pt) fun ct =>
      ∃ ph out, Enc.decryptGLWEPhase F signed e old2 (fwdFFTKey F e old' sk) ct = some ph ∧
        decodeGLWECustom outLen (Poly.toList ph) p.messageModulus p.scale = some out ∧ out.length = min outLen (2 ^ (l + 4)) ∧
        ∀ i, i < min outLen (2 ^ (l + 4)) → out[i]? = some (if h : i < messages.length then
          (((messages[i].setWidth w).toNat % p.messageModulus.toNat : ℕ) : ℤ) else 0) := by
  have R := Pubd.roomy hpub hp
  obtain ⟨w1, w64⟩ := Pubd.width hpub
  obtain ⟨r1, r2, r3⟩ := R.rank
  rw [hl] at r2 r3
  refine (always_encryptGLWEBody hF r3 he w1 w64 (by omega) signed hM (Pubd.stdDev_near hM w _ R.sigma.2).1
    (Pubd.sigma_lt hM w64 _ R.sigma.2 R.poly) old old' sk mask hs pt).mono ?_
  rintro _ ⟨n, hn, rfl⟩
  have hd := Enc.decryptGLWEPhase_eq hF r3 he w1 w64 (by omega) signed old2 old' sk hs (Tfhe.encryptGLWEBody sk mask 0 n pt)
  choose kk hk1 hk2 using fun i => Pubd.noise_int hM R.sigma.2 (hn i)
  have hph : phase sk (Tfhe.encryptGLWEBody sk mask 0 n pt) = pt + n := by
    have := (C07_fresh sk mask 0 n pt).1
    simp only [Pi.zero_apply, Finset.sum_const_zero, sub_zero] at this
    exact this
  obtain ⟨out, o1, o2, o3⟩ := Half.decodeGLWE_double (2 ^ (l + 4)) outLen messages p.messageModulus p.scale R.mod (Pubd.exact_nat R)
    pt (pt + n) hpt kk (fun i => by
      show (pt i + n i) + (pt i + n i) = _
      linear_combination hk1 i) (fun i => by
      have h1 : |(kk i : ℚ)| ≤ noiseMax w p.glweStdDev := by
        refine le_trans ?_ (Pubd.noiseNat_le w _ R.sigma.2)
        rw [← Int.cast_abs, ← Nat.cast_natAbs]
        exact_mod_cast hk2 i
      have h2 : (2 : ℚ) ^ w / 2 ^ 51 ≤ 2 ^ w / 2 ^ 50 := div_le_div_of_nonneg_left (by positivity) (by positivity) (by norm_num)
      have h3 : (0 : ℚ) ≤ p.messageModulus.toNat := Nat.cast_nonneg _
      have := R.poly
      linarith)
  exact ⟨_, out, hd, by rw [hph]; exact o1, o2, o3⟩

/-- **C61, public keys, LWE.**  For a set that supports public keys, binary keys and binary randomness: the public key is generated and
the encryption computed without panic, and the ciphertext decrypts under the LWE key of the GLWE key. -/
theorem C61_publicLWE (hord : p.bootstrapOrder = 0) {k : ℕ} (hk : k = p.glweRank.toNat) (old old2 : Fin k → Fin k → ℕ → ℝ)
    (old' oldKey : Fin k → ℕ → ℝ) (sk : Fin k → Poly (2 ^ (l + 4)) (BitVec w)) (hs : ∀ i t, sk i t = 0 ∨ sk i t = 1)
    (mask : Fin k → Fin k → Poly (2 ^ (l + 4)) (BitVec w)) (kout : ℕ → BitVec w) :
    Always M (Enc.genLWEPublicKey F M signed e (stdDevQ M w p.glweStdDev) old (fwdFFTKey F e old' fun i => revPoly (sk i)) mask) fun pk =>
      ∀ (r : Fin k → Poly (2 ^ (l + 4)) (BitVec w)) (_ : ∀ i t, r i t = 0 ∨ r i t = 1) (message : BitVec 64),
        Always M (Enc.pubEncryptLWE F M signed e (stdDevQ M w p.glweStdDev) oldKey old2 pk r (fun _ => 0)
            (encodeLWECustom message p.messageModulus p.scale)) fun ct =>
          decodeLWECustom (decryptLWEPhase (fun t : Fin (k * 2 ^ (l + 4)) => asLWEKey sk kout t) fun t => ct t)
            p.messageModulus p.scale = some (((message.setWidth w).toNat % p.messageModulus.toNat : ℕ) : ℤ) := by
  have R := Pubd.roomy hpub hp
  obtain ⟨w1, w64⟩ := Pubd.width hpub
  obtain ⟨r1, r2, r3⟩ := R.rank
  rw [hl] at r2 r3
  have s0 := (Pubd.stdDev_near hM w _ R.sigma.2).1
  have s1 := Pubd.sigma_lt hM w64 _ R.sigma.2 R.poly
  refine (always_genLWEPublicKey hF r3 he w1 w64 (by omega) signed hM s0 s1 old old' sk mask
    (fun i t => Pubd.bit_short _ (hs i t))).mono ?_
  rintro _ ⟨n, hn, rfl⟩ r hr message
  refine (always_pubEncryptLWE hF r3 he w1 w64 (by omega) signed hM s0 s1 oldKey old2 _ r
    (fun i t => Pubd.bit_short _ (hr i t)) _ _).mono ?_
  rintro _ ⟨n0, n', hn0, hn', rfl⟩
  obtain ⟨m, m1, m2⟩ := Pubd.noise_poly hM R.sigma.2 hn
  obtain ⟨m', m1', m2'⟩ := Pubd.noise_poly hM R.sigma.2 hn'
  obtain ⟨k0, k1, k2⟩ := Pubd.noise_int hM R.sigma.2 hn0
  have hz : pabs (0 : Poly (2 ^ (l + 4)) (BitVec w)) ≤ 0 :=
    (pabs_le_iff _ _).mpr fun t => (by simp [wabs] : wabs (0 : BitVec w) ≤ 0)
  have hb := C28_lwe_noise sk r m m' (fun _ _ => 0) (fun _ _ => 0) (BitVec.ofInt w k0) (Pubd.noiseNat w p.glweStdDev) 0 hs hr
    ((wabs_ofInt_le _).trans k2) m2 m2' (fun _ _ => hz) (fun _ _ => hz)
  have hdbl := Half.pubLWENoise_double sk r n m n' m' n0 (BitVec.ofInt w k0) (fun _ _ => 0) (fun _ _ => 0) k1 m1 m1'
  rw [C05_decryptPhase, (C28_lwe_partial sk mask _ n r n' n0 _ kout _ _ (fun _ _ _ => rfl)).1]
  refine Half.decode_double message _ _ R.mod (Pubd.exact_nat R) _
    (pubLWENoise sk r m (fun _ _ => 0) (BitVec.ofInt w k0) m' (fun _ _ => 0)).toInt
    (by rw [BitVec.ofInt_toInt]; linear_combination hdbl) ?_
  have habs : |((pubLWENoise sk r m (fun _ _ => 0) (BitVec.ofInt w k0) m' (fun _ _ => 0)).toInt : ℚ)| =
      (wabs (pubLWENoise sk r m (fun _ _ => 0) (BitVec.ofInt w k0) m' (fun _ _ => 0)) : ℚ) := by
    unfold wabs; rw [Nat.cast_natAbs, Int.cast_abs]
  rw [habs]
  have hb' := (Nat.cast_le (α := ℚ)).mpr hb
  have hN : p.polyRank.toNat = 2 ^ (l + 4) := Pubd.toNat_of_toInt r3
  have := R.pub hord
  rw [hN, ← hk] at this
  have hle := Pubd.noiseNat_le w _ R.sigma.2
  push_cast at this hb'
  have c : (0 : ℚ) ≤ 2 * k * 2 ^ (l + 4) + 1 := by positivity
  have := mul_le_mul_of_nonneg_left hle c
  have h2 : (2 : ℚ) ^ w / 2 ^ 51 ≤ 2 ^ w / 2 ^ 50 := div_le_div_of_nonneg_left (by positivity) (by positivity) (by norm_num)
  have h3 : (0 : ℚ) ≤ p.messageModulus.toNat := Nat.cast_nonneg _
  linarith

/-- **C61, public keys, GLWE.** -/
theorem C61_publicGLWE (hord : p.bootstrapOrder = 0) {k : ℕ} (hk : k + 1 = p.glweRank.toNat)
    (old : Fin (k + 1) → Fin (k + 1) → ℕ → ℝ) (old2 : Fin (k + 1) → Fin (k + 2) → ℕ → ℝ) (old' oldKey old3 : Fin (k + 1) → ℕ → ℝ)
    (sk : Fin (k + 1) → Poly (2 ^ (l + 4)) (BitVec w)) (hs : ∀ i t, sk i t = 0 ∨ sk i t = 1)
    (mask : Fin (k + 1) → Fin (k + 1) → Poly (2 ^ (l + 4)) (BitVec w)) (outLen : ℕ) :
    Always M (Enc.genGLWEPublicKey F M signed e (stdDevQ M w p.glweStdDev) old (fwdFFTKey F e old' sk) mask) fun pk =>
      ∀ (r : Fin (k + 1) → Poly (2 ^ (l + 4)) (BitVec w)) (_ : ∀ i t, r i t = 0 ∨ r i t = 1) (messages : List (BitVec 64))
        (pt : Poly (2 ^ (l + 4)) (BitVec w)),
        Poly.toList pt = encodeGLWECustom (2 ^ (l + 4)) messages p.messageModulus p.scale →
        Always M (Enc.pubEncryptGLWE F M signed e (stdDevQ M w p.glweStdDev) oldKey old2 pk r 0 pt) fun ct =>
          ∃ ph out, Enc.decryptGLWEPhase F signed e old3 (fwdFFTKey F e old' sk) ct = some ph ∧
            decodeGLWECustom outLen (Poly.toList ph) p.messageModulus p.scale = some out ∧ out.length = min outLen (2 ^ (l + 4)) ∧
            ∀ i, i < min outLen (2 ^ (l + 4)) → out[i]? = some (if h : i < messages.length then
              (((messages[i].setWidth w).toNat % p.messageModulus.toNat : ℕ) : ℤ) else 0) := by
  have R := Pubd.roomy hpub hp
  obtain ⟨w1, w64⟩ := Pubd.width hpub
  obtain ⟨r1, r2, r3⟩ := R.rank
  rw [hl] at r2 r3
  have s0 := (Pubd.stdDev_near hM w _ R.sigma.2).1
  have s1 := Pubd.sigma_lt hM w64 _ R.sigma.2 R.poly
  have hsb : ∀ i t, |(sk i t).toInt| ≤ 2 ^ 8 := fun i t => Pubd.bit_short _ (hs i t)
  have z : ∀ t : Fin (2 ^ (l + 4)), wabs ((0 : Poly (2 ^ (l + 4)) (BitVec w)) t) ≤ 0 :=
    fun t => (by simp [wabs] : wabs (0 : BitVec w) ≤ 0)
  refine (always_genGLWEPublicKey hF r3 he w1 w64 (by omega) signed hM s0 s1 old old' sk mask hsb).mono ?_
  rintro _ ⟨n, hn, rfl⟩ r hr messages pt hpt
  refine (always_pubEncryptGLWE hF r3 he w1 w64 (by omega) signed hM s0 s1 oldKey old2 _ r
    (fun i t => Pubd.bit_short _ (hr i t)) _ _).mono ?_
  rintro _ ⟨n', hn', rfl⟩
  have hd := Enc.decryptGLWEPhase_eq hF r3 he w1 w64 (by omega) signed old3 old' sk hsb
    (pubEncryptGLWEPlaintextTo (Tfhe.genGLWEPublicKey sk mask (fun _ => 0) n) r n' (fun _ _ => 0) 0 pt)
  obtain ⟨m, m1, m2⟩ := Pubd.noise_poly hM R.sigma.2 hn
  obtain ⟨m', m1', m2'⟩ := Pubd.noise_poly hM R.sigma.2 hn'
  have hz : pabs (0 : Poly (2 ^ (l + 4)) (BitVec w)) ≤ 0 :=
    (pabs_le_iff _ _).mpr fun t => (by simp [wabs] : wabs (0 : BitVec w) ≤ 0)
  have hb := C28_glwe_noise (polyNorm (2 ^ (l + 4)) w) sk r m (fun _ _ => 0) m' (fun _ _ => 0) (Pubd.noiseNat w p.glweStdDev) 0
    (2 ^ (l + 4)) (2 ^ (l + 4)) (fun i x => pabs_mul_binary (sk i) (hs i) x)
    (fun i x => by rw [mul_comm]; exact pabs_mul_binary (r i) (hr i) x) m2 m2' (fun _ _ => hz) (fun _ _ => hz)
  have hdbl := Half.pubGLWENoise_double sk r n m n' m' (fun _ _ => 0) (fun _ _ => 0) m1 m1'
  have hph := C28_glwe_partial sk r n mask (fun _ _ => 0) n' (fun _ _ => 0) 0 pt (fun _ => rfl)
  set ν := pubGLWENoise sk r m (fun _ _ => 0) m' (fun _ _ => 0) with hν
  obtain ⟨out, o1, o2, o3⟩ := Half.decodeGLWE_double (2 ^ (l + 4)) outLen messages p.messageModulus p.scale R.mod (Pubd.exact_nat R)
    pt _ hpt (fun i => (ν i).toInt) (fun i => by
      have h1 := congrFun hdbl i
      rw [BitVec.ofInt_toInt]
      show (pt i + pubGLWENoise sk r n (fun _ _ => 0) n' (fun _ _ => 0) i) +
        (pt i + pubGLWENoise sk r n (fun _ _ => 0) n' (fun _ _ => 0) i) = _
      have h2 : pubGLWENoise sk r n (fun _ _ => 0) n' (fun _ _ => 0) i + pubGLWENoise sk r n (fun _ _ => 0) n' (fun _ _ => 0) i =
        ν i + ν i := h1
      linear_combination h2) (fun i => by
      have habs : |((ν i).toInt : ℚ)| = (wabs (ν i) : ℚ) := by unfold wabs; rw [Nat.cast_natAbs, Int.cast_abs]
      have hb' : (wabs (ν i) : ℚ) ≤ _ := (Nat.cast_le (α := ℚ)).mpr ((wabs_le_pabs ν i).trans hb)
      rw [habs]
      have hN : p.polyRank.toNat = 2 ^ (l + 4) := Pubd.toNat_of_toInt r3
      have := R.pub hord
      rw [hN, ← hk] at this
      have hle := Pubd.noiseNat_le w _ R.sigma.2
      push_cast at this hb'
      have c : (0 : ℚ) ≤ 2 * (k + 1) * 2 ^ (l + 4) + 1 := by positivity
      have := mul_le_mul_of_nonneg_left hle c
      have h2 : (2 : ℚ) ^ w / 2 ^ 51 ≤ 2 ^ w / 2 ^ 50 := div_le_div_of_nonneg_left (by positivity) (by positivity) (by norm_num)
      have h3 : (0 : ℚ) ≤ p.messageModulus.toNat := Nat.cast_nonneg _
      linarith)
  exact ⟨_, out, hd, (congrArg (fun q => decodeGLWECustom outLen (Poly.toList q) p.messageModulus p.scale) hph).trans o1, o2, o3⟩
end

/-- The multi-key, many-LUT, circuit-bootstrapping, sanitization and BFV sets compile. -/
theorem C61_compile_others (i32 : BitVec 32) (i64 : BitVec 64) :
    (∀ lit ∈ allMKParamsLit64, (lit.compile i64).isSome) ∧ (∀ lit ∈ allManyLUTLit32, (lit.compile i32).isSome) ∧
    (∀ lit ∈ allManyLUTLit64, (lit.compile i64).isSome) ∧ (∀ lit ∈ allCircuitBootstrapLit64, (lit.compile i64).isSome) ∧
    (∀ lit ∈ allSanitizationLit64, (lit.compile i64).isSome) ∧ (∀ lit ∈ allGadgetLit64, lit.compile.isSome) := by
  have b32 : ∀ lit ∈ base32, lit.compile i32 = lit.compile 0 := fun lit h =>
    Pubd.compile_impl lit i32 (by have := Pubd.ok32 lit h; unfold Pubd.okLit at this; rw [Bool.and_eq_true] at this; exact this.1)
  have b64 : ∀ lit ∈ base64, lit.compile i64 = lit.compile 0 := fun lit h =>
    Pubd.compile_impl lit i64 (by have := Pubd.ok64 lit h; unfold Pubd.okLit at this; rw [Bool.and_eq_true] at this; exact this.1)
  have e1 : ∀ lit ∈ allMKParamsLit64, lit.subParams ∈ base64 ∧ (lit.compile 0).isSome := by decide +kernel
  have e2 : ∀ lit ∈ allManyLUTLit32, lit.baseParams ∈ base32 ∧ (lit.compile 0).isSome := by decide +kernel
  have e3 : ∀ lit ∈ allManyLUTLit64, lit.baseParams ∈ base64 ∧ (lit.compile 0).isSome := by decide +kernel
  have e4 : ∀ lit ∈ allCircuitBootstrapLit64, lit.manyLUTParams.baseParams ∈ base64 ∧ (lit.compile 0).isSome := by decide +kernel
  have e5 : ∀ lit ∈ allSanitizationLit64, lit.baseParams ∈ base64 ∧ (lit.compile 0).isSome := by decide +kernel
  refine ⟨fun lit h => ?_, fun lit h => ?_, fun lit h => ?_, fun lit h => ?_, fun lit h => ?_, by decide +kernel⟩
  · rw [MKParamsLit.compile, b64 _ (e1 lit h).1]; exact (e1 lit h).2
  · rw [ManyLUTLit.compile, b32 _ (e2 lit h).1]; exact (e2 lit h).2
  · rw [ManyLUTLit.compile, b64 _ (e3 lit h).1]; exact (e3 lit h).2
  · rw [CircuitBootstrapLit.compile, ManyLUTLit.compile, b64 _ (e4 lit h).1]; exact (e4 lit h).2
  · rw [SanitizationLit.compile, b64 _ (e5 lit h).1]; exact (e5 lit h).2

/-- **C61.**  The noise of default LWE ciphertexts is that of the key they are encrypted under: its dimension and its standard
deviation are both the LWE ones or both the GLWE ones. -/
theorem C61_stdDev {w : ℕ} (p : Params w) :
    (p.defaultLWEDimension, p.defaultLWEStdDev) = (p.lweDimension, p.lweStdDev) ∨
    (p.defaultLWEDimension, p.defaultLWEStdDev) = (p.glweDimension, p.glweStdDev) := by
  unfold Params.defaultLWEDimension Params.defaultLWEStdDev
  split
  · exact .inl rfl
  · exact .inr rfl

/-- **C61.**  Each part of compiled circuit bootstrapping parameters is what its own literal compiles to. -/
theorem C61_circuit {w : ℕ} (impl : BitVec w) (lit : CircuitBootstrapLit w) (p : CircuitBootstrapParams w) :
    lit.compile impl = some p ↔ lit.manyLUTParams.compile impl = some p.manyLUTParams ∧
      lit.schemeSwitchParams.compile = some p.schemeSwitchParams ∧
      lit.traceKeySwitchParams.compile = some p.traceKeySwitchParams ∧ lit.outputParams.compile = some p.outputParams := by
  unfold CircuitBootstrapLit.compile
  simp only [Option.bind_eq_some_iff, Option.some.injEq]
  constructor
  · rintro ⟨m, h1, s, h2, t, h3, o, h4, rfl⟩
    exact ⟨h1, h2, h3, h4⟩
  · rintro ⟨h1, h2, h3, h4⟩
    exact ⟨_, h1, _, h2, _, h3, _, h4, rfl⟩

/-! ## Cases -/

/-- Under both orders the two pairs of `C61_stdDev` differ, in dimension and in standard deviation. -/
example : ((paramsUint4.compile 0).map fun p => (p.bootstrapOrder, decide (p.lweDimension = p.glweDimension),
      decide (p.lweStdDev = p.glweStdDev), decide (p.defaultLWEStdDev = p.glweStdDev))) = some (0, false, false, true) ∧
    ((paramsBinary.compile 0).map fun p => (p.bootstrapOrder, decide (p.lweDimension = p.glweDimension),
      decide (p.lweStdDev = p.glweStdDev), decide (p.defaultLWEStdDev = p.lweStdDev))) = some (1, false, false, true) := by
  decide +kernel

/-- The published circuit bootstrapping set has different parameters for the scheme switch and the trace. -/
example : paramsCircuitBootstrapMedium.schemeSwitchParams ≠ paramsCircuitBootstrapMedium.traceKeySwitchParams := by decide +kernel

theorem Pubd.bind_ok {α β : Type} {m : Stream α} {f : α → Stream β} {ws rest : List (BitVec 32)} {a : α} (h : m ws = .ok a rest) :
    (m >>= f) ws = f a rest := by
  have e : (m >>= f) ws = match m ws with
    | .panic => .panic
    | .reading => .reading
    | .ok a rest => f a rest := rfl
  rw [e, h]

theorem exLibm_saturates : Saturates exLibm := fun b => .inl (by simp [exLibm])

/-- `ParamsUint4`, a key of 4 words, the message 13 and a stream at the bound of the noise: an encryption of 13 comes out. -/
example (sk mask : Fin 4 → BitVec 64) : ∃ p, paramsUint4.compile 0 = some p ∧ p.messageModulus = 16 ∧
    ∃ ct rest, encryptLWE exLibm (stdDevQ exLibm 64 p.defaultLWEStdDev) sk mask (encodeLWECustom 13 p.messageModulus p.scale)
      [0xFFFFFF00, 512, 0, 1234] = .ok ct rest ∧ decodeLWECustom (decryptLWEPhase sk ct) p.messageModulus p.scale = some 13 := by
  have hpub : IsPublished 64 paramsUint4 := .w64 _ (by decide +kernel)
  obtain ⟨p, hp, R⟩ := C61_compile hpub 0
  have hmod : p.messageModulus = 16 := by
    have : (paramsUint4.compile 0).map (·.messageModulus) = some 16 := by decide +kernel
    rw [hp] at this
    exact Option.some.inj this
  refine ⟨p, hp, hmod, ?_⟩
  have h0 : 1 / 8 ≤ f64Val p.defaultLWEStdDev * 2 ^ 64 := by
    unfold Params.defaultLWEStdDev
    split
    · exact R.sigma.1
    · exact R.sigma.2
  have hA := C61_lwe hpub hp exLibm_good sk mask 13 [0xFFFFFF00, 512, 0, 1234] (.inl exLibm_saturates)
  obtain ⟨v, hs⟩ : ∃ v, sample exLibm 64 (stdDevQ exLibm 64 p.defaultLWEStdDev) [0xFFFFFF00, 512, 0, 1234] = .ok v [1234] := by
    rw [sample, if_neg (not_lt.mpr (le_trans (by norm_num) (Pubd.stdDev_near exLibm_good 64 _ h0).1)), exNorm, Option.map_some]
    exact ⟨_, rfl⟩
  have he : encryptLWE exLibm (stdDevQ exLibm 64 p.defaultLWEStdDev) sk mask (encodeLWECustom 13 p.messageModulus p.scale)
      [0xFFFFFF00, 512, 0, 1234] =
      .ok (encryptLWEPlaintext sk mask v (encodeLWECustom 13 p.messageModulus p.scale)) [1234] := by
    exact Pubd.bind_ok hs
  have h3 := (hA.2 _ _ he).1
  have h4 : (((13 : BitVec 64).setWidth 64).toNat % p.messageModulus.toNat : ℕ) = 13 := by rw [hmod]; decide
  simp only [h4] at h3
  exact ⟨_, _, he, h3⟩

/-- With the stream that gives `+Inf`, too: the sample is `2^63`, half the modulus. -/
example (sk mask : Fin 4 → BitVec 64) : ∃ p, paramsUint4.compile 0 = some p ∧
    ∃ ct, encryptLWE exLibm (stdDevQ exLibm 64 p.defaultLWEStdDev) sk mask (encodeLWECustom 13 p.messageModulus p.scale)
      [0xFFFFFF00, 0, 0] = .ok ct [] ∧ phase sk ct = encodeLWECustom 13 p.messageModulus p.scale + BitVec.intMin 64 ∧
      decodeLWECustom (decryptLWEPhase sk ct) p.messageModulus p.scale =
        some (((13 : BitVec 64).setWidth 64).toNat % p.messageModulus.toNat : ℕ) := by
  have hpub : IsPublished 64 paramsUint4 := .w64 _ (by decide +kernel)
  obtain ⟨p, hp, R⟩ := C61_compile hpub 0
  refine ⟨p, hp, ?_⟩
  have h0 : 1 / 8 ≤ f64Val p.defaultLWEStdDev * 2 ^ 64 := by
    unfold Params.defaultLWEStdDev
    split
    · exact R.sigma.1
    · exact R.sigma.2
  have hs := C60_inf (w := 64) exLibm_good (lt_of_lt_of_le (by norm_num) (Pubd.stdDev_near exLibm_good 64 _ h0).1) 0 0
    (by decide) (by decide) []
  have h4 : BitVec.setWidth 64 (exLibm.int64 (.inf false)) = BitVec.intMin 64 := by simp [exLibm]
  rw [h4] at hs
  have he : encryptLWE exLibm (stdDevQ exLibm 64 p.defaultLWEStdDev) sk mask (encodeLWECustom 13 p.messageModulus p.scale)
      [0xFFFFFF00, 0, 0] = .ok (encryptLWEPlaintext sk mask (BitVec.intMin 64) (encodeLWECustom 13 p.messageModulus p.scale)) [] :=
    Pubd.bind_ok hs
  exact ⟨_, he, (C05_fresh sk mask _ _).1, ((C61_lwe hpub hp exLibm_good sk mask 13 _ (.inl exLibm_saturates)).2 _ _ he).1⟩

/-- `ParamsUint4` on a platform that fuses products with sums: the evaluator exists and the theorem on GLWE ciphertexts applies. -/
example : ∃ p l e, paramsUint4.compile 0 = some p ∧ p.logPolyRank = l + 4 ∧ p.bootstrapOrder = 0 ∧
    newEvaluatorFl (exPlatform .left).arith (exPlatform .left).cis p.polyRank = some e := by
  obtain ⟨p, hp, R⟩ := C61_compile (.w64 paramsUint4 (by decide +kernel)) 0
  obtain ⟨r1, r2, r3⟩ := R.rank
  obtain ⟨l, hl⟩ : ∃ l, p.logPolyRank = l + 4 := ⟨p.logPolyRank - 4, by omega⟩
  rw [hl] at r3
  obtain ⟨e, he, -⟩ := C56_newEvaluator (exPlatform_ok .left) r3
  refine ⟨p, l, e, hp, hl, ?_, he⟩
  have : (paramsUint4.compile 0).map (·.bootstrapOrder) = some 0 := by decide +kernel
  rw [hp] at this
  exact Option.some.inj this

end Tfhe
