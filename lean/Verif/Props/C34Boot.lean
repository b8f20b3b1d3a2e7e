import Verif.Props.C34
import Verif.Props.C31

/-!
# C34: multi-key bootstrapping of messages

`BootstrapFuncTo` and `BootstrapLUTTo` of the package `mktfhe`, for any number of parties, any subset of parties with known
keys, both bootstrapping orders, and any contents of buffers and output.
-/
namespace Tfhe.Mk
open Finset Poly

/-- Parameters, keys and bounds. -/
structure MBoot (w N P : ℕ) where
  keys : ℕ → Option (EvalKey (Poly N (BitVec w)))
  gacc : GadgetParams w
  gbr : GadgetParams w
  gr : GadgetParams w
  gks : GadgetParams w
  bs : ℕ
  bc : ℕ
  /-- message modulus and scale -/
  p : BitVec w
  s : BitVec w
  /-- secret key bits of every party -/
  lk : ℕ → ℕ → Bool
  brk : ℕ → ℕ → Fin 2 → ℕ → Fin 2 → Poly N (BitVec w)
  ksk : ℕ → Option (ℕ → ℕ → Fin (bs * bc + 1) → BitVec w)
  /-- noise of the blind rotation, relinearization and key-switching keys -/
  Bbr : ℕ
  Br : ℕ
  Bks : ℕ
  /-- Fourier errors: blind rotation, and the three kinds of products in external products -/
  Fe : ℕ
  Fa : ℕ
  Fs : ℕ
  F : ℕ

namespace MBoot
variable {w N P : ℕ} [NeZero N] (b : MBoot w N P)

/-- The parties whose evaluation keys are known. -/
def on : ℕ → Bool := isOn b.keys
/-- The dimension of one party's small key. -/
def n : ℕ := b.bs * b.bc

structure KeyValid : Prop where
  w1 : 1 ≤ w
  L : 2 * N ≤ 2 ^ 53
  rot : RotKeys P b.keys b.gacc b.gbr b.gr b.bs b.bc b.lk b.brk b.Bbr b.Br
  sw : SwitchKeys P b.on b.gks (b.bs * b.bc) N b.lk b.ksk b.Bks

structure Valid : Prop extends b.KeyValid where
  p0 : b.p ≠ 0
  pw : 2 * b.p.toNat < 2 ^ w
  p52 : b.p.toNat ≤ 2 ^ 52
  pL : b.p.toNat * N ≤ 2 ^ 51
  scale : compileScale w b.p.toNat = some b.s.toNat

/-- Old contents of the buffers, and the Fourier errors of one bootstrapping. -/
structure Bufs (w N : ℕ) where
  errBR : ℕ → ℕ → ℕ → ℕ → Fin 2 → Poly N (BitVec w)
  old : ℕ → ℕ → Poly N (BitVec w)
  ext : ℕ → ExtArgs (Poly N (BitVec w))
  bufKS : ℕ → BitVec w
  bufE : ℕ → BitVec w
  rot : Mem (Poly N (BitVec w))

/-- The errors are in the bounds. -/
structure BufsOK (x : Bufs w N) : Prop where
  errBR : ∀ i j q r, pabs (phase (fun _ : Fin 1 => zOf w N b.lk i) (x.errBR i j q r)) ≤ b.Fe
  ext : ∀ i < P, (x.ext i).Bounded P b.Fa b.Fs b.F

/-- `BootstrapLUTTo`. -/
def runLUT (order : BootstrapOrder) (x : Bufs w N) (out ct : ℕ → BitVec w) (lut : ℕ → Poly N (BitVec w)) :
    Option (ℕ → BitVec w) :=
  bootstrapLUT order P b.keys b.gacc (polyGadget N b.gbr) (polyGadget N b.gr) (scalarGadget b.gks) b.bs b.bc b.brk b.ksk
    x.errBR x.old x.ext x.bufKS x.bufE x.rot out ct lut

/-- `BootstrapFuncTo`. -/
def run (order : BootstrapOrder) (x : Bufs w N) (raw : List (BitVec w)) (out ct : ℕ → BitVec w) (f : ℕ → BitVec 64) :
    Option (ℕ → BitVec w) :=
  bootstrapFunc order P b.keys b.gacc (polyGadget N b.gbr) (polyGadget N b.gr) (scalarGadget b.gks) b.bs b.bc b.brk b.ksk
    b.p b.s raw x.errBR x.old x.ext x.bufKS x.bufE x.rot out ct f

/-- The dimension of one party's default ciphertexts. -/
def ctDim : BootstrapOrder → ℕ
  | .ksBr => N
  | .brKs => b.bs * b.bc
/-- Noise of blind rotation. -/
def brOut : ℕ := countOn P b.keys * partyNoise w N P b.gacc b.gbr b.gr b.bs b.bc b.Bbr b.Br b.Fe b.Fa b.Fs b.F
/-- Noise of key switching. -/
def ksOut : ℕ := countOn P b.keys * ksBound b.gks (N - b.bs * b.bc) b.Bks
def inNoise : BootstrapOrder → ℕ → ℕ
  | .ksBr, e => e + b.ksOut
  | .brKs, e => e
def outNoise : BootstrapOrder → ℕ
  | .ksBr => b.brOut
  | .brKs => b.brOut + b.ksOut
/-- The joint phase of a default ciphertext. -/
def ph (order : BootstrapOrder) (ct : ℕ → BitVec w) : BitVec w :=
  binPhase (P * b.ctDim order) (jointKey (b.ctDim order) b.on b.lk) ct
/-- Rounding of the index: half a unit (and float errors) for the body and for every set key bit of a known party. -/
def roundErr : ℚ := (1 + weight (P * (b.bs * b.bc)) (jointKey (b.bs * b.bc) b.on b.lk)) * switchErr N
def indexErr : BootstrapOrder → ℚ
  | .ksBr => (b.ksOut : ℚ) * (2 * N) / 2 ^ w + b.roundErr
  | .brKs => b.roundErr
end MBoot

section
variable {w N P : ℕ} [NeZero N] (b : MBoot w N P)

theorem extract_zero (ct : Fin (P + 1) → Poly N (BitVec w)) (out : ℕ → BitVec w) (i : ℕ) (hi : i < P)
    (h : ct ⟨i + 1, by omega⟩ = 0) (j : ℕ) (hj : j < N) :
    asLWECiphertext ct ⟨0, NeZero.pos N⟩ out (i * N + j + 1) = 0 := by
  have := (asLWECiphertext_spec ct ⟨0, NeZero.pos N⟩ out).2.1 ⟨i, hi⟩ j hj
  simp only at this
  rw [show i * N + j + 1 = 1 + i * N + j by omega, this]
  have e : ct (Fin.succ ⟨i, hi⟩) = 0 := h
  rw [e, at_zero]

/-- **C34 (any table).** Bootstrapping does not panic and returns an encryption, under the joint key, of the table at an index
that is the scaled joint phase up to `indexErr`, with noise at most `outNoise`; the masks of unknown parties are zero, and
nothing past the ciphertext is written. -/
theorem C34_lut (order : BootstrapOrder) (hb : b.KeyValid) (x : MBoot.Bufs w N) (hx : b.BufsOK x)
    (out ct : ℕ → BitVec w) (lut : ℕ → Poly N (BitVec w)) (X : ℤ) (hct : b.ph order ct = BitVec.ofInt w X) :
    ∃ res, b.runLUT order x out ct lut = some res ∧
      (∃ z : ℤ, |(z : ℚ) - X * (2 * N) / 2 ^ w| ≤ b.indexErr order ∧
        wabs (b.ph order res - at' (lut 0) z) ≤ b.outNoise order) ∧
      (∀ i < P, b.on i = false → ∀ j < b.ctDim order, res (i * b.ctDim order + j + 1) = 0) ∧
      ∀ t, P * b.ctDim order + 1 ≤ t → res t = out t := by
  have hN0 := NeZero.pos N
  have hrot : ∀ (ct : ℕ → BitVec w) (X : ℤ),
      binPhase (P * (b.bs * b.bc)) (jointKey (b.bs * b.bc) b.on b.lk) ct = BitVec.ofInt w X →
      ∃ m', blindRotateTo P b.keys b.gacc (polyGadget N b.gbr) (polyGadget N b.gr) b.bs b.bc b.brk x.errBR x.old x.ext ct lut
          0 x.rot = some m' ∧
        (∃ z : ℤ, |(z : ℚ) - X * (2 * N) / 2 ^ w| ≤ b.roundErr ∧
          wabs (at' (phase (glweKeyOf w N P (jointKey N b.on b.lk)) (readCt P m')) 0 - at' (lut 0) z) ≤ b.brOut) ∧
        (∀ j < P, b.on j = false → m' 0 (j + 1) = 0) := by
    intro ct X hX
    obtain ⟨m', h1, h2, h3, -⟩ := C34_blindRotate hb.rot b.Fe b.Fa b.Fs b.F x.errBR hx.errBR x.old x.ext hx.ext ct lut 0 x.rot
    refine ⟨m', h1, ?_, h3⟩
    obtain ⟨z, hz1, hz2⟩ := index_near w N _ X hX (rotExp w N (P * (b.bs * b.bc)) (jointKey (b.bs * b.bc) b.on b.lk) ct)
      b.roundErr 0 0 (by simp) (C16_phase w N _ hN0 hb.L _ ct)
    refine ⟨z, by simpa using hz2, ?_⟩
    have h4 := (wabs_at_le _ 0).trans h2
    rw [at_sub, at_mono_mul] at h4
    rw [at_congr (lut 0) hz1]
    rw [zero_sub, neg_neg] at h4
    rw [add_zero]
    exact h4
  have hks := C34_keySwitch P b.on b.gks (b.bs * b.bc) N b.lk b.ksk b.Bks hb.sw
  cases order with
  | ksBr =>
    obtain ⟨k1, -, -⟩ := hks ct x.bufKS
    set ctk := defaultKeySwitchTo P (scalarGadget b.gks) (b.bs * b.bc) N b.ksk ct x.bufKS with hctk
    set d := binPhase (P * (b.bs * b.bc)) (jointKey (b.bs * b.bc) b.on b.lk) ctk -
      binPhase (P * N) (jointKey N b.on b.lk) ct with hd
    have hct' : binPhase (P * N) (jointKey N b.on b.lk) ct = BitVec.ofInt w X := hct
    obtain ⟨m', h1, ⟨z, hz, h2⟩, h3⟩ := hrot ctk (X + d.toInt) (by
      rw [BitVec.ofInt_add, BitVec.ofInt_toInt, ← hct', hd]; ring)
    refine ⟨asLWECiphertext (readCt P m') ⟨0, NeZero.pos N⟩ out, ?_, ⟨z, ?_, ?_⟩, fun i hi ho j hj => ?_, fun t ht => ?_⟩
    · unfold MBoot.runLUT bootstrapLUT
      simp only
      rw [← hctk, h1]; rfl
    · have hdq : |(d.toInt : ℚ)| ≤ b.ksOut := by
        have : |(d.toInt : ℚ)| = (wabs d : ℚ) := by unfold wabs; rw [Nat.cast_natAbs, Int.cast_abs]
        rw [this]; exact_mod_cast k1
      have hsplit : (z : ℚ) - X * (2 * N) / 2 ^ w
          = d.toInt * (2 * N) / 2 ^ w + (z - ((X + d.toInt : ℤ) : ℚ) * (2 * N) / 2 ^ w) := by
        push_cast; ring
      rw [hsplit]
      refine (abs_add_le _ _).trans ?_
      show _ ≤ (b.ksOut : ℚ) * (2 * N) / 2 ^ w + b.roundErr
      refine add_le_add ?_ hz
      rw [abs_div, abs_mul, abs_of_nonneg (by positivity : (0:ℚ) ≤ 2 * N), abs_of_pos (by positivity : (0:ℚ) < 2 ^ w)]
      exact div_le_div_of_nonneg_right (mul_le_mul_of_nonneg_right hdq (by positivity)) (by positivity)
    · show wabs (binPhase (P * N) (jointKey N b.on b.lk) _ - _) ≤ b.brOut
      rw [extract_binPhase]; exact h2
    · exact extract_zero _ out i hi (h3 i hi ho) j hj
    · exact (asLWECiphertext_spec _ _ out).2.2 t (by
        have : P * N + 1 ≤ t := ht
        omega)
  | brKs =>
    obtain ⟨m', h1, ⟨z, hz, h2⟩, h3⟩ := hrot ct X hct
    set c := asLWECiphertext (readCt P m') ⟨0, NeZero.pos N⟩ x.bufE with hc
    obtain ⟨k1, k2, k3⟩ := hks c out
    refine ⟨defaultKeySwitchTo P (scalarGadget b.gks) (b.bs * b.bc) N b.ksk c out, ?_, ⟨z, hz, ?_⟩, k2, k3⟩
    · unfold MBoot.runLUT bootstrapLUT
      simp only
      rw [h1]; rfl
    · have e : binPhase (P * N) (jointKey N b.on b.lk) c = _ := extract_binPhase _ _ x.bufE
      rw [← e] at h2
      show wabs (binPhase (P * (b.bs * b.bc)) (jointKey (b.bs * b.bc) b.on b.lk) _ - _) ≤ b.brOut + b.ksOut
      rw [← sub_add_sub_cancel _ (binPhase (P * N) (jointKey N b.on b.lk) c), add_comm b.brOut]
      exact (wabs_add_le _ _).trans (Nat.add_le_add k1 h2)

/-- An index near a scaled phase of message `m` hits the window of `m` in a table. -/
theorem window_of_near (w N p s m : ℕ) (hp : 0 < p) (hm : m < p) (e z : ℤ) (E δ : ℚ) (hE : |(e : ℚ)| ≤ E)
    (hz : |(z : ℚ) - ((m * s + e : ℤ) : ℚ) * (2 * N) / 2 ^ w| ≤ δ)
    (hcond : E * (2 * N) / 2 ^ w + δ + N * |(2 : ℚ) ^ w - 2 * p * s| / 2 ^ w + 1 ≤ N / (2 * p)) :
    2 * |z * p - m * N| + 2 * p ≤ (N : ℤ) := by
  have hw : (0:ℚ) < 2 ^ w := by positivity
  have hp' : (0:ℚ) < p := by exact_mod_cast hp
  have hN : (0:ℚ) ≤ N := by positivity
  have h1 : |(e : ℚ) * (2 * N) / 2 ^ w| ≤ E * (2 * N) / 2 ^ w := by
    rw [abs_div, abs_mul, abs_of_nonneg (by positivity : (0:ℚ) ≤ 2 * N), abs_of_pos hw]
    exact div_le_div_of_nonneg_right (mul_le_mul_of_nonneg_right hE (by positivity)) hw.le
  have h2 : |(m : ℚ) * s * (2 * N) / 2 ^ w - m * N / p| ≤ N * |(2 : ℚ) ^ w - 2 * p * s| / 2 ^ w := by
    have e1 : (m : ℚ) * s * (2 * N) / 2 ^ w - m * N / p = -((m / p) * (N * ((2 : ℚ) ^ w - 2 * p * s) / 2 ^ w)) := by
      field_simp; ring
    rw [e1, abs_neg, abs_mul, abs_div (N * ((2 : ℚ) ^ w - 2 * p * s)), abs_mul (N : ℚ), abs_of_nonneg hN, abs_of_pos hw,
      abs_of_nonneg (by positivity : (0:ℚ) ≤ m / p)]
    have : (m : ℚ) / p ≤ 1 := by rw [div_le_one hp']; exact_mod_cast hm.le
    exact mul_le_of_le_one_left (by positivity) this
  have h3 : |(z : ℚ) - m * N / p| + 1 ≤ N / (2 * p) := by
    have hs : (z : ℚ) - m * N / p = ((z : ℚ) - ((m * s + e : ℤ) : ℚ) * (2 * N) / 2 ^ w) +
        ((e : ℚ) * (2 * N) / 2 ^ w + ((m : ℚ) * s * (2 * N) / 2 ^ w - m * N / p)) := by push_cast; ring
    have := (abs_add_le ((z : ℚ) - ((m * s + e : ℤ) : ℚ) * (2 * N) / 2 ^ w)
      ((e : ℚ) * (2 * N) / 2 ^ w + ((m : ℚ) * s * (2 * N) / 2 ^ w - m * N / p)))
    have h4 := abs_add_le ((e : ℚ) * (2 * N) / 2 ^ w) ((m : ℚ) * s * (2 * N) / 2 ^ w - m * N / p)
    rw [hs]; linarith
  have h5 : (2 * |(z : ℚ) * p - m * N| + 2 * p : ℚ) ≤ N := by
    have e1 : ((z : ℚ) * p - m * N) = (z - m * N / p) * p := by field_simp
    rw [e1, abs_mul, abs_of_pos hp']
    have := mul_le_mul_of_nonneg_right h3 (by positivity : (0:ℚ) ≤ 2 * p)
    have e2 : (N : ℚ) / (2 * p) * (2 * p) = N := by field_simp
    rw [e2] at this; linarith
  exact_mod_cast h5

/-- **C34 (phase).** Bootstrapping a joint encryption of `m` yields a joint encryption of `f(m)`, with noise that does not depend on
the input noise. -/
theorem C34_phase (order : BootstrapOrder) (hb : b.Valid) (x : MBoot.Bufs w N) (hx : b.BufsOK x)
    (raw : List (BitVec w)) (hraw : raw.length = N) (out ct : ℕ → BitVec w) (f : ℕ → BitVec 64) (m : ℕ) (hm : m < b.p.toNat)
    (e : BitVec w) (hct : b.ph order ct = BitVec.ofNat w (m * b.s.toNat) + e)
    (hcond : (b.inNoise order (wabs e) : ℚ) * (2 * N) / 2 ^ w + b.roundErr
      + N * |(2 : ℚ) ^ w - 2 * b.p.toNat * b.s.toNat| / 2 ^ w + 1 ≤ N / (2 * b.p.toNat)) :
    ∃ res, b.run order x raw out ct f = some res ∧
      wabs (b.ph order res - encodeLWECustom (f m) b.p b.s) ≤ b.outNoise order ∧
      (∀ i < P, b.on i = false → ∀ j < b.ctDim order, res (i * b.ctDim order + j + 1) = 0) ∧
      ∀ t, P * b.ctDim order + 1 ≤ t → res t = out t := by
  have hp0 : 0 < b.p.toNat := by omega
  obtain ⟨V, hV, hwin⟩ := C15_genLUT_encoded 1 N b.p b.s f raw (by rw [Nat.one_mul]; exact hraw) hb.p0 hb.pw hb.p52
    (by rw [Nat.one_mul]; exact hb.pL)
  obtain ⟨res, h1, ⟨z, hz, h2⟩, h3, h4⟩ := C34_lut b order hb.toKeyValid x hx out ct (ext0 V) (m * b.s.toNat + e.toInt) (by
    rw [hct, BitVec.ofInt_add, BitVec.ofInt_toInt]
    congr 1)
  refine ⟨res, ?_, ?_, h3, h4⟩
  · unfold MBoot.run bootstrapFunc
    rw [hV]; exact h1
  · have he : |(e.toInt : ℚ)| = (wabs e : ℚ) := by unfold wabs; rw [Nat.cast_natAbs, Int.cast_abs]
    have hz2 : 2 * |z * b.p.toNat - m * N| + 2 * b.p.toNat ≤ (N : ℤ) := by
      refine window_of_near w N b.p.toNat b.s.toNat m hp0 hm e.toInt z (wabs e) (b.indexErr order) he.le
        (by exact_mod_cast hz) ?_
      cases order with
      | ksBr =>
        have e1 : b.indexErr .ksBr = (b.ksOut : ℚ) * (2 * N) / 2 ^ w + b.roundErr := rfl
        have e2 : (b.inNoise .ksBr (wabs e) : ℚ) = wabs e + b.ksOut := by
          show ((wabs e + b.ksOut : ℕ) : ℚ) = _
          push_cast; rfl
        rw [e1]
        rw [e2, add_mul, add_div] at hcond
        linarith
      | brKs => exact hcond
    have h5 := (hwin m hm z (by rw [Nat.one_mul]; exact_mod_cast hz2)).1
    have h6 : at' (inter V) z = at' (ext0 V 0) z := by
      rw [at_inter, Nat.cast_one, Int.ediv_one, Subsingleton.elim (idx 1 z) 0]
      rfl
    rw [← h5, h6]; exact h2

/-- The keys a decryptor of the known parties holds for default ciphertexts. -/
def MBoot.held (order : BootstrapOrder) (i : ℕ) : Option (Fin (b.ctDim order) → BitVec w) :=
  if b.on i then some fun j => kbit w (b.lk i j) else none

omit [NeZero N] in
/-- The decryptor computes the joint phase. -/
theorem decrypt_ph (order : BootstrapOrder) {d : Decryptor (Fin (b.ctDim order) → BitVec w)}
    (hd : Holds P d (b.held order)) (ct : ℕ → BitVec w) : decryptLWEPhase d ct = some (b.ph order ct) := by
  rw [decryptLWEPhase_eq hd]
  congr 1
  unfold MBoot.ph
  rw [← phase_lweKeyOf]
  congr 1
  funext t
  have hn : 0 < b.ctDim order := by
    rcases Nat.eq_zero_or_pos (b.ctDim order) with h | h
    · have h' : P * b.ctDim order = 0 := by simp [h]
      have := t.2; omega
    · exact h
  unfold jointLWE lweKeyOf jointKey MBoot.held
  cases h : b.on (t.1 / b.ctDim order)
  · simp [kbit]
  · simp [Nat.mod_lt _ hn]

/-- **C34 (messages).** A ciphertext that the decryptor of the known parties reads as message `m` with noise `e` is bootstrapped to
one that it decrypts to `f(m)`; so does every decryptor that holds further keys. -/
theorem C34_decrypts (order : BootstrapOrder) (hb : b.Valid) (x : MBoot.Bufs w N) (hx : b.BufsOK x)
    (raw : List (BitVec w)) (hraw : raw.length = N) (out ct : ℕ → BitVec w) (f : ℕ → BitVec 64) (message : BitVec 64)
    (e : BitVec w) {d d' : Decryptor (Fin (b.ctDim order) → BitVec w)} {held'} (hd : Holds P d (b.held order))
    (hd' : Holds P d' held') (hmore : ∀ i < P, b.on i → held' i = b.held order i)
    (hct : decryptLWEPhase d ct = some (encodeLWECustom message b.p b.s + e))
    (hcond : (b.inNoise order (wabs e) : ℚ) * (2 * N) / 2 ^ w + b.roundErr
      + N * |(2 : ℚ) ^ w - 2 * b.p.toNat * b.s.toNat| / 2 ^ w + 1 ≤ N / (2 * b.p.toNat))
    (hout : (b.outNoise order : ℚ) + b.p.toNat + 2 ^ w / 2 ^ 50 < (b.s.toNat : ℚ) / 2) :
    ∃ res φ, b.run order x raw out ct f = some res ∧ decryptLWEPhase d res = some φ ∧ decryptLWEPhase d' res = some φ ∧
      decodeLWECustom φ b.p b.s
        = some ((((f ((message.setWidth w).toNat % b.p.toNat)).setWidth w).toNat % b.p.toNat : ℕ) : ℤ) := by
  have hp0 : 0 < b.p.toNat := by
    rcases Nat.eq_zero_or_pos b.p.toNat with h0 | h0
    · exact absurd (BitVec.eq_of_toNat_eq (by simpa using h0)) hb.p0
    · exact h0
  have henc : encodeLWECustom message b.p b.s
      = BitVec.ofNat w ((message.setWidth w).toNat % b.p.toNat * b.s.toNat) := by
    unfold encodeLWECustom
    simp only [hb.p0, ne_eq, not_false_eq_true, if_true]
    apply BitVec.eq_of_toNat_eq
    rw [BitVec.toNat_mul, BitVec.toNat_umod, BitVec.toNat_ofNat]
  rw [decrypt_ph b order hd, henc, Option.some.injEq] at hct
  obtain ⟨res, hres, h, hz, -⟩ := C34_phase b order hb x hx raw hraw out ct f _ (Nat.mod_lt _ hp0) e hct hcond
  refine ⟨res, b.ph order res, hres, decrypt_ph b order hd res, ?_, ?_⟩
  · rw [← decrypt_ph b order hd res]
    refine C31_irrelevant hd' hd res fun i hi hne j hj => ?_
    have ho : b.on i = false := by
      cases ho : b.on i
      · rfl
      · exact absurd (hmore i hi ho) hne
    rw [show 1 + i * b.ctDim order + j = i * b.ctDim order + j + 1 by omega]
    exact hz i hi ho j hj
  · set y := f ((message.setWidth w).toNat % b.p.toNat)
    set δ := b.ph order res - encodeLWECustom y b.p b.s with hδ
    have e1 : |(δ.toInt : ℚ)| = (wabs δ : ℚ) := by unfold wabs; rw [Nat.cast_natAbs, Int.cast_abs]
    have e2 : (wabs δ : ℚ) ≤ b.outNoise order := by exact_mod_cast h
    have := C03_default hb.w1 y b.p b.s hb.p0 hb.scale δ.toInt (by rw [e1]; linarith)
    rw [BitVec.ofInt_toInt, hδ, add_sub_cancel] at this
    exact this
end

/-! ### A concrete instance

Three parties, the second of which is unknown.  64-bit words, degree 64, two key bits per party in the small key, modulus 2, base
256 with 8 digits throughout, noise of all keys up to 2^4 and Fourier errors up to 2^10; masks, noises and
the common reference string are arbitrary. -/

/-- Gadget of the instance. -/
def exG : GadgetParams 64 := ⟨256, 8, 8⟩

/-- The key bits of the instance. -/
def exLk (i j : ℕ) : Bool := (i + j) % 2 == 0

/-- The randomness of the keys. -/
structure ExRand (N : ℕ) where
  a : ℕ → Poly N (BitVec 64)
  crsNoise : ℕ → ℕ → Poly N (BitVec 64)
  aux : ℕ → Bool
  n0 : ℕ → ℕ → Poly N (BitVec 64)
  m1 : ℕ → ℕ → Poly N (BitVec 64)
  n1 : ℕ → ℕ → Poly N (BitVec 64)
  brMask : ℕ → ℕ → Fin 2 → ℕ → Fin 1 → Poly N (BitVec 64)
  brNoise : ℕ → ℕ → Fin 2 → ℕ → Poly N (BitVec 64)
  ksMask : ℕ → ℕ → ℕ → Fin (1 * 2) → BitVec 64
  ksNoise : ℕ → ℕ → ℕ → BitVec 64

structure ExRand.OK {N : ℕ} (r : ExRand N) : Prop where
  crs : ∀ i j, pabs (r.crsNoise i j) ≤ 2 ^ 4
  n0 : ∀ i j, pabs (r.n0 i j) ≤ 2 ^ 4
  n1 : ∀ i j, pabs (r.n1 i j) ≤ 2 ^ 4
  br : ∀ i j t l, pabs (r.brNoise i j t l) ≤ 2 ^ 4
  ks : ∀ i j l, wabs (r.ksNoise i j l) ≤ 2 ^ 4

/-- Keys made by the key generation of the library. -/
def exM (N : ℕ) [NeZero N] (r : ExRand N) : MBoot 64 N 3 where
  keys := fun i => if i = 1 then none else some
    ⟨genCRSPublicKey r.a (zOf 64 N exLk i) (r.crsNoise i) 0,
      uniEncryptPoly (polyGadget N exG).g r.a (zOf 64 N exLk i) (zOf 64 N (fun _ => r.aux) 0) 0 (r.n0 i) (r.m1 i) 0 (r.n1 i)
        (zOf 64 N exLk i)⟩
  gacc := exG
  gbr := exG
  gr := exG
  gks := exG
  bs := 1
  bc := 2
  p := 2#64
  s := 0x4000000000000000#64
  lk := exLk
  brk := fun i j => genBlindRotateKeyElem exG (fun _ : Fin 1 => zOf 64 N exLk i) (r.brMask i j) 0 (r.brNoise i j)
    (kbit 64 (exLk i j))
  ksk := fun i => if i = 1 then none else some fun j =>
    encryptLevScalar exG (lweKeyOf 64 (1 * 2) (exLk i)) (r.ksMask i j) (r.ksNoise i j) (kbit 64 (exLk i (1 * 2 + j)))
  Bbr := 2 ^ 4
  Br := 2 ^ 4
  Bks := 2 ^ 4
  Fe := 2 ^ 10
  Fa := 2 ^ 10
  Fs := 2 ^ 10
  F := 2 ^ 10

theorem exM_valid (N : ℕ) [NeZero N] (hN : N = 64) (r : ExRand N) (hr : r.OK) : (exM N r).Valid where
  w1 := by norm_num
  L := by omega
  p0 := show 2#64 ≠ 0 by decide
  pw := show 2 * 2 < 2 ^ 64 by norm_num
  p52 := show 2 ≤ 2 ^ 52 by norm_num
  pL := show 2 * N ≤ 2 ^ 51 by omega
  scale := show compileScale 64 2 = some 0x4000000000000000 by decide +kernel
  rot := {
    gacc_ok := show exG.Valid by constructor <;> decide
    gbr_ok := show exG.Valid by constructor <;> decide
    gr_ok := show exG.Valid by constructor <;> decide
    bs_ok := Nat.one_pos
    bc_ok := Nat.two_pos
    key_ok := fun i _ _ q _ j j' hj hj' _ _ => by
      have h1 : (exM N r).bs = 1 := rfl
      rw [h1] at hj hj'
      omega
    brk_ok := fun i _ _ => ⟨r.brMask i, 0, r.brNoise i, fun j t l => by
      simp only [Pi.zero_apply, sum_const_zero, sub_zero]; exact hr.br i j t l, rfl⟩
    crs_ok := ⟨r.a, fun i _ k hk => by
      have hk' : (if i = 1 then none else some _) = some k := hk
      split at hk'
      · cases hk'
      · rw [Option.some.injEq] at hk'
        subst hk'
        exact ⟨⟨r.crsNoise i, 0, fun j => by rw [Pi.zero_apply, sub_zero]; exact hr.crs i j, rfl⟩,
          r.aux, 0, r.n0 i, r.m1 i, 0, r.n1 i, fun j => by rw [Pi.zero_apply, zero_add]; exact hr.n0 i j,
          fun j => by rw [Pi.zero_apply, sub_zero]; exact hr.n1 i j, rfl⟩⟩ }
  sw := {
    gks_ok := show exG.Valid by constructor <;> decide
    dim_ok := show 1 * 2 ≤ N by omega
    on_ok := fun i _ => by
      show (if i = 1 then none else some _ : Option _).isSome = (if i = 1 then none else some _ : Option _).isSome
      split <;> rfl
    ksk_ok := fun i _ k hk => by
      have hk' : (if i = 1 then none else some _) = some k := hk
      split at hk'
      · cases hk'
      · exact ⟨r.ksMask i, r.ksNoise i, fun j l _ => hr.ks i j l, (Option.some.inj hk').symm⟩ }

theorem exM_on (N : ℕ) [NeZero N] (r : ExRand N) : (exM N r).on = fun i => !(i == 1) := by
  funext i
  show (if i = 1 then none else some _ : Option _).isSome = _
  by_cases h : i = 1 <;> simp [h]

theorem exM_round (N : ℕ) [NeZero N] (r : ExRand N) : (exM N r).roundErr = (1 + (2 : ℕ)) * switchErr N := by
  have hw : weight (3 * (1 * 2)) (jointKey (1 * 2) (fun i => !(i == 1)) exLk) = 2 := by decide +kernel
  show (1 + (weight (3 * (1 * 2)) (jointKey (1 * 2) (exM N r).on exLk) : ℚ)) * switchErr N = _
  rw [exM_on, hw]

theorem exM_bounds (N : ℕ) [NeZero N] (hN : N = 64) (r : ExRand N) (order : BootstrapOrder) :
    (exM N r).ksOut ≤ 2 ^ 30 ∧ (exM N r).outNoise order ≤ 2 ^ 51 ∧ (exM N r).indexErr order ≤ 3 := by
  set b := exM N r with hb
  have hcount : countOn 3 b.keys = 2 := by
    show (∑ i ∈ range 3, if b.on i then 1 else 0) = 2
    rw [hb, exM_on]; decide
  have hNq : (N : ℚ) = 64 := by exact_mod_cast hN
  have hks : b.ksOut ≤ 2 ^ 30 := by
    show countOn 3 b.keys * ksBound exG (N - 1 * 2) (2 ^ 4) ≤ _
    rw [hcount, hN]; decide +kernel
  have hbr : b.brOut ≤ 2 ^ 50 := by
    show countOn 3 b.keys * extBound 3 N N 8 (256 / 2) (2 ^ (64 - 8 * 8) / 2)
      (2 * (1 * (2 * ((2 ^ (64 - 8 * 8) / 2) * (1 + 1 * N) + (1 + 1) * (8 * (N * (256 / 2 * 2 ^ 4))))) + 2 ^ 10))
      (2 ^ 10) 1 8 (256 / 2) (2 ^ (64 - 8 * 8) / 2) (2 ^ 4) (2 ^ 10) (2 ^ 10) ≤ _
    rw [hcount, hN]; decide +kernel
  have hre : b.roundErr ≤ 2 := by
    rw [hb, exM_round]; unfold switchErr; rw [hNq]; norm_num
  refine ⟨hks, ?_, ?_⟩
  · cases order
    · exact hbr.trans (by norm_num)
    · exact (Nat.add_le_add hbr hks).trans (by norm_num)
  · cases order
    · show (b.ksOut : ℚ) * (2 * N) / 2 ^ 64 + b.roundErr ≤ 3
      have hks' : (b.ksOut : ℚ) ≤ 2 ^ 30 := by exact_mod_cast hks
      have : (b.ksOut : ℚ) * (2 * N) / 2 ^ 64 ≤ 2 ^ 30 * (2 * 64) / 2 ^ 64 := by rw [hNq]; gcongr
      have h1 : (2 : ℚ) ^ 30 * (2 * 64) / 2 ^ 64 ≤ 1 := by norm_num
      linarith
    · show b.roundErr ≤ 3
      linarith

/-- Every joint encryption of 1 with noise up to 2^50 is bootstrapped correctly, for every function. -/
example (N : ℕ) [NeZero N] (hN : N = 64) (r : ExRand N) (hr : r.OK) (order : BootstrapOrder) (x : MBoot.Bufs 64 N)
    (hx : (exM N r).BufsOK x) (raw : List (BitVec 64)) (hraw : raw.length = N) (out mask : ℕ → BitVec 64)
    (f : ℕ → BitVec 64) (e : BitVec 64) (he : wabs e ≤ 2 ^ 50) :
    let b := exM N r
    let ct := fun t => if t = 0 then encodeLWECustom 1 2#64 0x4000000000000000#64 + e
        - ∑ i ∈ range (3 * b.ctDim order), (if jointKey (b.ctDim order) b.on b.lk i then mask i else 0) else mask (t - 1)
    let d : Decryptor (Fin (b.ctDim order) → BitVec 64) :=
      ⟨[b.held order 0, none, b.held order 2], [b.held order 0, none, b.held order 2], [true, false, true]⟩
    ∃ res φ, b.run order x raw out ct f = some res ∧ decryptLWEPhase d res = some φ ∧
      decodeLWECustom φ 2#64 0x4000000000000000#64 = some (((f 1).toNat % 2 : ℕ) : ℤ) := by
  intro b ct d
  have hon : b.on = fun i => !(i == 1) := exM_on N r
  have hNq : (N : ℚ) = 64 := by exact_mod_cast hN
  obtain ⟨hks, ho, -⟩ := exM_bounds N hN r order
  have hin : b.inNoise order (wabs e) ≤ 2 ^ 51 := by
    cases order
    · exact (Nat.add_le_add he hks).trans (by norm_num)
    · exact he.trans (by norm_num)
  have hd : Holds 3 d (b.held order) := by
    refine ⟨rfl, fun i hi => ?_, fun i hi s hs => ?_⟩
    · unfold MBoot.held
      rw [hon]
      rcases (by omega : i = 0 ∨ i = 1 ∨ i = 2) with rfl | rfl | rfl <;> rfl
    · have h1 : i ≠ 1 := by
        rintro rfl
        unfold MBoot.held at hs
        rw [hon] at hs
        simp at hs
      rcases (by omega : i = 0 ∨ i = 2) with rfl | rfl
      · exact congrArg some hs
      · exact congrArg some hs
  have key := C34_decrypts b order (exM_valid N hN r hr) x hx raw hraw out ct f 1 e hd hd (fun _ _ _ => rfl) ?_ ?_ ?_
  · obtain ⟨res, φ, g1, g2, -, g3⟩ := key
    refine ⟨res, φ, g1, g2, ?_⟩
    have e1 : decodeLWECustom φ 2#64 0x4000000000000000#64
      = some ((((f (((1#64).setWidth 64).toNat % 2)).setWidth 64).toNat % 2 : ℕ) : ℤ) := g3
    simpa using e1
  · rw [decrypt_ph b order hd, Option.some.injEq]
    unfold MBoot.ph binPhase
    simp only [ct, if_true, Nat.add_sub_cancel, Nat.succ_ne_zero, if_false]
    exact sub_add_cancel _ _
  · have hin' : (b.inNoise order (wabs e) : ℚ) ≤ 2 ^ 51 := by exact_mod_cast hin
    rw [exM_round]
    show _ * (2 * (N : ℚ)) / 2 ^ 64 + _
      + (N : ℚ) * |(2 : ℚ) ^ 64 - 2 * ((2 : ℕ) : ℚ) * ((0x4000000000000000 : ℕ) : ℚ)| / 2 ^ 64 + 1 ≤ (N : ℚ) / (2 * ((2 : ℕ) : ℚ))
    unfold switchErr
    rw [hNq]
    norm_num
    linarith
  · have hon' : (b.outNoise order : ℚ) ≤ 2 ^ 51 := by exact_mod_cast ho
    show _ + ((2 : ℕ) : ℚ) + 2 ^ 64 / 2 ^ 50 < ((0x4000000000000000 : ℕ) : ℚ) / 2
    norm_num
    linarith
end Tfhe.Mk
