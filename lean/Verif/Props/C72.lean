import Verif.Model.PubBinary
import Verif.Props.C28
import Verif.Props.C59

/-!
# C72: booleans and integers encrypted with a public key

In the package `tfhe` they decrypt with the secret key, and gates compute on them.  In the package `mktfhe` the first
bit of a new encryptor decrypts, and the following ones do not: the phase of each is off by what the mask of the one
before adds (`C72_mk_next`), which is not noise but depends on uniformly random words.
-/
namespace Tfhe
open Poly

/-! ### Lists of encrypted bits -/

/-- Ciphertexts of the bits of an integer decrypt to the integer modulo a power of two. -/
theorem decryptBits_of_enc {w n : ℕ} (hw : 3 ≤ w) (sk : Fin n → BitVec w) (cts : List (Fin (n + 1) → BitVec w)) (z : ℤ)
    (E : ℕ) (hE : E < 2 ^ (w - 3)) (h : ∀ j (hj : j < cts.length), EncBit sk cts[j] (intBit z j) E) :
    decryptLWEBits sk cts = BitVec.ofInt 64 (z % 2 ^ cts.length) := by
  rw [C22_decryptBits, ← ofBits_intBit, BitVec.ofInt_natCast]
  congr 2
  funext i
  exact C21_decode hw sk _ _ _ (h i.1 i.2) hE

theorem intBit_zero (message : BitVec 64) : (message &&& 1 == 1) = intBit message.toInt 0 := by
  have h1 : message.toInt % 2 = ((message.toNat % 2 : ℕ) : ℤ) := by
    rw [BitVec.toInt_eq_toNat_cond]
    split
    · push_cast; rfl
    · push_cast; omega
  have h2 : (message &&& 1).toNat = message.toNat % 2 := by
    rw [BitVec.toNat_and]
    exact Nat.and_one_is_mod _
  unfold intBit
  rw [pow_zero, Int.ediv_one, h1]
  rw [Bool.eq_iff_iff, beq_iff_eq, decide_eq_true_eq, ← BitVec.toNat_inj, h2]
  exact ⟨fun h => by rw [h]; rfl, fun h => by exact_mod_cast h⟩

theorem intBit_succ (message : BitVec 64) (j : ℕ) :
    intBit (message.sshiftRight 1).toInt j = intBit message.toInt (j + 1) := by
  unfold intBit
  rw [BitVec.toInt_sshiftRight, Int.shiftRight_eq_div_pow, Int.ediv_ediv_of_nonneg (by positivity)]
  congr 3
  push_cast
  rw [pow_succ, mul_comm]

/-! ### One key -/
section
variable {w N k : ℕ} [NeZero N]

/-- The samples are binary, and the noise and the FFT errors are bounded. -/
structure PubRand.Bounded (x : PubRand w N k) (B E : ℕ) : Prop where
  bin : ∀ i t, x.r i t = 0 ∨ x.r i t = 1
  noise0 : wabs x.noise0 ≤ B
  noise : ∀ i, pabs (x.noise i) ≤ B
  err : ∀ i j, pabs (x.err i j) ≤ E

/-- The noise of one encryption under a public key. -/
def pubBound (k N B E : ℕ) : ℕ := (2 * k * N + 1) * B + 2 * (k * (k * (N * E)))

/-- A ciphertext of dimension `n`. -/
def lweOf (n : ℕ) (ct : ℕ → BitVec w) : Fin (n + 1) → BitVec w := fun t => ct t

/-- **C72 (booleans, new outputs).** -/
theorem C72_bool (hw : 3 ≤ w) (sk : Fin k → Poly N (BitVec w)) (mask pkErr : Fin k → Fin k → Poly N (BitVec w))
    (pkNoise : Fin k → Poly N (BitVec w)) (x : PubRand w N k) (kout : ℕ → BitVec w) (b : Bool) (B E : ℕ)
    (hsk : ∀ i t, sk i t = 0 ∨ sk i t = 1) (h1 : ∀ i, pabs (pkNoise i) ≤ B) (h3 : ∀ i j, pabs (pkErr i j) ≤ E)
    (hx : x.Bounded B E) :
    EncBit (fun t : Fin (k * N) => asLWEKey sk kout t)
      (lweOf (k * N) (pubEncryptLWEBool (genLWEPublicKey sk mask pkErr pkNoise) x b)) b (pubBound k N B E) := by
  refine ⟨(pubLWENoise sk x.r pkNoise pkErr x.noise0 x.noise x.err).toInt, ?_, ?_⟩
  · have := C28_lwe_noise sk x.r pkNoise x.noise pkErr x.err x.noise0 B E hsk hx.bin hx.noise0 h1 hx.noise h3 hx.err
    unfold wabs at this
    rw [← Int.natCast_natAbs]
    exact_mod_cast this
  · have := (C28_lwe_partial sk mask pkErr pkNoise x.r x.noise x.noise0 x.err kout (fun _ => 0) (encodeLWEBool w b)
      (fun _ _ _ => rfl)).1
    rw [BitVec.ofInt_add, BitVec.ofInt_toInt, ← encodeLWEBool_eq hw]
    exact this

/-- **C72 (booleans, outputs used before), what holds.** The output must have a zero mask; for others the claim is false
(`C72_reuse_false`). -/
theorem C72_boolTo_partial (sk : Fin k → Poly N (BitVec w)) (mask pkErr : Fin k → Fin k → Poly N (BitVec w))
    (pkNoise : Fin k → Poly N (BitVec w)) (x : PubRand w N k) (kout ct : ℕ → BitVec w) (b : Bool)
    (hct : ∀ t, 1 ≤ t → t < 1 + k * N → ct t = 0) :
    phase (fun t : Fin (k * N) => asLWEKey sk kout t)
        (lweOf (k * N) (pubEncryptLWEBoolTo (genLWEPublicKey sk mask pkErr pkNoise) x ct b)) =
      phase (fun t : Fin (k * N) => asLWEKey sk kout t)
        (lweOf (k * N) (pubEncryptLWEBool (genLWEPublicKey sk mask pkErr pkNoise) x b)) := by
  have h1 := (C28_lwe_partial sk mask pkErr pkNoise x.r x.noise x.noise0 x.err kout ct (encodeLWEBool w b) hct).1
  have h2 := (C28_lwe_partial sk mask pkErr pkNoise x.r x.noise x.noise0 x.err kout (fun _ => 0) (encodeLWEBool w b)
    (fun _ _ _ => rfl)).1
  exact h1.trans h2.symm

theorem pubEncryptLWEBits_length (pk : Fin k → Fin (k + 1) → Poly N (BitVec w)) (x : ℕ → PubRand w N k)
    (bits i : ℕ) (message : BitVec 64) : (pubEncryptLWEBits pk x bits i message).length = bits := by
  induction bits generalizing i message with
  | zero => rfl
  | succ b ih => simp [pubEncryptLWEBits, ih]

/-- **C72 (bits).** Ciphertext `j` encrypts bit `j` of the message, with sign extension. -/
theorem C72_encryptBits (hw : 3 ≤ w) (sk : Fin k → Poly N (BitVec w)) (mask pkErr : Fin k → Fin k → Poly N (BitVec w))
    (pkNoise : Fin k → Poly N (BitVec w)) (x : ℕ → PubRand w N k) (kout : ℕ → BitVec w) (B E : ℕ)
    (hsk : ∀ i t, sk i t = 0 ∨ sk i t = 1) (h1 : ∀ i, pabs (pkNoise i) ≤ B) (h3 : ∀ i j, pabs (pkErr i j) ≤ E)
    (hx : ∀ i, (x i).Bounded B E) (bits i : ℕ) (message : BitVec 64) (j : ℕ)
    (hj : j < (pubEncryptLWEBits (genLWEPublicKey sk mask pkErr pkNoise) x bits i message).length) :
    EncBit (fun t : Fin (k * N) => asLWEKey sk kout t)
      (lweOf (k * N) (pubEncryptLWEBits (genLWEPublicKey sk mask pkErr pkNoise) x bits i message)[j])
      (intBit message.toInt j) (pubBound k N B E) := by
  induction bits generalizing i message j with
  | zero => exact absurd hj (Nat.not_lt_zero _)
  | succ bits ih =>
    cases j with
    | zero =>
      rw [← intBit_zero]
      exact C72_bool hw sk mask pkErr pkNoise (x i) kout _ B E hsk h1 h3 (hx i)
    | succ j =>
      rw [← intBit_succ]
      exact ih (i + 1) (message.sshiftRight 1) j _

/-- **C72 (integers).** The bits of any integer, encrypted with the public key, decrypt with the secret key to the
integer modulo `2^bits`, as an `int`. -/
theorem C72_bits (hw : 3 ≤ w) (sk : Fin k → Poly N (BitVec w)) (mask pkErr : Fin k → Fin k → Poly N (BitVec w))
    (pkNoise : Fin k → Poly N (BitVec w)) (x : ℕ → PubRand w N k) (kout : ℕ → BitVec w) (B E : ℕ)
    (hsk : ∀ i t, sk i t = 0 ∨ sk i t = 1) (h1 : ∀ i, pabs (pkNoise i) ≤ B) (h3 : ∀ i j, pabs (pkErr i j) ≤ E)
    (hx : ∀ i, (x i).Bounded B E) (hE : pubBound k N B E < 2 ^ (w - 3)) (bits : ℕ) (message : BitVec 64) :
    decryptLWEBits (fun t : Fin (k * N) => asLWEKey sk kout t)
        ((pubEncryptLWEBits (genLWEPublicKey sk mask pkErr pkNoise) x bits 0 message).map (lweOf (k * N))) =
      BitVec.ofInt 64 (message.toInt % 2 ^ bits) := by
  rw [decryptBits_of_enc hw _ _ message.toInt _ hE, List.length_map, pubEncryptLWEBits_length]
  intro j hj
  rw [List.getElem_map]
  exact C72_encryptBits hw sk mask pkErr pkNoise x kout B E hsk h1 h3 hx bits 0 message j _

omit [NeZero N] in
/-- The flat form of a GLWE key with the coefficients `lk`. -/
theorem asLWEKey_glweKeyOf (lk : ℕ → Bool) (kout : ℕ → BitVec w) :
    (fun t : Fin (k * N) => asLWEKey (glweKeyOf w N k lk) kout t) = lweKeyOf w (k * N) lk := by
  funext t
  have hN : 0 < N := by
    rcases Nat.eq_zero_or_pos N with h | h
    · have := t.2; simp [h] at this
    · exact h
  have hi : t.1 / N < k := Nat.div_lt_of_lt_mul (lt_of_lt_of_eq t.2 (mul_comm k N))
  have h := (asLWEKey_spec (glweKeyOf w N k lk) kout).1 ⟨t.1 / N, hi⟩ ⟨t.1 % N, Nat.mod_lt _ hN⟩
  have e : t.1 / N * N + t.1 % N = t.1 := by rw [mul_comm]; exact Nat.div_add_mod _ _
  simp only [e] at h
  rw [h]
  unfold glweKeyOf lweKeyOf
  simp only [e]

/-- **C72 (gates).** Every gate on two booleans encrypted with the public key gives a ciphertext that decrypts with the
secret key to the value of the gate; the output may be one of the inputs. -/
theorem C72_gate (b : Boot w N k) (g : Gate) (hw : 3 ≤ w) (hb : b.KeyValid) (hf : b.f = 1)
    (err : ℕ → ℕ → Fin (k + 1) → Poly N (BitVec w)) (hF : ∀ i q, pabs (phase b.sk (err i q)) ≤ b.Fe)
    (old : ℕ → Poly N (BitVec w)) (buf : ℕ → BitVec w) (out ct0 ct1 : ℕ) (m : Mem (BitVec w)) (b0 b1 : Bool)
    (mask pkErr : Fin k → Fin k → Poly N (BitVec w)) (pkNoise : Fin k → Poly N (BitVec w)) (x0 x1 : PubRand w N k)
    (B E : ℕ) (h1 : ∀ i, pabs (pkNoise i) ≤ B) (h3 : ∀ i j, pabs (pkErr i j) ≤ E) (hx0 : x0.Bounded B E)
    (hx1 : x1.Bounded B E) (hm0 : m ct0 = pubEncryptLWEBool (genLWEPublicKey b.sk mask pkErr pkNoise) x0 b0)
    (hm1 : m ct1 = pubEncryptLWEBool (genLWEPublicKey b.sk mask pkErr pkNoise) x1 b1)
    (hcond : g.gain * (pubBound k N B E + pubBound k N B E) * (2 * (b.f * N : ℕ)) / 2 ^ w + b.indexErr .ksBr <
      g.margin * (b.f * N : ℕ))
    (hout : b.outNoise .ksBr < 2 ^ (w - 3)) :
    decryptLWEBool (b.key .ksBr) (ctOf (b.ctDim .ksBr) (b.gate g .ksBr err old buf out ct0 ct1 m) out) =
      g.eval b0 b1 := by
  have hsk : ∀ i t, b.sk i t = 0 ∨ b.sk i t = 1 := by
    intro i t
    show kbit w (b.lk _) = 0 ∨ kbit w (b.lk _) = 1
    unfold kbit
    split <;> simp
  have hk : (fun t : Fin (k * N) => asLWEKey b.sk (fun _ => 0) t) = b.key .ksBr := asLWEKey_glweKeyOf b.lk _
  have e0 := C72_bool hw b.sk mask pkErr pkNoise x0 (fun _ => 0) b0 B E hsk h1 h3 hx0
  have e1 := C72_bool hw b.sk mask pkErr pkNoise x1 (fun _ => 0) b1 B E hsk h1 h3 hx1
  rw [hk, ← hm0] at e0
  rw [hk, ← hm1] at e1
  exact C21_decode hw _ _ _ _
    (C21_gate_partial b g .ksBr hw hb (Or.inl hf) err hF old buf out ct0 ct1 m b0 b1 _ _ e0 e1 hcond).1 hout
end

/-! ### Several keys -/
namespace Mk
section
variable {w N P idx : ℕ} [NeZero N]

/-- The exact phase of one call, for every decryptor that holds the key of the party. -/
theorem pubBool_phase (hidx : idx < P) (sk : Poly N (BitVec w)) (mask pkErr : Fin 1 → Fin 1 → Poly N (BitVec w))
    (pkNoise : Fin 1 → Poly N (BitVec w)) (x : PubRand w N 1) (buf : ℕ → BitVec w) (b : Bool)
    {d : Decryptor (Fin N → BitVec w)} {held : ℕ → Option (Fin N → BitVec w)} (hd : Holds P d held)
    (hk : held idx = some sk) :
    ∃ ct buf', pubEncryptLWEBool P idx (genLWEPublicKey (fun _ => sk) mask pkErr pkNoise) x buf b = some (ct, buf') ∧
      decryptLWEPhase d ct = some (encodeLWEBool w b +
        pubLWENoise (fun _ => sk) x.r pkNoise pkErr x.noise0 x.noise x.err + inner' (readPoly N 1 buf) sk) ∧
      decryptLWEPhase d ct = some (ct 0 + inner' (readPoly N 1 buf') sk) := by
  have hK : ∀ j, j < N → jointLWE held (idx * N + j) = asLWEKey (fun _ : Fin 1 => sk) (fun _ => 0) j := by
    intro j hj
    have e := (asLWEKey_spec (fun _ : Fin 1 => sk) (fun _ => (0 : BitVec w))).1 0 ⟨j, hj⟩
    simp only [Fin.val_zero, zero_mul, zero_add] at e
    rw [jointLWE_block held idx ⟨j, hj⟩, hk, e]
    rfl
  obtain ⟨ct, buf', h1, h2, h3⟩ := C28_mk_lwe_phase P idx hidx (fun _ : Fin 1 => sk) (jointLWE held) (fun _ => 0) hK mask
    pkErr pkNoise x.r x.noise x.noise0 x.err buf (encodeLWEBool w b)
  refine ⟨ct, buf', h1, by rw [decryptLWEPhase_eq hd, h2], ?_⟩
  rw [decryptLWEPhase_eq hd, h2]
  have h4 := C28_lwe_phase (fun _ : Fin 1 => sk) mask pkErr pkNoise x.r x.noise x.noise0 x.err (fun _ => 0) buf
    (encodeLWEBool w b)
  rw [phase_blocks] at h4
  simp only [Fin.sum_univ_one, Fin.val_zero, zero_mul, add_zero] at h4
  rw [← h4, h3]
  congr 2
  have h5 : mkPubEncryptLWEBody P idx (genLWEPublicKey (fun _ : Fin 1 => sk) mask pkErr pkNoise) x.r x.noise0 x.noise x.err
    buf (encodeLWEBool w b) = some (ct, buf') := h1
  unfold mkPubEncryptLWEBody mkLWECopyFromSubKey at h5
  simp only at h5
  have hle : (idx + 1) * N ≤ P * N := Nat.mul_le_mul_right N hidx
  rw [if_neg (NeZero.ne N), if_neg (by simp), if_neg (by omega)] at h5
  simp only [Option.map_some, Option.some.injEq, Prod.mk.injEq] at h5
  rw [← h5.1]
  rfl

/-- **C72 (several keys), first call.** The first boolean that a new encryptor encrypts decrypts with every decryptor
that holds the key of the party.  Missing: the calls after it, for which the claim is false (`C72_mk_bits_false`). -/
theorem C72_mk_first_partial (hw : 3 ≤ w) (hidx : idx < P) (sk : Poly N (BitVec w))
    (mask pkErr : Fin 1 → Fin 1 → Poly N (BitVec w))
    (pkNoise : Fin 1 → Poly N (BitVec w)) (x : PubRand w N 1) (b : Bool) (B E : ℕ)
    {d : Decryptor (Fin N → BitVec w)} {held : ℕ → Option (Fin N → BitVec w)} (hd : Holds P d held)
    (hk : held idx = some sk) (hsk : ∀ t, sk t = 0 ∨ sk t = 1) (h1 : ∀ i, pabs (pkNoise i) ≤ B)
    (h3 : ∀ i j, pabs (pkErr i j) ≤ E) (hx : x.Bounded B E) (hE : pubBound 1 N B E < 2 ^ (w - 3)) :
    ∃ ct buf, pubEncryptLWEBool P idx (genLWEPublicKey (fun _ => sk) mask pkErr pkNoise) x (fun _ => 0) b =
        some (ct, buf) ∧ decryptLWEBool d ct = some b := by
  obtain ⟨ct, buf, e1, e2, -⟩ := pubBool_phase hidx sk mask pkErr pkNoise x (fun _ => 0) b hd hk
  refine ⟨ct, buf, e1, ?_⟩
  have h0 : inner' (readPoly N 1 (fun _ => (0 : BitVec w))) sk = 0 := by simp [inner', readPoly]
  rw [h0, add_zero] at e2
  unfold decryptLWEBool
  rw [e2, Option.map_some]
  have h4 := C21_decode hw _ _ _ _ (C72_bool (k := 1) hw (fun _ => sk) mask pkErr pkNoise x (fun _ => 0) b B E
    (fun _ => hsk) h1 h3 hx) hE
  unfold Tfhe.decryptLWEBool at h4
  rw [Tfhe.decryptLWEPhase_eq] at h4
  have h5 := (C28_lwe_partial (fun _ : Fin 1 => sk) mask pkErr pkNoise x.r x.noise x.noise0 x.err (fun _ => 0) (fun _ => 0)
    (encodeLWEBool w b) (fun _ _ _ => rfl)).1
  rw [← h5]
  exact congrArg some h4

/-- **C72 (several keys), what the following calls return.** After a call that returned `ct`, the next one returns a
ciphertext whose phase is the bit and the noise plus the phase of `ct` without its body. -/
theorem C72_mk_next (hidx : idx < P) (sk : Poly N (BitVec w)) (mask pkErr : Fin 1 → Fin 1 → Poly N (BitVec w))
    (pkNoise : Fin 1 → Poly N (BitVec w)) (x y : PubRand w N 1) (buf : ℕ → BitVec w) (b c : Bool)
    {d : Decryptor (Fin N → BitVec w)} {held : ℕ → Option (Fin N → BitVec w)} (hd : Holds P d held)
    (hk : held idx = some sk) :
    ∃ ct buf' v ct' buf'',
      pubEncryptLWEBool P idx (genLWEPublicKey (fun _ => sk) mask pkErr pkNoise) x buf b = some (ct, buf') ∧
      decryptLWEPhase d ct = some v ∧
      pubEncryptLWEBool P idx (genLWEPublicKey (fun _ => sk) mask pkErr pkNoise) y buf' c = some (ct', buf'') ∧
      decryptLWEPhase d ct' = some (encodeLWEBool w c +
        pubLWENoise (fun _ => sk) y.r pkNoise pkErr y.noise0 y.noise y.err + (v - ct 0)) := by
  obtain ⟨ct, buf', e1, -, e2⟩ := pubBool_phase hidx sk mask pkErr pkNoise x buf b hd hk
  obtain ⟨ct', buf'', f1, f2, -⟩ := pubBool_phase hidx sk mask pkErr pkNoise y buf' c hd hk
  refine ⟨ct, buf', _, ct', buf'', e1, e2, f1, ?_⟩
  rw [f2]
  congr 2
  abel
end

/-- Binary randomness `1 + X`, no noise, no errors. -/
def pubWitness : PubRand 32 2 1 := ⟨Pub.sk, 0, fun _ => 0, fun _ _ => 0⟩

/-- The claim for integers is false for several keys: a new encryptor for the second of two parties encrypts two bits
of 0, without noise, and they decrypt to 2. -/
theorem C72_mk_bits_false :
    ∃ (d : Decryptor (Fin 2 → BitVec 32)) (held : ℕ → Option (Fin 2 → BitVec 32)) (cts : List (ℕ → BitVec 32))
      (buf : ℕ → BitVec 32), Holds 2 d held ∧ held 1 = some (Pub.sk 0) ∧ pubWitness.Bounded 0 0 ∧
      pubEncryptLWEBits 2 1 Pub.lwePK (fun _ => pubWitness) 2 0 (fun _ => 0) 0 = some (cts, buf) ∧
      decryptLWEBits d cts = some 2 := by
  refine ⟨_, fun i => if i = 1 then some (Pub.sk 0) else none, _, _, holds_example 2 _, rfl, ?_, rfl, ?_⟩
  · refine ⟨fun | 0, 0 => Or.inr rfl | 0, 1 => Or.inr rfl, by decide +kernel, fun i => ?_, fun i j => ?_⟩
    · exact ((polyNorm 2 32).zero).le
    · exact ((polyNorm 2 32).zero).le
  · decide +kernel

end Mk

/-- The claim for outputs used before is false: false, encrypted twice into the same ciphertext, decrypts to true. -/
theorem C72_reuse_false :
    let key : Fin (1 * 2) → BitVec 32 := fun t => asLWEKey Pub.sk (fun _ => 0) t
    let ct := pubEncryptLWEBool Pub.lwePK Mk.pubWitness false
    decryptLWEBool key (lweOf 2 ct) = false ∧
      decryptLWEBool key (lweOf 2 (pubEncryptLWEBoolTo Pub.lwePK Mk.pubWitness ct false)) = true := by
  decide +kernel

/-- The bits of -5, encrypted with a public key of rank 2 with noise and errors everywhere. -/
example :
    let sk : Fin 2 → Poly 2 (BitVec 32) := fun i j => BitVec.ofNat 32 ((i + j) % 2)
    let mask : Fin 2 → Fin 2 → Poly 2 (BitVec 32) := fun i l j => BitVec.ofNat 32 (99999989 * (i + 3 * j + 7 * l + 1))
    let pk := genLWEPublicKey sk mask (fun _ _ _ => 3) (fun _ j => BitVec.ofInt 32 (j - 2))
    let x : ℕ → PubRand 32 2 2 := fun n =>
      ⟨fun i j => BitVec.ofNat 32 ((i * j + n) % 2), 5, fun _ _ => -4, fun _ _ _ => 2⟩
    decryptLWEBits (fun t : Fin (2 * 2) => asLWEKey sk (fun _ => 0) t)
      ((pubEncryptLWEBits pk x 6 0 (-5)).map (lweOf (2 * 2))) = 59 := by
  decide +kernel

/-- The condition on the noise holds for 64-bit words, rank 2048, Gaussian samples up to 2^40 and errors up to 2^20. -/
example : pubBound 1 2048 (2 ^ 40) (2 ^ 20) < 2 ^ (64 - 3) := by decide

end Tfhe
