import Verif.Lemma.Lwe
import Verif.Props.C03

/-!
# C05: LWE encryption and decryption are inverse
-/
namespace Tfhe

/-- The mask of a fresh ciphertext is the sampled one and its phase is exactly plaintext + noise, for
every key, mask and noise. -/
theorem C05_fresh {R : Type} [CommRing R] {n : ℕ} (sk mask : Fin n → R) (noise pt : R) :
    phase sk (encryptLWEPlaintext sk mask noise pt) = pt + noise ∧
    ∀ i, encryptLWEPlaintext sk mask noise pt i.succ = mask i :=
  ⟨phase_encryptLWEBody sk mask noise pt, fun i => by simp [encryptLWEPlaintext, encryptLWEBody]⟩

/-- `DecryptLWEPhase` computes the phase of any ciphertext. -/
theorem C05_decryptPhase {R : Type} [CommRing R] {n : ℕ} (sk : Fin n → R) (ct : Fin (n + 1) → R) :
    decryptLWEPhase sk ct = phase sk ct := decryptLWEPhase_eq sk ct

/-- **C05.** Encrypt then decrypt, with the scale computed by `Compile`: the message modulo `p`, for
all keys, masks and dimensions, and all noise in the radius. -/
theorem C05_round_trip {w n : ℕ} (hw1 : 1 ≤ w) (sk mask : Fin n → BitVec w) (message : BitVec 64)
    (p s : BitVec w) (hp : p ≠ 0) (hs : compileScale w p.toNat = some s.toNat) (e : ℤ)
    (h : |(e : ℚ)| + p.toNat + 2 ^ w / 2 ^ 50 < (s.toNat : ℚ) / 2) :
    decodeLWECustom (decryptLWEPhase sk (encryptLWEPlaintext sk mask (BitVec.ofInt w e)
      (encodeLWECustom message p s))) p s =
      some (((message.setWidth w).toNat % p.toNat : ℕ) : ℤ) := by
  rw [C05_decryptPhase, (C05_fresh sk mask _ _).1]
  exact C03_default hw1 message p s hp hs e h

/-- Another ciphertext with the same phase up to noise decrypts to the same message: only the phase
matters. -/
theorem C05_decrypt_of_phase {w n : ℕ} (hw1 : 1 ≤ w) (sk : Fin n → BitVec w) (ct : Fin (n + 1) → BitVec w)
    (message : BitVec 64) (p s : BitVec w) (hp : p ≠ 0) (hs : compileScale w p.toNat = some s.toNat)
    (e : ℤ) (hct : phase sk ct = encodeLWECustom message p s + BitVec.ofInt w e)
    (h : |(e : ℚ)| + p.toNat + 2 ^ w / 2 ^ 50 < (s.toNat : ℚ) / 2) :
    decodeLWECustom (decryptLWEPhase sk ct) p s =
      some (((message.setWidth w).toNat % p.toNat : ℕ) : ℤ) := by
  rw [C05_decryptPhase, hct]
  exact C03_default hw1 message p s hp hs e h

/-- A concrete run: 32-bit words, dimension 3, modulus 8, message 5, noise -1000. -/
example : decodeLWECustom (decryptLWEPhase (n := 3) (fun i => BitVec.ofNat 32 (i % 2))
    (encryptLWEPlaintext (fun i => BitVec.ofNat 32 (i % 2)) (fun i => BitVec.ofNat 32 (i * 1234567891))
      (BitVec.ofInt 32 (-1000)) (encodeLWECustom 5 8 (2 ^ 28)))) 8 (2 ^ 28) = some 5 ∧
    compileScale 32 (8 : BitVec 32).toNat = some (2 ^ 28 : BitVec 32).toNat := by
  decide +kernel

end Tfhe
