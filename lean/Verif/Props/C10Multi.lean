import Verif.Props.C10
import Verif.Props.C31

/-!
# C10: sample extraction of multi-key ciphertexts
-/
namespace Tfhe.Mk
open Finset

variable {R : Type} [CommRing R] {N : ℕ} [NeZero N]

/-- The joint key of the extracted ciphertext is the joint key of the GLWE ciphertext, coefficient by coefficient. -/
theorem jointLWE_extract {P : ℕ} (held : ℕ → Option (Poly N R)) (t : Fin (P * N)) :
    jointLWE (fun i => (held i).map fun z (j : Fin N) => z j) t
      = asLWEKey (fun i : Fin P => jointGLWE held i) (fun _ => 0) t := by
  have hN : 0 < N := Nat.pos_of_ne_zero (NeZero.ne N)
  have hi : (t : ℕ) / N < P := (Nat.div_lt_iff_lt_mul hN).2 t.2
  have ht : (t : ℕ) = (t / N) * N + (t % N) := (Nat.div_add_mod' _ _).symm
  have h1 := (asLWEKey_spec (fun i : Fin P => jointGLWE held i) fun _ => 0).1 ⟨t / N, hi⟩ ⟨t % N, Nat.mod_lt _ hN⟩
  have h2 := jointLWE_block (fun i => (held i).map fun z (j : Fin N) => z j) (t / N) ⟨t % N, Nat.mod_lt _ hN⟩
  simp only [← ht] at h1 h2
  rw [h1, h2]
  unfold jointGLWE
  cases held (t / N) <;> rfl

/-- **C10 (several keys).**  For every index, every decryptor, and every multi-key GLWE ciphertext, `AsLWECiphertextTo` gives a
ciphertext whose phase under the decryptor is that coefficient of the phase of the GLWE ciphertext, with exact products; the
decryptor holds the keys of some of the parties, and the large LWE key of a party is its GLWE key. -/
theorem C10_multi {P : ℕ} {held : ℕ → Option (Poly N R)} {d : Decryptor (Poly N R)} {dl : Decryptor (Fin N → R)}
    (hd : Holds P d held) (hl : Holds P dl fun i => (held i).map fun z (j : Fin N) => z j)
    (ct : Fin (P + 1) → Poly N R) (idx : Fin N) (out : ℕ → R) :
    ∃ φ, Mk.decryptGLWEPhase d 0 (ext0 ct) = some φ ∧ decryptLWEPhase dl (asLWECiphertext ct idx out) = some (φ idx) := by
  have e : (fun t : Fin (P + 1) => ext0 ct t) = ct := by
    funext t; simp only [ext0, t.2, dif_pos, Fin.eta]
  rw [mkDecryptGLWEPhase_eq hd, decryptLWEPhase_eq hl, e]
  refine ⟨_, rfl, ?_⟩
  simp only [Pi.zero_apply, ite_self, sum_const_zero, add_zero]
  rw [← C10_extract ct (fun i : Fin P => jointGLWE held i) idx out fun _ => 0]
  congr 2
  funext t
  exact jointLWE_extract held t

/-- Three parties, of which the decryptor knows the first and the last; `N = 4`, 32-bit words, coefficient 2. -/
example : ∃ (d : Decryptor (Poly 4 (BitVec 32))) (dl : Decryptor (Fin 4 → BitVec 32)) (held : ℕ → Option (Poly 4 (BitVec 32))),
    Holds 3 d held ∧ Holds 3 dl (fun i => (held i).map fun z (j : Fin 4) => z j) ∧ held 1 = none ∧
    decryptLWEPhase dl (asLWECiphertext (k := 3) (N := 4) (fun i j => BitVec.ofNat 32 (10 * i + j)) 2 fun _ => 77)
      = some (2 + (12 + 10) + (33 * -1 + 31 * 1)) := by
  let a : Poly 4 (BitVec 32) := ![1, 0, 1, 0]
  let b : Poly 4 (BitVec 32) := ![0, 1, 0, 1]
  refine ⟨⟨[some a, none, some b], [some a, none, some b], [true, false, true]⟩,
    ⟨[some a, none, some b], [some a, none, some b], [true, false, true]⟩, fun i => if i = 0 then some a else if i = 2 then some b else none,
    ⟨rfl, by decide, ?_⟩, ⟨rfl, by decide, ?_⟩, rfl, by decide +kernel⟩
  · intro i hi s hs
    match i, hi with
    | 0, _ => cases hs; rfl
    | 1, _ => cases hs
    | 2, _ => cases hs; rfl
  · intro i hi s hs
    match i, hi with
    | 0, _ => cases hs; rfl
    | 1, _ => cases hs
    | 2, _ => cases hs; rfl

end Tfhe.Mk
