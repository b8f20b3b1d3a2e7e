import Verif.Model.Public
import Verif.Props.C05
import Verif.Props.C07
import Verif.Props.C10
import Verif.Props.C12
import Verif.Spec.Noise

/-!
# C28: public-key encryption

The phase of the result is computed exactly, with the old contents of the output in it.  It is the
plaintext plus noise when the old mask is zero; it is not in general, because the code never clears the
mask.  `C28_*_false` are the witnesses: a reused output, and the second call of the functions that
encrypt into an internal buffer.
-/
namespace Tfhe
open Poly

/-! ## Inner products and reversal -/

/-- Inner product of coefficient vectors. -/
def inner' {N : ℕ} {R : Type} [CommRing R] (u v : Poly N R) : R := ∑ t : Fin N, u t * v t

section
variable {N : ℕ} {R : Type} [CommRing R]

theorem inner_add_left (u u' v : Poly N R) : inner' (u + u') v = inner' u v + inner' u' v := by
  simp [inner', add_mul, Finset.sum_add_distrib]
theorem inner_comm (u v : Poly N R) : inner' u v = inner' v u := by
  simp [inner', mul_comm]
theorem inner_add_right (u v v' : Poly N R) : inner' u (v + v') = inner' u v + inner' u v' := by
  simp [inner', mul_add, Finset.sum_add_distrib]
theorem inner_sub_right (u v v' : Poly N R) : inner' u (v - v') = inner' u v - inner' u v' := by
  simp [inner', mul_sub, Finset.sum_sub_distrib]
theorem inner_sum_left {ι : Type*} (s : Finset ι) (f : ι → Poly N R) (v : Poly N R) :
    inner' (∑ i ∈ s, f i) v = ∑ i ∈ s, inner' (f i) v := by
  simp only [inner', Poly.sum_apply, Finset.sum_mul]
  exact Finset.sum_comm
theorem inner_sum_right {ι : Type*} (s : Finset ι) (f : ι → Poly N R) (u : Poly N R) :
    inner' u (∑ i ∈ s, f i) = ∑ i ∈ s, inner' u (f i) := by
  rw [inner_comm, inner_sum_left]; simp only [inner_comm]

variable [NeZero N]

/-- The inner product is a coefficient of a product with the reversal. -/
theorem inner_eq_rev_mul (u v : Poly N R) : inner' u v = at' (revPoly u * v) ((N : ℤ) - 1) := by
  rw [mul_comm, at_mul, inner', ← Fin.sum_univ_eq_sum_range
    (fun t => at' v (t : ℤ) * at' (revPoly u) ((N : ℤ) - 1 - t))]
  refine Finset.sum_congr rfl fun t _ => ?_
  have h : ((N : ℤ) - 1 - (t : ℕ)) = (t.rev : ℕ) := by
    rw [Fin.val_rev]; have := t.2; omega
  rw [h, at_coe, at_coe, revPoly, Fin.rev_rev, mul_comm]

/-- The identity behind the LWE public key. -/
theorem inner_mul_rev (r a s : Poly N R) : inner' r (a * revPoly s) = inner' (a * revPoly r) s := by
  rw [inner_comm _ s, inner_eq_rev_mul, inner_eq_rev_mul]
  congr 1; ring
end

/-! ## What the loops compute -/
section
variable {N : ℕ} {R : Type}

theorem readPoly_writePoly (off : ℕ) (p : Poly N R) (ct : ℕ → R) : readPoly N off (writePoly off p ct) = p := by
  funext i
  have := i.2
  simp [readPoly, writePoly]

theorem readPoly_writePoly_ne (i j : ℕ) (h : i ≠ j) (p : Poly N R) (ct : ℕ → R) :
    readPoly N (1 + i * N) (writePoly (1 + j * N) p ct) = readPoly N (1 + i * N) ct := by
  funext t
  have ht := t.2
  simp only [readPoly, writePoly]
  rw [dif_neg]
  rintro ⟨h1, h2⟩
  rcases Nat.lt_or_gt_of_ne h with h | h
  · have := Nat.mul_le_mul_right N (Nat.succ_le_of_lt h)
    rw [Nat.succ_mul] at this; omega
  · have := Nat.mul_le_mul_right N (Nat.succ_le_of_lt h)
    rw [Nat.succ_mul] at this; omega

/-- A loop that rewrites the blocks of a ciphertext one after the other. -/
theorem blockLoop_spec (n k : ℕ) (hn : n ≤ k) (f : Fin k → Poly N R → Poly N R) (ct : ℕ → R) :
    (∀ j : Fin k, readPoly N (1 + j * N) (Fin.foldl n (fun ct (j : Fin n) =>
        writePoly (1 + j * N) (f (j.castLE hn) (readPoly N (1 + j * N) ct)) ct) ct) =
      if (j : ℕ) < n then f j (readPoly N (1 + j * N) ct) else readPoly N (1 + j * N) ct) ∧
    (∀ t, t = 0 ∨ 1 + n * N ≤ t → Fin.foldl n (fun ct (j : Fin n) =>
        writePoly (1 + j * N) (f (j.castLE hn) (readPoly N (1 + j * N) ct)) ct) ct t = ct t) := by
  induction n with
  | zero => simp
  | succ n ih =>
    obtain ⟨h1, h2⟩ := ih (by omega)
    simp only [Fin.castLE] at h1 h2
    constructor
    · intro j
      rw [Fin.foldl_succ_last]
      simp only [Fin.val_castSucc, Fin.val_last, Fin.castLE]
      by_cases hj : (j : ℕ) = n
      · subst hj
        rw [readPoly_writePoly, h1 j, if_neg (by omega), if_pos (by omega)]
      · rw [readPoly_writePoly_ne _ _ hj, h1 j]
        by_cases hlt : (j : ℕ) < n
        · rw [if_pos hlt, if_pos (by omega)]
        · rw [if_neg hlt, if_neg (by omega)]
    · intro t ht
      rw [Nat.succ_mul] at ht
      rw [Fin.foldl_succ_last]
      simp only [Fin.val_castSucc, Fin.val_last, Fin.castLE]
      rw [writePoly, dif_neg (by omega)]
      exact h2 t (by omega)

theorem blockLoop (k : ℕ) (f : Fin k → Poly N R → Poly N R) (ct : ℕ → R) :
    (∀ j : Fin k, readPoly N (1 + j * N) (Fin.foldl k (fun ct (j : Fin k) =>
        writePoly (1 + j * N) (f j (readPoly N (1 + j * N) ct)) ct) ct) = f j (readPoly N (1 + j * N) ct)) ∧
    (∀ t, t = 0 ∨ 1 + k * N ≤ t → Fin.foldl k (fun ct (j : Fin k) =>
        writePoly (1 + j * N) (f j (readPoly N (1 + j * N) ct)) ct) ct t = ct t) := by
  obtain ⟨h1, h2⟩ := blockLoop_spec k k le_rfl f ct
  simp only [Fin.castLE_rfl, id] at h1 h2
  exact ⟨fun j => by rw [h1 j, if_pos j.2], h2⟩

/-- The same when the loop is repeated with other functions. -/
theorem blockLoop2 (m k : ℕ) [AddCommGroup R] (g : Fin m → Fin k → Poly N R) (ct : ℕ → R) :
    (∀ j : Fin k, readPoly N (1 + j * N) (Fin.foldl m (fun ct i => Fin.foldl k (fun ct (j : Fin k) =>
        writePoly (1 + j * N) (readPoly N (1 + j * N) ct + g i j) ct) ct) ct) =
      readPoly N (1 + j * N) ct + ∑ i, g i j) ∧
    (∀ t, t = 0 ∨ 1 + k * N ≤ t → Fin.foldl m (fun ct i => Fin.foldl k (fun ct (j : Fin k) =>
        writePoly (1 + j * N) (readPoly N (1 + j * N) ct + g i j) ct) ct) ct t = ct t) := by
  induction m generalizing ct with
  | zero => simp
  | succ m ih =>
    obtain ⟨a1, a2⟩ := blockLoop k (fun j p => p + g 0 j) ct
    obtain ⟨h1, h2⟩ := ih (fun i => g i.succ) (Fin.foldl k (fun ct (j : Fin k) =>
        writePoly (1 + j * N) (readPoly N (1 + j * N) ct + g 0 j) ct) ct)
    constructor
    · intro j
      rw [Fin.foldl_succ, h1 j, a1 j, Fin.sum_univ_succ, add_assoc]
    · intro t ht
      rw [Fin.foldl_succ, h2 t ht, a2 t ht]

theorem foldl_upd_body (k : ℕ) [AddCommGroup R] (g : Fin k → R) (ct : ℕ → R) :
    Fin.foldl k (fun ct i => upd ct 0 (ct 0 + g i)) ct = upd ct 0 (ct 0 + ∑ i, g i) := by
  induction k generalizing ct with
  | zero => funext t; by_cases h : t = 0 <;> simp [upd, h]
  | succ k ih =>
    rw [Fin.foldl_succ, ih, Fin.sum_univ_succ]
    funext t; by_cases h : t = 0 <;> simp [upd, h, add_assoc]

theorem readPoly_upd_zero (off : ℕ) (h : 1 ≤ off) (x : R) (ct : ℕ → R) :
    readPoly N off (upd ct 0 x) = readPoly N off ct := by
  funext i; simp only [readPoly, upd]; rw [if_neg (by omega)]
end

section
variable {N k : ℕ} [NeZero N] {R : Type} [CommRing R]

/-- Every word of the result of `EncryptLWEBody`. -/
theorem pubEncryptLWEBody_spec (pk : Fin k → Fin (k + 1) → Poly N R) (r : Fin k → Poly N R) (noise0 : R)
    (noise : Fin k → Poly N R) (err : Fin k → Fin k → Poly N R) (ct : ℕ → R) :
    pubEncryptLWEBody pk r noise0 noise err ct 0 = ct 0 + ∑ i, inner' (r i) (pk i 0) + noise0 ∧
    (∀ j : Fin k, readPoly N (1 + j * N) (pubEncryptLWEBody pk r noise0 noise err ct) =
      readPoly N (1 + j * N) ct + ∑ i, (pk i j.succ * revPoly (r i) + err i j) + noise j) ∧
    (∀ t, 1 + k * N ≤ t → pubEncryptLWEBody pk r noise0 noise err ct t = ct t) := by
  unfold pubEncryptLWEBody
  simp only
  rw [foldl_upd_body]
  set ct1 := upd (upd ct 0 (ct 0 + ∑ i, dot (r i) (pk i 0))) 0
    ((upd ct 0 (ct 0 + ∑ i, dot (r i) (pk i 0))) 0 + noise0) with hct1
  obtain ⟨a1, a2⟩ := blockLoop2 k k (fun i j => pk i j.succ * revPoly (r i) + err i j) ct1
  set ct2 := Fin.foldl k (fun ct i => Fin.foldl k (fun ct (j : Fin k) =>
        writePoly (1 + j * N) (readPoly N (1 + j * N) ct + (pk i j.succ * revPoly (r i) + err i j)) ct) ct) ct1
    with hct2
  obtain ⟨b1, b2⟩ := blockLoop k (fun j p => p + noise j) ct2
  refine ⟨?_, ?_, ?_⟩
  · rw [b2 0 (Or.inl rfl), a2 0 (Or.inl rfl), hct1]
    simp only [upd, if_true]
    congr 2
    exact Finset.sum_congr rfl fun i _ => dot_eq _ _
  · intro j
    rw [b1 j, a1 j, hct1, readPoly_upd_zero _ (by omega), readPoly_upd_zero _ (by omega)]
  · intro t ht
    rw [b2 t (Or.inr ht), a2 t (Or.inr ht), hct1]
    simp only [upd]; rw [if_neg (by omega), if_neg (by omega)]

omit [NeZero N] in
/-- The phase of a large LWE ciphertext, by blocks. -/
theorem phase_blocks (sk : Fin k → Poly N R) (kout ct : ℕ → R) :
    phase (fun t : Fin (k * N) => asLWEKey sk kout t) (fun t : Fin (k * N + 1) => ct t) =
      ct 0 + ∑ j : Fin k, inner' (readPoly N (1 + j * N) ct) (sk j) := by
  obtain ⟨b1, -⟩ := asLWEKey_spec sk kout
  unfold phase
  simp only [Fin.val_succ, Fin.val_zero]
  congr 1
  rw [Fin.sum_univ_eq_sum_range (fun t => ct (t + 1) * asLWEKey sk kout t), sum_rows,
    ← Fin.sum_univ_eq_sum_range
      (fun i => ∑ j ∈ Finset.range N, ct (i * N + j + 1) * asLWEKey sk kout (i * N + j))]
  refine Finset.sum_congr rfl fun i _ => ?_
  rw [inner', ← Fin.sum_univ_eq_sum_range (fun j => ct (i * N + j + 1) * asLWEKey sk kout (i * N + j))]
  refine Finset.sum_congr rfl fun j _ => ?_
  rw [readPoly, b1 i j, show (i : ℕ) * N + j + 1 = 1 + i * N + j by ring]

/-- The noise of a public-key LWE encryption: `pkNoise`, `pkErr` are the noise and FFT errors of the
public key, the rest are those of the encryption. -/
def pubLWENoise (sk r : Fin k → Poly N R) (pkNoise : Fin k → Poly N R) (pkErr : Fin k → Fin k → Poly N R)
    (noise0 : R) (noise : Fin k → Poly N R) (err : Fin k → Fin k → Poly N R) : R :=
  (∑ i, inner' (r i) (pkNoise i) - ∑ i, ∑ j, inner' (r i) (pkErr i j)) + noise0 +
    (∑ j, ∑ i, inner' (err i j) (sk j) + ∑ j, inner' (noise j) (sk j))

/-- The exact phase after `EncryptLWEPlaintextTo`, for every old content of the output: plaintext, plus
noise, plus what is left of the old mask. -/
theorem C28_lwe_phase (sk : Fin k → Poly N R) (mask pkErr : Fin k → Fin k → Poly N R)
    (pkNoise r noise : Fin k → Poly N R) (noise0 : R) (err : Fin k → Fin k → Poly N R) (kout ct : ℕ → R) (pt : R) :
    phase (fun t : Fin (k * N) => asLWEKey sk kout t)
      (fun t : Fin (k * N + 1) =>
        pubEncryptLWEPlaintextTo (genLWEPublicKey sk mask pkErr pkNoise) r noise0 noise err ct pt t) =
    pt + pubLWENoise sk r pkNoise pkErr noise0 noise err +
      ∑ j : Fin k, inner' (readPoly N (1 + j * N) ct) (sk j) := by
  rw [phase_blocks]
  unfold pubEncryptLWEPlaintextTo
  obtain ⟨h1, h2, -⟩ := pubEncryptLWEBody_spec (genLWEPublicKey sk mask pkErr pkNoise) r noise0 noise err (upd ct 0 pt)
  rw [h1]
  simp only [h2]
  have e1 : ∀ i, inner' (r i) (genLWEPublicKey sk mask pkErr pkNoise i 0) =
      inner' (r i) (pkNoise i) - (∑ j, inner' (mask i j * revPoly (r i)) (sk j) + ∑ j, inner' (r i) (pkErr i j)) := by
    intro i
    unfold genLWEPublicKey
    rw [Fin.cons_zero, foldl_sub_eq, inner_sub_right, inner_sum_right, ← Finset.sum_add_distrib]
    simp only [inner_add_right, inner_mul_rev]
  have e2 : ∀ i (j : Fin k), genLWEPublicKey sk mask pkErr pkNoise i j.succ = mask i j := by
    intro i j; simp [genLWEPublicKey]
  simp only [e1, e2, inner_add_left, inner_sum_left, Finset.sum_add_distrib, Finset.sum_sub_distrib,
    readPoly_upd_zero _ (Nat.le_add_right 1 _), pubLWENoise]
  rw [Finset.sum_comm (f := fun (x : Fin k) (i : Fin k) => inner' (mask i x * revPoly (r i)) (sk x))]
  simp only [upd, if_true]
  ring

/-- **C28 (LWE), outputs with a zero mask** (a fresh ciphertext): plaintext plus noise.  Nothing past the
end of the ciphertext is written. -/
theorem C28_lwe_partial (sk : Fin k → Poly N R) (mask pkErr : Fin k → Fin k → Poly N R)
    (pkNoise r noise : Fin k → Poly N R) (noise0 : R) (err : Fin k → Fin k → Poly N R) (kout ct : ℕ → R) (pt : R)
    (hct : ∀ t, 1 ≤ t → t < 1 + k * N → ct t = 0) :
    phase (fun t : Fin (k * N) => asLWEKey sk kout t)
      (fun t : Fin (k * N + 1) =>
        pubEncryptLWEPlaintextTo (genLWEPublicKey sk mask pkErr pkNoise) r noise0 noise err ct pt t) =
      pt + pubLWENoise sk r pkNoise pkErr noise0 noise err ∧
    ∀ t, 1 + k * N ≤ t →
      pubEncryptLWEPlaintextTo (genLWEPublicKey sk mask pkErr pkNoise) r noise0 noise err ct pt t = ct t := by
  constructor
  · rw [C28_lwe_phase, Finset.sum_eq_zero, add_zero]
    intro j _
    have : readPoly N (1 + j * N) ct = 0 := by
      funext i
      have h1 := Nat.mul_le_mul_right N (Nat.succ_le_of_lt j.2)
      rw [Nat.succ_mul] at h1
      have := i.2
      exact hct _ (by omega) (by omega)
    simp [this, inner']
  · intro t ht
    unfold pubEncryptLWEPlaintextTo
    rw [(pubEncryptLWEBody_spec _ r noise0 noise err (upd ct 0 pt)).2.2 t ht]
    simp only [upd]; rw [if_neg (by omega)]

end

/-! ## LWE: size of the noise, decryption -/
section
variable {N k w : ℕ} [NeZero N]

omit [NeZero N] in
theorem wabs_inner_le (u v : Poly N (BitVec w)) (B : ℕ) (hu : ∀ t, u t = 0 ∨ u t = 1) (hv : pabs v ≤ B) :
    wabs (inner' u v) ≤ N * B := by
  unfold inner'
  refine (wabs_sum_le _ _).trans ?_
  have := Finset.sum_le_card_nsmul Finset.univ (fun t => wabs (u t * v t)) B (fun t _ => ?_)
  · simpa using this
  · refine le_trans ?_ ((wabs_le_pabs v t).trans hv)
    rcases hu t with h | h <;> simp [h]

theorem wabs_sum_le_card {ι : Type*} (s : Finset ι) (f : ι → BitVec w) (B : ℕ) (h : ∀ i ∈ s, wabs (f i) ≤ B) :
    wabs (∑ i ∈ s, f i) ≤ s.card * B := (wordNorm w).sum_le_card s f B h

omit [NeZero N] in
/-- Size of the noise of a public-key LWE encryption: all Gaussian samples at most `B`, all FFT errors
at most `E`, binary key and binary randomness. -/
theorem C28_lwe_noise (sk r : Fin k → Poly N (BitVec w)) (pkNoise noise : Fin k → Poly N (BitVec w))
    (pkErr err : Fin k → Fin k → Poly N (BitVec w)) (noise0 : BitVec w) (B E : ℕ)
    (hsk : ∀ i t, sk i t = 0 ∨ sk i t = 1) (hr : ∀ i t, r i t = 0 ∨ r i t = 1)
    (h0 : wabs noise0 ≤ B) (h1 : ∀ i, pabs (pkNoise i) ≤ B) (h2 : ∀ i, pabs (noise i) ≤ B)
    (h3 : ∀ i j, pabs (pkErr i j) ≤ E) (h4 : ∀ i j, pabs (err i j) ≤ E) :
    wabs (pubLWENoise sk r pkNoise pkErr noise0 noise err) ≤
      (2 * k * N + 1) * B + 2 * (k * (k * (N * E))) := by
  have a1 := wabs_sum_le_card Finset.univ (fun i => inner' (r i) (pkNoise i)) (N * B)
    (fun i _ => wabs_inner_le _ _ _ (hr i) (h1 i))
  have a2 := wabs_sum_le_card Finset.univ (fun i => ∑ j, inner' (r i) (pkErr i j)) (k * (N * E))
    (fun i _ => by
      have := wabs_sum_le_card Finset.univ (fun j => inner' (r i) (pkErr i j)) (N * E)
        (fun j _ => wabs_inner_le _ _ _ (hr i) (h3 i j))
      rwa [Finset.card_fin] at this)
  have a3 := wabs_sum_le_card Finset.univ (fun j => ∑ i, inner' (err i j) (sk j)) (k * (N * E))
    (fun j _ => by
      have := wabs_sum_le_card Finset.univ (fun i => inner' (err i j) (sk j)) (N * E)
        (fun i _ => by rw [inner_comm]; exact wabs_inner_le _ _ _ (hsk j) (h4 i j))
      rwa [Finset.card_fin] at this)
  have a4 := wabs_sum_le_card Finset.univ (fun j => inner' (noise j) (sk j)) (N * B)
    (fun j _ => by rw [inner_comm]; exact wabs_inner_le _ _ _ (hsk j) (h2 j))
  rw [Finset.card_fin] at a1 a2 a3 a4
  unfold pubLWENoise
  refine (wabs_add_le _ _).trans ((Nat.add_le_add ((wabs_add_le _ _).trans (Nat.add_le_add
    ((wabs_sub_le _ _).trans (Nat.add_le_add a1 a2)) h0)) ((wabs_add_le _ _).trans (Nat.add_le_add a3 a4))).trans ?_)
  apply le_of_eq; ring

/-- **C28 (LWE), messages, outputs with a zero mask.** Encrypting under the public key and decrypting
under the secret key returns the message modulo `p`, for all keys, randomness and messages, when the
noise bound is inside the decoding radius.  Missing: outputs that were used before, for which the claim
is false (`C28_lwe_reuse_false`). -/
theorem C28_lwe_decrypts_partial (hw1 : 1 ≤ w) (sk : Fin k → Poly N (BitVec w))
    (mask pkErr : Fin k → Fin k → Poly N (BitVec w)) (pkNoise r noise : Fin k → Poly N (BitVec w))
    (noise0 : BitVec w) (err : Fin k → Fin k → Poly N (BitVec w)) (kout ct : ℕ → BitVec w)
    (hct : ∀ t, 1 ≤ t → t < 1 + k * N → ct t = 0) (message : BitVec 64) (p s : BitVec w) (hp : p ≠ 0)
    (hs : compileScale w p.toNat = some s.toNat) (B E : ℕ)
    (hsk : ∀ i t, sk i t = 0 ∨ sk i t = 1) (hr : ∀ i t, r i t = 0 ∨ r i t = 1)
    (h0 : wabs noise0 ≤ B) (h1 : ∀ i, pabs (pkNoise i) ≤ B) (h2 : ∀ i, pabs (noise i) ≤ B)
    (h3 : ∀ i j, pabs (pkErr i j) ≤ E) (h4 : ∀ i j, pabs (err i j) ≤ E)
    (h : (((2 * k * N + 1) * B + 2 * (k * (k * (N * E))) : ℕ) : ℚ) + p.toNat + 2 ^ w / 2 ^ 50 <
      (s.toNat : ℚ) / 2) :
    decodeLWECustom (decryptLWEPhase (fun t : Fin (k * N) => asLWEKey sk kout t)
      (fun t : Fin (k * N + 1) => pubEncryptLWEPlaintextTo (genLWEPublicKey sk mask pkErr pkNoise) r noise0
        noise err ct (encodeLWECustom message p s) t)) p s =
      some (((message.setWidth w).toNat % p.toNat : ℕ) : ℤ) := by
  have hb := C28_lwe_noise sk r pkNoise noise pkErr err noise0 B E hsk hr h0 h1 h2 h3 h4
  refine C05_decrypt_of_phase hw1 _ _ message p s hp hs
    (pubLWENoise sk r pkNoise pkErr noise0 noise err).toInt ?_ ?_
  · rw [(C28_lwe_partial sk mask pkErr pkNoise r noise noise0 err kout ct _ hct).1, BitVec.ofInt_toInt]
  · have habs : |((pubLWENoise sk r pkNoise pkErr noise0 noise err).toInt : ℚ)| =
        (wabs (pubLWENoise sk r pkNoise pkErr noise0 noise err) : ℚ) := by
      unfold wabs; rw [Nat.cast_natAbs, Int.cast_abs]
    rw [habs]
    have hb' : (wabs (pubLWENoise sk r pkNoise pkErr noise0 noise err) : ℚ) ≤
      (((2 * k * N + 1) * B + 2 * (k * (k * (N * E))) : ℕ) : ℚ) := by exact_mod_cast hb
    linarith
end

/-! ## GLWE -/
section
variable {P : Type} [CommRing P] {k : ℕ}

theorem foldl_update_add (m n : ℕ) (σ : Fin m → Fin n) (hσ : Function.Injective σ) (g ct : Fin n → P) (t : Fin n) :
    Fin.foldl m (fun ct j => Function.update ct (σ j) (ct (σ j) + g (σ j))) ct t =
      if ∃ j, σ j = t then ct t + g t else ct t := by
  induction m generalizing ct with
  | zero => simp
  | succ m ih =>
    rw [Fin.foldl_succ, ih (fun j => σ j.succ) (fun a b h => Fin.succ_injective _ (hσ h))]
    by_cases h0 : σ 0 = t
    · subst h0
      rw [if_neg, if_pos ⟨0, rfl⟩]
      · simp
      · rintro ⟨j, hj⟩; exact absurd (hσ hj) (Fin.succ_ne_zero j)
    · rw [Function.update_of_ne (Ne.symm h0)]
      congr 1
      rw [eq_iff_iff]
      constructor
      · rintro ⟨j, hj⟩; exact ⟨_, hj⟩
      · rintro ⟨j, hj⟩
        obtain rfl | ⟨j, rfl⟩ := Fin.eq_zero_or_eq_succ j
        · exact absurd hj h0
        · exact ⟨j, hj⟩

theorem foldl_update_all (n : ℕ) (g ct : Fin n → P) :
    Fin.foldl n (fun ct j => Function.update ct j (ct j + g j)) ct = ct + g := by
  funext t
  rw [foldl_update_add n n (fun j => j) (fun _ _ h => h) g ct t, if_pos ⟨t, rfl⟩]; rfl

/-- Every component of the result of `EncryptGLWEBody`. -/
theorem pubEncryptGLWEBody_spec (pk : Fin (k + 1) → Fin (k + 2) → P) (r : Fin (k + 1) → P)
    (noise : Fin (k + 2) → P) (err : Fin (k + 1) → Fin (k + 2) → P) (ct : Fin (k + 2) → P) :
    pubEncryptGLWEBody pk r noise err ct =
      ct + (∑ i, fun j => r i * pk i j) + ((∑ i, err i) + noise) := by
  unfold pubEncryptGLWEBody
  simp only
  rw [foldl_update_all]
  have h0 : Fin.foldl (k + 1) (fun ct (j : Fin (k + 1)) => Function.update ct j.succ
        (ct j.succ + (pk 0 j.succ * r 0 + err 0 j.succ))) (Function.update ct 0 (ct 0 + (pk 0 0 * r 0 + err 0 0))) =
      ct + fun j => pk 0 j * r 0 + err 0 j := by
    funext t
    rw [foldl_update_add (k + 1) (k + 2) Fin.succ (Fin.succ_injective _) (fun j => pk 0 j * r 0 + err 0 j)]
    obtain rfl | ⟨j, rfl⟩ := Fin.eq_zero_or_eq_succ t
    · rw [if_neg (by rintro ⟨j, hj⟩; exact Fin.succ_ne_zero j hj)]; simp
    · rw [if_pos ⟨j, rfl⟩, Function.update_of_ne (Fin.succ_ne_zero j)]; rfl
  rw [h0]
  have h1 : ∀ (m : ℕ) (i : Fin m → Fin (k + 1)) (ct : Fin (k + 2) → P),
      Fin.foldl m (fun ct q => Fin.foldl (k + 2) (fun ct j => Function.update ct j
        (ct j + (pk (i q) j * r (i q) + err (i q) j))) ct) ct =
      ct + ∑ q, fun j => pk (i q) j * r (i q) + err (i q) j := by
    intro m
    induction m with
    | zero => intro i ct; simp
    | succ m ih =>
      intro i ct
      rw [Fin.foldl_succ, ih (fun q => i q.succ),
        foldl_update_all (k + 2) (fun j => pk (i 0) j * r (i 0) + err (i 0) j), Fin.sum_univ_succ, add_assoc]
  rw [h1 k Fin.succ, Fin.sum_univ_succ (f := fun i => fun j => r i * pk i j), Fin.sum_univ_succ (f := err)]
  funext t
  simp only [Pi.add_apply, Finset.sum_apply, Finset.sum_add_distrib, mul_comm]
  ring

/-- The noise of a public-key GLWE encryption. -/
def pubGLWENoise (sk r pkNoise : Fin (k + 1) → P) (pkErr : Fin (k + 1) → Fin (k + 1) → P) (noise : Fin (k + 2) → P)
    (err : Fin (k + 1) → Fin (k + 2) → P) : P :=
  ∑ i, r i * (pkNoise i - ∑ j, pkErr i j) + (∑ i, phase sk (err i) + phase sk noise)

/-- The exact phase after `EncryptGLWEPlaintextTo`, for every old content of the output. -/
theorem C28_glwe_phase (sk r pkNoise : Fin (k + 1) → P) (mask pkErr : Fin (k + 1) → Fin (k + 1) → P)
    (noise : Fin (k + 2) → P) (err : Fin (k + 1) → Fin (k + 2) → P) (ct : Fin (k + 2) → P) (pt : P) :
    phase sk (pubEncryptGLWEPlaintextTo (genGLWEPublicKey sk mask pkErr pkNoise) r noise err ct pt) =
      pt + pubGLWENoise sk r pkNoise pkErr noise err + ∑ j : Fin (k + 1), ct j.succ * sk j := by
  unfold pubEncryptGLWEPlaintextTo
  rw [pubEncryptGLWEBody_spec, phase_add, phase_add, phase_add, phase_sum, phase_sum]
  have e1 : phase sk (Function.update ct 0 pt) = pt + ∑ j : Fin (k + 1), ct j.succ * sk j := by
    unfold phase
    rw [Function.update_self]
    congr 1
  have e2 : ∀ i, phase sk (fun j => r i * genGLWEPublicKey sk mask pkErr pkNoise i j) =
      r i * (pkNoise i - ∑ j, pkErr i j) := by
    intro i
    rw [phase_smul]
    unfold genGLWEPublicKey
    rw [phase_encryptGLWEBody, zero_add]
  simp only [e1, e2, pubGLWENoise]
  ring

/-- **C28 (GLWE), outputs with a zero mask.** -/
theorem C28_glwe_partial (sk r pkNoise : Fin (k + 1) → P) (mask pkErr : Fin (k + 1) → Fin (k + 1) → P)
    (noise : Fin (k + 2) → P) (err : Fin (k + 1) → Fin (k + 2) → P) (ct : Fin (k + 2) → P) (pt : P)
    (hct : ∀ j : Fin (k + 1), ct j.succ = 0) :
    phase sk (pubEncryptGLWEPlaintextTo (genGLWEPublicKey sk mask pkErr pkNoise) r noise err ct pt) =
      pt + pubGLWENoise sk r pkNoise pkErr noise err := by
  rw [C28_glwe_phase, Finset.sum_eq_zero (fun j _ => by rw [hct, zero_mul]), add_zero]

/-- Size of the noise of a public-key GLWE encryption, in any norm: `B` bounds the Gaussian samples, `E`
the FFT errors, `S` and `Sr` the growth of a product with a key or randomness element. -/
theorem C28_glwe_noise (ν : RNorm P) (sk r pkNoise : Fin (k + 1) → P) (pkErr : Fin (k + 1) → Fin (k + 1) → P)
    (noise : Fin (k + 2) → P) (err : Fin (k + 1) → Fin (k + 2) → P) (B E S Sr : ℕ)
    (hS : ∀ i x, ν.f (x * sk i) ≤ S * ν.f x) (hr : ∀ i x, ν.f (r i * x) ≤ Sr * ν.f x)
    (h1 : ∀ i, ν.f (pkNoise i) ≤ B) (h2 : ∀ i, ν.f (noise i) ≤ B)
    (h3 : ∀ i j, ν.f (pkErr i j) ≤ E) (h4 : ∀ i j, ν.f (err i j) ≤ E) :
    ν.f (pubGLWENoise sk r pkNoise pkErr noise err) ≤
      (k + 1) * (Sr * (B + (k + 1) * E)) + ((k + 1) * (E * (1 + (k + 1) * S)) + B * (1 + (k + 1) * S)) := by
  have a1 := ν.sum_le_card Finset.univ (fun i => r i * (pkNoise i - ∑ j, pkErr i j)) (Sr * (B + (k + 1) * E))
    (fun i _ => (hr i _).trans (Nat.mul_le_mul_left _ ((ν.sub_le _ _).trans (Nat.add_le_add (h1 i) (by
      have := ν.sum_le_card Finset.univ (fun j => pkErr i j) E (fun j _ => h3 i j)
      rwa [Finset.card_fin] at this)))))
  have a2 := ν.sum_le_card Finset.univ (fun i => phase sk (err i)) (E * (1 + (k + 1) * S))
    (fun i _ => ν.phase_le sk (err i) E S (h4 i) hS)
  have a3 := ν.phase_le sk noise B S h2 hS
  rw [Finset.card_fin] at a1 a2
  unfold pubGLWENoise
  exact (ν.add_le _ _).trans (Nat.add_le_add a1 ((ν.add_le _ _).trans (Nat.add_le_add a2 a3)))

/-- `EncryptFFTGLWEPlaintextTo`, one call: correct exactly up to the mask left in the buffer, and the
buffer is left with the ciphertext just made. -/
theorem C28_fft_phase (sk r pkNoise : Fin (k + 1) → P) (mask pkErr : Fin (k + 1) → Fin (k + 1) → P)
    (noise : Fin (k + 2) → P) (err : Fin (k + 1) → Fin (k + 2) → P) (buf : Fin (k + 2) → P) (pt : P) :
    phase sk (pubEncryptFFTGLWEPlaintextTo (genGLWEPublicKey sk mask pkErr pkNoise) r noise err buf pt).1 =
      pt + pubGLWENoise sk r pkNoise pkErr noise err + ∑ j : Fin (k + 1), buf j.succ * sk j ∧
    (pubEncryptFFTGLWEPlaintextTo (genGLWEPublicKey sk mask pkErr pkNoise) r noise err buf pt).2 =
      (pubEncryptFFTGLWEPlaintextTo (genGLWEPublicKey sk mask pkErr pkNoise) r noise err buf pt).1 :=
  ⟨C28_glwe_phase sk r pkNoise mask pkErr noise err buf pt, rfl⟩

/-- **C28 (FFT GLWE), first call of an encryptor**, whose buffer is still zero.  Missing: later calls,
for which the claim is false (`C28_fft_second_call_false`). -/
theorem C28_fft_first_call_partial (sk r pkNoise : Fin (k + 1) → P) (mask pkErr : Fin (k + 1) → Fin (k + 1) → P)
    (noise : Fin (k + 2) → P) (err : Fin (k + 1) → Fin (k + 2) → P) (pt : P) :
    phase sk (pubEncryptFFTGLWEPlaintextTo (genGLWEPublicKey sk mask pkErr pkNoise) r noise err 0 pt).1 =
      pt + pubGLWENoise sk r pkNoise pkErr noise err :=
  C28_glwe_partial sk r pkNoise mask pkErr noise err 0 pt (fun _ => rfl)
end

/-! ## The multi-key public encryptor -/
section
variable {R : Type} [CommRing R]

/-- `CopyFromSubKey`: under the joint key the phase is the single-key phase under the key of the party;
it succeeds for every party index in range. -/
theorem mkLWECopyFromSubKey_phase (parties n idx : ℕ) (hn : 0 < n) (hidx : idx < parties) (K s : ℕ → R)
    (hK : ∀ j, j < n → K (idx * n + j) = s j) (sub : ℕ → R) :
    ∃ ct, mkLWECopyFromSubKey (parties * n) n idx sub = some ct ∧
      phase (fun t : Fin (parties * n) => K t) (fun t : Fin (parties * n + 1) => ct t) =
        phase (fun t : Fin n => s t) (fun t : Fin (n + 1) => sub t) := by
  have hle : (idx + 1) * n ≤ parties * n := Nat.mul_le_mul_right n hidx
  unfold mkLWECopyFromSubKey
  rw [if_neg (by omega), if_neg (by simp), if_neg (by omega)]
  refine ⟨_, rfl, ?_⟩
  unfold phase
  simp only [Fin.val_zero, if_true, Fin.val_succ, Nat.add_eq_zero_iff, one_ne_zero, and_false, if_false]
  congr 1
  rw [Fin.sum_univ_eq_sum_range (fun t => (if 1 + idx * n ≤ t + 1 ∧ t + 1 < 1 + (idx + 1) * n then
    sub (t + 1 - idx * n) else 0) * K t), Fin.sum_univ_eq_sum_range (fun t => sub (t + 1) * s t), sum_rows,
    Finset.sum_eq_single idx]
  · refine Finset.sum_congr rfl fun j hj => ?_
    have hj := Finset.mem_range.1 hj
    rw [if_pos ⟨by omega, by rw [Nat.add_mul]; omega⟩, hK j hj]
    congr 2; omega
  · intro i _ hi
    refine Finset.sum_eq_zero fun j hj => ?_
    have hj := Finset.mem_range.1 hj
    rw [if_neg, zero_mul]
    rintro ⟨h1, h2⟩
    rw [Nat.add_mul] at h2
    rcases Nat.lt_or_gt_of_ne hi with h | h
    · have := Nat.mul_le_mul_right n (Nat.succ_le_of_lt h); rw [Nat.succ_mul] at this; omega
    · have := Nat.mul_le_mul_right n (Nat.succ_le_of_lt h); rw [Nat.succ_mul] at this; omega
  · intro h; exact absurd (Finset.mem_range.2 hidx) h

theorem mkGLWECopyFromSubKey_phase (parties idx : ℕ) (hidx : idx < parties) (S : Fin parties → R) (s : Fin 1 → R)
    (hS : S ⟨idx, hidx⟩ = s 0) (sub : Fin 2 → R) :
    ∃ ct, mkGLWECopyFromSubKey parties idx sub = some ct ∧ phase S ct = phase s sub := by
  unfold mkGLWECopyFromSubKey
  rw [if_pos hidx]
  refine ⟨_, rfl, ?_⟩
  unfold phase
  simp only [Fin.val_zero, if_true, Fin.val_succ, Nat.add_eq_zero_iff, one_ne_zero, and_false, if_false,
    Fin.sum_univ_succ, Fin.sum_univ_zero, add_zero]
  congr 1
  rw [Finset.sum_eq_single ⟨idx, hidx⟩]
  · rw [if_pos (by simp [add_comm]), hS]; rfl
  · intro j _ hj
    rw [if_neg, zero_mul]
    intro h; apply hj; ext; simp; omega
  · intro h; exact absurd (Finset.mem_univ _) h

variable {N : ℕ} [NeZero N]

omit [NeZero N] in
theorem phase_of_dim {n m : ℕ} (h : m = n) (K ct : ℕ → R) :
    phase (fun t : Fin n => K t) (fun t : Fin (n + 1) => ct t) =
      phase (fun t : Fin m => K t) (fun t : Fin (m + 1) => ct t) := by
  subst h; rfl

/-- The exact phase after the multi-key `EncryptLWEBody`, under the joint key: the plaintext, the noise,
and the mask left in the buffer; the buffer keeps the single-key ciphertext. -/
theorem C28_mk_lwe_phase (parties idx : ℕ) (hidx : idx < parties) (sk : Fin 1 → Poly N R) (K kout : ℕ → R)
    (hK : ∀ j, j < N → K (idx * N + j) = asLWEKey sk kout j) (mask pkErr : Fin 1 → Fin 1 → Poly N R)
    (pkNoise r noise : Fin 1 → Poly N R) (noise0 : R) (err : Fin 1 → Fin 1 → Poly N R) (buf : ℕ → R) (pt : R) :
    ∃ ct buf', mkPubEncryptLWEBody parties idx (genLWEPublicKey sk mask pkErr pkNoise) r noise0 noise err buf pt =
        some (ct, buf') ∧
      phase (fun t : Fin (parties * N) => K t) (fun t : Fin (parties * N + 1) => ct t) =
        pt + pubLWENoise sk r pkNoise pkErr noise0 noise err + inner' (readPoly N 1 buf) (sk 0) ∧
      buf' = pubEncryptLWEPlaintextTo (genLWEPublicKey sk mask pkErr pkNoise) r noise0 noise err buf pt := by
  obtain ⟨ct, h1, h2⟩ := mkLWECopyFromSubKey_phase parties N idx (NeZero.pos N) hidx K (asLWEKey sk kout) hK
    (pubEncryptLWEBody (genLWEPublicKey sk mask pkErr pkNoise) r noise0 noise err (upd buf 0 pt))
  refine ⟨ct, _, ?_, ?_, rfl⟩
  · unfold mkPubEncryptLWEBody
    simp only [h1, Option.map_some]; rfl
  · have := C28_lwe_phase sk mask pkErr pkNoise r noise noise0 err kout buf pt
    rw [phase_blocks] at this
    rw [h2, phase_of_dim (one_mul N), phase_blocks (k := 1) sk kout]
    unfold pubEncryptLWEPlaintextTo at this
    rw [this]
    simp

/-- **C28 (multi-key LWE), first call of an encryptor**.  Missing: later calls, for which the claim is
false (`C28_mk_second_call_false`). -/
theorem C28_mk_lwe_first_call_partial (parties idx : ℕ) (hidx : idx < parties) (sk : Fin 1 → Poly N R)
    (K kout : ℕ → R) (hK : ∀ j, j < N → K (idx * N + j) = asLWEKey sk kout j)
    (mask pkErr : Fin 1 → Fin 1 → Poly N R) (pkNoise r noise : Fin 1 → Poly N R) (noise0 : R)
    (err : Fin 1 → Fin 1 → Poly N R) (pt : R) :
    ∃ ct buf', mkPubEncryptLWEBody parties idx (genLWEPublicKey sk mask pkErr pkNoise) r noise0 noise err 0 pt =
        some (ct, buf') ∧
      phase (fun t : Fin (parties * N) => K t) (fun t : Fin (parties * N + 1) => ct t) =
        pt + pubLWENoise sk r pkNoise pkErr noise0 noise err := by
  obtain ⟨ct, buf', h1, h2, -⟩ := C28_mk_lwe_phase parties idx hidx sk K kout hK mask pkErr pkNoise r noise noise0
    err 0 pt
  refine ⟨ct, buf', h1, ?_⟩
  rw [h2]
  simp [inner', readPoly]

omit [NeZero N] in
/-- The same for the multi-key `EncryptGLWEBody`. -/
theorem C28_mk_glwe_phase {P : Type} [CommRing P] (parties idx : ℕ) (hidx : idx < parties) (sk : Fin 1 → P)
    (S : Fin parties → P) (hS : S ⟨idx, hidx⟩ = sk 0) (mask pkErr : Fin 1 → Fin 1 → P) (pkNoise r : Fin 1 → P)
    (noise : Fin 2 → P) (err : Fin 1 → Fin 2 → P) (buf : Fin 2 → P) (pt : P) :
    ∃ ct buf', mkPubEncryptGLWEBody parties idx (genGLWEPublicKey sk mask pkErr pkNoise) r noise err buf pt =
        some (ct, buf') ∧
      phase S ct = pt + pubGLWENoise sk r pkNoise pkErr noise err + buf 1 * sk 0 ∧
      buf' = pubEncryptGLWEPlaintextTo (genGLWEPublicKey sk mask pkErr pkNoise) r noise err buf pt := by
  obtain ⟨ct, h1, h2⟩ := mkGLWECopyFromSubKey_phase parties idx hidx S sk hS
    (pubEncryptGLWEPlaintextTo (genGLWEPublicKey sk mask pkErr pkNoise) r noise err buf pt)
  refine ⟨ct, _, ?_, ?_, rfl⟩
  · unfold mkPubEncryptGLWEBody
    unfold pubEncryptGLWEPlaintextTo at h1
    simp only [h1, Option.map_some]; rfl
  · rw [h2, C28_glwe_phase]; simp
end

/-- **C28 (GLWE), messages, outputs with a zero mask.** Encrypting a message list under the public key
and decrypting under the secret key returns it, for binary keys and randomness; `B` bounds the Gaussian
samples and `E` the FFT errors of key generation, encryption and decryption.  Missing: outputs that were
used before, for which the claim is false (`C28_glwe_reuse_false`). -/
theorem C28_glwe_decrypts_partial {w N k : ℕ} [NeZero N] (outLen : ℕ)
    (sk r pkNoise : Fin (k + 1) → Poly N (BitVec w)) (mask pkErr : Fin (k + 1) → Fin (k + 1) → Poly N (BitVec w))
    (noise : Fin (k + 2) → Poly N (BitVec w)) (err : Fin (k + 1) → Fin (k + 2) → Poly N (BitVec w))
    (derr : Fin (k + 1) → Poly N (BitVec w)) (ct : Fin (k + 2) → Poly N (BitVec w))
    (hct : ∀ j : Fin (k + 1), ct j.succ = 0) (pt : Poly N (BitVec w)) (messages : List (BitVec 64)) (p s : BitVec w)
    (hp : p ≠ 0) (c : ℕ) (hc : 0 < c) (hpt : Poly.toList pt = encodeGLWECustom N messages p s) (B E : ℕ)
    (hsk : ∀ i t, sk i t = 0 ∨ sk i t = 1) (hr : ∀ i t, r i t = 0 ∨ r i t = 1)
    (h1 : ∀ i, pabs (pkNoise i) ≤ B) (h2 : ∀ i, pabs (noise i) ≤ B)
    (h3 : ∀ i j, pabs (pkErr i j) ≤ E) (h4 : ∀ i j, pabs (err i j) ≤ E) (h5 : ∀ i, pabs (derr i) ≤ E)
    (h : (((k + 1) * (N * (B + (k + 1) * E)) + ((k + 1) * (E * (1 + (k + 1) * N)) + B * (1 + (k + 1) * N)) +
        (k + 1) * E : ℕ) : ℚ) + |(2 : ℚ) ^ w - c * p.toNat * s.toNat| + 2 ^ w / 2 ^ 51 < (s.toNat : ℚ) / 2) :
    ∃ out : List ℤ, decodeGLWECustom outLen (Poly.toList (decryptGLWEPhase sk derr
        (pubEncryptGLWEPlaintextTo (genGLWEPublicKey sk mask pkErr pkNoise) r noise err ct pt))) p s = some out ∧
      out.length = min outLen N ∧
      ∀ i, i < min outLen N → out[i]? = some (if h : i < messages.length then
        (((messages[i].setWidth w).toNat % p.toNat : ℕ) : ℤ) else 0) := by
  set ν := pubGLWENoise sk r pkNoise pkErr noise err + ∑ j, derr j with hν
  have hb : pabs ν ≤ (k + 1) * (N * (B + (k + 1) * E)) + ((k + 1) * (E * (1 + (k + 1) * N)) +
      B * (1 + (k + 1) * N)) + (k + 1) * E := by
    have a1 := C28_glwe_noise (polyNorm N w) sk r pkNoise pkErr noise err B E N N
      (fun i x => pabs_mul_binary (sk i) (hsk i) x)
      (fun i x => by rw [mul_comm]; exact pabs_mul_binary (r i) (hr i) x) h1 h2 h3 h4
    have a2 := (polyNorm N w).sum_le_card Finset.univ derr E (fun i _ => h5 i)
    rw [Finset.card_fin] at a2
    exact (pabs_add_le _ _).trans (Nat.add_le_add a1 a2)
  have e1 : decryptGLWEPhase sk derr
      (pubEncryptGLWEPlaintextTo (genGLWEPublicKey sk mask pkErr pkNoise) r noise err ct pt) = pt + ν := by
    rw [C07_decryptPhase, C28_glwe_partial sk r pkNoise mask pkErr noise err ct pt hct, hν]; ring
  have e2 : Poly.toList (pt + ν) =
      (encodeGLWECustom N messages p s).zipWith (· + ·) (List.ofFn fun i => BitVec.ofInt w (ν i).toInt) := by
    rw [← hpt]
    apply List.ext_getElem?
    intro i
    unfold Poly.toList
    rw [List.getElem?_zipWith]
    erw [List.getElem?_ofFn, List.getElem?_ofFn, List.getElem?_ofFn]
    by_cases hi : i < N
    · rw [dif_pos hi, dif_pos hi, dif_pos hi, BitVec.ofInt_toInt]; rfl
    · rw [dif_neg hi, dif_neg hi, dif_neg hi]
  rw [e1, e2]
  refine C03_glwe N outLen messages p s hp c hc _ fun i => ?_
  have habs : |((ν i).toInt : ℚ)| = (wabs (ν i) : ℚ) := by unfold wabs; rw [Nat.cast_natAbs, Int.cast_abs]
  have hb' : (wabs (ν i) : ℚ) ≤ (((k + 1) * (N * (B + (k + 1) * E)) + ((k + 1) * (E * (1 + (k + 1) * N)) +
      B * (1 + (k + 1) * N)) + (k + 1) * E : ℕ) : ℚ) := by exact_mod_cast (wabs_le_pabs ν i).trans hb
  rw [habs]; linarith

/-! ## What is false -/
namespace Pub

/-- Witness: 32-bit words, `N = 2`, rank 1, key `1 + X`, mask `2^29`, randomness `1 + X`, no noise at all. -/
def sk : Fin 1 → Poly 2 (BitVec 32) := fun _ => ![1, 1]
def zero1 : Fin 1 → Poly 2 (BitVec 32) := fun _ => ![0, 0]
def zero2 : Fin 2 → Poly 2 (BitVec 32) := fun _ => ![0, 0]
def mask : Fin 1 → Fin 1 → Poly 2 (BitVec 32) := fun _ _ => ![0x20000000, 0]
def glwePK := genGLWEPublicKey sk mask (fun _ => zero1) zero1
def lwePK := genLWEPublicKey sk mask (fun _ => zero1) zero1
/-- The encryption of `pt` into an output or buffer with contents `ct`, randomness `1 + X`, no noise. -/
def encGLWE (ct : Fin 2 → Poly 2 (BitVec 32)) (pt : Poly 2 (BitVec 32)) :=
  pubEncryptGLWEPlaintextTo glwePK sk zero2 (fun _ => zero2) ct pt
def encLWE (ct : ℕ → BitVec 32) (pt : BitVec 32) :=
  pubEncryptLWEPlaintextTo lwePK sk 0 zero1 (fun _ => zero1) ct pt
def decLWE (ct : ℕ → BitVec 32) : Option ℤ :=
  decodeLWECustom (decryptLWEPhase (fun t : Fin (1 * 2) => asLWEKey sk (fun _ => 0) t) (fun t : Fin (1 * 2 + 1) => ct t))
    8 0x10000000
def decGLWE (ct : Fin 2 → Poly 2 (BitVec 32)) : Option (List ℤ) :=
  decodeGLWECustom 2 (Poly.toList (decryptGLWEPhase sk zero1 ct)) 8 0x10000000
def encFFT (buf : Fin 2 → Poly 2 (BitVec 32)) (pt : Poly 2 (BitVec 32)) :=
  pubEncryptFFTGLWEPlaintextTo glwePK sk zero2 (fun _ => zero2) buf pt
def encMk (buf : ℕ → BitVec 32) (pt : BitVec 32) :=
  mkPubEncryptLWEBody 2 1 lwePK sk 0 zero1 (fun _ => zero1) buf pt
def decMk (ct : ℕ → BitVec 32) : Option ℤ :=
  decodeLWECustom (decryptLWEPhase (fun t : Fin (2 * 2) => if 2 ≤ t.1 then asLWEKey sk (fun _ => 0) (t - 2) else 1)
    (fun t : Fin (2 * 2 + 1) => ct t)) 8 0x10000000

end Pub

open Pub in
/-- The claim for reused outputs is false for LWE: the message 3 (modulus 8) encrypted into a fresh
output decrypts to 3; encrypted again into the same output it decrypts to 7, without any noise. -/
theorem C28_lwe_reuse_false :
    decLWE (encLWE (fun _ => 0) (encodeLWECustom 3 8 0x10000000)) = some 3 ∧
    decLWE (encLWE (encLWE (fun _ => 0) (encodeLWECustom 3 8 0x10000000)) (encodeLWECustom 3 8 0x10000000)) =
      some 7 := by
  decide +kernel

open Pub in
/-- The claim for reused outputs is false for GLWE. -/
theorem C28_glwe_reuse_false :
    decGLWE (encGLWE zero2 ![0x30000000, 0x10000000]) = some [3, 1] ∧
    decGLWE (encGLWE (encGLWE zero2 ![0x30000000, 0x10000000]) ![0x30000000, 0x10000000]) = some [3, 5] := by
  decide +kernel

open Pub in
/-- The claim is false for the second call of `EncryptFFTGLWE`, even with a fresh output: the stale mask
is in the buffer of the encryptor. -/
theorem C28_fft_second_call_false :
    decGLWE (encFFT zero2 ![0x30000000, 0x10000000]).1 = some [3, 1] ∧
    decGLWE (encFFT (encFFT zero2 ![0x30000000, 0x10000000]).2 ![0x30000000, 0x10000000]).1 = some [3, 5] := by
  decide +kernel

open Pub in
/-- The claim is false for the second call of the multi-key `EncryptLWE`, even with a fresh output. -/
theorem C28_mk_second_call_false :
    ∃ ct buf ct' buf', encMk (fun _ => 0) (encodeLWECustom 3 8 0x10000000) = some (ct, buf) ∧ decMk ct = some 3 ∧
      encMk buf (encodeLWECustom 3 8 0x10000000) = some (ct', buf') ∧ decMk ct' = some 7 :=
  ⟨_, _, _, _, rfl, by decide +kernel, rfl, by decide +kernel⟩

/-- A concrete run of the correct case: rank 2, `N = 2`, noise and FFT errors everywhere. -/
example :
    let sk : Fin 2 → Poly 2 (BitVec 32) := fun i j => BitVec.ofNat 32 ((i + j) % 2)
    let r : Fin 2 → Poly 2 (BitVec 32) := fun i j => BitVec.ofNat 32 ((i * j + 1) % 2)
    let mask : Fin 2 → Fin 2 → Poly 2 (BitVec 32) := fun i l j => BitVec.ofNat 32 (99999989 * (i + 3 * j + 7 * l + 1))
    let pk := genLWEPublicKey sk mask (fun _ _ _ => 3) (fun _ j => BitVec.ofInt 32 (j - 2))
    let ct := pubEncryptLWEPlaintextTo pk r 5 (fun _ _ => -4) (fun _ _ _ => 2) (fun _ => 0) (encodeLWECustom 6 8 0x10000000)
    decodeLWECustom (decryptLWEPhase (fun t : Fin (2 * 2) => asLWEKey sk (fun _ => 0) t)
      (fun t : Fin (2 * 2 + 1) => ct t)) 8 0x10000000 = some 6 ∧ ct 3 ≠ 0 := by
  decide +kernel

/-- The hypotheses of the decryption theorem are met by realistic sizes: 64-bit words, `N = 2048`, rank 1,
modulus 16, samples up to `2^30`, FFT errors up to `2^20`. -/
example : (((2 * 1 * 2048 + 1) * 2 ^ 30 + 2 * (1 * (1 * (2048 * 2 ^ 20))) : ℕ) : ℚ) + (16 : ℕ) + 2 ^ 64 / 2 ^ 50 <
    ((2 ^ 59 : ℕ) : ℚ) / 2 ∧ compileScale 64 16 = some (2 ^ 59) := by
  constructor
  · norm_num
  · decide +kernel

end Tfhe
