import Verif.Model.MkIndex
import Verif.Props.C82

/-!
# C83: checks before public-key encryption, and the index of a party
-/
namespace Tfhe.Mk

/-- **C83 (order).**  For compiled parameters, public keys and public encryptors are made exactly if the order is
`KeySwitchBlindRotate`, and then ciphertexts have the dimension of the key of the GLWE ciphertexts, for which a public key is made.
With the other order every one of these calls panics. -/
theorem C83_order {w : ℕ} {K : Type} (impl : BitVec w) (lit : ParamsLit w) (p : Params w) (h : lit.compile impl = some p)
    (make : List ℕ × List ℕ → K) (pk : K) :
    (p.bootstrapOrder = 0 ∧ p.defaultLWEDimension = p.glweDimension ∧ (newLWEPublicKey p).isSome ∧ (newPublicKey p).isSome ∧
      (∃ lens, newPublicKey p = some lens ∧ genPublicKey p make = some (make lens)) ∧ newPublicEncryptor p pk = some pk) ∨
    (p.bootstrapOrder = 1 ∧ p.defaultLWEDimension = p.lweDimension ∧ newLWEPublicKey p = none ∧ newPublicKey p = none ∧
      genPublicKey p make = none ∧ newPublicEncryptor p pk = none) := by
  have ho := (C23_sound impl lit p h).order
  have h01 : p.bootstrapOrder = 0 ∨ p.bootstrapOrder = 1 := by
    rcases ho with ho | ho
    · left; exact (toInt_eq_zero_iff _).2 ho
    · right; rw [← BitVec.toInt_inj]; rw [ho]; decide
  rcases h01 with h0 | h1
  · left
    simp [h0, Params.defaultLWEDimension, newLWEPublicKey, newPublicKey, genPublicKey, newPublicEncryptor, publicKeyEncryptable]
  · right
    simp [h1, Params.defaultLWEDimension, newLWEPublicKey, newPublicKey, genPublicKey, newPublicEncryptor, publicKeyEncryptable]

/-- **C83 (index of a party).**  The multi-key constructor refuses exactly an index above the number of parties, and the wrong
order.  With an index from 0 to below the number of parties both copies place the mask of the party, without panic. -/
theorem C83_index_partial {w : ℕ} {K P R : Type} [Zero P] [Zero R] (p : MKParams w) (pk : K) (idx : ℤ) (parties n : ℕ)
    (hn : 0 < n) (glwe : Fin 2 → P) (lwe : ℕ → R) :
    (mkNewPublicEncryptor p idx pk = none ↔ p.partyCount.toInt < idx ∨ publicKeyEncryptable p.subParams = false) ∧
    (0 ≤ idx → idx < parties →
      glweCopyAt parties idx glwe = mkGLWECopyFromSubKey parties idx.toNat glwe ∧ (glweCopyAt parties idx glwe).isSome ∧
      lweCopyAt (parties * n) n idx lwe = mkLWECopyFromSubKey (parties * n) n idx.toNat lwe ∧
      (lweCopyAt (parties * n) n idx lwe).isSome) := by
  refine ⟨?_, fun h0 h1 => ?_⟩
  · unfold mkNewPublicEncryptor newPublicEncryptor
    by_cases h : idx > p.partyCount.toInt
    · simp [h]
    · cases hp : publicKeyEncryptable p.subParams <;> simp [h]
  · obtain ⟨i, rfl⟩ := Int.eq_ofNat_of_zero_le h0
    have hi : i < parties := by exact_mod_cast h1
    have hle : (i + 1) * n ≤ parties * n := Nat.mul_le_mul_right _ hi
    have hleZ : ((i : ℤ) + 1) * n ≤ parties * n := by exact_mod_cast hle
    have hnn : (0 : ℤ) ≤ i * n := by positivity
    have eg : glweCopyAt parties (i : ℤ) glwe = mkGLWECopyFromSubKey parties i glwe := by
      unfold glweCopyAt mkGLWECopyFromSubKey
      rw [if_pos ⟨by omega, by omega⟩, if_pos hi]
      congr 1
      funext t
      beta_reduce
      by_cases ht : (t : ℕ) = 0
      · rw [if_neg (by omega), if_pos ht, if_pos ht]
      · by_cases ht' : (t : ℕ) = 1 + i
        · rw [if_pos (by omega), if_neg ht, if_pos ht']
        · rw [if_neg (by omega), if_neg ht, if_neg ht, if_neg ht']
    have el : lweCopyAt (parties * n) n (i : ℤ) lwe = mkLWECopyFromSubKey (parties * n) n i lwe := by
      unfold lweCopyAt mkLWECopyFromSubKey
      have hmod : ¬ (parties * n % n ≠ 0) := by simp
      rw [if_neg (by omega), if_neg hmod, if_pos ⟨by omega, by push_cast; omega⟩, if_neg (by omega), if_neg hmod,
        if_neg (by omega)]
      congr 1
      funext t
      by_cases ht : t = 0
      · rw [if_pos ht, if_pos ht]
      · rw [if_neg ht, if_neg ht]
        have e1 : (1 + (i : ℤ) * n ≤ t ∧ (t : ℤ) < 1 + ((i : ℤ) + 1) * n) ↔ (1 + i * n ≤ t ∧ t < 1 + (i + 1) * n) := by
          constructor
          · rintro ⟨a, b⟩; exact ⟨by exact_mod_cast a, by exact_mod_cast b⟩
          · rintro ⟨a, b⟩; exact ⟨by exact_mod_cast a, by exact_mod_cast b⟩
        by_cases hc : 1 + i * n ≤ t ∧ t < 1 + (i + 1) * n
        · rw [if_pos (e1.2 hc), if_pos hc]
          congr 1
          have := hc.1
          have e2 : (1 + ((t : ℤ) - (1 + (i : ℤ) * n))) = ((t - i * n : ℕ) : ℤ) := by
            rw [Nat.cast_sub (by omega)]; push_cast; ring
          rw [e2]; rfl
        · rw [if_neg (fun h => hc (e1.1 h)), if_neg hc]
    have hmod : ¬ (parties * n % n ≠ 0) := by simp
    refine ⟨eg, ?_, el, ?_⟩
    · rw [eg, mkGLWECopyFromSubKey, if_pos hi]; rfl
    · rw [el, mkLWECopyFromSubKey, if_neg (by omega), if_neg hmod, if_neg (by omega)]; rfl

/-- An index of -1 is accepted by all constructors and no GLWE encryption panics, but the mask overwrites the body: the
ciphertext is the mask at the place of the body, the same for all messages.  So the message is lost without an error, for
encryptors and public encryptors. -/
theorem C83_minus_one_false {P : Type} [CommRing P] (parties : ℕ) :
    newEncryptor parties (-1) = some (-1) ∧
    (∀ (w : ℕ) (K : Type) (p : MKParams w) (pk : K), 0 < p.partyCount.toInt → publicKeyEncryptable p.subParams = true →
      mkNewPublicEncryptor p (-1) pk = some (-1, pk)) ∧
    (∀ (sk mask err : Fin 1 → P) (noise pt : P),
      encryptGLWEAt parties (-1) sk mask err noise pt = some fun t : Fin (parties + 1) => if (t : ℕ) = 0 then mask 0 else 0) ∧
    ∀ (pk : Fin 1 → Fin 2 → P) (r : Fin 1 → P) (noise : Fin 2 → P) (err : Fin 1 → Fin 2 → P) (buf : Fin 2 → P) (pt pt' : P),
      (pubEncryptGLWEAt parties (-1) pk r noise err buf pt).isSome ∧
        pubEncryptGLWEAt parties (-1) pk r noise err buf pt = pubEncryptGLWEAt parties (-1) pk r noise err buf pt' := by
  have hcopy : ∀ sub : Fin 2 → P, glweCopyAt parties (-1) sub = some fun t : Fin (parties + 1) => if (t : ℕ) = 0 then sub 1 else 0 := by
    intro sub
    unfold glweCopyAt
    rw [if_pos ⟨by omega, by omega⟩]
    congr 1
    funext t
    beta_reduce
    by_cases ht : (t : ℕ) = 0
    · rw [if_pos (by omega), if_pos ht]
    · rw [if_neg (by omega), if_neg ht, if_neg ht]
  refine ⟨?_, fun w K p pk hp ho => ?_, fun sk mask err noise pt => ?_, fun pk r noise err buf pt pt' => ?_⟩
  · rw [newEncryptor, if_neg (by omega)]
  · simp [mkNewPublicEncryptor, newPublicEncryptor, ho]; omega
  · rw [encryptGLWEAt, hcopy]; rfl
  · rw [pubEncryptGLWEAt, pubEncryptGLWEAt, hcopy, hcopy]
    refine ⟨rfl, ?_⟩
    have e : ∀ x : P, pubEncryptGLWEBody pk r noise err (Function.update buf 0 x) 1 =
        buf 1 + (pk 0 1 * r 0 + err 0 1) + noise 1 := by
      intro x
      simp [pubEncryptGLWEBody, Fin.foldl_succ, Fin.foldl_zero, Function.update]
    rw [e, e]

/-- The other indices that the constructors accept and that name no party make every encryption panic: the number of parties
itself, and all below -1; -1 makes LWE encryption panic for dimensions above 1. -/
theorem C83_panics {P R : Type} [Zero P] [Zero R] (parties n : ℕ) (hn : 1 < n) (glwe : Fin 2 → P) (lwe : ℕ → R) (idx : ℤ)
    (h : idx < 0 ∨ (parties : ℤ) ≤ idx) :
    lweCopyAt (parties * n) n idx lwe = none ∧ (idx ≠ -1 → glweCopyAt parties idx glwe = none) := by
  constructor
  · unfold lweCopyAt
    have hmod : ¬ (parties * n % n ≠ 0) := by simp
    rw [if_neg (by omega), if_neg hmod, if_neg]
    rintro ⟨h1, h2⟩
    push_cast at h2
    have hn' : (1 : ℤ) < n := by exact_mod_cast hn
    rcases h with h | h
    · nlinarith
    · nlinarith
  · intro h1
    unfold glweCopyAt
    rw [if_neg]
    omega

/-- Parameters with the order `BlindRotateKeySwitch` compile and have no public keys. -/
example : ∃ p, exLit.compile 0 = some p ∧ newPublicKey p = none ∧ newPublicEncryptor p () = none := by
  obtain ⟨p, hp⟩ := Option.isSome_iff_exists.1 (exLit_compiles 512 (Or.inl rfl))
  have hp' : exLit.compile 0 = some p := hp
  have ho : p.bootstrapOrder = 1 := by
    obtain ⟨_, lr, br, ks, _, _, _, hq⟩ := compile_inv _ _ _ hp'
    rw [hq]; rfl
  refine ⟨p, hp', ?_⟩
  rcases C83_order 0 exLit p hp' (fun _ => ()) () with h | h
  · rw [ho] at h; exact absurd h.1 (by decide)
  · exact ⟨h.2.2.2.1, h.2.2.2.2.2⟩

/-- Two parties: index 1 places the mask last, index -1 loses the body 5. -/
example : glweCopyAt 2 1 ![(5 : ℤ), 7] = some ![5, 0, 7] ∧ glweCopyAt 2 (-1) ![(5 : ℤ), 7] = some ![7, 0, 0] ∧
    glweCopyAt 2 2 ![(5 : ℤ), 7] = none := by
  refine ⟨?_, ?_, by decide⟩ <;>
  · unfold glweCopyAt
    rw [if_pos (by decide)]
    congr 1
    funext t
    revert t
    decide

end Tfhe.Mk
