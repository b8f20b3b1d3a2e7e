import Verif.Lemma.Lwe
import Verif.Props.C03
import Verif.Props.C06
import Verif.Props.C08
import Verif.Props.C09

/-!
# C07: GLWE encryption, decryption and arithmetic

`P` is any commutative ring; for the scheme it is `Poly N (BitVec w)`, i.e. `Z_Q[X]/(X^N+1)`.
-/
namespace Tfhe
variable {P : Type}

theorem mapLoopI_spec (f : ℕ → P → P → P → P) (out v0 v1 : ℕ) (is : List ℕ) (hnd : is.Nodup) (m : Mem P)
    (v i : ℕ) : mapLoopI f out v0 v1 is m v i =
      if v = out ∧ i ∈ is then f i (m out i) (m v0 i) (m v1 i) else m v i := by
  induction is generalizing m with
  | nil => simp [mapLoopI]
  | cons j js ih =>
    rw [List.nodup_cons] at hnd
    rw [mapLoopI, ih hnd.2]
    by_cases hv : v = out
    · by_cases hij : i = j
      · subst hij; subst hv
        rw [if_neg (by tauto), if_pos (by simp)]
        simp [Mem.write]
      · have hw : ∀ u, (m.write out j (f j (m out j) (m v0 j) (m v1 j))) u i = m u i := by
          intro u; simp [Mem.write, hij]
        simp only [hw, List.mem_cons, hij, false_or]
    · rw [if_neg (by tauto), if_neg (by tauto)]
      simp [Mem.write, hv]

/-- A loop over all the components: the new ciphertext, and nothing else changes. -/
theorem mapLoopI_whole (f : ℕ → P → P → P → P) (k out v0 v1 : ℕ) (m : Mem P) :
    (ctOf k (mapLoopI f out v0 v1 (List.range (k + 1)) m) out =
      fun i : Fin (k + 1) => f i (ctOf k m out i) (ctOf k m v0 i) (ctOf k m v1 i)) ∧
    (∀ v i, v ≠ out ∨ k + 1 ≤ i → mapLoopI f out v0 v1 (List.range (k + 1)) m v i = m v i) := by
  constructor
  · funext i
    unfold ctOf
    rw [mapLoopI_spec _ _ _ _ _ List.nodup_range, if_pos ⟨rfl, List.mem_range.2 i.2⟩]
  · intro v i h
    rw [mapLoopI_spec _ _ _ _ _ List.nodup_range, if_neg]
    rintro ⟨h1, h2⟩
    rw [List.mem_range] at h2
    omega

variable [CommRing P]

theorem hasPhase_of_map (f : ℕ → P → P → P → P) (k out v0 v1 : ℕ) (m : Mem P) (p : (Fin k → P) → P)
    (h : ∀ s, phase s (fun i : Fin (k + 1) => f i (ctOf k m out i) (ctOf k m v0 i) (ctOf k m v1 i)) = p s) :
    HasPhase k out m (mapLoopI f out v0 v1 (List.range (k + 1)) m) p := by
  obtain ⟨h1, h2⟩ := mapLoopI_whole f k out v0 v1 m
  exact ⟨fun s => by rw [h1]; exact h s, h2⟩

/-- `AddGLWETo`, any aliasing. -/
theorem C07_add (k out ct0 ct1 : ℕ) (m : Mem P) :
    HasPhase k out m (addGLWETo k out ct0 ct1 m)
      (fun s => phase s (ctOf k m ct0) + phase s (ctOf k m ct1)) :=
  hasPhase_of_map _ _ _ _ _ _ _ fun s => phase_add s _ _

/-- `SubGLWETo`, any aliasing. -/
theorem C07_sub (k out ct0 ct1 : ℕ) (m : Mem P) :
    HasPhase k out m (subGLWETo k out ct0 ct1 m)
      (fun s => phase s (ctOf k m ct0) - phase s (ctOf k m ct1)) :=
  hasPhase_of_map _ _ _ _ _ _ _ fun s => phase_sub s _ _

/-- `NegGLWETo`, any aliasing. -/
theorem C07_neg (k out ct : ℕ) (m : Mem P) :
    HasPhase k out m (negGLWETo k out ct m) (fun s => -phase s (ctOf k m ct)) :=
  hasPhase_of_map _ _ _ _ _ _ _ fun s => phase_neg s _

theorem phase_mul_err {k : ℕ} (s : Fin k → P) (c : Fin (k + 1) → P) (p : P) (err : ℕ → P) :
    phase s (fun i => c i * p + err i) = p * phase s c + phase s (fun i => err i) := by
  rw [← phase_smul, ← phase_add]
  congr 1; funext i; simp [mul_comm]

/-- Scalar and polynomial products, any aliasing: the phase is multiplied, up to the phase of the FFT
errors of the components. -/
theorem C07_mul (k out ct : ℕ) (p : P) (err : ℕ → P) (m : Mem P) :
    HasPhase k out m (mulGLWETo k out ct p err m)
      (fun s => p * phase s (ctOf k m ct) + phase s (fun i => err i)) :=
  hasPhase_of_map _ _ _ _ _ _ _ fun s => phase_mul_err s _ p err

theorem C07_mulAdd (k out ct : ℕ) (p : P) (err : ℕ → P) (m : Mem P) :
    HasPhase k out m (mulAddGLWETo k out ct p err m)
      (fun s => phase s (ctOf k m out) + (p * phase s (ctOf k m ct) + phase s (fun i => err i))) :=
  hasPhase_of_map _ _ _ _ _ _ _ fun s => by
    rw [← phase_mul_err]; exact phase_add s _ _

theorem C07_mulSub (k out ct : ℕ) (p : P) (err : ℕ → P) (m : Mem P) :
    HasPhase k out m (mulSubGLWETo k out ct p err m)
      (fun s => phase s (ctOf k m out) - (p * phase s (ctOf k m ct) + phase s (fun i => err i))) :=
  hasPhase_of_map _ _ _ _ _ _ _ fun s => by
    rw [← phase_mul_err]; exact phase_sub s _ _

/-- `AddPlainGLWETo`, any aliasing. -/
theorem C07_addPlain (k out ct : ℕ) (pt : P) (m : Mem P) :
    HasPhase k out m (addPlainGLWETo k out ct pt m) (fun s => phase s (ctOf k m ct) + pt) := by
  have key : ∀ v i, addPlainGLWETo k out ct pt m v i =
      if v = out ∧ i = 0 then m ct 0 + pt else if v = out ∧ i < k + 1 then m ct i else m v i := by
    intro v i
    simp only [addPlainGLWETo, Mem.write]
    rw [mapLoopI_spec _ _ _ _ _ List.nodup_range', mapLoopI_spec _ _ _ _ _ List.nodup_range',
      if_neg (c := ct = out ∧ 0 ∈ List.range' 1 k) (by simp)]
    by_cases hi : i = 0
    · by_cases hv : v = out <;> simp [hi, hv]
    · simp only [hi, and_false, if_false, List.mem_range'_1]
      congr 1; simp only [eq_iff_iff]; constructor <;> rintro ⟨h1, h2⟩ <;> exact ⟨h1, by omega⟩
  refine ⟨fun s => ?_, fun v i h => ?_⟩
  · have h0 : ctOf k (addPlainGLWETo k out ct pt m) out 0 = ctOf k m ct 0 + pt := by
      simp [ctOf, key]
    have h1 : ∀ i : Fin k, ctOf k (addPlainGLWETo k out ct pt m) out i.succ = ctOf k m ct i.succ := by
      intro i; simp [ctOf, key]
    simp only [phase, h0, h1]; ring
  · rw [key, if_neg (by omega), if_neg (by omega)]

/-- `SubPlainGLWETo`, any aliasing. -/
theorem C07_subPlain (k out ct : ℕ) (pt : P) (m : Mem P) :
    HasPhase k out m (subPlainGLWETo k out ct pt m) (fun s => phase s (ctOf k m ct) - pt) := by
  have e : subPlainGLWETo k out ct pt m = addPlainGLWETo k out ct (-pt) m := by
    simp only [subPlainGLWETo, addPlainGLWETo, sub_eq_add_neg]
  rw [e]
  simpa only [sub_eq_add_neg] using C07_addPlain k out ct (-pt) m

/-- The exact maps (`σ` a ring endomorphism, i.e. the permutation `X ↦ X^d`): the phase under the
mapped key is the mapped phase.  Overlapping arguments are excluded, as in the source. -/
theorem C07_permute (k out ct : ℕ) (hne : out ≠ ct) (σ : P →+* P) (m : Mem P) :
    ∃ m', exactMapGLWETo k out ct σ m = some m' ∧
      (∀ s : Fin k → P, phase (fun i => σ (s i)) (ctOf k m' out) = σ (phase s (ctOf k m ct))) ∧
      (∀ v i, v ≠ out ∨ k + 1 ≤ i → m' v i = m v i) := by
  obtain ⟨h1, h2⟩ := mapLoopI_whole (fun _ _ a _ => σ a) k out ct ct m
  refine ⟨_, by rw [exactMapGLWETo, if_neg hne], fun s => ?_, h2⟩
  rw [h1]; exact phase_map σ s _

theorem C07_permuteInPlace (k ct : ℕ) (σ : P →+* P) (m : Mem P) :
    (∀ s : Fin k → P, phase (fun i => σ (s i)) (ctOf k (exactMapGLWEInPlace k ct σ m) ct) =
      σ (phase s (ctOf k m ct))) ∧
    (∀ v i, v ≠ ct ∨ k + 1 ≤ i → exactMapGLWEInPlace k ct σ m v i = m v i) := by
  obtain ⟨h1, h2⟩ := mapLoopI_whole (fun _ _ a _ => σ a) k ct ct ct m
  exact ⟨fun s => by unfold exactMapGLWEInPlace; rw [h1]; exact phase_map σ s _, h2⟩

theorem C07_permuteAdd (k out ct : ℕ) (hne : out ≠ ct) (σ : P →+* P) (m : Mem P) :
    ∃ m', exactMapAddGLWETo k out ct σ m = some m' ∧
      (∀ s : Fin k → P, phase (fun i => σ (s i)) (ctOf k m' out) =
        phase (fun i => σ (s i)) (ctOf k m out) + σ (phase s (ctOf k m ct))) ∧
      (∀ v i, v ≠ out ∨ k + 1 ≤ i → m' v i = m v i) := by
  obtain ⟨h1, h2⟩ := mapLoopI_whole (fun _ o a _ => o + σ a) k out ct ct m
  refine ⟨_, by rw [exactMapAddGLWETo, if_neg hne], fun s => ?_, h2⟩
  rw [h1, ← phase_map]; exact phase_add _ _ _

theorem C07_permuteSub (k out ct : ℕ) (hne : out ≠ ct) (σ : P →+* P) (m : Mem P) :
    ∃ m', exactMapSubGLWETo k out ct σ m = some m' ∧
      (∀ s : Fin k → P, phase (fun i => σ (s i)) (ctOf k m' out) =
        phase (fun i => σ (s i)) (ctOf k m out) - σ (phase s (ctOf k m ct))) ∧
      (∀ v i, v ≠ out ∨ k + 1 ≤ i → m' v i = m v i) := by
  obtain ⟨h1, h2⟩ := mapLoopI_whole (fun _ o a _ => o - σ a) k out ct ct m
  refine ⟨_, by rw [exactMapSubGLWETo, if_neg hne], fun s => ?_, h2⟩
  rw [h1, ← phase_map]; exact phase_sub _ _ _

/-- Monomial products (`x = X^d`) multiply the phase exactly. -/
theorem C07_monomial (k out ct : ℕ) (hne : out ≠ ct) (x : P) (m : Mem P) :
    (∃ m', exactMapGLWETo k out ct (x * ·) m = some m' ∧
      HasPhase k out m m' (fun s => x * phase s (ctOf k m ct))) ∧
    (∃ m', exactMapAddGLWETo k out ct (x * ·) m = some m' ∧
      HasPhase k out m m' (fun s => phase s (ctOf k m out) + x * phase s (ctOf k m ct))) ∧
    (∃ m', exactMapSubGLWETo k out ct (x * ·) m = some m' ∧
      HasPhase k out m m' (fun s => phase s (ctOf k m out) - x * phase s (ctOf k m ct))) := by
  refine ⟨⟨_, by rw [exactMapGLWETo, if_neg hne], hasPhase_of_map _ _ _ _ _ _ _ fun s => phase_smul s _ _⟩,
    ⟨_, by rw [exactMapAddGLWETo, if_neg hne], hasPhase_of_map _ _ _ _ _ _ _ fun s => ?_⟩,
    ⟨_, by rw [exactMapSubGLWETo, if_neg hne], hasPhase_of_map _ _ _ _ _ _ _ fun s => ?_⟩⟩
  · rw [← phase_smul]; exact phase_add s _ _
  · rw [← phase_smul]; exact phase_sub s _ _

theorem C07_monomialInPlace (k ct : ℕ) (x : P) (m : Mem P) :
    HasPhase k ct m (exactMapGLWEInPlace k ct (x * ·) m) (fun s => x * phase s (ctOf k m ct)) :=
  hasPhase_of_map _ _ _ _ _ _ _ fun s => phase_smul s _ _

/-! ### The polynomial operations on coefficient slices are the ring operations

`AddPolyTo`, `SubPolyTo`, `NegPolyTo`, `ScalarMulPolyTo`, `ScalarMulAddPolyTo`, `ScalarMulSubPolyTo`
(math/poly/poly_ops.go:15-75) check the lengths and call the vector loops, any aliasing.  Products by
monomials and permutations are C08 and C09. -/

/-- The polynomial whose coefficients are stored in vector `v`. -/
def polyOf {R : Type} (N : ℕ) (m : Mem R) (v : ℕ) : Poly N R := fun i => m v i

theorem polyOf_unrolled {R : Type} (f : R → R → R → R) (N out v0 v1 : ℕ) (m : Mem R) (i : Fin N) :
    polyOf N (mapLoop f out v0 v1 (unrolledIdx N) m) out i =
      f (polyOf N m out i) (polyOf N m v0 i) (polyOf N m v1 i) :=
  (mapLoop_whole f out v0 v1 N _ (nodup_unrolledIdx _) (mem_unrolledIdx _) m).1 i i.2

theorem C07_coeffs {R : Type} [CommRing R] (N : ℕ) [NeZero N] (out v0 v1 : ℕ) (c : R) (m : Mem R) :
    polyOf N (vecAddTo N out v0 v1 m) out = polyOf N m v0 + polyOf N m v1 ∧
    polyOf N (vecSubTo N out v0 v1 m) out = polyOf N m v0 - polyOf N m v1 ∧
    polyOf N (vecNegTo N out v0 m) out = -polyOf N m v0 ∧
    polyOf N (vecScalarMulTo N out v0 c m) out = Poly.C N c * polyOf N m v0 ∧
    polyOf N (vecScalarMulAddTo N out v0 c m) out = polyOf N m out + Poly.C N c * polyOf N m v0 ∧
    polyOf N (vecScalarMulSubTo N out v0 c m) out = polyOf N m out - Poly.C N c * polyOf N m v0 := by
  refine ⟨?_, ?_, ?_, ?_, ?_, ?_⟩ <;> apply Poly.ext' <;> intro i
  · exact polyOf_unrolled _ _ _ _ _ _ i
  · exact polyOf_unrolled _ _ _ _ _ _ i
  · exact (mapLoop_whole (fun _ a _ => -a) out v0 v0 N (List.range N) List.nodup_range
      (fun i => List.mem_range) m).1 i i.2
  · rw [Poly.C_mul_apply]; exact polyOf_unrolled _ _ _ _ _ _ i
  · rw [Poly.add_apply, Poly.C_mul_apply]; exact polyOf_unrolled _ _ _ _ _ _ i
  · rw [Poly.sub_apply, Poly.C_mul_apply]; exact polyOf_unrolled _ _ _ _ _ _ i

/-- The phase of a fresh ciphertext is plaintext + noise, minus the errors of the products with the
key; the mask is the sampled one. -/
theorem C07_fresh {k : ℕ} (sk mask err : Fin k → P) (noise pt : P) :
    phase sk (encryptGLWEPlaintext sk mask err noise pt) = pt + noise - ∑ i, err i ∧
    ∀ i, encryptGLWEPlaintext sk mask err noise pt i.succ = mask i :=
  ⟨phase_encryptGLWEBody sk mask err noise pt, fun i => by simp [encryptGLWEPlaintext, encryptGLWEBody]⟩

/-- `DecryptGLWEPhaseTo` computes the phase, up to the errors of its own products. -/
theorem C07_decryptPhase {k : ℕ} (sk err : Fin k → P) (ct : Fin (k + 1) → P) :
    decryptGLWEPhase sk err ct = phase sk ct + ∑ i, err i := decryptGLWEPhase_eq sk err ct

/-- **C07, messages.** Encode, encrypt, decrypt and decode: the first `N` messages modulo `p`, padded
with zeros, for all keys, masks and message lists, when the coefficients of noise plus FFT errors are
in the decoding radius. -/
theorem C07_round_trip {w N k : ℕ} [NeZero N] (outLen : ℕ) (sk mask err derr : Fin k → Poly N (BitVec w))
    (noise pt : Poly N (BitVec w)) (messages : List (BitVec 64)) (p s : BitVec w) (hp : p ≠ 0) (c : ℕ)
    (hc : 0 < c) (hpt : Poly.toList pt = encodeGLWECustom N messages p s) (e : Fin N → ℤ)
    (he : ∀ i, (noise - ∑ j, err j + ∑ j, derr j) i = BitVec.ofInt w (e i))
    (h : ∀ i, |(e i : ℚ)| + |(2 : ℚ) ^ w - c * p.toNat * s.toNat| + 2 ^ w / 2 ^ 51 < (s.toNat : ℚ) / 2) :
    ∃ out : List ℤ, decodeGLWECustom outLen
        (Poly.toList (decryptGLWEPhase sk derr (encryptGLWEPlaintext sk mask err noise pt))) p s = some out ∧
      out.length = min outLen N ∧
      ∀ i, i < min outLen N → out[i]? = some (if h : i < messages.length then
        (((messages[i].setWidth w).toNat % p.toNat : ℕ) : ℤ) else 0) := by
  have e1 : decryptGLWEPhase sk derr (encryptGLWEPlaintext sk mask err noise pt) =
      pt + (noise - ∑ j, err j + ∑ j, derr j) := by
    rw [C07_decryptPhase, (C07_fresh sk mask err noise pt).1]; ring
  have e2 : Poly.toList (decryptGLWEPhase sk derr (encryptGLWEPlaintext sk mask err noise pt)) =
      (encodeGLWECustom N messages p s).zipWith (· + ·) (List.ofFn fun i => BitVec.ofInt w (e i)) := by
    rw [← hpt, e1]
    apply List.ext_getElem?
    intro i
    unfold Poly.toList
    rw [List.getElem?_zipWith]
    erw [List.getElem?_ofFn, List.getElem?_ofFn, List.getElem?_ofFn]
    by_cases hi : i < N
    · rw [dif_pos hi, dif_pos hi, dif_pos hi, ← he]; rfl
    · rw [dif_neg hi, dif_neg hi, dif_neg hi]
  rw [e2]
  exact C03_glwe N outLen messages p s hp c hc e h

/-- A concrete run over `Z_{2^32}[X]/(X^4+1)`, rank 2: two messages, one negative, with noise and FFT
errors in encryption and decryption. -/
example :
    let sk : Fin 2 → Poly 4 (BitVec 32) := fun i j => BitVec.ofNat 32 ((i + j) % 2)
    let mask : Fin 2 → Poly 4 (BitVec 32) := fun i j => BitVec.ofNat 32 (99999989 * (i + 3 * j + 1))
    let pt : Poly 4 (BitVec 32) := fun j => ((encodeGLWECustom 4 [5, -2] (8 : BitVec 32) (2 ^ 28))[j]?).getD 0
    let ct := encryptGLWEPlaintext sk mask (fun _ _ => 3) (fun j => BitVec.ofInt 32 (j - 2)) pt
    decodeGLWECustom 4 (Poly.toList (decryptGLWEPhase sk (fun _ _ => 1) ct)) 8 (2 ^ 28) =
      some [5, 6, 0, 0] := by
  decide +kernel

end Tfhe
