import Verif.Lemma.MultiKey
import Verif.Props.C05
import Verif.Props.C06

/-!
# C31: multi-key encryption and decryption
-/
namespace Tfhe.Mk
open Finset

section
variable {R : Type} [CommRing R]

/-- A ciphertext of party `idx` decrypts to plaintext plus noise with every decryptor that holds the key of
that party, whatever other keys it holds. -/
theorem C31_lwe {P n idx : ℕ} (hn : 0 < n) (hidx : idx < P) (sk mask : Fin n → R) (noise pt : R)
    {d : Decryptor (Fin n → R)} {held} (hd : Holds P d held) (hk : held idx = some sk) :
    ∃ ct, encryptLWE P n idx sk mask noise pt = some ct ∧ decryptLWEPhase d ct = some (pt + noise) := by
  obtain ⟨ct, h1, h2⟩ := mkLWECopyFromSubKey_phase P n idx hn hidx (jointLWE held)
    (fun j => if h : j < n then sk ⟨j, h⟩ else 0)
    (fun j hj => by rw [jointLWE_block held idx ⟨j, hj⟩, hk]; simp [hj]) (ext0 (encryptLWEBody sk mask noise pt))
  refine ⟨ct, h1, ?_⟩
  rw [decryptLWEPhase_eq hd, h2]
  have e1 : (fun t : Fin n => if h : (t : ℕ) < n then sk ⟨t, h⟩ else 0) = sk := by funext t; simp
  have e2 : (fun t : Fin (n + 1) => ext0 (encryptLWEBody sk mask noise pt) t) = encryptLWEBody sk mask noise pt := by
    funext t; simp only [ext0, t.2, dif_pos, Fin.eta]
  rw [e1, e2, phase_encryptLWEBody]

/-- The same for GLWE ciphertexts, with the errors of the products. -/
theorem C31_glwe {P idx : ℕ} (hidx : idx < P) (sk : R) (mask err : Fin 1 → R) (noise pt : R)
    {d : Decryptor R} {held} (hd : Holds P d held) (hk : held idx = some sk) (errD : ℕ → R) :
    ∃ ct, encryptGLWE P idx (fun _ => sk) mask err noise pt = some ct ∧
      Mk.decryptGLWEPhase d errD (ext0 ct) =
        some (pt + noise - err 0 + ∑ i ∈ range P, if (held i).isSome then errD i else 0) := by
  obtain ⟨ct, h1, h2⟩ := mkGLWECopyFromSubKey_phase P idx hidx (fun i => jointGLWE held i) (fun _ => sk)
    (by simp [jointGLWE, hk]) (encryptGLWEBody (fun _ : Fin 1 => sk) mask err noise pt)
  refine ⟨ct, h1, ?_⟩
  have e : (fun t : Fin (P + 1) => ext0 ct t) = ct := by
    funext t; simp only [ext0, t.2, dif_pos, Fin.eta]
  rw [mkDecryptGLWEPhase_eq hd, e, h2, phase_encryptGLWEBody]
  simp

/-- Only the keys of parties whose mask block is not zero matter. -/
theorem C31_irrelevant {P n : ℕ} {d d' : Decryptor (Fin n → R)} {held held'} (hd : Holds P d held)
    (hd' : Holds P d' held') (ct : ℕ → R)
    (h : ∀ i < P, held i ≠ held' i → ∀ j < n, ct (1 + i * n + j) = 0) :
    decryptLWEPhase d ct = decryptLWEPhase d' ct := by
  rw [decryptLWEPhase_eq hd, decryptLWEPhase_eq hd']
  congr 1
  unfold phase
  simp only [Fin.val_succ]
  rw [sum_blocks P n fun t => ct (t + 1) * jointLWE held t, sum_blocks P n fun t => ct (t + 1) * jointLWE held' t]
  congr 1
  refine sum_congr rfl fun i hi => sum_congr rfl fun j _ => ?_
  rw [jointLWE_block, jointLWE_block]
  by_cases hh : held i = held' i
  · rw [hh]
  · rw [show i * n + (j : ℕ) + 1 = 1 + i * n + j by omega, h i (mem_range.1 hi) hh j j.2, zero_mul, zero_mul]

/-- The same for GLWE ciphertexts, without errors. -/
theorem C31_irrelevant_glwe {P : ℕ} {d d' : Decryptor R} {held held'} (hd : Holds P d held)
    (hd' : Holds P d' held') (ct : ℕ → R) (h : ∀ i < P, held i ≠ held' i → ct (1 + i) = 0) :
    Mk.decryptGLWEPhase d 0 ct = Mk.decryptGLWEPhase d' 0 ct := by
  rw [mkDecryptGLWEPhase_eq hd, mkDecryptGLWEPhase_eq hd']
  simp only [Pi.zero_apply, ite_self, sum_const_zero, add_zero]
  congr 1
  unfold phase
  congr 1
  refine sum_congr rfl fun i _ => ?_
  simp only [Fin.val_succ, jointGLWE]
  by_cases hh : held i = held' i
  · rw [hh]
  · rw [add_comm, h i i.2 hh, zero_mul, zero_mul]

/-- Adding ciphertexts into an output one after the other adds their phases under every key. -/
theorem phase_addAll (dim out : ℕ) (hs : List ℕ) (hout : out ∉ hs) (s : Fin dim → R) (m : Mem R) :
    phase s (ctOf dim (hs.foldl (fun m h => addLWETo dim out out h m) m) out) =
      phase s (ctOf dim m out) + (hs.map fun h => phase s (ctOf dim m h)).sum := by
  induction hs generalizing m with
  | nil => simp
  | cons h hs ih =>
    simp only [List.mem_cons, not_or] at hout
    rw [List.foldl_cons, ih hout.2, (C06_add dim out out h m).1 s, List.map_cons, List.sum_cons, ← add_assoc]
    congr 2
    refine List.map_congr_left fun v hv => ?_
    congr 1; funext i
    exact (C06_add dim out out h m).2 v i (Or.inl fun e => hout.2 (e ▸ hv))
end

/-- One of the ciphertexts that are added: where it is, who made it, and from what. -/
structure Sent (n w : ℕ) where
  handle : ℕ
  idx : ℕ
  mask : Fin n → BitVec w
  noise : ℤ
  message : BitVec 64

/-- Its memory holds a fresh encryption under a key in `held`. -/
def Sent.Fresh {n w : ℕ} (P : ℕ) (p s : BitVec w) (held : ℕ → Option (Fin n → BitVec w)) (m : Mem (BitVec w))
    (x : Sent n w) : Prop :=
  x.idx < P ∧ ∃ sk ct, held x.idx = some sk ∧
    encryptLWE P n x.idx sk x.mask (BitVec.ofInt w x.noise) (encodeLWECustom x.message p s) = some ct ∧
    ∀ t ≤ P * n, m x.handle t = ct t

theorem encode_small {w : ℕ} (message : BitVec 64) (p s : BitVec w) (h : message.toNat < p.toNat) :
    encodeLWECustom message p s = BitVec.ofNat w message.toNat * s := by
  have hp : p ≠ 0 := by rintro rfl; simp at h
  unfold encodeLWECustom
  simp only [hp, ne_eq, not_false_eq_true, if_true]
  congr 1
  apply BitVec.eq_of_toNat_eq
  have := p.isLt
  rw [BitVec.toNat_umod, BitVec.toNat_setWidth, BitVec.toNat_ofNat, Nat.mod_eq_of_lt (a := message.toNat) (by omega),
    Nat.mod_eq_of_lt h]

/-- Ciphertexts of any parties, added with `AddLWETo` into a cleared ciphertext, decrypt to the sum of the
messages with every decryptor that holds the keys involved, as long as the sum stays below the modulus and the
sum of the noises in the radius. -/
theorem C31_sum {w n P : ℕ} (hw1 : 1 ≤ w) (hw : w ≤ 64) (hn : 0 < n) (p s : BitVec w)
    (hs : compileScale w p.toNat = some s.toNat) {d : Decryptor (Fin n → BitVec w)} {held} (hd : Holds P d held)
    (m : Mem (BitVec w)) (out : ℕ) (xs : List (Sent n w)) (hx : ∀ x ∈ xs, x.Fresh P p s held m)
    (hout : out ∉ xs.map Sent.handle) (h0 : ∀ t ≤ P * n, m out t = 0)
    (hsum : (xs.map fun x => x.message.toNat).sum < p.toNat)
    (hnoise : |((xs.map Sent.noise).sum : ℚ)| + p.toNat + 2 ^ w / 2 ^ 50 < (s.toNat : ℚ) / 2) :
    ((decryptLWEPhase d ((xs.map Sent.handle).foldl (fun m h => addLWETo (P * n) out out h m) m out)).bind
      fun x => decodeLWECustom x p s) = some (((xs.map fun x => x.message.toNat).sum : ℕ) : ℤ) := by
  have hp : p ≠ 0 := by rintro rfl; simp at hsum
  have hpt := p.isLt
  rw [decryptLWEPhase_eq hd]
  have e1 := phase_addAll (P * n) out (xs.map Sent.handle) hout (fun t => jointLWE held t) m
  have e2 : phase (fun t : Fin (P * n) => jointLWE held t) (ctOf (P * n) m out) = 0 := by
    unfold phase ctOf
    rw [h0 _ (by simp)]
    simp [h0 _ (Nat.succ_le_of_lt (Fin.is_lt _))]
  have e3 : ∀ ys : List (Sent n w), (∀ x ∈ ys, x.Fresh P p s held m) →
      (ys.map fun x => x.message.toNat).sum < p.toNat →
      (ys.map fun x => phase (fun t : Fin (P * n) => jointLWE held t) (ctOf (P * n) m x.handle)).sum =
        BitVec.ofNat w (ys.map fun x => x.message.toNat).sum * s + BitVec.ofInt w (ys.map Sent.noise).sum := by
    intro ys
    induction ys with
    | nil => intro _ _; simp
    | cons y ys ih =>
      intro hy hlt
      simp only [List.map_cons, List.sum_cons] at hlt ⊢
      rw [ih (fun x hx => hy x (List.mem_cons_of_mem _ hx)) (by omega)]
      obtain ⟨hi, sk, ct, hk, hct, hm⟩ := hy y List.mem_cons_self
      obtain ⟨ct', h1, h2⟩ := C31_lwe hn hi sk y.mask (BitVec.ofInt w y.noise) (encodeLWECustom y.message p s) hd hk
      rw [hct, Option.some.injEq] at h1
      subst h1
      rw [decryptLWEPhase_eq hd, Option.some.injEq] at h2
      have e : ctOf (P * n) m y.handle = fun t : Fin (P * n + 1) => ct t := by
        funext t; exact hm t (by omega)
      rw [e, h2, encode_small _ _ _ (by omega), BitVec.ofNat_add, BitVec.ofInt_add]
      ring
  rw [List.map_map] at e1
  have e4 := e3 xs hx hsum
  simp only [Function.comp_def] at e1
  rw [e2, zero_add, e4] at e1
  unfold ctOf at e1
  rw [e1, Option.bind_some]
  set M := (xs.map fun x => x.message.toNat).sum with hM
  have h64 : p.toNat < 2 ^ 64 := lt_of_lt_of_le hpt (Nat.pow_le_pow_right (by norm_num) hw)
  have hb : (BitVec.ofNat 64 M).toNat = M := by rw [BitVec.toNat_ofNat, Nat.mod_eq_of_lt (by omega)]
  have h := C03_default hw1 (BitVec.ofNat 64 M) p s hp hs (xs.map Sent.noise).sum (by exact_mod_cast hnoise)
  rw [encode_small _ _ _ (by rw [hb]; exact hsum), hb] at h
  rw [h, BitVec.toNat_setWidth, hb, Nat.mod_eq_of_lt (a := M) (by omega), Nat.mod_eq_of_lt hsum]

/-- Two parties of three, 32-bit words, dimension 2, modulus 8: messages 3 and 2 of parties 2 and 0, and a
decryptor that also holds the key of party 1. -/
example :
    let sk : ℕ → Fin 2 → BitVec 32 := fun i j => BitVec.ofNat 32 ((i + j) % 2)
    let d : Decryptor (Fin 2 → BitVec 32) := ⟨(List.range 3).map fun i => some (sk i), [], [true, true, true]⟩
    (do
      let a ← encryptLWE 3 2 2 (sk 2) ![77, 0x12345678] 1000 (encodeLWECustom 3 8 0x10000000)
      let b ← encryptLWE 3 2 0 (sk 0) ![0xffffffff, 5] (-700) (encodeLWECustom 2 8 0x10000000)
      let pt ← decryptLWEPhase d (fun t => a t + b t)
      decodeLWECustom pt 8 0x10000000) = some 5 := by decide +kernel

/-- Such decryptors exist for every choice of keys. -/
theorem holds_example {K : Type} (P : ℕ) (held : ℕ → Option K) :
    Holds P ⟨(List.range P).map held, [], (List.range P).map fun i => (held i).isSome⟩ held where
  len := by simp
  on := fun i hi => by simp [List.getD_eq_getElem?_getD, hi]
  sub := fun i hi s hs => by simp [hi, hs]

end Tfhe.Mk
