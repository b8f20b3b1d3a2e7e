import Verif.Props.C42
import Verif.Lemma.Bootstrap

/-!
# C41: block binary sampling respects the block structure
-/
namespace Tfhe
open Rng

section
variable {w : ℕ}

/-! ### Uniform bits -/

/-- Words that are needed for `len` bits. -/
def bitWords (len : ℕ) : ℕ := (len + 63) / 64

theorem and63 (i : ℕ) : i &&& 63 = i % 64 := Nat.and_two_pow_sub_one_eq_mod i 6

theorem bit_setWidth (x : BitVec 64) : (x &&& 1).setWidth w = kbit w (x.getLsbD 0) := by
  apply BitVec.eq_of_toNat_eq
  have h1 : (x &&& 1#64).toNat = x.toNat % 2 := by
    rw [BitVec.toNat_and]; exact Nat.and_one_is_mod x.toNat
  have h2 : x.getLsbD 0 = decide (x.toNat % 2 = 1) := by
    simp [BitVec.getLsbD, Nat.testBit_zero]
  rw [BitVec.toNat_setWidth]
  show (x &&& 1#64).toNat % 2 ^ w = _
  rw [h1, h2]
  unfold kbit
  rcases Nat.mod_two_eq_zero_or_one x.toNat with h | h <;> simp [h]

theorem bits_foldlM (off : ℕ) (out : ℕ → BitVec w) (words : List (BitVec 64)) (n : ℕ) (h : bitWords n ≤ words.length) :
    ∃ out' buf, (List.range n).foldlM (bitStep off) (out, 0, words) = some (out', buf, words.drop (bitWords n)) ∧
      (n % 64 ≠ 0 → buf = (words.getD (n / 64) 0).ushiftRight (n % 64)) ∧
      (∀ i, i < n → out' (off + i) = kbit w ((words.getD (i / 64) 0).getLsbD (i % 64))) ∧
      ∀ j, j < off ∨ off + n ≤ j → out' j = out j := by
  induction n with
  | zero => exact ⟨out, 0, by simp [bitWords], by simp, by simp, by simp⟩
  | succ n ih =>
    obtain ⟨o, buf, h1, h2, h3, h4⟩ := ih (by unfold bitWords at h ⊢; omega)
    rw [List.range_succ, List.foldlM_append, h1]
    simp only [List.foldlM_cons, List.foldlM_nil, bind_pure, Option.bind_eq_bind, Option.bind_some, bitStep, and63]
    have hout : ∀ b : BitVec 64, b.getLsbD 0 = (words.getD (n / 64) 0).getLsbD (n % 64) →
        (∀ i, i < n + 1 → upd o (off + n) ((b &&& 1).setWidth w) (off + i)
          = kbit w ((words.getD (i / 64) 0).getLsbD (i % 64))) ∧
        ∀ j, j < off ∨ off + (n + 1) ≤ j → upd o (off + n) ((b &&& 1).setWidth w) j = out j := by
      intro b hb
      constructor
      · intro i hi
        unfold upd
        by_cases hin : i = n
        · rw [if_pos (by omega), bit_setWidth, hb, hin]
        · rw [if_neg (by omega)]; exact h3 i (by omega)
      · intro j hj
        unfold upd
        rw [if_neg (by omega)]; exact h4 j (by omega)
    by_cases h0 : n % 64 = 0
    · have hl : bitWords n = n / 64 := by unfold bitWords; omega
      have hlt : n / 64 < words.length := by unfold bitWords at h; omega
      have hd : words.drop (bitWords n) = words.getD (n / 64) 0 :: words.drop (bitWords (n + 1)) := by
        rw [hl, show bitWords (n + 1) = n / 64 + 1 by unfold bitWords; omega, List.drop_eq_getElem_cons hlt]
        simp [hlt]
      obtain ⟨a1, a2⟩ := hout (words.getD (n / 64) 0) (by rw [h0])
      refine ⟨upd o (off + n) ((words.getD (n / 64) 0 &&& 1).setWidth w), (words.getD (n / 64) 0).ushiftRight 1, ?_, ?_, a1, a2⟩
      · rw [if_pos h0, hd]; rfl
      · intro _
        rw [show (n + 1) / 64 = n / 64 by omega, show (n + 1) % 64 = 1 by omega]
    · have hl : bitWords (n + 1) = bitWords n := by unfold bitWords; omega
      have hb := h2 h0
      obtain ⟨a1, a2⟩ := hout buf (by rw [hb]; show ((words.getD (n / 64) 0) >>> (n % 64)).getLsbD 0 = _; simp)
      refine ⟨upd o (off + n) ((buf &&& 1).setWidth w), buf.ushiftRight 1, ?_, ?_, a1, a2⟩
      · rw [if_neg h0, hl]; rfl
      · intro h64
        rw [show (n + 1) / 64 = n / 64 by omega, show (n + 1) % 64 = n % 64 + 1 by omega, hb]
        show (words.getD (n / 64) 0) >>> (n % 64) >>> 1 = (words.getD (n / 64) 0) >>> (n % 64 + 1)
        rw [BitVec.shiftRight_add]

theorem bits_short (off : ℕ) (out : ℕ → BitVec w) (words : List (BitVec 64)) (n : ℕ) (h : words.length < bitWords n) :
    (List.range n).foldlM (bitStep off) (out, 0, words) = none := by
  induction n with
  | zero => simp [bitWords] at h
  | succ n ih =>
    rw [List.range_succ, List.foldlM_append]
    by_cases hn : words.length < bitWords n
    · rw [ih hn]; rfl
    · obtain ⟨o, buf, h1, -⟩ := bits_foldlM off out words n (by omega)
      have h0 : n % 64 = 0 := by unfold bitWords at h hn; omega
      rw [h1, List.drop_of_length_le (by unfold bitWords at h hn ⊢; omega)]
      simp [bitStep, and63, h0]

/-- **Uniform bits.**  Element `i` is bit `i mod 64` of word `i / 64`; exactly `⌈len / 64⌉` words are read; nothing else is
written. -/
theorem C41_bits (off len : ℕ) (out : ℕ → BitVec w) (words : List (BitVec 64)) (h : bitWords len ≤ words.length) :
    ∃ out', sampleVec off len out words = some (out', words.drop (bitWords len)) ∧
      (∀ i, i < len → out' (off + i) = kbit w ((words.getD (i / 64) 0).getLsbD (i % 64))) ∧
      ∀ j, j < off ∨ off + len ≤ j → out' j = out j := by
  obtain ⟨o, buf, h1, _, h3, h4⟩ := bits_foldlM off out words len h
  exact ⟨o, by rw [sampleVec, h1]; rfl, h3, h4⟩

/-! ### Blocks -/

theorem fill_zero (out : ℕ → BitVec w) (a bs : ℕ) (j : ℕ) :
    (List.range bs).foldl (fun out j => upd out (a + j) 0) out j = if a ≤ j ∧ j < a + bs then 0 else out j := by
  induction bs with
  | zero => rw [if_neg (by omega)]; rfl
  | succ n ih =>
    rw [List.range_succ, List.foldl_append]
    simp only [List.foldl_cons, List.foldl_nil, upd]
    by_cases h : j = a + n
    · rw [if_pos h, if_pos (by omega)]
    · rw [if_neg h, ih]
      by_cases h2 : a ≤ j ∧ j < a + n
      · rw [if_pos h2, if_pos (by omega)]
      · rw [if_neg h2, if_neg (by omega)]

theorem sampleN_block (bs : ℕ) (hbs : bs + 1 < 2 ^ 64) (ws rest : List (BitVec 64)) (r : BitVec 64)
    (h : sampleLoop false (BitVec.ofNat 64 bs + 1) ws = some (r, rest)) :
    sampleN false (BitVec.ofNat 64 (bs + 1)) ws = .ok r rest ∧ r.toNat ≤ bs := by
  have e : BitVec.ofNat 64 bs + 1 = BitVec.ofNat 64 (bs + 1) := by rw [BitVec.ofNat_add]; rfl
  have hN : (BitVec.ofNat 64 (bs + 1)).toNat = bs + 1 := by rw [BitVec.toNat_ofNat, Nat.mod_eq_of_lt hbs]
  rw [e] at h
  have hs : sampleN false (BitVec.ofNat 64 (bs + 1)) ws = .ok r rest := by
    unfold sampleN
    rw [if_neg (by intro h0; rw [h0] at hN; simp at hN), h]
    rfl
  refine ⟨hs, ?_⟩
  have := (C42_sampleN false _ ⟨by rw [hN]; omega, by rw [hN]; simp only [maxVal]; simp; omega⟩ ws rest r hs).1
  rw [hN] at this
  omega

/-- The result of the first `n` blocks. -/
theorem blocks_foldlM (bs : ℕ) (hbs : bs + 1 < 2 ^ 64) (out : ℕ → BitVec w) (words : List (BitVec 64)) (n : ℕ)
    (res : (ℕ → BitVec w) × List (BitVec 64)) (h : (List.range n).foldlM (blockStep bs) (out, words) = some res) :
    ∃ (offs : ℕ → BitVec 64) (ws : ℕ → List (BitVec 64)), ws 0 = words ∧ ws n = res.2 ∧
      (∀ k, k < n → sampleN false (BitVec.ofNat 64 (bs + 1)) (ws k) = .ok (offs k) (ws (k + 1)) ∧ (offs k).toNat ≤ bs ∧
        ∀ j, j < bs → res.1 (k * bs + j) = if j = (offs k).toNat then 1 else 0) ∧
      ∀ j, n * bs ≤ j → res.1 j = out j := by
  induction n generalizing res with
  | zero =>
    simp only [List.range_zero, List.foldlM_nil, Option.pure_def, Option.some.injEq] at h
    subst h
    exact ⟨fun _ => 0, fun _ => words, rfl, rfl, by simp, by simp⟩
  | succ n ih =>
    rw [List.range_succ, List.foldlM_append] at h
    simp only [List.foldlM_cons, List.foldlM_nil, bind_pure, Option.bind_eq_bind, Option.bind_eq_some_iff] at h
    obtain ⟨st, h1, h2⟩ := h
    obtain ⟨offs, ws, a1, a2, a3, a4⟩ := ih st h1
    unfold blockStep at h2
    simp only [Option.map_eq_some_iff] at h2
    obtain ⟨⟨r, rest⟩, h3, h4⟩ := h2
    obtain ⟨hs, hr⟩ := sampleN_block bs hbs _ _ _ h3
    have e : (n + 1) * bs = n * bs + bs := by ring
    have hres2 : res.2 = rest := by
      rw [← h4]; simp only; split <;> rfl
    have hres1 : ∀ j, res.1 j = if j = n * bs + r.toNat ∧ r.toNat ≠ bs then 1 else if n * bs ≤ j ∧ j < n * bs + bs then 0
        else st.1 j := by
      intro j
      rw [← h4]
      simp only
      by_cases hb : r.toNat = bs
      · rw [if_pos hb, if_neg (by omega)]
        exact fill_zero st.1 (n * bs) bs j
      · rw [if_neg hb]
        simp only [upd]
        by_cases hj : j = n * bs + r.toNat
        · rw [if_pos hj, if_pos ⟨hj, hb⟩]
        · rw [if_neg hj, if_neg (by omega)]
          exact fill_zero st.1 (n * bs) bs j
    refine ⟨fun k => if k < n then offs k else r, fun k => if k ≤ n then ws k else rest, by simp [a1], by simp [hres2], ?_, ?_⟩
    · intro k hk
      by_cases hkn : k < n
      · obtain ⟨b1, b2, b3⟩ := a3 k hkn
        simp only [if_pos hkn, if_pos (show k ≤ n by omega), if_pos (show k + 1 ≤ n by omega)]
        refine ⟨b1, b2, ?_⟩
        intro j hj
        have hm := Nat.mul_le_mul_right bs (Nat.succ_le_of_lt hkn)
        rw [Nat.succ_mul] at hm
        rw [hres1, if_neg (by omega), if_neg (by omega)]
        exact b3 j hj
      · have hk' : k = n := by omega
        subst hk'
        simp only [if_neg hkn, le_refl, if_true, if_neg (show ¬ k + 1 ≤ k by omega)]
        rw [a2]
        refine ⟨hs, hr, ?_⟩
        intro j hj
        rw [hres1]
        by_cases hjr : j = r.toNat
        · rw [if_pos (by omega), if_pos hjr]
        · rw [if_neg (by omega), if_pos (by omega), if_neg hjr]
    · intro j hj
      rw [hres1, if_neg (by omega), if_neg (by omega)]
      exact a4 j (by omega)

/-- **Blocks.**  When the call returns, block `k` is zero except for a one at position `offs k` if that is below the block size;
the `offs k` are successive results of `SampleN(blockSize + 1)`, so by `C42_unbiased` none of the `blockSize + 1` possible blocks
is preferred.  Elements after the slice are not written. -/
theorem C41_blocks (len bs : ℕ) (hbs : bs < 2 ^ 63) (out out' : ℕ → BitVec w) (words rest : List (BitVec 64))
    (h : sampleBlockVec len bs out words = .ok out' rest) :
    ∃ (offs : ℕ → BitVec 64) (ws : ℕ → List (BitVec 64)), ws 0 = words ∧ ws (len / bs) = rest ∧
      (∀ k, k < len / bs → sampleN false (BitVec.ofNat 64 (bs + 1)) (ws k) = .ok (offs k) (ws (k + 1)) ∧ (offs k).toNat ≤ bs ∧
        ∀ j, j < bs → out' (k * bs + j) = if j = (offs k).toNat then 1 else 0) ∧
      ∀ j, len ≤ j → out' j = out j := by
  unfold sampleBlockVec at h
  split at h
  · simp at h
  rename_i h0
  split at h
  · simp at h
  rename_i hm
  split at h
  · rename_i hl
    simp only [Outcome.ok.injEq] at h
    obtain ⟨rfl, rfl⟩ := h
    exact ⟨fun _ => 0, fun _ => words, rfl, rfl, by simp [hl], fun _ _ => rfl⟩
  split at h
  · simp at h
  rename_i hl hneg
  rw [Int.toNat_natCast] at h
  cases hf : (List.range (len / bs)).foldlM (blockStep bs) (out, words) with
  | none => rw [hf] at h; simp [Outcome.ofOption] at h
  | some res =>
    rw [hf] at h
    obtain ⟨offs, ws, a1, a2, a3, a4⟩ := blocks_foldlM bs (by omega) out words _ res hf
    simp only [Outcome.ofOption, Outcome.ok.injEq] at h
    obtain ⟨rfl, rfl⟩ := h
    refine ⟨offs, ws, a1, a2, a3, ?_⟩
    intro j hj
    have hdiv : len / bs * bs = len := by
      refine Nat.div_mul_cancel ?_
      rw [not_not] at hm
      exact Int.natCast_dvd_natCast.1 (Int.dvd_of_tmod_eq_zero hm)
    exact a4 j (by omega)

/-- **At most one 1 in every block.** -/
theorem C41_atMostOne (hw : 0 < w) (len bs : ℕ) (hbs : bs < 2 ^ 63) (out out' : ℕ → BitVec w) (words rest : List (BitVec 64))
    (h : sampleBlockVec len bs out words = .ok out' rest) :
    (∀ i, i < len → out' i = 0 ∨ out' i = 1) ∧
      ∀ k, k < len / bs → ∀ j j', j < bs → j' < bs → out' (k * bs + j) = 1 → out' (k * bs + j') = 1 → j = j' := by
  obtain ⟨offs, ws, -, -, a3, -⟩ := C41_blocks len bs hbs out out' words rest h
  have h10 : (1 : BitVec w) ≠ 0 := by
    intro h
    have := congrArg BitVec.toNat h
    simp [BitVec.toNat_ofNat] at this
    omega
  constructor
  · intro i hi
    by_cases h0 : bs = 0
    · subst h0; simp [sampleBlockVec] at h
    have hdv : bs ∣ len := by
      unfold sampleBlockVec at h
      rw [if_neg (by omega)] at h
      split at h
      · simp at h
      · rename_i hm
        rw [not_not] at hm
        exact Int.natCast_dvd_natCast.1 (Int.dvd_of_tmod_eq_zero hm)
    have hk : i / bs < len / bs := Nat.div_lt_div_of_lt_of_dvd hdv hi
    have hj := (a3 (i / bs) hk).2.2 (i % bs) (Nat.mod_lt _ (by omega))
    rw [mul_comm, Nat.div_add_mod] at hj
    rw [hj]
    split
    · exact Or.inr rfl
    · exact Or.inl rfl
  · intro k hk j j' hj hj' h1 h2
    have e := (a3 k hk).2.2
    rw [e j hj] at h1
    rw [e j' hj'] at h2
    by_cases c1 : j = (offs k).toNat
    · by_cases c2 : j' = (offs k).toNat
      · omega
      · rw [if_neg c2] at h2; exact absurd h2.symm h10
    · rw [if_neg c1] at h1; exact absurd h1.symm h10

/-- **The panic.**  For a positive block size it occurs exactly when the length is not a multiple of it, for every stream. -/
theorem C41_panic (len bs : ℕ) (h0 : 0 < bs) (out : ℕ → BitVec w) (words : List (BitVec 64)) :
    sampleBlockVec len bs out words = .panic ↔ ¬ bs ∣ len := by
  have e : (len : ℤ).tmod bs = 0 ↔ bs ∣ len := by
    rw [← Int.dvd_iff_tmod_eq_zero, Int.natCast_dvd_natCast]
  unfold sampleBlockVec
  rw [if_neg (by omega)]
  by_cases hd : bs ∣ len
  · rw [if_neg (by rw [not_not]; exact e.2 hd)]
    simp only [hd, not_true, iff_false]
    split
    · simp
    · rw [if_neg (by omega)]
      cases (List.range (len / (bs : ℤ).toNat)).foldlM (blockStep (bs : ℤ).toNat) (out, words) <;> simp [Outcome.ofOption]
  · rw [if_pos (by rw [Ne, e]; exact hd)]
    simp [hd]

/-- A block size that is not positive panics too, except for a negative one and an empty slice. -/
theorem C41_panic_nonpos (len : ℕ) (bs : ℤ) (h0 : bs ≤ 0) (out : ℕ → BitVec w) (words : List (BitVec 64)) :
    sampleBlockVec len bs out words = .panic ↔ bs = 0 ∨ len ≠ 0 := by
  unfold sampleBlockVec
  by_cases h : bs = 0
  · simp [h]
  · rw [if_neg h]
    simp only [h, false_or]
    by_cases hl : len = 0
    · subst hl; simp
    · split
      · simp [hl]
      · rw [if_pos (by omega)]; simp [hl]

/-! ### Key generation -/

theorem ok_sampleVec (off len : ℕ) (out out' : ℕ → BitVec w) (ws rest : List (BitVec 64))
    (h : Outcome.ofOption (sampleVec off len out ws) = .ok out' rest) :
    bitWords len ≤ ws.length ∧ rest = ws.drop (bitWords len) ∧
      (∀ i, i < len → out' (off + i) = kbit w ((ws.getD (i / 64) 0).getLsbD (i % 64))) ∧
      ∀ j, j < off → out' j = out j := by
  by_cases hl : bitWords len ≤ ws.length
  · obtain ⟨o, h1, h2, h3⟩ := C41_bits off len out ws hl
    rw [h1] at h
    simp only [Outcome.ofOption, Outcome.ok.injEq] at h
    obtain ⟨rfl, rfl⟩ := h
    exact ⟨hl, rfl, h2, fun j hj => h3 j (Or.inl hj)⟩
  · rw [sampleVec, bits_short off out ws len (by omega)] at h
    simp [Outcome.ofOption] at h

/-- **Secret keys.**  A key made by `GenSecretKey` consists of bits and has at most one 1 in every block of its LWE part: exactly what the bootstrapping
theorems ask of a key. -/
theorem C41_genSecretKey (hw : 0 < w) (bs bc dim : ℕ) (hbs : bs < 2 ^ 63) (h0 : 0 < bs) (hdim : bs * bc ≤ dim)
    (words rest : List (BitVec 64)) (key : ℕ → BitVec w) (h : genSecretKey (bs * bc) dim bs words = .ok key rest) :
    ∃ lk : ℕ → Bool, (∀ i, i < dim → key i = kbit w (lk i)) ∧ ∀ i, i < bc → AtMostOne lk (i * bs) bs := by
  have hvec : ∀ (off len : ℕ) (out out' : ℕ → BitVec w) (ws rest : List (BitVec 64)),
      Outcome.ofOption (sampleVec off len out ws) = .ok out' rest →
      (∃ b : ℕ → Bool, ∀ i, i < len → out' (off + i) = kbit w (b i)) ∧ ∀ j, j < off → out' j = out j := by
    intro off len out out' ws rest h
    obtain ⟨_, _, h2, h3⟩ := ok_sampleVec off len out out' ws rest h
    exact ⟨⟨_, h2⟩, h3⟩
  unfold genSecretKey at h
  by_cases h1 : (bs : ℤ) = 1
  · rw [if_pos h1] at h
    obtain ⟨⟨b, hb⟩, -⟩ := hvec _ _ _ _ _ _ h
    refine ⟨b, fun i hi => by simpa using hb i hi, ?_⟩
    intro i _ j j' hj hj' _ _
    omega
  · rw [if_neg h1] at h
    split at h
    · simp at h
    · simp at h
    · rename_i out rest' hout
      obtain ⟨⟨b, hb⟩, hpre⟩ := hvec _ _ _ _ _ _ h
      obtain ⟨c1, c2⟩ := C41_atMostOne hw _ _ hbs _ _ _ _ hout
      rw [Nat.mul_div_cancel_left bc h0] at c2
      refine ⟨fun i => if i < bs * bc then decide (out i = 1) else b (i - bs * bc), ?_, ?_⟩
      · intro i hi
        simp only
        by_cases hin : i < bs * bc
        · rw [if_pos hin, hpre i hin]
          rcases c1 i hin with e | e
          · rw [e]
            have h10 : ¬ (0 : BitVec w) = 1 := by
              intro h
              have := congrArg BitVec.toNat h
              simp [BitVec.toNat_ofNat] at this
              omega
            rw [decide_eq_false h10]; rfl
          · rw [e, decide_eq_true rfl]; rfl
        · rw [if_neg hin, ← hb (i - bs * bc) (by omega)]
          congr 1
          omega
      · intro i hi j j' hj hj' e1 e2
        have hm := Nat.mul_le_mul_right bs (Nat.succ_le_of_lt hi)
        rw [Nat.succ_mul, mul_comm bc] at hm
        simp only at e1 e2
        rw [if_pos (by omega), decide_eq_true_eq] at e1 e2
        exact c2 i hi j j' hj hj' e1 e2

/-- **Where the key comes from.**  For blocks of one element every element is a fresh bit of the stream.  Otherwise the first `n`
elements are the block sample, described by `C41_blocks`, and every later element is a fresh bit of the words after it. -/
theorem C41_genSecretKey_source (n dim : ℕ) (bs : ℤ) (words rest : List (BitVec 64)) (key : ℕ → BitVec w)
    (h : genSecretKey n dim bs words = .ok key rest) :
    (bs = 1 → rest = words.drop (bitWords dim) ∧
      ∀ i, i < dim → key i = kbit w ((words.getD (i / 64) 0).getLsbD (i % 64))) ∧
    (bs ≠ 1 → ∃ out mid, sampleBlockVec n bs (fun _ => 0) words = .ok out mid ∧ rest = mid.drop (bitWords (dim - n)) ∧
      (∀ i, i < n → key i = out i) ∧
      ∀ i, i < dim - n → key (n + i) = kbit w ((mid.getD (i / 64) 0).getLsbD (i % 64))) := by
  unfold genSecretKey at h
  constructor
  · intro h1
    rw [if_pos h1] at h
    obtain ⟨_, e, h2, _⟩ := ok_sampleVec _ _ _ _ _ _ h
    exact ⟨e, by simpa using h2⟩
  · intro h1
    rw [if_neg h1] at h
    split at h
    · simp at h
    · simp at h
    · rename_i out mid hout
      obtain ⟨_, e, h2, h3⟩ := ok_sampleVec _ _ _ _ _ _ h
      exact ⟨out, mid, hout, e, h3, h2⟩

/-- Two blocks of three: the first raw word is 6 (offset `6 mod 4 = 2`), the second 7 (offset 3: an empty block). -/
example : ∃ out, sampleBlockVec 6 3 (fun _ => (7 : BitVec 8)) [6, 7, 9] = .ok out [9] ∧
    (List.range 7).map out = [0, 0, 1, 0, 0, 0, 7] := ⟨_, rfl, by decide⟩

/-- A key with one block of two and two more bits. -/
example : ∃ key : ℕ → BitVec 8, genSecretKey (2 * 1) 4 2 [4, 2] = .ok key [] ∧
    (List.range 4).map key = [0, 1, 0, 1] := ⟨_, rfl, by decide⟩
end

end Tfhe
