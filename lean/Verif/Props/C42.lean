import Verif.Model.Sampler
import Mathlib.Data.Nat.Count
import Mathlib.Data.Finset.Card
import Mathlib.Algebra.Order.Group.Nat
import Mathlib.Algebra.BigOperators.Group.Finset.Basic
import Mathlib.Tactic.Ring
import Mathlib.Tactic.IntervalCases

/-!
# C42: bounded uniform sampling is in range and unbiased
-/
namespace Tfhe
open Rng

/-! ### Specification -/

/-- The largest value of a type of `w` bits. -/
def maxVal (w : ℕ) (signed : Bool) : ℕ := if signed then 2 ^ (w - 1) - 1 else 2 ^ w - 1

/-- `N` is a positive value of the type. -/
def PosVal {w : ℕ} (signed : Bool) (N : BitVec w) : Prop := 0 < N.toNat ∧ N.toNat ≤ maxVal w signed

theorem maxVal_lt {w : ℕ} (signed : Bool) : maxVal w signed < 2 ^ w := by
  have h1 := Nat.two_pow_pos w
  have h2 : 2 ^ (w - 1) ≤ 2 ^ w := Nat.pow_le_pow_right (by norm_num) (by omega)
  unfold maxVal
  split <;> omega

theorem maxT_toNat (w : ℕ) (signed : Bool) : (maxT w signed).toNat = maxVal w signed := by
  have h := maxVal_lt (w := w) signed
  unfold maxT maxVal at *
  cases signed <;> simp only [Bool.false_eq_true, if_true, if_false, BitVec.toNat_ofNat] at h ⊢ <;>
    exact Nat.mod_eq_of_lt h

theorem msb_of_maxVal {w : ℕ} (x : BitVec w) (h : x.toNat ≤ maxVal w true) : x.msb = false := by
  rw [BitVec.msb_eq_false_iff_two_mul_lt]
  simp only [maxVal, if_true] at h
  cases w with
  | zero => simp [BitVec.of_length_zero]
  | succ n => have := Nat.two_pow_pos n; rw [pow_succ]; simp only [Nat.add_sub_cancel] at h; omega

theorem rem_toNat {w : ℕ} (signed : Bool) (x N : BitVec w) (hx : x.toNat ≤ maxVal w signed) (hN : PosVal signed N) :
    (rem signed x N).toNat = x.toNat % N.toNat := by
  unfold rem
  cases signed
  · simp
  · simp only [if_true]
    rw [BitVec.srem_eq, msb_of_maxVal x hx, msb_of_maxVal N hN.2]
    simp

theorem bound_toNat {w : ℕ} (signed : Bool) (N : BitVec w) (hN : PosVal signed N) :
    (bound signed N).toNat = maxVal w signed / N.toNat * N.toNat := by
  have h := rem_toNat signed (maxT w signed) N (by rw [maxT_toNat]) hN
  rw [maxT_toNat] at h
  have hle : rem signed (maxT w signed) N ≤ maxT w signed := by
    rw [BitVec.le_def, h, maxT_toNat]; exact Nat.mod_le _ _
  unfold bound
  rw [BitVec.toNat_sub_of_le hle, h, maxT_toNat, Nat.div_mul_self_eq_mod_sub_self]

/-- **The words that are kept.**  They are exactly those below the largest multiple of `N` that fits. -/
theorem C42_accept {w : ℕ} (signed : Bool) (N x : BitVec w) (hN : PosVal signed N) :
    accept signed N x = true ↔ x.toNat < maxVal w signed / N.toNat * N.toNat := by
  have hb := bound_toNat signed N hN
  have hle : maxVal w signed / N.toNat * N.toNat ≤ maxVal w signed := Nat.div_mul_le_self _ _
  unfold accept
  cases signed
  · simp [hb]
  · have hbm := msb_of_maxVal (bound true N) (by rw [hb]; exact hle)
    have hbi : (bound true N).toInt = ((bound true N).toNat : ℤ) := by
      rw [BitVec.toInt_eq_msb_cond, hbm]; simp
    simp only [if_true, Bool.and_eq_true, BitVec.sle_eq_decide, BitVec.slt_eq_decide, decide_eq_true_eq, hbi, hb]
    have h0 : (0 : BitVec w).toInt = 0 := by simp
    rw [h0]
    constructor
    · rintro ⟨h1, h2⟩
      have hm : x.msb = false := by rw [BitVec.msb_eq_toInt]; simp; omega
      rw [BitVec.toInt_eq_msb_cond, hm] at h2
      simp at h2
      exact_mod_cast h2
    · intro h
      have hm := msb_of_maxVal x (by omega)
      rw [BitVec.toInt_eq_msb_cond, hm]
      simp
      exact_mod_cast h

/-- **Range and value.**  The result is the residue of the first word that is kept, it is below `N`, and exactly the words up
to it are read. -/
theorem C42_sampleN {w : ℕ} (signed : Bool) (N : BitVec w) (hN : PosVal signed N) (words rest : List (BitVec w))
    (r : BitVec w) (h : sampleN signed N words = .ok r rest) :
    r.toNat < N.toNat ∧ ∃ rejected x, words = rejected ++ x :: rest ∧ r.toNat = x.toNat % N.toNat ∧
      x.toNat < maxVal w signed / N.toNat * N.toNat ∧
      ∀ y ∈ rejected, maxVal w signed / N.toNat * N.toNat ≤ y.toNat := by
  have hN0 : N ≠ 0 := by
    intro h0; rw [h0] at hN; exact absurd hN.1 (by simp)
  have hle : maxVal w signed / N.toNat * N.toNat ≤ maxVal w signed := Nat.div_mul_le_self _ _
  unfold sampleN at h
  rw [if_neg hN0] at h
  induction words with
  | nil => simp [sampleLoop, Outcome.ofOption] at h
  | cons x xs ih =>
    unfold sampleLoop at h
    by_cases hx : accept signed N x = true
    · rw [if_pos hx] at h
      rw [C42_accept signed N x hN] at hx
      simp only [Outcome.ofOption, Outcome.ok.injEq] at h
      obtain ⟨rfl, rfl⟩ := h
      have hr := rem_toNat signed x N (by omega) hN
      exact ⟨hr ▸ Nat.mod_lt _ hN.1, [], x, rfl, hr, hx, by simp⟩
    · rw [if_neg hx] at h
      rw [C42_accept signed N x hN] at hx
      obtain ⟨h1, rej, y, h2, h3, h4, h5⟩ := ih h
      refine ⟨h1, x :: rej, y, by rw [h2]; rfl, h3, h4, ?_⟩
      intro z hz
      rcases List.mem_cons.1 hz with rfl | hz
      · omega
      · exact h5 z hz

/-- **Panics and termination.**  For a positive `N` there is no panic, and the call returns as soon as one of the words is
below the largest multiple of `N`. -/
theorem C42_returns {w : ℕ} (signed : Bool) (N : BitVec w) (hN : PosVal signed N) (words : List (BitVec w)) :
    (∃ r rest, sampleN signed N words = .ok r rest) ↔ ∃ x ∈ words, x.toNat < maxVal w signed / N.toNat * N.toNat := by
  constructor
  · rintro ⟨r, rest, h⟩
    obtain ⟨_, rej, x, h2, _, h4, _⟩ := C42_sampleN signed N hN words rest r h
    exact ⟨x, by simp [h2], h4⟩
  · rintro ⟨x, hx, h⟩
    have hN0 : N ≠ 0 := by
      intro h0; rw [h0] at hN; exact absurd hN.1 (by simp)
    unfold sampleN
    rw [if_neg hN0]
    induction words with
    | nil => simp at hx
    | cons y ys ih =>
      unfold sampleLoop
      by_cases hy : accept signed N y = true
      · rw [if_pos hy]; exact ⟨_, _, rfl⟩
      · rw [if_neg hy]
        rw [C42_accept signed N y hN] at hy
        refine ih ?_
        rcases List.mem_cons.1 hx with rfl | hx
        · exact absurd h hy
        · exact hx

/-- `SampleN` panics exactly for zero. -/
theorem C42_panic {w : ℕ} (signed : Bool) (N : BitVec w) (words : List (BitVec w)) :
    sampleN signed N words = .panic ↔ N = 0 := by
  unfold sampleN
  split
  · simp [*]
  · rename_i h
    simp only [h, iff_false]
    cases sampleLoop signed N words <;> simp [Outcome.ofOption]

theorem card_residue (q n r : ℕ) (hr : r < n) :
    ((Finset.range (q * n)).filter fun x => x % n = r).card = q := by
  have : ((Finset.range (q * n)).filter fun x => x % n = r) = (Finset.range q).image fun i => r + n * i := by
    ext x
    simp only [Finset.mem_filter, Finset.mem_range, Finset.mem_image]
    constructor
    · rintro ⟨h1, h2⟩
      exact ⟨x / n, Nat.div_lt_of_lt_mul (by rwa [mul_comm] at h1), by rw [← h2]; exact Nat.mod_add_div x n⟩
    · rintro ⟨i, hi, rfl⟩
      refine ⟨?_, by rw [Nat.add_mul_mod_self_left, Nat.mod_eq_of_lt hr]⟩
      have := Nat.mul_le_mul_left n (Nat.succ_le_of_lt hi)
      rw [Nat.mul_succ] at this
      rw [mul_comm q]
      omega
  rw [this, Finset.card_image_of_injective, Finset.card_range]
  intro a b h
  have : n * a = n * b := by simpa using h
  exact Nat.eq_of_mul_eq_mul_left (by omega) this

/-- **No bias.**  For every `r < N`, the number of raw words that are kept and give `r` is the same, `MaxT / N`; it is positive.
-/
theorem C42_unbiased {w : ℕ} (signed : Bool) (N : BitVec w) (hN : PosVal signed N) (r : ℕ) (hr : r < N.toNat) :
    ((Finset.range (2 ^ w)).filter fun x =>
        accept signed N (BitVec.ofNat w x) = true ∧ (rem signed (BitVec.ofNat w x) N).toNat = r).card
      = maxVal w signed / N.toNat ∧ 0 < maxVal w signed / N.toNat := by
  have hle : maxVal w signed / N.toNat * N.toNat ≤ maxVal w signed := Nat.div_mul_le_self _ _
  have hlt := maxVal_lt (w := w) signed
  refine ⟨?_, Nat.div_pos hN.2 hN.1⟩
  rw [← card_residue (maxVal w signed / N.toNat) N.toNat r hr]
  congr 1
  ext x
  simp only [Finset.mem_filter, Finset.mem_range]
  constructor
  · rintro ⟨hx, h1, h2⟩
    rw [C42_accept signed N _ hN, BitVec.toNat_ofNat, Nat.mod_eq_of_lt hx] at h1
    rw [rem_toNat signed _ N (by rw [BitVec.toNat_ofNat, Nat.mod_eq_of_lt hx]; omega) hN, BitVec.toNat_ofNat,
      Nat.mod_eq_of_lt hx] at h2
    exact ⟨h1, h2⟩
  · rintro ⟨h1, h2⟩
    have hx : x < 2 ^ w := by omega
    refine ⟨hx, ?_, ?_⟩
    · rw [C42_accept signed N _ hN, BitVec.toNat_ofNat, Nat.mod_eq_of_lt hx]; exact h1
    · rw [rem_toNat signed _ N (by rw [BitVec.toNat_ofNat, Nat.mod_eq_of_lt hx]; omega) hN, BitVec.toNat_ofNat,
        Nat.mod_eq_of_lt hx]
      exact h2

/-- Unsigned, 8 bits, `N = 10`: the words 250 to 255 are rejected, 37 gives 7. -/
example : PosVal false (10 : BitVec 8) ∧
    sampleN false (10 : BitVec 8) [253, 250, 37, 4] = .ok 7 [4] := by
  constructor
  · constructor <;> decide
  · rfl

/-- Signed, 8 bits, `N = 10`: negative words and 120 to 127 are rejected. -/
example : PosVal true (10 : BitVec 8) ∧
    sampleN true (10 : BitVec 8) [253, 121, 37, 4] = .ok 7 [4] := by
  constructor
  · constructor <;> decide
  · rfl

/-! ### The raw words -/

/-- Byte `j` of the stream that the sampler hands out: the exclusive or of the bytes of the key stream at the same position of
this and all earlier refills. -/
def outByte (ks : ℕ → BitVec 8) (j : ℕ) : BitVec 8 :=
  (List.range (j / 8192 + 1)).foldl (fun a k => a ^^^ ks (k * 8192 + j % 8192)) 0

/-- The little-endian word made of the given bytes. -/
def leWord (bytes : ℕ) (b : ℕ → BitVec 8) : ℕ := ∑ i ∈ Finset.range bytes, (b i).toNat * 256 ^ i

/-- What holds between two calls: after `j` bytes were handed out. -/
structure UInv (ks : ℕ → BitVec 8) (j : ℕ) (s : Uniform) : Prop where
  ptr : (j = 0 ∧ s.ptr = 8192 ∧ s.pos = 0 ∧ ∀ i, i < 8192 → s.buf i = 0) ∨
    (0 < j ∧ s.pos = ((j - 1) / 8192 + 1) * 8192 ∧ s.ptr = j - (j - 1) / 8192 * 8192 ∧
      ∀ i, i < 8192 → s.buf i = outByte ks ((j - 1) / 8192 * 8192 + i))

theorem outByte_succ (ks : ℕ → BitVec 8) (m i : ℕ) (hi : i < 8192) :
    outByte ks ((m + 1) * 8192 + i) = outByte ks (m * 8192 + i) ^^^ ks ((m + 1) * 8192 + i) := by
  have h1 : ((m + 1) * 8192 + i) / 8192 = m + 1 := by omega
  have h2 : ((m + 1) * 8192 + i) % 8192 = i := by omega
  have h3 : (m * 8192 + i) / 8192 = m := by clear h1 h2; omega
  have h4 : (m * 8192 + i) % 8192 = i := by clear h1 h2 h3; omega
  unfold outByte
  rw [h1, h2, h3, h4, List.range_succ, List.foldl_append]
  rfl

theorem outByte_back (ks : ℕ → BitVec 8) (j : ℕ) (hj : 8192 ≤ j) : outByte ks j = outByte ks (j - 8192) ^^^ ks j := by
  obtain ⟨m, i, hi, rfl⟩ : ∃ m i, i < 8192 ∧ j = (m + 1) * 8192 + i := ⟨j / 8192 - 1, j % 8192, by omega, by omega⟩
  have e : (m + 1) * 8192 + i - 8192 = m * 8192 + i := by omega
  rw [e]
  exact outByte_succ ks m i hi

theorem outByte_zero (ks : ℕ → BitVec 8) (i : ℕ) (hi : i < 8192) : outByte ks i = ks i := by
  have h1 : i / 8192 = 0 := by omega
  have h2 : i % 8192 = i := by omega
  unfold outByte
  rw [h1, h2]
  simp

/-- The state after the refill test, when `j` bytes were handed out and `j` is not in the middle of a value. -/
theorem refill_inv (ks : ℕ → BitVec 8) (j : ℕ) (s : Uniform) (h : UInv ks j s) :
    (s.refill ks).ptr = j % 8192 ∧ (s.refill ks).pos = (j / 8192 + 1) * 8192 ∧
      ∀ i, i < 8192 → (s.refill ks).buf i = outByte ks (j / 8192 * 8192 + i) := by
  unfold Uniform.refill bufSize
  rcases h.ptr with ⟨rfl, hp, hpos, hb⟩ | ⟨hj, hpos, hp, hb⟩
  · rw [if_pos hp]
    refine ⟨rfl, by simp [hpos], ?_⟩
    intro i hi
    simp only [hb i hi, hpos]
    rw [show 0 / 8192 * 8192 + i = i by omega, outByte_zero ks i hi]
    simp
  · by_cases he : s.ptr = 8192
    · rw [if_pos he]
      obtain ⟨m, hm⟩ : ∃ m, j = (m + 1) * 8192 := ⟨(j - 1) / 8192, by omega⟩
      have e1 : (j - 1) / 8192 = m := by omega
      have e2 : j / 8192 = m + 1 := by omega
      refine ⟨by show 0 = _; omega, ?_, ?_⟩
      · show s.pos + 8192 = _
        rw [hpos, e1, e2]; ring
      · intro i hi
        show s.buf i ^^^ ks (s.pos + i) = _
        rw [hb i hi, hpos, e1, e2, outByte_succ ks m i hi]
    · rw [if_neg he]
      have e1 : (j - 1) / 8192 = j / 8192 := by omega
      refine ⟨by omega, by rw [hpos, e1], ?_⟩
      intro i hi
      rw [hb i hi, e1]

theorem orWord_toNat (b : ℕ → BitVec 8) (n : ℕ) (hn : n ≤ 8) :
    ((List.range n).foldl (fun (r : BitVec 64) i => r ||| (b i).setWidth 64 <<< (8 * i)) 0).toNat = leWord n b ∧
      leWord n b < 256 ^ n := by
  induction n with
  | zero => simp [leWord]
  | succ n ih =>
    obtain ⟨h1, h2⟩ := ih (by omega)
    have hb := (b n).isLt
    have hlt : leWord (n + 1) b < 256 ^ (n + 1) := by
      unfold leWord at h2 ⊢
      rw [Finset.sum_range_succ, pow_succ]
      have := Nat.mul_le_mul_right (256 ^ n) (show (b n).toNat ≤ 255 by omega)
      omega
    refine ⟨?_, hlt⟩
    rw [List.range_succ, List.foldl_append]
    simp only [List.foldl_cons, List.foldl_nil, BitVec.toNat_or, h1, BitVec.toNat_shiftLeft, BitVec.toNat_setWidth]
    have h256 : (256 : ℕ) ^ n = 2 ^ (8 * n) := by rw [pow_mul]; norm_num
    have h3 : (b n).toNat * 256 ^ n < 2 ^ 64 := by
      have h4 : leWord (n + 1) b = leWord n b + (b n).toNat * 256 ^ n := by
        unfold leWord; rw [Finset.sum_range_succ]
      have h5 : (256 : ℕ) ^ (n + 1) ≤ 2 ^ 64 := by
        rw [show (256 : ℕ) = 2 ^ 8 by norm_num, ← pow_mul]
        exact Nat.pow_le_pow_right (by norm_num) (by omega)
      omega
    rw [Nat.mod_eq_of_lt (show (b n).toNat < 2 ^ 64 by omega), Nat.shiftLeft_eq, ← h256, Nat.mod_eq_of_lt h3, Nat.or_comm,
      h256, mul_comm, ← Nat.two_pow_add_eq_or_of_lt (by rw [← h256]; exact h2)]
    unfold leWord
    rw [Finset.sum_range_succ, h256]
    ring

/-- **A raw word.**  For a type of 1, 2, 4 or 8 bytes there is no panic, and the value is the little-endian word of the next
bytes of the stream. -/
theorem sample_inv (ks : ℕ → BitVec 8) (bytes : ℕ) (hb0 : 0 < bytes) (hb8 : bytes ≤ 8) (hd : bytes ∣ 8192) (j : ℕ) (s : Uniform)
    (h : UInv ks (j * bytes) s) :
    ∃ x s', s.sample ks bytes = some (x, s') ∧ UInv ks ((j + 1) * bytes) s' ∧
      x.toNat = leWord bytes fun i => outByte ks (j * bytes + i) := by
  obtain ⟨h1, h2, h3⟩ := refill_inv ks _ s h
  obtain ⟨c, hc⟩ := hd
  have hfit : (j * bytes) % 8192 + bytes ≤ 8192 := by
    have e : (j * bytes) % 8192 = bytes * (j % c) := by
      rw [hc, mul_comm j, Nat.mul_mod_mul_left]
    have hc0 : 0 < c := by
      rcases Nat.eq_zero_or_pos c with rfl | h
      · simp at hc
      · exact h
    have := Nat.mul_le_mul_left bytes (Nat.succ_le_of_lt (Nat.mod_lt j hc0))
    rw [Nat.mul_succ, ← hc] at this
    omega
  have hval := orWord_toNat (fun i => (s.refill ks).buf ((s.refill ks).ptr + i)) bytes hb8
  have hs : s.sample ks bytes = some
      (((List.range bytes).foldl (fun (r : BitVec 64) i =>
          r ||| ((s.refill ks).buf ((s.refill ks).ptr + i)).setWidth 64 <<< (8 * i)) 0).setWidth _,
        { s.refill ks with ptr := (s.refill ks).ptr + bytes }) := by
    unfold Uniform.sample bufSize
    exact if_pos (by rw [h1]; exact hfit)
  refine ⟨_, _, hs, ?_, ?_⟩
  · constructor
    right
    have e0 : (j + 1) * bytes = j * bytes + bytes := by ring
    have e1 : ((j + 1) * bytes - 1) / 8192 = j * bytes / 8192 := by omega
    refine ⟨by omega, ?_, ?_, ?_⟩
    · show (s.refill ks).pos = _
      rw [h2, e1]
    · show (s.refill ks).ptr + bytes = _
      rw [h1, e1]; omega
    · intro i hi
      show (s.refill ks).buf i = _
      rw [h3 i hi, e1]
  · rw [BitVec.toNat_setWidth, hval.1, Nat.mod_eq_of_lt]
    · unfold leWord
      refine Finset.sum_congr rfl fun i hi => ?_
      have hi := Finset.mem_range.1 hi
      show ((s.refill ks).buf ((s.refill ks).ptr + i)).toNat * _ = (outByte ks (j * bytes + i)).toNat * _
      rw [h1, h3 _ (by clear hval hs; omega)]
      congr 3
      omega
    · rw [pow_mul]
      exact hval.2

theorem uInv_new (ks : ℕ → BitVec 8) : UInv ks 0 Uniform.new := ⟨Or.inl ⟨rfl, rfl, rfl, fun _ _ => rfl⟩⟩

theorem sampleVec_inv (ks : ℕ → BitVec 8) (bytes : ℕ) (hb0 : 0 < bytes) (hb8 : bytes ≤ 8) (hd : bytes ∣ 8192) (n : ℕ) :
    ∀ (j : ℕ) (s : Uniform), UInv ks (j * bytes) s → ∃ l s', s.sampleVec ks bytes n = some (l, s') ∧ l.length = n ∧
      ∀ i (hi : i < l.length), l[i].toNat = leWord bytes fun t => outByte ks ((j + i) * bytes + t) := by
  induction n with
  | zero => intro j s h; exact ⟨[], s, rfl, rfl, by simp⟩
  | succ n ih =>
    intro j s h
    obtain ⟨x, s1, h1, h2, h3⟩ := sample_inv ks bytes hb0 hb8 hd j s h
    obtain ⟨l, s2, h4, h5, h6⟩ := ih (j + 1) s1 h2
    refine ⟨x :: l, s2, ?_, by simp [h5], ?_⟩
    · simp [Uniform.sampleVec, h1, h4]
    · intro i hi
      cases i with
      | zero => simpa using h3
      | succ i =>
        simp only [List.getElem_cons_succ]
        rw [h6 i (by simpa using hi), show j + (i + 1) = j + 1 + i by ring]

/-- **Raw words.**  A new sampler for a type of 1, 2, 4 or 8 bytes never panics; value `i` is made of the bytes
`i * bytes, …` of the stream `outByte`. -/
theorem C42_words (ks : ℕ → BitVec 8) (bytes : ℕ) (hb : bytes = 1 ∨ bytes = 2 ∨ bytes = 4 ∨ bytes = 8) (n : ℕ) :
    ∃ l s', Uniform.new.sampleVec ks bytes n = some (l, s') ∧ l.length = n ∧
      ∀ i (hi : i < l.length), l[i].toNat = leWord bytes fun t => outByte ks (i * bytes + t) := by
  obtain ⟨l, s', h1, h2, h3⟩ := sampleVec_inv ks bytes (by omega) (by omega)
    (by rcases hb with rfl | rfl | rfl | rfl <;> decide) n 0 Uniform.new (by simpa using uInv_new ks)
  exact ⟨l, s', h1, h2, by simpa using h3⟩

/-- **The stream is as good as the key stream.**  Re-using the buffer as the input of the cipher loses nothing: for every stream
of bytes there is exactly one key stream for which the sampler hands it out. -/
theorem C42_stream : Function.Bijective outByte := by
  constructor
  · intro a b h
    funext j
    by_cases hj : 8192 ≤ j
    · have h1 := outByte_back a j hj
      rw [h, outByte_back b j hj] at h1
      have h2 := congrArg (fun x => outByte b (j - 8192) ^^^ x) h1
      simpa [← BitVec.xor_assoc] using h2.symm
    · have h1 := congrFun h j
      rwa [outByte_zero a j (by omega), outByte_zero b j (by omega)] at h1
  · intro o
    refine ⟨fun j => if 8192 ≤ j then o j ^^^ o (j - 8192) else o j, ?_⟩
    funext j
    induction j using Nat.strong_induction_on with
    | _ j ih =>
      by_cases hj : 8192 ≤ j
      · rw [outByte_back _ j hj, ih (j - 8192) (by omega), if_pos hj, BitVec.xor_comm (o j), ← BitVec.xor_assoc]
        simp
      · rw [outByte_zero _ j (by omega), if_neg hj]

/-- The first bytes of the stream depend only on the first bytes of the key stream, so the bijection also holds for prefixes. -/
theorem C42_prefix (a b : ℕ → BitVec 8) (n : ℕ) :
    (∀ j, j < n → outByte a j = outByte b j) ↔ ∀ j, j < n → a j = b j := by
  constructor
  · intro h j hj
    by_cases h8 : 8192 ≤ j
    · have h1 := h j hj
      rw [outByte_back a j h8, outByte_back b j h8, h (j - 8192) (by omega)] at h1
      have h2 := congrArg (fun x => outByte b (j - 8192) ^^^ x) h1
      simpa [← BitVec.xor_assoc] using h2
    · have h1 := h j hj
      rwa [outByte_zero a j (by omega), outByte_zero b j (by omega)] at h1
  · intro h j
    induction j using Nat.strong_induction_on with
    | _ j ih =>
      intro hj
      by_cases h8 : 8192 ≤ j
      · rw [outByte_back a j h8, outByte_back b j h8, ih (j - 8192) (by omega) (by omega), h j hj]
      · rw [outByte_zero a j (by omega), outByte_zero b j (by omega), h j hj]

/-- A 32-bit sampler on the key stream `1, 2, 3, …`. -/
example : ∃ s, Uniform.new.sampleVec (fun i => BitVec.ofNat 8 (i + 1)) 4 2 = some ([0x04030201, 0x08070605], s) :=
  ⟨_, rfl⟩

end Tfhe
