import Verif.Model.Encoder
import Verif.Lemma.Float
import Mathlib.Data.List.OfFn

/-!
# C03: encoding and decoding with noise;  C04: encoding of any integer
-/
namespace Tfhe

/-- `DivRound` returns `m` when `x/y` is within `1/2` of `m` with the margin needed for rounding. -/
theorem divRound_eq (w x y m : ℕ) (hx : x < 2 ^ w) (hy : 0 < y) (hm : m < 2 ^ w)
    (h : |(x : ℚ) - m * y| + 2 ^ w / 2 ^ 51 < y / 2) : divRound w x y = some m := by
  have hy' : (0:ℚ) < y := by exact_mod_cast hy
  have hx' : (0:ℚ) ≤ x := by positivity
  have err := fl_div_err hx' hy'
  have hb : (x : ℚ) / y / 2 ^ 51 ≤ 2 ^ w / 2 ^ 51 / y := by
    rw [div_right_comm]
    apply div_le_div_of_nonneg_right _ hy'.le
    apply div_le_div_of_nonneg_right _ (by positivity)
    exact_mod_cast hx.le
  have h2 : |(x : ℚ) / y - m| + 2 ^ w / 2 ^ 51 / y < 1 / 2 := by
    have e : (x : ℚ) / y - m = (x - m * y) / y := by field_simp
    rw [e, abs_div, abs_of_pos hy', ← add_div, div_lt_iff₀ hy']
    linarith
  have e0 : 0 ≤ fl (fl (x : ℚ) / fl y) :=
    fl_nonneg (div_nonneg (fl_nonneg hx') (fl_nonneg hy'.le))
  unfold divRound
  rw [if_neg (by omega)]
  generalize fl (fl (x : ℚ) / fl y) = r at *
  rw [abs_le] at err
  have h3 := abs_lt.1 (show |(x : ℚ) / y - m| < 1 / 2 - 2 ^ w / 2 ^ 51 / y by linarith)
  have hr : goRound (r) = (m : ℤ) := by
    apply goRound_eq e0
    · push_cast; linarith
    · push_cast; linarith
  rw [hr, toUint, if_pos ⟨by omega, by exact_mod_cast hm⟩]
  simp

/-- The word `a + e` for an integer `e`, when the sum is in `[0, 2^w)` as an integer, or `2^w` too
small. -/
theorem toNat_add_ofInt {w : ℕ} (a : BitVec w) (e : ℤ) :
    ((a + BitVec.ofInt w e).toNat : ℤ) = ((a.toNat : ℤ) + e) % 2 ^ w := by
  rw [BitVec.toNat_add, BitVec.toNat_ofInt]
  push_cast
  rw [Int.toNat_of_nonneg (Int.emod_nonneg _ (by positivity)), Int.add_emod, Int.emod_emod_of_dvd _ dvd_rfl,
    ← Int.add_emod]

/-- Core of the decoding theorem, on integers: `m < p`, `2^w = c p s + δ`. -/
theorem decode_core (w p s m c : ℕ) (e : ℤ) (hc : 0 < c) (hmp : m < p) (x : ℕ)
    (hx : (x : ℤ) = ((m : ℤ) * s + e) % 2 ^ w)
    (h : |(e : ℚ)| + |(2 : ℚ) ^ w - c * p * s| + 2 ^ w / 2 ^ 51 < s / 2) :
    ∃ d, divRound w x s = some d ∧ d % p = m ∧ p ≤ 2 ^ 50 := by
  have hwpos : (0:ℚ) < 2 ^ w / 2 ^ 51 := by positivity
  have ha1 := abs_nonneg (e : ℚ)
  have ha2 := abs_nonneg ((2 : ℚ) ^ w - c * p * s)
  have hs : (0:ℚ) < s := by linarith
  have hs' : 0 < s := by exact_mod_cast hs
  have hp0 : 0 < p := by omega
  -- integer form of the hypotheses
  have hD : |(2 : ℤ) ^ w - c * p * s| * 2 + |e| * 2 < s := by
    have : ((|(2 : ℤ) ^ w - c * p * s| * 2 + |e| * 2 : ℤ) : ℚ) < s := by
      push_cast; linarith
    exact_mod_cast this
  have hcp : (p : ℤ) * s ≤ c * p * s := by
    have : (1:ℤ) ≤ c := by omega
    have h0 : (0:ℤ) ≤ p * s := by positivity
    nlinarith
  have hms : (m : ℤ) * s + s ≤ p * s := by
    have : (m : ℤ) + 1 ≤ p := by omega
    nlinarith
  have hms0 : (0 : ℤ) ≤ m * s := by positivity
  have hDa := abs_le.1 (le_refl |(2 : ℤ) ^ w - c * p * s|)
  have hea := abs_le.1 (le_refl |e|)
  have hD0 := abs_nonneg ((2 : ℤ) ^ w - c * p * s)
  have he0 := abs_nonneg e
  have hpb : p ≤ 2 ^ 50 := by
    by_contra hcon
    have h1 : (2:ℚ) ^ 50 + 1 ≤ p := by exact_mod_cast (by omega : 2 ^ 50 + 1 ≤ p)
    have hcpq : (p : ℚ) * s ≤ c * p * s := by exact_mod_cast hcp
    have h3 := (abs_le.1 (le_refl |(2 : ℚ) ^ w - c * p * s|)).1
    have h4 : (2:ℚ) ^ w < 2 ^ 50 * s := by
      have : (2:ℚ) ^ w / 2 ^ 51 < s / 2 := by linarith
      rw [div_lt_iff₀ (by positivity)] at this
      linarith
    nlinarith
  have hxw : x < 2 ^ w := by
    have : (x : ℤ) < 2 ^ w := by rw [hx]; exact Int.emod_lt_of_pos _ (by positivity)
    exact_mod_cast this
  have hpow : (0:ℤ) < 2 ^ w := by positivity
  by_cases hz : 0 ≤ (m : ℤ) * s + e
  · have hxe : (x : ℤ) = m * s + e := by
      rw [hx]; apply Int.emod_eq_of_lt hz; linarith [hDa.1, hDa.2]
    refine ⟨m, divRound_eq w x s m hxw hs' ?_ ?_, Nat.mod_eq_of_lt hmp, hpb⟩
    · have h1 : (1:ℤ) ≤ s := by omega
      have : (m : ℤ) < 2 ^ w := by
        have : (m : ℤ) ≤ m * s := by nlinarith [show (0:ℤ) ≤ m by positivity]
        by_cases hm0 : m = 0
        · rw [hm0]; exact_mod_cast hpow
        · have : (m:ℤ) * s ≤ p * s - s := by linarith
          linarith [hDa.1, hDa.2]
      exact_mod_cast this
    · have : (x : ℚ) - m * s = e := by
        have : (x : ℚ) = m * s + e := by exact_mod_cast hxe
        linarith
      rw [this]; linarith
  · have hm0 : m = 0 := by
      by_contra hne
      have : (1:ℤ) ≤ m := by omega
      have : (s:ℤ) ≤ m * s := by nlinarith
      linarith [hea.1]
    subst hm0
    have hxe : (x : ℤ) = 2 ^ w + e := by
      rw [hx]
      simp only [Nat.cast_zero, zero_mul, zero_add] at hz ⊢
      rw [← Int.add_emod_right, Int.emod_eq_of_lt]
      · ring
      · linarith [hea.1, hDa.1, hDa.2]
      · linarith
    have hcpw : c * p < 2 ^ w := by
      have he1 : (1:ℤ) ≤ |e| := by
        simp only [Nat.cast_zero, zero_mul, zero_add] at hz
        rw [abs_of_neg (by omega)]; omega
      have hs3 : (3:ℤ) ≤ s := by linarith
      have h0 : (0:ℤ) ≤ c * p := by positivity
      have h1 : (1:ℤ) ≤ c * p := by
        have : 0 < c * p := Nat.mul_pos hc hp0
        exact_mod_cast this
      have : ((c * p : ℕ) : ℤ) < 2 ^ w := by
        push_cast
        nlinarith [hDa.1, hDa.2]
      exact_mod_cast this
    refine ⟨c * p, divRound_eq w x s (c * p) hxw hs' hcpw ?_, by simp, hpb⟩
    have : (x : ℚ) = 2 ^ w + e := by exact_mod_cast hxe
    rw [this]
    push_cast
    have : |(2:ℚ) ^ w + e - c * p * s| ≤ |(e:ℚ)| + |(2 : ℚ) ^ w - c * p * s| := by
      rw [show (2:ℚ) ^ w + e - c * p * s = e + (2 ^ w - c * p * s) by ring]
      exact abs_add_le _ _
    linarith

/-- What the encoder represents: the message converted to `T`, reduced modulo the modulus. -/
theorem toNat_encode_reduce {w : ℕ} (message : BitVec 64) (modulus : BitVec w) (hp : modulus ≠ 0) :
    (if modulus ≠ 0 then message.setWidth w % modulus else message.setWidth w).toNat =
      (message.setWidth w).toNat % modulus.toNat := by
  rw [if_pos hp, BitVec.toNat_umod]

/-- **C03.** Encode, add any noise `e`, decode.  `c` is the number of copies of the message space in the
torus: 2 for the default scale (one padding bit), 1 for a scale close to `Q / p`.  The result is
the encoded message for every noise with
`|e| + |Q - c p s| + Q/2^51 < s/2`; the middle term vanishes when the scale is exact, the last
one is the cost of the float64 division (less than 1 for 32-bit words, 2^13 for 64-bit words). -/
theorem C03_encode_decode {w : ℕ} (message : BitVec 64) (p s : BitVec w) (hp : p ≠ 0) (c : ℕ)
    (hc : 0 < c) (e : ℤ)
    (h : |(e : ℚ)| + |(2 : ℚ) ^ w - c * p.toNat * s.toNat| + 2 ^ w / 2 ^ 51 < (s.toNat : ℚ) / 2) :
    decodeLWECustom (encodeLWECustom message p s + BitVec.ofInt w e) p s =
      some (((message.setWidth w).toNat % p.toNat : ℕ) : ℤ) := by
  have hp0 : 0 < p.toNat := by
    rcases Nat.eq_zero_or_pos p.toNat with h0 | h0
    · exact absurd (BitVec.eq_of_toNat_eq (by simpa using h0)) hp
    · exact h0
  have hmp := Nat.mod_lt (message.setWidth w).toNat hp0
  have hx : ((encodeLWECustom message p s + BitVec.ofInt w e).toNat : ℤ) =
      ((((message.setWidth w).toNat % p.toNat : ℕ) : ℤ) * s.toNat + e) % 2 ^ w := by
    rw [toNat_add_ofInt]
    unfold encodeLWECustom
    simp only
    rw [BitVec.toNat_mul, toNat_encode_reduce _ _ hp]
    push_cast
    rw [Int.emod_add_emod]
  generalize (message.setWidth w).toNat % p.toNat = m at *
  obtain ⟨d, h1, h2, h3⟩ := decode_core w p.toNat s.toNat m c e hc hmp _ hx h
  unfold decodeLWECustom
  rw [h1]
  simp only [Option.bind_some]
  rw [if_neg hp, Option.bind_some, if_neg (by omega), h2]
  congr 1
  rw [BitVec.toInt_eq_toNat_of_lt]
  · rw [BitVec.toNat_ofNat, Nat.mod_eq_of_lt (by omega)]
  · rw [BitVec.toNat_ofNat, Nat.mod_eq_of_lt (by omega)]; omega

/-- The scale computed at parameter compilation is `Q / 2p` up to `1/2` and the float error, so the
default encoding has `|Q - 2 p s| ≤ p + Q/2^51`. -/
theorem C03_compileScale (w p : ℕ) (hw : 1 ≤ w) (hp : 0 < p) (s : ℕ) (hs : compileScale w p = some s) :
    |(2 : ℚ) ^ w - (2:ℕ) * p * s| ≤ p + 2 ^ w / 2 ^ 51 := by
  unfold compileScale divRound at hs
  rw [if_neg (by omega)] at hs
  have hp' : (0:ℚ) < p := by exact_mod_cast hp
  have hx' : (0:ℚ) ≤ ((2 ^ (w - 1) : ℕ) : ℚ) := by positivity
  have err := fl_div_err hx' hp'
  have e0 : 0 ≤ fl (fl ((2 ^ (w - 1) : ℕ) : ℚ) / fl p) :=
    fl_nonneg (div_nonneg (fl_nonneg hx') (fl_nonneg hp'.le))
  generalize fl (fl ((2 ^ (w - 1) : ℕ) : ℚ) / fl p) = r at *
  have hr : (s : ℤ) = goRound r := by
    unfold toUint at hs
    split at hs
    · rename_i hc
      have := Option.some.inj hs
      omega
    · simp at hs
  unfold goRound at hr
  rw [if_pos e0] at hr
  have g1 := Int.floor_le (r + 1 / 2)
  have g2 := Int.lt_floor_add_one (r + 1 / 2)
  rw [← hr] at g1 g2
  push_cast at g1 g2
  have hpow : ((2 ^ (w - 1) : ℕ) : ℚ) = 2 ^ w / 2 := by
    push_cast
    conv_rhs => rw [show w = w - 1 + 1 by omega, pow_succ]
    ring
  rw [hpow, abs_le] at err
  obtain ⟨e1, e2⟩ := err
  have k1 : (2:ℚ) ^ w / 2 / p * p = 2 ^ w / 2 := by field_simp
  have k2 : (2:ℚ) ^ w / 2 / p / 2 ^ 51 * p = 2 ^ w / 2 / 2 ^ 51 := by field_simp
  have f1 := mul_le_mul_of_nonneg_right e1 hp'.le
  have f2 := mul_le_mul_of_nonneg_right e2 hp'.le
  have f3 := mul_le_mul_of_nonneg_right g1 hp'.le
  have f4 := mul_le_mul_of_nonneg_right g2.le hp'.le
  rw [abs_le]
  push_cast
  constructor <;> nlinarith

/-- **C03 for the parameters' own encoding**: any modulus `p` with the scale computed by `Compile`,
any noise with `|e| + p + Q/2^50 < s/2`. -/
theorem C03_default {w : ℕ} (hw1 : 1 ≤ w) (message : BitVec 64) (p s : BitVec w) (hp : p ≠ 0)
    (hs : compileScale w p.toNat = some s.toNat) (e : ℤ)
    (h : |(e : ℚ)| + p.toNat + 2 ^ w / 2 ^ 50 < (s.toNat : ℚ) / 2) :
    decodeLWECustom (encodeLWECustom message p s + BitVec.ofInt w e) p s =
      some (((message.setWidth w).toNat % p.toNat : ℕ) : ℤ) := by
  have hp0 : 0 < p.toNat := by
    rcases Nat.eq_zero_or_pos p.toNat with h0 | h0
    · exact absurd (BitVec.eq_of_toNat_eq (by simpa using h0)) hp
    · exact h0
  have := C03_compileScale w p.toNat hw1 hp0 s.toNat hs
  apply C03_encode_decode message p s hp 2 (by norm_num) e
  have e1 : (2:ℚ) ^ w / 2 ^ 50 = 2 ^ w / 2 ^ 51 + 2 ^ w / 2 ^ 51 := by ring
  linarith

/-- Decoding with modulus 0 uses `round(Q / scale)`: it is decoding with the modulus `P` whenever
`P * scale` is within the margin of `Q`. -/
theorem C03_modulus_zero {w : ℕ} (pt s : BitVec w) (P : ℕ) (hP0 : 0 < P) (hP : P < 2 ^ w)
    (h : |(2 : ℚ) ^ w - P * s.toNat| + 2 ^ w / 2 ^ 51 < (s.toNat : ℚ) / 2) :
    decodeLWECustom pt 0 s = decodeLWECustom pt (BitVec.ofNat w P) s := by
  have ha := abs_nonneg ((2 : ℚ) ^ w - P * s.toNat)
  have hwpos : (0:ℚ) < 2 ^ w / 2 ^ 51 := by positivity
  have hs : (0:ℚ) < s.toNat := by linarith
  have hs' : 0 < s.toNat := by exact_mod_cast hs
  have hauto : autoModulus w s.toNat = some P := by
    have hw' : fl ((2:ℚ) ^ w) = 2 ^ w := by
      have := fl_two_zpow (w : ℤ)
      simpa using this
    have err := fl_div_err (x := (2:ℚ) ^ w) (by positivity) hs
    rw [hw'] at err
    unfold autoModulus
    rw [if_neg (by omega)]
    have e0 : 0 ≤ fl ((2:ℚ) ^ w / fl s.toNat) := fl_nonneg (div_nonneg (by positivity) (fl_nonneg hs.le))
    generalize fl ((2:ℚ) ^ w / fl s.toNat) = r at *
    rw [abs_le] at err
    have h2 : |(2:ℚ) ^ w / s.toNat - P| + 2 ^ w / s.toNat / 2 ^ 51 < 1 / 2 := by
      have e : (2:ℚ) ^ w / s.toNat - P = (2 ^ w - P * s.toNat) / s.toNat := by field_simp
      rw [e, abs_div, abs_of_pos hs, div_right_comm, ← add_div, div_lt_iff₀ hs]
      linarith
    have h3 := abs_lt.1 (show |(2:ℚ) ^ w / s.toNat - P| < 1 / 2 - 2 ^ w / s.toNat / 2 ^ 51 by linarith)
    have hr : goRound r = (P : ℤ) := by
      apply goRound_eq e0
      · push_cast; linarith
      · push_cast; linarith
    rw [hr, toUint, if_pos ⟨by omega, by exact_mod_cast hP⟩]
    simp
  have hne : BitVec.ofNat w P ≠ 0 := by
    intro hz
    have := congrArg BitVec.toNat hz
    simp [Nat.mod_eq_of_lt hP] at this
    omega
  unfold decodeLWECustom
  rw [if_pos rfl, if_neg hne, hauto, BitVec.toNat_ofNat, Nat.mod_eq_of_lt hP]

/-- On 32-bit words with an exact scale the float division costs nothing: every noise strictly inside
half a scale is decoded. -/
theorem C03_exact32 (message : BitVec 64) (k : ℕ) (hk1 : 1 ≤ k) (hk : k ≤ 31) (e : ℤ)
    (he : |e| < 2 ^ (k - 1)) :
    decodeLWECustom (encodeLWECustom message (BitVec.ofNat 32 (2 ^ (31 - k))) (BitVec.ofNat 32 (2 ^ k)) +
        BitVec.ofInt 32 e) (BitVec.ofNat 32 (2 ^ (31 - k))) (BitVec.ofNat 32 (2 ^ k)) =
      some (((message.setWidth 32).toNat % 2 ^ (31 - k) : ℕ) : ℤ) := by
  have hlt : ∀ j, j ≤ 31 → (BitVec.ofNat 32 (2 ^ j)).toNat = 2 ^ j := by
    intro j hj
    rw [BitVec.toNat_ofNat, Nat.mod_eq_of_lt]
    exact Nat.pow_lt_pow_right (by norm_num) (by omega)
  have hne : BitVec.ofNat 32 (2 ^ (31 - k)) ≠ 0 := by
    intro hz
    have := congrArg BitVec.toNat hz
    rw [hlt _ (by omega)] at this
    have : 0 < 2 ^ (31 - k) := by positivity
    simp at *
  have := C03_encode_decode (w := 32) message _ (BitVec.ofNat 32 (2 ^ k)) hne 2 (by norm_num) e
    (by
      rw [hlt _ (by omega), hlt _ hk]
      have e1 : (2:ℚ) ^ 32 - (2:ℕ) * ((2 ^ (31 - k) : ℕ) : ℚ) * ((2 ^ k : ℕ) : ℚ) = 0 := by
        push_cast
        rw [mul_assoc, ← pow_add, show 31 - k + k = 31 by omega]; norm_num
      rw [e1, abs_zero]
      have e2 : ((2 ^ k : ℕ) : ℚ) / 2 = 2 ^ (k - 1) := by
        push_cast
        conv_lhs => rw [show k = k - 1 + 1 by omega, pow_succ]
        simp
      rw [e2]
      have : |e| + 1 ≤ 2 ^ (k - 1) := by omega
      have : (|(e : ℚ)|) + 1 ≤ 2 ^ (k - 1) := by exact_mod_cast this
      have : (2:ℚ) ^ 32 / 2 ^ 51 < 1 := by norm_num
      linarith)
  rw [hlt _ (by omega)] at this
  exact this

/-- On 64-bit words "strictly inside half a scale" is not enough: modulus 4, scale 2^61, message 3,
noise `2^60 - 1`; float64 rounds the plaintext up to the boundary and the message decodes to 0. -/
theorem C03_half_scale_false :
    ∃ (message : BitVec 64) (p s : BitVec 64) (e : ℤ), compileScale 64 p.toNat = some s.toNat ∧
      2 * |e| < s.toNat ∧
      decodeLWECustom (encodeLWECustom message p s + BitVec.ofInt 64 e) p s = some 0 ∧
      (message.setWidth 64).toNat % p.toNat = 3 :=
  ⟨3, 4, 2 ^ 61, 2 ^ 60 - 1, by decide +kernel, by decide +kernel, by decide +kernel, by decide +kernel⟩

/-! ### GLWE encoding -/

theorem mapM_some {α β : Type} (f : α → Option β) (l : List α) (g : α → β) (h : ∀ a ∈ l, f a = some (g a)) :
    l.mapM f = some (l.map g) := by
  induction l with
  | nil => rfl
  | cons a l ih =>
    rw [List.mapM_cons, h a (by simp), ih (fun b hb => h b (by simp [hb]))]; rfl

/-- Message number `i`: zero past the end of the list. -/
def msgAt (messages : List (BitVec 64)) (i : ℕ) : BitVec 64 :=
  if h : i < messages.length then messages[i] else 0

theorem encodeGLWE_eq {w : ℕ} (N : ℕ) (messages : List (BitVec 64)) (p s : BitVec w) :
    encodeGLWECustom N messages p s = List.ofFn (fun i : Fin N => encodeLWECustom (msgAt messages i) p s) := by
  have h0 : encodeLWECustom 0 p s = 0 := by
    unfold encodeLWECustom
    simp
  apply List.ext_getElem?
  intro i
  unfold encodeGLWECustom
  simp only
  rw [List.getElem?_append, List.getElem?_ofFn]
  simp only [List.length_map, List.length_take, List.getElem?_map]
  by_cases hi : i < N
  · rw [dif_pos hi]
    by_cases hm : i < messages.length
    · rw [if_pos (by omega), List.getElem?_take_of_lt (by omega), List.getElem?_eq_getElem hm]
      simp [msgAt, hm]
    · rw [if_neg (by omega), List.getElem?_replicate, if_pos (by omega)]
      simp only [msgAt, hm]
      exact congrArg some h0.symm
  · rw [dif_neg hi, if_neg (by omega), List.getElem?_replicate, if_neg (by omega)]

/-- Encoding a list of messages of any length, adding noise to each coefficient and decoding returns
the first `N` messages padded with zeros (cut to the length of the output slice). -/
theorem C03_glwe {w : ℕ} (N outLen : ℕ) (messages : List (BitVec 64)) (p s : BitVec w)
    (hp : p ≠ 0) (c : ℕ) (hc : 0 < c) (e : Fin N → ℤ)
    (h : ∀ i, |(e i : ℚ)| + |(2 : ℚ) ^ w - c * p.toNat * s.toNat| + 2 ^ w / 2 ^ 51 < (s.toNat : ℚ) / 2) :
    ∃ out : List ℤ, decodeGLWECustom outLen
        ((encodeGLWECustom N messages p s).zipWith (· + ·) (List.ofFn fun i => BitVec.ofInt w (e i))) p s =
        some out ∧
      out.length = min outLen N ∧
      ∀ i, i < min outLen N → out[i]? = some (if h : i < messages.length then
        (((messages[i].setWidth w).toNat % p.toNat : ℕ) : ℤ) else 0) := by
  have hz : (encodeGLWECustom N messages p s).zipWith (· + ·) (List.ofFn fun i => BitVec.ofInt w (e i)) =
      List.ofFn (fun i : Fin N => encodeLWECustom (msgAt messages i) p s + BitVec.ofInt w (e i)) := by
    rw [encodeGLWE_eq]
    apply List.ext_getElem?
    intro i
    rw [List.getElem?_zipWith, List.getElem?_ofFn, List.getElem?_ofFn, List.getElem?_ofFn]
    by_cases hi : i < N <;> simp [hi]
  rw [hz]
  have hdec : ∀ i : Fin N, decodeLWECustom (encodeLWECustom (msgAt messages i) p s + BitVec.ofInt w (e i)) p s =
      some ((((msgAt messages i).setWidth w).toNat % p.toNat : ℕ) : ℤ) :=
    fun i => C03_encode_decode _ p s hp c hc (e i) (h i)
  have hall : decodeGLWECustom outLen
      (List.ofFn (fun i : Fin N => encodeLWECustom (msgAt messages i) p s + BitVec.ofInt w (e i))) p s =
      some (((List.ofFn (fun i : Fin N => encodeLWECustom (msgAt messages i) p s + BitVec.ofInt w (e i))).take
        outLen).map fun c => (decodeLWECustom c p s).getD 0) := by
    apply mapM_some
    intro a ha
    obtain ⟨i, rfl⟩ := (List.mem_ofFn' _ _).1 (List.mem_of_mem_take ha)
    simp only [hdec i, Option.getD_some]
  refine ⟨_, hall, by simp, ?_⟩
  intro i hi
  rw [List.getElem?_map, List.getElem?_take_of_lt (by omega), List.getElem?_ofFn, dif_pos (by omega)]
  rw [Option.map_some]
  have := hdec ⟨i, by omega⟩
  simp only at this
  rw [this, Option.getD_some]
  by_cases hm : i < messages.length <;> simp [msgAt, hm]

/-! ### C04 -/

/-- **C04, restricted.** The encoded value is `message mod p` for every message that is non-negative
and fits in the torus type, and for every message if `p` divides `2^w`. -/
theorem C04_encode_partial {w : ℕ} (hw : w ≤ 64) (message : BitVec 64) (p : BitVec w)
    (h : (0 ≤ message.toInt ∧ message.toInt < 2 ^ w) ∨ p.toNat ∣ 2 ^ w) :
    (((message.setWidth w).toNat % p.toNat : ℕ) : ℤ) = message.toInt % p.toNat := by
  have e : ((message.setWidth w).toNat : ℤ) = message.toInt % 2 ^ w := by
    rw [BitVec.toNat_setWidth]
    push_cast
    rw [BitVec.toInt_eq_toNat_cond]
    split
    · rfl
    · have : ((2 ^ 64 : ℕ) : ℤ) = 2 ^ w * 2 ^ (64 - w) := by
        rw [← pow_add, show w + (64 - w) = 64 by omega]; rfl
      rw [this, Int.sub_mul_emod_self_left]
  push_cast
  rw [e]
  rcases h with ⟨h1, h2⟩ | h
  · rw [Int.emod_eq_of_lt h1 h2]
  · rw [Int.emod_emod_of_dvd]
    exact_mod_cast h

/-- **C04 is false** as stated: with modulus 3 on 64-bit words, `-1` is encoded as `0` (not `2`), and
decodes to `0`. -/
theorem C04_negative_false : ∃ (message : BitVec 64) (p s : BitVec 64),
    compileScale 64 p.toNat = some s.toNat ∧ message.toInt = -1 ∧ p.toNat = 3 ∧
    encodeLWECustom message p s = encodeLWECustom 0 p s ∧
    decodeLWECustom (encodeLWECustom message p s) p s = some 0 :=
  ⟨-1, 3, 3074457345618258432, by decide +kernel, by decide +kernel, by decide +kernel, by decide +kernel,
    by decide +kernel⟩

/-- On 32-bit words large positive messages are affected too: `2^32` is encoded as `0` modulo 3. -/
theorem C04_large_false : ∃ (message : BitVec 64) (p s : BitVec 32),
    compileScale 32 p.toNat = some s.toNat ∧ message.toInt % 3 = 1 ∧ p.toNat = 3 ∧
    decodeLWECustom (encodeLWECustom message p s) p s = some 0 :=
  ⟨4294967296, 3, 715827883, by decide +kernel, by decide +kernel, by decide +kernel, by decide +kernel⟩

/-- Round trip through encoding and decoding, in terms of the integer message. -/
theorem C04_round_trip_partial {w : ℕ} (hw : w ≤ 64) (message : BitVec 64) (p s : BitVec w) (hp : p ≠ 0) (c : ℕ)
    (hc : 0 < c) (e : ℤ)
    (h : |(e : ℚ)| + |(2 : ℚ) ^ w - c * p.toNat * s.toNat| + 2 ^ w / 2 ^ 51 < (s.toNat : ℚ) / 2)
    (hm : (0 ≤ message.toInt ∧ message.toInt < 2 ^ w) ∨ p.toNat ∣ 2 ^ w) :
    decodeLWECustom (encodeLWECustom message p s + BitVec.ofInt w e) p s =
      some (message.toInt % p.toNat) := by
  rw [C03_encode_decode message p s hp c hc e h, C04_encode_partial hw message p hm]

/-- A concrete case of all the hypotheses: 64-bit words, modulus 16, message -3, negative noise. -/
example : compileScale 64 (16 : BitVec 64).toNat = some (2 ^ 59 : BitVec 64).toNat ∧
    |((-123456789 : ℤ) : ℚ)| + (16 : BitVec 64).toNat + 2 ^ 64 / 2 ^ 50 < ((2 ^ 59 : BitVec 64).toNat : ℚ) / 2 ∧
    decodeLWECustom (encodeLWECustom (-3) (16 : BitVec 64) (2 ^ 59) + BitVec.ofInt 64 (-123456789)) 16 (2 ^ 59) =
      some 13 := by
  refine ⟨by decide +kernel, ?_, by decide +kernel⟩
  have h1 : (16 : BitVec 64).toNat = 16 := by decide
  have h2 : (2 ^ 59 : BitVec 64).toNat = 2 ^ 59 := by decide +kernel
  rw [h1, h2]
  norm_num [abs_of_neg]

end Tfhe
