import Verif.Model.Vec
import Verif.Spec.Vec
import Mathlib.Tactic.Ring
import Mathlib.Tactic.Linarith
import Mathlib.Algebra.Order.Ring.Nat
import Mathlib.Data.Int.Order.Basic

/-!
# C44  Vector rotation and reversal
-/
namespace Tfhe
variable {α : Type}

theorem swapAt_some (v : List α) (i j : Nat) (hi : i < v.length) (hj : j < v.length) :
    ∃ v', swapAt v i j = some v' ∧ v'.length = v.length ∧
      ∀ k, v'[k]? = v[if k = i then j else if k = j then i else k]? := by
  unfold swapAt
  rw [List.getElem?_eq_getElem hi, List.getElem?_eq_getElem hj]
  refine ⟨_, rfl, by simp, ?_⟩
  intro k
  rw [List.getElem?_set, List.getElem?_set]
  simp only [List.length_set]
  by_cases hkj : j = k
  · subst hkj
    by_cases hji : j = i
    · subst hji; simp [hj]
    · simp [hj, hji, List.getElem?_eq_getElem hi]
  · by_cases hki : i = k
    · subst hki; simp [hi, hkj, List.getElem?_eq_getElem hj]
    · simp [hkj, hki, Ne.symm hkj, Ne.symm hki]

theorem reverseLoop_spec (v : List α) (i j : Nat) (hj : j < v.length ∨ j ≤ i) :
    ∃ v', reverseLoop v i j = some v' ∧ v'.length = v.length ∧
      ∀ k, v'[k]? = v[if i ≤ k ∧ k ≤ j then i + j - k else k]? := by
  induction h : j - i using Nat.strong_induction_on generalizing v i j with
  | _ d ih =>
    rw [reverseLoop]
    split
    · rename_i hij
      have hj' : j < v.length := by omega
      obtain ⟨v1, e1, l1, g1⟩ := swapAt_some v i j (by omega) hj'
      rw [e1]
      simp only
      obtain ⟨v2, e2, l2, g2⟩ := ih (j - 1 - (i + 1)) (by omega) v1 (i + 1) (j - 1) (by omega) rfl
      refine ⟨v2, e2, by omega, ?_⟩
      intro k
      rw [g2, g1]
      congr 1
      split_ifs <;> omega
    · refine ⟨v, rfl, rfl, ?_⟩
      intro k
      congr 1
      split_ifs <;> omega

/-- **C44 (reverse).** `ReverseInPlace` never panics and reverses the vector. -/
theorem C44_reverseInPlace (v : List α) : reverseInPlace v = some v.reverse := by
  unfold reverseInPlace
  obtain ⟨v', e, l, g⟩ := reverseLoop_spec v 0 (v.length - 1) (by omega)
  rw [e]
  congr 1
  apply List.ext_getElem?
  intro k
  rw [g]
  by_cases hk : k < v.length
  · rw [List.getElem?_reverse hk]
    congr 1
    split_ifs <;> omega
  · rw [List.getElem?_eq_none (by split_ifs <;> omega), List.getElem?_eq_none (by simp; omega)]

theorem reverseToLoop_spec (out v : List α) (len i : Nat) (h : i + v.length = len)
    (ho : out.length = len) :
    reverseToLoop out len i v = v.reverse ++ out.drop (len - i) := by
  induction v generalizing out i with
  | nil =>
    simp only [reverseToLoop, List.reverse_nil, List.nil_append, List.length_nil] at *
    rw [show len - i = 0 by omega]; simp
  | cons a v ih =>
    simp only [List.length_cons] at h
    rw [reverseToLoop, ih _ _ (by omega) (by simpa using ho), List.reverse_cons, List.append_assoc]
    congr 1
    rw [show len - (i + 1) = len - i - 1 by omega]
    have hlt : len - i - 1 < (out.set (len - i - 1) a).length := by simp; omega
    rw [List.drop_eq_getElem_cons hlt, List.getElem_set_self]
    rw [show len - i - 1 + 1 = len - i by omega, List.drop_set_of_lt (by omega)]
    rfl

/-- **C44 (reverse).** `ReverseTo` panics exactly on different lengths and otherwise agrees
with the in-place version. -/
theorem C44_reverseTo (out v : List α) :
    reverseTo out v = if out.length = v.length then some v.reverse else none := by
  unfold reverseTo
  by_cases h : out.length = v.length
  · rw [if_neg (by omega), if_pos h, reverseToLoop_spec out v out.length 0 (by omega) rfl]
    simp
  · rw [if_pos h, if_neg h]

/-- Reversing twice is the identity. -/
theorem C44_reverse_involutive (v : List α) :
    (reverseInPlace v).bind reverseInPlace = some v := by
  simp [C44_reverseInPlace]

theorem wrap64_eq (z : Int) (h1 : -(2 ^ 63) ≤ z) (h2 : z < 2 ^ 63) : wrapInt true 64 z = z := by
  unfold wrapInt
  rw [if_pos rfl, Int.bmod_eq_of_le_mul_two]
  · push_cast; omega
  · push_cast; omega

/-- the offset is in `[0, len]` and congruent to `l` -/
theorem rotateOffset_spec (len : Nat) (hlen : 0 < len) (hlen2 : len < 2 ^ 63) (l : Int)
    (h1 : -(2 ^ 63) < l) :
    ∃ o : Nat, rotateOffset len l = some (o : Int) ∧ o ≤ len ∧ (o : Int) % len = l % len := by
  unfold rotateOffset
  rw [if_neg (by omega)]
  split
  · by_cases hb : -l < 2 ^ 63
    · rw [wrap64_eq (-l) (by omega) hb, Int.tmod_eq_emod_of_nonneg (by omega)]
      have h3 := Int.emod_nonneg (-l) (b := len) (by omega)
      have h4 := Int.emod_lt_of_pos (-l) (b := len) (by omega)
      rw [wrap64_eq _ (by omega) (by omega)]
      refine ⟨(len - (-l) % len).toNat, ?_, by omega, ?_⟩
      · congr 1; omega
      · rw [Int.toNat_of_nonneg (by omega)]
        rw [show (len : Int) - (-l) % len = - ((-l) % len) + len by ring, Int.add_emod_right]
        rw [Int.emod_def (-l)]
        rw [show -(-l - len * (-l / len)) = l + len * (-l / len) by ring,
          Int.add_mul_emod_self_left]
    · omega
  · rw [Int.tmod_eq_emod_of_nonneg (by omega)]
    have h3 := Int.emod_nonneg l (b := len) (by omega)
    have h4 := Int.emod_lt_of_pos l (b := len) (by omega)
    refine ⟨(l % len).toNat, ?_, by omega, ?_⟩
    · congr 1; omega
    · rw [Int.toNat_of_nonneg h3, Int.emod_emod_of_dvd _ dvd_rfl]

theorem rotate_isRotation (v : List α) (o : Nat) (ho : o ≤ v.length) (l : Int)
    (h : (o : Int) % v.length = l % v.length) :
    IsRotation v (v.drop (v.length - o) ++ v.take (v.length - o)) l := by
  refine ⟨by simp, ?_⟩
  intro i hi
  rw [Int.add_emod, ← h, ← Int.add_emod]
  by_cases hc : i + o < v.length
  · rw [Int.emod_eq_of_lt (by omega) (by omega), List.getElem?_append_right (by simp; omega),
      List.getElem?_take_of_lt (by simp; omega)]
    congr 1; simp; omega
  · have : ((i : Int) + o) % v.length = i + o - v.length := by
      rw [← Int.sub_emod_right, Int.emod_eq_of_lt (by omega) (by omega)]
    rw [this, List.getElem?_append_left (by simp; omega), List.getElem?_drop]
    congr 1; omega

/-- **C44 (rotate).** `RotateTo` moves element `i` to `(i+l) mod len` for every `int` `l`
except the minimum, and never panics on a non-empty vector. -/
theorem C44_rotateTo (v : List α) (hv : v ≠ []) (hlen : v.length < 2 ^ 63) (l : Int)
    (hl : -(2 ^ 63) < l) : ∃ out, rotateTo v l = some out ∧ IsRotation v out l := by
  have : 0 < v.length := List.length_pos_iff.2 hv
  obtain ⟨o, e, h1, h2⟩ := rotateOffset_spec v.length this hlen l hl
  refine ⟨_, ?_, rotate_isRotation v o h1 l h2⟩
  simp [rotateTo, e, sliceBound, h1]

/-- **C44 (rotate).** `RotateInPlace` computes the same vector as `RotateTo`, for every `l`
(including when both panic). -/
theorem C44_rotateInPlace_eq (v : List α) (l : Int) : rotateInPlace v l = rotateTo v l := by
  unfold rotateInPlace rotateTo
  rcases rotateOffset v.length l with _ | o
  · rfl
  · simp only [Option.bind_some, C44_reverseInPlace, List.length_reverse]
    rcases h : sliceBound v.length o with _ | k
    · rfl
    · simp only [Option.bind_some, Option.some.injEq]
      rw [List.take_reverse, List.drop_reverse]
      simp

/-- **C44 (rotate)**, the in-place form stated directly. -/
theorem C44_rotateInPlace (v : List α) (hv : v ≠ []) (hlen : v.length < 2 ^ 63) (l : Int)
    (hl : -(2 ^ 63) < l) : ∃ out, rotateInPlace v l = some out ∧ IsRotation v out l := by
  rw [C44_rotateInPlace_eq]; exact C44_rotateTo v hv hlen l hl

/-- An empty vector makes both forms panic (division by zero). -/
theorem C44_rotate_empty (l : Int) :
    rotateTo ([] : List α) l = none ∧ rotateInPlace ([] : List α) l = none := by
  simp [rotateTo, rotateInPlace, rotateOffset]

example : rotateInPlace [1, 2, 3, 4, 5] (-7) = some [3, 4, 5, 1, 2] := by
  rw [C44_rotateInPlace_eq]; decide +kernel

/-! ### Bit reversal -/

theorem bitRev_lt (n k : Nat) : bitRev n k < 2 ^ n := by
  induction n generalizing k with
  | zero => simp [bitRev]
  | succ n ih =>
    rw [bitRev, pow_succ]
    have := ih (k / 2)
    have : k % 2 < 2 := Nat.mod_lt _ (by norm_num)
    nlinarith

theorem bitRev_succ' (n k : Nat) (hk : k < 2 ^ (n + 1)) :
    bitRev (n + 1) k = 2 * bitRev n (k % 2 ^ n) + k / 2 ^ n := by
  induction n generalizing k with
  | zero => simp [bitRev]; omega
  | succ n ih =>
    rw [bitRev, ih (k / 2) (by rw [pow_succ] at hk; omega)]
    conv_rhs => rw [bitRev]
    have e1 : k % 2 ^ (n + 1) % 2 = k % 2 := by
      rw [pow_succ, Nat.mod_mul_left_mod]
    have e2 : k % 2 ^ (n + 1) / 2 = k / 2 % 2 ^ n := by
      rw [pow_succ', Nat.mod_mul_right_div_self]
    have e3 : k / 2 / 2 ^ n = k / 2 ^ (n + 1) := by
      rw [Nat.div_div_eq_div_mul, pow_succ']
    rw [e1, e2, e3]; ring

theorem bitRev_involutive (n k : Nat) (hk : k < 2 ^ n) : bitRev n (bitRev n k) = k := by
  induction n generalizing k with
  | zero => simp [bitRev] at *; omega
  | succ n ih =>
    rw [bitRev_succ' n _ (bitRev_lt _ _)]
    have hlt := bitRev_lt n (k / 2)
    have e1 : bitRev (n + 1) k % 2 ^ n = bitRev n (k / 2) := by
      rw [bitRev, mul_comm, Nat.mul_add_mod, Nat.mod_eq_of_lt hlt]
    have e2 : bitRev (n + 1) k / 2 ^ n = k % 2 := by
      rw [bitRev, mul_comm, Nat.mul_add_div (by positivity), Nat.div_eq_of_lt hlt, add_zero]
    rw [e1, e2, ih _ (by rw [pow_succ] at hk; omega)]
    omega

theorem bitRevNext_spec (n i : Nat) (h : i + 1 < 2 ^ n) :
    bitRevNext (2 ^ n / 2) (bitRev n i) = some (bitRev n (i + 1)) := by
  induction n generalizing i with
  | zero => simp at h
  | succ n ih =>
    have hp : 0 < 2 ^ n := by positivity
    have hlt := bitRev_lt n (i / 2)
    rw [bitRevNext, show 2 ^ (n + 1) / 2 = 2 ^ n by rw [pow_succ]; simp, if_neg (by omega), bitRev]
    rcases Nat.mod_two_eq_zero_or_one i with h2 | h2
    · rw [h2, if_neg (by omega), bitRev, show (i + 1) % 2 = 1 by omega,
        show (i + 1) / 2 = i / 2 by omega]
      congr 1; ring
    · rw [h2, if_pos (by omega), show 1 * 2 ^ n + bitRev n (i / 2) - 2 ^ n = bitRev n (i / 2) by omega,
        ih (i / 2) (by rw [pow_succ] at h; omega), bitRev, show (i + 1) % 2 = 0 by omega,
        show (i + 1) / 2 = i / 2 + 1 by omega]
      simp

theorem bitRevLoop_spec (n : Nat) (v0 v : List α) (hl : v.length = 2 ^ n) (i m : Nat)
    (him : i + 1 + m = 2 ^ n)
    (hinv : ∀ k, k < 2 ^ n →
      v[k]? = if k < i + 1 ∨ bitRev n k < i + 1 then v0[bitRev n k]? else v0[k]?) :
    ∃ v', bitRevLoop v (i + 1) (bitRev n i) m = some v' ∧ v'.length = 2 ^ n ∧
      ∀ k, k < 2 ^ n → v'[k]? = v0[bitRev n k]? := by
  induction m generalizing i v with
  | zero =>
    refine ⟨v, rfl, hl, ?_⟩
    intro k hk
    rw [hinv k hk, if_pos (by omega)]
  | succ m ih =>
    rw [bitRevLoop, hl, bitRevNext_spec n i (by omega)]
    simp only
    have hinvol : ∀ k, k < 2 ^ n → bitRev n (bitRev n k) = k := bitRev_involutive n
    have hi1 : i + 1 < 2 ^ n := by omega
    have hlt := bitRev_lt n (i + 1)
    have hii := hinvol (i + 1) hi1
    split
    · rename_i hcmp
      obtain ⟨v1, e1, l1, g1⟩ := swapAt_some v (i + 1) (bitRev n (i + 1)) (by omega) (by omega)
      rw [e1]
      simp only
      apply ih v1 (by omega) (i + 1) (by omega)
      intro k hk
      have hk2 := bitRev_lt n k
      have hkk := hinvol k hk
      rw [g1]
      by_cases c1 : k = i + 1
      · subst c1
        rw [if_pos rfl, hinv _ hlt, hii, if_neg (by omega), if_pos (by omega)]
      · rw [if_neg c1]
        by_cases c2 : k = bitRev n (i + 1)
        · rw [if_pos c2, hinv _ hi1, if_neg (by omega), if_pos (by right; rw [c2, hii]; omega), c2, hii]
        · rw [if_neg c2, hinv k hk]
          have c3 : bitRev n k ≠ i + 1 := by
            intro h; apply c2; rw [← h, hkk]
          have : (k < i + 1 ∨ bitRev n k < i + 1) ↔ (k < i + 1 + 1 ∨ bitRev n k < i + 1 + 1) := by
            omega
          simp only [this]
    · rename_i hcmp
      apply ih v hl (i + 1) (by omega)
      intro k hk
      have hk2 := bitRev_lt n k
      have hkk := hinvol k hk
      rw [hinv k hk]
      by_cases c1 : k = i + 1
      · subst c1
        rw [if_pos (show i + 1 < i + 1 + 1 ∨ _ by omega)]
        by_cases c : bitRev n (i + 1) = i + 1
        · rw [c, ite_self]
        · rw [if_pos (by omega)]
      · by_cases c2 : bitRev n k = i + 1
        · have : k = bitRev n (i + 1) := by rw [← c2, hkk]
          rw [if_pos (by left; omega), if_pos (by omega)]
        · have : (k < i + 1 ∨ bitRev n k < i + 1) ↔ (k < i + 1 + 1 ∨ bitRev n k < i + 1 + 1) := by
            omega
          simp only [this]

/-- **C44 (bit reversal).** For a vector of length `2^n`, `BitReverseInPlace` terminates
without panic and element `k` of the result is element `rev(k)` of the input. -/
theorem C44_bitReverse (n : Nat) (v : List α) (hl : v.length = 2 ^ n) :
    ∃ v', bitReverseInPlace v = some v' ∧ v'.length = 2 ^ n ∧
      ∀ k, k < 2 ^ n → v'[k]? = v[bitRev n k]? := by
  have hp : 0 < 2 ^ n := by positivity
  have h0 : ∀ n, bitRev n 0 = 0 := by
    intro n; induction n with
    | zero => rfl
    | succ n ih => simp [bitRev, ih]
  have := bitRevLoop_spec n v v hl 0 (2 ^ n - 1) (by omega) (by
    intro k hk
    have hinv := bitRev_involutive n k hk
    split
    · rename_i h
      have : k = 0 := by
        rcases h with h | h
        · omega
        · have : bitRev n k = 0 := by omega
          rw [this, h0] at hinv; omega
      rw [this, h0]
    · rfl)
  rw [h0] at this
  unfold bitReverseInPlace
  rw [hl]
  exact this

/-- **C44 (bit reversal)** is an involution on vectors of length `2^n`. -/
theorem C44_bitReverse_involutive (n : Nat) (v : List α) (hl : v.length = 2 ^ n) :
    (bitReverseInPlace v).bind bitReverseInPlace = some v := by
  obtain ⟨v1, e1, l1, g1⟩ := C44_bitReverse n v hl
  obtain ⟨v2, e2, l2, g2⟩ := C44_bitReverse n v1 l1
  rw [e1, Option.bind_some, e2]
  congr 1
  apply List.ext_getElem?
  intro k
  by_cases hk : k < 2 ^ n
  · rw [g2 k hk, g1 _ (bitRev_lt _ _), bitRev_involutive n k hk]
  · rw [List.getElem?_eq_none (by omega), List.getElem?_eq_none (by omega)]

example : bitReverseInPlace [0, 1, 2, 3, 4, 5, 6, 7] = some [0, 4, 2, 6, 1, 5, 3, 7] := by
  decide +kernel
/-- For a length that is not a power of two the loop does not terminate (here length 3). -/
theorem C44_bitReverse_diverges : bitReverseInPlace [0, 1, 2] = none := by decide +kernel

end Tfhe
