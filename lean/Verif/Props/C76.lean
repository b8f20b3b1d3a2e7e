import Verif.Model.NumTypes
import Verif.Model.Sampler
import Mathlib.Order.Bounds.Basic
import Mathlib.Tactic.Linarith

/-!
# C76: limits of the integer types, absolute value, minimum and maximum
-/
namespace Tfhe.GoNum

/-! ### Specification -/

/-- The values of a type: the results of arithmetic in it. -/
def GoInt.values (t : GoInt) : Set ℤ := {v | ∃ z : ℤ, t.wrap z = v}

theorem bmod_range (z : ℤ) : (-2 ^ 7 ≤ z.bmod (2 ^ 8) ∧ z.bmod (2 ^ 8) < 2 ^ 7) ∧ (-2 ^ 15 ≤ z.bmod (2 ^ 16) ∧ z.bmod (2 ^ 16) < 2 ^ 15) ∧
    (-2 ^ 31 ≤ z.bmod (2 ^ 32) ∧ z.bmod (2 ^ 32) < 2 ^ 31) ∧ (-2 ^ 63 ≤ z.bmod (2 ^ 64) ∧ z.bmod (2 ^ 64) < 2 ^ 63) := by
  refine ⟨⟨?_, ?_⟩, ⟨?_, ?_⟩, ⟨?_, ?_⟩, ⟨?_, ?_⟩⟩ <;>
    first
    | exact (Int.le_bmod (by norm_num)).trans' (by norm_num)
    | exact (Int.bmod_lt (by norm_num)).trans_le (by norm_num)

theorem GoInt.values_eq (t : GoInt) :
    t.values = {v | (if t.kind.1 then -2 ^ (t.kind.2 - 1) else 0) ≤ v ∧
      v < if t.kind.1 then 2 ^ (t.kind.2 - 1) else (2 : ℤ) ^ t.kind.2} := by
  ext v
  cases t <;>
  · simp only [GoInt.values, GoInt.wrap, GoInt.kind, wrapInt, Set.mem_ofPred_eq, if_true, Bool.false_eq_true, if_false]
    constructor
    · rintro ⟨z, rfl⟩
      constructor <;> first | omega | (have := bmod_range z; omega)
    · rintro ⟨h1, h2⟩
      exact ⟨v, by first | omega | (rw [Int.bmod_eq_of_le] <;> omega)⟩

/-- **C76 (limits).** `MaxT` and `MinT` are the largest and the smallest value of the type. -/
theorem C76_limits (t : GoInt) : IsGreatest t.values (maxT t) ∧ IsLeast t.values (minT t) := by
  rw [GoInt.values_eq]
  cases t <;> refine ⟨⟨?_, ?_⟩, ⟨?_, ?_⟩⟩ <;>
    first
    | (simp [GoInt.kind, maxT, minT]; done)
    | (rintro v ⟨h1, h2⟩
       simp only [GoInt.kind, maxT, minT, if_true, Bool.false_eq_true, if_false] at h1 h2 ⊢
       omega)

/-- **C76 (sizes).** A type of size `SizeT` has exactly the integers from `MinT` to `MaxT`, `2 ^ SizeT` of them; `ByteSizeT` is the
number of bytes. -/
theorem C76_sizes (t : GoInt) :
    t.values = Set.Icc (minT t) (maxT t) ∧ (maxT t : ℤ) - minT t + 1 = 2 ^ sizeT t ∧ 8 * byteSizeT t = sizeT t := by
  refine ⟨?_, by cases t <;> decide +kernel, by cases t <;> decide +kernel⟩
  rw [GoInt.values_eq]
  ext v
  cases t <;>
  · simp only [GoInt.kind, maxT, minT, if_true, Bool.false_eq_true, if_false, Set.mem_ofPred_eq, Set.mem_Icc]
    omega

/-- The field of the uniform sampler, `maxT: T(num.MaxT[T]())`, is the largest value of the sampled type. -/
theorem C76_sampler (t : GoInt) : ((Tfhe.Rng.maxT t.kind.2 t.kind.1).toNat : ℤ) = maxT t := by
  cases t <;> decide +kernel

/-- **C76 (signs).** `IsSigned` tells whether the type has negative values. -/
theorem C76_signed (t : GoInt) : isSigned t = true ↔ ∃ v ∈ t.values, v < 0 := by
  rw [(C76_sizes t).1]
  have h : isSigned t = decide (minT t < 0) := by cases t <;> decide +kernel
  rw [h, decide_eq_true_eq]
  constructor
  · intro h
    refine ⟨minT t, ⟨le_rfl, ?_⟩, h⟩
    have : (0 : ℤ) ≤ maxT t := Int.natCast_nonneg _
    omega
  · rintro ⟨v, ⟨h1, -⟩, h2⟩
    omega

/-- **C76 (absolute value), the part that holds.** `Abs` is the absolute value for every value but the smallest of a signed type. -/
theorem C76_abs_partial (t : GoInt) (x : ℤ) (hx : x ∈ t.values) (h : x = minT t → 0 ≤ x) : absT t x = |x| := by
  unfold absT
  split
  · rename_i hneg
    rw [abs_of_neg hneg]
    rw [(C76_sizes t).1] at hx
    obtain ⟨h1, h2⟩ := hx
    have h3 : minT t < x := by
      rcases lt_or_eq_of_le h1 with h3 | h3
      · exact h3
      · exact absurd (h h3.symm) (by omega)
    have h4 : -x ∈ t.values := by
      rw [(C76_sizes t).1]
      have := (C76_sizes t).2.1
      cases t <;> simp only [maxT, minT, Set.mem_Icc] at * <;> constructor <;> omega
    obtain ⟨z, hz⟩ := h4
    cases t <;> simp only [minT, maxT] at h1 h2 h3 <;>
      first | omega | (simp only [GoInt.wrap, GoInt.kind, wrapInt, if_true]; rw [Int.bmod_eq_of_le] <;> omega)
  · rename_i hneg
    rw [abs_of_nonneg (by omega)]

/-- **C76 (absolute value), the part that fails.** In every signed type the smallest value is its own `Abs`, a negative number. -/
theorem C76_abs_false (t : GoInt) (h : isSigned t = true) : absT t (minT t) = minT t ∧ minT t < 0 ∧ minT t ∈ t.values := by
  refine ⟨?_, ?_, (C76_limits t).2.1⟩ <;> revert h <;> cases t <;> decide +kernel

/-- **C76 (two values).** -/
theorem C76_min_max (x y : ℤ) : min2 x y = min x y ∧ max2 x y = max x y := by
  unfold min2 max2
  constructor <;> split <;> omega

theorem foldl_max (l : List ℤ) : ∀ a : ℤ,
    IsGreatest {v | v = a ∨ v ∈ l} (l.foldl (fun m x => if x > m then x else m) a) := by
  induction l with
  | nil => intro a; exact ⟨Or.inl rfl, by rintro v (rfl | h); exacts [le_rfl, absurd h List.not_mem_nil]⟩
  | cons b l ih =>
    intro a
    obtain ⟨h1, h2⟩ := ih (if b > a then b else a)
    rw [List.foldl_cons]
    constructor
    · rcases h1 with h1 | h1
      · rw [h1]
        split
        · exact Or.inr List.mem_cons_self
        · exact Or.inl rfl
      · exact Or.inr (List.mem_cons_of_mem _ h1)
    · have h3 := h2 (Or.inl rfl)
      have h4 : a ≤ (if b > a then b else a) ∧ b ≤ (if b > a then b else a) := by split <;> omega
      rintro v (rfl | hv)
      · exact h4.1.trans h3
      · rcases List.mem_cons.mp hv with rfl | hv
        · exact h4.2.trans h3
        · exact h2 (Or.inr hv)

theorem foldl_min (l : List ℤ) : ∀ a : ℤ,
    IsLeast {v | v = a ∨ v ∈ l} (l.foldl (fun m x => if x < m then x else m) a) := by
  induction l with
  | nil => intro a; exact ⟨Or.inl rfl, by rintro v (rfl | h); exacts [le_rfl, absurd h List.not_mem_nil]⟩
  | cons b l ih =>
    intro a
    obtain ⟨h1, h2⟩ := ih (if b < a then b else a)
    rw [List.foldl_cons]
    constructor
    · rcases h1 with h1 | h1
      · rw [h1]
        split
        · exact Or.inr List.mem_cons_self
        · exact Or.inl rfl
      · exact Or.inr (List.mem_cons_of_mem _ h1)
    · have h3 := h2 (Or.inl rfl)
      have h4 : (if b < a then b else a) ≤ a ∧ (if b < a then b else a) ≤ b := by split <;> omega
      rintro v (rfl | hv)
      · exact h3.trans h4.1
      · rcases List.mem_cons.mp hv with rfl | hv
        · exact h3.trans h4.2
        · exact h2 (Or.inr hv)

/-- **C76 (many values).** `MaxN` and `MinN` are the largest and the smallest of the arguments, and zero without arguments. -/
theorem C76_maxN_minN (l : List ℤ) :
    (l ≠ [] → IsGreatest {v | v ∈ l} (maxN l) ∧ IsLeast {v | v ∈ l} (minN l)) ∧ (l = [] → maxN l = 0 ∧ minN l = 0) := by
  constructor
  · intro h
    cases l with
    | nil => exact absurd rfl h
    | cons a l =>
      have e : {v | v ∈ a :: l} = {v | v = a ∨ v ∈ l} := by ext v; exact List.mem_cons
      rw [e]
      exact ⟨foldl_max l a, foldl_min l a⟩
  · rintro rfl
    exact ⟨rfl, rfl⟩

example : maxN [-3, -7, -1, -2] = -1 ∧ minN [-3, -7, -1, -2] = -7 := by decide +kernel
example : absT .int8 (-127) = 127 ∧ absT .int8 (-128) = -128 ∧ (-127 : ℤ) ∈ GoInt.int8.values := by
  refine ⟨by decide +kernel, by decide +kernel, ⟨-127, by decide +kernel⟩⟩
example : isSigned .int16 = true ∧ isSigned .uintptr = false := by decide +kernel
end Tfhe.GoNum
