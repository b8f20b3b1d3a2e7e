import Verif.Model.PolyBasic
import Verif.Props.C23

/-!
# C79: polynomials from coefficients, and comparison up to an error
-/
namespace Tfhe.PolyBasic

/-- **C79** (`From`).  It returns exactly for ranks that are powers of two from 16 on.  The result
has the given coefficients below the rank, and zeros after them. -/
theorem C79_from_partial {R : Type} (z : R) (coeffs : List R) (N : BitVec 64) :
    ((∃ p, fromCoeffs z coeffs N = some p) ↔ ∃ k, 4 ≤ k ∧ k < 63 ∧ N.toNat = 2 ^ k) ∧
    ∀ p, fromCoeffs z coeffs N = some p → p.length = N.toNat ∧
      ∀ i, i < N.toNat → p[i]? = some (coeffs.getD i z) := by
  classical
  have hN : newPolyRank N = (if ∃ k, 4 ≤ k ∧ k < 63 ∧ N.toNat = 2 ^ k then some N.toNat else none) := by
    have hlt := N.isLt
    have hti := BitVec.toInt_eq_toNat_cond N
    unfold newPolyRank
    by_cases h : ∃ k, 4 ≤ k ∧ k < 63 ∧ N.toNat = 2 ^ k
    · rw [if_pos h]
      obtain ⟨k, h4, h63, hk⟩ := h
      have hb : (2 : ℕ) ^ k ≤ 2 ^ 62 := Nat.pow_le_pow_right (by norm_num) (by omega)
      have hs : (2 : ℕ) ^ 4 ≤ 2 ^ k := Nat.pow_le_pow_right (by norm_num) h4
      have hI : N.toInt = (N.toNat : ℤ) := by rw [hti, if_pos (by omega)]
      have hp : isPowerOfTwoInt N = true :=
        (isPowerOfTwoInt_iff N).2 ⟨k, by rw [hI, hk]; push_cast; rfl⟩
      rw [hp, if_neg (by simp), if_neg (by omega)]
    · rw [if_neg h]
      by_cases hp : isPowerOfTwoInt N = true
      · rw [hp, if_neg (by simp), if_pos]
        obtain ⟨k, hk⟩ := (isPowerOfTwoInt_iff N).1 hp
        by_contra h16
        apply h
        have hpos : (0 : ℤ) < 2 ^ k := by positivity
        have hI : N.toInt = (N.toNat : ℤ) := by
          rw [hti] at hk ⊢
          split at hk
          · rw [if_pos ‹_›]
          · omega
        have hkN : N.toNat = 2 ^ k := by
          have : (N.toNat : ℤ) = ((2 ^ k : ℕ) : ℤ) := by rw [← hI, hk]; push_cast; rfl
          exact_mod_cast this
        have hI' := N.toInt_lt
        refine ⟨k, ?_, ?_, hkN⟩
        · by_contra h4
          have : (2 : ℕ) ^ k ≤ 2 ^ 3 := Nat.pow_le_pow_right (by norm_num) (by omega)
          omega
        · by_contra h63
          have : (2 : ℕ) ^ 63 ≤ 2 ^ k := Nat.pow_le_pow_right (by norm_num) (by omega)
          norm_num at hI' this
          omega
      · simp [hp]
  constructor
  · unfold fromCoeffs
    rw [hN]
    split <;> simp_all
  · intro p hp
    unfold fromCoeffs at hp
    rw [hN] at hp
    split at hp
    · simp only [Option.bind_some, Option.some.injEq] at hp
      subst hp
      generalize N.toNat = n
      refine ⟨by simp [goCopy], ?_⟩
      intro i hi
      unfold goCopy
      rw [List.length_replicate, List.getElem?_append]
      by_cases h : i < coeffs.length
      · rw [if_pos (by simp; omega), List.getElem?_take, if_pos (by omega)]
        simp [List.getD_eq_getElem?_getD, h]
      · rw [if_neg (by simp; omega), List.getElem?_drop, List.getElem?_replicate, if_pos (by simp; omega)]
        simp [List.getD_eq_getElem?_getD, List.getElem?_eq_none (Nat.le_of_not_lt h)]
    · simp at hp

/-- **C79** (full statement fails).  Coefficients from the rank on are dropped without a panic, so
polynomials from different coefficients can be equal. -/
theorem C79_from_false : fromCoeffs (0 : ℤ) (List.replicate 16 1 ++ [7]) 16 =
    fromCoeffs (0 : ℤ) (List.replicate 16 1) 16 := by decide +kernel

/-- Two floats whose difference is not larger than `eps`, as numbers. -/
def Near (absDiff : Flt → Flt → Flt) (eps x y : Flt) : Prop :=
  ∃ d e, absDiff x y = some d ∧ eps = some e ∧ d ≤ e

private theorem approxLoop_iff (absDiff : Flt → Flt → Flt) (p p0 : List Flt) (eps : Flt)
    (hl : p.length = p0.length) (he : eps ≠ none)
    (hn : ∀ i (h : i < p.length) (h0 : i < p0.length), absDiff p[i] p0[i] ≠ none) (n : ℕ) :
    ∀ i, i + n = p.length → ∃ b, approxLoop absDiff p p0 eps i n = some b ∧
      (b = true ↔ ∀ j (h : j < p.length) (h0 : j < p0.length), i ≤ j →
        Near absDiff eps p[j] p0[j]) := by
  induction n with
  | zero =>
    intro i hi
    exact ⟨true, rfl, by simp only [true_iff]; intro j h _ hij; omega⟩
  | succ n ih =>
    intro i hi
    have h0 : i < p.length := by omega
    have h1 : i < p0.length := by omega
    obtain ⟨d, hd⟩ := Option.ne_none_iff_exists'.1 (hn i h0 h1)
    obtain ⟨e, rfl⟩ := Option.ne_none_iff_exists'.1 he
    by_cases hde : e < d
    · refine ⟨false, ?_, ?_⟩
      · simp [approxLoop, List.getElem?_eq_getElem h0, List.getElem?_eq_getElem h1, hd, fltGt, hde]
      · simp only [Bool.false_eq_true, false_iff]
        intro hall
        obtain ⟨d', e', h2, h3, h4⟩ := hall i h0 h1 le_rfl
        rw [hd] at h2
        cases h2; cases h3
        exact absurd hde (not_lt.2 h4)
    · obtain ⟨b, e1, hb⟩ := ih (i + 1) (by omega)
      refine ⟨b, ?_, ?_⟩
      · simp [approxLoop, List.getElem?_eq_getElem h0, List.getElem?_eq_getElem h1, hd, fltGt, hde, e1]
      · rw [hb]
        constructor
        · intro hall j h h' hij
          rcases Nat.eq_or_lt_of_le hij with rfl | hlt
          · exact ⟨d, e, hd, rfl, not_lt.1 hde⟩
          · exact hall j h h' hlt
        · intro hall j h h' hij
          exact hall j h h' (by omega)

/-- **C79** (`Approx`).  For polynomials of the same rank, without NaNs, it returns, and is true
exactly if all computed differences are at most `eps`. -/
theorem C79_approx_partial (absDiff : Flt → Flt → Flt) (p p0 : List Flt) (eps : Flt)
    (hl : p.length = p0.length) (he : eps ≠ none)
    (hn : ∀ i (h : i < p.length) (h0 : i < p0.length), absDiff p[i] p0[i] ≠ none) :
    ∃ b, approx absDiff p p0 eps = some b ∧
      (b = true ↔ ∀ i (h : i < p.length) (h0 : i < p0.length), Near absDiff eps p[i] p0[i]) := by
  obtain ⟨b, h1, h2⟩ := approxLoop_iff absDiff p p0 eps hl he hn p.length 0 (by omega)
  exact ⟨b, h1, by rw [h2]; simp⟩

private theorem approxLoop_true (absDiff : Flt → Flt → Flt) (p p0 : List Flt) (eps : Flt)
    (hl : p.length ≤ p0.length)
    (hg : ∀ i (h : i < p.length) (h0 : i < p0.length), fltGt (absDiff p[i] p0[i]) eps = false) (n : ℕ) :
    ∀ i, i + n = p.length → approxLoop absDiff p p0 eps i n = some true := by
  induction n with
  | zero => intro i _; rfl
  | succ n ih =>
    intro i hi
    have h0 : i < p.length := by omega
    have h1 : i < p0.length := by omega
    simp [approxLoop, List.getElem?_eq_getElem h0, List.getElem?_eq_getElem h1, hg i h0 h1, ih (i + 1) (by omega)]

/-- **C79** (full statement fails: NaN).  A polynomial whose differences to the other one are all
NaN is approximately equal to it, for every `eps`; and with `eps` a NaN everything is. -/
theorem C79_approx_nan_false (absDiff : Flt → Flt → Flt) (p p0 : List Flt) (eps : Flt)
    (hl : p.length = p0.length)
    (hn : eps = none ∨ ∀ i (h : i < p.length) (h0 : i < p0.length), absDiff p[i] p0[i] = none) :
    approx absDiff p p0 eps = some true := by
  refine approxLoop_true absDiff p p0 eps hl.le (fun i h h0 => ?_) p.length 0 (by omega)
  rcases hn with rfl | hn
  · cases absDiff p[i] p0[i] <;> rfl
  · rw [hn i h h0]; rfl

/-- **C79** (full statement fails: ranks).  If the argument only continues the receiver, it is
approximately equal to it for every `eps ≥ 0`; the other way round the call panics. -/
theorem C79_approx_rank_false (absDiff : Flt → Flt → Flt) (p q : List Flt) (eps : Flt) (hq : q ≠ [])
    (h : ∀ x ∈ p, fltGt (absDiff x x) eps = false) :
    approx absDiff p (p ++ q) eps = some true ∧ approx absDiff (p ++ q) p eps = none := by
  constructor
  · refine approxLoop_true absDiff p (p ++ q) eps (by simp) (fun i hi h0 => ?_) p.length 0 (by omega)
    rw [List.getElem_append_left hi]
    exact h _ (List.getElem_mem hi)
  · have hlen : 0 < q.length := List.length_pos_iff.2 hq
    have : ∀ n i, i + n = (p ++ q).length → i ≤ p.length →
        approxLoop absDiff (p ++ q) p eps i n = none := by
      intro n
      induction n with
      | zero => intro i hi hip; simp at hi; omega
      | succ n ih =>
        intro i hi hip
        have h0 : i < (p ++ q).length := by omega
        rcases Nat.eq_or_lt_of_le hip with rfl | hlt
        · simp [approxLoop]
        · have hx : (p ++ q)[i] = p[i] := List.getElem_append_left hlt
          have := h _ (List.getElem_mem hlt)
          simp only [approxLoop, List.getElem?_eq_getElem h0, List.getElem?_eq_getElem hlt, hx, this]
          exact ih (i + 1) (by omega) hlt
    exact this _ 0 (by omega) (Nat.zero_le _)

/-- `math.Abs(x - y)` without rounding, on finite numbers. -/
def exactDiff : Flt → Flt → Flt
  | some (some (some x)), some (some (some y)) => some (some (some |x - y|))
  | _, _ => none

/-- A finite number. -/
def fin (x : ℚ) : Flt := some (some (some x))

example : approx exactDiff [fin 1, fin 2] [fin 1, fin (5 / 2)] (fin (1 / 2)) = some true ∧
    approx exactDiff [fin 1, fin 2] [fin 1, fin 3] (fin (1 / 2)) = some false ∧
    approx exactDiff [fin 1] [fin 1, fin 3] (fin 0) = some true ∧
    approx exactDiff [none, fin 2] [fin 1, fin 2] (fin 0) = some true := by decide +kernel

example : fromCoeffs (0 : ℤ) [3, 4] 16 = some (3 :: 4 :: List.replicate 14 0) ∧
    fromCoeffs (0 : ℤ) [3, 4] 8 = none ∧ fromCoeffs (0 : ℤ) [3, 4] 24 = none := by decide +kernel

end Tfhe.PolyBasic
