import Verif.Model.Gadget
import Verif.Lemma.Num
import Verif.Lemma.Word
import Mathlib.Data.Nat.Bitwise

/-! Helper lemmas for the gadget decomposition. -/
namespace Tfhe
variable {w : Nat}

namespace GadgetParams
variable {g : GadgetParams w}

theorem Valid.logBase_lt (h : g.Valid) : g.logBase < w := by
  have h1 := g.base.isLt
  rw [h.base_eq] at h1
  exact (Nat.pow_lt_pow_iff_right (by norm_num)).1 h1

end GadgetParams

/-- Arithmetic content of one digit step. -/
theorem dcmp_step_nat (g : GadgetParams w) (h : g.Valid) (u : BitVec w) :
    (u &&& (g.base - 1#w)).toNat = u.toNat % 2 ^ g.logBase := by
  have hw : 0 < w := by have := h.logBase_lt; omega
  have h1 := toNat_one_of_pos hw
  have hb : (g.base - 1#w).toNat = 2 ^ g.logBase - 1 := by
    rw [BitVec.toNat_sub_of_le, h1, h.base_eq]
    rw [BitVec.le_def, h1, h.base_eq]; exact Nat.one_le_two_pow
  rw [BitVec.toNat_and, hb, Nat.and_two_pow_sub_one_eq_mod]

theorem dcmp_half (g : GadgetParams w) (h : g.Valid) (d : BitVec w)
    (hd : d.toNat < 2 ^ g.logBase) :
    ((d &&& (g.base >>> 1)) <<< 1) = if 2 ^ (g.logBase - 1) ≤ d.toNat then g.base else 0#w := by
  obtain ⟨L, hL⟩ : ∃ L, g.logBase = L + 1 := ⟨g.logBase - 1, by have := h.logBase_pos; omega⟩
  have hlt := h.logBase_lt
  have hb : (g.base >>> 1).toNat = 2 ^ L := by
    rw [BitVec.toNat_ushiftRight, h.base_eq, hL, Nat.shiftRight_eq_div_pow, pow_succ]; simp
  have e : (d &&& (g.base >>> 1)).toNat = if 2 ^ L ≤ d.toNat then 2 ^ L else 0 := by
    rw [BitVec.toNat_and, hb, Nat.and_two_pow]
    rw [hL] at hd
    have : d.toNat.testBit L = decide (2 ^ L ≤ d.toNat) := by
      rw [Nat.testBit_eq_decide_div_mod_eq]
      congr 1
      have hp : 0 < 2 ^ L := by positivity
      rw [pow_succ] at hd
      have : d.toNat / 2 ^ L < 2 := Nat.div_lt_of_lt_mul hd
      rw [Nat.mod_eq_of_lt this, eq_iff_iff, ← Nat.one_le_div_iff hp]
      omega
    rw [this]
    split <;> simp_all
  apply BitVec.eq_of_toNat_eq
  rw [BitVec.toNat_shiftLeft, e, hL, Nat.add_sub_cancel, Nat.shiftLeft_eq]
  split
  · rw [h.base_eq, hL, pow_one, ← pow_succ]
    apply Nat.mod_eq_of_lt
    rw [← hL, ← h.base_eq]; exact g.base.isLt
  · simp

theorem dcmp_carry (g : GadgetParams w) (h : g.Valid) (d : BitVec w)
    (hd : d.toNat < 2 ^ g.logBase) :
    (d >>> (g.logBase - 1)) = if 2 ^ (g.logBase - 1) ≤ d.toNat then 1#w else 0#w := by
  obtain ⟨L, hL⟩ : ∃ L, g.logBase = L + 1 := ⟨g.logBase - 1, by have := h.logBase_pos; omega⟩
  have hlt := h.logBase_lt
  apply BitVec.eq_of_toNat_eq
  rw [BitVec.toNat_ushiftRight, hL, Nat.add_sub_cancel, Nat.shiftRight_eq_div_pow]
  rw [hL, pow_succ] at hd
  have hp : 0 < 2 ^ L := by positivity
  have : d.toNat / 2 ^ L < 2 := Nat.div_lt_of_lt_mul hd
  split
  · rename_i hle
    have := (Nat.one_le_div_iff hp).2 hle
    rw [toNat_one_of_pos (by omega)]; omega
  · rename_i hle
    have := (Nat.one_le_div_iff hp).not.2 hle
    simp; omega

/-- Each step splits `u` exactly as `digit + next * base`. -/
theorem dcmp_step (g : GadgetParams w) (h : g.Valid) (u : BitVec w) :
    u = dcmpDigit g u + dcmpNext g u * g.base := by
  have e := dcmp_step_nat g h u
  have hd : (u &&& (g.base - 1#w)).toNat < 2 ^ g.logBase := by
    rw [e]; exact Nat.mod_lt _ (by positivity)
  unfold dcmpDigit dcmpNext
  simp only
  rw [dcmp_half g h _ hd, dcmp_carry g h _ hd]
  have hq : u = (u &&& (g.base - 1#w)) + (u >>> g.logBase) * g.base := by
    have hb : g.base = ((2 ^ g.logBase : Nat) : BitVec w) := by
      rw [← h.base_eq, bv_cast_toNat]
    conv_lhs => rw [← bv_cast_toNat u, ← Nat.mod_add_div u.toNat (2 ^ g.logBase), ← e]
    rw [Nat.cast_add, Nat.cast_mul, bv_cast_toNat, ← hb, mul_comm]
    congr 2
    rw [← bv_cast_toNat (u >>> g.logBase), BitVec.toNat_ushiftRight, Nat.shiftRight_eq_div_pow]
  generalize (u &&& (g.base - 1#w)) = d at *
  generalize (u >>> g.logBase) = q at *
  split
  · rw [hq]; change _ = d - g.base + (q + 1) * g.base; ring
  · rw [hq]; change _ = d - 0 + (q + 0) * g.base; ring

theorem dcmpDigit_toInt (g : GadgetParams w) (h : g.Valid) (u : BitVec w) :
    -(2 ^ (g.logBase - 1) : Int) ≤ (dcmpDigit g u).toInt ∧
      (dcmpDigit g u).toInt < 2 ^ (g.logBase - 1) := by
  have e := dcmp_step_nat g h u
  have hd : (u &&& (g.base - 1#w)).toNat < 2 ^ g.logBase := by
    rw [e]; exact Nat.mod_lt _ (by positivity)
  obtain ⟨L, hL⟩ : ∃ L, g.logBase = L + 1 := ⟨g.logBase - 1, by have := h.logBase_pos; omega⟩
  have hlt := h.logBase_lt
  have hb : g.base = ((2 ^ g.logBase : Nat) : BitVec w) := by
      rw [← h.base_eq, bv_cast_toNat]
  have key : ∃ z : Int, dcmpDigit g u = (z : BitVec w) ∧ -(2 ^ L : Int) ≤ z ∧ z < 2 ^ L := by
    unfold dcmpDigit
    simp only
    rw [dcmp_half g h _ hd]
    generalize (u &&& (g.base - 1#w)) = d at *
    rw [hL] at hd ⊢
    rw [Nat.add_sub_cancel]
    have c : ((2:Int) ^ L) = ((2 ^ L : Nat) : Int) := by push_cast; rfl
    have hs : 2 ^ (L + 1) = 2 * 2 ^ L := by ring
    rw [c]
    split
    · refine ⟨(d.toNat : Int) - ((2 ^ (L + 1) : Nat) : Int), ?_, ?_, ?_⟩
      · rw [Int.cast_sub, Int.cast_natCast, Int.cast_natCast, bv_cast_toNat, hb, hL]
      · rw [hs] at hd ⊢; omega
      · rw [hs] at hd ⊢; omega
    · refine ⟨(d.toNat : Int), ?_, ?_, ?_⟩
      · rw [Int.cast_natCast, bv_cast_toNat]; exact sub_zero d
      · omega
      · omega
  obtain ⟨z, hz, h1, h2⟩ := key
  rw [hz, bv_toInt_cast, hL, Nat.add_sub_cancel]
  rw [Int.bmod_eq_of_le]
  · exact ⟨h1, h2⟩
  all_goals
    have : 2 * 2 ^ L ≤ 2 ^ w := by
      rw [← pow_succ']; exact Nat.pow_le_pow_right (by norm_num) (by omega)
    have c : ((2:Int) ^ L) = ((2 ^ L : Nat) : Int) := by push_cast; rfl
    have c' : ((2:Int) ^ w) = ((2 ^ w : Nat) : Int) := by push_cast; rfl
    rw [c] at h1 h2
    try push_cast
    try rw [c']
    omega

theorem dcmpLoop_length (g : GadgetParams w) (n : Nat) (u : BitVec w) (acc) :
    (dcmpLoop g n u acc).length = n + 1 + acc.length := by
  induction n generalizing u acc with
  | zero => simp [dcmpLoop]; omega
  | succ n ih => simp [dcmpLoop, ih]; omega

theorem dcmpLoop_digits (g : GadgetParams w) (P : BitVec w → Prop) (hP : ∀ u, P (dcmpDigit g u))
    (n : Nat) (u : BitVec w) (acc) (hacc : ∀ d ∈ acc, P d) : ∀ d ∈ dcmpLoop g n u acc, P d := by
  induction n generalizing u acc with
  | zero =>
    intro d hd
    simp only [dcmpLoop, List.mem_cons] at hd
    rcases hd with rfl | hd
    · exact hP _
    · exact hacc d hd
  | succ n ih =>
    simp only [dcmpLoop]
    apply ih
    intro d hd
    simp only [List.mem_cons] at hd
    rcases hd with rfl | hd
    · exact hP _
    · exact hacc d hd

theorem recompose_dcmpLoop (g : GadgetParams w) (h : g.Valid) (n : Nat) (u : BitVec w) (acc)
    (hn : (n + 1) * g.logBase ≤ w) :
    recomposeScalar g (dcmpLoop g n u acc) =
      u * 2 ^ (w - (n + 1) * g.logBase) + recomposeFrom g (n + 1) acc := by
  have hb : g.base = 2 ^ g.logBase := by
      rw [← bv_cast_toNat g.base, h.base_eq]; push_cast; rfl
  induction n generalizing u acc with
  | zero =>
    simp only [dcmpLoop, recomposeScalar, recomposeFrom, GadgetParams.logBaseQ, Nat.zero_add,
      Nat.one_mul] at *
    congr 1
    rw [shl_eq]
    conv_rhs => rw [dcmp_step g h u, add_mul, mul_assoc, hb, ← pow_add]
    rw [show g.logBase + (w - g.logBase) = w by omega, two_pow_self, mul_zero, add_zero]
  | succ n ih =>
    rw [dcmpLoop, ih _ _ (by nlinarith), recomposeFrom, GadgetParams.logBaseQ, shl_eq, ← add_assoc]
    congr 1
    conv_rhs => rw [dcmp_step g h u, add_mul, mul_assoc, hb, ← pow_add]
    rw [add_comm]
    congr 3
    rw [Nat.add_mul (n + 1) 1] at *
    omega

end Tfhe
