import Verif.Lemma.Gadget

/-!
# C01  Gadget decomposition is a bounded, balanced expansion
# C02  DivRoundBits rounds to nearest
-/
namespace Tfhe
variable {w : Nat}

/-- **C02.** `DivRoundBits(x, bits)` is the integer nearest to `x / 2^bits`, ties up. -/
theorem C02_divRoundBits_nearest (x : BitVec w) (bits : Nat) (h : bits < w) :
    NearestTiesUp x.toNat bits (divRoundBits x bits).toNat :=
  (nearestTiesUp_iff _ _ _).2 (toNat_divRoundBits x bits h)

/-- the nearest integer with ties up is unique, so C02 determines the result -/
theorem C02_nearest_unique (x b r r' : Nat) (h : NearestTiesUp x b r) (h' : NearestTiesUp x b r') :
    r = r' := by rw [(nearestTiesUp_iff _ _ _).1 h, (nearestTiesUp_iff _ _ _).1 h']

example : (3 : Nat) < 8 ∧ (divRoundBits 252#8 3).toNat = 32 := by decide
/-- at `bits = w` the claim is false (the code documents `bits < sizeT`) -/
example : ¬ NearestTiesUp (255#8).toNat (8 : Nat) (divRoundBits 255#8 8).toNat := by
  rw [nearestTiesUp_iff]; decide

/-- **C01 (a).** The decomposition has exactly `level` digits. -/
theorem C01_length (g : GadgetParams w) (hg : g.Valid) (x : BitVec w) :
    (decomposeScalar g x).length = g.level := by
  have := hg.level_pos
  rw [decomposeScalar, dcmpLoop_length]; simp; omega

/-- **C01 (b).** Every digit, read as a signed word, lies in `[-base/2, base/2)`. -/
theorem C01_digit_range (g : GadgetParams w) (hg : g.Valid) (x : BitVec w) :
    ∀ d ∈ decomposeScalar g x,
      -(g.base.toNat : Int) ≤ 2 * d.toInt ∧ 2 * d.toInt < g.base.toNat := by
  apply dcmpLoop_digits g
  · intro u
    have := dcmpDigit_toInt g hg u
    have e : (g.base.toNat : Int) = 2 * 2 ^ (g.logBase - 1) := by
      rw [hg.base_eq]
      have h1 := hg.logBase_pos
      have : 2 ^ g.logBase = 2 * 2 ^ (g.logBase - 1) := by rw [← pow_succ']; congr 1; omega
      rw [this]; push_cast; rfl
    rw [e]
    constructor <;> linarith
  · simp

/-- **C01 (c).** Recomposing the digits gives the input back up to half of the smallest
gadget scale `Q / base^level`, modulo `Q = 2^w`. -/
theorem C01_recompose (g : GadgetParams w) (hg : g.Valid) (x : BitVec w) :
    2 * wabs (recomposeScalar g (decomposeScalar g x) - x) ≤ 2 ^ (w - g.level * g.logBase) := by
  have h1 := hg.level_pos
  have h2 := hg.logBase_pos
  have h3 := hg.fits
  have h4 : 1 ≤ g.level * g.logBase := Nat.mul_le_mul h1 h2
  rw [decomposeScalar, recompose_dcmpLoop g hg _ _ _
    (by rw [Nat.sub_add_cancel h1, mul_comm]; exact h3), Nat.sub_add_cancel h1]
  simp only [recomposeFrom, GadgetParams.logLastBaseQ]
  have hlt : w - g.level * g.logBase < w := by
    rw [mul_comm] at h3; omega
  generalize w - g.level * g.logBase = b at *
  have hn := C02_divRoundBits_nearest x b hlt
  unfold NearestTiesUp at hn
  generalize divRoundBits x b = r at *
  have e : (r * 2 ^ b + 0#w - x) = (((r.toNat : Int) * 2 ^ b - x.toNat : Int) : BitVec w) := by
    push_cast
    rw [bv_cast_toNat, bv_cast_toNat]
    change r * 2 ^ b + 0 - x = _
    rw [add_zero]
  rw [e]
  have := wabs_cast_le (w := w) ((r.toNat : Int) * 2 ^ b - x.toNat)
  rw [Int.toNat_natCast] at hn
  generalize (r.toNat : Int) * 2 ^ b - x.toNat = z at *
  have c : ((2:Int) ^ b) = ((2 ^ b : Nat) : Int) := by push_cast; rfl
  rw [c] at hn
  omega

/-- A concrete compiled gadget: 32-bit words, base 2^4, level 3. -/
def exGadget : GadgetParams 32 := ⟨16#32, 4, 3⟩
theorem exGadget_valid : exGadget.Valid := by
  constructor <;> decide
example : (decomposeScalar exGadget 0x89ABCDEF#32).map BitVec.toInt = [-7, -6, -5] := by decide

end Tfhe
