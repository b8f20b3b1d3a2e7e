import Verif.Model.Params
import Verif.Props.C43

/-!
# C23: parameter compilation

The validity predicates below are stated over mathematical integers and do not mention the model of
`Compile`.
-/
namespace Tfhe

/-! ## Specification -/

/-- The `float64` with this bit pattern is a positive number (`+Inf` included). -/
def f64Pos (x : BitVec 64) : Prop := 0 < x.toNat ∧ x.toNat ≤ 0x7FF0000000000000

/-- A valid gadget: a power of two not below 2, at least one level, and `base ^ level <= Q = 2 ^ w`. -/
structure GadgetLit.Valid {w : ℕ} (p : GadgetLit w) : Prop where
  pow : ∃ k, 1 ≤ k ∧ p.base.toNat = 2 ^ k
  level : 1 ≤ p.level.toInt
  fits : p.base.toNat ^ p.level.toInt.toNat ≤ 2 ^ w

/-- A valid parameter literal: all constraints documented for the fields. -/
structure ParamsLit.Valid {w : ℕ} (p : ParamsLit w) : Prop where
  dim_pos : 1 ≤ p.lweDimension.toInt
  rank_pos : 1 ≤ p.glweRank.toInt
  poly : ∃ k, p.polyRank.toInt = 2 ^ k
  dim_le : p.lweDimension.toInt ≤ p.glweRank.toInt * p.polyRank.toInt
  lut : p.lutSize.toInt = 0 ∨
    (p.polyRank.toInt ≤ p.lutSize.toInt ∧ p.polyRank.toInt ∣ p.lutSize.toInt)
  lweStd : f64Pos p.lweStdDev
  glweStd : f64Pos p.glweStdDev
  block : p.blockSize.toInt = 0 ∨ (1 ≤ p.blockSize.toInt ∧ p.blockSize.toInt ∣ p.lweDimension.toInt)
  br : p.blindRotateParams.Valid
  ks : p.keySwitchParams.Valid
  order : p.bootstrapOrder.toInt = 0 ∨ p.bootstrapOrder.toInt = 1

/-! ## Helpers -/

theorem f64_leZero_iff (x : BitVec 64) (h : f64IsNaN x = false) :
    f64LeZero x = false ↔ f64Pos x := by
  unfold f64LeZero f64Pos
  rw [h]
  unfold f64IsNaN at h
  have hx := x.isLt
  have hm : x.msb = decide (2 ^ 63 ≤ x.toNat) := by rw [BitVec.msb_eq_decide]
  simp only [decide_eq_false_iff_not, not_lt] at h
  have h0 : (x == 0#64) = decide (x.toNat = 0) := by
    rw [Bool.eq_iff_iff]; simp [← BitVec.toNat_inj]
  rw [hm, h0]
  simp only [Bool.not_false, Bool.true_and, Bool.or_eq_false_iff, decide_eq_false_iff_not, not_le]
  omega

theorem isPowerOfTwoInt_iff (x : BitVec 64) :
    isPowerOfTwoInt x = true ↔ ∃ k, x.toInt = 2 ^ k := by
  have h := C43_isPowerOfTwo x
  unfold isPowerOfTwo at h
  unfold isPowerOfTwoInt
  have hx := x.isLt
  constructor
  · intro hh
    simp only [Bool.and_eq_true, decide_eq_true_eq] at hh h
    have hpos := hh.1
    have hn : x.toInt = (x.toNat : ℤ) := by
      rw [BitVec.toInt_eq_toNat_cond] at hpos ⊢
      split at hpos
      · rename_i h2; rw [if_pos h2]
      · omega
    obtain ⟨k, hk⟩ := h.1 ⟨by omega, hh.2⟩
    exact ⟨k, by rw [hn, hk]; push_cast; rfl⟩
  · rintro ⟨k, hk⟩
    have hpos : (0 : ℤ) < 2 ^ k := by positivity
    have hn : x.toInt = (x.toNat : ℤ) := by
      rw [BitVec.toInt_eq_toNat_cond] at hk ⊢
      split at hk
      · rename_i h2; rw [if_pos h2]
      · omega
    have := h.2 ⟨k, by have := hn.symm.trans hk; exact_mod_cast this⟩
    simp only [Bool.and_eq_true, decide_eq_true_eq] at this ⊢
    exact ⟨by omega, this.2⟩

theorem log2_pow (k : ℕ) : log2 ((2 : ℤ) ^ k) = some k := by
  have h := C43_log2 ((2 : ℤ) ^ k)
  have hpos : (0 : ℤ) < 2 ^ k := by positivity
  cases hl : log2 ((2 : ℤ) ^ k) with
  | none => have := h.1.1 hl; omega
  | some j =>
    obtain ⟨h1, h2⟩ := h.2 j hl
    have a : j ≤ k := (pow_le_pow_iff_right₀ (by norm_num)).1 h1
    have b : k < j + 1 := (pow_lt_pow_iff_right₀ (by norm_num)).1 h2
    congr 1; omega

theorem toInt_eq_toNat_of_nonneg (x : BitVec 64) (h : 0 ≤ x.toInt) : x.toInt = (x.toNat : ℤ) := by
  have hx := x.isLt
  rw [BitVec.toInt_eq_toNat_cond] at h ⊢
  split at h
  · rename_i h2; rw [if_pos h2]
  · omega

theorem toInt_mul_of_lt (x y : BitVec 64) (h0 : 0 ≤ x.toInt * y.toInt)
    (h1 : x.toInt * y.toInt < 2 ^ 63) : (x * y).toInt = x.toInt * y.toInt := by
  rw [BitVec.toInt_mul, Int.bmod_eq_of_le] <;> push_cast <;> omega

theorem toInt_ofNat_small (k : ℕ) (h : k < 2 ^ 63) : (BitVec.ofNat 64 k).toInt = k := by
  rw [toInt_eq_toNat_of_nonneg, BitVec.toNat_ofNat, Nat.mod_eq_of_lt (by omega)]
  rw [BitVec.toInt_eq_toNat_cond, BitVec.toNat_ofNat, Nat.mod_eq_of_lt (by omega), if_pos (by omega)]
  omega

/-! ## Gadget parameters -/

/-- The gadget literals for which `Log2(Base)*Level` does not overflow a Go `int`. -/
def GadgetLit.NoOverflow {w : ℕ} (p : GadgetLit w) : Prop :=
  ∀ k : ℕ, p.base.toNat = 2 ^ k → (k : ℤ) * p.level.toInt < 2 ^ 63

theorem gadget_compile_eq {w : ℕ} (p : GadgetLit w) (k : ℕ) (hw : w < 2 ^ 63) (hk : 1 ≤ k)
    (hb : p.base.toNat = 2 ^ k) (hl : 1 ≤ p.level.toInt) (ho : (k : ℤ) * p.level.toInt < 2 ^ 63) :
    p.compile = if (w : ℤ) < k * p.level.toInt then none
      else some { base := p.base, logBase := k, level := p.level.toNat } := by
  have h2 : 2 ≤ 2 ^ k := by
    calc 2 = 2 ^ 1 := rfl
      _ ≤ 2 ^ k := Nat.pow_le_pow_right (by norm_num) hk
  have hkw : k < w := by
    have := p.base.isLt
    rw [hb] at this
    exact (Nat.pow_lt_pow_iff_right (by norm_num)).1 this
  have hp : isPowerOfTwo p.base = true := (C43_isPowerOfTwo _).2 ⟨k, hb⟩
  have hlog : log2 (p.base.toNat : ℤ) = some k := by
    rw [hb]; push_cast; exact log2_pow k
  have hprod : (BitVec.ofNat 64 k * p.level).toInt = k * p.level.toInt := by
    have h := toInt_ofNat_small k (by omega)
    rw [toInt_mul_of_lt, h] <;> rw [h]
    · positivity
    · exact ho
  unfold GadgetLit.compile
  rw [if_neg (by omega), hp, if_neg (by simp), if_neg (by omega), hlog]
  simp only [Option.bind_some, hprod]

/-- Without overflow, `Compile` of gadget parameters accepts exactly the valid literals. -/
theorem C23_gadget_partial {w : ℕ} (hw : w < 2 ^ 63) (p : GadgetLit w) (ho : p.NoOverflow) :
    p.compile.isSome ↔ p.Valid := by
  have key : ∀ k : ℕ, p.base.toNat = 2 ^ k → 1 ≤ p.level.toInt →
      (p.base.toNat ^ p.level.toInt.toNat ≤ 2 ^ w ↔ (k : ℤ) * p.level.toInt ≤ w) := by
    intro k hk hl
    rw [hk, ← pow_mul, Nat.pow_le_pow_iff_right (by norm_num)]
    have : (p.level.toInt.toNat : ℤ) = p.level.toInt := Int.toNat_of_nonneg (by omega)
    rw [← this]
    constructor <;> intro h <;> exact_mod_cast h
  constructor
  · intro h
    by_cases h1 : p.base.toNat < 2
    · simp [GadgetLit.compile, h1] at h
    by_cases h2 : isPowerOfTwo p.base = true
    · obtain ⟨k, hk⟩ := (C43_isPowerOfTwo _).1 h2
      by_cases h3 : p.level.toInt ≤ 0
      · simp [GadgetLit.compile, h3] at h
      · have hk1 : 1 ≤ k := by
          by_contra hc
          have : k = 0 := by omega
          rw [hk, this] at h1; simp at h1
        rw [gadget_compile_eq p k hw hk1 hk (by omega) (ho k hk)] at h
        split at h
        · simp at h
        · rename_i h4
          exact ⟨⟨k, hk1, hk⟩, by omega, (key k hk (by omega)).2 (by omega)⟩
    · simp [GadgetLit.compile, h1, h2] at h
  · rintro ⟨⟨k, hk1, hk⟩, hl, hf⟩
    rw [gadget_compile_eq p k hw hk1 hk hl (ho k hk), if_neg]
    · rfl
    · have := (key k hk hl).1 hf
      omega

/-- Compiled gadget parameters satisfy what decomposition and encryption rely on. -/
theorem C23_gadget_sound_partial {w : ℕ} (hw : w < 2 ^ 63) (p : GadgetLit w) (ho : p.NoOverflow)
    (g : GadgetParams w) (h : p.compile = some g) :
    g.Valid ∧ g.base = p.base ∧ (g.level : ℤ) = p.level.toInt := by
  have hv := (C23_gadget_partial hw p ho).1 (by rw [h]; rfl)
  obtain ⟨k, hk1, hk⟩ := hv.pow
  have hl := hv.level
  rw [gadget_compile_eq p k hw hk1 hk hl (ho k hk)] at h
  split at h
  · simp at h
  · rename_i h4
    simp only [Option.some.injEq] at h
    subst h
    have hn := toInt_eq_toNat_of_nonneg p.level (by omega)
    refine ⟨⟨hk1, hk, by show 1 ≤ p.level.toNat; omega, ?_⟩, rfl, hn.symm⟩
    show k * p.level.toNat ≤ w
    rw [hn] at h4
    zify
    omega

/-- The full statement (acceptance means validity) is false: `Base = 4`, `Level = 2^62` is accepted,
because `Log2(Base)*Level` overflows to a negative number. -/
theorem C23_gadget_false : ¬ ∀ p : GadgetLit 64, p.compile.isSome → p.Valid := by
  intro h
  have := (h ⟨4, 0x4000000000000000⟩ (by decide +kernel)).fits
  have e1 : (BitVec.toNat (4 : BitVec 64)) = 2 ^ 2 := by decide +kernel
  have e2 : (BitVec.toInt (0x4000000000000000 : BitVec 64)).toNat = 2 ^ 62 := by decide +kernel
  rw [e1, e2, ← pow_mul, Nat.pow_le_pow_iff_right (by norm_num)] at this
  norm_num at this

/-- The gadget of the default parameters is valid, does not overflow, and compiles. -/
example : (⟨0x200, 3⟩ : GadgetLit 32).NoOverflow ∧ (⟨0x200, 3⟩ : GadgetLit 32).Valid ∧
    (⟨0x200, 3⟩ : GadgetLit 32).compile = some ⟨0x200, 9, 3⟩ := by
  refine ⟨?_, ⟨⟨9, by norm_num, by decide +kernel⟩, by decide +kernel, by decide +kernel⟩,
    by decide +kernel⟩
  intro k hk
  have h1 : (BitVec.toNat (0x200 : BitVec 32)) = 2 ^ 9 := by decide +kernel
  have h2 : (BitVec.toInt (3 : BitVec 64)) = 3 := by decide +kernel
  have : k = 9 := Nat.pow_right_injective (le_refl 2) (hk.symm.trans h1)
  simp only [h2, this]; norm_num

/-! ## Parameters -/

/-- The literals without the two things `Compile` gets wrong: `GLWERank*PolyRank` or a gadget
precision overflowing a Go `int`, and a NaN as standard deviation. -/
structure ParamsLit.NoOverflow {w : ℕ} (p : ParamsLit w) : Prop where
  dim : |p.glweRank.toInt * p.polyRank.toInt| < 2 ^ 63
  lweStd : f64IsNaN p.lweStdDev = false
  glweStd : f64IsNaN p.glweStdDev = false
  br : p.blindRotateParams.NoOverflow
  ks : p.keySwitchParams.NoOverflow

theorem srem_eq_zero_iff (x y : BitVec 64) : x.srem y = 0 ↔ y.toInt ∣ x.toInt := by
  rw [← BitVec.toInt_inj, BitVec.toInt_srem, Int.dvd_iff_tmod_eq_zero]
  simp

theorem toInt_eq_zero_iff (x : BitVec 64) : x = 0 ↔ x.toInt = 0 := by
  rw [← BitVec.toInt_inj]; simp

theorem toInt_mul_abs (x y : BitVec 64) (h : |x.toInt * y.toInt| < 2 ^ 63) :
    (x * y).toInt = x.toInt * y.toInt := by
  have := abs_lt.1 h
  rw [BitVec.toInt_mul, Int.bmod_eq_of_le] <;> push_cast <;> omega

theorem bad_eq_false_iff {w : ℕ} (p : ParamsLit w) :
    p.bad = false ↔
      0 < p.lweDimension.toInt ∧ p.lweDimension.toInt ≤ (p.glweRank * p.polyRank).toInt ∧
      0 < p.glweRank.toInt ∧ p.polyRank.toInt ≤ p.lutSize.toInt ∧
      f64LeZero p.lweStdDev = false ∧ f64LeZero p.glweStdDev = false ∧ 0 < p.blockSize.toInt ∧
      p.blockSize.toInt ∣ p.lweDimension.toInt ∧ p.polyRank.toInt ∣ p.lutSize.toInt ∧
      (∃ k, p.polyRank.toInt = 2 ^ k) ∧
      (p.bootstrapOrder.toInt = 0 ∨ p.bootstrapOrder.toInt = 1) := by
  have h1 : ∀ x : BitVec 64, x = 1 ↔ x.toInt = 1 := fun x => by rw [← BitVec.toInt_inj]; simp
  have hp : p.polyRank ≠ 0 ∨ ¬ ∃ k, p.polyRank.toInt = 2 ^ k := by
    by_cases h : p.polyRank = 0
    · right
      rintro ⟨k, hk⟩
      rw [h] at hk
      have : (0 : ℤ) < 2 ^ k := by positivity
      simp at hk
      omega
    · exact Or.inl h
  unfold ParamsLit.bad
  have hite : ∀ (c : Prop) [Decidable c] (b : Bool),
      (if c then true else b) = false ↔ ¬ c ∧ b = false := by
    intro c _ b; split <;> simp_all
  simp only [hite, ← isPowerOfTwoInt_iff, ← srem_eq_zero_iff, ← toInt_eq_zero_iff, ← h1, not_le,
    not_lt, ne_eq, not_not, Bool.not_eq_false, Bool.not_eq_eq_eq_not,
    Bool.not_true, Bool.not_false, Bool.or_eq_true, beq_iff_eq, Bool.not_eq_true]
  rw [← isPowerOfTwoInt_iff] at hp
  constructor
  · rintro ⟨a1, a2, a3, a4, a5, a6, a7, a8, _, a10, a11, a12⟩
    exact ⟨a1, a2, a3, a4, a5, a6, a7, a8, a10, a11, a12⟩
  · rintro ⟨a1, a2, a3, a4, a5, a6, a7, a8, a10, a11, a12⟩
    exact ⟨a1, a2, a3, a4, a5, a6, a7, a8, hp.resolve_right (fun h => h a11), a10, a11, a12⟩

/-- Without overflow and NaN, `Compile` accepts exactly the valid literals. -/
theorem C23_compile_partial {w : ℕ} (hw : w < 2 ^ 63) (impl : BitVec w) (p : ParamsLit w)
    (ho : p.NoOverflow) : (p.compile impl).isSome ↔ p.Valid := by
  have hmul := toInt_mul_abs _ _ ho.dim
  have hbr := C23_gadget_partial hw _ ho.br
  have hks := C23_gadget_partial hw _ ho.ks
  have hbad := bad_eq_false_iff p.defaults
  have hs : (p.compile impl).isSome ↔ p.defaults.bad = false ∧
      p.blindRotateParams.compile.isSome ∧ p.keySwitchParams.compile.isSome := by
    unfold ParamsLit.compile
    simp only
    by_cases hb : p.defaults.bad = true
    · simp [hb]
    · rw [if_neg hb]
      have hb' : p.defaults.bad = false := by simpa using hb
      obtain ⟨k, hk⟩ := (hbad.1 hb').2.2.2.2.2.2.2.2.2.1
      rw [hk, log2_pow]
      simp only [Option.bind_some, hb', true_and]
      change ((p.blindRotateParams.compile.bind _).isSome) ↔ _
      cases p.blindRotateParams.compile with
      | none => simp
      | some br =>
        simp only [Option.bind_some, Option.isSome_some, true_and]
        change ((p.keySwitchParams.compile.bind _).isSome = true) ↔ _
        cases p.keySwitchParams.compile <;> simp
  rw [hs, hbr, hks, hbad]
  have e1 : p.defaults.lutSize.toInt =
      if p.lutSize.toInt = 0 then p.polyRank.toInt else p.lutSize.toInt := by
    unfold ParamsLit.defaults
    simp only [toInt_eq_zero_iff]
    split <;> rfl
  have e2 : p.defaults.blockSize.toInt =
      if p.blockSize.toInt = 0 then 1 else p.blockSize.toInt := by
    unfold ParamsLit.defaults
    simp only [toInt_eq_zero_iff]
    split <;> rfl
  rw [e1, e2]
  change (0 < p.lweDimension.toInt ∧ p.lweDimension.toInt ≤ (p.glweRank * p.polyRank).toInt ∧
      0 < p.glweRank.toInt ∧ p.polyRank.toInt ≤ _ ∧
      f64LeZero p.lweStdDev = false ∧ f64LeZero p.glweStdDev = false ∧ 0 < _ ∧
      _ ∣ p.lweDimension.toInt ∧ p.polyRank.toInt ∣ _ ∧
      (∃ k, p.polyRank.toInt = 2 ^ k) ∧
      (p.bootstrapOrder.toInt = 0 ∨ p.bootstrapOrder.toInt = 1)) ∧ _ ∧ _ ↔ _
  rw [hmul, f64_leZero_iff _ ho.lweStd, f64_leZero_iff _ ho.glweStd]
  constructor
  · rintro ⟨⟨a1, a2, a3, a4, a5, a6, a7, a8, a9, a10, a11⟩, b, c⟩
    refine ⟨by omega, by omega, a10, a2, ?_, a5, a6, ?_, b, c, a11⟩
    · by_cases h : p.lutSize.toInt = 0
      · exact Or.inl h
      · rw [if_neg h] at a4 a9; exact Or.inr ⟨a4, a9⟩
    · by_cases h : p.blockSize.toInt = 0
      · exact Or.inl h
      · rw [if_neg h] at a7 a8; exact Or.inr ⟨by omega, a8⟩
  · rintro ⟨a1, a2, a3, a4, a5, a6, a7, a8, a9, a10, a11⟩
    have hpos : 0 < p.polyRank.toInt := by
      obtain ⟨k, hk⟩ := a3
      rw [hk]; positivity
    have c1 : p.polyRank.toInt ≤ (if p.lutSize.toInt = 0 then p.polyRank.toInt else p.lutSize.toInt)
        ∧ p.polyRank.toInt ∣ (if p.lutSize.toInt = 0 then p.polyRank.toInt else p.lutSize.toInt) := by
      split
      · exact ⟨le_refl _, dvd_refl _⟩
      · rename_i h; exact a5.resolve_left h
    have c2 : 0 < (if p.blockSize.toInt = 0 then 1 else p.blockSize.toInt)
        ∧ (if p.blockSize.toInt = 0 then 1 else p.blockSize.toInt) ∣ p.lweDimension.toInt := by
      split
      · exact ⟨by norm_num, one_dvd _⟩
      · rename_i h
        have := a8.resolve_left h
        exact ⟨by omega, this.2⟩
    exact ⟨⟨by omega, a4, by omega, c1.1, a6, a7, c2.1, c2.2, c1.2, a3, a11⟩, a9, a10⟩

/-- What the rest of the library relies on in compiled parameters. -/
structure Params.Sound {w : ℕ} (p : Params w) : Prop where
  dim_pos : 0 < p.lweDimension.toInt
  rank_pos : 0 < p.glweRank.toInt
  poly : p.polyRank.toInt = 2 ^ p.logPolyRank
  dim_le : p.lweDimension.toInt ≤ p.glweDimension.toInt
  lut : p.lutSize.toInt = p.lutExtendFactor.toInt * p.polyRank.toInt
  factor_pos : 0 < p.lutExtendFactor.toInt
  block_pos : 0 < p.blockSize.toInt
  block : p.lweDimension.toInt = p.blockSize.toInt * p.blockCount.toInt
  lweStd : f64LeZero p.lweStdDev = false
  glweStd : f64LeZero p.glweStdDev = false
  order : p.bootstrapOrder.toInt = 0 ∨ p.bootstrapOrder.toInt = 1

theorem sdiv_exact (x y : BitVec 64) (hy : 0 < y.toInt) (h : y.toInt ∣ x.toInt) :
    (x.sdiv y).toInt * y.toInt = x.toInt := by
  rw [BitVec.toInt_sdiv_of_ne_or_ne]
  · exact Int.tdiv_mul_cancel h
  · right
    intro hc
    rw [hc] at hy
    simp at hy

theorem compile_inv {w : ℕ} (impl : BitVec w) (lit : ParamsLit w) (p : Params w)
    (h : lit.compile impl = some p) :
    lit.defaults.bad = false ∧ ∃ lr br ks, log2 lit.polyRank.toInt = some lr ∧
      lit.blindRotateParams.compile = some br ∧ lit.keySwitchParams.compile = some ks ∧
      p = { lweDimension := lit.lweDimension
            glweDimension := lit.glweRank * lit.polyRank
            glweRank := lit.glweRank
            polyRank := lit.polyRank
            logPolyRank := lr
            lutSize := lit.defaults.lutSize
            lutExtendFactor := lit.defaults.lutSize.sdiv lit.polyRank
            lweStdDev := lit.lweStdDev
            glweStdDev := lit.glweStdDev
            blockSize := lit.defaults.blockSize
            blockCount := lit.lweDimension.sdiv lit.defaults.blockSize
            messageModulus := lit.messageModulus
            scale := ((compileScale w lit.messageModulus.toNat).map (BitVec.ofNat w)).getD impl
            blindRotateParams := br
            keySwitchParams := ks
            bootstrapOrder := lit.bootstrapOrder } := by
  unfold ParamsLit.compile at h
  simp only at h
  by_cases hb : lit.defaults.bad = true
  · simp [hb] at h
  · rw [if_neg hb] at h
    refine ⟨by simpa using hb, ?_⟩
    rw [Option.bind_eq_some_iff] at h
    obtain ⟨lr, hlr, h⟩ := h
    rw [Option.bind_eq_some_iff] at h
    obtain ⟨br, hbr, h⟩ := h
    rw [Option.bind_eq_some_iff] at h
    obtain ⟨ks, hks, h⟩ := h
    exact ⟨lr, br, ks, hlr, hbr, hks, (Option.some.inj h).symm⟩

/-- Whatever literal was compiled (overflow or not), the compiled parameters are consistent. -/
theorem C23_sound {w : ℕ} (impl : BitVec w) (lit : ParamsLit w) (p : Params w)
    (h : lit.compile impl = some p) : p.Sound := by
  obtain ⟨hb, lr, br, ks, hlr, _, _, hp⟩ := compile_inv impl lit p h
  obtain ⟨a1, a2, a3, a4, a5, a6, a7, a8, a9, ⟨k, a10⟩, a11⟩ := (bad_eq_false_iff _).1 hb
  have e : lit.defaults.polyRank = lit.polyRank := rfl
  have hpos : 0 < lit.polyRank.toInt := by rw [← e, a10]; positivity
  rw [← e, a10, log2_pow] at hlr
  subst hp
  have hL := sdiv_exact lit.defaults.lutSize lit.polyRank hpos a9
  have hn := sdiv_exact lit.lweDimension lit.defaults.blockSize a7 a8
  refine ⟨a1, a3, ?_, a2, hL.symm, ?_, a7, ?_, a5, a6, a11⟩
  · rw [← Option.some.inj hlr]; exact a10
  · have : 0 < lit.defaults.lutSize.toInt := lt_of_lt_of_le hpos a4
    by_contra hc
    rw [← hL] at this
    nlinarith [this]
  · exact hn.symm.trans (mul_comm _ _)

/-- Without overflow the GLWE dimension is the product and both gadgets are valid. -/
theorem C23_sound_partial {w : ℕ} (hw : w < 2 ^ 63) (impl : BitVec w) (lit : ParamsLit w)
    (ho : lit.NoOverflow) (p : Params w) (h : lit.compile impl = some p) :
    p.glweDimension.toInt = p.glweRank.toInt * p.polyRank.toInt ∧
      p.blindRotateParams.Valid ∧ p.keySwitchParams.Valid := by
  obtain ⟨_, lr, br, ks, _, hbr, hks, hp⟩ := compile_inv impl lit p h
  subst hp
  exact ⟨toInt_mul_abs _ _ ho.dim, (C23_gadget_sound_partial hw _ ho.br br hbr).1,
    (C23_gadget_sound_partial hw _ ho.ks ks hks).1⟩

theorem gadget_literal {w : ℕ} (p : GadgetLit w) (g : GadgetParams w) (h : p.compile = some g) :
    g.literal = p := by
  unfold GadgetLit.compile at h
  split at h
  · simp at h
  split at h
  · simp at h
  split at h
  · simp at h
  rw [Option.bind_eq_some_iff] at h
  obtain ⟨lb, _, h⟩ := h
  split at h
  · simp at h
  · simp only [Option.some.injEq] at h
    subst h
    simp [GadgetParams.literal]

theorem defaults_id {w : ℕ} (p : ParamsLit w) (hL : p.lutSize ≠ 0) (hB : p.blockSize ≠ 0) :
    p.defaults = p := by
  unfold ParamsLit.defaults
  rw [if_neg hL, if_neg hB]

/-- `Literal()` of compiled parameters compiles to the same parameters, always. -/
theorem C23_literal {w : ℕ} (impl : BitVec w) (lit : ParamsLit w) (p : Params w)
    (h : lit.compile impl = some p) : p.literal.compile impl = some p := by
  obtain ⟨hb, lr, br, ks, hlr, hbr, hks, hp⟩ := compile_inv impl lit p h
  have hL : lit.defaults.lutSize ≠ 0 := by
    obtain ⟨a1, a2, a3, a4, a5, a6, a7, a8, a9, ⟨k, a10⟩, a11⟩ := (bad_eq_false_iff _).1 hb
    intro hc
    rw [hc, a10] at a4
    have : (0 : ℤ) < 2 ^ k := by positivity
    simp at a4
    omega
  have hB : lit.defaults.blockSize ≠ 0 := by
    obtain ⟨a1, a2, a3, a4, a5, a6, a7, a8, a9, ⟨k, a10⟩, a11⟩ := (bad_eq_false_iff _).1 hb
    intro hc
    rw [hc] at a7
    simp at a7
  have hl : p.literal = lit.defaults := by
    subst hp
    unfold Params.literal
    simp only [gadget_literal _ _ hbr, gadget_literal _ _ hks]
    rfl
  have hd : lit.defaults.defaults = lit.defaults := by
    exact defaults_id _ hL hB
  rw [hl]
  unfold ParamsLit.compile at h ⊢
  simp only [hd] at h ⊢
  exact h

/-- A small literal meeting every constraint (as in the default sets: `N = 1024`, order
`BlindRotateKeySwitch`, defaults for LUT and block size). -/
def exLit : ParamsLit 32 :=
  { lweDimension := 687, glweRank := 3, polyRank := 512, lutSize := 0
    lweStdDev := 0x3EE0C6F7A0B5ED8D, glweStdDev := 0x3E4A36E2EB1C432D, blockSize := 3
    messageModulus := 4
    blindRotateParams := ⟨0x40000, 1⟩, keySwitchParams := ⟨0x10, 3⟩, bootstrapOrder := 1 }

theorem exLit_gadget (b : BitVec 32) (k : ℕ) (l : BitVec 64) (hb : b.toNat = 2 ^ k)
    (h : (k : ℤ) * l.toInt < 2 ^ 63) : (⟨b, l⟩ : GadgetLit 32).NoOverflow := by
  intro j hj
  have : j = k := Nat.pow_right_injective (le_refl 2) (hj.symm.trans hb)
  rw [this]; exact h

theorem exLit_noOverflow : exLit.NoOverflow :=
  ⟨by decide +kernel, by decide +kernel, by decide +kernel,
    exLit_gadget _ 18 _ (by decide +kernel) (by decide +kernel),
    exLit_gadget _ 4 _ (by decide +kernel) (by decide +kernel)⟩

/-- Non-vacuity: the literal is valid, does not overflow and compiles, and so does its `Literal()`. -/
example : exLit.NoOverflow ∧ exLit.Valid ∧ (exLit.compile 0).isSome ∧
    (exLit.compile 0).bind (fun p => p.literal.compile 0) = exLit.compile 0 := by
  have hs : (exLit.compile 0).isSome := by
    have h : exLit.Valid :=
      ⟨by decide +kernel, by decide +kernel, ⟨9, by decide +kernel⟩, by decide +kernel,
        by decide +kernel, by unfold f64Pos; decide +kernel, by unfold f64Pos; decide +kernel,
        by decide +kernel,
        ⟨⟨18, by norm_num, by decide +kernel⟩, by decide +kernel, by decide +kernel⟩,
        ⟨⟨4, by norm_num, by decide +kernel⟩, by decide +kernel, by decide +kernel⟩,
        by decide +kernel⟩
    exact (C23_compile_partial (by norm_num) 0 exLit exLit_noOverflow).2 h
  refine ⟨exLit_noOverflow, (C23_compile_partial (by norm_num) 0 _ exLit_noOverflow).1 hs, hs, ?_⟩
  obtain ⟨p, hp⟩ := Option.isSome_iff_exists.1 hs
  rw [hp, Option.bind_some, C23_literal 0 exLit p hp]

/-- The full statement is false in both directions: a NaN standard deviation is accepted, and a
valid literal whose `GLWERank*PolyRank` overflows is rejected. -/
theorem C23_compile_false :
    (¬ ∀ p : ParamsLit 32, (p.compile 0).isSome → p.Valid) ∧
      ¬ ∀ p : ParamsLit 32, p.Valid → (p.compile 0).isSome := by
  constructor
  · intro h
    have := (h { exLit with lweStdDev := 0x7FF8000000000001 } (by
      simp only [ParamsLit.compile]
      rw [if_neg (by decide +kernel)]
      decide +kernel)).lweStd
    revert this
    unfold f64Pos
    decide +kernel
  · intro h
    have hv : ({ exLit with glweRank := 0x40000000000000 } : ParamsLit 32).Valid :=
      ⟨by decide +kernel, by decide +kernel, ⟨9, by decide +kernel⟩, by decide +kernel,
        by decide +kernel, by unfold f64Pos; decide +kernel, by unfold f64Pos; decide +kernel,
        by decide +kernel,
        ⟨⟨18, by norm_num, by decide +kernel⟩, by decide +kernel, by decide +kernel⟩,
        ⟨⟨4, by norm_num, by decide +kernel⟩, by decide +kernel, by decide +kernel⟩,
        by decide +kernel⟩
    have := h _ hv
    simp only [ParamsLit.compile] at this
    rw [if_pos (by decide +kernel)] at this
    simp at this

/-- Not every constraint the library relies on is checked: `PolyRank = 8` compiles, but no
polynomial of that rank can be created (`poly.NewPoly` panics below rank 16). -/
theorem C23_rank_false :
    ¬ ∀ (lit : ParamsLit 32) (p : Params 32), lit.compile 0 = some p →
      (newPolyRank p.polyRank).isSome := by
  intro h
  have hc : (({ exLit with polyRank := 8, lweDimension := 24 } : ParamsLit 32).compile 0).isSome := by
    simp only [ParamsLit.compile]
    rw [if_neg (by decide +kernel)]
    decide +kernel
  obtain ⟨p, hp⟩ := Option.isSome_iff_exists.1 hc
  have hr := h _ p hp
  obtain ⟨_, lr, br, ks, _, _, _, hq⟩ := compile_inv _ _ _ hp
  have e : p.polyRank = 8 := by rw [hq]
  rw [e] at hr
  revert hr
  decide +kernel

/-! ## Multi-key, many-LUT and sanitization parameters -/

/-- `mktfhe` parameters: accepted exactly when the single-key literal is, with rank 1, a table of the
size of the rank, at least one party and two valid gadgets. -/
theorem C23_mk_partial {w : ℕ} (hw : w < 2 ^ 63) (impl : BitVec w) (p : MKParamsLit w)
    (ho : p.subParams.NoOverflow) (ha : p.accumulatorParams.NoOverflow)
    (hr : p.relinKeyParams.NoOverflow) :
    (p.compile impl).isSome ↔
      p.subParams.Valid ∧ 1 ≤ p.partyCount.toInt ∧ p.subParams.glweRank.toInt = 1 ∧
      (p.subParams.lutSize.toInt = 0 ∨ p.subParams.lutSize.toInt = p.subParams.polyRank.toInt) ∧
      p.accumulatorParams.Valid ∧ p.relinKeyParams.Valid := by
  rw [← C23_compile_partial hw impl _ ho, ← C23_gadget_partial hw _ ha, ← C23_gadget_partial hw _ hr]
  unfold MKParamsLit.compile
  cases hs : p.subParams.compile impl with
  | none => simp
  | some sub =>
    obtain ⟨_, lr, br, ks, _, _, _, hq⟩ := compile_inv _ _ _ hs
    have e1 : sub.glweRank = p.subParams.glweRank := by rw [hq]
    have e2 : sub.polyRank = p.subParams.polyRank := by rw [hq]
    have e3 : sub.lutSize = p.subParams.defaults.lutSize := by rw [hq]
    have h1 : p.subParams.glweRank = 1 ↔ p.subParams.glweRank.toInt = 1 := by
      rw [← BitVec.toInt_inj]; simp
    have h2 : p.subParams.defaults.lutSize = p.subParams.polyRank ↔
        (p.subParams.lutSize.toInt = 0 ∨
          p.subParams.lutSize.toInt = p.subParams.polyRank.toInt) := by
      unfold ParamsLit.defaults
      rw [← toInt_eq_zero_iff, BitVec.toInt_inj]
      simp only
      split <;> simp_all
    rw [← h1, ← h2]
    simp only [Option.bind_some, Option.isSome_some, true_and, e1, e2, e3]
    split
    · simp only [Option.isSome_none, Bool.false_eq_true, false_iff]; rintro ⟨h, -⟩; omega
    split
    · simp_all
    split
    · simp_all
    cases p.accumulatorParams.compile <;> cases p.relinKeyParams.compile <;> (simp_all; try omega)

/-- `Literal()` of compiled multi-key parameters compiles to the same parameters. -/
theorem C23_mk_literal {w : ℕ} (impl : BitVec w) (lit : MKParamsLit w) (p : MKParams w)
    (h : lit.compile impl = some p) : p.literal.compile impl = some p := by
  unfold MKParamsLit.compile at h
  rw [Option.bind_eq_some_iff] at h
  obtain ⟨sub, hs, h⟩ := h
  split at h
  · simp at h
  split at h
  · simp at h
  split at h
  · simp at h
  rename_i h1 h2 h3
  rw [Option.bind_eq_some_iff] at h
  obtain ⟨acc, hacc, h⟩ := h
  rw [Option.bind_eq_some_iff] at h
  obtain ⟨rel, hrel, h⟩ := h
  simp only [Option.some.injEq] at h
  subst h
  unfold MKParams.literal MKParamsLit.compile
  simp only [C23_literal impl _ _ hs, gadget_literal _ _ hacc, gadget_literal _ _ hrel,
    Option.bind_some, hacc, hrel, if_neg h1, if_neg h2, if_neg h3]

/-- Many-LUT parameters: accepted exactly when the base literal is, with a table of the size of the
rank and a power of two of tables; the stored logarithm is exact. -/
theorem C23_manyLUT_partial {w : ℕ} (hw : w < 2 ^ 63) (impl : BitVec w) (p : ManyLUTLit w)
    (ho : p.baseParams.NoOverflow) :
    ((p.compile impl).isSome ↔
      p.baseParams.Valid ∧
      (p.baseParams.lutSize.toInt = 0 ∨ p.baseParams.lutSize.toInt = p.baseParams.polyRank.toInt) ∧
      ∃ k, p.lutCount.toInt = 2 ^ k) ∧
      ∀ q, p.compile impl = some q → p.lutCount.toInt = 2 ^ q.logLUTCount := by
  rw [← C23_compile_partial hw impl _ ho]
  unfold ManyLUTLit.compile
  cases hs : p.baseParams.compile impl with
  | none => simp
  | some sub =>
    obtain ⟨_, lr, br, ks, _, _, _, hq⟩ := compile_inv _ _ _ hs
    have e2 : sub.polyRank = p.baseParams.polyRank := by rw [hq]
    have e3 : sub.lutSize = p.baseParams.defaults.lutSize := by rw [hq]
    have h2 : p.baseParams.polyRank = p.baseParams.defaults.lutSize ↔
        (p.baseParams.lutSize.toInt = 0 ∨
          p.baseParams.lutSize.toInt = p.baseParams.polyRank.toInt) := by
      unfold ParamsLit.defaults
      rw [← toInt_eq_zero_iff, BitVec.toInt_inj, eq_comm]
      simp only
      split <;> simp_all
    rw [← h2, ← isPowerOfTwoInt_iff]
    simp only [Option.bind_some, Option.isSome_some, true_and, e2, e3]
    split
    · simp_all
    split
    · simp_all
    · rename_i hc
      have hc' : isPowerOfTwoInt p.lutCount = true := by simpa using hc
      obtain ⟨k, hk⟩ := (isPowerOfTwoInt_iff _).1 hc'
      rw [hk, log2_pow]
      rename_i hne
      refine ⟨⟨fun _ => ⟨not_not.1 hne, hc'⟩, fun _ => rfl⟩, ?_⟩
      intro q hq
      simp only [Option.bind_some, Option.some.injEq] at hq
      rw [← hq]

/-- Sanitization parameters: accepted exactly when the base literal is, with rank 1, a table of the
size of the rank, order `KeySwitchBlindRotate` and positive deviations. -/
theorem C23_sanitization_partial {w : ℕ} (hw : w < 2 ^ 63) (impl : BitVec w) (p : SanitizationLit w)
    (ho : p.baseParams.NoOverflow) (n1 : f64IsNaN p.randSigma = false)
    (n2 : f64IsNaN p.randTau = false) (n3 : f64IsNaN p.linEvalSigma = false)
    (n4 : f64IsNaN p.linEvalTau = false) :
    (p.compile impl).isSome ↔
      p.baseParams.Valid ∧ p.baseParams.glweRank.toInt = 1 ∧
      (p.baseParams.lutSize.toInt = 0 ∨ p.baseParams.lutSize.toInt = p.baseParams.polyRank.toInt) ∧
      p.baseParams.bootstrapOrder.toInt = 0 ∧
      f64Pos p.randSigma ∧ f64Pos p.randTau ∧ f64Pos p.linEvalSigma ∧ f64Pos p.linEvalTau := by
  rw [← C23_compile_partial hw impl _ ho, ← f64_leZero_iff _ n1, ← f64_leZero_iff _ n2,
    ← f64_leZero_iff _ n3, ← f64_leZero_iff _ n4]
  unfold SanitizationLit.compile
  cases hs : p.baseParams.compile impl with
  | none => simp
  | some sub =>
    obtain ⟨_, lr, br, ks, _, _, _, hq⟩ := compile_inv _ _ _ hs
    have e1 : sub.glweRank = p.baseParams.glweRank := by rw [hq]
    have e2 : sub.polyRank = p.baseParams.polyRank := by rw [hq]
    have e3 : sub.lutSize = p.baseParams.defaults.lutSize := by rw [hq]
    have e4 : sub.bootstrapOrder = p.baseParams.bootstrapOrder := by rw [hq]
    have h1 : p.baseParams.glweRank = 1 ↔ p.baseParams.glweRank.toInt = 1 := by
      rw [← BitVec.toInt_inj]; simp
    have h2 : p.baseParams.polyRank = p.baseParams.defaults.lutSize ↔
        (p.baseParams.lutSize.toInt = 0 ∨
          p.baseParams.lutSize.toInt = p.baseParams.polyRank.toInt) := by
      unfold ParamsLit.defaults
      rw [← toInt_eq_zero_iff, BitVec.toInt_inj, eq_comm]
      simp only
      split <;> simp_all
    rw [← h1, ← h2, ← toInt_eq_zero_iff]
    simp only [Option.bind_some, Option.isSome_some, true_and, e1, e2, e3, e4]
    have hite : ∀ (c : Prop) [Decidable c] (b : Option (Params w)),
        (if c then none else b).isSome = true ↔ ¬ c ∧ b.isSome = true := by
      intro c _ b; split <;> simp_all
    simp only [hite, ne_eq, not_not, Bool.not_eq_true, Option.isSome_some, and_true]

/-- Non-vacuity of the three: extensions of a rank-1 literal compile. -/
example :
    let b : ParamsLit 32 := { exLit with glweRank := 1, polyRank := 1024, bootstrapOrder := 0 }
    b.NoOverflow ∧
    ((⟨b, 2, ⟨0x40, 3⟩, ⟨0x100, 2⟩⟩ : MKParamsLit 32).compile 0).isSome ∧
    ((⟨b, 4⟩ : ManyLUTLit 32).compile 0).isSome ∧
    ((⟨b, 1, 1, 1, 1⟩ : SanitizationLit 32).compile 0).isSome := by
  intro b
  have ho : b.NoOverflow := ⟨by decide +kernel, by decide +kernel, by decide +kernel,
    exLit_gadget _ 18 _ (by decide +kernel) (by decide +kernel),
    exLit_gadget _ 4 _ (by decide +kernel) (by decide +kernel)⟩
  have hv : b.Valid :=
    ⟨by decide +kernel, by decide +kernel, ⟨10, by decide +kernel⟩, by decide +kernel,
        by decide +kernel, by unfold f64Pos; decide +kernel, by unfold f64Pos; decide +kernel,
        by decide +kernel,
        ⟨⟨18, by norm_num, by decide +kernel⟩, by decide +kernel, by decide +kernel⟩,
        ⟨⟨4, by norm_num, by decide +kernel⟩, by decide +kernel, by decide +kernel⟩,
        by decide +kernel⟩
  refine ⟨ho, ?_, ?_, ?_⟩
  · refine (C23_mk_partial (by norm_num) 0 _ ho
      (exLit_gadget _ 6 _ (by decide +kernel) (by decide +kernel))
      (exLit_gadget _ 8 _ (by decide +kernel) (by decide +kernel))).2
      ⟨hv, by decide +kernel, by decide +kernel, by decide +kernel,
        ⟨⟨6, by norm_num, by decide +kernel⟩, by decide +kernel, by decide +kernel⟩,
        ⟨⟨8, by norm_num, by decide +kernel⟩, by decide +kernel, by decide +kernel⟩⟩
  · exact (C23_manyLUT_partial (by norm_num) 0 _ ho).1.2
      ⟨hv, by decide +kernel, ⟨2, by decide +kernel⟩⟩
  · refine (C23_sanitization_partial (by norm_num) 0 _ ho (by decide +kernel) (by decide +kernel)
      (by decide +kernel) (by decide +kernel)).2
      ⟨hv, by decide +kernel, by decide +kernel, by decide +kernel, ?_, ?_, ?_, ?_⟩ <;>
    (unfold f64Pos; decide +kernel)

end Tfhe
