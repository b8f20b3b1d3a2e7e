import Verif.Lemma.Num
import Mathlib.Data.Nat.Log
import Mathlib.Data.Nat.Sqrt
import Mathlib.Data.Int.ModEq
import Mathlib.Data.Int.GCD
import Mathlib.Algebra.Order.Ring.Abs
import Mathlib.Data.Int.Order.Basic

/-!
# C43  Integer helpers compute what they name
-/
namespace Tfhe

theorem bitLen_spec (n : Nat) : n < 2 ^ bitLen n ∧ (0 < n → 2 ^ (bitLen n - 1) ≤ n) := by
  induction n using Nat.strong_induction_on with
  | _ n ih =>
    cases n with
    | zero => simp [bitLen]
    | succ n =>
      rw [bitLen]
      have := ih ((n + 1) / 2) (by omega)
      generalize hk : bitLen ((n + 1) / 2) = k at *
      constructor
      · rw [pow_succ]; omega
      · intro _
        cases k with
        | zero => simp
        | succ k =>
          simp only [Nat.add_sub_cancel] at *
          by_cases h : (n + 1) / 2 = 0
          · rw [h] at hk; simp [bitLen] at hk
          · have := this.2 (by omega)
            rw [pow_succ]; omega

/-- **C43 (Log2).** `Log2` panics exactly for `x ≤ 0`; otherwise it returns the `k` with
`2^k ≤ x < 2^(k+1)`. -/
theorem C43_log2 (x : Int) :
    (log2 x = none ↔ x ≤ 0) ∧
      ∀ k, log2 x = some k → (2 : Int) ^ k ≤ x ∧ x < 2 ^ (k + 1) := by
  unfold log2
  split
  · simp_all
  · rename_i h
    refine ⟨by simpa using h, ?_⟩
    intro k hk
    simp only [Option.some.injEq] at hk
    have := bitLen_spec x.toNat
    have h2 := this.2 (by omega)
    have hpos : bitLen x.toNat ≠ 0 := by
      intro h0; rw [h0] at this; simp at this; omega
    rw [hk] at h2
    have h1 := this.1
    rw [show bitLen x.toNat = k + 1 by omega] at h1
    have c : ∀ j : Nat, ((2:Int) ^ j) = ((2 ^ j : Nat) : Int) := by intro j; push_cast; rfl
    rw [c, c]
    omega

example : log2 1024 = some 10 := by simp [log2, bitLen]

/-- **C43 (IsPowerOfTwo).** recognises exactly the powers of two. -/
theorem C43_isPowerOfTwo {w : Nat} (x : BitVec w) :
    isPowerOfTwo x = true ↔ ∃ k, x.toNat = 2 ^ k := by
  unfold isPowerOfTwo
  rcases Nat.eq_zero_or_pos w with hw | hw
  · subst hw
    have : x.toNat = 0 := by have := x.isLt; simpa using this
    simp only [this, lt_self_iff_false, decide_false, Bool.false_and, Bool.false_eq_true, false_iff,
      not_exists]
    intro k; positivity
  have h1 := toNat_one_of_pos hw
  constructor
  · intro h
    simp only [Bool.and_eq_true, decide_eq_true_eq, beq_iff_eq] at h
    obtain ⟨hp, h⟩ := h
    have e := congrArg BitVec.toNat h
    rw [BitVec.toNat_and, BitVec.toNat_sub_of_le (by rw [BitVec.le_def, h1]; exact hp), h1] at e
    simp only [BitVec.toNat_ofNat, Nat.zero_mod] at e
    generalize x.toNat = n at *
    refine ⟨n.log2, ?_⟩
    by_contra hne
    have hl := Nat.log2_self_le (n := n) (by omega)
    have hlt : 2 ^ n.log2 < n := lt_of_le_of_ne hl (fun h => hne h.symm)
    have hu := Nat.lt_log2_self (n := n)
    have t1 : n.testBit n.log2 = true := by
      rw [Nat.testBit_eq_decide_div_mod_eq]
      have : n / 2 ^ n.log2 = 1 := by
        rw [Nat.div_eq_iff (by positivity)]
        rw [pow_succ] at hu
        omega
      simp [this]
    have t2 : (n - 1).testBit n.log2 = true := by
      rw [Nat.testBit_eq_decide_div_mod_eq]
      have : (n - 1) / 2 ^ n.log2 = 1 := by
        rw [Nat.div_eq_iff (by positivity)]
        rw [pow_succ] at hu
        omega
      simp [this]
    have := congrArg (fun m => Nat.testBit m n.log2) e
    simp [Nat.testBit_and, t1, t2] at this
  · rintro ⟨k, hk⟩
    have hp : 0 < x.toNat := by rw [hk]; positivity
    simp only [Bool.and_eq_true, decide_eq_true_eq, beq_iff_eq]
    refine ⟨hp, ?_⟩
    apply BitVec.eq_of_toNat_eq
    rw [BitVec.toNat_and, BitVec.toNat_sub_of_le (by rw [BitVec.le_def, h1]; exact hp), h1, hk,
      Nat.and_two_pow_sub_one_eq_mod]
    simp

theorem sqrtLoop_pos (t c d : Nat) (hd : 0 < d) (hc : c + d < 2 ^ 64) :
    sqrtLoop t c d = if c + d ≤ t then sqrtLoop (t - (c + d)) (c / 2 + d) (d / 4)
      else sqrtLoop t (c / 2) (d / 4) := by
  obtain ⟨e, rfl⟩ : ∃ e, d = e + 1 := ⟨d - 1, by omega⟩
  rw [sqrtLoop, Nat.mod_eq_of_lt hc, Nat.mod_eq_of_lt (by omega)]

/-- Loop invariant of `Sqrt`: at `d = 4^k` the partial root `r`
satisfies `r^2 ≤ x < (r + 2^(k+1))^2`. -/
theorem sqrtLoop_spec (x : Nat) (k : Nat) (r : Nat)
    (h1 : r * r ≤ x) (h2 : x < (r + 2 ^ (k + 1)) * (r + 2 ^ (k + 1)))
    (hr : r + 2 ^ (k + 1) ≤ 2 ^ 32) :
    sqrtLoop (x - r * r) (2 * r * 2 ^ k) (4 ^ k) = Nat.sqrt x := by
  have h4 : ∀ k, 4 ^ k = 2 ^ k * 2 ^ k := by
    intro k; rw [← mul_pow]; norm_num
  have hp : 0 < 2 ^ k := by positivity
  have hs : 2 ^ (k + 1) = 2 * 2 ^ k := by ring
  have hchalf : 2 * r * 2 ^ k / 2 = r * 2 ^ k := by
      rw [mul_assoc, Nat.mul_div_cancel_left _ (by norm_num)]
  rw [sqrtLoop_pos _ _ _ (by positivity)
    (by rw [h4]; rw [hs] at hr; generalize 2 ^ k = p at *; nlinarith), hchalf]
  have hcond : 2 * r * 2 ^ k + 4 ^ k ≤ x - r * r ↔ (r + 2 ^ k) * (r + 2 ^ k) ≤ x := by
    rw [h4]
    have : (r + 2 ^ k) * (r + 2 ^ k) = r * r + (2 * r * 2 ^ k + 2 ^ k * 2 ^ k) := by ring
    rw [this]; omega
  have hsub : x - r * r - (2 * r * 2 ^ k + 4 ^ k) = x - (r + 2 ^ k) * (r + 2 ^ k) := by
    rw [h4]
    have : (r + 2 ^ k) * (r + 2 ^ k) = r * r + (2 * r * 2 ^ k + 2 ^ k * 2 ^ k) := by ring
    rw [this]; omega
  rw [hsub]
  cases k with
  | zero =>
    simp only [pow_zero, mul_one] at *
    split
    · rename_i hh
      rw [show 1 / 4 = 0 from rfl, sqrtLoop]
      exact Nat.eq_sqrt.2 ⟨hcond.1 hh, by omega⟩
    · rename_i hh
      rw [show 1 / 4 = 0 from rfl, sqrtLoop]
      exact Nat.eq_sqrt.2 ⟨h1, by have := hcond.not.1 hh; omega⟩
  | succ k =>
    have hd : 4 ^ (k + 1) / 4 = 4 ^ k := by
      rw [pow_succ, Nat.mul_div_cancel _ (by norm_num)]
    have hs' : 2 ^ (k + 1) = 2 * 2 ^ k := by ring
    split
    · rename_i hh
      have := sqrtLoop_spec x k (r + 2 ^ (k + 1)) (hcond.1 hh) (by rw [hs] at h2; rw [add_assoc, ← two_mul]; exact h2)
        (by rw [hs] at hr; rw [add_assoc, ← two_mul]; exact hr)
      rw [hd, ← this]
      congr 1
      rw [h4, hs']; ring
    · rename_i hh
      have := sqrtLoop_spec x k r h1 (by have := hcond.not.1 hh; omega) (by omega)
      rw [hd, ← this]
      congr 1
      rw [hs']; ring

theorem sqrtStart_spec (t k : Nat) (h : t < 4 ^ (k + 1)) :
    sqrtStart t (4 ^ k) = 0 ∧ t = 0 ∨
      ∃ j ≤ k, sqrtStart t (4 ^ k) = 4 ^ j ∧ t < 4 ^ (j + 1) := by
  induction k with
  | zero =>
    have e : sqrtStart t 1 = if t < 1 then sqrtStart t 0 else 1 := by
      simp [sqrtStart.eq_def t 1]
    rw [pow_zero, e]
    split
    · left; refine ⟨by simp [sqrtStart], by omega⟩
    · right; exact ⟨0, le_refl _, rfl, h⟩
  | succ k ih =>
    obtain ⟨e, he⟩ : ∃ e, 4 ^ (k + 1) = e + 1 := ⟨4 ^ (k + 1) - 1, by
      have : 0 < 4 ^ (k + 1) := by positivity
      omega⟩
    have hd : 4 ^ (k + 1) / 4 = 4 ^ k := by
      rw [pow_succ, Nat.mul_div_cancel _ (by norm_num)]
    rw [he, sqrtStart, ← he]
    split
    · rename_i hh
      rw [hd]
      rcases ih hh with h | ⟨j, hj, h⟩
      · left; exact h
      · right; exact ⟨j, by omega, h⟩
    · right; exact ⟨k + 1, le_refl _, rfl, h⟩

/-- **C43 (Sqrt).** `Sqrt` panics exactly for negative input; otherwise (for every value of
a Go integer type) it returns the floor of the square root: `r^2 ≤ x < (r+1)^2`. -/
theorem C43_sqrt (x : Int) (hx : x < 2 ^ 64) :
    (sqrt x = none ↔ x < 0) ∧
      ∀ r, sqrt x = some r → (r : Int) * r ≤ x ∧ x < (r + 1) * (r + 1) := by
  unfold sqrt
  split
  · simp_all
  · rename_i h
    refine ⟨by simpa using h, ?_⟩
    intro r hr
    simp only [Option.some.injEq] at hr
    obtain ⟨n, rfl⟩ : ∃ n : Nat, x = n := ⟨x.toNat, by omega⟩
    rw [Int.toNat_natCast] at hr
    have hn : n < 4 ^ 32 := by norm_num; omega
    have : sqrtLoop n 0 (sqrtStart n (2 ^ 62)) = Nat.sqrt n := by
      rw [show 2 ^ 62 = 4 ^ 31 by norm_num]
      rcases sqrtStart_spec n 31 hn with ⟨h0, h0'⟩ | ⟨j, hj, h1, h2⟩
      · rw [h0, h0', sqrtLoop]; simp
      · rw [h1]
        have := sqrtLoop_spec n j 0 (by omega)
          (by rw [zero_add, ← mul_pow]; simpa using h2)
          (by rw [zero_add]; exact Nat.pow_le_pow_right (by norm_num) (by omega))
        simpa using this
    rw [this] at hr
    have a := Nat.sqrt_le n
    have b := Nat.lt_succ_sqrt n
    rw [hr] at a b
    constructor
    · exact_mod_cast a
    · exact_mod_cast b

example : sqrt (2 ^ 64 - 1) = some (2 ^ 32 - 1) ∧ sqrt 0 = some 0 := by
  refine ⟨?_, by simp [sqrt, sqrtStart, sqrtLoop]⟩
  rcases h : sqrt (2 ^ 64 - 1) with _ | r
  · have := (C43_sqrt (2 ^ 64 - 1) (by norm_num)).1.1 h; norm_num at this
  · have := (C43_sqrt (2 ^ 64 - 1) (by norm_num)).2 r h
    have h1 : (r : Int) < 2 ^ 32 := by nlinarith
    have h2 : (2 ^ 32 : Int) < r + 2 := by nlinarith
    congr 1; omega

/-! ### ModInverse -/

theorem wrapInt_signed_eq {w : Nat} (z : Int) (h1 : -(2 ^ w) ≤ 2 * z) (h2 : 2 * z < 2 ^ w) :
    wrapInt true w z = z := by
  unfold wrapInt
  rw [if_pos rfl, Int.bmod_eq_of_le_mul_two]
  · push_cast; omega
  · push_cast; omega

/-- Loop invariant of `ModInverse` for a signed type: cofactor congruences, opposite signs
and `|u| b + |v| a = m`, which excludes overflow. -/
theorem modInvLoop_signed (w : Nat) (x m : Int) (hm : 2 * m < 2 ^ w) (a b : Nat) (u v : Int)
    (hu : u * x ≡ a [ZMOD m]) (hv : v * x ≡ b [ZMOD m])
    (hsgn : (0 ≤ u ∧ v ≤ 0) ∨ (u ≤ 0 ∧ 0 ≤ v))
    (hb : |u| * b + |v| * a = m) :
    (modInvLoop true w a b u v).1 = Nat.gcd a b ∧
      (modInvLoop true w a b u v).2 * x ≡ (Nat.gcd a b : Nat) [ZMOD m] := by
  induction b using Nat.strong_induction_on generalizing a u v with
  | _ b ih =>
    rw [modInvLoop]
    split
    · rename_i h; subst h; simpa using hu
    · rename_i h
      simp only
      have hbp : 0 < b := Nat.pos_of_ne_zero h
      have hmod : a - a / b * b = a % b := by
        have h1 := Nat.div_add_mod a b
        have h3 : a / b * b = b * (a / b) := Nat.mul_comm _ _
        omega
      have ha : (a : Int) = (a / b : Nat) * b + (a % b : Nat) := by
        have h1 := Nat.div_add_mod a b
        exact_mod_cast (by rw [mul_comm]; exact h1.symm)
      have hr0 : (0:Int) ≤ (a % b : Nat) := Int.natCast_nonneg _
      rw [hmod, Nat.gcd_comm a b, Nat.gcd_rec b a]
      generalize hq : a / b = q at *
      have hq0 : (0:Int) ≤ q := Int.natCast_nonneg _
      have habs : |u - q * v| = |u| + q * |v| := by
        rcases hsgn with ⟨h1, h2⟩ | ⟨h1, h2⟩
        · rw [abs_of_nonneg h1, abs_of_nonpos h2, abs_of_nonneg (by nlinarith)]; ring
        · rw [abs_of_nonpos h1, abs_of_nonneg h2, abs_of_nonpos (by nlinarith)]; ring
      have hb' : |v| * (a % b : Nat) + |u - q * v| * b = m := by
        rw [habs, ← hb, ha]; ring
      have hb1 : (1:Int) ≤ b := by exact_mod_cast hbp
      have hbound : |u - q * v| ≤ m := by
        have := abs_nonneg v
        have := abs_nonneg (u - q * v)
        nlinarith
      have hqv : |q * v| ≤ m := by
        rw [abs_mul, abs_of_nonneg hq0]
        have := abs_nonneg u
        linarith
      rw [abs_le] at hbound hqv
      rw [wrapInt_signed_eq (q * v) (by linarith) (by linarith),
        wrapInt_signed_eq _ (by linarith) (by linarith), Nat.gcd_comm (a % b) b]
      refine ih (a % b) (Nat.mod_lt _ hbp) b v (u - q * v) hv ?_ ?_ hb'
      · have h1 : (u - q * v) * x = u * x - q * (v * x) := by ring
        have h2 : ((a % b : Nat) : Int) = a - q * b := by rw [ha]; ring
        rw [h1, h2]
        exact hu.sub (hv.mul_left _)
      · rcases hsgn with ⟨h1, h2⟩ | ⟨h1, h2⟩
        · right; exact ⟨h2, by nlinarith⟩
        · left; exact ⟨h2, by nlinarith⟩

/-- normalisation `x %= m; if x < 0 { x += m }` for a signed type -/
theorem norm_signed (w : Nat) (x m : Int) (hm0 : 0 < m) (hm : 2 * m < 2 ^ w) :
    addIfNeg true w (x.tmod m) m = x % m := by
  have h1 : x.tmod m < m := Int.tmod_lt_of_pos x hm0
  have h2 : -m < x.tmod m := by
    have := Int.lt_tmod_of_pos x hm0
    simpa using this
  have h3 : x.tmod m % m = x % m := by
    rw [Int.tmod_def]
    exact Int.sub_mul_emod_self_left x m (x.tdiv m)
  unfold addIfNeg
  split
  · rw [wrapInt_signed_eq _ (by omega) (by omega), ← h3, ← Int.add_emod_right,
      Int.emod_eq_of_lt (by omega) (by omega)]
  · rw [← h3, Int.emod_eq_of_lt (by omega) h1]

/-- **C43 (ModInverse, signed types).** For every modulus `0 < m` of a signed type and every
`x`: the call returns exactly when `x` and `m` are coprime, and the result is the inverse in
`[0, m)`. -/
theorem C43_modInverse_signed (w : Nat) (x m : Int) (hm0 : 0 < m) (hm : 2 * m < 2 ^ w) :
    (modInverse true w x m = none ↔ Int.gcd x m ≠ 1) ∧
      ∀ r, modInverse true w x m = some r → r * x ≡ 1 [ZMOD m] ∧ 0 ≤ r ∧ r < m := by
  unfold modInverse
  rw [if_neg (by omega)]
  simp only
  rw [norm_signed w x m hm0 hm]
  have hx0 := Int.emod_nonneg x (b := m) (by omega)
  have hx1 := Int.emod_lt_of_pos x hm0
  have key := modInvLoop_signed w x m hm (x % m).toNat m.toNat 1 0
    (by rw [one_mul, Int.toNat_of_nonneg hx0]; exact (Int.mod_modEq x m).symm)
    (by rw [zero_mul, Int.toNat_of_nonneg (by omega)]; exact (Int.modEq_zero_iff_dvd.2 dvd_rfl).symm)
    (by left; omega)
    (by simp [Int.toNat_of_nonneg (by omega : 0 ≤ m)])
  have hg : Nat.gcd (x % m).toNat m.toNat = Int.gcd x m := by
    rw [← Int.gcd_natCast_natCast, Int.toNat_of_nonneg hx0, Int.toNat_of_nonneg (by omega),
      Int.emod_def]
    simp
  rw [hg] at key
  rw [key.1]
  constructor
  · split <;> simp_all
  · intro r hr
    split at hr
    · simp at hr
    · rename_i h
      simp only [ne_eq, not_not] at h
      rw [norm_signed w _ m hm0 hm] at hr
      simp only [Option.some.injEq] at hr
      rw [← hr]
      refine ⟨?_, Int.emod_nonneg _ (by omega), Int.emod_lt_of_pos _ hm0⟩
      have := key.2
      rw [h] at this
      exact (((Int.mod_modEq _ m).mul_right x).trans this)

example : modInverse true 64 (-3) 7 = some 2 := by decide +kernel

/-- **C43 (ModInverse, unsigned types) is false of the code**: `ModInverse[uint64](3, 7)`
returns 0, which is not an inverse of 3 modulo 7. -/
theorem C43_modInverse_unsigned_false :
    ∃ x m r : Int, 0 < m ∧ Int.gcd x m = 1 ∧ modInverse false 64 x m = some r ∧
      ¬ r * x ≡ 1 [ZMOD m] :=
  ⟨3, 7, 0, by norm_num, by decide, by decide +kernel, by decide⟩

/-- `ModInverse` for an unsigned type is right when the modulus divides `2^w` (for example
for every power-of-two modulus): then wrap-around is harmless. -/
theorem modInvLoop_unsigned (w : Nat) (x m : Int) (hm : m ∣ 2 ^ w) (a b : Nat) (u v : Int)
    (hu : u * x ≡ a [ZMOD m]) (hv : v * x ≡ b [ZMOD m]) :
    (modInvLoop false w a b u v).1 = Nat.gcd a b ∧
      (modInvLoop false w a b u v).2 * x ≡ (Nat.gcd a b : Nat) [ZMOD m] := by
  have hwrap : ∀ z : Int, wrapInt false w z ≡ z [ZMOD m] := fun z =>
    (Int.mod_modEq z (2 ^ w)).of_dvd hm
  induction b using Nat.strong_induction_on generalizing a u v with
  | _ b ih =>
    rw [modInvLoop]
    split
    · rename_i h; subst h; simpa using hu
    · rename_i h
      simp only
      have hbp : 0 < b := Nat.pos_of_ne_zero h
      have hmod : a - a / b * b = a % b := by
        have h1 := Nat.div_add_mod a b
        have h3 : a / b * b = b * (a / b) := Nat.mul_comm _ _
        omega
      have ha : (a : Int) = (a / b : Nat) * b + (a % b : Nat) := by
        have h1 := Nat.div_add_mod a b
        exact_mod_cast (by rw [mul_comm]; exact h1.symm)
      rw [hmod, Nat.gcd_comm a b, Nat.gcd_rec b a]
      generalize hq : a / b = q at *
      rw [Nat.gcd_comm (a % b) b]
      refine ih (a % b) (Nat.mod_lt _ hbp) b v _ hv ?_
      have h1 : (u - q * v) * x = u * x - q * (v * x) := by ring
      have h2 : ((a % b : Nat) : Int) = a - q * b := by rw [ha]; ring
      refine ((((hwrap _).trans ((Int.ModEq.refl u).sub (hwrap _))).mul_right x)).trans ?_
      rw [h1, h2]
      exact hu.sub (hv.mul_left _)

/-- **C43 (ModInverse, unsigned types), partial**: correct when `m` divides `2^w`.
Missing: other moduli, where the code is wrong (`C43_modInverse_unsigned_false`). -/
theorem C43_modInverse_unsigned_partial (w : Nat) (x m : Int) (hx : 0 ≤ x) (hm0 : 0 < m)
    (hm : m ∣ 2 ^ w) :
    (modInverse false w x m = none ↔ Int.gcd x m ≠ 1) ∧
      ∀ r, modInverse false w x m = some r → r * x ≡ 1 [ZMOD m] ∧ 0 ≤ r ∧ r < m := by
  unfold modInverse
  rw [if_neg (by omega)]
  have hx0 := Int.emod_nonneg x (b := m) (by omega)
  have hx1 := Int.emod_lt_of_pos x hm0
  have hn : ∀ z : Int, 0 ≤ z → addIfNeg false w (z.tmod m) m = z % m := by
    intro z hz
    have := Int.emod_nonneg z (b := m) (by omega)
    rw [addIfNeg, Int.tmod_eq_emod_of_nonneg hz, if_neg (by omega)]
  simp only
  rw [hn x hx]
  have key := modInvLoop_unsigned w x m hm (x % m).toNat m.toNat 1 0
    (by rw [one_mul, Int.toNat_of_nonneg hx0]; exact (Int.mod_modEq x m).symm)
    (by rw [zero_mul, Int.toNat_of_nonneg (by omega)]; exact (Int.modEq_zero_iff_dvd.2 dvd_rfl).symm)
  have hg : Nat.gcd (x % m).toNat m.toNat = Int.gcd x m := by
    rw [← Int.gcd_natCast_natCast, Int.toNat_of_nonneg hx0, Int.toNat_of_nonneg (by omega),
      Int.emod_def]
    simp
  have hnn : ∀ (a b : Nat) (u v : Int), 0 ≤ u → 0 ≤ v → 0 ≤ (modInvLoop false w a b u v).2 := by
    intro a b
    induction b using Nat.strong_induction_on generalizing a with
    | _ b ih =>
      intro u v hu hv
      rw [modInvLoop]
      split
      · exact hu
      · rename_i h
        have hbp : 0 < b := Nat.pos_of_ne_zero h
        have hlt : a - a / b * b < b := by
          have h1 := Nat.div_add_mod a b
          have h2 := Nat.mod_lt a hbp
          have h3 : a / b * b = b * (a / b) := Nat.mul_comm _ _
          omega
        exact ih _ hlt b v _ hv (Int.emod_nonneg _ (by positivity))
  rw [hg] at key
  rw [key.1]
  constructor
  · split <;> simp_all
  · intro r hr
    split at hr
    · simp at hr
    · rename_i h
      simp only [ne_eq, not_not] at h
      rw [hn _ (hnn _ _ _ _ (by norm_num) le_rfl)] at hr
      simp only [Option.some.injEq] at hr
      rw [← hr]
      refine ⟨?_, Int.emod_nonneg _ (by omega), Int.emod_lt_of_pos _ hm0⟩
      have := key.2
      rw [h] at this
      exact (((Int.mod_modEq _ m).mul_right x).trans this)

example : (16 : Int) ∣ 2 ^ 64 ∧ modInverse false 64 5 16 = some 13 := by
  refine ⟨by norm_num, by decide +kernel⟩

/-! ### ModExp -/

theorem modExpLoop_spec (signed : Bool) (w : Nat) (m : Int) (hm0 : 0 < m)
    (hfit : ∀ z, 0 ≤ z → z ≤ (m - 1) * (m - 1) → wrapInt signed w z = z)
    (y : Nat) (res x : Int) (hr0 : 0 ≤ res) (hr : res < m) (hx0 : 0 ≤ x) (hx : x < m) :
    modExpLoop signed w m res x y = (res * x ^ y) % m := by
  induction y using Nat.strong_induction_on generalizing res x with
  | _ y ih =>
    rw [modExpLoop]
    split
    · rename_i h; subst h; simp [Int.emod_eq_of_lt hr0 hr]
    · rename_i h
      simp only
      have hmul : ∀ p q : Int, 0 ≤ p → p < m → 0 ≤ q → q < m →
          (wrapInt signed w (p * q)).tmod m = p * q % m := by
        intro p q h1 h2 h3 h4
        rw [hfit _ (by positivity) (mul_le_mul (by omega) (by omega) h3 (by omega)),
          Int.tmod_eq_emod_of_nonneg (by positivity)]
      rw [hmul x x hx0 hx hx0 hx, hmul res x hr0 hr hx0 hx]
      have nn : ∀ z : Int, 0 ≤ z % m ∧ z % m < m := fun z =>
        ⟨Int.emod_nonneg _ (by omega), Int.emod_lt_of_pos _ hm0⟩
      have hy := Nat.div_add_mod y 2
      have hsq : (x * x % m) ^ (y / 2) ≡ x ^ (2 * (y / 2)) [ZMOD m] := by
        rw [pow_mul, pow_two]; exact (Int.mod_modEq _ _).pow _
      split
      · rename_i h1
        rw [ih _ (by omega) _ _ (nn _).1 (nn _).2 (nn _).1 (nn _).2]
        have : res * x ^ y = (res * x) * x ^ (2 * (y / 2)) := by
          conv_lhs => rw [← hy, h1, pow_succ]
          ring
        rw [this]
        exact (Int.mod_modEq _ _).mul hsq
      · rename_i h1
        rw [ih _ (by omega) _ _ hr0 hr (nn _).1 (nn _).2]
        have : res * x ^ y = res * x ^ (2 * (y / 2)) := by
          conv_lhs => rw [← hy, show y % 2 = 0 by omega, add_zero]
        rw [this]
        exact hsq.mul_left _

/-- **C43 (ModExp), partial.** For a modulus `m > 1` whose square fits in the type and a
non-negative exponent, `ModExp(x, y, m) = x^y mod m` in `[0, m)`.
Missing: large moduli and `m = 1`, where the code is wrong (`C43_modExp_false`);
negative exponents are `C43_modExp_neg_partial`. -/
theorem C43_modExp_partial (w : Nat) (x y m : Int) (hm2 : 1 < m) (hy : 0 ≤ y) :
    ((2 * (m * m) ≤ 2 ^ w) → modExp true w x y m = some (x ^ y.toNat % m)) ∧
    (m * m ≤ 2 ^ w → 0 ≤ x → modExp false w x y m = some (x ^ y.toNat % m)) := by
  have hm0 : 0 < m := by omega
  have hmm : 2 * m ≤ m * m := by nlinarith
  have hm1 : (m - 1) * (m - 1) = m * m - 2 * m + 1 := by ring
  by_cases hy0 : y = 0
  · subst hy0
    have : (1:Int) % m = 1 := Int.emod_eq_of_lt (by omega) hm2
    simp [modExp, this, not_le.2 hm0]
  have hn : ∀ z : Int, 0 ≤ z → addIfNeg false w (z.tmod m) m = z % m := by
    intro z hz
    have := Int.emod_nonneg z (b := m) (by omega)
    rw [addIfNeg, Int.tmod_eq_emod_of_nonneg hz, if_neg (by omega)]
  have nn : ∀ z : Int, 0 ≤ z % m ∧ z % m < m := fun z =>
    ⟨Int.emod_nonneg _ (by omega), Int.emod_lt_of_pos _ hm0⟩
  have hpow : ∀ k, (x % m) ^ k % m = x ^ k % m := fun k => ((Int.mod_modEq x m).pow k)
  constructor
  · intro hfit
    have h2m : 2 * m < 2 ^ w := by nlinarith
    unfold modExp
    rw [if_neg (by omega), if_neg (by omega), if_neg (by omega)]
    simp only
    rw [if_neg (by omega), norm_signed w x m hm0 h2m,
      modExpLoop_spec true w m hm0 _ y.toNat 1 (x % m) (by omega) hm2 (nn _).1 (nn _).2,
      one_mul, hpow, addIfNeg, if_neg (by have := (nn (x ^ y.toNat)).1; omega)]
    intro z h0 h1
    exact wrapInt_signed_eq z (by linarith) (by linarith)
  · intro hfit hx
    unfold modExp
    rw [if_neg (by omega), if_neg (by omega), if_neg (by omega)]
    simp only
    rw [if_neg (by omega), hn x hx,
      modExpLoop_spec false w m hm0 _ y.toNat 1 (x % m) (by omega) hm2 (nn _).1 (nn _).2,
      one_mul, hpow, addIfNeg, if_neg (by have := (nn (x ^ y.toNat)).1; omega)]
    intro z h0 h1
    rw [wrapInt, if_neg (by simp), Int.emod_eq_of_lt h0 (by linarith)]

/-- **C43 (ModExp, negative exponent), partial** for signed types: the result times
`x^(-y)` is 1 modulo `m`; the call panics exactly when `x` and `m` are not coprime. -/
theorem C43_modExp_neg_partial (w : Nat) (x y m : Int) (hm2 : 1 < m) (hy : y < 0)
    (hymin : 2 * (-y) < 2 ^ w) (hfit : 2 * (m * m) ≤ 2 ^ w) :
    (modExp true w x y m = none ↔ Int.gcd x m ≠ 1) ∧
    ∀ r, modExp true w x y m = some r →
      r * x ^ (-y).toNat ≡ 1 [ZMOD m] ∧ 0 ≤ r ∧ r < m := by
  have hm0 : 0 < m := by omega
  have hmm : 2 * m ≤ m * m := by nlinarith
  have h2m : 2 * m < 2 ^ w := by nlinarith
  have hm1 : (m - 1) * (m - 1) = m * m - 2 * m + 1 := by ring
  have nn : ∀ z : Int, 0 ≤ z % m ∧ z % m < m := fun z =>
    ⟨Int.emod_nonneg _ (by omega), Int.emod_lt_of_pos _ hm0⟩
  have hinv := C43_modInverse_signed w x m hm0 h2m
  unfold modExp
  rw [if_neg (by omega), if_neg (by omega), if_pos hy]
  rcases hi : modInverse true w x m with _ | i
  · rw [hi] at hinv
    simp only [true_iff] at hinv
    simp [hinv.1]
  · simp only
    rw [if_pos hy, wrapInt_signed_eq (-y) (by omega) hymin, norm_signed w i m hm0 h2m,
      modExpLoop_spec true w m hm0 (fun z h0 h1 => wrapInt_signed_eq z (by linarith) (by linarith))
        (-y).toNat 1 (i % m) (by omega) hm2 (nn _).1 (nn _).2, one_mul, addIfNeg,
      if_neg (by have := (nn ((i % m) ^ (-y).toNat)).1; omega)]
    refine ⟨by simpa using hinv.1.not.1 (by simp [hi]), ?_⟩
    intro r hr
    simp only [Option.some.injEq] at hr
    rw [← hr]
    refine ⟨?_, (nn _).1, (nn _).2⟩
    have h1 := (hinv.2 i hi).1
    have h2 : (i % m) ^ (-y).toNat % m * x ^ (-y).toNat ≡ i ^ (-y).toNat * x ^ (-y).toNat [ZMOD m] :=
      ((Int.mod_modEq _ _).trans ((Int.mod_modEq i m).pow _)).mul_right _
    rw [← mul_pow] at h2
    have h3 := h1.pow (-y).toNat
    rw [one_pow] at h3
    exact h2.trans h3

example : modExp true 64 5 7 4096 = some 301 ∧ (2 * (4096 * 4096) : Int) ≤ 2 ^ 64 := by
  constructor
  · decide +kernel
  · norm_num
example : modExp true 64 5 (-1) 4096 = some 3277 := by decide +kernel

/-- **C43 (ModExp) is false of the code**: `ModExp(x, 0, 1)` returns 1 instead of 0, and a
large modulus overflows the product. -/
theorem C43_modExp_false :
    (∃ x y m : Int, 0 < m ∧ 0 ≤ y ∧ modExp true 64 x y m ≠ some (x ^ y.toNat % m)) ∧
    (∃ x y m : Int, 1 < m ∧ 0 ≤ y ∧ m < 2 ^ 64 ∧ 0 ≤ x ∧ x < 2 ^ 64 ∧
      modExp false 64 x y m ≠ some (x ^ y.toNat % m)) := by
  refine ⟨⟨0, 0, 1, by norm_num, by norm_num, by decide +kernel⟩,
    ⟨2 ^ 32, 2, 2 ^ 64 - 1, by norm_num, by norm_num, by norm_num, by norm_num, by norm_num,
      by decide +kernel⟩⟩

end Tfhe
