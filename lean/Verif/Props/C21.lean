import Verif.Model.Binary
import Verif.Props.C06
import Verif.Props.C20

/-!
# C21: the binary gates compute their truth tables; C22: bit-wise encryption
-/
namespace Tfhe
set_option linter.unusedSectionVars false
open Poly

/-! ### Specification -/

/-- The signed value that stands for a bit: an eighth of the circle, up or down. -/
def bitValue (w : ℕ) (b : Bool) : ℤ := if b then 2 ^ (w - 3) else -2 ^ (w - 3)

/-- `ct` encrypts the bit `b` under `sk` with noise at most `E`. -/
def EncBit {w n : ℕ} (sk : Fin n → BitVec w) (ct : Fin (n + 1) → BitVec w) (b : Bool) (E : ℕ) : Prop :=
  ∃ e : ℤ, |e| ≤ E ∧ phase sk ct = BitVec.ofInt w (bitValue w b + e)

/-- The truth tables. -/
def Gate.eval : Gate → Bool → Bool → Bool
  | .and, x, y => x && y
  | .nand, x, y => !(x && y)
  | .or, x, y => x || y
  | .nor, x, y => !(x || y)
  | .xor, x, y => x != y
  | .xnor, x, y => x == y

/-- How much a gate multiplies the noise of its inputs. -/
def Gate.gain : Gate → ℚ
  | .xor | .xnor => 2
  | _ => 1

/-- How far the noiseless sum is from the points where the sign changes, as a part of the half circle. -/
def Gate.margin : Gate → ℚ
  | .xor | .xnor => 1 / 2
  | _ => 1 / 4

/-! ### Encoding -/

theorem pow_w3 {w : ℕ} (hw : 3 ≤ w) : (2 : ℤ) ^ w = 8 * 2 ^ (w - 3) := by
  obtain ⟨v, rfl⟩ := Nat.exists_eq_add_of_le hw
  rw [Nat.add_sub_cancel_left, pow_add]; norm_num

theorem encodeLWEBool_eq {w : ℕ} (hw : 3 ≤ w) (b : Bool) : encodeLWEBool w b = BitVec.ofInt w (bitValue w b) := by
  have h8 := pow_w3 hw
  unfold encodeLWEBool bitValue
  cases b with
  | true => simp [Nat.shiftLeft_eq, ← BitVec.ofInt_natCast]
  | false =>
    simp only [Bool.false_eq_true, if_false, Nat.shiftLeft_eq, ← BitVec.ofInt_natCast]
    apply BitVec.eq_of_toInt_eq
    rw [BitVec.toInt_ofInt, BitVec.toInt_ofInt, Int.bmod_eq_bmod_iff_bmod_sub_eq_zero]
    push_cast
    rw [show (7 * 2 ^ (w - 3) - -2 ^ (w - 3) : ℤ) = ((2 ^ w : ℕ) : ℤ) by push_cast; rw [h8]; ring]
    exact Int.bmod_self

/-- **C21/C22 (decoding).** A bit is recovered from its phase whenever the noise is below an eighth of the
circle. -/
theorem C21_decode {w n : ℕ} (hw : 3 ≤ w) (sk : Fin n → BitVec w) (ct : Fin (n + 1) → BitVec w) (b : Bool) (E : ℕ)
    (h : EncBit sk ct b E) (hE : E < 2 ^ (w - 3)) : decryptLWEBool sk ct = b := by
  obtain ⟨e, he, hp⟩ := h
  have h8 := pow_w3 hw
  have hE' : (E : ℤ) < 2 ^ (w - 3) := by exact_mod_cast hE
  have he' := abs_le.mp he
  have hw1 : (2 : ℤ) ^ (w - 1) = 4 * 2 ^ (w - 3) := by
    obtain ⟨v, rfl⟩ := Nat.exists_eq_add_of_le hw
    rw [show 3 + v - 1 = v + 2 by omega, Nat.add_sub_cancel_left, pow_add]; norm_num [mul_comm]
  unfold decryptLWEBool decodeLWEBool
  rw [C05_decryptPhase, hp, BitVec.toNat_ofInt, Nat.shiftLeft_eq, one_mul]
  push_cast
  have key : (((bitValue w b + e) % 2 ^ w).toNat < 2 ^ (w - 1)) ↔ b = true := by
    rw [← Int.ofNat_lt, Int.toNat_of_nonneg (Int.emod_nonneg _ (by positivity))]
    push_cast
    cases b with
    | true =>
      have : (bitValue w true + e) % 2 ^ w = bitValue w true + e := by
        apply Int.emod_eq_of_lt <;> simp only [bitValue, if_true] <;> omega
      rw [this]
      simp only [bitValue, if_true, iff_true]
      omega
    | false =>
      have : (bitValue w false + e) % 2 ^ w = bitValue w false + e + 2 ^ w := by
        rw [← Int.add_emod_right]
        apply Int.emod_eq_of_lt <;> simp only [bitValue, Bool.false_eq_true, if_false] <;> omega
      rw [this]
      simp only [bitValue, Bool.false_eq_true, if_false, iff_false]
      omega
  cases b with
  | true => exact decide_eq_true (key.mpr rfl)
  | false => exact decide_eq_false (fun h => Bool.noConfusion (key.mp h))

/-- A fresh encryption of a bit. -/
theorem C21_fresh {w n : ℕ} (hw : 3 ≤ w) (sk mask : Fin n → BitVec w) (noise : BitVec w) (b : Bool) :
    EncBit sk (encryptLWEBool sk mask noise b) b (wabs noise) := by
  refine ⟨noise.toInt, ?_, ?_⟩
  · unfold wabs; rw [Int.natCast_natAbs]
  · unfold encryptLWEBool
    rw [(C05_fresh sk mask noise _).1, encodeLWEBool_eq hw, BitVec.ofInt_add, BitVec.ofInt_toInt]

/-! ### The linear part -/

/-- The factor of both inputs. -/
def Gate.coef : Gate → ℤ
  | .and => 1
  | .nand => -1
  | .or => 1
  | .nor => -1
  | .xor => 2
  | .xnor => -2

/-- The sign a gate must compute, in eighths of the circle (modulo the full circle). -/
def Gate.point : Gate → Bool → Bool → ℤ
  | .and, true, true => 1
  | .and, false, false => -3
  | .and, _, _ => -1
  | .nand, true, true => -1
  | .nand, false, false => 3
  | .nand, _, _ => 1
  | .or, true, true => 3
  | .or, false, false => -1
  | .or, _, _ => 1
  | .nor, true, true => -3
  | .nor, false, false => 1
  | .nor, _, _ => -1
  | .xor, true, false => 2
  | .xor, false, true => 2
  | .xor, _, _ => -2
  | .xnor, true, false => -2
  | .xnor, false, true => -2
  | .xnor, _, _ => 2

theorem Gate.lin_eq {w : ℕ} (g : Gate) (x y : BitVec w) : g.lin x y = BitVec.ofInt w g.coef * (x + y) := by
  have h2 : (2 : BitVec w) = BitVec.ofInt w 2 := (BitVec.ofInt_natCast w 2).symm
  have h1 : BitVec.ofInt w 1 = 1 := BitVec.ofInt_natCast w 1
  cases g <;> simp only [Gate.lin, Gate.coef, BitVec.ofInt_neg, ← h2, h1] <;> ring

/-- The phase of the linear part. -/
theorem phase_gate {R : Type} [CommRing R] {n : ℕ} (s : Fin n → R) (c : R) (a b : Fin (n + 1) → R) :
    phase s (fun i => c * (a i + b i)) = c * (phase s a + phase s b) := by
  unfold phase
  rw [mul_add, mul_add, mul_add, Finset.mul_sum, Finset.mul_sum]
  have : ∑ i : Fin n, c * (a i.succ + b i.succ) * s i
      = ∑ i : Fin n, c * (a i.succ * s i) + ∑ i : Fin n, c * (b i.succ * s i) := by
    rw [← Finset.sum_add_distrib]
    exact Finset.sum_congr rfl fun i _ => by ring
  rw [this]; ring

/-- What the linear part leaves in the store, for any aliasing. -/
theorem gateLinear_spec {w : ℕ} (g : Gate) (dim out ct0 ct1 : ℕ) (m : Mem (BitVec w)) (v i : ℕ) :
    gateLinear g dim out ct0 ct1 m v i =
      if v = out ∧ i < dim + 1 then
        (if i = 0 then g.body (g.lin (m ct0 0) (m ct1 0)) else g.lin (m ct0 i) (m ct1 i))
      else m v i := by
  unfold gateLinear
  simp only [Mem.write]
  by_cases hv : v = out
  · subst hv
    by_cases hi : i = 0
    · subst hi
      simp [mapLoop_spec _ _ _ _ _ List.nodup_range]
    · simp only [hi, and_false, if_false, mapLoop_spec _ _ _ _ _ List.nodup_range, List.mem_range]
  · simp [hv, mapLoop_spec _ _ _ _ _ List.nodup_range]

/-- The value the body is moved by. -/
theorem Gate.body_eq {w : ℕ} (g : Gate) (x : BitVec w) : g.body x = x + g.body 0 := by
  cases g <;> simp only [Gate.body] <;> ring

theorem ofInt_congr_circle {w : ℕ} (hw : 3 ≤ w) (x y : ℤ) (t : ℤ) (h : x = y + 8 * 2 ^ (w - 3) * t) :
    BitVec.ofInt w x = BitVec.ofInt w y := by
  apply BitVec.eq_of_toInt_eq
  rw [BitVec.toInt_ofInt, BitVec.toInt_ofInt, h, ← pow_w3 hw]
  have : ((2 : ℤ) ^ w * t) = ((2 ^ w : ℕ) : ℤ) * t := by push_cast; rfl
  rw [this, Int.add_mul_bmod_self_left]

/-- The phase before bootstrapping, in eighths of the circle. -/
theorem gate_point {w : ℕ} (hw : 3 ≤ w) (g : Gate) (b0 b1 : Bool) (e0 e1 : ℤ) :
    BitVec.ofInt w g.coef * (BitVec.ofInt w (bitValue w b0 + e0) + BitVec.ofInt w (bitValue w b1 + e1)) + g.body 0
      = BitVec.ofInt w (g.point b0 b1 * 2 ^ (w - 3) + g.coef * (e0 + e1)) := by
  have hU : BitVec.ofNat w (1 <<< (w - 3)) = BitVec.ofInt w (2 ^ (w - 3)) := by
    rw [Nat.shiftLeft_eq, one_mul, ← BitVec.ofInt_natCast]; push_cast; rfl
  have hV : BitVec.ofNat w (1 <<< (w - 2)) = BitVec.ofInt w (2 * 2 ^ (w - 3)) := by
    rw [Nat.shiftLeft_eq, one_mul, ← BitVec.ofInt_natCast]; push_cast
    obtain ⟨v, rfl⟩ := Nat.exists_eq_add_of_le hw
    rw [show 3 + v - 2 = v + 1 by omega, Nat.add_sub_cancel_left, pow_succ, mul_comm]
  have hsub : ∀ a : ℤ, (0 : BitVec w) - BitVec.ofInt w a = BitVec.ofInt w (-a) := by
    intro a; rw [BitVec.ofInt_neg, zero_sub]
  have hadd : ∀ a : ℤ, (0 : BitVec w) + BitVec.ofInt w a = BitVec.ofInt w a := fun a => zero_add _
  cases g <;> simp only [Gate.body, hU, hV, hsub, hadd, ← BitVec.ofInt_add, ← BitVec.ofInt_mul]
  case xor =>
    cases b0 <;> cases b1
    case true.true => exact ofInt_congr_circle hw _ _ 1 (by simp only [bitValue, Gate.coef, Gate.point]; simp; ring)
    all_goals exact congrArg _ (by simp only [bitValue, Gate.coef, Gate.point]; simp; try ring)
  case xnor =>
    cases b0 <;> cases b1
    case true.true => exact ofInt_congr_circle hw _ _ (-1) (by simp only [bitValue, Gate.coef, Gate.point]; simp; ring)
    all_goals exact congrArg _ (by simp only [bitValue, Gate.coef, Gate.point]; simp; try ring)
  all_goals
    cases b0 <;> cases b1 <;>
      exact congrArg _ (by simp only [bitValue, Gate.coef, Gate.point]; simp; try ring)

/-! ### The sign table -/

/-- The sign table: its value on the upper half circle, minus that on the lower one. -/
theorem signLUT_at {w N f : ℕ} [NeZero N] [NeZero f] (z : ℤ) :
    (0 ≤ z → z < (f * N : ℕ) → at' (inter (fun q : Fin f => signLUT w N q.1)) z = BitVec.ofInt w (2 ^ (w - 3))) ∧
    (-((f * N : ℕ) : ℤ) ≤ z → z < 0 →
      at' (inter (fun q : Fin f => signLUT w N q.1)) z = BitVec.ofInt w (-2 ^ (w - 3))) := by
  have hU : BitVec.ofNat w (1 <<< (w - 3)) = BitVec.ofInt w (2 ^ (w - 3)) := by
    rw [Nat.shiftLeft_eq, one_mul, ← BitVec.ofInt_natCast]; push_cast; rfl
  have hc : ∀ i, inter (fun q : Fin f => signLUT w N q.1) i = BitVec.ofInt w (2 ^ (w - 3)) := fun i => hU
  have hpos : (0 : ℤ) < ((f * N : ℕ) : ℤ) := by exact_mod_cast Nat.mul_pos (NeZero.pos f) (NeZero.pos N)
  constructor
  · intro h0 h1
    unfold at'
    rw [Int.ediv_eq_zero_of_lt h0 h1, if_pos (by norm_num), hc]
  · intro h0 h1
    unfold at'
    have : z / ((f * N : ℕ) : ℤ) = -1 := by
      apply le_antisymm
      · have := Int.ediv_lt_of_lt_mul (a := z) (b := 0) hpos (by simpa using h1)
        omega
      · exact (Int.le_ediv_iff_mul_le hpos).mpr (by linarith)
    rw [this, if_neg (by norm_num), hc, BitVec.ofInt_neg]

/-- The noiseless point has the right sign, and keeps its margin. -/
theorem Gate.point_eval (g : Gate) (b0 b1 : Bool) :
    (g.eval b0 b1 = true → 4 * g.margin ≤ g.point b0 b1 ∧ g.point b0 b1 ≤ 4 - 4 * g.margin) ∧
    (g.eval b0 b1 = false → 4 * g.margin - 4 ≤ g.point b0 b1 ∧ (g.point b0 b1 : ℚ) ≤ -(4 * g.margin)) := by
  cases g <;> cases b0 <;> cases b1 <;> norm_num [Gate.eval, Gate.margin, Gate.point]

theorem Gate.coef_gain (g : Gate) : |(g.coef : ℚ)| = g.gain := by
  cases g <;> norm_num [Gate.coef, Gate.gain]

/-! ### The gates -/

section
variable {w N k : ℕ} [NeZero N] (b : Boot w N k)

/-- A gate with the keys of `b`. -/
def Boot.gate (g : Gate) (order : BootstrapOrder) (err : ℕ → ℕ → Fin (k + 1) → Poly N (BitVec w))
    (old : ℕ → Poly N (BitVec w)) (buf : ℕ → BitVec w) (out ct0 ct1 : ℕ) (m : Mem (BitVec w)) : Mem (BitVec w) :=
  gateTo g order (polyGadget N b.gbr) (scalarGadget b.gks) b.f b.bs b.bc b.brk b.ksk err old buf out ct0 ct1 m

/-- The key of default ciphertexts. -/
def Boot.key (order : BootstrapOrder) : Fin (b.ctDim order) → BitVec w := lweKeyOf w (b.ctDim order) b.lk

theorem Boot.ctDim_eq (order : BootstrapOrder) : defaultLWEDim order (b.bs * b.bc) (k * N) = b.ctDim order := by
  cases order <;> rfl

/-- **C21 (gates).** Every gate, on any two ciphertexts of bits `b0` and `b1` (which may be the same
ciphertext, and may be the output) with noise in the margin, writes an encryption of the gate's value
to the output, with noise that does not depend on the inputs; nothing else in memory changes.  Both
bootstrap orders.  (Tables longer than the ring need two blocks, see `C19_one_block_false`.) -/
theorem C21_gate_partial (g : Gate) (order : BootstrapOrder) (hw : 3 ≤ w) (hb : b.KeyValid)
    (hext : b.f = 1 ∨ 2 ≤ b.bc)
    (err : ℕ → ℕ → Fin (k + 1) → Poly N (BitVec w)) (hF : ∀ i q, pabs (phase b.sk (err i q)) ≤ b.Fe)
    (old : ℕ → Poly N (BitVec w)) (buf : ℕ → BitVec w) (out ct0 ct1 : ℕ) (m : Mem (BitVec w)) (b0 b1 : Bool)
    (E0 E1 : ℕ) (h0 : EncBit (b.key order) (ctOf (b.ctDim order) m ct0) b0 E0)
    (h1 : EncBit (b.key order) (ctOf (b.ctDim order) m ct1) b1 E1)
    (hcond : g.gain * (E0 + E1) * (2 * (b.f * N : ℕ)) / 2 ^ w + b.indexErr order < g.margin * (b.f * N : ℕ)) :
    EncBit (b.key order) (ctOf (b.ctDim order) (b.gate g order err old buf out ct0 ct1 m) out) (g.eval b0 b1)
        (b.outNoise order) ∧
      ∀ v i, ¬(v = out ∧ i < b.ctDim order + 1) → b.gate g order err old buf out ct0 ct1 m v i = m v i := by
  have : NeZero b.f := ⟨hb.f.ne'⟩
  have hLpos : (0 : ℚ) < (b.f * N : ℕ) := by exact_mod_cast Nat.mul_pos hb.f (NeZero.pos N)
  obtain ⟨e0, he0, hp0⟩ := h0
  obtain ⟨e1, he1, hp1⟩ := h1
  set m1 := gateLinear g (b.ctDim order) out ct0 ct1 m with hm1
  set res := bootstrapLUT order (polyGadget N b.gbr) (scalarGadget b.gks) b.f b.bs b.bc b.brk b.ksk err old buf
    (m1 out) (m1 out) (signLUT w N) with hres
  have hgate : b.gate g order err old buf out ct0 ct1 m
      = fun v i => if v = out ∧ i < b.ctDim order + 1 then res i else m1 v i := by
    unfold Boot.gate gateTo
    simp only [b.ctDim_eq order]
    rfl
  constructor
  · set X : ℤ := g.point b0 b1 * 2 ^ (w - 3) + g.coef * (e0 + e1) with hX
    have hphase : binPhase (b.ctDim order) b.lk (m1 out) = BitVec.ofInt w X := by
      rw [← phase_lweKeyOf, hX, ← gate_point hw, ← hp0, ← hp1, ← phase_gate]
      have hlin : (fun t : Fin (b.ctDim order + 1) => m1 out t)
          = fun t => (fun i => BitVec.ofInt w g.coef * (ctOf (b.ctDim order) m ct0 i + ctOf (b.ctDim order) m ct1 i)) t
              + if t = 0 then g.body 0 else 0 := by
        funext t
        rw [hm1, gateLinear_spec, if_pos ⟨rfl, t.2⟩]
        by_cases ht : t = 0
        · subst ht
          simp only [Fin.val_zero, if_true]
          rw [g.body_eq, g.lin_eq]
          rfl
        · have : t.1 ≠ 0 := fun h => ht (Fin.ext h)
          rw [if_neg this, if_neg ht, g.lin_eq, add_zero]
          rfl
      rw [hlin]
      unfold phase Boot.key
      simp only [if_true, Fin.succ_ne_zero, if_false, add_zero]
      ring
    obtain ⟨z, hz, h⟩ := C20_lut_partial b order hb hext err hF old buf (m1 out) (m1 out) (signLUT w N) X hphase this
    have hU : (0 : ℚ) < 2 ^ (w - 3) := by positivity
    have h8 : (2 : ℚ) ^ w = 8 * 2 ^ (w - 3) := by exact_mod_cast pow_w3 hw
    have hXq : (X : ℚ) * (2 * (b.f * N : ℕ)) / 2 ^ w
        = g.point b0 b1 * (b.f * N : ℕ) / 4 + g.coef * (e0 + e1) * (2 * (b.f * N : ℕ)) / 2 ^ w := by
      rw [hX, h8]; push_cast; field_simp; ring
    have he : |(g.coef * (e0 + e1) * (2 * (b.f * N : ℕ)) / 2 ^ w : ℚ)|
        ≤ g.gain * (E0 + E1) * (2 * (b.f * N : ℕ)) / 2 ^ w := by
      rw [abs_div, abs_mul, abs_mul, g.coef_gain, abs_of_pos (by positivity : (0:ℚ) < 2 ^ w),
        abs_of_nonneg (by positivity : (0:ℚ) ≤ 2 * (b.f * N : ℕ))]
      have hg : 0 ≤ g.gain := by cases g <;> norm_num [Gate.gain]
      have hee : |(e0 + e1 : ℚ)| ≤ E0 + E1 := (abs_add_le _ _).trans
        (add_le_add (by exact_mod_cast he0) (by exact_mod_cast he1))
      gcongr
    rw [hXq] at hz
    have hz' := abs_le.mp hz
    have he' := abs_le.mp he
    have hval : at' (inter (fun q : Fin b.f => signLUT w N q.1)) z = BitVec.ofInt w (bitValue w (g.eval b0 b1)) := by
      obtain ⟨ht, hf⟩ := g.point_eval b0 b1
      cases hev : g.eval b0 b1 with
      | true =>
        obtain ⟨p1, p2⟩ := ht hev
        have q1 : g.margin * (b.f * N : ℕ) ≤ g.point b0 b1 * (b.f * N : ℕ) / 4 := by
          have := mul_le_mul_of_nonneg_right p1 hLpos.le; linarith
        have q2 : g.point b0 b1 * (b.f * N : ℕ) / 4 ≤ (b.f * N : ℕ) - g.margin * (b.f * N : ℕ) := by
          have := mul_le_mul_of_nonneg_right p2 hLpos.le; linarith
        refine (signLUT_at z).1 ?_ ?_
        · have : (-1 : ℚ) < z := by linarith [hz'.1, he'.1]
          have : (-1 : ℤ) < z := by exact_mod_cast this
          omega
        · have : (z : ℚ) < (b.f * N : ℕ) := by linarith [hz'.2, he'.2]
          exact_mod_cast this
      | false =>
        obtain ⟨p1, p2⟩ := hf hev
        have q1 : g.margin * (b.f * N : ℕ) - (b.f * N : ℕ) ≤ g.point b0 b1 * (b.f * N : ℕ) / 4 := by
          have := mul_le_mul_of_nonneg_right p1 hLpos.le; linarith
        have q2 : g.point b0 b1 * (b.f * N : ℕ) / 4 ≤ -(g.margin * (b.f * N : ℕ)) := by
          have := mul_le_mul_of_nonneg_right p2 hLpos.le; linarith
        refine (signLUT_at z).2 ?_ ?_
        · have : (-((b.f * N : ℕ) : ℤ) : ℚ) ≤ z := by push_cast at *; linarith [hz'.1, he'.1]
          exact_mod_cast this
        · have : (z : ℚ) < 0 := by linarith [hz'.2, he'.2]
          exact_mod_cast this
    rw [hval] at h
    set d := binPhase (b.ctDim order) b.lk res - BitVec.ofInt w (bitValue w (g.eval b0 b1)) with hd
    refine ⟨d.toInt, ?_, ?_⟩
    · have : ((wabs d : ℕ) : ℤ) ≤ b.outNoise order := by exact_mod_cast h
      unfold wabs at this
      rwa [Int.natCast_natAbs] at this
    · have hout : ctOf (b.ctDim order) (b.gate g order err old buf out ct0 ct1 m) out
          = fun t : Fin (b.ctDim order + 1) => res t := by
        funext t
        rw [hgate]
        show (if out = out ∧ t.1 < b.ctDim order + 1 then res t else _) = _
        rw [if_pos ⟨rfl, t.2⟩]
      rw [hout]
      unfold Boot.key
      rw [phase_lweKeyOf, BitVec.ofInt_add, BitVec.ofInt_toInt, hd]
      ring
  · intro v i hvi
    rw [hgate]
    show (if v = out ∧ i < b.ctDim order + 1 then res i else m1 v i) = _
    rw [if_neg hvi, hm1, gateLinear_spec, if_neg hvi]

/-- **C21 (NOT).** No bootstrapping: the noise stays the same. -/
theorem C21_not {w dim : ℕ} (sk : Fin dim → BitVec w) (out ct : ℕ) (m : Mem (BitVec w)) (x : Bool) (E : ℕ)
    (h : EncBit sk (ctOf dim m ct) x E) :
    EncBit sk (ctOf dim (notTo dim out ct m) out) (!x) E ∧
      ∀ v i, ¬(v = out ∧ i < dim + 1) → notTo dim out ct m v i = m v i := by
  obtain ⟨e, he, hp⟩ := h
  constructor
  · refine ⟨-e, by rwa [abs_neg], ?_⟩
    have h1 : ctOf dim (notTo dim out ct m) out = fun t => -ctOf dim m ct t := by
      funext t
      unfold ctOf notTo
      rw [mapLoop_spec _ _ _ _ _ List.nodup_range, if_pos ⟨rfl, List.mem_range.mpr t.2⟩]
    have h2 : phase sk (fun t => -ctOf dim m ct t) = -phase sk (ctOf dim m ct) := by
      unfold phase
      rw [neg_add, ← Finset.sum_neg_distrib]
      congr 1
      exact Finset.sum_congr rfl fun i _ => by ring
    rw [h1, h2, hp, ← BitVec.ofInt_neg]
    congr 1
    unfold bitValue
    cases x <;> simp <;> ring
  · intro v i hvi
    unfold notTo
    rw [mapLoop_spec _ _ _ _ _ List.nodup_range, if_neg (by rwa [List.mem_range])]

/-- **C21.** The full property for parameters with `LUTSize = PolyRank`: decrypting the output of a gate
gives the gate of the decrypted inputs. -/
theorem C21_decrypts (g : Gate) (order : BootstrapOrder) (hw : 3 ≤ w) (hb : b.KeyValid) (hf : b.f = 1)
    (err : ℕ → ℕ → Fin (k + 1) → Poly N (BitVec w)) (hF : ∀ i q, pabs (phase b.sk (err i q)) ≤ b.Fe)
    (old : ℕ → Poly N (BitVec w)) (buf : ℕ → BitVec w) (out ct0 ct1 : ℕ) (m : Mem (BitVec w)) (b0 b1 : Bool)
    (E0 E1 : ℕ) (h0 : EncBit (b.key order) (ctOf (b.ctDim order) m ct0) b0 E0)
    (h1 : EncBit (b.key order) (ctOf (b.ctDim order) m ct1) b1 E1) (hE0 : E0 < 2 ^ (w - 3)) (hE1 : E1 < 2 ^ (w - 3))
    (hcond : g.gain * (E0 + E1) * (2 * (b.f * N : ℕ)) / 2 ^ w + b.indexErr order < g.margin * (b.f * N : ℕ))
    (hout : b.outNoise order < 2 ^ (w - 3)) :
    decryptLWEBool (b.key order) (ctOf (b.ctDim order) (b.gate g order err old buf out ct0 ct1 m) out)
      = g.eval (decryptLWEBool (b.key order) (ctOf (b.ctDim order) m ct0))
          (decryptLWEBool (b.key order) (ctOf (b.ctDim order) m ct1)) := by
  rw [C21_decode hw _ _ _ _ h0 hE0, C21_decode hw _ _ _ _ h1 hE1]
  exact C21_decode hw _ _ _ _
    (C21_gate_partial b g order hw hb (Or.inl hf) err hF old buf out ct0 ct1 m b0 b1 E0 E1 h0 h1 hcond).1 hout
end

/-- With the parameters of `exBoot` all gates are correct in both orders, for inputs with noise up to 2^57,
even when the output is one of the inputs. -/
example (N : ℕ) [NeZero N] (hN : N = 2048) (brMask ksMask brNoise ksNoise)
    (h1 : ∀ j i l, pabs (brNoise j i l) ≤ 2 ^ 10)
    (h2 : ∀ i j, wabs (ksNoise i j) ≤ 2 ^ 40) (order : BootstrapOrder)
    (old : ℕ → Poly N (BitVec 64)) (buf : ℕ → BitVec 64) (m : Mem (BitVec 64)) (g : Gate) (x : Bool) :
    let b := exBoot N brMask ksMask brNoise ksNoise
    EncBit (b.key order) (ctOf (b.ctDim order) m 0) x (2 ^ 57) →
    EncBit (b.key order) (ctOf (b.ctDim order) m 1) true (2 ^ 57) →
    decryptLWEBool (b.key order) (ctOf (b.ctDim order) (b.gate g order (fun _ _ => 0) old buf 1 0 1 m) 1)
      = g.eval x true := by
  intro b h0 ht
  have hw : weight (3 * 200) (fun i => i % 3 == 1) = 200 := by decide +kernel
  have hNq : (N : ℚ) = 2048 := by exact_mod_cast hN
  have hks : b.ksOut ≤ 2 ^ 57 := by
    show ksBound (⟨16, 4, 8⟩ : GadgetParams 64) (1 * N - 3 * 200) (2 ^ 40) ≤ _
    rw [hN]
    decide +kernel
  have hbr : b.brOut ≤ 2 ^ 50 := by
    show 200 * (3 * (2 * ((2 ^ (64 - 4 * 10) / 2) * (1 + 1 * N) + (1 + 1) * (4 * (N * (1024 / 2 * 2 ^ 10))))) + 2 ^ 20) ≤ _
    rw [hN]
    norm_num
  have hon : b.outNoise order ≤ 2 ^ 50 + 2 ^ 57 := by
    cases order
    · exact hbr.trans (by norm_num)
    · exact Nat.add_le_add hbr hks
  have hsw : switchErr N ≤ 1 := by unfold switchErr; rw [hNq]; norm_num
  have hix : b.indexErr order ≤ 2 ^ 57 * (2 * 2048) / 2 ^ 64 + 201 := by
    have hks' : (b.ksOut : ℚ) ≤ 2 ^ 57 := by exact_mod_cast hks
    have hS : (1 + (weight (3 * 200) (fun i => i % 3 == 1) : ℚ)) * switchErr (1 * N) + ((extShift 1 : ℕ) : ℚ) ≤ 201 := by
      rw [hw, Nat.one_mul]
      have : ((extShift 1 : ℕ) : ℚ) = 0 := by simp [extShift]
      rw [this]
      have := mul_le_mul_of_nonneg_left hsw (by norm_num : (0:ℚ) ≤ 201)
      norm_num at this ⊢
      linarith
    cases order
    · show (b.ksOut : ℚ) * (2 * (1 * N : ℕ)) / 2 ^ 64 + (1 + (weight (3 * 200) (fun i => i % 3 == 1) : ℚ)) * switchErr (1 * N)
        + ((extShift 1 : ℕ) : ℚ) ≤ _
      rw [add_assoc]
      refine add_le_add ?_ hS
      rw [Nat.one_mul, hNq]
      gcongr
    · show (1 + (weight (3 * 200) (fun i => i % 3 == 1) : ℚ)) * switchErr (1 * N) + ((extShift 1 : ℕ) : ℚ) ≤ _
      refine hS.trans ?_
      norm_num
  refine C21_decode (by norm_num) _ _ _ _ (C21_gate_partial b g order (by norm_num)
    (exBoot_valid N hN _ _ _ _ h1 h2).toKeyValid (Or.inl rfl) (fun _ _ => 0) (fun i q => ?_) old buf 1 0 1 m x true
    (2 ^ 57) (2 ^ 57) h0 ht ?_).1 (lt_of_le_of_lt hon (by norm_num))
  · have h0 : pabs (0 : Poly N (BitVec 64)) = 0 := (polyNorm N 64).zero
    show pabs (phase b.sk 0) ≤ _
    rw [phase_zero, h0]; exact Nat.zero_le _
  · show g.gain * _ * (2 * ((1 * N : ℕ) : ℚ)) / 2 ^ 64 + _ < g.margin * ((1 * N : ℕ) : ℚ)
    rw [Nat.one_mul, hNq]
    refine lt_of_le_of_lt (add_le_add_right hix _) ?_
    cases g <;> norm_num [Gate.gain, Gate.margin]

/-! ### C22: integers, bit by bit -/

/-- The step of decryption doubles and adds the bit. -/
theorem decryptBitStep_eq {w n : ℕ} (sk : Fin n → BitVec w) (message : BitVec 64) (ct : Fin (n + 1) → BitVec w) :
    decryptBitStep sk message ct = 2 * message + (if decryptLWEBool sk ct then 1 else 0) := by
  unfold decryptBitStep
  have : message <<< 1 = 2 * message := by
    apply BitVec.eq_of_toNat_eq
    rw [BitVec.toNat_shiftLeft, BitVec.toNat_mul, Nat.shiftLeft_eq, mul_comm]
    rfl
  rw [this]
  cases decryptLWEBool sk ct <;> simp

/-- **C22 (decryption).** Bits that decrypt to those of `v`, lowest first, decrypt to `v` as an `int`. -/
theorem C22_decryptBits {w n : ℕ} (sk : Fin n → BitVec w) (cts : List (Fin (n + 1) → BitVec w)) :
    decryptLWEBits sk cts
      = BitVec.ofNat 64 (Nat.ofBits (fun i : Fin cts.length => decryptLWEBool sk cts[i])) := by
  unfold decryptLWEBits
  induction cts with
  | nil => rfl
  | cons c cs ih =>
    rw [List.reverse_cons, List.foldl_append, ih]
    show decryptBitStep sk _ c = _
    rw [decryptBitStep_eq]
    have : Nat.ofBits (fun i : Fin (c :: cs).length => decryptLWEBool sk (c :: cs)[i])
        = 2 * Nat.ofBits (fun i : Fin cs.length => decryptLWEBool sk cs[i]) + (decryptLWEBool sk c).toNat := by
      exact Nat.ofBits_succ _
    rw [this, BitVec.ofNat_add, BitVec.ofNat_mul]
    cases decryptLWEBool sk c <;> rfl

theorem encryptLWEBits_length {w n : ℕ} (sk : Fin n → BitVec w) (mask : ℕ → Fin n → BitVec w) (noise : ℕ → BitVec w)
    (bits i : ℕ) (message : BitVec 64) : (encryptLWEBits sk mask noise bits i message).length = bits := by
  induction bits generalizing i message with
  | zero => rfl
  | succ b ih => simp [encryptLWEBits, ih]

/-- Bit `j` of an integer. -/
def intBit (z : ℤ) (j : ℕ) : Bool := decide (z / 2 ^ j % 2 = 1)

/-- **C22 (encryption).** Ciphertext `j` encrypts bit `j` of the message, with sign extension beyond bit 63. -/
theorem C22_encryptBits {w n : ℕ} (hw : 3 ≤ w) (sk : Fin n → BitVec w) (mask : ℕ → Fin n → BitVec w)
    (noise : ℕ → BitVec w) (bits : ℕ) (message : BitVec 64) (j : ℕ)
    (hj : j < (encryptLWEBits sk mask noise bits 0 message).length) :
    EncBit sk (encryptLWEBits sk mask noise bits 0 message)[j] (intBit message.toInt j) (wabs (noise j)) := by
  have gen : ∀ (bits i : ℕ) (message : BitVec 64) (j : ℕ)
      (hj : j < (encryptLWEBits sk mask noise bits i message).length),
      EncBit sk (encryptLWEBits sk mask noise bits i message)[j] (intBit message.toInt j) (wabs (noise (i + j))) := by
    intro bits
    induction bits with
    | zero => intro i message j hj; exact absurd hj (Nat.not_lt_zero _)
    | succ b ih =>
      intro i message j hj
      cases j with
      | zero =>
        have : (message &&& 1 == 1) = intBit message.toInt 0 := by
          have h1 : message.toInt % 2 = ((message.toNat % 2 : ℕ) : ℤ) := by
            rw [BitVec.toInt_eq_toNat_cond]
            split
            · push_cast; rfl
            · push_cast; omega
          have h2 : (message &&& 1).toNat = message.toNat % 2 := by
            rw [BitVec.toNat_and]
            exact Nat.and_one_is_mod _
          unfold intBit
          rw [pow_zero, Int.ediv_one, h1]
          rw [Bool.eq_iff_iff, beq_iff_eq, decide_eq_true_eq, ← BitVec.toNat_inj, h2]
          exact ⟨fun h => by rw [h]; rfl, fun h => by exact_mod_cast h⟩
        show EncBit sk (encryptLWEBool sk (mask i) (noise i) (message &&& 1 == 1)) _ _
        rw [this]
        exact C21_fresh hw _ _ _ _
      | succ j =>
        have h := ih (i + 1) (message.sshiftRight 1) j (by
          have := hj; simp only [encryptLWEBits, List.length_cons] at this; omega)
        have e1 : intBit (message.sshiftRight 1).toInt j = intBit message.toInt (j + 1) := by
          unfold intBit
          rw [BitVec.toInt_sshiftRight, Int.shiftRight_eq_div_pow, Int.ediv_ediv_of_nonneg (by positivity)]
          congr 3
          push_cast
          rw [pow_succ, mul_comm]
        rw [e1, show i + 1 + j = i + (j + 1) by omega] at h
        exact h
  have := gen bits 0 message j hj
  rwa [Nat.zero_add] at this

/-- The bits of an integer add up to its remainder. -/
theorem ofBits_intBit (z : ℤ) (n : ℕ) : ((Nat.ofBits (fun i : Fin n => intBit z i) : ℕ) : ℤ) = z % 2 ^ n := by
  induction n generalizing z with
  | zero => simp [Nat.ofBits, Int.emod_one]
  | succ n ih =>
    rw [Nat.ofBits_succ]
    have h1 : (fun i : Fin n => intBit z i) ∘ id = fun i : Fin n => intBit z i := rfl
    have h2 : Nat.ofBits ((fun i : Fin (n + 1) => intBit z i) ∘ Fin.succ) = Nat.ofBits (fun i : Fin n => intBit (z / 2) i) := by
      congr 1
      funext i
      show intBit z (i.1 + 1) = _
      unfold intBit
      rw [Int.ediv_ediv_of_nonneg (by norm_num), pow_succ, mul_comm]
    rw [h2]
    push_cast
    rw [ih]
    have h3 : ((intBit z (0 : Fin (n + 1))).toNat : ℤ) = z % 2 := by
      unfold intBit
      rw [Fin.val_zero, pow_zero, Int.ediv_one]
      rcases Int.emod_two_eq_zero_or_one z with h | h <;> rw [h] <;> rfl
    rw [h3, pow_succ, mul_comm (2 ^ n : ℤ) 2]
    have e1 := Int.emod_add_mul_ediv z 2
    have e2 := Int.emod_add_mul_ediv (z / 2) (2 ^ n)
    have e3 : z % (2 * 2 ^ n) = z - 2 * 2 ^ n * (z / 2 / 2 ^ n) := by
      rw [Int.emod_def, Int.ediv_ediv_of_nonneg (by norm_num)]
    rw [e3]
    linarith

/-- **C22.** Encrypting the lowest `bits` bits of any integer and decrypting gives the integer modulo
`2^bits` (as a Go `int`), for all keys, masks and noise below an eighth of the circle. -/
theorem C22_round_trip {w n : ℕ} (hw : 3 ≤ w) (sk : Fin n → BitVec w) (mask : ℕ → Fin n → BitVec w)
    (noise : ℕ → BitVec w) (bits : ℕ) (message : BitVec 64) (hnoise : ∀ j, j < bits → wabs (noise j) < 2 ^ (w - 3)) :
    decryptLWEBits sk (encryptLWEBits sk mask noise bits 0 message) = BitVec.ofInt 64 (message.toInt % 2 ^ bits) := by
  rw [C22_decryptBits, ← ofBits_intBit, BitVec.ofInt_natCast]
  congr 1
  have hl := encryptLWEBits_length sk mask noise bits 0 message
  have : ∀ (l : ℕ) (hl : l = bits) (h : ∀ j, j < l → j < (encryptLWEBits sk mask noise bits 0 message).length),
      Nat.ofBits (fun i : Fin l => decryptLWEBool sk ((encryptLWEBits sk mask noise bits 0 message)[i.1]'(h i.1 i.2)))
        = Nat.ofBits (fun i : Fin bits => intBit message.toInt i) := by
    intro l hl h
    subst hl
    congr 1
    funext i
    exact C21_decode hw sk _ _ _ (C22_encryptBits hw sk mask noise _ message i.1 (h i.1 i.2)) (hnoise i.1 i.2)
  exact this _ hl (fun j hj => hj)

/-- **C22 (all bits).** With 64 bits or more the integer itself comes back, negative ones included. -/
theorem C22_full {w n : ℕ} (hw : 3 ≤ w) (sk : Fin n → BitVec w) (mask : ℕ → Fin n → BitVec w)
    (noise : ℕ → BitVec w) (bits : ℕ) (hbits : 64 ≤ bits) (message : BitVec 64)
    (hnoise : ∀ j, j < bits → wabs (noise j) < 2 ^ (w - 3)) :
    decryptLWEBits sk (encryptLWEBits sk mask noise bits 0 message) = message := by
  rw [C22_round_trip hw sk mask noise bits message hnoise]
  apply BitVec.eq_of_toInt_eq
  rw [BitVec.toInt_ofInt]
  have : message.toInt % 2 ^ bits = message.toInt - ((2 ^ 64 : ℕ) : ℤ) * (2 ^ (bits - 64) * (message.toInt / 2 ^ bits)) := by
    rw [Int.emod_def, ← mul_assoc]
    congr 2
    rw [Nat.cast_pow, Nat.cast_ofNat, ← pow_add]; congr 1; omega
  rw [this, sub_eq_add_neg, ← mul_neg, Int.add_mul_bmod_self_left]
  exact BitVec.toInt_bmod_cancel _

/-- **C22 (fewer bits).** With fewer than 64 bits the result is the remainder, from 0 to `2^bits - 1`. -/
theorem C22_small {w n : ℕ} (hw : 3 ≤ w) (sk : Fin n → BitVec w) (mask : ℕ → Fin n → BitVec w)
    (noise : ℕ → BitVec w) (bits : ℕ) (hbits : bits < 64) (message : BitVec 64)
    (hnoise : ∀ j, j < bits → wabs (noise j) < 2 ^ (w - 3)) :
    (decryptLWEBits sk (encryptLWEBits sk mask noise bits 0 message)).toInt = message.toInt % 2 ^ bits := by
  rw [C22_round_trip hw sk mask noise bits message hnoise, BitVec.toInt_ofInt]
  have h0 := Int.emod_nonneg message.toInt (b := 2 ^ bits) (by positivity)
  have h1 := Int.emod_lt_of_pos message.toInt (b := 2 ^ bits) (by positivity)
  have h2 : (2 : ℤ) ^ bits ≤ 2 ^ 63 := pow_le_pow_right₀ (by norm_num) (by omega)
  apply Int.bmod_eq_of_le <;> norm_num <;> omega

/-- The hypotheses are met: -5 in 4 bits, 32-bit words, noise up to 2^29 - 1. -/
example : decryptLWEBits (n := 3) (fun i => BitVec.ofNat 32 (i % 2))
    (encryptLWEBits (fun i => BitVec.ofNat 32 (i % 2)) (fun j i => BitVec.ofNat 32 ((i + j) * 1234567891))
      (fun j => if j = 1 then 0x1fffffff#32 else -0x1fffffff#32) 4 0 (-5)) = 11 ∧
    ∀ j : ℕ, j < 4 → wabs (if j = 1 then 0x1fffffff#32 else -0x1fffffff#32) < 2 ^ (32 - 3) := by
  decide +kernel

end Tfhe
