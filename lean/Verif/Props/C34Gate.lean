import Verif.Props.C34Boot
import Verif.Props.C21

/-!
# C34: multi-key gates
-/
namespace Tfhe.Mk
open Finset Poly

/-- How far the noiseless sum is from the points where the sign changes, as a part of the half circle.  For `XOR` and `XNOR` it is
only half of that of the package `tfhe`. -/
def margin : Gate → ℚ := fun _ => 1 / 4

/-- The sign a gate must compute, in eighths of the circle (modulo the full circle). -/
def point : Gate → Bool → Bool → ℤ
  | .xor, true, false => 1
  | .xor, false, true => 1
  | .xor, _, _ => -3
  | .xnor, true, false => -1
  | .xnor, false, true => -1
  | .xnor, _, _ => 3
  | g, x, y => g.point x y

theorem gateLinear_spec {w : ℕ} (g : Gate) (dim out ct0 ct1 : ℕ) (m : Mem (BitVec w)) (v i : ℕ) :
    gateLinear g dim out ct0 ct1 m v i =
      if v = out ∧ i < dim + 1 then
        (if i = 0 then gateBody g (g.lin (m ct0 0) (m ct1 0)) else g.lin (m ct0 i) (m ct1 i))
      else m v i := by
  unfold gateLinear
  simp only [Mem.write]
  by_cases hv : v = out
  · subst hv
    by_cases hi : i = 0
    · subst hi
      simp [mapLoop_spec _ _ _ _ _ List.nodup_range]
    · simp only [hi, and_false, if_false, mapLoop_spec _ _ _ _ _ List.nodup_range, List.mem_range]
  · simp [hv, mapLoop_spec _ _ _ _ _ List.nodup_range]

theorem gateBody_eq {w : ℕ} (g : Gate) (x : BitVec w) : gateBody g x = x + gateBody g 0 := by
  cases g <;> simp only [gateBody] <;> ring

/-- The phase before bootstrapping, in eighths of the circle. -/
theorem gate_point {w : ℕ} (hw : 3 ≤ w) (g : Gate) (b0 b1 : Bool) (e0 e1 : ℤ) :
    BitVec.ofInt w g.coef * (BitVec.ofInt w (bitValue w b0 + e0) + BitVec.ofInt w (bitValue w b1 + e1)) + gateBody g 0
      = BitVec.ofInt w (point g b0 b1 * 2 ^ (w - 3) + g.coef * (e0 + e1)) := by
  have hU : BitVec.ofNat w (1 <<< (w - 3)) = BitVec.ofInt w (2 ^ (w - 3)) := by
    rw [Nat.shiftLeft_eq, one_mul, ← BitVec.ofInt_natCast]; push_cast; rfl
  have hsub : ∀ a : ℤ, (0 : BitVec w) - BitVec.ofInt w a = BitVec.ofInt w (-a) := by
    intro a; rw [BitVec.ofInt_neg, zero_sub]
  have hadd : ∀ a : ℤ, (0 : BitVec w) + BitVec.ofInt w a = BitVec.ofInt w a := fun a => zero_add _
  cases g <;> simp only [gateBody, hU, hsub, hadd, ← BitVec.ofInt_add, ← BitVec.ofInt_mul]
  case xor =>
    cases b0 <;> cases b1
    case true.true => exact ofInt_congr_circle hw _ _ 1 (by simp only [bitValue, Gate.coef, point]; simp; ring)
    all_goals exact congrArg _ (by simp only [bitValue, Gate.coef, point]; simp; try ring)
  case xnor =>
    cases b0 <;> cases b1
    case true.true => exact ofInt_congr_circle hw _ _ (-1) (by simp only [bitValue, Gate.coef, point]; simp; ring)
    all_goals exact congrArg _ (by simp only [bitValue, Gate.coef, point]; simp; try ring)
  all_goals
    cases b0 <;> cases b1 <;>
      exact congrArg _ (by simp only [bitValue, Gate.coef, point, Gate.point]; simp; try ring)

theorem point_eval (g : Gate) (b0 b1 : Bool) :
    (g.eval b0 b1 = true → 4 * margin g ≤ point g b0 b1 ∧ point g b0 b1 ≤ 4 - 4 * margin g) ∧
    (g.eval b0 b1 = false → 4 * margin g - 4 ≤ point g b0 b1 ∧ (point g b0 b1 : ℚ) ≤ -(4 * margin g)) := by
  cases g <;> cases b0 <;> cases b1 <;> norm_num [Gate.eval, margin, point, Gate.point]

section
variable {w N P : ℕ} [NeZero N] (b : MBoot w N P)

/-- A gate with the keys of `b`. -/
def MBoot.gate (g : Gate) (order : BootstrapOrder) (x : MBoot.Bufs w N) (out ct0 ct1 : ℕ) (m : Mem (BitVec w)) :
    Option (Mem (BitVec w)) :=
  gateTo g order P b.keys b.gacc (polyGadget N b.gbr) (polyGadget N b.gr) (scalarGadget b.gks) b.bs b.bc b.brk b.ksk
    x.errBR x.old x.ext x.bufKS x.bufE x.rot out ct0 ct1 m

/-- The joint key of default ciphertexts. -/
def MBoot.key (order : BootstrapOrder) : Fin (P * b.ctDim order) → BitVec w :=
  lweKeyOf w (P * b.ctDim order) (jointKey (b.ctDim order) b.on b.lk)

/-- **C34 (gates).** Every gate, on any two joint encryptions of bits (possibly the same, possibly the output), writes a joint
encryption of the gate's value, with noise that does not depend on the inputs; nothing else changes, and the masks of unknown
parties are zero. -/
theorem C34_gate (g : Gate) (order : BootstrapOrder) (hw : 3 ≤ w) (hb : b.KeyValid) (x : MBoot.Bufs w N)
    (hx : b.BufsOK x) (out ct0 ct1 : ℕ) (m : Mem (BitVec w)) (b0 b1 : Bool) (E0 E1 : ℕ)
    (h0 : EncBit (b.key order) (ctOf (P * b.ctDim order) m ct0) b0 E0)
    (h1 : EncBit (b.key order) (ctOf (P * b.ctDim order) m ct1) b1 E1)
    (hcond : g.gain * (E0 + E1) * (2 * N) / 2 ^ w + b.indexErr order < margin g * N) :
    ∃ m', b.gate g order x out ct0 ct1 m = some m' ∧
      EncBit (b.key order) (ctOf (P * b.ctDim order) m' out) (g.eval b0 b1) (b.outNoise order) ∧
      (∀ i < P, b.on i = false → ∀ j < b.ctDim order, m' out (i * b.ctDim order + j + 1) = 0) ∧
      ∀ v i, ¬(v = out ∧ i < P * b.ctDim order + 1) → m' v i = m v i := by
  have hLpos : (0 : ℚ) < N := by exact_mod_cast NeZero.pos N
  obtain ⟨e0, he0, hp0⟩ := h0
  obtain ⟨e1, he1, hp1⟩ := h1
  have hdim : defaultLWEDim order (b.bs * b.bc) N = b.ctDim order := by cases order <;> rfl
  set m1 := gateLinear g (P * b.ctDim order) out ct0 ct1 m with hm1
  set X : ℤ := point g b0 b1 * 2 ^ (w - 3) + g.coef * (e0 + e1) with hX
  have hphase : b.ph order (m1 out) = BitVec.ofInt w X := by
    unfold MBoot.ph
    rw [← phase_lweKeyOf, hX, ← gate_point hw, ← hp0, ← hp1, ← phase_gate]
    have hlin : (fun t : Fin (P * b.ctDim order + 1) => m1 out t)
        = fun t => (fun i => BitVec.ofInt w g.coef *
            (ctOf (P * b.ctDim order) m ct0 i + ctOf (P * b.ctDim order) m ct1 i)) t + if t = 0 then gateBody g 0 else 0 := by
      funext t
      rw [hm1, gateLinear_spec, if_pos ⟨rfl, t.2⟩]
      by_cases ht : t = 0
      · subst ht
        simp only [Fin.val_zero, if_true]
        rw [gateBody_eq, g.lin_eq]
        rfl
      · have : t.1 ≠ 0 := fun h => ht (Fin.ext h)
        rw [if_neg this, if_neg ht, g.lin_eq, add_zero]
        rfl
    rw [hlin]
    unfold phase MBoot.key
    simp only [if_true, Fin.succ_ne_zero, if_false, add_zero]
    ring
  obtain ⟨res, hres, ⟨z, hz, h⟩, hoff, hframe⟩ := C34_lut b order hb x hx (m1 out) (m1 out) (signLUT w N) X hphase
  refine ⟨fun v i => if v = out then res i else m1 v i, ?_, ?_, fun i hi ho j hj => ?_, fun v i hvi => ?_⟩
  · unfold MBoot.gate gateTo
    rw [hdim, ← hm1]
    unfold MBoot.runLUT at hres
    simp only [hres]; rfl
  · have hU : (0 : ℚ) < 2 ^ (w - 3) := by positivity
    have h8 : (2 : ℚ) ^ w = 8 * 2 ^ (w - 3) := by exact_mod_cast pow_w3 hw
    have hXq : (X : ℚ) * (2 * N) / 2 ^ w = point g b0 b1 * N / 4 + g.coef * (e0 + e1) * (2 * N) / 2 ^ w := by
      rw [hX, h8]; push_cast; field_simp; ring
    have he : |(g.coef * (e0 + e1) * (2 * N) / 2 ^ w : ℚ)| ≤ g.gain * (E0 + E1) * (2 * N) / 2 ^ w := by
      rw [abs_div, abs_mul, abs_mul, g.coef_gain, abs_of_pos (by positivity : (0:ℚ) < 2 ^ w),
        abs_of_nonneg (by positivity : (0:ℚ) ≤ 2 * N)]
      have hg : 0 ≤ g.gain := by cases g <;> norm_num [Gate.gain]
      have hee : |(e0 + e1 : ℚ)| ≤ E0 + E1 := (abs_add_le _ _).trans
        (add_le_add (by exact_mod_cast he0) (by exact_mod_cast he1))
      gcongr
    rw [hXq] at hz
    have hz' := abs_le.mp hz
    have he' := abs_le.mp he
    have hval : at' (signLUT w N 0) z = BitVec.ofInt w (bitValue w (g.eval b0 b1)) := by
      have hinter : at' (inter (fun q : Fin 1 => signLUT w N q.1)) z = at' (signLUT w N 0) z := by
        rw [at_inter, Nat.cast_one, Int.ediv_one, Subsingleton.elim (idx 1 z) 0]
        rfl
      have hs := signLUT_at (w := w) (N := N) (f := 1) z
      rw [hinter, Nat.one_mul] at hs
      obtain ⟨ht, hf⟩ := point_eval g b0 b1
      cases hev : g.eval b0 b1 with
      | true =>
        obtain ⟨p1, p2⟩ := ht hev
        have q1 : margin g * N ≤ point g b0 b1 * N / 4 := by
          have := mul_le_mul_of_nonneg_right p1 hLpos.le; linarith
        have q2 : point g b0 b1 * N / 4 ≤ N - margin g * N := by
          have := mul_le_mul_of_nonneg_right p2 hLpos.le; linarith
        refine hs.1 ?_ ?_
        · have : (-1 : ℚ) < z := by linarith [hz'.1, he'.1]
          have : (-1 : ℤ) < z := by exact_mod_cast this
          omega
        · have : (z : ℚ) < N := by linarith [hz'.2, he'.2]
          exact_mod_cast this
      | false =>
        obtain ⟨p1, p2⟩ := hf hev
        have q1 : margin g * N - N ≤ point g b0 b1 * N / 4 := by
          have := mul_le_mul_of_nonneg_right p1 hLpos.le; linarith
        have q2 : point g b0 b1 * N / 4 ≤ -(margin g * N) := by
          have := mul_le_mul_of_nonneg_right p2 hLpos.le; linarith
        refine hs.2 ?_ ?_
        · have : (-(N : ℤ) : ℚ) ≤ z := by push_cast at *; linarith [hz'.1, he'.1]
          exact_mod_cast this
        · have : (z : ℚ) < 0 := by linarith [hz'.2, he'.2]
          exact_mod_cast this
    rw [hval] at h
    set d := b.ph order res - BitVec.ofInt w (bitValue w (g.eval b0 b1)) with hd
    refine ⟨d.toInt, ?_, ?_⟩
    · have : ((wabs d : ℕ) : ℤ) ≤ b.outNoise order := by exact_mod_cast h
      unfold wabs at this
      rwa [Int.natCast_natAbs] at this
    · have hout : ctOf (P * b.ctDim order) (fun v i => if v = out then res i else m1 v i) out
          = fun t : Fin (P * b.ctDim order + 1) => res t := by
        funext t; simp [ctOf]
      rw [hout]
      unfold MBoot.key
      rw [phase_lweKeyOf, BitVec.ofInt_add, BitVec.ofInt_toInt, hd]
      unfold MBoot.ph
      ring
  · show (if out = out then _ else _) = _
    rw [if_pos rfl]; exact hoff i hi ho j hj
  · show (if v = out then res i else m1 v i) = _
    split
    · next hv =>
      subst hv
      have hi : P * b.ctDim order + 1 ≤ i := by
        by_contra hlt
        exact hvi ⟨rfl, by omega⟩
      rw [hframe i hi, hm1, gateLinear_spec, if_neg hvi]
    · rw [hm1, gateLinear_spec, if_neg hvi]

omit [NeZero N] in
/-- A decryptor reads bits from joint encryptions. -/
theorem decrypt_bit (order : BootstrapOrder) (hw : 3 ≤ w) {d : Decryptor (Fin (b.ctDim order) → BitVec w)}
    (hd : Holds P d (b.held order)) (ct : ℕ) (m : Mem (BitVec w)) (y : Bool) (E : ℕ)
    (h : EncBit (b.key order) (ctOf (P * b.ctDim order) m ct) y E) (hE : E < 2 ^ (w - 3)) :
    (decryptLWEPhase d (m ct)).map decodeLWEBool = some y := by
  rw [decrypt_ph b order hd, Option.map_some]
  have := C21_decode hw _ _ _ _ h hE
  unfold decryptLWEBool at this
  rw [C05_decryptPhase] at this
  rw [Option.some.injEq, ← this]
  congr 1
  unfold MBoot.ph MBoot.key
  rw [← phase_lweKeyOf]; rfl

/-- **C34 (gates on messages).** `DecryptLWEBool` of the output of a gate is the gate of the decrypted inputs. -/
theorem C34_gate_decrypts (g : Gate) (order : BootstrapOrder) (hw : 3 ≤ w) (hb : b.KeyValid) (x : MBoot.Bufs w N)
    (hx : b.BufsOK x) (out ct0 ct1 : ℕ) (m : Mem (BitVec w)) (b0 b1 : Bool) (E0 E1 : ℕ)
    (h0 : EncBit (b.key order) (ctOf (P * b.ctDim order) m ct0) b0 E0)
    (h1 : EncBit (b.key order) (ctOf (P * b.ctDim order) m ct1) b1 E1) (hE0 : E0 < 2 ^ (w - 3)) (hE1 : E1 < 2 ^ (w - 3))
    {d : Decryptor (Fin (b.ctDim order) → BitVec w)} (hd : Holds P d (b.held order))
    (hcond : g.gain * (E0 + E1) * (2 * N) / 2 ^ w + b.indexErr order < margin g * N)
    (hout : b.outNoise order < 2 ^ (w - 3)) :
    ∃ m' y0 y1, b.gate g order x out ct0 ct1 m = some m' ∧
      (decryptLWEPhase d (m ct0)).map decodeLWEBool = some y0 ∧ (decryptLWEPhase d (m ct1)).map decodeLWEBool = some y1 ∧
      (decryptLWEPhase d (m' out)).map decodeLWEBool = some (g.eval y0 y1) := by
  obtain ⟨m', h2, h3, -, -⟩ := C34_gate b g order hw hb x hx out ct0 ct1 m b0 b1 E0 E1 h0 h1 hcond
  exact ⟨m', b0, b1, h2, decrypt_bit b order hw hd ct0 m b0 E0 h0 hE0, decrypt_bit b order hw hd ct1 m b1 E1 h1 hE1,
    decrypt_bit b order hw hd out m' _ _ h3 hout⟩
end

/-- `NOT` keeps the noise, for any number of parties. -/
theorem C34_not {w dim : ℕ} (sk : Fin dim → BitVec w) (out ct : ℕ) (m : Mem (BitVec w)) (y : Bool) (E : ℕ)
    (h : EncBit sk (ctOf dim m ct) y E) : EncBit sk (ctOf dim (notTo dim out ct m) out) (!y) E :=
  (C21_not sk out ct m y E h).1

/-! ### The margin of `XOR` and `XNOR` -/

/-- The sign before bootstrapping is right for all inputs with noise up to `E`, under every key. -/
def SignOK (w E : ℕ) (lin : ℕ → Mem (BitVec w) → Mem (BitVec w)) (g : Gate) : Prop :=
  ∀ (dim : ℕ) (sk : Fin dim → BitVec w) (m : Mem (BitVec w)) (b0 b1 : Bool), EncBit sk (ctOf dim m 0) b0 E →
    EncBit sk (ctOf dim m 1) b1 E → decodeLWEBool (phase sk (ctOf dim (lin dim m) 2)) = g.eval b0 b1

theorem decodeLWEBool_ofInt {w : ℕ} (hw : 1 ≤ w) (X : ℤ) :
    (0 ≤ X → X < 2 ^ (w - 1) → decodeLWEBool (BitVec.ofInt w X) = true) ∧
    (-2 ^ (w - 1) ≤ X → X < 0 → decodeLWEBool (BitVec.ofInt w X) = false) := by
  obtain ⟨v, rfl⟩ := Nat.exists_eq_add_of_le hw
  have hp : (2 : ℤ) ^ (1 + v) = 2 * 2 ^ v := by rw [pow_add]; norm_num
  have hv : (0 : ℤ) < 2 ^ v := by positivity
  unfold decodeLWEBool
  rw [BitVec.toNat_ofInt, Nat.add_sub_cancel_left, Nat.shiftLeft_eq, one_mul]
  push_cast
  constructor
  · intro h0 h1
    rw [Int.emod_eq_of_lt h0 (by rw [hp]; linarith), decide_eq_true_eq]
    zify; rw [Int.toNat_of_nonneg h0]; exact h1
  · intro h0 h1
    have : X % 2 ^ (1 + v) = X + 2 ^ (1 + v) := by
      rw [← Int.add_emod_right, Int.emod_eq_of_lt (by rw [hp]; linarith) (by linarith)]
    rw [this, decide_eq_false_iff_not, not_lt]
    zify; rw [Int.toNat_of_nonneg (by rw [hp]; linarith), hp]; linarith

/-- `XOR` and `XNOR` of the package `tfhe` compute the right sign for all noises below a sixteenth of the circle. -/
theorem C34_xor_margin_tfhe (w E : ℕ) (hw : 4 ≤ w) (hE : E < 2 ^ (w - 4)) (g : Gate) (hg : g = .xor ∨ g = .xnor) :
    SignOK w E (fun dim m => Tfhe.gateLinear g dim 2 0 1 m) g := by
  rintro dim sk m b0 b1 ⟨e0, he0, hp0⟩ ⟨e1, he1, hp1⟩
  have hph : phase sk (ctOf dim (Tfhe.gateLinear g dim 2 0 1 m) 2) =
      BitVec.ofInt w (g.point b0 b1 * 2 ^ (w - 3) + g.coef * (e0 + e1)) := by
    rw [← Tfhe.gate_point (by omega), ← hp0, ← hp1, ← phase_gate]
    have hlin : ctOf dim (Tfhe.gateLinear g dim 2 0 1 m) 2
        = fun t => (fun i => BitVec.ofInt w g.coef * (ctOf dim m 0 i + ctOf dim m 1 i)) t + if t = 0 then g.body 0 else 0 := by
      funext t
      show Tfhe.gateLinear g dim 2 0 1 m 2 t = _
      rw [Tfhe.gateLinear_spec, if_pos ⟨rfl, t.2⟩]
      by_cases ht : t = 0
      · subst ht
        simp only [Fin.val_zero, if_true]
        rw [g.body_eq, g.lin_eq]
        rfl
      · have : t.1 ≠ 0 := fun h => ht (Fin.ext h)
        rw [if_neg this, if_neg ht, g.lin_eq, add_zero]
        rfl
    rw [hlin]
    unfold phase
    simp only [if_true, Fin.succ_ne_zero, if_false, add_zero]
    ring
  rw [hph]
  obtain ⟨v, rfl⟩ := Nat.exists_eq_add_of_le hw
  have hE' : (E : ℤ) < 2 ^ v := by
    have : 4 + v - 4 = v := by omega
    rw [this] at hE; exact_mod_cast hE
  have h3 : (2 : ℤ) ^ (4 + v - 3) = 2 * 2 ^ v := by
    rw [show 4 + v - 3 = v + 1 by omega, pow_succ]; ring
  have h1 : (2 : ℤ) ^ (4 + v - 1) = 8 * 2 ^ v := by
    rw [show 4 + v - 1 = v + 3 by omega, pow_add]; ring
  have a0 := abs_le.1 he0
  have a1 := abs_le.1 he1
  have hd := decodeLWEBool_ofInt (w := 4 + v) (by omega)
  rw [h3]
  rcases hg with rfl | rfl <;> cases b0 <;> cases b1 <;> simp only [Gate.point, Gate.coef, Gate.eval]
  case inl.false.true | inl.true.false | inr.false.false | inr.true.true =>
    exact (hd _).1 (by linarith) (by rw [h1]; linarith)
  all_goals exact (hd _).2 (by rw [h1]; linarith) (by linarith)

/-- Those of `mktfhe` do not: noise a little above a thirty-second of the circle in each input flips the sign, because an eighth
of the circle is added where a quarter belongs. -/
theorem C34_xor_margin_false (w E : ℕ) (hw : 6 ≤ w) (hE : 2 ^ (w - 5) < E) (g : Gate) (hg : g = .xor ∨ g = .xnor) :
    ¬ SignOK w E (fun dim m => gateLinear g dim 2 0 1 m) g := by
  intro h
  obtain ⟨v, rfl⟩ := Nat.exists_eq_add_of_le hw
  set e : ℤ := -(2 * 2 ^ v + 1) with he
  have hE' : |e| ≤ E := by
    rw [he, abs_neg, abs_of_pos (by positivity)]
    have : (2 : ℤ) * 2 ^ v < E := by
      rw [show 6 + v - 5 = v + 1 by omega, pow_succ] at hE
      have := (Nat.cast_lt (α := ℤ)).2 hE
      push_cast at this; linarith
    omega
  have h3 : (2 : ℤ) ^ (6 + v - 3) = 8 * 2 ^ v := by
    rw [show 6 + v - 3 = v + 3 by omega, pow_add]; ring
  have h1 : (2 : ℤ) ^ (6 + v - 1) = 32 * 2 ^ v := by
    rw [show 6 + v - 1 = v + 5 by omega, pow_add]; ring
  have hv : (1 : ℤ) ≤ 2 ^ v := by exact_mod_cast Nat.one_le_two_pow
  have hsum : ∀ c : Fin (0 + 1) → BitVec (6 + v), phase (fun i : Fin 0 => i.elim0) c = c 0 := fun c => by simp [phase]
  have key := h 0 (fun i => i.elim0) (fun a _ => BitVec.ofInt _ (bitValue (6 + v) (a == 0) + e)) true false
    ⟨e, hE', by rw [hsum]; rfl⟩ ⟨e, hE', by rw [hsum]; rfl⟩
  rw [hsum] at key
  have hval : ctOf 0 (gateLinear g 0 2 0 1 (fun a _ => BitVec.ofInt (6 + v) (bitValue (6 + v) (a == 0) + e))) 2 0 =
      BitVec.ofInt (6 + v) (point g true false * 2 ^ (6 + v - 3) + g.coef * (e + e)) := by
    rw [← gate_point (by omega)]
    show gateLinear g 0 2 0 1 _ 2 0 = _
    rw [gateLinear_spec, if_pos ⟨rfl, by omega⟩, if_pos rfl, gateBody_eq, g.lin_eq]
    rfl
  rw [hval, h3] at key
  have hd := decodeLWEBool_ofInt (w := 6 + v) (by omega)
  rcases hg with rfl | rfl <;> simp only [point, Gate.coef, Gate.eval] at key
  · rw [(hd _).2 (by rw [h1, he]; linarith) (by rw [he]; linarith)] at key
    exact absurd key (by decide)
  · rw [(hd _).1 (by rw [he]; linarith) (by rw [h1, he]; linarith)] at key
    exact absurd key (by decide)

/-- Noise 6 of 128 (less than a sixteenth) in 7-bit words is such a case. -/
example : SignOK 7 6 (fun dim m => Tfhe.gateLinear .xor dim 2 0 1 m) .xor ∧
    ¬ SignOK 7 6 (fun dim m => gateLinear .xor dim 2 0 1 m) .xor :=
  ⟨C34_xor_margin_tfhe 7 6 (by norm_num) (by norm_num) _ (Or.inl rfl),
    C34_xor_margin_false 7 6 (by norm_num) (by norm_num) _ (Or.inl rfl)⟩

/-- With the keys of `exM` all gates are correct in both orders, for inputs with noise up to 2^57, also when the output is one of
the inputs. -/
example (N : ℕ) [NeZero N] (hN : N = 64) (r : ExRand N) (hr : r.OK) (order : BootstrapOrder) (x : MBoot.Bufs 64 N)
    (hx : (exM N r).BufsOK x) (m : Mem (BitVec 64)) (g : Gate) (y : Bool) :
    let b := exM N r
    EncBit (b.key order) (ctOf (3 * b.ctDim order) m 0) y (2 ^ 57) →
    EncBit (b.key order) (ctOf (3 * b.ctDim order) m 1) true (2 ^ 57) →
    ∃ m', b.gate g order x 1 0 1 m = some m' ∧
      EncBit (b.key order) (ctOf (3 * b.ctDim order) m' 1) (g.eval y true) (2 ^ 51) := by
  intro b h0 h1
  obtain ⟨hks, ho, hix⟩ := exM_bounds N hN r order
  obtain ⟨m', g1, ⟨e, g2, g3⟩, -, -⟩ := C34_gate b g order (by norm_num) (exM_valid N hN r hr).toKeyValid x hx 1 0 1 m y true
    (2 ^ 57) (2 ^ 57) h0 h1 (by
      have hNq : (N : ℚ) = 64 := by exact_mod_cast hN
      refine lt_of_le_of_lt (add_le_add_right hix _) ?_
      rw [hNq]
      cases g <;> norm_num [Gate.gain, margin])
  exact ⟨m', g1, e, g2.trans (by exact_mod_cast ho), g3⟩
end Tfhe.Mk
