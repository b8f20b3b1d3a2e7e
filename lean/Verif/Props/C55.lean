import Verif.Model.Uni
import Verif.Props.C47

/-!
# C55: uni-encryption round-trips

`UniDecrypt (UniEncrypt messages)` is the list of messages modulo the message modulus; the same for the Fourier form
and for polynomials.
-/
namespace Tfhe
open Mk

variable {w N : ℕ} [NeZero N]

/-- Rounding to the first gadget scale without reduction modulo the base: a value up to and including the base. -/
theorem round_first_le (g : GadgetParams w) (hg : g.Valid) (c e : BitVec w)
    (h1 : -(2 ^ g.logFirstBaseQ : ℤ) ≤ 2 * e.toInt) (h2 : 2 * e.toInt < 2 ^ g.logFirstBaseQ) :
    (divRoundBits (c * g.baseQ 0 + e) g.logFirstBaseQ).toNat % g.base.toNat = c.toNat % g.base.toNat ∧
    (divRoundBits (c * g.baseQ 0 + e) g.logFirstBaseQ).toNat ≤ g.base.toNat ∧
    ((divRoundBits (c * g.baseQ 0 + e) g.logFirstBaseQ).toNat = g.base.toNat ↔
      c.toNat % g.base.toNat = 0 ∧ e.toInt < 0) := by
  have hr := round_first g hg c e h1 h2
  rw [BitVec.toNat_umod] at hr
  have hlt := hg.logBase_lt
  have hpos := hg.logBase_pos
  have hL : g.logFirstBaseQ < w := by unfold GadgetParams.logFirstBaseQ; omega
  have hL1 : 1 ≤ g.logFirstBaseQ := by unfold GadgetParams.logFirstBaseQ; omega
  have hw : w = g.logFirstBaseQ + g.logBase := by unfold GadgetParams.logFirstBaseQ; omega
  have hb : g.base.toNat = 2 ^ g.logBase := hg.base_eq
  have hbq : g.baseQ 0 = ((2 ^ g.logFirstBaseQ : ℕ) : BitVec w) := by
    rw [GadgetParams.baseQ, shl_eq]
    have : w - (0 + 1) * g.logBase = g.logFirstBaseQ := by rw [GadgetParams.logFirstBaseQ]; omega
    rw [this]
    push_cast
    exact one_mul _
  have hW : (2 : ℕ) ^ w = 2 ^ g.logFirstBaseQ * 2 ^ g.logBase := by rw [← pow_add, ← hw]
  have h2L : (2 : ℕ) ^ g.logFirstBaseQ = 2 * 2 ^ (g.logFirstBaseQ - 1) := by rw [← pow_succ']; congr 1; omega
  set x := c * g.baseQ 0 + e with hx
  have hv : (divRoundBits x g.logFirstBaseQ).toNat = (x.toNat + 2 ^ g.logFirstBaseQ / 2) / 2 ^ g.logFirstBaseQ :=
    toNat_divRoundBits _ _ hL
  have hxlt := x.isLt
  have hP : 0 < 2 ^ g.logFirstBaseQ := by positivity
  have hle : (divRoundBits x g.logFirstBaseQ).toNat ≤ 2 ^ g.logBase := by
    rw [hv, ← Nat.lt_succ_iff, Nat.div_lt_iff_lt_mul hP, Nat.succ_mul, mul_comm, ← hW]
    omega
  have hxe : c.toNat % g.base.toNat = 0 → x = e := by
    intro h
    obtain ⟨k, hk⟩ := Nat.dvd_of_mod_eq_zero h
    have : c * g.baseQ 0 = 0 := by
      rw [hbq, ← bv_cast_toNat c, hk, hb, ← Nat.cast_mul]
      rw [show 2 ^ g.logBase * k * 2 ^ g.logFirstBaseQ = 2 ^ w * k by rw [hW]; ring]
      rw [Nat.cast_mul]
      have : ((2 ^ w : ℕ) : BitVec w) = 0 := by
        rw [BitVec.natCast_eq_ofNat]
        exact BitVec.eq_of_toNat_eq (by simp)
      rw [this, zero_mul]
    rw [hx, this, zero_add]
  refine ⟨hr, hb ▸ hle, fun h => ?_, fun ⟨hc, he⟩ => ?_⟩
  · have hc : c.toNat % g.base.toNat = 0 := by rw [← hr, h, Nat.mod_self]
    refine ⟨hc, ?_⟩
    have hxe' := hxe hc
    rw [hv, hb, Nat.div_eq_iff hP] at h
    have h3 : 2 ^ w ≤ e.toNat + 2 ^ g.logFirstBaseQ / 2 := by
      rw [hW, ← hxe']
      calc 2 ^ g.logFirstBaseQ * 2 ^ g.logBase = 2 ^ g.logBase * 2 ^ g.logFirstBaseQ := mul_comm _ _
        _ ≤ _ := h.1
    have hw2 : 2 * 2 ^ g.logFirstBaseQ ≤ 2 ^ w := by
      rw [← pow_succ']
      exact Nat.pow_le_pow_right (by norm_num) (by omega)
    have hel := e.isLt
    have h5 : e.toInt = (e.toNat : ℤ) - 2 ^ w := by
      rw [BitVec.toInt_eq_toNat_cond, if_neg (by omega)]
      push_cast
      rfl
    have h6 : (e.toNat : ℤ) < 2 ^ w := by exact_mod_cast hel
    omega
  · have hxe' := hxe hc
    have h5 : (e.toNat : ℤ) = e.toInt + 2 ^ w := by
      rw [BitVec.toInt_eq_toNat_cond] at he ⊢
      split_ifs at he ⊢ with h
      · omega
      · push_cast
        omega
    have h3 : 2 ^ w ≤ e.toNat + 2 ^ g.logFirstBaseQ / 2 := by
      zify
      push_cast at *
      have : (2 : ℤ) ^ g.logFirstBaseQ = 2 * 2 ^ (g.logFirstBaseQ - 1) := by exact_mod_cast h2L
      omega
    rw [hb]
    refine le_antisymm hle ?_
    rw [hv, hxe', Nat.le_div_iff_mul_le hP, mul_comm, ← hW]
    exact h3

/-- The noise of the encrypted auxiliary key. -/
def Mk.UniRand.noiseAux (ω : UniRand w N) (z derr : Poly N (BitVec w)) (δ1 : ℕ → Fin 2 → Poly N (BitVec w)) :
    Poly N (BitVec w) := ω.noise1 0 - ω.err1 0 + derr + (δ1 0 0 + δ1 0 1 * z)

/-- The noise of the message. -/
def Mk.UniRand.noiseMsg (ω : UniRand w N) (err : Poly N (BitVec w)) (δ0 : ℕ → Fin 2 → Poly N (BitVec w)) :
    Poly N (BitVec w) := ω.noise0 0 + ω.err0 0 - err + (δ0 0 0 - δ0 0 1 * ω.aux)

/-- Below half of the first gadget scale. -/
def InRadius (g : GadgetParams w) (e : Poly N (BitVec w)) : Prop :=
  ∀ i, -(2 ^ g.logFirstBaseQ : ℤ) ≤ 2 * (e i).toInt ∧ 2 * (e i).toInt < 2 ^ g.logFirstBaseQ

/-- The auxiliary key is decrypted exactly. -/
theorem uni_aux (g : GadgetParams w) (hg : g.Valid) (a : ℕ → Poly N (BitVec w)) (z derr p : Poly N (BitVec w))
    (ω : UniRand w N) (δ1 : ℕ → Fin 2 → Poly N (BitVec w)) (hb : ∀ i, (ω.aux i).toNat ≤ 1)
    (h : InRadius g (ω.noiseAux z derr δ1)) :
    decryptGLevPoly g (fun _ : Fin 1 => z) (fun _ => derr) (fun j i => (uniEncryptPoly (fun j => Poly.C N (g.baseQ j)) a
      z ω.aux ω.err0 ω.noise0 ω.mask1 ω.err1 ω.noise1 p).v1 j i + δ1 j i) = ω.aux := by
  funext i
  have e : decryptGLWEPhase (fun _ : Fin 1 => z) (fun _ => derr) (fun i => (uniEncryptPoly (fun j => Poly.C N (g.baseQ j))
      a z ω.aux ω.err0 ω.noise0 ω.mask1 ω.err1 ω.noise1 p).v1 0 i + δ1 0 i)
      = ω.aux * Poly.C N (g.baseQ 0) + ω.noiseAux z derr δ1 := by
    rw [decryptGLWEPhase_eq]
    simp only [phase, uniEncryptPoly, encryptGLWEBody, UniRand.noiseAux, Finset.univ_unique, Fin.default_eq_zero,
      Finset.sum_singleton, Fin.foldl_succ, Fin.foldl_zero, Fin.cons_zero, Fin.cons_succ]
    rw [show (Fin.succ 0 : Fin 2) = 1 from rfl]
    ring
  apply BitVec.eq_of_toNat_eq
  simp only [decryptGLevPoly]
  rw [e, Poly.add_apply, mul_comm, Poly.C_mul_apply, mul_comm, round_first g hg _ _ (h i).1 (h i).2,
    Nat.mod_eq_of_lt]
  rw [hg.base_eq]
  have := hb i
  have h2 : 2 ^ 1 ≤ 2 ^ g.logBase := Nat.pow_le_pow_right (by norm_num) hg.logBase_pos
  omega

/-- **C55, polynomials.** A gadget with no more levels than the common reference string can be used.  Every coefficient
of the decryption is that of the polynomial modulo the base, except that `0` comes back as the base when the noise is
negative.  Without the errors `δ0` and `δ1` this is `UniDecryptPoly`, with them `FFTUniDecryptPoly`. -/
theorem C55_poly_partial (g : GadgetParams w) (hg : g.Valid) (crs : List (Poly N (BitVec w))) (hl : g.level ≤ crs.length)
    (z derr err p : Poly N (BitVec w)) (ω : UniRand w N) (δ0 δ1 : ℕ → Fin 2 → Poly N (BitVec w))
    (hb : ∀ i, (ω.aux i).toNat ≤ 1) (hn1 : InRadius g (ω.noiseAux z derr δ1)) (hn0 : InRadius g (ω.noiseMsg err δ0)) :
    ∃ ct, uniEncryptCt crs z g ω p = some ct ∧ ∀ i,
      (fftUniDecryptPoly z derr err δ0 δ1 ct i).toNat % g.base.toNat = (p i).toNat % g.base.toNat ∧
      (fftUniDecryptPoly z derr err δ0 δ1 ct i).toNat ≤ g.base.toNat ∧
      ((fftUniDecryptPoly z derr err δ0 δ1 ct i).toNat = g.base.toNat ↔
        (p i).toNat % g.base.toNat = 0 ∧ (ω.noiseMsg err δ0 i).toInt < 0) := by
  refine ⟨_, if_pos hl, fun i => ?_⟩
  have haux := uni_aux g hg (fun j => crs.getD j 0) z derr p ω δ1 hb hn1
  have e : fftUniDecryptPoly z derr err δ0 δ1 ⟨g, g, g, uniEncryptPoly (fun j => Poly.C N (g.baseQ j))
      (fun j => crs.getD j 0) z ω.aux ω.err0 ω.noise0 ω.mask1 ω.err1 ω.noise1 p⟩ i
      = divRoundBits (p i * g.baseQ 0 + ω.noiseMsg err δ0 i) g.logFirstBaseQ := by
    simp only [fftUniDecryptPoly, uniDecryptPoly, uniInvFFT]
    rw [haux]
    congr 1
    rw [mul_comm (p i), ← Poly.C_mul_apply, ← Poly.add_apply]
    refine congrFun (f := (_ : Poly N (BitVec w))) ?_ i
    simp only [uniEncryptPoly, UniRand.noiseMsg, Matrix.cons_val_zero, Matrix.cons_val_one]
    ring_nf
    rfl
  rw [e]
  exact round_first_le g hg _ _ (hn0 i).1 (hn0 i).2

theorem uniInvFFT_zero (ct : UniCt w N) : uniInvFFT (fun _ _ => 0) (fun _ _ => 0) ct = ct := by
  simp [uniInvFFT]

/-- **C55, messages.** If the message modulus divides the gadget base, `UniDecrypt (UniEncrypt messages)` and
`FFTUniDecrypt (FFTUniEncrypt messages)` are the messages modulo the modulus, padded with zero; whatever the slice
for the result held before. -/
theorem C55_messages_partial (hw : w ≤ 64) (g : GadgetParams w) (hg : g.Valid) (crs : List (Poly N (BitVec w)))
    (hl : g.level ≤ crs.length) (z derr err : Poly N (BitVec w)) (ω : UniRand w N)
    (δ0 δ1 : ℕ → Fin 2 → Poly N (BitVec w)) (hb : ∀ i, (ω.aux i).toNat ≤ 1)
    (hn1 : InRadius g (ω.noiseAux z derr δ1)) (hn0 : InRadius g (ω.noiseMsg err δ0))
    (m : BitVec w) (hm : m.toNat ∣ g.base.toNat) (messages old : List (BitVec 64)) (hold : old.length = N) :
    ∃ ct r, uniEncrypt m crs z g ω messages = some ct ∧ fftUniDecrypt m z derr err δ0 δ1 ct old = some r ∧
      r.length = N ∧ ∀ i, i < N → ∃ y, r[i]? = some y ∧
        y.toInt = (match messages[i]? with | some x => ((x.setWidth w).toNat % m.toNat : ℕ) | none => 0 : ℤ) := by
  have hbase : g.base.toNat = 2 ^ g.logBase := hg.base_eq
  have hm0 : 0 < m.toNat := Nat.pos_of_dvd_of_pos hm (by rw [hbase]; positivity)
  have hmne : m ≠ 0 := by
    rintro rfl
    simp at hm0
  have hmle : m.toNat ≤ 2 ^ 63 := by
    refine (Nat.le_of_dvd (by rw [hbase]; positivity) hm).trans ?_
    rw [hbase]
    exact Nat.pow_le_pow_right (by norm_num) (by have := hg.logBase_lt; omega)
  obtain ⟨pt, hpt0, hpt⟩ : ∃ pt : Poly N (BitVec w), glevMessage m messages = some pt ∧
      ∀ i (hi : i < N), ((pt ⟨i, hi⟩).toNat : ℤ)
        = (match messages[i]? with | some x => ((x.setWidth w).toNat % m.toNat : ℕ) | none => 0 : ℤ) ∧
        (pt ⟨i, hi⟩).toNat < m.toNat := by
    refine ⟨_, if_neg hmne, fun i hi => ?_⟩
    cases messages[i]? with
    | none => simp [hm0]
    | some x => simp only [BitVec.toNat_umod]; exact ⟨trivial, Nat.mod_lt _ hm0⟩
  obtain ⟨ct, hct, hd⟩ := C55_poly_partial g hg crs hl z derr err pt ω δ0 δ1 hb hn1 hn0
  refine ⟨ct, _, by rw [uniEncrypt, hpt0, Option.bind_some, hct], if_neg hmne, by simp [hold], fun i hi => ?_⟩
  rw [List.getElem?_mapIdx, List.getElem?_eq_getElem (by omega)]
  refine ⟨_, rfl, ?_⟩
  beta_reduce
  erw [dif_pos hi]
  have hv : (uniDecryptPoly z derr err (uniInvFFT δ0 δ1 ct) ⟨i, hi⟩ % m).toNat = (pt ⟨i, hi⟩).toNat := by
    have h1 := (hd ⟨i, hi⟩).1
    rw [fftUniDecryptPoly] at h1
    rw [BitVec.toNat_umod, ← Nat.mod_mod_of_dvd _ hm, h1, Nat.mod_mod_of_dvd _ hm, Nat.mod_eq_of_lt (hpt i hi).2]
  rw [← (hpt i hi).1]
  have := (hpt i hi).2
  have h64 : m.toNat < 2 ^ 64 := by omega
  rw [BitVec.toInt_eq_toNat_of_lt, BitVec.toNat_setWidth, hv, Nat.mod_eq_of_lt (by omega)]
  rw [BitVec.toNat_setWidth, hv, Nat.mod_eq_of_lt (by omega)]
  omega

/-- The coefficient-domain form of the last theorem. -/
theorem C55_plain_messages_partial (hw : w ≤ 64) (g : GadgetParams w) (hg : g.Valid) (crs : List (Poly N (BitVec w)))
    (hl : g.level ≤ crs.length) (z derr err : Poly N (BitVec w)) (ω : UniRand w N) (hb : ∀ i, (ω.aux i).toNat ≤ 1)
    (hn1 : InRadius g (ω.noise1 0 - ω.err1 0 + derr)) (hn0 : InRadius g (ω.noise0 0 + ω.err0 0 - err))
    (m : BitVec w) (hm : m.toNat ∣ g.base.toNat) (messages old : List (BitVec 64)) (hold : old.length = N) :
    ∃ ct r, uniEncrypt m crs z g ω messages = some ct ∧ uniDecrypt m z derr err ct old = some r ∧
      r.length = N ∧ ∀ i, i < N → ∃ y, r[i]? = some y ∧
        y.toInt = (match messages[i]? with | some x => ((x.setWidth w).toNat % m.toNat : ℕ) | none => 0 : ℤ) := by
  have := C55_messages_partial hw g hg crs hl z derr err ω (fun _ _ => 0) (fun _ _ => 0) hb
    (by simpa [UniRand.noiseAux] using hn1) (by simpa [UniRand.noiseMsg] using hn0) m hm messages old hold
  simpa only [fftUniDecrypt, uniInvFFT_zero] using this

/-! ### Where the property fails -/

/-- A common reference string, and samples with the noise `e` of the message. -/
def uniCrs : List (Poly 2 (BitVec 32)) := [![12345, 4000000000], ![17, 99], ![5, 6]]

/-- Samples with the noise `e` of the message. -/
def uniRand (e : BitVec 32) : UniRand 32 2 where
  aux := ![1, 0]
  err0 := fun _ => 0
  noise0 := fun _ => ![e, e]
  mask1 := fun _ => ![777, 123456789]
  err1 := fun _ => 0
  noise1 := fun _ => ![1000, -1000]

/-- With base 16 and modulus 3, the message 0 comes back as 16 mod 3 = 1 when the noise is -1. -/
theorem C55_zero_false : exGadget.Valid ∧ InRadius exGadget ((uniRand (-1)).noise0 0) ∧
    InRadius exGadget ((uniRand (-1)).noise1 0) ∧
    ((uniEncrypt 3 uniCrs ![1, 1] exGadget (uniRand (-1)) [0, 2]).bind fun ct =>
      uniDecrypt 3 ![1, 1] 0 0 ct [0, 0]) = some [1, 2] := by
  refine ⟨exGadget_valid, ?_, ?_, by decide +kernel⟩ <;> unfold InRadius <;> decide +kernel

/-- The polynomial itself then has the base as coefficient, where `DecryptGLevPoly` has 0. -/
theorem C55_poly_zero_false :
    ((uniEncryptCt uniCrs ![1, 1] exGadget (uniRand (-1)) ![0, 2]).map fun ct =>
      List.ofFn (uniDecryptPoly ![1, 1] 0 0 ct)) = some [16, 2] := by decide +kernel

/-- With modulus 32 and base 16, message 17 comes back as 1. -/
theorem C55_large_modulus_false :
    ((uniEncrypt 32 uniCrs ![1, 1] exGadget (uniRand 0) [17, 2]).bind fun ct =>
      uniDecrypt 32 ![1, 1] 0 0 ct [0, 0]) = some [1, 2] := by decide +kernel

/-- Encryption panics for gadgets with more levels than the common reference string, whatever the message. -/
theorem C55_level_panics (m : BitVec w) (crs : List (Poly N (BitVec w))) (z : Poly N (BitVec w)) (g : GadgetParams w)
    (ω : UniRand w N) (messages : List (BitVec 64)) (hl : crs.length < g.level) :
    uniEncrypt m crs z g ω messages = none := by
  rw [uniEncrypt, Option.bind_eq_none_iff]
  intro p _
  exact if_neg (by omega)

/-- A receiver made for base 256 that gets a uni-encryption with base 16 by `CopyFrom` decrypts to something else: 2
comes back as 32. -/
theorem C55_copyFrom_false :
    ((uniEncrypt 64 uniCrs ![1, 1] exGadget (uniRand 0) [1, 2]).bind fun ct =>
      uniDecrypt 64 ![1, 1] 0 0 (uniCopyFrom ⟨⟨256, 8, 3⟩, ⟨256, 8, 3⟩, ⟨256, 8, 3⟩, ct.u⟩ ct) [0, 0]) = some [16, 32] := by
  decide +kernel

/-! ### The hypotheses are met -/

/-- Modulus 8, base 16, noise -1000 on both parts; the message -1 is 7 modulo 8. -/
example : ∃ ct r, uniEncrypt (8 : BitVec 32) uniCrs ![1, 1] exGadget (uniRand (-1000)) [-1, 0] = some ct ∧
    uniDecrypt 8 ![1, 1] 0 0 ct [55, 66] = some r ∧ r = [7, 0] := by
  obtain ⟨ct, r, h1, h2, h3, h4⟩ := C55_plain_messages_partial (by norm_num) exGadget exGadget_valid uniCrs (by decide)
    ![1, 1] 0 0 (uniRand (-1000)) (by decide +kernel) (by unfold InRadius; decide +kernel)
    (by unfold InRadius; decide +kernel) (8 : BitVec 32) (by decide) [-1, 0] [55, 66] rfl
  refine ⟨ct, r, h1, h2, ?_⟩
  obtain ⟨y0, e0, v0⟩ := h4 0 (by norm_num)
  obtain ⟨y1, e1, v1⟩ := h4 1 (by norm_num)
  match r, h3, e0, e1 with
  | [a, b], _, e0, e1 =>
    simp only [List.getElem?_cons_zero, List.getElem?_cons_succ, Option.some.injEq] at e0 e1 v0 v1
    subst e0 e1
    rw [show a = 7 from BitVec.eq_of_toInt_eq (v0.trans (by decide +kernel)),
      show b = 0 from BitVec.eq_of_toInt_eq (v1.trans (by decide +kernel))]

end Tfhe
