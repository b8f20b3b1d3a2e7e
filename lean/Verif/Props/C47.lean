import Verif.Props.C13

/-!
# C47: Lev, GSW, GLev and GGSW encryption round-trips
-/
namespace Tfhe
variable {w : ℕ}

/-- Rounding a scaled message with noise in `[-half, half)` of the first gadget scale. -/
theorem round_first (g : GadgetParams w) (hg : g.Valid) (c e : BitVec w)
    (h1 : -(2 ^ g.logFirstBaseQ : ℤ) ≤ 2 * e.toInt) (h2 : 2 * e.toInt < 2 ^ g.logFirstBaseQ) :
    (divRoundBits (c * g.baseQ 0 + e) g.logFirstBaseQ % g.base).toNat = c.toNat % g.base.toNat := by
  have hlt := hg.logBase_lt
  have hpos := hg.logBase_pos
  have hL : g.logFirstBaseQ < w := by unfold GadgetParams.logFirstBaseQ; omega
  have hL1 : 1 ≤ g.logFirstBaseQ := by unfold GadgetParams.logFirstBaseQ; omega
  have hw : w = g.logFirstBaseQ + g.logBase := by unfold GadgetParams.logFirstBaseQ; omega
  set L := g.logFirstBaseQ with hLdef
  rw [BitVec.toNat_umod, toNat_divRoundBits _ _ hL]
  set x := c * g.baseQ 0 + e with hx
  have hbq : g.baseQ 0 = ((2 ^ L : ℕ) : BitVec w) := by
    rw [GadgetParams.baseQ, shl_eq]
    have : w - (0 + 1) * g.logBase = L := by rw [hLdef, GadgetParams.logFirstBaseQ]; omega
    rw [this]
    push_cast
    exact one_mul _
  -- x ≡ c 2^L + e modulo 2^w
  have hxi : x = (((c.toNat : ℤ) * 2 ^ L + e.toInt : ℤ) : BitVec w) := by
    rw [hx, hbq]
    push_cast
    rw [bv_cast_toNat, bv_cast_toInt]
  have hxn : (x.toNat : ℤ) = ((c.toNat : ℤ) * 2 ^ L + e.toInt) % 2 ^ w := by
    conv_lhs => rw [hxi]
    have : (((c.toNat : ℤ) * 2 ^ L + e.toInt : ℤ) : BitVec w)
        = BitVec.ofInt w ((c.toNat : ℤ) * 2 ^ L + e.toInt) := (bv_ofInt_eq_cast _).symm
    rw [this, BitVec.toNat_ofInt]
    have : (0 : ℤ) ≤ ((c.toNat : ℤ) * 2 ^ L + e.toInt) % ((2 ^ w : ℕ) : ℤ) := Int.emod_nonneg _ (by positivity)
    rw [Int.toNat_of_nonneg this]
    push_cast; rfl
  obtain ⟨q, hq⟩ : ∃ q : ℤ, (x.toNat : ℤ) = (c.toNat : ℤ) * 2 ^ L + e.toInt + 2 ^ w * q := by
    refine ⟨-(((c.toNat : ℤ) * 2 ^ L + e.toInt) / 2 ^ w), ?_⟩
    rw [hxn, Int.emod_def]; ring
  have hb : (2 : ℤ) ^ w = 2 ^ L * 2 ^ g.logBase := by rw [← pow_add, ← hw]
  have h2L : (2 : ℤ) ^ L = 2 * 2 ^ (L - 1) := by rw [← pow_succ']; congr 1; omega
  have hhalf : (2 : ℕ) ^ L / 2 = 2 ^ (L - 1) := by
    have : (2 : ℕ) ^ L = 2 * 2 ^ (L - 1) := by rw [← pow_succ']; congr 1; omega
    omega
  have hfl : (((x.toNat + 2 ^ L / 2) / 2 ^ L : ℕ) : ℤ) = c.toNat + 2 ^ g.logBase * q := by
    rw [hhalf]
    push_cast
    rw [hq, hb]
    have hr : (c.toNat : ℤ) * 2 ^ L + e.toInt + 2 ^ L * 2 ^ g.logBase * q + 2 ^ (L - 1)
      = (e.toInt + 2 ^ (L - 1)) + (c.toNat + 2 ^ g.logBase * q) * 2 ^ L := by ring
    rw [hr, Int.add_mul_ediv_right _ _ (by positivity), Int.ediv_eq_zero_of_lt (by omega) (by omega), zero_add]
  have hbase : (g.base.toNat : ℤ) = 2 ^ g.logBase := by rw [hg.base_eq]; push_cast; rfl
  have : (((x.toNat + 2 ^ L / 2) / 2 ^ L % g.base.toNat : ℕ) : ℤ) = ((c.toNat % g.base.toNat : ℕ) : ℤ) := by
    rw [Int.natCast_mod, hfl, Int.natCast_mod, hbase, Int.add_mul_emod_self_left]
  exact_mod_cast this

/-- **C47, Lev.** For every scalar, key, mask and noise in the radius the decrypted scalar is the scalar
modulo the base; below the base it is the scalar. -/
theorem C47_lev {n : ℕ} (g : GadgetParams w) (hg : g.Valid) (sk : Fin n → BitVec w) (mask : ℕ → Fin n → BitVec w)
    (noise : ℕ → BitVec w) (c : BitVec w)
    (h1 : -(2 ^ g.logFirstBaseQ : ℤ) ≤ 2 * (noise 0).toInt) (h2 : 2 * (noise 0).toInt < 2 ^ g.logFirstBaseQ) :
    (decryptLevScalar g sk (encryptLevScalar g sk mask noise c)).toNat = c.toNat % g.base.toNat := by
  rw [decryptLevScalar, decryptLWEPhase_eq, isLev_encrypt g sk mask noise c 0 hg.level_pos]
  exact round_first g hg c (noise 0) h1 h2

/-- **C47, GSW.** -/
theorem C47_gsw {n : ℕ} (g : GadgetParams w) (hg : g.Valid) (sk : Fin n → BitVec w)
    (mask : Fin (n + 1) → ℕ → Fin n → BitVec w) (noise : Fin (n + 1) → ℕ → BitVec w) (c : BitVec w)
    (h1 : -(2 ^ g.logFirstBaseQ : ℤ) ≤ 2 * (noise 0 0).toInt)
    (h2 : 2 * (noise 0 0).toInt < 2 ^ g.logFirstBaseQ) :
    (decryptLevScalar g sk (encryptGSWScalar g sk mask noise c 0)).toNat = c.toNat % g.base.toNat :=
  C47_lev g hg sk (mask 0) (noise 0) c h1 h2

/-- **C47, messages.** `DecryptLev (EncryptLev message)` (and `GSW`) is the message modulo the message
modulus, if that modulus does not exceed the gadget base (and fits an `int`). -/
theorem C47_message {n : ℕ} (hw : w ≤ 64) (g : GadgetParams w) (hg : g.Valid) (sk : Fin n → BitVec w)
    (mask : ℕ → Fin n → BitVec w) (noise : ℕ → BitVec w) (p : BitVec w) (hp : p ≠ 0)
    (hpb : p.toNat ≤ g.base.toNat) (message : BitVec 64)
    (h1 : -(2 ^ g.logFirstBaseQ : ℤ) ≤ 2 * (noise 0).toInt) (h2 : 2 * (noise 0).toInt < 2 ^ g.logFirstBaseQ) :
    ((levMessage p message).bind fun c =>
      (decryptLev g sk (encryptLevScalar g sk mask noise c) p).map BitVec.toInt)
      = some (((message.setWidth w).toNat % p.toNat : ℕ) : ℤ) := by
  have hp0 : 0 < p.toNat := by
    rcases Nat.eq_zero_or_pos p.toNat with h | h
    · exact absurd (BitVec.eq_of_toNat_eq (by rw [h]; simp)) hp
    · exact h
  have hm := Nat.mod_lt (message.setWidth w).toNat hp0
  have hbl : g.base.toNat ≤ 2 ^ (w - 1) := by
    rw [hg.base_eq]
    exact Nat.pow_le_pow_right (by norm_num) (by have := hg.logBase_lt; omega)
  have h64 : 2 ^ (w - 1) ≤ 2 ^ 63 := Nat.pow_le_pow_right (by norm_num) (by omega)
  simp only [levMessage, if_neg hp, Option.bind_some, decryptLev, Option.map_some]
  congr 1
  have hd : (decryptLevScalar g sk (encryptLevScalar g sk mask noise (message.setWidth w % p)) % p).toNat
      = (message.setWidth w).toNat % p.toNat := by
    rw [BitVec.toNat_umod, C47_lev g hg sk mask noise _ h1 h2, BitVec.toNat_umod,
      Nat.mod_eq_of_lt (a := _ % p.toNat) (by omega), Nat.mod_eq_of_lt (by omega)]
  rw [BitVec.toInt_eq_toNat_of_lt, BitVec.toNat_setWidth, hd, Nat.mod_eq_of_lt (by omega)]
  rw [BitVec.toNat_setWidth, hd, Nat.mod_eq_of_lt (by omega)]
  omega

/-- With a message modulus larger than the base, messages from the base on are lost, even without noise:
base 16, modulus 32, message 17 comes back as 1. -/
theorem C47_large_modulus_false :
    ((levMessage (32 : BitVec 32) 17).bind fun c =>
      decryptLev (n := 1) exGadget (fun _ => 1) (encryptLevScalar exGadget (fun _ => 1) (fun _ _ => 12345) (fun _ => 0) c)
        32) = some 1 := by decide +kernel

section
variable {N : ℕ} [NeZero N]

/-- **C47, GLev.** Every coefficient; the noise includes the FFT errors of encryption and decryption. -/
theorem C47_glev {k : ℕ} (g : GadgetParams w) (hg : g.Valid) (sk derr : Fin k → Poly N (BitVec w))
    (mask err : ℕ → Fin k → Poly N (BitVec w)) (noise : ℕ → Poly N (BitVec w)) (p : Poly N (BitVec w)) (i : Fin N)
    (h1 : -(2 ^ g.logFirstBaseQ : ℤ) ≤ 2 * ((noise 0 - ∑ t, err 0 t + ∑ t, derr t : Poly N (BitVec w)) i).toInt)
    (h2 : 2 * ((noise 0 - ∑ t, err 0 t + ∑ t, derr t : Poly N (BitVec w)) i).toInt < 2 ^ g.logFirstBaseQ) :
    (decryptGLevPoly g sk derr (encryptGLevPoly g sk mask err noise p) i).toNat = (p i).toNat % g.base.toNat := by
  have e : decryptGLWEPhase sk derr (encryptGLevPoly g sk mask err noise p 0)
      = p * Poly.C N (g.baseQ 0) + (noise 0 - ∑ t, err 0 t + ∑ t, derr t) := by
    rw [decryptGLWEPhase_eq, isLev_encryptGLev g sk mask err noise p 0 hg.level_pos, add_assoc]
    rfl
  have e2 : decryptGLWEPhase sk derr (encryptGLevPoly g sk mask err noise p 0) i
      = p i * g.baseQ 0 + (noise 0 - ∑ t, err 0 t + ∑ t, derr t : Poly N (BitVec w)) i := by
    rw [e, Poly.add_apply, mul_comm, Poly.C_mul_apply, mul_comm]
  have := round_first g hg (p i) _ h1 h2
  rw [← e2] at this
  exact this

/-- **C47, GGSW.** -/
theorem C47_ggsw {k : ℕ} (g : GadgetParams w) (hg : g.Valid) (sk derr perr : Fin k → Poly N (BitVec w))
    (mask err : Fin (k + 1) → ℕ → Fin k → Poly N (BitVec w)) (noise : Fin (k + 1) → ℕ → Poly N (BitVec w))
    (p : Poly N (BitVec w)) (i : Fin N)
    (h1 : -(2 ^ g.logFirstBaseQ : ℤ) ≤ 2 * ((noise 0 0 - ∑ t, err 0 0 t + ∑ t, derr t : Poly N (BitVec w)) i).toInt)
    (h2 : 2 * ((noise 0 0 - ∑ t, err 0 0 t + ∑ t, derr t : Poly N (BitVec w)) i).toInt < 2 ^ g.logFirstBaseQ) :
    (decryptGLevPoly g sk derr (encryptGGSWPoly g sk mask err noise perr p 0) i).toNat
      = (p i).toNat % g.base.toNat :=
  C47_glev g hg sk derr (mask 0) (err 0) (noise 0) p i h1 h2

/-- **C47, GLev messages.** A list of `N` messages comes back reduced; shorter lists are padded with zero. -/
theorem C47_glev_messages {k : ℕ} (hw : w ≤ 64) (g : GadgetParams w) (hg : g.Valid)
    (sk derr : Fin k → Poly N (BitVec w)) (mask err : ℕ → Fin k → Poly N (BitVec w))
    (noise : ℕ → Poly N (BitVec w)) (p : BitVec w) (hp : p ≠ 0) (hpb : p.toNat ≤ g.base.toNat)
    (messages old : List (BitVec 64)) (hold : old.length = N)
    (h1 : ∀ i : Fin N, -(2 ^ g.logFirstBaseQ : ℤ) ≤
      2 * ((noise 0 - ∑ t, err 0 t + ∑ t, derr t : Poly N (BitVec w)) i).toInt)
    (h2 : ∀ i : Fin N, 2 * ((noise 0 - ∑ t, err 0 t + ∑ t, derr t : Poly N (BitVec w)) i).toInt
      < 2 ^ g.logFirstBaseQ) :
    ∃ pt r, glevMessage (N := N) p messages = some pt ∧
      decryptGLev g sk derr (encryptGLevPoly g sk mask err noise pt) p old = some r ∧ r.length = N ∧
      ∀ i, (h : i < N) → ∃ y, r[i]? = some y ∧
        y.toInt = (match messages[i]? with | some x => ((x.setWidth w).toNat % p.toNat : ℕ) | none => 0 : ℤ) := by
  have hp0 : 0 < p.toNat := by
    rcases Nat.eq_zero_or_pos p.toNat with h | h
    · exact absurd (BitVec.eq_of_toNat_eq (by rw [h]; simp)) hp
    · exact h
  have hbl : g.base.toNat ≤ 2 ^ (w - 1) := by
    rw [hg.base_eq]
    exact Nat.pow_le_pow_right (by norm_num) (by have := hg.logBase_lt; omega)
  have h64 : 2 ^ (w - 1) ≤ 2 ^ 63 := Nat.pow_le_pow_right (by norm_num) (by omega)
  obtain ⟨pt, hpt0, hpt⟩ : ∃ pt : Poly N (BitVec w), glevMessage p messages = some pt ∧
      ∀ i (hi : i < N), ((pt ⟨i, hi⟩).toNat : ℤ)
        = (match messages[i]? with | some x => ((x.setWidth w).toNat % p.toNat : ℕ) | none => 0 : ℤ) ∧
        (pt ⟨i, hi⟩).toNat < p.toNat := by
    refine ⟨_, if_neg hp, fun i hi => ?_⟩
    cases messages[i]? with
    | none => simp [hp0]
    | some x => simp only [BitVec.toNat_umod]; exact ⟨trivial, Nat.mod_lt _ hp0⟩
  refine ⟨pt, _, hpt0, if_neg hp, by simp [hold], fun i hi => ?_⟩
  rw [List.getElem?_mapIdx, List.getElem?_eq_getElem (by omega)]
  refine ⟨_, rfl, ?_⟩
  beta_reduce
  erw [dif_pos hi]
  have hd : (decryptGLevPoly g sk derr (encryptGLevPoly g sk mask err noise pt) ⟨i, hi⟩ % p).toNat
      = (pt ⟨i, hi⟩).toNat := by
    rw [BitVec.toNat_umod, C47_glev g hg sk derr mask err noise pt ⟨i, hi⟩ (h1 _) (h2 _),
      Nat.mod_eq_of_lt (a := (pt ⟨i, hi⟩).toNat) (by have := (hpt i hi).2; omega), Nat.mod_eq_of_lt (hpt i hi).2]
  rw [← (hpt i hi).1]
  have := (hpt i hi).2
  rw [BitVec.toInt_eq_toNat_of_lt, BitVec.toNat_setWidth, hd, Nat.mod_eq_of_lt (by omega)]
  rw [BitVec.toNat_setWidth, hd, Nat.mod_eq_of_lt (by omega)]
  omega
end

/-- A concrete round trip with noise -1000. -/
example : exGadget.Valid ∧ (decryptLevScalar (n := 2) exGadget (fun i => BitVec.ofNat 32 i)
    (encryptLevScalar exGadget (fun i => BitVec.ofNat 32 i) (fun j i => BitVec.ofNat 32 (99999999 * (i + j)))
      (fun _ => -1000) 13)) = 13 := ⟨exGadget_valid, by decide +kernel⟩

end Tfhe
