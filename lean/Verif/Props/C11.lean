import Verif.Lemma.Product
import Verif.Props.C05
import Verif.Props.C07

/-!
# C11: LWE key switching
-/
namespace Tfhe

section
variable {R : Type} [CommRing R]

theorem keySwitchTo_ct (G : Gadget R) (hL : 0 < G.level) (k out : ℕ) {n : ℕ}
    (ksk : Fin (n + 1) → ℕ → Fin (k + 1) → R) (ct : ℕ) (err : Fin (k + 1) → R) (m : Mem R) :
    (ctOf k (keySwitchTo G k out ksk ct err m) out =
      fun t => ((if t = 0 then m ct 0 else 0)
        + ∑ i, ∑ j ∈ Finset.range G.level, G.dec (ctOf (n + 1) m ct i.succ) j * ksk i j t) + err t) ∧
    (∀ v i, v ≠ out ∨ k + 1 ≤ i → keySwitchTo G k out ksk ct err m v i = m v i) := by
  have hacc := keySwitchAcc_eq G.level hL ksk (fun i => G.dec (m ct (i + 1)))
  constructor
  · funext t
    unfold ctOf keySwitchTo
    rw [mapLoopI_spec _ _ _ _ _ List.nodup_range', hacc]
    induction t using Fin.cases with
    | zero =>
      rw [if_neg (by simp [List.mem_range'_1])]
      simp [Mem.write, add_assoc]
    | succ t =>
      rw [if_pos ⟨rfl, by rw [List.mem_range'_1]; constructor <;> [simp; (have := t.2; simp; omega)]⟩]
      have h1 : ((t.succ : Fin (k + 1)) : ℕ) < k + 1 := t.succ.2
      simp [ext0]
      rfl
  · intro v i h
    unfold keySwitchTo
    rw [mapLoopI_spec _ _ _ _ _ List.nodup_range', if_neg (by rw [List.mem_range'_1]; omega)]
    have h' : ¬ (v = out ∧ i = 0) := by omega
    simp [Mem.write, h']

/-- Key switching over any ring, any aliasing of output and input: the new phase under the output key
is the old phase under the input key, plus the loss of the decomposition weighted with the input key,
plus the noise of the key-switching key weighted with the digits, plus the FFT error. -/
theorem keySwitch_phase (G : Gadget R) (hL : 0 < G.level) (k out : ℕ) {n : ℕ}
    (s : Fin k → R) (sIn : Fin (n + 1) → R)
    (ksk : Fin (n + 1) → ℕ → Fin (k + 1) → R) (e : Fin (n + 1) → ℕ → R)
    (hk : ∀ i, IsLev G s (sIn i) (ksk i) (e i)) (ct : ℕ) (err : Fin (k + 1) → R) (m : Mem R) :
    phase s (ctOf k (keySwitchTo G k out ksk ct err m) out)
      = phase sIn (ctOf (n + 1) m ct) + ∑ i, G.eps (ctOf (n + 1) m ct i.succ) * sIn i
        + ∑ i, ∑ j ∈ Finset.range G.level, G.dec (ctOf (n + 1) m ct i.succ) j * e i j + phase s err := by
  rw [(keySwitchTo_ct G hL k out ksk ct err m).1]
  have e1 := phase_add s (fun t => ((if t = 0 then m ct 0 else 0)
        + ∑ i, ∑ j ∈ Finset.range G.level, G.dec (ctOf (n + 1) m ct i.succ) j * ksk i j t)) err
  have e2 := phase_add s (fun t => if t = 0 then m ct 0 else 0)
    (fun t => ∑ i, ∑ j ∈ Finset.range G.level, G.dec (ctOf (n + 1) m ct i.succ) j * ksk i j t)
  have e3 : phase s (fun t => if t = 0 then m ct 0 else 0) = m ct 0 := by
    simp [phase]
  have e4 : ∀ i, ∑ j ∈ Finset.range G.level, G.dec (ctOf (n + 1) m ct i.succ) j * phase s (ksk i j)
      = (ctOf (n + 1) m ct i.succ * sIn i + G.eps (ctOf (n + 1) m ct i.succ) * sIn i)
        + ∑ j ∈ Finset.range G.level, G.dec (ctOf (n + 1) m ct i.succ) j * e i j := by
    intro i; rw [sum_dec_lev G s _ _ _ (hk i)]; ring
  refine e1.trans ?_
  congr 1
  refine e2.trans ?_
  rw [e3, phase_lin2, Finset.sum_congr rfl fun i _ => e4 i, Finset.sum_add_distrib, Finset.sum_add_distrib]
  unfold phase ctOf
  simp only [Fin.val_zero]
  ring

/-- The size of what key switching adds to the phase. -/
theorem keySwitch_bound (ν : RNorm R) (G : Gadget R) {D E : ℕ} (hG : G.Bounded ν D E) (k out : ℕ) {n : ℕ}
    (s : Fin k → R) (sIn : Fin (n + 1) → R)
    (ksk : Fin (n + 1) → ℕ → Fin (k + 1) → R) (e : Fin (n + 1) → ℕ → R)
    (hk : ∀ i, IsLev G s (sIn i) (ksk i) (e i)) (ct : ℕ) (err : Fin (k + 1) → R) (m : Mem R)
    (S B F : ℕ) (hS : ∀ i x, ν.f (x * sIn i) ≤ S * ν.f x) (hB : ∀ i j, j < G.level → ν.f (e i j) ≤ B)
    (hF : ν.f (phase s err) ≤ F) :
    ν.f (phase s (ctOf k (keySwitchTo G k out ksk ct err m) out) - phase sIn (ctOf (n + 1) m ct))
      ≤ (n + 1) * (S * E) + (n + 1) * (G.level * (ν.c * (D * B))) + F := by
  rw [keySwitch_phase G hG.level_pos k out s sIn ksk e hk ct err m, add_assoc, add_assoc, add_sub_cancel_left,
    ← add_assoc]
  refine (ν.add_le _ _).trans (Nat.add_le_add ((ν.add_le _ _).trans (Nat.add_le_add ?_ ?_)) hF)
  · have h := ν.sum_le_card Finset.univ (fun i => G.eps (ctOf (n + 1) m ct i.succ) * sIn i) (S * E)
      (fun i _ => (hS i _).trans (Nat.mul_le_mul_left _ (hG.eps_le _)))
    rwa [Finset.card_fin] at h
  · exact noise_le G ν hG _ e B hB
end

section
variable {w : ℕ}

theorem shl_logBaseQ (g : GadgetParams w) (c : BitVec w) (j : ℕ) : c <<< g.logBaseQ j = c * g.baseQ j := by
  rw [GadgetParams.baseQ, shl_eq, shl_eq (1#w), GadgetParams.logBaseQ]
  show _ = c * (1 * _)
  rw [one_mul]

/-- A fresh Lev ciphertext is a Lev encryption of its scalar, with exactly the sampled noise. -/
theorem isLev_encrypt {n : ℕ} (g : GadgetParams w) (sk : Fin n → BitVec w) (mask : ℕ → Fin n → BitVec w)
    (noise : ℕ → BitVec w) (c : BitVec w) :
    IsLev (scalarGadget g) sk c (encryptLevScalar g sk mask noise c) noise := by
  intro j _
  rw [encryptLevScalar, phase_encryptLWEBody, shl_logBaseQ]
  rfl

/-- **C11 (exact).** `KeySwitchLWETo` with a key from `GenLWEKeySwitchKey` (or `GenDefaultKeySwitchKey`),
any aliasing: the phases differ by exactly the decomposition loss weighted with the input key and the
sampled noise weighted with the digits; everything but the output is untouched. -/
theorem C11_keyswitch {n nIn : ℕ} (g : GadgetParams w) (hg : g.Valid) (sk : Fin n → BitVec w)
    (skIn : Fin (nIn + 1) → BitVec w) (mask : Fin (nIn + 1) → ℕ → Fin n → BitVec w)
    (noise : Fin (nIn + 1) → ℕ → BitVec w) (out ct : ℕ) (m : Mem (BitVec w)) :
    (phase sk (ctOf n (keySwitchTo (scalarGadget g) n out (genLWEKeySwitchKey g sk mask noise skIn) ct 0 m) out)
      = phase skIn (ctOf (nIn + 1) m ct)
        + ∑ i : Fin (nIn + 1), (recomposeScalar g (decomposeScalar g (m ct (i + 1))) - m ct (i + 1)) * skIn i
        + ∑ i : Fin (nIn + 1), ∑ j ∈ Finset.range g.level, (decomposeScalar g (m ct (i + 1))).getD j 0 * noise i j) ∧
    (∀ v i, v ≠ out ∨ n + 1 ≤ i →
      keySwitchTo (scalarGadget g) n out (genLWEKeySwitchKey g sk mask noise skIn) ct 0 m v i = m v i) := by
  refine ⟨?_, (keySwitchTo_ct (scalarGadget g) hg.level_pos n out _ ct 0 m).2⟩
  rw [keySwitch_phase (scalarGadget g) hg.level_pos n out sk skIn
    (genLWEKeySwitchKey g sk mask noise skIn) noise (fun i => isLev_encrypt g sk _ _ _)]
  have hz : phase sk (0 : Fin (n + 1) → BitVec w) = 0 := by simp [phase]
  rw [hz, add_zero]
  have he : ∀ i : Fin (nIn + 1), (scalarGadget g).eps (ctOf (nIn + 1) m ct i.succ)
      = recomposeScalar g (decomposeScalar g (m ct (i + 1))) - m ct (i + 1) := by
    intro i; rw [← scalar_recompose g hg]; rfl
  rw [Finset.sum_congr rfl fun i _ => congrArg (· * skIn i) (he i)]
  rfl

/-- **C11 (bound).** For a binary input key and noise at most `B`, the phase moves by at most
`nIn * Q/(2 base^level) + nIn * level * base/2 * B`. -/
theorem C11_bound {n nIn : ℕ} (g : GadgetParams w) (hg : g.Valid) (sk : Fin n → BitVec w)
    (skIn : Fin (nIn + 1) → BitVec w) (hbin : ∀ i, skIn i = 0 ∨ skIn i = 1)
    (mask : Fin (nIn + 1) → ℕ → Fin n → BitVec w)
    (noise : Fin (nIn + 1) → ℕ → BitVec w) (B : ℕ) (hB : ∀ i j, j < g.level → wabs (noise i j) ≤ B)
    (out ct : ℕ) (m : Mem (BitVec w)) :
    wabs (phase sk (ctOf n (keySwitchTo (scalarGadget g) n out (genLWEKeySwitchKey g sk mask noise skIn) ct 0 m) out)
      - phase skIn (ctOf (nIn + 1) m ct))
      ≤ (nIn + 1) * (2 ^ (w - g.level * g.logBase) / 2) + (nIn + 1) * (g.level * (g.base.toNat / 2 * B)) := by
  have h := keySwitch_bound (wordNorm w) (scalarGadget g) (scalarGadget_bounded g hg) n out sk skIn
    (genLWEKeySwitchKey g sk mask noise skIn) noise (fun i => isLev_encrypt g sk _ _ _) ct 0 m 1 B 0
    (fun i x => by
      show wabs _ ≤ 1 * wabs x
      rcases hbin i with h | h <;> rw [h] <;> simp)
    hB (by
      have hz : phase sk (0 : Fin (n + 1) → BitVec w) = 0 := by simp [phase]
      rw [hz]; exact wabs_zero.le)
  simpa [wordNorm, scalarGadget, one_mul] using h

/-- **C11 (messages).** A ciphertext whose noise leaves room for the bound of `C11_bound` decrypts, after
key switching, under the new key to the same message. -/
theorem C11_decrypts {n nIn : ℕ} (hw1 : 1 ≤ w) (g : GadgetParams w) (hg : g.Valid) (sk : Fin n → BitVec w)
    (skIn : Fin (nIn + 1) → BitVec w) (hbin : ∀ i, skIn i = 0 ∨ skIn i = 1)
    (mask : Fin (nIn + 1) → ℕ → Fin n → BitVec w)
    (noise : Fin (nIn + 1) → ℕ → BitVec w) (B : ℕ) (hB : ∀ i j, j < g.level → wabs (noise i j) ≤ B)
    (out ct : ℕ) (m : Mem (BitVec w)) (message : BitVec 64) (p s : BitVec w) (hp : p ≠ 0)
    (hs : compileScale w p.toNat = some s.toNat) (e : BitVec w)
    (hct : phase skIn (ctOf (nIn + 1) m ct) = encodeLWECustom message p s + e)
    (h : (wabs e : ℚ) + ((nIn + 1) * (2 ^ (w - g.level * g.logBase) / 2)
        + (nIn + 1) * (g.level * (g.base.toNat / 2 * B)) : ℕ) + p.toNat + 2 ^ w / 2 ^ 50 < (s.toNat : ℚ) / 2) :
    decodeLWECustom (decryptLWEPhase sk (ctOf n (keySwitchTo (scalarGadget g) n out
      (genLWEKeySwitchKey g sk mask noise skIn) ct 0 m) out)) p s =
      some (((message.setWidth w).toNat % p.toNat : ℕ) : ℤ) := by
  have hb := C11_bound g hg sk skIn hbin mask noise B hB out ct m
  set c := ctOf n (keySwitchTo (scalarGadget g) n out (genLWEKeySwitchKey g sk mask noise skIn) ct 0 m) out
  set T := (nIn + 1) * (2 ^ (w - g.level * g.logBase) / 2) + (nIn + 1) * (g.level * (g.base.toNat / 2 * B))
  have hd : phase sk c = encodeLWECustom message p s + (e + (phase sk c - phase skIn (ctOf (nIn + 1) m ct))) := by
    rw [hct]; ring
  set f := e + (phase sk c - phase skIn (ctOf (nIn + 1) m ct))
  have hf : wabs f ≤ wabs e + T := (wabs_add_le _ _).trans (Nat.add_le_add_left hb _)
  refine C05_decrypt_of_phase hw1 sk c message p s hp hs f.toInt (by rw [hd, BitVec.ofInt_toInt]) ?_
  have : |(f.toInt : ℚ)| = (wabs f : ℚ) := by
    unfold wabs; rw [Nat.cast_natAbs, Int.cast_abs]
  rw [this]
  have hf' : (wabs f : ℚ) ≤ wabs e + T := by exact_mod_cast hf
  linarith

/-- A concrete key switch: 32 bits, base 16, 3 levels, input dimension 2, output dimension 2, written over
the input. -/
example : exGadget.Valid ∧ (2 : ℕ) < 3 ∧
    (let sk : Fin 2 → BitVec 32 := fun i => BitVec.ofNat 32 (1 - i)
     let skIn : Fin 2 → BitVec 32 := fun _ => 1
     let m : Mem (BitVec 32) := fun _ i => BitVec.ofNat 32 (0x12345678 * (i + 1))
     let ksk := genLWEKeySwitchKey exGadget sk (fun i j t => BitVec.ofNat 32 (77777 * (i + 2 * j + t)))
       (fun i j => BitVec.ofNat 32 (i + j)) skIn
     let out := ctOf 2 (keySwitchTo (scalarGadget exGadget) 2 0 ksk 0 0 m) 0
     phase sk out ≠ phase skIn (ctOf 2 m 0) ∧ wabs (phase sk out - phase skIn (ctOf 2 m 0)) ≤ 2 ^ 20 + 200) := by
  refine ⟨exGadget_valid, by norm_num, by decide +kernel⟩
end
end Tfhe
