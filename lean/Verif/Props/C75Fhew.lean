import Verif.Props.C75
import Verif.Props.C39

/-!
# C75: functions one after another, with FHEW bootstrapping
-/
namespace Tfhe
open Poly Fhew

section
variable {w N n : ℕ} [NeZero N] (b : FBoot w N n)

/-- One call of the FHEW `BootstrapFunc`: the function, old contents of the table, the output and the buffers, Fourier errors, and
the places of the rotated ciphertext and its buffer in memory. -/
structure FhewCall (w N n : ℕ) where
  F : ℕ → BitVec 64
  raw : List (BitVec w)
  err : Errs w N n
  rot : ℕ
  pb : ℕ
  buf : ℕ → BitVec w
  old : ℕ → BitVec w
  m : Mem (Poly N (BitVec w))

/-- Each call bootstraps the output of the one before. -/
def fhewFuncs (order : BootstrapOrder) : List (FhewCall w N n) → (ℕ → BitVec w) → Option (ℕ → BitVec w)
  | [], ct => some ct
  | c :: l, ct => (b.run order c.raw c.err c.rot c.pb c.buf c.old ct c.F c.m).bind (fhewFuncs order l)

/-- The noise budget. -/
structure FhewBudget (order : BootstrapOrder) (B : ℕ) : Prop where
  out : b.outNoise order ≤ B
  dec : (B : ℚ) + b.p.toNat + 2 ^ w / 2 ^ 50 < (b.s.toNat : ℚ) / 2
  index : (b.inNoise order B : ℚ) * (2 * N) / 2 ^ w + b.loss ≤ N / (2 * b.p.toNat)

/-- **C75 (FHEW functions).** Any number of functions with keys of small signed elements, each bootstrapped on the output of the one
before: nothing panics, and the result decrypts to the composition on numbers modulo the message modulus. -/
theorem C75_fhew_functions (order : BootstrapOrder) (hb : b.Valid) (B : ℕ) (hB : FhewBudget b order B)
    (l : List (FhewCall w N n)) :
    (∀ c ∈ l, c.raw.length = 1 * N ∧ b.ErrOk c.err ∧ c.pb ≠ c.rot) →
    ∀ (ct : ℕ → BitVec w) (m : ℕ), m < b.p.toNat → ∀ e : BitVec w, wabs e ≤ B →
    phase (lweKeyS (b.ctDim order) b.lk) (fun t => ct t) = BitVec.ofNat w (m * b.s.toNat) + e →
    ∃ res, fhewFuncs b order l ct = some res ∧
      decodeLWECustom (decryptLWEPhase (lweKeyS (b.ctDim order) b.lk) (fun t => res t)) b.p b.s
        = some (plainFuncs w b.p.toNat (l.map FhewCall.F) m : ℤ) := by
  have hp0 : 0 < b.p.toNat := by
    rcases Nat.eq_zero_or_pos b.p.toNat with h0 | h0
    · exact absurd (BitVec.eq_of_toNat_eq (by simpa using h0)) hb.p0
    · exact h0
  induction l with
  | nil =>
    intro _ ct m hm e he h
    refine ⟨ct, rfl, ?_⟩
    have hx : ((BitVec.ofNat 64 m).setWidth w).toNat % b.p.toNat = m := by
      have h52 := hb.p52
      have h1 : m < 2 ^ w := hm.trans b.p.isLt
      have h2 : m < 2 ^ 64 := by
        have : b.p.toNat ≤ 2 ^ 64 := by omega
        omega
      rw [BitVec.toNat_setWidth, BitVec.toNat_ofNat, Nat.mod_eq_of_lt h2, Nat.mod_eq_of_lt h1, Nat.mod_eq_of_lt hm]
    have := C05_decrypt_of_phase hb.w1 (lweKeyS (b.ctDim order) b.lk) (fun t => ct t) (BitVec.ofNat 64 m) b.p b.s hb.p0 hb.scale
      e.toInt (by rw [h, BitVec.ofInt_toInt, encodeLWECustom_eq _ _ _ hb.p0, hx]) (by
        have e1 : |(e.toInt : ℚ)| = (wabs e : ℚ) := by unfold wabs; rw [Nat.cast_natAbs, Int.cast_abs]
        rw [e1]
        have : (wabs e : ℚ) ≤ B := by exact_mod_cast he
        have := hB.dec
        linarith)
    rw [hx] at this
    exact this
  | cons c l ih =>
    intro hl ct m hm e he h
    obtain ⟨hraw, hF, hpb⟩ := hl c List.mem_cons_self
    obtain ⟨r1, g1, g2⟩ := C39_phase b order hb c.raw hraw c.err hF c.rot c.pb hpb c.buf c.old ct c.F c.m m hm e h (by
      refine le_trans ?_ hB.index
      have h1 : b.inNoise order (wabs e) ≤ b.inNoise order B := by
        cases order
        · exact Nat.add_le_add_right he _
        · exact he
      have : (b.inNoise order (wabs e) : ℚ) ≤ b.inNoise order B := by exact_mod_cast h1
      gcongr)
    obtain ⟨res, k1, k2⟩ := ih (fun c hc => hl c (List.mem_cons_of_mem _ hc)) r1 _ (Nat.mod_lt _ hp0) _ (g2.trans hB.out) (by
      rw [encodeLWECustom_eq _ _ _ hb.p0, add_sub_cancel])
    refine ⟨res, ?_, k2⟩
    rw [fhewFuncs, g1]
    exact k1
end

/-- With `exFhew`, in both orders: three times the successor, from 2 modulo 4, gives 1. -/
example (N : ℕ) [NeZero N] (hN : N = 2048) (brMask brNoise gal ksMask ksNoise)
    (h1 : ∀ j i l, pabs (brNoise j i l) ≤ 2 ^ 10)
    (h2 : ∀ t i j, pabs ((gal t).noise i j - ∑ l, (gal t).err i j l) ≤ 2 ^ 10)
    (h3 : ∀ i j, wabs (ksNoise i j) ≤ 2 ^ 40) (order : BootstrapOrder) (raw : List (BitVec 64))
    (hraw : raw.length = 1 * N) (buf old ct : ℕ → BitVec 64) (m : Mem (Poly N (BitVec 64))) (e : BitVec 64)
    (he : wabs e ≤ 2 ^ 50) :
    let b := exFhew N brMask brNoise gal ksMask ksNoise
    let c : FhewCall 64 N 0 := ⟨fun x => BitVec.ofNat 64 (x + 1), raw, ⟨fun _ => 0, fun _ _ _ => 0⟩, 0, 1, buf, old, m⟩
    phase (lweKeyS (b.ctDim order) b.lk) (fun t => ct t) = BitVec.ofNat 64 (2 * 0x2000000000000000) + e →
    ∃ res, fhewFuncs b order [c, c, c] ct = some res ∧
      decodeLWECustom (decryptLWEPhase (lweKeyS (b.ctDim order) b.lk) (fun t => res t)) 4#64 0x2000000000000000#64 = some 1 := by
  intro b c h
  have hw : Fhew.weightS 250 (fun i => if i % 6 = 1 then -2#64 else if i % 6 = 2 then 1#64 else 0#64) = 126 := by
    decide +kernel
  have hNq : (N : ℚ) = 2048 := by exact_mod_cast hN
  have hks : b.ksOut ≤ 2 ^ 57 := by
    show Fhew.ksBoundS (⟨16, 4, 8⟩ : GadgetParams 64) 2 ((0 + 1) * N - 250) (2 ^ 40) ≤ _
    rw [hN]
    decide +kernel
  have hbr : b.brOut ≤ 2 ^ 50 := by
    show 250 * ((1 * ((2 ^ (64 - 4 * 10) / 2) * (1 + (0 + 1) * (N * 2))) + (0 + 1 + 1) * (4 * (N * (1024 / 2 * 2 ^ 10)))
        + 2 ^ 20)
      + ((0 + 1) * (N * 2 * (2 ^ (64 - 4 * 10) / 2)) + (0 + 1) * (4 * (N * (1024 / 2 * 2 ^ 10))) + 2 ^ 20))
      + (2 * ((N / 2 - 1) / 10 + 1) + 1) * ((0 + 1) * (N * 2 * (2 ^ (64 - 4 * 10) / 2))
        + (0 + 1) * (4 * (N * (1024 / 2 * 2 ^ 10))) + 2 ^ 20) ≤ _
    rw [hN]
    norm_num
  obtain ⟨B, hB1, hB2, hB3, hB4⟩ : ∃ B : ℕ, 2 ^ 50 ≤ B ∧ b.outNoise order ≤ B ∧ B ≤ 2 ^ 50 + 2 ^ 57 ∧
      b.inNoise order B ≤ 2 ^ 50 + 2 ^ 57 := by
    cases order
    · exact ⟨2 ^ 50, le_rfl, hbr, by norm_num, Nat.add_le_add le_rfl hks⟩
    · exact ⟨2 ^ 50 + 2 ^ 57, by norm_num, Nat.add_le_add hbr hks, le_rfl, le_rfl⟩
  have h0 : pabs (phase b.sk 0) ≤ b.Fe := by
    rw [phase_zero, show pabs (0 : Poly N (BitVec 64)) = 0 from (polyNorm N 64).zero]
    exact Nat.zero_le _
  have herr : b.ErrOk ⟨fun _ => 0, fun _ _ _ => 0⟩ := by
    constructor
    · intro _; exact h0
    · intro _ _ _; exact h0
  have hbud : FhewBudget b order B := by
    refine ⟨hB2, ?_, ?_⟩
    · have hB3' : (B : ℚ) ≤ 2 ^ 50 + 2 ^ 57 := by exact_mod_cast hB3
      show _ + ((4 : ℕ) : ℚ) + 2 ^ 64 / 2 ^ 50 < ((0x2000000000000000 : ℕ) : ℚ) / 2
      norm_num
      linarith
    · have hin' : (b.inNoise order B : ℚ) ≤ 2 ^ 50 + 2 ^ 57 := by exact_mod_cast hB4
      show _ * (2 * (N : ℚ)) / 2 ^ 64 + ((1 + (Fhew.weightS 250 (fun i => if i % 6 = 1 then -2#64 else if i % 6 = 2 then 1#64
          else 0#64) : ℚ)) * (switchErr N + 1)
        + (N : ℚ) * |(2 : ℚ) ^ 64 - 2 * ((4 : ℕ) : ℚ) * ((0x2000000000000000 : ℕ) : ℚ)| / 2 ^ 64 + 1)
          ≤ (N : ℚ) / (2 * ((4 : ℕ) : ℚ))
      rw [hw]
      unfold switchErr
      rw [hNq]
      norm_num
      linarith
  have hplain : plainFuncs 64 4 [c.F, c.F, c.F] 2 = 1 := by
    show plainFuncs 64 4 [fun x => BitVec.ofNat 64 (x + 1), fun x => BitVec.ofNat 64 (x + 1), fun x => BitVec.ofNat 64 (x + 1)] 2 = 1
    decide +kernel
  obtain ⟨res, r1, r2⟩ := C75_fhew_functions b order (exFhew_valid N hN brMask brNoise gal ksMask ksNoise h1 h2 h3) B hbud
    [c, c, c] (fun c' hc => by
      have hc' : c' = c := by simpa using hc
      subst hc'
      exact ⟨hraw, herr, one_ne_zero⟩) ct 2 (show 2 < 4 by norm_num) e (he.trans hB1) h
  refine ⟨res, r1, r2.trans ?_⟩
  show some ((plainFuncs 64 4 [c.F, c.F, c.F] 2 : ℕ) : ℤ) = some 1
  rw [hplain]; rfl
end Tfhe
