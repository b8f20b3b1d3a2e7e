import Verif.Props.C20
import Verif.Model.Sanitize

/-!
# C51: sanitization

Re-randomization adds an encryption of zero under the public key; the sanitized bootstrapping rotates by mask and body
separately and multiplies by `1 + 2p * G` for a random polynomial `G`.  Both keep the message as long as the noise is in
range.  What sanitization is for (the result is distributed like a fresh one) is a statement about distributions and is not
covered.
-/
namespace Tfhe
open Poly San

section
variable {w N : ℕ} [NeZero N]
local notation "P" => Poly N (BitVec w)

/-- The noise that re-randomization adds, without the rounded Gaussian part. -/
def reRandNoise (sk : Fin 1 → P) (pk : Fin 2 → P) (r e1 : P) (err : Fin 2 → P) : P :=
  phase sk pk * r + e1 * sk 0 + phase sk err

theorem phase_one (sk : Fin 1 → P) (c : Fin 2 → P) : phase sk c = c 0 + c 1 * sk 0 := by
  unfold phase
  rw [Fin.sum_univ_one]; rfl

/-- **C51 (GLWE).** `ReRandGLWETo` adds to the phase the noise of an encryption of zero. -/
theorem C51_reRandGLWE (sk : Fin 1 → P) (pk : Fin 2 → P) (r e1 tau : P) (err ct : Fin 2 → P) :
    phase sk (reRandGLWE pk r e1 tau err ct) = phase sk ct + (reRandNoise sk pk r e1 err + tau) := by
  unfold reRandNoise
  simp only [phase_one]
  simp [reRandGLWE, Function.update]
  ring

/-- **C51 (LWE).** `ReRandLWETo` adds the constant coefficient of the noise of an encryption of zero, whatever the
buffer holds. -/
theorem C51_reRandLWE (lk : ℕ → Bool) (pk : Fin 2 → P) (r e1 : P) (tau : BitVec w) (err : Fin 2 → P) (buf ct : ℕ → BitVec w) :
    binPhase (1 * N) lk (reRandLWE pk r e1 tau err buf ct)
      = binPhase (1 * N) lk ct + (at' (reRandNoise (glweKeyOf w N 1 lk) pk r e1 err) 0 + tau) := by
  set c : Fin 2 → P := Function.update (fun i => pk i * r + err i) 1 (pk 1 * r + err 1 + e1) with hc
  have h := extract_binPhase (k := 1) lk c buf
  have h2 : phase (glweKeyOf w N 1 lk) c = reRandNoise (glweKeyOf w N 1 lk) pk r e1 err := by
    unfold reRandNoise
    simp only [phase_one]
    simp [hc, Function.update]
    ring
  rw [← h2, ← h]
  unfold binPhase
  have e0 : reRandLWE pk r e1 tau err buf ct 0 = ct 0 + asLWECiphertext (k := 1) c ⟨0, NeZero.pos N⟩ buf 0 + tau := rfl
  have e1 : ∀ i, reRandLWE pk r e1 tau err buf ct (i + 1)
      = ct (i + 1) + asLWECiphertext (k := 1) c ⟨0, NeZero.pos N⟩ buf (i + 1) := fun i => rfl
  rw [e0]
  simp only [e1]
  have e2 : ∀ i, (if lk i then ct (i + 1) + asLWECiphertext (k := 1) c ⟨0, NeZero.pos N⟩ buf (i + 1) else 0)
      = (if lk i then ct (i + 1) else 0)
        + (if lk i then asLWECiphertext (k := 1) c ⟨0, NeZero.pos N⟩ buf (i + 1) else 0) := by
    intro i; split <;> simp
  simp only [e2, Finset.sum_add_distrib]
  ring

/-- A bound on the noise of re-randomization. -/
theorem C51_reRandNoise_le (lk : ℕ → Bool) (pk : Fin 2 → P) (r e1 : P) (err : Fin 2 → P) {Bpk R E Fe : ℕ}
    (hpk : pabs (phase (glweKeyOf w N 1 lk) pk) ≤ Bpk) (hr : pabs r ≤ R) (he : pabs e1 ≤ E)
    (hF : pabs (phase (glweKeyOf w N 1 lk) err) ≤ Fe) :
    pabs (reRandNoise (glweKeyOf w N 1 lk) pk r e1 err) ≤ N * (Bpk * R) + N * E + Fe := by
  unfold reRandNoise
  refine (pabs_add_le _ _).trans (add_le_add ((pabs_add_le _ _).trans (add_le_add ?_ ?_)) hF)
  · exact (pabs_mul_le _ _).trans (Nat.mul_le_mul_left _ (Nat.mul_le_mul hpk hr))
  · exact (glweKeyOf_mul lk 0 e1).trans (Nat.mul_le_mul_left _ he)

/-- The public key that `GenPublicKey` makes has as phase its own noise. -/
theorem C51_publicKey (lk : ℕ → Bool) (mask err : Fin 1 → Fin 1 → P) (noise : Fin 1 → P) :
    phase (glweKeyOf w N 1 lk) (genGLWEPublicKey (glweKeyOf w N 1 lk) mask err noise 0) = noise 0 - err 0 0 := by
  unfold genGLWEPublicKey
  rw [phase_encryptGLWEBody, zero_add]
  simp

/-- Blind rotation with a table of the size of the ring, as polynomials. -/
theorem blindRotate_one (G : Gadget P) {D E : ℕ} {k : ℕ} (hG : G.Bounded (polyNorm N w) D E)
    (hG0 : ∀ j, j < G.level → G.dec 0 j = 0) (sk : Fin k → P) (S B Fe bs bc : ℕ)
    (hbs : 0 < bs) (hbc : 0 < bc) (key : ℕ → Bool) (hkey : ∀ i, i < bc → AtMostOne key (i * bs) bs)
    (brk : ℕ → Fin (k + 1) → ℕ → Fin (k + 1) → P) (hbrk : IsBRK G sk (bs * bc) B key brk)
    (hS : ∀ i x, pabs (x * sk i) ≤ S * pabs x) (err : ℕ → ℕ → Fin (k + 1) → P)
    (hF : ∀ i q, pabs (phase sk (err i q)) ≤ Fe) (old : ℕ → P) (ct : ℕ → BitVec w) (lut : ℕ → P) :
    pabs (phase sk (blindRotate G 1 bs bc brk err old ct lut)
        - mono N (BitVec w) (-(rotExp w N (bs * bc) key ct : ℤ)) * lut 0)
      ≤ bc * (bs * (2 * brStep N k G D E S B) + Fe) := by
  unfold blindRotate
  rw [if_neg (by omega)]
  by_cases hb : 1 < bs
  · rw [if_pos hb]
    exact C18_blindRotateBlock G hG hG0 sk S B Fe bs bc hbs hbc key hkey brk hbrk hS _ (fun i => hF i 0) ct _
  · rw [if_neg hb]
    obtain rfl : bs = 1 := by omega
    have h := C17_blindRotateOriginal G hG hG0 sk S B Fe (1 * bc) (by omega) key brk hbrk hS (fun i => err i 0)
      (fun i => hF i 0) ct (lut 0)
    rw [Nat.one_mul (2 * brStep N k G D E S B)]
    rw [Nat.one_mul bc] at h ⊢
    exact h

/-- The windows cover everything. -/
theorem window_exists (L p : ℕ) (hp : 0 < p) (u : ℕ) (hu : u < L) :
    ∃ x, x < p ∧ winStart L p x ≤ u ∧ u < winStart L p (x + 1) := by
  have hex : ∃ x, u < winStart L p x := ⟨p, by rw [winStart_p L p hp]; exact hu⟩
  classical
  have h1 := Nat.find_spec hex
  have h2 : Nat.find hex ≤ p := Nat.find_min' hex (by rw [winStart_p L p hp]; exact hu)
  have h3 : Nat.find hex ≠ 0 := by
    intro h0
    rw [h0, winStart_zero L p hp] at h1
    omega
  have h4 := Nat.find_min hex (m := Nat.find hex - 1) (by omega)
  refine ⟨Nat.find hex - 1, by omega, by omega, ?_⟩
  rw [Nat.sub_add_cancel (by omega)]
  exact h1

theorem at_add_N_mul {R : Type} [AddCommGroup R] (p : Poly N R) (z q : ℤ) :
    at' p (z + N * q) = at' p z ∨ at' p (z + N * q) = -at' p z := by
  rcases Int.even_or_odd' q with ⟨c, rfl | rfl⟩
  · left
    rw [show z + (N : ℤ) * (2 * c) = z + 2 * N * c by ring, at_add_two_N_mul]
  · right
    rw [show z + (N : ℤ) * (2 * c + 1) = z + 2 * N * c + N by ring, at_add_N, at_add_two_N_mul]

/-- Every coefficient of a generated table is the value of some message, or its negation; and the value at an index in
the window of a message is the value of this message. -/
theorem table_values {R : Type} [AddCommGroup R] (f p : ℕ) [NeZero f] (F : ℕ → R) (raw : List R)
    (hr : raw.length = f * N) (hp : 0 < p) (hpw : 2 * p < 2 ^ w) (hp2 : p ≤ 2 ^ 52)
    (hpL : p * (f * N) ≤ 2 ^ 51) (V : Fin f → Poly N R) (hV : genLUTCustomFull w f N p F raw = some V) (z : ℤ) :
    ∃ x, x < p ∧ (at' (inter V) z = F x ∨ at' (inter V) z = -F x) := by
  obtain ⟨V', e, h⟩ := C15_windows w f N p F raw hr hp hpw hp2 hpL
  obtain rfl : V = V' := by rw [hV] at e; exact Option.some.inj e
  have hL0 : 0 < f * N := Nat.mul_pos (NeZero.pos f) (NeZero.pos N)
  generalize hO : (f * N + p) / (2 * p) = O at h
  have hz0 : 0 ≤ (z + O) % (f * N : ℕ) := Int.emod_nonneg _ (by omega)
  have hz1 : (z + O) % (f * N : ℕ) < (f * N : ℕ) := Int.emod_lt_of_pos _ (by omega)
  have hz2 := Int.emod_add_mul_ediv (z + O) (f * N : ℕ)
  obtain ⟨u, hu⟩ := Int.eq_ofNat_of_zero_le hz0
  rw [hu] at hz1 hz2
  obtain ⟨x, hx, h1, h2⟩ := window_exists (f * N) p hp u (by omega)
  refine ⟨x, hx, ?_⟩
  have h3 := h x hx ((u : ℤ) - O) (by omega) (by omega)
  have h4 := at_add_N_mul (inter V) ((u : ℤ) - O) ((z + O) / (f * N : ℕ))
  rw [show (u : ℤ) - O + ((f * N : ℕ) : ℤ) * ((z + O) / (f * N : ℕ)) = z by linarith, h3] at h4
  exact h4

/-- `2p` times an encoding is small: the scale is `2^w / 2p` rounded. -/
theorem two_p_encode (p s : BitVec w) (hp : p ≠ 0) (m : BitVec 64) :
    wabs (2 * p * encodeLWECustom m p s) ≤ p.toNat * ((2 : ℤ) ^ w - 2 * p.toNat * s.toNat).natAbs := by
  have hp0 : 0 < p.toNat := by
    rcases Nat.eq_zero_or_pos p.toNat with h0 | h0
    · exact absurd (BitVec.eq_of_toNat_eq (by simpa using h0)) hp
    · exact h0
  have hx : (m.setWidth w).toNat % p.toNat < p.toNat := Nat.mod_lt _ hp0
  set x := (m.setWidth w).toNat % p.toNat with hxd
  have e : 2 * p * encodeLWECustom m p s
      = ((-(((2 : ℤ) ^ w - 2 * p.toNat * s.toNat) * x) : ℤ) : BitVec w) := by
    have e1 : encodeLWECustom m p s = ((x * s.toNat : ℕ) : BitVec w) := by
      unfold encodeLWECustom
      simp only [hp, ne_eq, not_false_eq_true, if_true]
      apply BitVec.eq_of_toNat_eq
      rw [BitVec.toNat_mul, BitVec.toNat_umod, BitVec.natCast_eq_ofNat, BitVec.toNat_ofNat, ← hxd]
    have e2 : p = ((p.toNat : ℕ) : BitVec w) := by
      rw [BitVec.natCast_eq_ofNat, BitVec.ofNat_toNat, BitVec.setWidth_eq]
    have e3 : (((2 : ℤ) ^ w : ℤ) : BitVec w) = 0 := by
      have : ((2 ^ w : ℕ) : BitVec w) = 0 := by
        rw [BitVec.natCast_eq_ofNat]
        apply BitVec.eq_of_toNat_eq
        simp
      rw [← this]; push_cast; rfl
    rw [e1]
    conv_lhs => rw [e2]
    push_cast at e3 ⊢
    rw [e3]
    ring
  rw [e]
  refine (wabs_cast_le _).trans ?_
  rw [Int.natAbs_neg, Int.natAbs_mul, Int.natAbs_natCast, mul_comm]
  exact Nat.mul_le_mul_right _ hx.le

end

/-- The bounds on what is drawn in one call. -/
structure San.Bounds where
  /-- noise of the public key -/
  pk : ℕ
  /-- discrete Gaussian samples of re-randomization -/
  rand : ℕ
  /-- rounded Gaussian sample of re-randomization -/
  tau : ℕ
  /-- discrete Gaussian samples of the linear evaluation -/
  lin : ℕ
  /-- rounded Gaussian sample of the linear evaluation -/
  linTau : ℕ
  /-- Fourier errors of the products -/
  fe : ℕ

section
variable {w N : ℕ} [NeZero N] (b : Boot w N 1)
local notation "P" => Poly N (BitVec w)

/-- Public key and randomness are in the bounds. -/
structure San.InBounds (β : San.Bounds) (pk : Fin 2 → P) (ρ : San.Rand w N) : Prop where
  pk : pabs (phase b.sk pk) ≤ β.pk
  r : pabs ρ.r ≤ β.rand
  e1 : pabs ρ.e1 ≤ β.rand
  tau : wabs ρ.tau ≤ β.tau
  lin : pabs ρ.lin ≤ β.lin
  linTau : wabs ρ.linTau ≤ β.linTau
  err : pabs (phase b.sk ρ.err) ≤ β.fe
  perr : pabs (phase b.sk ρ.perr) ≤ β.fe

/-- The noise added by re-randomization. -/
def San.Bounds.reRand (β : San.Bounds) (N : ℕ) : ℕ := N * (β.pk * β.rand) + N * β.rand + β.fe + β.tau

/-- The noise of the sanitized ciphertext: noise of blind rotation times the multiplier, the distance of `2p` times the scale
from the modulus (zero for powers of two), and the noise drawn. -/
def San.outNoise (β : San.Bounds) : ℕ :=
  N * (b.brOut * (1 + 2 * b.p.toNat * β.lin))
    + N * (β.lin * (b.p.toNat * ((2 : ℤ) ^ w - 2 * b.p.toNat * b.s.toNat).natAbs)) + β.fe + β.linTau

/-- `SanitizeFuncTo` with these parameters and keys. -/
def San.run (raw : List (BitVec w)) (pk : Fin 2 → P) (ρ : San.Rand w N) (err : ℕ → ℕ → Fin 2 → P) (old : ℕ → P)
    (out ct : ℕ → BitVec w) (F : ℕ → BitVec 64) : Option (ℕ → BitVec w) :=
  sanitizeFunc (polyGadget N b.gbr) (scalarGadget b.gks) b.bs b.bc b.brk b.ksk b.p b.s raw pk ρ err old out ct F

theorem linPoly_eq (p : BitVec w) (lin : P) (body : BitVec w) :
    linPoly p lin body = mono N (BitVec w) (-(modSwitch w N body : ℤ)) * (1 + C N (2 * p) * lin) := by
  unfold linPoly
  simp only
  refine congrArg (mono N (BitVec w) (-(modSwitch w N body : ℤ)) * ·) ?_
  funext i
  show _ = (1 : P) i + (C N (2 * p) * lin) i
  rw [C_mul_apply, one_def, C_apply]
  show (if (i : ℕ) = 0 then 2 * p * lin i + 1 else 2 * p * lin i) = _
  split
  · exact add_comm _ _
  · exact (zero_add _).symm

theorem pabs_linPoly_le (p : BitVec w) (lin : P) (body : BitVec w) {Λ : ℕ} (hl : pabs lin ≤ Λ) :
    pabs (linPoly p lin body) ≤ 1 + 2 * p.toNat * Λ := by
  rw [linPoly_eq]
  refine (pabs_mono_mul _ _).le.trans ((pabs_add_le _ _).trans (add_le_add ?_ ?_))
  · rw [pabs_le_iff]
    intro i
    rw [one_def, C_apply]
    split
    · have := wabs_cast_le (w := w) 1
      simpa using this
    · simp
  · rw [pabs_le_iff]
    intro i
    rw [C_mul_apply]
    refine (wabs_mul_le _ _).trans (Nat.mul_le_mul ?_ ((wabs_le_pabs _ _).trans hl))
    have e : 2 * p = (((2 * p.toNat : ℕ) : ℤ) : BitVec w) := by
      push_cast
      congr 1
      have : ((p.toNat : ℕ) : BitVec w) = p := by
        rw [BitVec.natCast_eq_ofNat, BitVec.ofNat_toNat, BitVec.setWidth_eq]
      exact this.symm
    rw [e]
    exact (wabs_cast_le _).trans (Int.natAbs_natCast _).le

/-- **C51 (phase).** Sanitizing a ciphertext of `m` with `F` gives a ciphertext of `F m`. -/
theorem C51_phase (hb : b.Valid) (hf : b.f = 1) (raw : List (BitVec w)) (hraw : raw.length = N) (β : San.Bounds)
    (pk : Fin 2 → P) (ρ : San.Rand w N) (hβ : San.InBounds b β pk ρ)
    (err : ℕ → ℕ → Fin 2 → P) (hF : ∀ i q, pabs (phase b.sk (err i q)) ≤ b.Fe) (old : ℕ → P)
    (out ct : ℕ → BitVec w) (F : ℕ → BitVec 64) (m : ℕ) (hm : m < b.p.toNat) (e : BitVec w)
    (hct : binPhase (1 * N) b.lk ct = BitVec.ofNat w (m * b.s.toNat) + e)
    (hcond : ((wabs e + β.reRand N + b.ksOut : ℕ) : ℚ) * (2 * N) / 2 ^ w
        + N * |(2 : ℚ) ^ w - 2 * b.p.toNat * b.s.toNat| / 2 ^ w
        + (2 + weight (b.bs * b.bc) b.lk) * switchErr N + 1 ≤ N / (2 * b.p.toNat)) :
    ∃ res, San.run b raw pk ρ err old out ct F = some res ∧
      wabs (binPhase (1 * N) b.lk res - encodeLWECustom (F m) b.p b.s) ≤ San.outNoise b β := by
  have hN0 := NeZero.pos N
  have hp0 : 0 < b.p.toNat := by omega
  have hpL : b.p.toNat * (1 * N) ≤ 2 ^ 51 := by have := hb.pL; rwa [hf] at this
  have hL : 2 * N ≤ 2 ^ 53 := by have := hb.L; rwa [hf, Nat.one_mul] at this
  obtain ⟨V, hV, hwin⟩ := C15_genLUT_encoded 1 N b.p b.s F raw (by rw [hraw, Nat.one_mul]) hb.p0 hb.pw hb.p52 hpL
  have hval := table_values (w := w) 1 b.p.toNat (fun x => encodeLWECustom (F x) b.p b.s) raw
    (by rw [hraw, Nat.one_mul]) hp0 hb.pw hb.p52 hpL V hV
  have hz : ∀ z : ℤ, at' (inter V) z = at' (ext0 V 0) z := by
    intro z
    rw [at_inter]
    have h0 : idx 1 z = 0 := Subsingleton.elim _ _
    simp [ext0, h0]
  simp only [hz] at hwin hval
  set lut := ext0 V 0 with hlut
  refine ⟨_, by unfold San.run sanitizeFunc; rw [hV]; rfl, ?_⟩
  unfold sanitizeLUT
  simp only
  set c := reRandLWE pk ρ.r ρ.e1 ρ.tau ρ.err ρ.buf ct with hc
  set c' := upd c 0 0 with hc'
  set ctk := ext0 (defaultKeySwitch (scalarGadget b.gks) (b.bs * b.bc) (1 * N) b.ksk c') with hctk
  set rot := blindRotate (polyGadget N b.gbr) 1 b.bs b.bc b.brk err old ctk (ext0 V) with hrot
  set g := linPoly b.p ρ.lin (c 0) with hg
  -- the input of the rotation
  have hre := C51_reRandLWE b.lk pk ρ.r ρ.e1 ρ.tau ρ.err ρ.buf ct
  rw [← hc] at hre
  set er := at' (reRandNoise (glweKeyOf w N 1 b.lk) pk ρ.r ρ.e1 ρ.err) 0 + ρ.tau with her
  have herle : wabs er ≤ β.reRand N := by
    refine (wabs_add_le _ _).trans (add_le_add ((wabs_at_le _ _).trans ?_) hβ.tau)
    exact C51_reRandNoise_le b.lk pk ρ.r ρ.e1 ρ.err hβ.pk hβ.r hβ.e1 hβ.err
  have hbody : binPhase (1 * N) b.lk c = c 0 + binPhase (1 * N) b.lk c' := by
    unfold binPhase
    have e0 : c' 0 = 0 := rfl
    have e1 : ∀ i, c' (i + 1) = c (i + 1) := fun i => rfl
    simp only [e0, e1, zero_add]
  have hks : wabs (binPhase (b.bs * b.bc) b.lk ctk - binPhase (1 * N) b.lk c') ≤ b.ksOut :=
    defaultKeySwitch_phase b.gks hb.gks (b.bs * b.bc) (1 * N) hb.dim b.lk b.ksMask b.ksNoise b.Bks hb.ksNoise c'
  set d := binPhase (b.bs * b.bc) b.lk ctk - binPhase (1 * N) b.lk c' with hd
  have hφ : c 0 + binPhase (b.bs * b.bc) b.lk ctk = BitVec.ofNat w (m * b.s.toNat) + (e + er + d) := by
    have h1 : c 0 = binPhase (1 * N) b.lk c - binPhase (1 * N) b.lk c' := by rw [hbody]; ring
    rw [h1, hre, hct, hd]; ring
  have hele : wabs (e + er + d) ≤ wabs e + β.reRand N + b.ksOut :=
    (wabs_add_le _ _).trans (add_le_add ((wabs_add_le _ _).trans (Nat.add_le_add_left herle _)) hks)
  -- the index
  obtain ⟨q1, hq1⟩ := C16_phase w N (b.bs * b.bc) hN0 hL b.lk ctk
  obtain ⟨_, q2, hq2⟩ := C16_modSwitch w N hN0 hL (c 0)
  have hw0 : (0:ℚ) < 2 ^ w := by positivity
  obtain ⟨z, hz1, hz2⟩ := index_in_window w N b.p.toNat b.s.toNat m hN0 hp0 hm
    (c 0 + binPhase (b.bs * b.bc) b.lk ctk) (e + er + d) hφ
    ((rotExp w N (b.bs * b.bc) b.lk ctk : ℤ) + modSwitch w N (c 0))
    ((2 + weight (b.bs * b.bc) b.lk) * switchErr N) 0 0 (by simp)
    (by
      set A := (c 0).toNat with hA
      set B := (binPhase (b.bs * b.bc) b.lk ctk).toNat with hB
      obtain ⟨t, ht⟩ : ∃ t : ℤ, ((c 0 + binPhase (b.bs * b.bc) b.lk ctk).toNat : ℤ) = A + B - 2 ^ w * t := by
        refine ⟨((A + B : ℕ) : ℤ) / 2 ^ w, ?_⟩
        rw [BitVec.toNat_add, ← hA, ← hB]
        have := Int.emod_add_mul_ediv ((A + B : ℕ) : ℤ) (2 ^ w)
        push_cast at this ⊢
        linarith
      have ht' : ((c 0 + binPhase (b.bs * b.bc) b.lk ctk).toNat : ℚ) = A + B - 2 ^ w * t := by exact_mod_cast ht
      refine ⟨q1 + q2 - t, ?_⟩
      have hsp : ((((rotExp w N (b.bs * b.bc) b.lk ctk : ℤ) + modSwitch w N (c 0) : ℤ) : ℚ)
            + 2 * N * ((q1 + q2 - t : ℤ) : ℚ)) - (c 0 + binPhase (b.bs * b.bc) b.lk ctk).toNat * (2 * N) / 2 ^ w
          = (((rotExp w N (b.bs * b.bc) b.lk ctk : ℤ) + 2 * N * q1 : ℚ) - B * (2 * N) / 2 ^ w)
            + (((modSwitch w N (c 0) : ℤ) + 2 * N * q2 : ℚ) - A * (2 * N) / 2 ^ w) := by
        rw [ht']
        push_cast
        field_simp
        ring
      rw [hsp]
      refine (abs_add_le _ _).trans ((add_le_add hq1 hq2).trans (le_of_eq ?_))
      ring)
    (by
      have h1 : (wabs (e + er + d) : ℚ) ≤ ((wabs e + β.reRand N + b.ksOut : ℕ) : ℚ) := by exact_mod_cast hele
      have h2 : (wabs (e + er + d) : ℚ) * (2 * N) / 2 ^ w
          ≤ ((wabs e + β.reRand N + b.ksOut : ℕ) : ℚ) * (2 * N) / 2 ^ w :=
        div_le_div_of_nonneg_right (mul_le_mul_of_nonneg_right h1 (by positivity)) (by positivity)
      linarith)
  rw [add_zero] at hz1
  have hwz : at' lut z = encodeLWECustom (F m) b.p b.s := (hwin m hm z (by rw [Nat.one_mul]; exact_mod_cast hz2)).1
  rw [at_congr lut hz1] at hwz
  -- the rotation
  have hbr : pabs (phase b.sk rot - mono N (BitVec w) (-(rotExp w N (b.bs * b.bc) b.lk ctk : ℤ)) * lut) ≤ b.brOut :=
    blindRotate_one (polyGadget N b.gbr) (polyGadget_bounded b.gbr hb.gbr)
      (fun j _ => polyGadget_zero N b.gbr j) b.sk N b.Bbr b.Fe b.bs b.bc hb.bs hb.bc b.lk hb.key b.brk
      (isBRK_gen b.gbr b.sk _ b.Bbr b.lk b.brMask b.brErr b.brNoise hb.brNoise) (glweKeyOf_mul b.lk) err hF old ctk
      (ext0 V)
  set n := phase b.sk rot - mono N (BitVec w) (-(rotExp w N (b.bs * b.bc) b.lk ctk : ℤ)) * lut with hn
  -- the result
  have hres := extract_binPhase (k := 1) b.lk (fun i => rot i * g + ρ.perr i) out
  have hph : phase (glweKeyOf w N 1 b.lk) (fun i => rot i * g + ρ.perr i)
      = mono N (BitVec w) (-((rotExp w N (b.bs * b.bc) b.lk ctk : ℤ) + modSwitch w N (c 0))) * lut
        + mono N (BitVec w) (-((rotExp w N (b.bs * b.bc) b.lk ctk : ℤ) + modSwitch w N (c 0)))
          * (ρ.lin * (C N (2 * b.p) * lut)) + n * g + phase b.sk ρ.perr := by
    have h1 : phase (glweKeyOf w N 1 b.lk) (fun i => rot i * g + ρ.perr i)
        = phase b.sk rot * g + phase b.sk ρ.perr := by
      simp only [phase_one]
      show _ = (rot 0 + rot 1 * glweKeyOf w N 1 b.lk 0) * g + (ρ.perr 0 + ρ.perr 1 * glweKeyOf w N 1 b.lk 0)
      ring
    have h2 : phase b.sk rot = mono N (BitVec w) (-(rotExp w N (b.bs * b.bc) b.lk ctk : ℤ)) * lut + n := by
      rw [hn]; ring
    rw [h1, h2, add_mul, neg_add, mono_add, hg, linPoly_eq]
    ring
  have hbp : binPhase (1 * N) b.lk (upd (asLWECiphertext (k := 1) (fun i => rot i * g + ρ.perr i) ⟨0, NeZero.pos N⟩ out) 0
        (asLWECiphertext (k := 1) (fun i => rot i * g + ρ.perr i) ⟨0, NeZero.pos N⟩ out 0 + ρ.linTau))
      = at' (phase (glweKeyOf w N 1 b.lk) (fun i => rot i * g + ρ.perr i)) 0 + ρ.linTau := by
    rw [← hres]
    unfold binPhase
    have e1 : ∀ (h : ℕ → BitVec w) (y : BitVec w) (i : ℕ), upd h 0 y (i + 1) = h (i + 1) := fun _ _ _ => rfl
    have e2 : ∀ (h : ℕ → BitVec w) (y : BitVec w), upd h 0 y 0 = y := fun _ _ => rfl
    simp only [e1, e2]
    ring
  rw [hbp, hph]
  simp only [at_add]
  rw [at_mono_mul, zero_sub, neg_neg, hwz]
  rw [show ∀ a b c d f : BitVec w, a + b + c + d + f - a = c + b + d + f from fun a b c d f => by ring]
  unfold San.outNoise
  refine (wabs_add_le _ _).trans (add_le_add ((wabs_add_le _ _).trans (add_le_add ((wabs_add_le _ _).trans
    (add_le_add ?_ ?_)) ((wabs_at_le _ _).trans hβ.perr))) hβ.linTau)
  · refine (wabs_at_le _ _).trans ((pabs_mul_le _ _).trans (Nat.mul_le_mul_left _ (Nat.mul_le_mul hbr ?_)))
    exact pabs_linPoly_le b.p ρ.lin (c 0) hβ.lin
  · refine (wabs_at_le _ _).trans ((pabs_mono_mul _ _).le.trans ((pabs_mul_le _ _).trans
      (Nat.mul_le_mul_left _ (Nat.mul_le_mul hβ.lin ?_))))
    rw [pabs_le_iff]
    intro i
    rw [C_mul_apply]
    obtain ⟨x, hx, h | h⟩ := hval (i : ℕ)
    · rw [at_coe] at h
      rw [h]
      exact two_p_encode b.p b.s hb.p0 (F x)
    · rw [at_coe] at h
      rw [h, mul_neg, wabs_neg]
      exact two_p_encode b.p b.s hb.p0 (F x)

/-- **C51.** `SanitizeFunc` on an encryption of a message decrypts to the function of the message. -/
theorem C51_decrypts (hb : b.Valid) (hf : b.f = 1) (raw : List (BitVec w)) (hraw : raw.length = N) (β : San.Bounds)
    (pk : Fin 2 → P) (ρ : San.Rand w N) (hβ : San.InBounds b β pk ρ)
    (err : ℕ → ℕ → Fin 2 → P) (hF : ∀ i q, pabs (phase b.sk (err i q)) ≤ b.Fe) (old : ℕ → P)
    (out ct : ℕ → BitVec w) (F : ℕ → BitVec 64) (message : BitVec 64) (e : BitVec w)
    (hct : phase (lweKeyOf w (1 * N) b.lk) (fun t => ct t) = encodeLWECustom message b.p b.s + e)
    (hcond : ((wabs e + β.reRand N + b.ksOut : ℕ) : ℚ) * (2 * N) / 2 ^ w
        + N * |(2 : ℚ) ^ w - 2 * b.p.toNat * b.s.toNat| / 2 ^ w
        + (2 + weight (b.bs * b.bc) b.lk) * switchErr N + 1 ≤ N / (2 * b.p.toNat))
    (hout : (San.outNoise b β : ℚ) + b.p.toNat + 2 ^ w / 2 ^ 50 < (b.s.toNat : ℚ) / 2) :
    ∃ res, San.run b raw pk ρ err old out ct F = some res ∧
      decodeLWECustom (decryptLWEPhase (lweKeyOf w (1 * N) b.lk) (fun t => res t)) b.p b.s
        = some ((((F ((message.setWidth w).toNat % b.p.toNat)).setWidth w).toNat % b.p.toNat : ℕ) : ℤ) := by
  have hp0 : 0 < b.p.toNat := by
    rcases Nat.eq_zero_or_pos b.p.toNat with h0 | h0
    · exact absurd (BitVec.eq_of_toNat_eq (by simpa using h0)) hb.p0
    · exact h0
  have henc : encodeLWECustom message b.p b.s
      = BitVec.ofNat w ((message.setWidth w).toNat % b.p.toNat * b.s.toNat) := by
    unfold encodeLWECustom
    simp only [hb.p0, ne_eq, not_false_eq_true, if_true]
    apply BitVec.eq_of_toNat_eq
    rw [BitVec.toNat_mul, BitVec.toNat_umod, BitVec.toNat_ofNat]
  rw [phase_lweKeyOf, henc] at hct
  obtain ⟨res, hres, h⟩ := C51_phase b hb hf raw hraw β pk ρ hβ err hF old out ct F _ (Nat.mod_lt _ hp0) e hct hcond
  refine ⟨res, hres, ?_⟩
  set x := F ((message.setWidth w).toNat % b.p.toNat)
  set d := binPhase (1 * N) b.lk res - encodeLWECustom x b.p b.s with hd
  refine C05_decrypt_of_phase hb.w1 _ _ x b.p b.s hb.p0 hb.scale d.toInt ?_ ?_
  · rw [phase_lweKeyOf, BitVec.ofInt_toInt, hd]; ring
  · have e1 : |(d.toInt : ℚ)| = (wabs d : ℚ) := by unfold wabs; rw [Nat.cast_natAbs, Int.cast_abs]
    rw [e1]
    have : (wabs d : ℚ) ≤ San.outNoise b β := by exact_mod_cast h
    linarith
end

/-! ### A concrete instance

The parameters of the example for C20 with six levels of the blind rotation key, so that the noise leaves room for the
multiplier. -/

/-- The keys of the instance. -/
def exSan (N : ℕ) [NeZero N] (brMask : ℕ → Fin 2 → ℕ → Fin 1 → Poly N (BitVec 64))
    (ksMask : ℕ → ℕ → Fin (3 * 200) → BitVec 64)
    (brNoise : ℕ → Fin 2 → ℕ → Poly N (BitVec 64)) (ksNoise : ℕ → ℕ → BitVec 64) : Boot 64 N 1 :=
  { exBoot N brMask ksMask brNoise ksNoise with gbr := ⟨256, 8, 6⟩ }

theorem exSan_valid (N : ℕ) [NeZero N] (hN : N = 2048) (brMask ksMask brNoise ksNoise)
    (h1 : ∀ j i l, pabs (brNoise j i l) ≤ 2 ^ 10)
    (h2 : ∀ i j, wabs (ksNoise i j) ≤ 2 ^ 40) : (exSan N brMask ksMask brNoise ksNoise).Valid := by
  have h := exBoot_valid N hN brMask ksMask brNoise ksNoise h1 h2
  exact { h with gbr := show (⟨256, 8, 6⟩ : GadgetParams 64).Valid by constructor <;> decide }

/-- Every ciphertext with noise up to 2^53 is sanitized correctly, for all keys and samples in the bounds. -/
example (N : ℕ) [NeZero N] (hN : N = 2048) (brMask ksMask brNoise ksNoise)
    (h1 : ∀ j i l, pabs (brNoise j i l) ≤ 2 ^ 10)
    (h2 : ∀ i j, wabs (ksNoise i j) ≤ 2 ^ 40) (raw : List (BitVec 64)) (hraw : raw.length = N)
    (pkMask : Fin 1 → Fin 1 → Poly N (BitVec 64)) (pkNoise : Fin 1 → Poly N (BitVec 64)) (h3 : pabs (pkNoise 0) ≤ 2 ^ 10)
    (ρ : San.Rand 64 N) (hr : pabs ρ.r ≤ 2 ^ 10) (he1 : pabs ρ.e1 ≤ 2 ^ 10) (htau : wabs ρ.tau ≤ 2 ^ 30)
    (hlin : pabs ρ.lin ≤ 8) (hlt : wabs ρ.linTau ≤ 2 ^ 30) (herr : ρ.err = 0) (hperr : ρ.perr = 0)
    (old : ℕ → Poly N (BitVec 64)) (out mask : ℕ → BitVec 64)
    (F : ℕ → BitVec 64) (e : BitVec 64) (he : wabs e ≤ 2 ^ 53) :
    let b := exSan N brMask ksMask brNoise ksNoise
    let pk := genGLWEPublicKey b.sk pkMask 0 pkNoise 0
    let ct := fun t => if t = 0 then encodeLWECustom 3 4#64 0x2000000000000000#64 + e
        - ∑ i ∈ Finset.range (1 * N), (if b.lk i then mask i else 0) else mask (t - 1)
    ∃ res, San.run b raw pk ρ (fun _ _ => 0) old out ct F = some res ∧
      decodeLWECustom (decryptLWEPhase (lweKeyOf 64 (1 * N) b.lk) (fun t => res t)) 4#64 0x2000000000000000#64
        = some (((F 3).toNat % 4 : ℕ) : ℤ) := by
  intro b pk ct
  have hw : weight (3 * 200) (fun i => i % 3 == 1) = 200 := by decide +kernel
  have hNq : (N : ℚ) = 2048 := by exact_mod_cast hN
  have hks : b.ksOut ≤ 2 ^ 57 := by
    show ksBound (⟨16, 4, 8⟩ : GadgetParams 64) (1 * N - 3 * 200) (2 ^ 40) ≤ _
    rw [hN]
    decide +kernel
  have hbr : b.brOut ≤ 2 ^ 42 := by
    show 200 * (3 * (2 * ((2 ^ (64 - 6 * 8) / 2) * (1 + 1 * N) + (1 + 1) * (6 * (N * (256 / 2 * 2 ^ 10))))) + 2 ^ 20) ≤ _
    rw [hN]
    norm_num
  let β : San.Bounds := ⟨2 ^ 10, 2 ^ 10, 2 ^ 30, 8, 2 ^ 30, 0⟩
  have h0 : phase b.sk (0 : Fin 2 → Poly N (BitVec 64)) = 0 := by rw [phase_one]; simp
  have hβ : San.InBounds b β pk ρ :=
    { pk := by
        show pabs (phase (glweKeyOf 64 N 1 b.lk) (genGLWEPublicKey (glweKeyOf 64 N 1 b.lk) pkMask 0 pkNoise 0)) ≤ 2 ^ 10
        rw [C51_publicKey]
        simpa using h3
      r := hr, e1 := he1, tau := htau, lin := hlin, linTau := hlt
      err := by rw [herr, h0]; simp [pabs]
      perr := by rw [hperr, h0]; simp [pabs] }
  have h := C51_decrypts b (exSan_valid N hN brMask ksMask brNoise ksNoise h1 h2) rfl raw hraw β pk ρ hβ (fun _ _ => 0)
    (fun i q => by
      show pabs (phase b.sk (0 : Fin 2 → Poly N (BitVec 64))) ≤ _
      rw [h0]; simp [pabs]) old out ct F 3 e
    (by
      rw [phase_lweKeyOf]
      show ct 0 + ∑ i ∈ Finset.range (1 * N), (if b.lk i then ct (i + 1) else 0) = _
      have e1 : ∀ i, ct (i + 1) = mask i := fun i => rfl
      simp only [e1]
      show encodeLWECustom 3 4#64 0x2000000000000000#64 + e - _ + _ = encodeLWECustom 3 4#64 0x2000000000000000#64 + e
      ring)
    (by
      show ((wabs e + (N * (2 ^ 10 * 2 ^ 10) + N * 2 ^ 10 + 0 + 2 ^ 30) + b.ksOut : ℕ) : ℚ) * (2 * N) / 2 ^ 64
        + N * |(2 : ℚ) ^ 64 - 2 * (4 : ℕ) * (0x2000000000000000 : ℕ)| / 2 ^ 64
        + (2 + (weight (3 * 200) (fun i => i % 3 == 1) : ℕ)) * switchErr N + 1 ≤ N / (2 * (4 : ℕ))
      have h5 : ((wabs e + (N * (2 ^ 10 * 2 ^ 10) + N * 2 ^ 10 + 0 + 2 ^ 30) + b.ksOut : ℕ) : ℚ) ≤ ((2 ^ 58 : ℕ) : ℚ) := by
        generalize b.ksOut = x at hks
        generalize wabs e = y at he
        rw [hN]
        exact_mod_cast (by omega)
      rw [hw]
      unfold switchErr
      rw [hNq]
      push_cast at h5 ⊢
      norm_num at h5 ⊢
      linarith)
    (by
      have h6 : San.outNoise b β ≤ 2048 * (2 ^ 42 * 65) + 2 ^ 30 := by
        have hp4 : b.p.toNat = 4 := rfl
        have hs : b.s.toNat = 0x2000000000000000 := rfl
        unfold San.outNoise
        rw [hp4, hs]
        have h8 : ((2 : ℤ) ^ 64 - 2 * (4 : ℕ) * (0x2000000000000000 : ℕ)).natAbs = 0 := by norm_num
        rw [h8]
        generalize b.brOut = x at hbr
        show N * (x * 65) + N * (8 * (4 * 0)) + 0 + 2 ^ 30 ≤ _
        rw [hN]
        omega
      show (San.outNoise b β : ℚ) + (4 : ℕ) + 2 ^ 64 / 2 ^ 50 < ((0x2000000000000000 : ℕ) : ℚ) / 2
      have h7 : (San.outNoise b β : ℚ) ≤ ((2048 * (2 ^ 42 * 65) + 2 ^ 30 : ℕ) : ℚ) := by exact_mod_cast h6
      generalize San.outNoise b β = x at h7
      push_cast at h7 ⊢
      norm_num at h7 ⊢
      have h9 : (x : ℚ) ≤ 585467952631906304 := by exact_mod_cast h7
      linarith)
  exact h

end Tfhe
