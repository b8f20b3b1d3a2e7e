import Verif.Props.C15
import Verif.Props.C19
import Verif.Props.C10
import Verif.Props.C11
import Verif.Props.C12

/-!
# C20: programmable bootstrapping

Composition of key switching, modulus switching, blind rotation, extraction and decoding, for both
orders and all three blind rotations.  The secret key is one vector of bits `lk` of length `k * N`: the
GLWE key consists of its `k` pieces of length `N`, and the small LWE key is its prefix.
-/
namespace Tfhe
open Poly

section
variable {w N k : ℕ} [NeZero N]

/-- The GLWE key with the coefficients `lk`. -/
def glweKeyOf (w N k : ℕ) (lk : ℕ → Bool) : Fin k → Poly N (BitVec w) := fun i j => kbit w (lk (i.1 * N + j.1))

/-- The first `n` bits as an LWE key. -/
def lweKeyOf (w n : ℕ) (lk : ℕ → Bool) : Fin n → BitVec w := fun i => kbit w (lk i.1)

omit [NeZero N] in
theorem phase_lweKeyOf (n : ℕ) (lk : ℕ → Bool) (ct : ℕ → BitVec w) :
    phase (lweKeyOf w n lk) (fun t : Fin (n + 1) => ct t) = binPhase n lk ct := by
  unfold phase binPhase lweKeyOf
  simp only [Fin.val_zero, Fin.val_succ]
  rw [Fin.sum_univ_eq_sum_range (fun i => ct (i + 1) * kbit w (lk i))]
  congr 1
  refine Finset.sum_congr rfl fun i _ => ?_
  unfold kbit
  cases lk i <;> simp

theorem glweKeyOf_mul (lk : ℕ → Bool) (i : Fin k) (x : Poly N (BitVec w)) :
    pabs (x * glweKeyOf w N k lk i) ≤ N * pabs x := by
  apply pabs_mul_binary
  intro j
  unfold glweKeyOf kbit
  cases lk (i.1 * N + j.1) <;> simp

/-- Extraction of the constant coefficient, for the keys that bootstrapping uses. -/
theorem extract_binPhase (lk : ℕ → Bool) (ct : Fin (k + 1) → Poly N (BitVec w)) (out : ℕ → BitVec w) :
    binPhase (k * N) lk (asLWECiphertext ct ⟨0, NeZero.pos N⟩ out) = at' (phase (glweKeyOf w N k lk) ct) 0 := by
  have h := C10_extract ct (glweKeyOf w N k lk) ⟨0, NeZero.pos N⟩ out (fun t => kbit w (lk t))
  have hk : (fun t : Fin (k * N) => asLWEKey (glweKeyOf w N k lk) (fun t => kbit w (lk t)) t) = lweKeyOf w (k * N) lk := by
    funext t
    have hN := NeZero.pos N
    have hd : t.1 / N < k := Nat.div_lt_of_lt_mul (lt_of_lt_of_eq t.2 (mul_comm k N))
    have := (asLWEKey_spec (glweKeyOf w N k lk) (fun t => kbit w (lk t))).1 ⟨t.1 / N, hd⟩ ⟨t.1 % N, Nat.mod_lt _ hN⟩
    simp only at this
    rw [mul_comm, Nat.div_add_mod] at this
    rw [this]
    show kbit w (lk (t.1 / N * N + t.1 % N)) = kbit w (lk t.1)
    rw [mul_comm, Nat.div_add_mod]
  rw [hk, phase_lweKeyOf] at h
  rw [h]
  exact (at_coe (phase (glweKeyOf w N k lk) ct) ⟨0, NeZero.pos N⟩).symm

/-- What key switching adds: the decomposition loss and the key noise of the `dim - n` elements switched. -/
def ksBound (g : GadgetParams w) (m B : ℕ) : ℕ :=
  m * (2 ^ (w - g.level * g.logBase) / 2) + m * (g.level * (g.base.toNat / 2 * B))

omit [NeZero N] in
/-- `DefaultKeySwitchTo` with the key of `GenDefaultKeySwitchKey`, from the large key to its prefix. -/
theorem defaultKeySwitch_phase (g : GadgetParams w) (hg : g.Valid) (n dim : ℕ) (hn : n ≤ dim) (lk : ℕ → Bool)
    (mask : ℕ → ℕ → Fin n → BitVec w) (noise : ℕ → ℕ → BitVec w) (B : ℕ)
    (hB : ∀ i j, j < g.level → wabs (noise i j) ≤ B) (ct : ℕ → BitVec w) :
    wabs (binPhase n lk (ext0 (defaultKeySwitch (scalarGadget g) n dim
        (fun i => encryptLevScalar g (lweKeyOf w n lk) (mask i) (noise i) (kbit w (lk (n + i)))) ct))
      - binPhase dim lk ct) ≤ ksBound g (dim - n) B := by
  set ksk := fun i => encryptLevScalar g (lweKeyOf w n lk) (mask i) (noise i) (kbit w (lk (n + i))) with hksk
  have hG := scalarGadget_bounded g hg
  have e0 : ∀ c : Fin (n + 1) → BitVec w, binPhase n lk (ext0 c) = phase (lweKeyOf w n lk) c := by
    intro c
    rw [← phase_lweKeyOf]
    congr 1
    funext t
    unfold ext0
    rw [dif_pos t.2]
  rw [e0]
  unfold defaultKeySwitch
  obtain ⟨m, rfl⟩ : ∃ m, dim = n + m := ⟨dim - n, by omega⟩
  rw [Nat.add_sub_cancel_left]
  clear hn
  induction m with
  | zero =>
    simp only [List.range'_zero, List.foldl_nil, Nat.add_zero]
    rw [phase_lweKeyOf, sub_self, wabs_zero]
    exact Nat.zero_le _
  | succ m ih =>
    rw [List.range'_concat, List.foldl_append, List.foldl_cons, List.foldl_nil]
    set out := (List.range' n m).foldl (fun out i => gadgetProdAdd (scalarGadget g).level out (ksk (i - n))
      ((scalarGadget g).dec (ct (i + 1)))) (fun t : Fin (n + 1) => ct t) with hout
    rw [show n + 1 * m = n + m by omega, Nat.add_sub_cancel_left, gadgetProdAdd_eq]
    set a := ct (n + m + 1)
    have hlev : IsLev (scalarGadget g) (lweKeyOf w n lk) (kbit w (lk (n + m))) (ksk m) (noise m) :=
      isLev_encrypt g _ _ _ _
    have e1 := phase_add (lweKeyOf w n lk) out
      (fun t => ∑ j ∈ Finset.range (scalarGadget g).level, (scalarGadget g).dec a j * ksk m j t)
    have e2 := phase_lin (Finset.range (scalarGadget g).level) (lweKeyOf w n lk) ((scalarGadget g).dec a) (ksk m)
    rw [sum_dec_lev _ _ _ _ _ hlev] at e2
    have e3 : binPhase (n + (m + 1)) lk ct = binPhase (n + m) lk ct + kbit w (lk (n + m)) * a := by
      unfold binPhase
      rw [← add_assoc n m 1, Finset.sum_range_succ, ← add_assoc]
      congr 1
      unfold kbit
      cases lk (n + m) <;> simp [a]
    have e4 : phase (lweKeyOf w n lk) (fun t => out t + ∑ j ∈ Finset.range (scalarGadget g).level,
          (scalarGadget g).dec a j * ksk m j t) - binPhase (n + (m + 1)) lk ct
        = (phase (lweKeyOf w n lk) out - binPhase (n + m) lk ct)
          + (kbit w (lk (n + m)) * (scalarGadget g).eps a
            + ∑ j ∈ Finset.range (scalarGadget g).level, (scalarGadget g).dec a j * noise m j) := by
      have : phase (lweKeyOf w n lk) (fun t => out t + ∑ j ∈ Finset.range (scalarGadget g).level,
          (scalarGadget g).dec a j * ksk m j t) = _ := e1
      rw [this, e2, e3]
      ring
    rw [e4]
    have b1 : wabs (kbit w (lk (n + m)) * (scalarGadget g).eps a) ≤ 2 ^ (w - g.level * g.logBase) / 2 := by
      refine le_trans ?_ (hG.eps_le a)
      show _ ≤ wabs ((scalarGadget g).eps a)
      unfold kbit
      cases lk (n + m) <;> simp
    have b2 : wabs (∑ j ∈ Finset.range (scalarGadget g).level, (scalarGadget g).dec a j * noise m j)
        ≤ g.level * (g.base.toNat / 2 * B) := by
      have h := (wordNorm w).sum_le_card (Finset.range (scalarGadget g).level)
        (fun j => (scalarGadget g).dec a j * noise m j) (g.base.toNat / 2 * B) (fun j hj => by
          have hj' := Finset.mem_range.1 hj
          refine ((wordNorm w).mul_le _ _).trans ?_
          have h1 := hG.dec_le a j hj'
          have h2 := hB m j hj'
          show 1 * (_ * _) ≤ _
          rw [one_mul]
          exact Nat.mul_le_mul h1 h2)
      rwa [Finset.card_range] at h
    refine (wabs_add_le _ _).trans ((Nat.add_le_add ih ((wabs_add_le _ _).trans (Nat.add_le_add b1 b2))).trans ?_)
    unfold ksBound
    apply le_of_eq
    ring

/-- From the phase to the index: when the noise, the error of the scale, the error of the modulus switch
and a possible shift stay inside half a window, the index belongs to the window of the message. -/
theorem index_in_window (w L p s m : ℕ) (hL : 0 < L) (hp : 0 < p) (hm : m < p) (φ e : BitVec w)
    (hφ : φ = BitVec.ofNat w (m * s) + e) (r : ℤ) (η δ : ℚ) (ε : ℤ) (hε : |(ε : ℚ)| ≤ δ)
    (hr : ∃ q : ℤ, |((r : ℤ) + 2 * L * q : ℚ) - φ.toNat * (2 * L) / 2 ^ w| ≤ η)
    (hcond : (wabs e : ℚ) * (2 * L) / 2 ^ w + L * |(2 : ℚ) ^ w - 2 * p * s| / 2 ^ w + η + δ + 1 ≤ L / (2 * p)) :
    ∃ z : ℤ, z % (2 * L) = (r + ε) % (2 * L) ∧ 2 * |z * p - m * L| + 2 * p ≤ L := by
  obtain ⟨q, hq⟩ := hr
  have hw : (0:ℚ) < 2 ^ w := by positivity
  have hp' : (0:ℚ) < p := by exact_mod_cast hp
  have hL' : (0:ℚ) < L := by exact_mod_cast hL
  obtain ⟨t, ht⟩ : ∃ t : ℤ, (φ.toNat : ℤ) = m * s + e.toInt - 2 ^ w * t := by
    have h1 : φ = BitVec.ofInt w (m * s + e.toInt) := by
      rw [hφ, BitVec.ofInt_add, BitVec.ofInt_toInt]
      rw [← Nat.cast_mul, BitVec.ofInt_natCast]
    have h2 : (φ.toNat : ℤ) = (m * s + e.toInt) % 2 ^ w := by
      rw [h1, BitVec.toNat_ofInt, Int.toNat_of_nonneg (Int.emod_nonneg _ (by positivity))]
      norm_cast
    refine ⟨(m * s + e.toInt) / 2 ^ w, ?_⟩
    rw [h2, Int.emod_def]
  have ht' : (φ.toNat : ℚ) = m * s + e.toInt - 2 ^ w * t := by exact_mod_cast ht
  refine ⟨r + ε + 2 * L * (q + t), by rw [Int.add_mul_emod_self_left], ?_⟩
  have habs : |(e.toInt : ℚ)| = (wabs e : ℚ) := by unfold wabs; rw [Nat.cast_natAbs, Int.cast_abs]
  have hd : |((r : ℚ) + ε + 2 * L * (q + t)) - m * L / p| ≤ η + δ + ((wabs e : ℚ) * (2 * L) / 2 ^ w
      + L * |(2 : ℚ) ^ w - 2 * p * s| / 2 ^ w) := by
    have hsplit : ((r : ℚ) + ε + 2 * L * (q + t)) - m * L / p
        = (((r : ℤ) + 2 * L * q : ℚ) - φ.toNat * (2 * L) / 2 ^ w) + ε
          + (e.toInt * (2 * L) / 2 ^ w + -((m / p) * (L * ((2 : ℚ) ^ w - 2 * p * s) / 2 ^ w))) := by
      rw [ht']
      field_simp
      ring
    rw [hsplit]
    refine (abs_add_le _ _).trans (add_le_add ((abs_add_le _ _).trans (add_le_add hq hε)) ?_)
    refine (abs_add_le _ _).trans (add_le_add ?_ ?_)
    · rw [abs_div, abs_mul, habs, abs_of_pos hw, abs_of_pos (by linarith : (0:ℚ) < 2 * L)]
    · rw [abs_neg, abs_mul, abs_div (L * _ : ℚ), abs_mul (L : ℚ), abs_of_pos hL', abs_of_pos hw]
      have h1 : |(m / p : ℚ)| ≤ 1 := by
        rw [abs_of_nonneg (by positivity), div_le_one hp']
        exact_mod_cast hm.le
      exact mul_le_of_le_one_left (by positivity) h1
  have hd2 : |((r : ℚ) + ε + 2 * L * (q + t)) - m * L / p| + 1 ≤ L / (2 * p) := by linarith
  have hfin : (2 * |((r + ε + 2 * L * (q + t) : ℤ) : ℚ) * p - m * L| + 2 * p : ℚ) ≤ L := by
    have e1 : |((r + ε + 2 * L * (q + t) : ℤ) : ℚ) * p - m * L|
        = p * |((r : ℚ) + ε + 2 * L * (q + t)) - m * L / p| := by
      rw [← abs_of_pos hp', ← abs_mul, abs_of_pos hp']
      congr 1
      push_cast
      field_simp
    rw [e1]
    have := mul_le_mul_of_nonneg_left hd2 (by linarith : (0:ℚ) ≤ 2 * p)
    rw [show 2 * (p:ℚ) * (L / (2 * p)) = L by field_simp] at this
    linarith
  exact_mod_cast hfin

/-- How far the extended rotation can be off; 0 for tables of ring size. -/
def extShift (f : ℕ) : ℕ := if f = 1 then 0 else 2 * f - 1

/-- All three blind rotations: the constant coefficient is the table at the right index, or for extended
tables (`1 < f`) less than `2f` positions away from it. -/
theorem blindRotate_const {f : ℕ} [NeZero f] (G : Gadget (Poly N (BitVec w))) {D E : ℕ}
    (hG : G.Bounded (polyNorm N w) D E)
    (hG0 : ∀ j, j < G.level → G.dec 0 j = 0) (sk : Fin k → Poly N (BitVec w)) (S B Fe bs bc : ℕ)
    (hbs : 0 < bs) (hbc : 0 < bc) (hext : f = 1 ∨ 2 ≤ bc) (key : ℕ → Bool)
    (hkey : ∀ i, i < bc → AtMostOne key (i * bs) bs)
    (brk : ℕ → Fin (k + 1) → ℕ → Fin (k + 1) → Poly N (BitVec w)) (hbrk : IsBRK G sk (bs * bc) B key brk)
    (hS : ∀ i x, pabs (x * sk i) ≤ S * pabs x) (err : ℕ → ℕ → Fin (k + 1) → Poly N (BitVec w))
    (hF : ∀ i q, pabs (phase sk (err i q)) ≤ Fe) (old : ℕ → Poly N (BitVec w)) (ct : ℕ → BitVec w)
    (lut : ℕ → Poly N (BitVec w)) :
    ∃ ε : ℤ, |ε| ≤ extShift f ∧
      wabs (at' (phase sk (blindRotate G f bs bc brk err old ct lut)) 0
        - at' (inter (fun q : Fin f => lut q.1)) (rotExp w (f * N) (bs * bc) key ct + ε))
      ≤ bc * (bs * (2 * brStep N k G D E S B) + Fe) := by
  by_cases hf : f = 1
  · subst hf
    refine ⟨0, by simp [extShift], ?_⟩
    have hz : ∀ z : ℤ, at' (inter (fun q : Fin 1 => lut q.1)) z = at' (lut 0) z := by
      intro z
      rw [at_inter]
      simp
    have conv : ∀ c : Fin (k + 1) → Poly N (BitVec w),
        pabs (phase sk c - mono N (BitVec w) (-(rotExp w N (bs * bc) key ct : ℤ)) * lut 0)
          ≤ bc * (bs * (2 * brStep N k G D E S B) + Fe) →
        wabs (at' (phase sk c) 0 - at' (inter (fun q : Fin 1 => lut q.1)) (rotExp w (1 * N) (bs * bc) key ct + 0))
          ≤ bc * (bs * (2 * brStep N k G D E S B) + Fe) := by
      intro c h
      refine le_trans ?_ h
      have := wabs_at_le (phase sk c - mono N (BitVec w) (-(rotExp w N (bs * bc) key ct : ℤ)) * lut 0) 0
      rw [at_sub, at_mono_mul, zero_sub, neg_neg] at this
      rw [hz, add_zero, Nat.one_mul]
      exact this
    unfold blindRotate
    rw [if_neg (by omega)]
    by_cases hb : 1 < bs
    · rw [if_pos hb]
      exact conv _ (C18_blindRotateBlock G hG hG0 sk S B Fe bs bc hbs hbc key hkey brk hbrk hS _ (fun i => hF i 0) ct _)
    · rw [if_neg hb]
      obtain rfl : bs = 1 := by omega
      apply conv
      have h := C17_blindRotateOriginal G hG hG0 sk S B Fe (1 * bc) (by omega) key brk hbrk hS (fun i => err i 0)
        (fun i => hF i 0) ct (lut 0)
      rw [Nat.one_mul (2 * brStep N k G D E S B)]
      rw [Nat.one_mul bc] at h ⊢
      exact h
  · have h1 : 1 < f := by have := NeZero.pos f; omega
    have hbc2 : 2 ≤ bc := hext.resolve_left hf
    unfold blindRotate
    rw [if_pos h1]
    unfold extShift
    rw [if_neg hf]
    obtain ⟨ε, hε, h⟩ := C19_near_partial (f := f) G hG hG0 sk S B Fe bs bc hbs hbc2 key hkey brk hbrk hS err hF old ct lut
    exact ⟨ε, by omega, h⟩
end

/-! ### Bootstrapping -/

/-- Everything the statements below quantify over: the parameters, the secret key bits, the samples of key
generation, and bounds.  `f` is the extension factor, `bs * bc` the small LWE dimension. -/
structure Boot (w N k : ℕ) where
  /-- gadget of the blind rotation key -/
  gbr : GadgetParams w
  /-- gadget of the key-switching key -/
  gks : GadgetParams w
  f : ℕ
  bs : ℕ
  bc : ℕ
  /-- message modulus -/
  p : BitVec w
  /-- scale -/
  s : BitVec w
  /-- secret key bits -/
  lk : ℕ → Bool
  brMask : ℕ → Fin (k + 1) → ℕ → Fin k → Poly N (BitVec w)
  brErr : ℕ → Fin (k + 1) → ℕ → Fin k → Poly N (BitVec w)
  brNoise : ℕ → Fin (k + 1) → ℕ → Poly N (BitVec w)
  ksMask : ℕ → ℕ → Fin (bs * bc) → BitVec w
  ksNoise : ℕ → ℕ → BitVec w
  /-- bound on the noise of the blind rotation key (with its Fourier errors) -/
  Bbr : ℕ
  /-- bound on the noise of the key-switching key -/
  Bks : ℕ
  /-- bound on the Fourier errors of blind rotation -/
  Fe : ℕ

namespace Boot
variable {w N k : ℕ} [NeZero N] (b : Boot w N k)

/-- The parameters are as `Compile` leaves them, the key is block binary and the noise is bounded. -/
structure KeyValid : Prop where
  w1 : 1 ≤ w
  gbr : b.gbr.Valid
  gks : b.gks.Valid
  f : 0 < b.f
  bs : 0 < b.bs
  bc : 0 < b.bc
  dim : b.bs * b.bc ≤ k * N
  L : 2 * (b.f * N) ≤ 2 ^ 53
  key : ∀ i, i < b.bc → AtMostOne b.lk (i * b.bs) b.bs
  brNoise : ∀ j i l, pabs (b.brNoise j i l - ∑ t, b.brErr j i l t) ≤ b.Bbr
  ksNoise : ∀ i j, j < b.gks.level → wabs (b.ksNoise i j) ≤ b.Bks

/-- The same with the message modulus and the scale, which are used by the tables of functions. -/
structure Valid : Prop extends b.KeyValid where
  p0 : b.p ≠ 0
  pw : 2 * b.p.toNat < 2 ^ w
  p52 : b.p.toNat ≤ 2 ^ 52
  pL : b.p.toNat * (b.f * N) ≤ 2 ^ 51
  scale : compileScale w b.p.toNat = some b.s.toNat

/-- The GLWE key. -/
def sk : Fin k → Poly N (BitVec w) := glweKeyOf w N k b.lk
/-- `GenBlindRotateKey`. -/
def brk : ℕ → Fin (k + 1) → ℕ → Fin (k + 1) → Poly N (BitVec w) := fun j =>
  genBlindRotateKeyElem b.gbr b.sk (b.brMask j) (b.brErr j) (b.brNoise j) (kbit w (b.lk j))
/-- `GenDefaultKeySwitchKey`. -/
def ksk : ℕ → ℕ → Fin (b.bs * b.bc + 1) → BitVec w := fun i =>
  encryptLevScalar b.gks (lweKeyOf w (b.bs * b.bc) b.lk) (b.ksMask i) (b.ksNoise i) (kbit w (b.lk (b.bs * b.bc + i)))

/-- Noise of the output of blind rotation. -/
def brOut : ℕ := b.bc * (b.bs * (2 * brStep N k (polyGadget N b.gbr) (b.gbr.base.toNat / 2)
  (2 ^ (w - b.gbr.level * b.gbr.logBase) / 2) N b.Bbr) + b.Fe)
/-- Noise added by key switching. -/
def ksOut : ℕ := ksBound b.gks (k * N - b.bs * b.bc) b.Bks
/-- The part of the input window that modulus switching, the scale and the extended rotation take. -/
def window : ℚ := (1 + weight (b.bs * b.bc) b.lk) * switchErr (b.f * N)
  + (b.f * N : ℕ) * |(2 : ℚ) ^ w - 2 * b.p.toNat * b.s.toNat| / 2 ^ w
  + extShift b.f + 1

/-- The dimension of default ciphertexts (`DefaultLWEDimension`).  tfhe/params.go:490-495. -/
def ctDim : BootstrapOrder → ℕ
  | .ksBr => k * N
  | .brKs => b.bs * b.bc
/-- The noise that blind rotation sees. -/
def inNoise : BootstrapOrder → ℕ → ℕ
  | .ksBr, e => e + b.ksOut
  | .brKs, e => e
/-- The noise of the result. -/
def outNoise : BootstrapOrder → ℕ
  | .ksBr => b.brOut
  | .brKs => b.brOut + b.ksOut

/-- `BootstrapFuncTo` with these parameters and keys. -/
def run (order : BootstrapOrder) (raw : List (BitVec w)) (err : ℕ → ℕ → Fin (k + 1) → Poly N (BitVec w))
    (old : ℕ → Poly N (BitVec w)) (buf out ct : ℕ → BitVec w) (F : ℕ → BitVec 64) : Option (ℕ → BitVec w) :=
  bootstrapFunc order (polyGadget N b.gbr) (scalarGadget b.gks) b.f b.bs b.bc b.brk b.ksk b.p b.s raw err old buf
    out ct F

/-- Blind rotation of a ciphertext under the small key that encrypts `m`, with the table of `F`. -/
theorem rotate (hb : b.Valid) (hext : b.f = 1 ∨ 2 ≤ b.bc) (F : ℕ → BitVec w) (V : Fin b.f → Poly N (BitVec w)) (m : ℕ) (hm : m < b.p.toNat)
    (hV : ∀ z : ℤ, 2 * |z * b.p.toNat - m * (b.f * N : ℕ)| + 2 * b.p.toNat ≤ (b.f * N : ℕ) →
      ∀ _ : NeZero b.f, at' (inter V) z = F m)
    (err : ℕ → ℕ → Fin (k + 1) → Poly N (BitVec w)) (hF : ∀ i q, pabs (phase b.sk (err i q)) ≤ b.Fe)
    (old : ℕ → Poly N (BitVec w)) (ct : ℕ → BitVec w) (e : BitVec w)
    (hct : binPhase (b.bs * b.bc) b.lk ct = BitVec.ofNat w (m * b.s.toNat) + e)
    (hcond : (wabs e : ℚ) * (2 * (b.f * N : ℕ)) / 2 ^ w + b.window ≤ (b.f * N : ℕ) / (2 * b.p.toNat)) :
    wabs (at' (phase b.sk (blindRotate (polyGadget N b.gbr) b.f b.bs b.bc b.brk err old ct (ext0 V))) 0 - F m)
      ≤ b.brOut := by
  have : NeZero b.f := ⟨hb.f.ne'⟩
  have hL0 : 0 < b.f * N := Nat.mul_pos hb.f (NeZero.pos N)
  have hp0 : 0 < b.p.toNat := by omega
  obtain ⟨ε, hε, h⟩ := blindRotate_const (f := b.f) (polyGadget N b.gbr) (polyGadget_bounded b.gbr hb.gbr)
    (fun j _ => polyGadget_zero N b.gbr j) b.sk N b.Bbr b.Fe b.bs b.bc hb.bs hb.bc hext b.lk hb.key b.brk
    (isBRK_gen b.gbr b.sk _ b.Bbr b.lk b.brMask b.brErr b.brNoise hb.brNoise) (glweKeyOf_mul b.lk) err hF old ct
    (ext0 V)
  have hlut : (fun q : Fin b.f => ext0 V q.1) = V := by
    funext q; unfold ext0; rw [dif_pos q.2]
  rw [hlut] at h
  obtain ⟨z, hz1, hz2⟩ := index_in_window w (b.f * N) b.p.toNat b.s.toNat m hL0 hp0 hm
    (binPhase (b.bs * b.bc) b.lk ct) e hct (rotExp w (b.f * N) (b.bs * b.bc) b.lk ct)
    ((1 + weight (b.bs * b.bc) b.lk) * switchErr (b.f * N)) (extShift b.f) ε
    (by exact_mod_cast hε)
    (C16_phase w (b.f * N) _ hL0 hb.L b.lk ct)
    (by unfold window at hcond; linarith)
  have e1 := hV z hz2 inferInstance
  rw [← at_congr (inter V) hz1, e1] at h
  exact h

end Boot

section
variable {w N k : ℕ} [NeZero N] (b : Boot w N k)

/-- **C20 (phase).** Bootstrapping a ciphertext of `m` yields a ciphertext of `F(m)`, for both orders, any contents
of the buffers and the output, and any Fourier errors in the bound: the phase is the encoding of `F(m)`
plus a noise that does not depend on the input noise.  Tables longer than the ring with a single block
are excluded; there the rotation is wrong (`C19_one_block_false`). -/
theorem C20_phase_partial (order : BootstrapOrder) (hb : b.Valid) (hext : b.f = 1 ∨ 2 ≤ b.bc) (raw : List (BitVec w)) (hraw : raw.length = b.f * N)
    (err : ℕ → ℕ → Fin (k + 1) → Poly N (BitVec w)) (hF : ∀ i q, pabs (phase b.sk (err i q)) ≤ b.Fe)
    (old : ℕ → Poly N (BitVec w)) (buf out ct : ℕ → BitVec w) (F : ℕ → BitVec 64) (m : ℕ) (hm : m < b.p.toNat)
    (e : BitVec w) (hct : binPhase (b.ctDim order) b.lk ct = BitVec.ofNat w (m * b.s.toNat) + e)
    (hcond : (b.inNoise order (wabs e) : ℚ) * (2 * (b.f * N : ℕ)) / 2 ^ w + b.window
      ≤ (b.f * N : ℕ) / (2 * b.p.toNat)) :
    ∃ res, b.run order raw err old buf out ct F = some res ∧
      wabs (binPhase (b.ctDim order) b.lk res - encodeLWECustom (F m) b.p b.s) ≤ b.outNoise order := by
  have : NeZero b.f := ⟨hb.f.ne'⟩
  obtain ⟨V, hV, hwin⟩ := C15_genLUT_encoded b.f N b.p b.s F raw hraw hb.p0 hb.pw hb.p52 hb.pL
  refine ⟨_, by unfold Boot.run bootstrapFunc; rw [hV]; rfl, ?_⟩
  have hrot := fun ct e h1 h2 => b.rotate hb hext (fun x => encodeLWECustom (F x) b.p b.s) V m hm
    (fun z hz _ => (hwin m hm z hz).1) err hF old ct e h1 h2
  have hks := fun ct => defaultKeySwitch_phase b.gks hb.gks (b.bs * b.bc) (k * N) hb.dim b.lk b.ksMask b.ksNoise b.Bks
    hb.ksNoise ct
  cases order with
  | ksBr =>
    show wabs (binPhase (k * N) b.lk (asLWECiphertext _ _ out) - _) ≤ b.brOut
    rw [extract_binPhase]
    set ctk := ext0 (defaultKeySwitch (scalarGadget b.gks) (b.bs * b.bc) (k * N) b.ksk ct)
    have h1 : wabs (binPhase (b.bs * b.bc) b.lk ctk - binPhase (k * N) b.lk ct) ≤ b.ksOut := hks ct
    have hct' : binPhase (k * N) b.lk ct = BitVec.ofNat w (m * b.s.toNat) + e := hct
    refine hrot ctk (e + (binPhase (b.bs * b.bc) b.lk ctk - binPhase (k * N) b.lk ct)) ?_ ?_
    · rw [hct']; ring
    · have h2 : (wabs (e + (binPhase (b.bs * b.bc) b.lk ctk - binPhase (k * N) b.lk ct)) : ℚ)
          ≤ b.inNoise .ksBr (wabs e) := by
        exact_mod_cast (wabs_add_le _ _).trans (Nat.add_le_add_left h1 _)
      refine le_trans (add_le_add_left (div_le_div_of_nonneg_right
        (mul_le_mul_of_nonneg_right h2 (by positivity)) (by positivity)) _) hcond
  | brKs =>
    show wabs (binPhase (b.bs * b.bc) b.lk (ext0 (defaultKeySwitch (scalarGadget b.gks) (b.bs * b.bc) (k * N)
      b.ksk (asLWECiphertext _ _ buf))) - _) ≤ b.brOut + b.ksOut
    have hr := hrot ct e hct hcond
    set c := asLWECiphertext (blindRotate (polyGadget N b.gbr) b.f b.bs b.bc b.brk err old ct (ext0 V))
      ⟨0, NeZero.pos N⟩ buf with hc
    have h1 : wabs (binPhase (b.bs * b.bc) b.lk (ext0 (defaultKeySwitch (scalarGadget b.gks) (b.bs * b.bc) (k * N)
      b.ksk c)) - binPhase (k * N) b.lk c) ≤ b.ksOut := hks c
    have h2 : binPhase (k * N) b.lk c = _ := extract_binPhase b.lk _ buf
    have h3 : wabs (binPhase (k * N) b.lk c - encodeLWECustom (F m) b.p b.s) ≤ b.brOut := by
      rw [h2]; exact hr
    rw [← sub_add_sub_cancel _ (binPhase (k * N) b.lk c), add_comm b.brOut]
    exact (wabs_add_le _ _).trans (Nat.add_le_add h1 h3)

/-- From the phase to the index, without reference to messages. -/
theorem index_near (w L : ℕ) (φ : BitVec w) (X : ℤ) (hφ : φ = BitVec.ofInt w X) (r : ℤ) (η δ : ℚ) (ε : ℤ)
    (hε : |(ε : ℚ)| ≤ δ) (hr : ∃ q : ℤ, |((r : ℤ) + 2 * L * q : ℚ) - φ.toNat * (2 * L) / 2 ^ w| ≤ η) :
    ∃ z : ℤ, z % (2 * L) = (r + ε) % (2 * L) ∧ |(z : ℚ) - X * (2 * L) / 2 ^ w| ≤ η + δ := by
  obtain ⟨q, hq⟩ := hr
  have hw : (0:ℚ) < 2 ^ w := by positivity
  have h2 : (φ.toNat : ℤ) = X % 2 ^ w := by
    rw [hφ, BitVec.toNat_ofInt, Int.toNat_of_nonneg (Int.emod_nonneg _ (by positivity))]
    norm_cast
  have ht : (φ.toNat : ℤ) = X - 2 ^ w * (X / 2 ^ w) := by rw [h2, Int.emod_def]
  generalize X / 2 ^ w = t at ht
  have ht' : (φ.toNat : ℚ) = X - 2 ^ w * t := by exact_mod_cast ht
  refine ⟨r + ε + 2 * L * (q + t), by rw [Int.add_mul_emod_self_left], ?_⟩
  have hsplit : ((r + ε + 2 * L * (q + t) : ℤ) : ℚ) - X * (2 * L) / 2 ^ w
      = (((r : ℤ) + 2 * L * q : ℚ) - φ.toNat * (2 * L) / 2 ^ w) + ε := by
    rw [ht']
    push_cast
    field_simp
    ring
  rw [hsplit]
  exact (abs_add_le _ _).trans (add_le_add hq hε)

/-- How far the index can be from the phase, in index units. -/
def Boot.indexErr : BootstrapOrder → ℚ
  | .ksBr => (b.ksOut : ℚ) * (2 * (b.f * N : ℕ)) / 2 ^ w
      + (1 + weight (b.bs * b.bc) b.lk) * switchErr (b.f * N) + extShift b.f
  | .brKs => (1 + weight (b.bs * b.bc) b.lk) * switchErr (b.f * N) + extShift b.f

/-- **C20 (any table).** `BootstrapLUT` returns an encryption of the table at an index that is the scaled
phase up to `indexErr`, with noise at most `outNoise`.  Any table, both orders. -/
theorem C20_lut_partial (order : BootstrapOrder) (hb : b.KeyValid) (hext : b.f = 1 ∨ 2 ≤ b.bc)
    (err : ℕ → ℕ → Fin (k + 1) → Poly N (BitVec w)) (hF : ∀ i q, pabs (phase b.sk (err i q)) ≤ b.Fe)
    (old : ℕ → Poly N (BitVec w)) (buf out ct : ℕ → BitVec w) (lut : ℕ → Poly N (BitVec w)) (X : ℤ)
    (hct : binPhase (b.ctDim order) b.lk ct = BitVec.ofInt w X) (_ : NeZero b.f) :
    ∃ z : ℤ, |(z : ℚ) - X * (2 * (b.f * N : ℕ)) / 2 ^ w| ≤ b.indexErr order ∧
      wabs (binPhase (b.ctDim order) b.lk (bootstrapLUT order (polyGadget N b.gbr) (scalarGadget b.gks) b.f b.bs b.bc
          b.brk b.ksk err old buf out ct lut) - at' (inter (fun q : Fin b.f => lut q.1)) z) ≤ b.outNoise order := by
  have hL0 : 0 < b.f * N := Nat.mul_pos hb.f (NeZero.pos N)
  have hrot : ∀ (ct : ℕ → BitVec w) (X : ℤ), binPhase (b.bs * b.bc) b.lk ct = BitVec.ofInt w X →
      ∃ z : ℤ, |(z : ℚ) - X * (2 * (b.f * N : ℕ)) / 2 ^ w|
          ≤ (1 + weight (b.bs * b.bc) b.lk) * switchErr (b.f * N) + extShift b.f ∧
        wabs (at' (phase b.sk (blindRotate (polyGadget N b.gbr) b.f b.bs b.bc b.brk err old ct lut)) 0
          - at' (inter (fun q : Fin b.f => lut q.1)) z) ≤ b.brOut := by
    intro ct X hX
    obtain ⟨ε, hε, h⟩ := blindRotate_const (f := b.f) (polyGadget N b.gbr) (polyGadget_bounded b.gbr hb.gbr)
      (fun j _ => polyGadget_zero N b.gbr j) b.sk N b.Bbr b.Fe b.bs b.bc hb.bs hb.bc hext b.lk hb.key b.brk
      (isBRK_gen b.gbr b.sk _ b.Bbr b.lk b.brMask b.brErr b.brNoise hb.brNoise) (glweKeyOf_mul b.lk) err hF old ct lut
    obtain ⟨z, hz1, hz2⟩ := index_near w (b.f * N) _ X hX (rotExp w (b.f * N) (b.bs * b.bc) b.lk ct)
      ((1 + weight (b.bs * b.bc) b.lk) * switchErr (b.f * N)) (extShift b.f) ε (by exact_mod_cast hε)
      (C16_phase w (b.f * N) _ hL0 hb.L b.lk ct)
    refine ⟨z, hz2, ?_⟩
    rw [← at_congr (inter (fun q : Fin b.f => lut q.1)) hz1] at h
    exact h
  have hks := fun ct => defaultKeySwitch_phase b.gks hb.gks (b.bs * b.bc) (k * N) hb.dim b.lk b.ksMask b.ksNoise b.Bks
    hb.ksNoise ct
  cases order with
  | ksBr =>
    show ∃ z : ℤ, _ ∧ wabs (binPhase (k * N) b.lk (asLWECiphertext _ _ out) - _) ≤ b.brOut
    rw [extract_binPhase]
    set ctk := ext0 (defaultKeySwitch (scalarGadget b.gks) (b.bs * b.bc) (k * N) b.ksk ct)
    have h1 : wabs (binPhase (b.bs * b.bc) b.lk ctk - binPhase (k * N) b.lk ct) ≤ b.ksOut := hks ct
    set d := binPhase (b.bs * b.bc) b.lk ctk - binPhase (k * N) b.lk ct with hd
    have hct' : binPhase (k * N) b.lk ct = BitVec.ofInt w X := hct
    obtain ⟨z, hz, h⟩ := hrot ctk (X + d.toInt) (by
      rw [BitVec.ofInt_add, BitVec.ofInt_toInt, ← hct', hd]; ring)
    refine ⟨z, ?_, h⟩
    have hdq : |(d.toInt : ℚ)| ≤ b.ksOut := by
      have : |(d.toInt : ℚ)| = (wabs d : ℚ) := by unfold wabs; rw [Nat.cast_natAbs, Int.cast_abs]
      rw [this]; exact_mod_cast h1
    have hsplit : (z : ℚ) - X * (2 * (b.f * N : ℕ)) / 2 ^ w
        = d.toInt * (2 * (b.f * N : ℕ)) / 2 ^ w + (z - ((X + d.toInt : ℤ) : ℚ) * (2 * (b.f * N : ℕ)) / 2 ^ w) := by
      push_cast; ring
    rw [hsplit]
    refine (abs_add_le _ _).trans ?_
    show _ ≤ (b.ksOut : ℚ) * (2 * (b.f * N : ℕ)) / 2 ^ w
      + (1 + weight (b.bs * b.bc) b.lk) * switchErr (b.f * N) + extShift b.f
    rw [add_assoc]
    refine add_le_add ?_ hz
    rw [abs_div, abs_mul, abs_of_nonneg (by positivity : (0:ℚ) ≤ 2 * (b.f * N : ℕ)),
      abs_of_pos (by positivity : (0:ℚ) < 2 ^ w)]
    exact div_le_div_of_nonneg_right (mul_le_mul_of_nonneg_right hdq (by positivity)) (by positivity)
  | brKs =>
    show ∃ z : ℤ, _ ∧ wabs (binPhase (b.bs * b.bc) b.lk (ext0 (defaultKeySwitch (scalarGadget b.gks) (b.bs * b.bc)
      (k * N) b.ksk (asLWECiphertext _ _ buf))) - _) ≤ b.brOut + b.ksOut
    obtain ⟨z, hz, hr⟩ := hrot ct X hct
    refine ⟨z, hz, ?_⟩
    set c := asLWECiphertext (blindRotate (polyGadget N b.gbr) b.f b.bs b.bc b.brk err old ct lut)
      ⟨0, NeZero.pos N⟩ buf with hc
    have h1 : wabs (binPhase (b.bs * b.bc) b.lk (ext0 (defaultKeySwitch (scalarGadget b.gks) (b.bs * b.bc) (k * N)
      b.ksk c)) - binPhase (k * N) b.lk c) ≤ b.ksOut := hks c
    have h2 : binPhase (k * N) b.lk c = at' (phase b.sk (blindRotate (polyGadget N b.gbr) b.f b.bs b.bc b.brk err
      old ct lut)) 0 := extract_binPhase b.lk _ buf
    rw [← h2] at hr
    rw [← sub_add_sub_cancel _ (binPhase (k * N) b.lk c), add_comm b.brOut]
    exact (wabs_add_le _ _).trans (Nat.add_le_add h1 hr)

/-- **C20 (messages).** The result decrypts to `F(m)` modulo the message modulus when the noise of the
result is inside the decoding radius. -/
theorem C20_decrypts_partial (order : BootstrapOrder) (hb : b.Valid) (hext : b.f = 1 ∨ 2 ≤ b.bc)
    (raw : List (BitVec w)) (hraw : raw.length = b.f * N)
    (err : ℕ → ℕ → Fin (k + 1) → Poly N (BitVec w)) (hF : ∀ i q, pabs (phase b.sk (err i q)) ≤ b.Fe)
    (old : ℕ → Poly N (BitVec w)) (buf out ct : ℕ → BitVec w) (F : ℕ → BitVec 64) (message : BitVec 64)
    (e : BitVec w)
    (hct : phase (lweKeyOf w (b.ctDim order) b.lk) (fun t => ct t) = encodeLWECustom message b.p b.s + e)
    (hcond : (b.inNoise order (wabs e) : ℚ) * (2 * (b.f * N : ℕ)) / 2 ^ w + b.window
      ≤ (b.f * N : ℕ) / (2 * b.p.toNat))
    (hout : (b.outNoise order : ℚ) + b.p.toNat + 2 ^ w / 2 ^ 50 < (b.s.toNat : ℚ) / 2) :
    ∃ res, b.run order raw err old buf out ct F = some res ∧
      decodeLWECustom (decryptLWEPhase (lweKeyOf w (b.ctDim order) b.lk) (fun t => res t)) b.p b.s
        = some ((((F ((message.setWidth w).toNat % b.p.toNat)).setWidth w).toNat % b.p.toNat : ℕ) : ℤ) := by
  have hp0 : 0 < b.p.toNat := by
    rcases Nat.eq_zero_or_pos b.p.toNat with h0 | h0
    · exact absurd (BitVec.eq_of_toNat_eq (by simpa using h0)) hb.p0
    · exact h0
  have henc : encodeLWECustom message b.p b.s
      = BitVec.ofNat w ((message.setWidth w).toNat % b.p.toNat * b.s.toNat) := by
    unfold encodeLWECustom
    simp only [hb.p0, ne_eq, not_false_eq_true, if_true]
    apply BitVec.eq_of_toNat_eq
    rw [BitVec.toNat_mul, BitVec.toNat_umod, BitVec.toNat_ofNat]
  rw [phase_lweKeyOf, henc] at hct
  obtain ⟨res, hres, h⟩ := C20_phase_partial b order hb hext raw hraw err hF old buf out ct F _
    (Nat.mod_lt _ hp0) e hct hcond
  refine ⟨res, hres, ?_⟩
  set x := F ((message.setWidth w).toNat % b.p.toNat)
  set d := binPhase (b.ctDim order) b.lk res - encodeLWECustom x b.p b.s with hd
  refine C05_decrypt_of_phase hb.w1 _ _ x b.p b.s hb.p0 hb.scale d.toInt ?_ ?_
  · rw [phase_lweKeyOf, BitVec.ofInt_toInt, hd]; ring
  · have e1 : |(d.toInt : ℚ)| = (wabs d : ℚ) := by unfold wabs; rw [Nat.cast_natAbs, Int.cast_abs]
    rw [e1]
    have : (wabs d : ℚ) ≤ b.outNoise order := by exact_mod_cast h
    linarith

/-- **C20 (tables of ring size).** No restriction on the number of blocks, and no loss in the window: the
full property for parameters with `LUTSize = PolyRank`. -/
theorem C20_decrypts (order : BootstrapOrder) (hb : b.Valid) (hf : b.f = 1)
    (raw : List (BitVec w)) (hraw : raw.length = b.f * N)
    (err : ℕ → ℕ → Fin (k + 1) → Poly N (BitVec w)) (hF : ∀ i q, pabs (phase b.sk (err i q)) ≤ b.Fe)
    (old : ℕ → Poly N (BitVec w)) (buf out ct : ℕ → BitVec w) (F : ℕ → BitVec 64) (message : BitVec 64)
    (e : BitVec w)
    (hct : phase (lweKeyOf w (b.ctDim order) b.lk) (fun t => ct t) = encodeLWECustom message b.p b.s + e)
    (hcond : (b.inNoise order (wabs e) : ℚ) * (2 * N) / 2 ^ w
        + (1 + weight (b.bs * b.bc) b.lk) * switchErr N
        + N * |(2 : ℚ) ^ w - 2 * b.p.toNat * b.s.toNat| / 2 ^ w + 1 ≤ N / (2 * b.p.toNat))
    (hout : (b.outNoise order : ℚ) + b.p.toNat + 2 ^ w / 2 ^ 50 < (b.s.toNat : ℚ) / 2) :
    ∃ res, b.run order raw err old buf out ct F = some res ∧
      decodeLWECustom (decryptLWEPhase (lweKeyOf w (b.ctDim order) b.lk) (fun t => res t)) b.p b.s
        = some ((((F ((message.setWidth w).toNat % b.p.toNat)).setWidth w).toNat % b.p.toNat : ℕ) : ℤ) := by
  refine C20_decrypts_partial b order hb (Or.inl hf) raw hraw err hF old buf out ct F message e hct ?_ hout
  unfold Boot.window extShift
  rw [hf, if_pos rfl, Nat.one_mul]
  push_cast
  linarith
end

/-! ### A concrete instance

64-bit words, degree 2048, rank 1, LWE dimension 600 in 200 blocks of 3 with one bit set each, modulus 4, noise of every key
element up to 2^10, Fourier errors up to 2^20; all masks and noises are arbitrary. -/

/-- The parameters of the instance; `N` is 2048 below. -/
def exBoot (N : ℕ) [NeZero N] (brMask : ℕ → Fin 2 → ℕ → Fin 1 → Poly N (BitVec 64))
    (ksMask : ℕ → ℕ → Fin (3 * 200) → BitVec 64)
    (brNoise : ℕ → Fin 2 → ℕ → Poly N (BitVec 64)) (ksNoise : ℕ → ℕ → BitVec 64) : Boot 64 N 1 where
  gbr := ⟨1024, 10, 4⟩
  gks := ⟨16, 4, 8⟩
  f := 1
  bs := 3
  bc := 200
  p := 4#64
  s := 0x2000000000000000#64
  lk := fun i => i % 3 == 1
  brMask := brMask
  brErr := 0
  brNoise := brNoise
  ksMask := ksMask
  ksNoise := ksNoise
  Bbr := 2 ^ 10
  Bks := 2 ^ 40
  Fe := 2 ^ 20

theorem exBoot_valid (N : ℕ) [NeZero N] (hN : N = 2048) (brMask ksMask brNoise ksNoise)
    (h1 : ∀ j i l, pabs (brNoise j i l) ≤ 2 ^ 10)
    (h2 : ∀ i j, wabs (ksNoise i j) ≤ 2 ^ 40) : (exBoot N brMask ksMask brNoise ksNoise).Valid where
  w1 := by norm_num
  gbr := show (⟨1024, 10, 4⟩ : GadgetParams 64).Valid by constructor <;> decide
  gks := show (⟨16, 4, 8⟩ : GadgetParams 64).Valid by constructor <;> decide
  f := Nat.one_pos
  bs := show 0 < 3 by norm_num
  bc := show 0 < 200 by norm_num
  dim := show 3 * 200 ≤ 1 * N by omega
  L := show 2 * (1 * N) ≤ 2 ^ 53 by omega
  p0 := show 4#64 ≠ 0 by decide
  pw := show 2 * 4 < 2 ^ 64 by norm_num
  p52 := show 4 ≤ 2 ^ 52 by norm_num
  pL := show 4 * (1 * N) ≤ 2 ^ 51 by omega
  scale := show compileScale 64 4 = some 0x2000000000000000 by decide +kernel
  key := by
    intro i _ j j' hj hj' h h'
    simp only [exBoot, beq_iff_eq] at *
    omega
  brNoise := fun j i l => by
    show pabs (brNoise j i l - ∑ t : Fin 1, (0 : Poly N (BitVec 64))) ≤ _
    rw [Finset.sum_const_zero, sub_zero]; exact h1 j i l
  ksNoise := fun i j _ => h2 i j

/-- With these parameters every ciphertext with noise up to 2^53 is bootstrapped correctly. -/
example (N : ℕ) [NeZero N] (hN : N = 2048) (brMask ksMask brNoise ksNoise)
    (h1 : ∀ j i l, pabs (brNoise j i l) ≤ 2 ^ 10)
    (h2 : ∀ i j, wabs (ksNoise i j) ≤ 2 ^ 40) (order : BootstrapOrder) (raw : List (BitVec 64))
    (hraw : raw.length = N) (old : ℕ → Poly N (BitVec 64)) (buf out mask : ℕ → BitVec 64)
    (F : ℕ → BitVec 64) (e : BitVec 64) (he : wabs e ≤ 2 ^ 53) :
    let b := exBoot N brMask ksMask brNoise ksNoise
    let ct := fun t => if t = 0 then encodeLWECustom 3 4#64 0x2000000000000000#64 + e
        - ∑ i ∈ Finset.range (b.ctDim order), (if b.lk i then mask i else 0) else mask (t - 1)
    ∃ res, b.run order raw (fun _ _ => 0) old buf out ct F = some res ∧
      decodeLWECustom (decryptLWEPhase (lweKeyOf 64 (b.ctDim order) b.lk) (fun t => res t)) 4#64 0x2000000000000000#64
        = some (((F 3).toNat % 4 : ℕ) : ℤ) := by
  intro b ct
  have hw : weight (3 * 200) (fun i => i % 3 == 1) = 200 := by decide +kernel
  have hNq : (N : ℚ) = 2048 := by exact_mod_cast hN
  have hks : b.ksOut ≤ 2 ^ 57 := by
    show ksBound (⟨16, 4, 8⟩ : GadgetParams 64) (1 * N - 3 * 200) (2 ^ 40) ≤ _
    rw [hN]
    decide +kernel
  have hbr : b.brOut ≤ 2 ^ 50 := by
    show 200 * (3 * (2 * ((2 ^ (64 - 4 * 10) / 2) * (1 + 1 * N) + (1 + 1) * (4 * (N * (1024 / 2 * 2 ^ 10))))) + 2 ^ 20) ≤ _
    rw [hN]
    norm_num
  have hin : b.inNoise order (wabs e) ≤ 2 ^ 53 + 2 ^ 57 := by
    cases order
    · exact Nat.add_le_add he hks
    · exact he.trans (by norm_num)
  have hon : b.outNoise order ≤ 2 ^ 50 + 2 ^ 57 := by
    cases order
    · exact hbr.trans (by norm_num)
    · exact Nat.add_le_add hbr hks
  refine C20_decrypts b order (exBoot_valid N hN _ _ _ _ h1 h2) rfl raw (hraw.trans (Nat.one_mul N).symm)
    (fun _ _ => 0) (fun i q => ?_) old buf out ct F 3 e ?_ ?_ ?_
  · have h0 : pabs (0 : Poly N (BitVec 64)) = 0 := (polyNorm N 64).zero
    show pabs (phase b.sk 0) ≤ _
    rw [phase_zero, h0]; exact Nat.zero_le _
  · rw [phase_lweKeyOf]
    unfold binPhase
    simp only [ct, if_true, Nat.add_sub_cancel, Nat.succ_ne_zero, if_false]
    exact sub_add_cancel _ _
  · have hin' : (b.inNoise order (wabs e) : ℚ) ≤ 2 ^ 53 + 2 ^ 57 := by exact_mod_cast hin
    show _ * (2 * (N : ℚ)) / 2 ^ 64 + (1 + (weight (3 * 200) (fun i => i % 3 == 1) : ℚ)) * switchErr N
      + (N : ℚ) * |(2 : ℚ) ^ 64 - 2 * ((4 : ℕ) : ℚ) * ((0x2000000000000000 : ℕ) : ℚ)| / 2 ^ 64 + 1 ≤ (N : ℚ) / (2 * ((4 : ℕ) : ℚ))
    rw [hw]
    unfold switchErr
    rw [hNq]
    norm_num
    linarith
  · have hon' : (b.outNoise order : ℚ) ≤ 2 ^ 50 + 2 ^ 57 := by exact_mod_cast hon
    show _ + ((4 : ℕ) : ℚ) + 2 ^ 64 / 2 ^ 50 < ((0x2000000000000000 : ℕ) : ℚ) / 2
    norm_num
    linarith
end Tfhe
