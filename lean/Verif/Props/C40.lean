import Verif.Model.ManyLut
import Verif.Props.C20
import Verif.Props.C23

/-!
# C40: many-LUT bootstrapping

`C40_lut` is for any table: output `i` is the entry of the table `i` places after the entry that the phase points
to.  The table of `GenLUT` has the values of the functions there if the windows of the messages and the half
window are multiples of the number of functions (`MlAligned`), which `Compile` does not check; `C40_misaligned` is
a case where it accepts the parameters and the outputs are those of other functions.
-/
namespace Tfhe
open Poly

/-! ### Modulus switching -/

/-- The exponent of a blind rotation with the modulus switch `sw`. -/
def rotExpSw {w : ℕ} (sw : BitVec w → ℕ) (n : ℕ) (key : ℕ → Bool) (ct : ℕ → BitVec w) : ℕ :=
  sw (ct 0) + ∑ i ∈ Finset.range n, if key i then sw (ct (i + 1)) else 0

theorem rotExpSw_add {w : ℕ} (sw : BitVec w → ℕ) (m bs : ℕ) (key : ℕ → Bool) (ct : ℕ → BitVec w) :
    rotExpSw sw (m + bs) key ct = rotExpSw sw m key ct +
      ∑ j ∈ Finset.range bs, if key (m + j) then sw (ct (m + j + 1)) else 0 := by
  unfold rotExpSw
  rw [Finset.sum_range_add, add_assoc]

/-- The phase after switching, for any switch with a bounded error. -/
theorem rotExpSw_phase (w L n : ℕ) (sw : BitVec w → ℕ) (η : ℚ)
    (hsw : ∀ x, ∃ q : ℤ, |((sw x : ℤ) + 2 * L * q : ℚ) - x.toNat * (2 * L) / 2 ^ w| ≤ η)
    (key : ℕ → Bool) (ct : ℕ → BitVec w) :
    ∃ q : ℤ, |((rotExpSw sw n key ct : ℤ) + 2 * L * q : ℚ) - (binPhase n key ct).toNat * (2 * L) / 2 ^ w|
      ≤ (1 + weight n key) * η := by
  have hw : (0:ℚ) < 2 ^ w := by positivity
  have hmul : ∀ z : ℤ, (2:ℚ) ^ w * z * (2 * L) / 2 ^ w = 2 * L * z := by
    intro z; field_simp
  induction n with
  | zero =>
    obtain ⟨q, h⟩ := hsw (ct 0)
    refine ⟨q, ?_⟩
    simpa [rotExpSw, binPhase, weight] using h
  | succ n ih =>
    obtain ⟨q, ih⟩ := ih
    by_cases hk : key n
    · obtain ⟨q2, h2⟩ := hsw (ct (n + 1))
      have e1 : rotExpSw sw (n + 1) key ct = rotExpSw sw n key ct + sw (ct (n + 1)) := by
        simp [rotExpSw, Finset.sum_range_succ, hk, add_assoc]
      have e2 : binPhase (n + 1) key ct = binPhase n key ct + ct (n + 1) := by
        simp [binPhase, Finset.sum_range_succ, hk, add_assoc]
      have e3 : weight (n + 1) key = weight n key + 1 := by
        unfold weight; rw [Finset.sum_range_succ]; simp only [hk]; rfl
      obtain ⟨z, hz⟩ : ∃ z : ℤ, ((binPhase n key ct + ct (n + 1)).toNat : ℚ) =
          (binPhase n key ct).toNat + (ct (n + 1)).toNat - 2 ^ w * z := by
        refine ⟨((((binPhase n key ct).toNat + (ct (n + 1)).toNat) / 2 ^ w : ℕ) : ℤ), ?_⟩
        rw [BitVec.toNat_add]
        have := Nat.mod_add_div ((binPhase n key ct).toNat + (ct (n + 1)).toNat) (2 ^ w)
        have h' : ((((binPhase n key ct).toNat + (ct (n + 1)).toNat) % 2 ^ w : ℕ) : ℚ)
            + 2 ^ w * ((((binPhase n key ct).toNat + (ct (n + 1)).toNat) / 2 ^ w : ℕ) : ℚ)
            = (binPhase n key ct).toNat + (ct (n + 1)).toNat := by exact_mod_cast this
        rw [Int.cast_natCast]
        linarith
      refine ⟨q + q2 - z, ?_⟩
      rw [e1, e2, e3, hz]
      have hz' := hmul z
      have key2 : (((rotExpSw sw n key ct + sw (ct (n + 1)) : ℕ) : ℤ) + 2 * L * ((q + q2 - z : ℤ) : ℚ) : ℚ)
          - ((binPhase n key ct).toNat + (ct (n + 1)).toNat - 2 ^ w * z) * (2 * L) / 2 ^ w
          = (((rotExpSw sw n key ct : ℤ) + 2 * L * q : ℚ) - (binPhase n key ct).toNat * (2 * L) / 2 ^ w)
          + (((sw (ct (n + 1)) : ℤ) + 2 * L * q2 : ℚ) - (ct (n + 1)).toNat * (2 * L) / 2 ^ w) := by
        push_cast
        rw [show ((binPhase n key ct).toNat + (ct (n + 1)).toNat - 2 ^ w * (z:ℚ)) * (2 * L) / 2 ^ w
          = (binPhase n key ct).toNat * (2 * L) / 2 ^ w + (ct (n + 1)).toNat * (2 * L) / 2 ^ w
            - 2 ^ w * z * (2 * L) / 2 ^ w by ring, hz']
        ring
      rw [key2]
      refine (abs_add_le _ _).trans ((add_le_add ih h2).trans ?_)
      push_cast; apply le_of_eq; ring
    · refine ⟨q, ?_⟩
      have e1 : rotExpSw sw (n + 1) key ct = rotExpSw sw n key ct := by
        simp [rotExpSw, Finset.sum_range_succ, hk]
      have e2 : binPhase (n + 1) key ct = binPhase n key ct := by
        simp [binPhase, Finset.sum_range_succ, hk]
      have e3 : weight (n + 1) key = weight n key := by
        unfold weight; rw [Finset.sum_range_succ]; simp only [hk]; rfl
      rw [e1, e2, e3]; exact ih

/-- **C40 (modulus switch).** The result is a multiple of the number of functions, at most `2N`, and at distance at
most half that number from `x * 2N / Q`: exact rounding to nearest, for all words. -/
theorem C40_modSwitch (w logN lc : ℕ) (hN : logN + 2 ≤ w) (hlc : lc ≤ logN) (x : BitVec w) :
    2 ^ lc ∣ mlSwitch w logN lc x ∧ mlSwitch w logN lc x ≤ 2 * 2 ^ logN ∧
      |(mlSwitch w logN lc x : ℚ) - x.toNat * (2 * 2 ^ logN) / 2 ^ w| ≤ 2 ^ lc / 2 := by
  obtain ⟨d, rfl⟩ : ∃ d, logN = lc + d := ⟨logN - lc, by omega⟩
  obtain ⟨r, rfl⟩ : ∃ r, w = lc + d + 2 + r := ⟨w - (lc + d + 2), by omega⟩
  set b := r + 1 + lc with hb
  have hbw : lc + d + 2 + r - (lc + d) - 1 + lc = b := by omega
  have hx := x.isLt
  set X := x.toNat with hX
  have e0 : (divRoundBits x b).toNat = (X + 2 ^ b / 2) / 2 ^ b := toNat_divRoundBits x b (by omega)
  set D := (X + 2 ^ b / 2) / 2 ^ b with hD
  have hpow : (2:ℕ) ^ (lc + d + 2 + r) = 2 ^ b * 2 ^ (d + 1) := by rw [← pow_add]; congr 1; omega
  have hb0 : 0 < 2 ^ b := by positivity
  have hhalf : 2 * (2 ^ b / 2) = 2 ^ b := by
    rw [hb, show r + 1 + lc = (r + lc) + 1 by omega, pow_succ, Nat.mul_div_cancel _ (by norm_num), mul_comm]
  have d1 : D * 2 ^ b ≤ X + 2 ^ b / 2 := Nat.div_mul_le_self _ _
  have d2 : X + 2 ^ b / 2 < (D + 1) * 2 ^ b := by
    rw [mul_comm]; exact Nat.lt_mul_div_succ _ hb0
  have hDle : D ≤ 2 ^ (d + 1) := by
    rw [hD]
    apply Nat.le_of_lt_succ
    rw [Nat.div_lt_iff_lt_mul hb0, Nat.succ_mul, mul_comm (2 ^ (d + 1))]
    omega
  have hle : D * 2 ^ lc ≤ 2 * 2 ^ (lc + d) := by
    calc D * 2 ^ lc ≤ 2 ^ (d + 1) * 2 ^ lc := Nat.mul_le_mul_right _ hDle
      _ = 2 * 2 ^ (lc + d) := by ring
  have e1 : mlSwitch (lc + d + 2 + r) (lc + d) lc x = D * 2 ^ lc := by
    unfold mlSwitch
    rw [hbw, BitVec.toNat_shiftLeft, e0, Nat.shiftLeft_eq]
    apply Nat.mod_eq_of_lt
    refine lt_of_le_of_lt hle ?_
    rw [← pow_succ']
    exact Nat.pow_lt_pow_right (by norm_num) (by omega)
  rw [e1]
  refine ⟨Dvd.intro_left _ rfl, hle, ?_⟩
  have e2 : (X : ℚ) * (2 * 2 ^ (lc + d)) / 2 ^ (lc + d + 2 + r) = X / 2 ^ b * 2 ^ lc := by
    have h2 : (2:ℚ) ^ (lc + d + 2 + r) = 2 ^ b * 2 ^ (d + 1) := by exact_mod_cast hpow
    rw [h2]
    field_simp
    ring
  rw [e2, Nat.cast_mul, Nat.cast_pow, Nat.cast_ofNat, ← sub_mul, abs_mul, abs_of_pos (by positivity : (0:ℚ) < 2 ^ lc)]
  have hb0' : (0:ℚ) < 2 ^ b := by positivity
  have f1 : (D : ℚ) * 2 ^ b * 2 ≤ 2 * X + 2 ^ b := by
    have : D * 2 ^ b * 2 ≤ 2 * X + 2 ^ b := by omega
    exact_mod_cast this
  have f2 : 2 * (X : ℚ) + 2 ^ b < 2 * ((D + 1) * 2 ^ b) := by
    have : 2 * X + 2 ^ b < 2 * ((D + 1) * 2 ^ b) := by omega
    exact_mod_cast this
  have : |(D : ℚ) - X / 2 ^ b| ≤ 1 / 2 := by
    have e3 : (D : ℚ) - X / 2 ^ b = (D * 2 ^ b - X) / 2 ^ b := by field_simp
    rw [e3, abs_div, abs_of_pos hb0', div_le_iff₀ hb0', abs_le]
    constructor <;> linarith
  calc |(D : ℚ) - X / 2 ^ b| * 2 ^ lc ≤ 1 / 2 * 2 ^ lc := mul_le_mul_of_nonneg_right this (by positivity)
    _ = 2 ^ lc / 2 := by ring

/-! ### Blind rotation -/

section
variable {w N k : ℕ} [NeZero N]

/-- The rotations with any modulus switch, blocks of any size. -/
theorem mlRotateBlock_phase (sw : BitVec w → ℕ) (G : Gadget (Poly N (BitVec w))) {D E : ℕ}
    (hG : G.Bounded (polyNorm N w) D E)
    (hG0 : ∀ j, j < G.level → G.dec 0 j = 0) (sk : Fin k → Poly N (BitVec w)) (S B Fe bs bc : ℕ)
    (hbs : 0 < bs) (hbc : 0 < bc) (key : ℕ → Bool) (hkey : ∀ i, i < bc → AtMostOne key (i * bs) bs)
    (brk : ℕ → Fin (k + 1) → ℕ → Fin (k + 1) → Poly N (BitVec w)) (hbrk : IsBRK G sk (bs * bc) B key brk)
    (hS : ∀ i x, pabs (x * sk i) ≤ S * pabs x) (err : ℕ → Fin (k + 1) → Poly N (BitVec w))
    (hF : ∀ i, pabs (phase sk (err i)) ≤ Fe) (ct : ℕ → BitVec w) (lut : Poly N (BitVec w)) :
    pabs (phase sk (mlRotateBlock sw G bs bc brk err ct lut)
        - mono N (BitVec w) (-(rotExpSw sw (bs * bc) key ct : ℤ)) * lut)
      ≤ bc * (bs * (2 * brStep N k G D E S B) + Fe) := by
  set a : ℕ → ℕ := fun j => sw (ct (j + 1)) with ha
  set acc0 := accInit k lut (sw (ct 0)) with hacc0
  set acc1 := invFFTAdd acc0 (fun t => ∑ j ∈ Finset.range bs, monoSubOne N w (-(a (0 + j) : ℤ)) *
          extProd G.level (brk (0 + j)) (fun t => G.dec (acc0 t)) t) (err 0) with hacc1
  set step : (Fin (k + 1) → Poly N (BitVec w)) → ℕ → (Fin (k + 1) → Poly N (BitVec w)) := fun acc i =>
    invFFTAdd acc (fun t => ∑ j ∈ Finset.range bs, monoSubOne N w (-(a (i * bs + j) : ℤ)) *
          extProd G.level (brk (i * bs + j)) (fun t => G.dec (acc t)) t) (err i) with hstep
  have hrw : mlRotateBlock sw G bs bc brk err ct lut = (List.range' 1 (bc - 1)).foldl step acc1 := by
    unfold mlRotateBlock
    have h0 : ∀ j, gadgetProd G.level (brk j 0) (G.dec (acc0 0))
        = extProd G.level (brk j) (fun t => G.dec (acc0 t)) := fun j =>
      gadgetProd_eq_extProd G hG.level_pos hG0 (brk j) acc0 (fun i => rfl)
    simp only [← hacc0]
    simp only [h0]
    congr 1
    · funext acc i
      rw [hstep]
      have := foldl_block bs (i * bs) hbs (fun j => monoSubOne N w (-(sw (ct (j + 1)) : ℤ)))
        (fun j => extProd G.level (brk j) (fun t => G.dec (acc t)))
      beta_reduce at this ⊢
      rw [this]
    · rw [hacc1]
      have := foldl_block bs 0 hbs (fun j => monoSubOne N w (-(sw (ct (j + 1)) : ℤ)))
        (fun j => extProd G.level (brk j) (fun t => G.dec (acc0 t)))
      beta_reduce at this ⊢
      rw [zero_add] at this
      rw [this]
  rw [hrw]
  have hle : ∀ i, i < bc → i * bs + bs ≤ bs * bc := by
    intro i hi
    have := Nat.mul_le_mul_right bs hi
    calc i * bs + bs = (i + 1) * bs := by ring
      _ ≤ bc * bs := this
      _ = bs * bc := by ring
  have key1 : ∀ m, m < bc → pabs (phase sk ((List.range' 1 m).foldl step acc1)
        - mono N (BitVec w) (-(rotExpSw sw ((m + 1) * bs) key ct : ℤ)) * lut)
      ≤ (m + 1) * (bs * (2 * brStep N k G D E S B) + Fe) := by
    intro m
    induction m with
    | zero =>
      intro hm
      obtain ⟨r, e, hr⟩ := block_step G hG sk S B (bs * bc) Fe key brk hbrk hS acc0 (err 0) (hF 0) a 0 bs
        (by have := hle 0 hm; omega) (by have := hkey 0 hm; rwa [zero_mul] at this)
      have hb : pabs (phase sk acc0 - mono N (BitVec w) (-((sw (ct 0) : ℕ) : ℤ)) * lut) ≤ 0 := by
        rw [hacc0, phase_accInit, sub_self]; exact ((polyNorm N w).zero).le
      have := rotate_step (phase sk acc0) (phase sk acc1) lut r _ _ 0 _ hb e hr
      simp only [List.range'_zero, List.foldl_nil]
      have hexp : (rotExpSw sw ((0 + 1) * bs) key ct : ℤ) = (sw (ct 0) : ℤ)
          + ((∑ j ∈ Finset.range bs, if key (0 + j) then a (0 + j) else 0 : ℕ) : ℤ) := by
        unfold rotExpSw; rw [Nat.zero_add, one_mul, Nat.cast_add]; simp only [Nat.zero_add, ha]
      rw [hexp]
      exact this.trans (by omega)
    | succ m ih =>
      intro hm
      have ih' := ih (by omega)
      rw [List.range'_concat, List.foldl_append, List.foldl_cons, List.foldl_nil]
      set acc := (List.range' 1 m).foldl step acc1
      obtain ⟨r, e, hr⟩ := block_step G hG sk S B (bs * bc) Fe key brk hbrk hS acc (err (1 + 1 * m)) (hF _) a
        ((1 + 1 * m) * bs) bs (hle _ (by omega)) (hkey _ (by omega))
      have := rotate_step (phase sk acc) (phase sk (step acc (1 + 1 * m))) lut r _ _ _ _ ih' e hr
      have hexp : (rotExpSw sw ((m + 1 + 1) * bs) key ct : ℤ) = (rotExpSw sw ((m + 1) * bs) key ct : ℤ)
          + ((∑ j ∈ Finset.range bs, if key ((1 + 1 * m) * bs + j) then a ((1 + 1 * m) * bs + j) else 0 : ℕ) : ℤ) := by
        rw [show (m + 1 + 1) * bs = (m + 1) * bs + bs by ring, rotExpSw_add, Nat.cast_add]
        rw [show 1 + 1 * m = m + 1 by omega]
      rw [hexp]
      refine this.trans (le_of_eq ?_)
      ring
  have := key1 (bc - 1) (by omega)
  rw [show bc - 1 + 1 = bc by omega, mul_comm bc bs] at this
  exact this

theorem mlOriginal_eq_block (sw : BitVec w → ℕ) (G : Gadget (Poly N (BitVec w))) (n : ℕ)
    (brk : ℕ → Fin (k + 1) → ℕ → Fin (k + 1) → Poly N (BitVec w)) (err : ℕ → Fin (k + 1) → Poly N (BitVec w))
    (ct : ℕ → BitVec w) (lut : Poly N (BitVec w)) :
    mlRotateOriginal sw G n brk err ct lut = mlRotateBlock sw G 1 n brk err ct lut := by
  unfold mlRotateOriginal mlRotateBlock
  simp

/-- **C40 (blind rotation).** Both algorithms rotate the table by the switched phase, up to bounded noise. -/
theorem C40_rotate (logN lc : ℕ) (G : Gadget (Poly N (BitVec w))) {D E : ℕ}
    (hG : G.Bounded (polyNorm N w) D E)
    (hG0 : ∀ j, j < G.level → G.dec 0 j = 0) (sk : Fin k → Poly N (BitVec w)) (S B Fe bs bc : ℕ)
    (hbs : 0 < bs) (hbc : 0 < bc) (key : ℕ → Bool) (hkey : ∀ i, i < bc → AtMostOne key (i * bs) bs)
    (brk : ℕ → Fin (k + 1) → ℕ → Fin (k + 1) → Poly N (BitVec w)) (hbrk : IsBRK G sk (bs * bc) B key brk)
    (hS : ∀ i x, pabs (x * sk i) ≤ S * pabs x) (err : ℕ → Fin (k + 1) → Poly N (BitVec w))
    (hF : ∀ i, pabs (phase sk (err i)) ≤ Fe) (ct : ℕ → BitVec w) (lut : Poly N (BitVec w)) :
    pabs (phase sk (mlRotate logN lc G bs bc brk err ct lut)
        - mono N (BitVec w) (-(rotExpSw (mlSwitch w logN lc) (bs * bc) key ct : ℤ)) * lut)
      ≤ bc * (bs * (2 * brStep N k G D E S B) + Fe) := by
  unfold mlRotate
  split
  · exact mlRotateBlock_phase _ G hG hG0 sk S B Fe bs bc hbs hbc key hkey brk hbrk hS err hF ct lut
  · rename_i h
    obtain rfl : bs = 1 := by omega
    rw [mlOriginal_eq_block, one_mul]
    have := mlRotateBlock_phase (mlSwitch w logN lc) G hG hG0 sk S B Fe 1 bc hbs hbc key hkey brk hbrk hS err hF ct lut
    rwa [one_mul] at this

/-- Extraction of any coefficient, for the keys that bootstrapping uses. -/
theorem extract_binPhase_at (lk : ℕ → Bool) (ct : Fin (k + 1) → Poly N (BitVec w)) (i : Fin N) (out : ℕ → BitVec w) :
    binPhase (k * N) lk (asLWECiphertext ct i out) = phase (glweKeyOf w N k lk) ct i := by
  have h := C10_extract ct (glweKeyOf w N k lk) i out (fun t => kbit w (lk t))
  have hk : (fun t : Fin (k * N) => asLWEKey (glweKeyOf w N k lk) (fun t => kbit w (lk t)) t) = lweKeyOf w (k * N) lk := by
    funext t
    have hN := NeZero.pos N
    have hd : t.1 / N < k := Nat.div_lt_of_lt_mul (lt_of_lt_of_eq t.2 (mul_comm k N))
    have := (asLWEKey_spec (glweKeyOf w N k lk) (fun t => kbit w (lk t))).1 ⟨t.1 / N, hd⟩ ⟨t.1 % N, Nat.mod_lt _ hN⟩
    simp only at this
    rw [mul_comm, Nat.div_add_mod] at this
    rw [this]
    show kbit w (lk (t.1 / N * N + t.1 % N)) = kbit w (lk t.1)
    rw [mul_comm, Nat.div_add_mod]
  rw [hk, phase_lweKeyOf] at h
  exact h

/-! ### The loops over the outputs -/

omit [NeZero N] in
theorem mlExtract_spec (rot : Fin (k + 1) → Poly N (BitVec w)) (c : ℕ) (hc : c ≤ N) (outs : List (ℕ → BitVec w))
    (ho : c ≤ outs.length) :
    ∃ res, mlExtract rot c outs = some res ∧ res.length = outs.length ∧
      (∀ i (h : i < N), i < c → ∃ old, res[i]? = some (asLWECiphertext rot ⟨i, h⟩ old)) ∧
      ∀ i, c ≤ i → res[i]? = outs[i]? := by
  unfold mlExtract
  induction c with
  | zero => exact ⟨outs, rfl, rfl, fun _ _ h => absurd h (by omega), fun _ _ => rfl⟩
  | succ c ih =>
    obtain ⟨res, e, l, g, o⟩ := ih (by omega) (by omega)
    rw [List.range_succ, List.foldlM_append, e]
    have hcN : c < N := by omega
    have hcl : c < res.length := by omega
    refine ⟨res.set c (asLWECiphertext rot ⟨c, hcN⟩ res[c]), ?_, by simpa using l, ?_, ?_⟩
    · simp only [Option.bind_eq_bind, Option.bind_some, List.foldlM_cons, List.foldlM_nil, dif_pos hcN, dif_pos hcl]
      rfl
    · intro i h hi
      rcases Nat.lt_succ_iff_lt_or_eq.1 hi with h' | rfl
      · obtain ⟨old, ho⟩ := g i h h'
        exact ⟨old, by rw [List.getElem?_set_ne (by omega), ho]⟩
      · exact ⟨_, by rw [List.getElem?_set_self hcl]⟩
    · intro i hi
      rw [List.getElem?_set_ne (by omega), o i (by omega)]

omit [NeZero N] in
theorem mlExtractSwitch_spec (Gks : Gadget (BitVec w)) (n : ℕ) (ksk : ℕ → ℕ → Fin (n + 1) → BitVec w)
    (rot : Fin (k + 1) → Poly N (BitVec w)) (c : ℕ) (hc : c ≤ N) (buf : ℕ → BitVec w) (outs : List (ℕ → BitVec w))
    (ho : c ≤ outs.length) :
    ∃ st, mlExtractSwitch Gks n ksk rot c (buf, outs) = some st ∧ st.2.length = outs.length ∧
      (∀ i (h : i < N), i < c → ∃ old, st.2[i]? =
        some (ext0 (defaultKeySwitch Gks n (k * N) ksk (asLWECiphertext rot ⟨i, h⟩ old)))) ∧
      ∀ i, c ≤ i → st.2[i]? = outs[i]? := by
  unfold mlExtractSwitch
  induction c with
  | zero => exact ⟨(buf, outs), rfl, rfl, fun _ _ h => absurd h (by omega), fun _ _ => rfl⟩
  | succ c ih =>
    obtain ⟨st, e, l, g, o⟩ := ih (by omega) (by omega)
    rw [List.range_succ, List.foldlM_append, e]
    have hcN : c < N := by omega
    have hcl : c < st.2.length := by omega
    refine ⟨(asLWECiphertext rot ⟨c, hcN⟩ st.1, st.2.set c (ext0 (defaultKeySwitch Gks n (k * N) ksk
      (asLWECiphertext rot ⟨c, hcN⟩ st.1)))), ?_, by simpa using l, ?_, ?_⟩
    · simp only [Option.bind_eq_bind, Option.bind_some, List.foldlM_cons, List.foldlM_nil, dif_pos hcN, if_pos hcl]
      rfl
    · intro i h hi
      rcases Nat.lt_succ_iff_lt_or_eq.1 hi with h' | rfl
      · obtain ⟨old, ho⟩ := g i h h'
        exact ⟨old, by rw [List.getElem?_set_ne (by omega), ho]⟩
      · exact ⟨_, by rw [List.getElem?_set_self hcl]⟩
    · intro i hi
      rw [List.getElem?_set_ne (by omega), o i (by omega)]
end

/-! ### Tables -/

theorem mlWrite_spec {R : Type} (c : ℕ) (y : ℕ → R) (xx : ℕ) (raw : List R) (h : xx + c ≤ raw.length) :
    ∃ out, mlWrite c y xx raw = some out ∧ out.length = raw.length ∧
      ∀ t, out[t]? = if xx ≤ t ∧ t < xx + c then some (y (t - xx)) else raw[t]? := by
  unfold mlWrite
  induction c with
  | zero => exact ⟨raw, rfl, rfl, fun t => by rw [if_neg (by omega)]⟩
  | succ c ih =>
    obtain ⟨out, e, l, g⟩ := ih (by omega)
    rw [List.range_succ, List.foldlM_append, e]
    refine ⟨out.set (xx + c) (y c), ?_, by simpa using l, fun t => ?_⟩
    · simp only [Option.bind_eq_bind, Option.bind_some, List.foldlM_cons, List.foldlM_nil,
        if_pos (by omega : xx + c < out.length)]
      rfl
    · rw [List.getElem?_set, g t]
      by_cases h1 : xx + c = t
      · rw [if_pos h1, if_pos (by omega), if_pos (by omega), show t - xx = c by omega]
      · rw [if_neg h1]
        by_cases h2 : xx ≤ t ∧ t < xx + c
        · rw [if_pos h2, if_pos (by omega)]
        · rw [if_neg h2, if_neg (by omega)]

theorem mlFill_spec {R : Type} (c n : ℕ) (hc : 0 < c) (y : ℕ → R) (start : ℕ) (raw : List R)
    (h : start + n * c ≤ raw.length) :
    ∃ out, mlFill c y start (start + n * c) raw = some out ∧ out.length = raw.length ∧
      ∀ t, out[t]? = if start ≤ t ∧ t < start + n * c then some (y ((t - start) % c)) else raw[t]? := by
  have hn : (start + n * c - start + (c - 1)) / c = n := by
    rw [Nat.add_sub_cancel_left, mul_comm, Nat.mul_add_div hc, Nat.div_eq_of_lt (by omega), add_zero]
  unfold mlFill
  rw [hn]
  clear hn
  induction n with
  | zero => exact ⟨raw, rfl, rfl, fun t => by rw [if_neg (by omega)]⟩
  | succ n ih =>
    have hs : (n + 1) * c = n * c + c := by ring
    obtain ⟨out, e, l, g⟩ := ih (by omega)
    obtain ⟨out', e', l', g'⟩ := mlWrite_spec c y (start + n * c) out (by omega)
    rw [List.range_succ, List.foldlM_append, e]
    refine ⟨out', ?_, by omega, fun t => ?_⟩
    · simp only [Option.bind_eq_bind, Option.bind_some, List.foldlM_cons, List.foldlM_nil, e']
      rfl
    · rw [g' t, g t]
      by_cases h1 : start + n * c ≤ t ∧ t < start + n * c + c
      · rw [if_pos h1, if_pos (by omega)]
        congr 2
        rw [show t - start = (t - (start + n * c)) + c * n by rw [mul_comm c n]; omega, Nat.add_mul_mod_self_left,
          Nat.mod_eq_of_lt (by omega)]
      · rw [if_neg h1]
        by_cases h2 : start ≤ t ∧ t < start + n * c
        · rw [if_pos h2, if_pos (by omega)]
        · rw [if_neg h2, if_neg (by omega)]

/-- The windows of all messages and the half window are multiples of the number of functions. -/
def MlAligned (N p c : ℕ) : Prop := (∀ x, x ≤ p → c ∣ winStart N p x) ∧ c ∣ (N + p) / (2 * p)

/-- Tables are aligned when `2 p c` divides the table size, and for one function always. -/
theorem mlAligned_of_dvd (N p c : ℕ) (hp : 0 < p) (h : 2 * p * c ∣ N ∨ c = 1) : MlAligned N p c := by
  rcases h with ⟨u, rfl⟩ | rfl
  · refine ⟨fun x _ => ⟨2 * u * x, ?_⟩, ⟨u, ?_⟩⟩
    · unfold winStart
      rw [show 2 * (x * (2 * p * c * u)) + p = p + 2 * p * (c * (2 * u * x)) by ring,
        Nat.add_mul_div_left _ _ (by omega), Nat.div_eq_of_lt (by omega), zero_add]
    · rw [show 2 * p * c * u + p = p + 2 * p * (c * u) by ring,
        Nat.add_mul_div_left _ _ (by omega), Nat.div_eq_of_lt (by omega), zero_add]
  · exact ⟨fun _ _ => one_dvd _, one_dvd _⟩

theorem mlMessages_spec {R : Type} [Zero R] (N p c : ℕ) (hc : 0 < c) (hp : 0 < p) (hpL : p * N ≤ 2 ^ 51) (hp2 : p ≤ 2 ^ 53)
    (hal : ∀ x, x ≤ p → c ∣ winStart N p x)
    (fs : List (ℕ → R)) (raw : List R) (hr : raw.length = N) (m : ℕ) (hm : m ≤ p) :
    ∃ out, (List.range m).foldlM (mlMessage N p c fs) raw = some out ∧ out.length = N ∧
      ∀ x, x < m → ∀ t, winStart N p x ≤ t → t < winStart N p (x + 1) → out[t]? = some (mlValues fs x (t % c)) := by
  induction m with
  | zero => exact ⟨raw, rfl, hr, fun x hx => absurd hx (by omega)⟩
  | succ m ih =>
    obtain ⟨out, e, l, g⟩ := ih (by omega)
    have b1 : m * N ≤ 2 ^ 51 := (Nat.mul_le_mul_right N (by omega : m ≤ p)).trans hpL
    have b2 : (m + 1) * N ≤ 2 ^ 51 := (Nat.mul_le_mul_right N hm).trans hpL
    have hmono := winStart_mono N p (by omega : m ≤ m + 1)
    have hle : winStart N p (m + 1) ≤ N := by
      have := winStart_mono N p hm
      rwa [winStart_p N p hp] at this
    obtain ⟨u, hu⟩ := hal m (by omega)
    obtain ⟨v, hv⟩ := hal (m + 1) hm
    have huv : u ≤ v := by
      rw [hu, hv] at hmono
      exact Nat.le_of_mul_le_mul_left hmono hc
    have hsub : winStart N p (m + 1) = winStart N p m + (v - u) * c := by
      rw [hu, hv, mul_comm (v - u), ← mul_add]
      congr 1; omega
    obtain ⟨out', e', l', g'⟩ := mlFill_spec c (v - u) hc (mlValues fs m) (winStart N p m) out (by omega)
    rw [← hsub] at e' g'
    refine ⟨out', ?_, by omega, ?_⟩
    · rw [List.range_succ, List.foldlM_append, e]
      show (mlMessage N p c fs out m).bind _ = _
      unfold mlMessage
      rw [divRoundInt_eq _ _ hp hp2 b1, divRoundInt_eq _ _ hp hp2 b2]
      simp only [Option.bind_some]
      rw [show (2 * (m * N) + p) / (2 * p) = winStart N p m from rfl,
        show (2 * ((m + 1) * N) + p) / (2 * p) = winStart N p (m + 1) from rfl, e']
      rfl
    · intro x hx t h1 h2
      rw [g' t]
      rcases Nat.lt_succ_iff_lt_or_eq.1 hx with h | h
      · have := winStart_mono N p (by omega : x + 1 ≤ m)
        rw [if_neg (by omega)]; exact g x h t h1 h2
      · subst h
        rw [if_pos (by omega)]
        congr 2
        have : t = (t - winStart N p x) + c * u := by omega
        conv_rhs => rw [this, Nat.add_mul_mod_self_left]

/-- **C40 (tables).** With aligned windows generation succeeds, and the table has the value `f_i(x)` at `z + i` whenever
`z` is a multiple of the number of functions and `z` plus half a window falls into the window of `x`. -/
theorem C40_genLUT_partial {R : Type} [AddCommGroup R] (w N p c : ℕ) [NeZero N] (hc : 0 < c) (fs : List (ℕ → R))
    (hfs : fs.length ≤ c) (raw : List R) (hr : raw.length = N) (hp : 0 < p) (hpw : 2 * p < 2 ^ w) (hp2 : p ≤ 2 ^ 52)
    (hpL : p * N ≤ 2 ^ 51) (hal : MlAligned N p c) :
    ∃ V : Poly N R, mlGenLUTFull w N p c fs raw = some V ∧
      ∀ x, x < p → ∀ z : ℤ, (c : ℤ) ∣ z → ∀ i : ℕ, i < c →
        (winStart N p x : ℤ) ≤ z + ((N + p) / (2 * p) : ℕ) →
        z + ((N + p) / (2 * p) : ℕ) < winStart N p (x + 1) →
        at' V (z + i) = mlValues fs x i := by
  have hN0 : 0 < N := NeZero.pos N
  have hNb : N ≤ 2 ^ 51 := (Nat.le_mul_of_pos_left N hp).trans hpL
  obtain ⟨hal1, hal2⟩ := hal
  obtain ⟨r1, e1, l1, g1⟩ := mlMessages_spec N p c hc hp hpL (by omega) hal1 fs raw hr p le_rfl
  set O := (N + p) / (2 * p) with hO
  have hON : O ≤ N := by
    rw [hO]; apply Nat.div_le_of_le_mul
    have : p ≤ p * N := Nat.le_mul_of_pos_right p hN0
    have : N ≤ p * N := Nat.le_mul_of_pos_left N hp
    nlinarith
  have e2 : divRoundInt N (2 * p % 2 ^ w) = some O := by
    rw [Nat.mod_eq_of_lt hpw, divRoundInt_eq _ _ (by omega) (by omega) hNb, hO]
    congr 1
    rw [show 2 * N + 2 * p = 2 * (N + p) by ring, Nat.mul_div_mul_left _ _ (by norm_num)]
  clear_value O
  obtain ⟨r2, e3, l2, g2⟩ := C44_rotateInPlace r1 (by intro h; rw [h] at l1; simp at l1; omega) (by omega)
    (-(O : ℤ)) (by omega)
  rw [l1] at l2 g2
  obtain ⟨r3, e4, l3, g3⟩ := negLoop_get O (N - O) r2 (by omega)
  have l3' : r3.length = N := by omega
  have hgen : mlGenRaw w N p c fs raw = some r3 := by
    unfold mlGenRaw
    rw [if_neg (by omega), e1, Option.bind_some, e2, Option.bind_some, e3, Option.bind_some]
    have : ((N : ℤ) - (O : ℤ)) = ((N - O : ℕ) : ℤ) := by omega
    rw [this, e4]
  refine ⟨fun j => r3[j.1]'(by rw [l3']; exact j.2), ?_, ?_⟩
  · unfold mlGenLUTFull mlPoly
    rw [hgen, Option.bind_some, dif_pos l3']
  set V : Poly N R := fun j => r3[j.1]'(by rw [l3']; exact j.2) with hV
  have hVat : ∀ t (ht : t < N), r3[t]? = some (V ⟨t, ht⟩) := fun t ht => by
    rw [List.getElem?_eq_getElem (by omega)]
  intro x hx z hz i hi h1 h2
  obtain ⟨u0, hu0⟩ := Int.eq_ofNat_of_zero_le (le_trans (by positivity) h1)
  have hu0' : (c : ℤ) ∣ (u0 : ℤ) := by
    have h0 : (u0 : ℤ) = z + O := by omega
    rw [h0]
    exact dvd_add hz (by exact_mod_cast hal2)
  have hu0c : c ∣ u0 := by exact_mod_cast hu0'
  have hi2 : u0 + i < winStart N p (x + 1) := by
    obtain ⟨a, ha⟩ := hu0c
    obtain ⟨b, hb⟩ := hal1 (x + 1) (by omega)
    have : c * a < c * b := by rw [← ha, ← hb]; omega
    have hab : a + 1 ≤ b := Nat.lt_of_mul_lt_mul_left this
    have := Nat.mul_le_mul_left c hab
    rw [mul_add, mul_one] at this
    omega
  have hmod : (u0 + i) % c = i := by
    obtain ⟨a, ha⟩ := hu0c
    rw [ha, add_comm, Nat.add_mul_mod_self_left, Nat.mod_eq_of_lt hi]
  set u := u0 + i with hu
  have huN : u < N := by
    have := winStart_mono N p (by omega : x + 1 ≤ p)
    rw [winStart_p N p hp] at this; omega
  have hr1 := g1 x hx u (by omega) hi2
  rw [hmod] at hr1
  have g := g2 u huN
  rcases le_or_gt O u with h | h
  · have e5 : r3[u - O]? = some (mlValues fs x i) := by
      rw [g3, if_neg (by omega)]
      rw [show ((u : ℤ) + -(O : ℤ)) = ((u - O : ℕ) : ℤ) by omega,
        Int.emod_eq_of_lt (by omega) (by omega), Int.toNat_natCast] at g
      rw [g, hr1]
    rw [hVat (u - O) (by omega)] at e5
    rw [show z + i = ((u - O : ℕ) : ℤ) by omega, Poly.at_natCast _ _ (by omega)]
    exact Option.some.inj e5
  · have e5 : r3[u + N - O]? = some (-mlValues fs x i) := by
      rw [g3, if_pos (by omega)]
      rw [show ((u : ℤ) + -(O : ℤ)) = ((u + N - O : ℕ) : ℤ) - N by omega, Int.sub_emod_right,
        Int.emod_eq_of_lt (by omega) (by omega), Int.toNat_natCast] at g
      rw [g, hr1]; rfl
    rw [hVat (u + N - O) (by omega)] at e5
    rw [show z + i = ((u + N - O : ℕ) : ℤ) - (N : ℕ) by omega, Poly.at_sub_N,
      Poly.at_natCast _ _ (by omega), Option.some.inj e5, neg_neg]

/-- Too many functions: panic. -/
theorem C40_too_many {R : Type} [Zero R] [Neg R] (w N p c : ℕ) (fs : List (ℕ → R)) (raw : List R) (h : c < fs.length) :
    mlGenLUTFull w N p c fs raw = none := by
  unfold mlGenLUTFull mlGenRaw
  rw [if_pos h]; rfl

/-! ### Bootstrapping -/

section
variable {w N k : ℕ} [NeZero N] (b : Boot w N k)

/-- The ciphertext that is blind rotated. -/
def Boot.brInput (order : BootstrapOrder) (ct : ℕ → BitVec w) : ℕ → BitVec w :=
  match order with
  | .ksBr => ext0 (defaultKeySwitch (scalarGadget b.gks) (b.bs * b.bc) (k * N) b.ksk ct)
  | .brKs => ct

/-- `BootstrapLUTTo` with these parameters and keys. -/
def Boot.mlRun (order : BootstrapOrder) (logN lc : ℕ) (err : ℕ → Fin (k + 1) → Poly N (BitVec w))
    (buf : ℕ → BitVec w) (outs : List (ℕ → BitVec w)) (ct : ℕ → BitVec w) (lut : Poly N (BitVec w)) :
    Option (List (ℕ → BitVec w)) :=
  mlBootstrapLUT order logN lc (polyGadget N b.gbr) (scalarGadget b.gks) b.bs b.bc b.brk b.ksk err buf outs ct lut

/-- `BootstrapFuncTo` with these parameters and keys. -/
def Boot.mlRunFunc (order : BootstrapOrder) (logN lc : ℕ) (raw : List (BitVec w))
    (err : ℕ → Fin (k + 1) → Poly N (BitVec w)) (buf : ℕ → BitVec w) (outs : List (ℕ → BitVec w)) (ct : ℕ → BitVec w)
    (fs : List (ℕ → BitVec 64)) : Option (List (ℕ → BitVec w)) :=
  mlBootstrapFunc order logN lc (polyGadget N b.gbr) (scalarGadget b.gks) b.bs b.bc b.brk b.ksk b.p b.s raw err buf
    outs ct fs

/-- The coefficients of the rotated table. -/
theorem Boot.ml_rot (hb : b.KeyValid) (logN lc : ℕ) (err : ℕ → Fin (k + 1) → Poly N (BitVec w))
    (hF : ∀ i, pabs (phase b.sk (err i)) ≤ b.Fe) (lut : Poly N (BitVec w)) (ct : ℕ → BitVec w) (i : ℕ) (h : i < N) :
    wabs (phase b.sk (mlRotate logN lc (polyGadget N b.gbr) b.bs b.bc b.brk err ct lut) ⟨i, h⟩
      - at' lut (rotExpSw (mlSwitch w logN lc) (b.bs * b.bc) b.lk ct + i)) ≤ b.brOut := by
  have := C40_rotate logN lc (polyGadget N b.gbr) (polyGadget_bounded b.gbr hb.gbr)
    (fun j _ => polyGadget_zero N b.gbr j) b.sk N b.Bbr b.Fe b.bs b.bc hb.bs hb.bc b.lk hb.key b.brk
    (isBRK_gen b.gbr b.sk _ b.Bbr b.lk b.brMask b.brErr b.brNoise hb.brNoise) (glweKeyOf_mul b.lk) err hF ct lut
  refine le_trans ?_ this
  have h2 := wabs_at_le (phase b.sk (mlRotate logN lc (polyGadget N b.gbr) b.bs b.bc b.brk err ct lut)
    - mono N (BitVec w) (-(rotExpSw (mlSwitch w logN lc) (b.bs * b.bc) b.lk ct : ℤ)) * lut) (i : ℤ)
  rw [at_sub, at_mono_mul, sub_neg_eq_add, at_natCast _ _ h, add_comm (i : ℤ)] at h2
  exact h2

/-- **C40 (any table).** Output `i` is an encryption of the table entry `i` places after the one that the switched
phase points to, with noise at most `outNoise`; other outputs are left alone.  Any table, both orders. -/
theorem C40_lut (order : BootstrapOrder) (hb : b.KeyValid) (logN lc : ℕ) (hc : 2 ^ lc ≤ N)
    (err : ℕ → Fin (k + 1) → Poly N (BitVec w)) (hF : ∀ i, pabs (phase b.sk (err i)) ≤ b.Fe)
    (buf : ℕ → BitVec w) (outs : List (ℕ → BitVec w)) (ho : 2 ^ lc ≤ outs.length) (ct : ℕ → BitVec w)
    (lut : Poly N (BitVec w)) :
    ∃ res, b.mlRun order logN lc err buf outs ct lut = some res ∧ res.length = outs.length ∧
      (∀ i, 2 ^ lc ≤ i → res[i]? = outs[i]?) ∧
      ∀ i : ℕ, i < 2 ^ lc → ∃ r, res[i]? = some r ∧ wabs (binPhase (b.ctDim order) b.lk r
        - at' lut (rotExpSw (mlSwitch w logN lc) (b.bs * b.bc) b.lk (b.brInput order ct) + i)) ≤ b.outNoise order := by
  have hrot := b.ml_rot hb logN lc err hF lut
  cases order with
  | ksBr =>
    obtain ⟨res, e, l, g, o⟩ := mlExtract_spec (mlRotate logN lc (polyGadget N b.gbr) b.bs b.bc b.brk err
      (b.brInput .ksBr ct) lut) (2 ^ lc) hc outs ho
    refine ⟨res, e, l, o, fun i hi => ?_⟩
    obtain ⟨old, h⟩ := g i (by omega) hi
    refine ⟨_, h, ?_⟩
    show wabs (binPhase (k * N) b.lk _ - _) ≤ b.brOut
    rw [extract_binPhase_at]
    exact hrot _ i _
  | brKs =>
    obtain ⟨st, e, l, g, o⟩ := mlExtractSwitch_spec (scalarGadget b.gks) (b.bs * b.bc) b.ksk
      (mlRotate logN lc (polyGadget N b.gbr) b.bs b.bc b.brk err ct lut) (2 ^ lc) hc buf outs ho
    refine ⟨st.2, ?_, l, o, fun i hi => ?_⟩
    · show (mlExtractSwitch _ _ _ _ _ _).map _ = _
      rw [e]; rfl
    obtain ⟨old, h⟩ := g i (by omega) hi
    refine ⟨_, h, ?_⟩
    show wabs (binPhase (b.bs * b.bc) b.lk _ - _) ≤ b.brOut + b.ksOut
    set c := asLWECiphertext (mlRotate logN lc (polyGadget N b.gbr) b.bs b.bc b.brk err ct lut) ⟨i, by omega⟩ old
      with hcdef
    have h1 : wabs (binPhase (b.bs * b.bc) b.lk (ext0 (defaultKeySwitch (scalarGadget b.gks) (b.bs * b.bc) (k * N)
      b.ksk c)) - binPhase (k * N) b.lk c) ≤ b.ksOut :=
      defaultKeySwitch_phase b.gks hb.gks (b.bs * b.bc) (k * N) hb.dim b.lk b.ksMask b.ksNoise b.Bks hb.ksNoise c
    have h2 := hrot ct i (by omega)
    have h3 : binPhase (k * N) b.lk c = phase b.sk (mlRotate logN lc (polyGadget N b.gbr) b.bs b.bc b.brk err ct lut)
      ⟨i, by omega⟩ := extract_binPhase_at b.lk _ _ old
    rw [← h3] at h2
    rw [← sub_add_sub_cancel _ (binPhase (k * N) b.lk c), add_comm b.brOut]
    exact (wabs_add_le _ _).trans (Nat.add_le_add h1 h2)

omit [NeZero N] in
/-- An output slice that is too short: panic. -/
theorem C40_short_output (rot : Fin (k + 1) → Poly N (BitVec w)) (c : ℕ) (hc : c ≤ N) (outs : List (ℕ → BitVec w))
    (ho : outs.length < c) : mlExtract rot c outs = none := by
  obtain ⟨m, rfl⟩ : ∃ m, c = outs.length + 1 + m := ⟨c - outs.length - 1, by omega⟩
  obtain ⟨res, e, l, -, -⟩ := mlExtract_spec rot outs.length (by omega) outs le_rfl
  unfold mlExtract at e ⊢
  rw [List.range_add, List.foldlM_append, List.range_succ, List.foldlM_append, e]
  simp [l]

/-- What switching, the scale and the borders take of half a window. -/
def Boot.mlWindow (lc : ℕ) : ℚ := (1 + weight (b.bs * b.bc) b.lk) * (2 ^ lc / 2)
  + N * |(2 : ℚ) ^ w - 2 * b.p.toNat * b.s.toNat| / 2 ^ w + 1

/-- A table with the value `vals x i` at `z + i` for `z` in the window of `x` is read at the message. -/
theorem Boot.ml_lookup (order : BootstrapOrder) (hb : b.Valid) (logN lc : ℕ) (hN : N = 2 ^ logN)
    (hlogN : logN + 2 ≤ w) (hlc : lc ≤ logN) (V : Poly N (BitVec w)) (vals : ℕ → ℕ → BitVec w)
    (hwin : ∀ x, x < b.p.toNat → ∀ z : ℤ, ((2 ^ lc : ℕ) : ℤ) ∣ z → ∀ i : ℕ, i < 2 ^ lc →
        (winStart N b.p.toNat x : ℤ) ≤ z + ((N + b.p.toNat) / (2 * b.p.toNat) : ℕ) →
        z + ((N + b.p.toNat) / (2 * b.p.toNat) : ℕ) < winStart N b.p.toNat (x + 1) → at' V (z + i) = vals x i)
    (ct : ℕ → BitVec w) (m : ℕ) (hm : m < b.p.toNat)
    (e : BitVec w) (hct : binPhase (b.ctDim order) b.lk ct = BitVec.ofNat w (m * b.s.toNat) + e)
    (hcond : (b.inNoise order (wabs e) : ℚ) * (2 * N) / 2 ^ w + b.mlWindow lc ≤ N / (2 * b.p.toNat)) :
    ∀ i : ℕ, i < 2 ^ lc → at' V ((rotExpSw (mlSwitch w logN lc) (b.bs * b.bc) b.lk (b.brInput order ct) : ℤ) + i)
      = vals m i := by
  have hp0 : 0 < b.p.toNat := by omega
  -- the noise that blind rotation sees
  obtain ⟨e', he', hn'⟩ : ∃ e', binPhase (b.bs * b.bc) b.lk (b.brInput order ct) = BitVec.ofNat w (m * b.s.toNat) + e' ∧
      wabs e' ≤ b.inNoise order (wabs e) := by
    cases order with
    | brKs => exact ⟨e, hct, le_rfl⟩
    | ksBr =>
      have h1 : wabs (binPhase (b.bs * b.bc) b.lk (b.brInput .ksBr ct) - binPhase (k * N) b.lk ct) ≤ b.ksOut :=
        defaultKeySwitch_phase b.gks hb.gks (b.bs * b.bc) (k * N) hb.dim b.lk b.ksMask b.ksNoise b.Bks hb.ksNoise ct
      have hct' : binPhase (k * N) b.lk ct = BitVec.ofNat w (m * b.s.toNat) + e := hct
      refine ⟨e + (binPhase (b.bs * b.bc) b.lk (b.brInput .ksBr ct) - binPhase (k * N) b.lk ct), ?_,
        (wabs_add_le _ _).trans (Nat.add_le_add_left h1 _)⟩
      rw [hct']; ring
  set R := rotExpSw (mlSwitch w logN lc) (b.bs * b.bc) b.lk (b.brInput order ct) with hR
  have hsw := C40_modSwitch w logN lc hlogN hlc
  have hRc : 2 ^ lc ∣ R := by
    rw [hR]
    unfold rotExpSw
    refine dvd_add (hsw _).1 (Finset.dvd_sum fun i _ => ?_)
    split
    · exact (hsw _).1
    · exact dvd_zero _
  have hNq : (N : ℚ) = 2 ^ logN := by exact_mod_cast hN
  obtain ⟨z, hz1, hz2⟩ := index_in_window w N b.p.toNat b.s.toNat m (NeZero.pos N) hp0 hm
    (binPhase (b.bs * b.bc) b.lk (b.brInput order ct)) e' he' (R : ℤ)
    ((1 + weight (b.bs * b.bc) b.lk) * (2 ^ lc / 2)) 0 0 (by simp)
    (rotExpSw_phase w N (b.bs * b.bc) (mlSwitch w logN lc) (2 ^ lc / 2) (fun x => ⟨0, by
      have := (hsw x).2.2
      rw [← hNq] at this
      simpa using this⟩) b.lk (b.brInput order ct))
    (by
      unfold Boot.mlWindow at hcond
      have h1 : (wabs e' : ℚ) * (2 * N) / 2 ^ w ≤ (b.inNoise order (wabs e) : ℚ) * (2 * N) / 2 ^ w :=
        div_le_div_of_nonneg_right (mul_le_mul_of_nonneg_right (by exact_mod_cast hn') (by positivity)) (by positivity)
      linarith)
  rw [add_zero] at hz1
  have hzc : ((2 ^ lc : ℕ) : ℤ) ∣ z := by
    have hNc : ((2 ^ lc : ℕ) : ℤ) ∣ 2 * (N : ℤ) := by
      refine Dvd.dvd.mul_left ?_ 2
      rw [hN]; exact_mod_cast pow_dvd_pow 2 hlc
    rw [← Int.emod_add_mul_ediv z (2 * N), hz1]
    refine dvd_add ?_ (Dvd.dvd.mul_right hNc _)
    rw [Int.emod_def]
    exact dvd_sub (by exact_mod_cast hRc) (Dvd.dvd.mul_right hNc _)
  obtain ⟨w1, w2⟩ := window_close N b.p.toNat m hp0 z hz2
  intro i hi
  rw [← hwin m hm z hzc i hi w1 w2]
  apply at_congr
  rw [Int.add_emod, ← hz1, ← Int.add_emod]

/-- **C40 (phase).** One bootstrap of an encryption of `m`: output `i` is an encryption of `f_i(m)`, in the order of the
functions, for both orders and any old contents of the buffers and outputs.  Missing: parameters whose windows are
not multiples of the number of functions; there it fails (`C40_misaligned`). -/
theorem C40_phase_partial (order : BootstrapOrder) (hb : b.Valid) (hf : b.f = 1) (logN lc : ℕ) (hN : N = 2 ^ logN)
    (hlogN : logN + 2 ≤ w) (hlc : lc ≤ logN) (hal : MlAligned N b.p.toNat (2 ^ lc))
    (raw : List (BitVec w)) (hraw : raw.length = N)
    (err : ℕ → Fin (k + 1) → Poly N (BitVec w)) (hF : ∀ i, pabs (phase b.sk (err i)) ≤ b.Fe)
    (buf : ℕ → BitVec w) (outs : List (ℕ → BitVec w)) (ho : 2 ^ lc ≤ outs.length) (ct : ℕ → BitVec w)
    (fs : List (ℕ → BitVec 64)) (hfs : fs.length ≤ 2 ^ lc) (m : ℕ) (hm : m < b.p.toNat)
    (e : BitVec w) (hct : binPhase (b.ctDim order) b.lk ct = BitVec.ofNat w (m * b.s.toNat) + e)
    (hcond : (b.inNoise order (wabs e) : ℚ) * (2 * N) / 2 ^ w + b.mlWindow lc ≤ N / (2 * b.p.toNat)) :
    ∃ res, b.mlRunFunc order logN lc raw err buf outs ct fs = some res ∧ res.length = outs.length ∧
      (∀ i (h : i < fs.length), ∃ r, res[i]? = some r ∧
        wabs (binPhase (b.ctDim order) b.lk r - encodeLWECustom (fs[i] m) b.p b.s) ≤ b.outNoise order) ∧
      ∀ i, fs.length ≤ i → i < 2 ^ lc → ∃ r, res[i]? = some r ∧
        wabs (binPhase (b.ctDim order) b.lk r) ≤ b.outNoise order := by
  have hp0 : 0 < b.p.toNat := by omega
  have hpL := hb.pL
  rw [hf, Nat.one_mul] at hpL
  have hc : 2 ^ lc ≤ N := by rw [hN]; exact Nat.pow_le_pow_right (by norm_num) hlc
  obtain ⟨V, hV, hwin⟩ := C40_genLUT_partial w N b.p.toNat (2 ^ lc) (by positivity)
    (fs.map fun f x => encodeLWECustom (f x) b.p b.s) (by simpa using hfs) raw hraw hp0 hb.pw hb.p52 hpL hal
  obtain ⟨res, hres, hl, -, h⟩ := C40_lut b order hb.toKeyValid logN lc hc err hF buf outs ho ct V
  have hrun : b.mlRunFunc order logN lc raw err buf outs ct fs = some res := by
    unfold Boot.mlRunFunc mlBootstrapFunc mlGenLUT
    rw [hV, Option.bind_some]
    exact hres
  have hval := b.ml_lookup order hb logN lc hN hlogN hlc V _ hwin ct m hm e hct hcond
  refine ⟨res, hrun, hl, fun i hi => ?_, fun i hi hi2 => ?_⟩
  · obtain ⟨r, hr, hw⟩ := h i (by omega)
    refine ⟨r, hr, ?_⟩
    rw [hval i (by omega)] at hw
    unfold mlValues at hw
    rw [List.getElem?_map, List.getElem?_eq_getElem hi] at hw
    exact hw
  · obtain ⟨r, hr, hw⟩ := h i hi2
    refine ⟨r, hr, ?_⟩
    rw [hval i hi2] at hw
    unfold mlValues at hw
    rw [List.getElem?_map, List.getElem?_eq_none hi] at hw
    simpa using hw

/-- **C40 (messages).** Every output decrypts to the value of its function when the noise of the results is inside the
decoding radius.  Missing: see `C40_phase_partial`. -/
theorem C40_decrypts_partial (order : BootstrapOrder) (hb : b.Valid) (hf : b.f = 1) (logN lc : ℕ) (hN : N = 2 ^ logN)
    (hlogN : logN + 2 ≤ w) (hlc : lc ≤ logN) (hal : MlAligned N b.p.toNat (2 ^ lc))
    (raw : List (BitVec w)) (hraw : raw.length = N)
    (err : ℕ → Fin (k + 1) → Poly N (BitVec w)) (hF : ∀ i, pabs (phase b.sk (err i)) ≤ b.Fe)
    (buf : ℕ → BitVec w) (outs : List (ℕ → BitVec w)) (ho : 2 ^ lc ≤ outs.length) (ct : ℕ → BitVec w)
    (fs : List (ℕ → BitVec 64)) (hfs : fs.length ≤ 2 ^ lc) (message : BitVec 64) (e : BitVec w)
    (hct : phase (lweKeyOf w (b.ctDim order) b.lk) (fun t => ct t) = encodeLWECustom message b.p b.s + e)
    (hcond : (b.inNoise order (wabs e) : ℚ) * (2 * N) / 2 ^ w + b.mlWindow lc ≤ N / (2 * b.p.toNat))
    (hout : (b.outNoise order : ℚ) + b.p.toNat + 2 ^ w / 2 ^ 50 < (b.s.toNat : ℚ) / 2) :
    ∃ res, b.mlRunFunc order logN lc raw err buf outs ct fs = some res ∧ res.length = outs.length ∧
      ∀ i (h : i < fs.length), ∃ r, res[i]? = some r ∧
        decodeLWECustom (decryptLWEPhase (lweKeyOf w (b.ctDim order) b.lk) (fun t => r t)) b.p b.s
          = some ((((fs[i] ((message.setWidth w).toNat % b.p.toNat)).setWidth w).toNat % b.p.toNat : ℕ) : ℤ) := by
  have hp0 : 0 < b.p.toNat := by
    rcases Nat.eq_zero_or_pos b.p.toNat with h0 | h0
    · exact absurd (BitVec.eq_of_toNat_eq (by simpa using h0)) hb.p0
    · exact h0
  have henc : encodeLWECustom message b.p b.s
      = BitVec.ofNat w ((message.setWidth w).toNat % b.p.toNat * b.s.toNat) := by
    unfold encodeLWECustom
    simp only [hb.p0, ne_eq, not_false_eq_true, if_true]
    apply BitVec.eq_of_toNat_eq
    rw [BitVec.toNat_mul, BitVec.toNat_umod, BitVec.toNat_ofNat]
  rw [phase_lweKeyOf, henc] at hct
  obtain ⟨res, hres, hl, h, -⟩ := C40_phase_partial b order hb hf logN lc hN hlogN hlc hal raw hraw err hF buf outs ho ct
    fs hfs _ (Nat.mod_lt _ hp0) e hct hcond
  refine ⟨res, hres, hl, fun i hi => ?_⟩
  obtain ⟨r, hr, h⟩ := h i hi
  refine ⟨r, hr, ?_⟩
  set x := fs[i] ((message.setWidth w).toNat % b.p.toNat)
  set d := binPhase (b.ctDim order) b.lk r - encodeLWECustom x b.p b.s with hd
  refine C05_decrypt_of_phase hb.w1 _ _ x b.p b.s hb.p0 hb.scale d.toInt ?_ ?_
  · rw [phase_lweKeyOf, BitVec.ofInt_toInt, hd]; ring
  · have e1 : |(d.toInt : ℚ)| = (wabs d : ℚ) := by unfold wabs; rw [Nat.cast_natAbs, Int.cast_abs]
    rw [e1]
    have : (wabs d : ℚ) ≤ b.outNoise order := by exact_mod_cast h
    linarith
end

/-! ### Misaligned tables -/

/-- Parameters with rank 16, message modulus 2 and 8 functions; the half window is 4. -/
def mlBadLit : ManyLUTLit 32 where
  baseParams :=
    { lweDimension := 1, glweRank := 1, polyRank := 16, lutSize := 16
      lweStdDev := 0x3f00000000000000, glweStdDev := 0x3f00000000000000, blockSize := 1, messageModulus := 2
      blindRotateParams := ⟨16, 3⟩, keySwitchParams := ⟨16, 3⟩, bootstrapOrder := 1 }
  lutCount := 8

/-- The functions: the first four are constant 0; the other four are 1 at 0 and 0 at 1. -/
def mlBadFs : List (ℕ → BitVec 64) :=
  (List.range 8).map fun i x => if x = 0 ∧ 4 ≤ i then 1 else 0

/-- `Compile` accepts the parameters and stores what the model below uses. -/
theorem C40_misaligned_accepted : (mlBadLit.compile 0).map (fun q => [q.baseParams.polyRank.toNat,
      q.baseParams.logPolyRank, q.baseParams.messageModulus.toNat, q.baseParams.scale.toNat, q.lutCount.toNat, q.logLUTCount,
      q.baseParams.lweDimension.toNat]) = some [16, 4, 2, 2 ^ 30, 8, 3, 1] := by
  decide +kernel

/-- These parameters with all key bits set and no noise. -/
def mlBadBoot : Boot 32 16 1 where
  gbr := ⟨16, 4, 3⟩
  gks := ⟨16, 4, 3⟩
  f := 1
  bs := 1
  bc := 1
  p := 2#32
  s := 0x40000000#32
  lk := fun _ => true
  brMask := 0
  brErr := 0
  brNoise := 0
  ksMask := 0
  ksNoise := 0
  Bbr := 0
  Bks := 0
  Fe := 0

theorem mlBadBoot_valid : mlBadBoot.KeyValid where
  w1 := by norm_num
  gbr := show (⟨16, 4, 3⟩ : GadgetParams 32).Valid by constructor <;> decide
  gks := show (⟨16, 4, 3⟩ : GadgetParams 32).Valid by constructor <;> decide
  f := Nat.one_pos
  bs := Nat.one_pos
  bc := Nat.one_pos
  dim := show 1 * 1 ≤ 1 * 16 by norm_num
  L := show 2 * (1 * 16) ≤ 2 ^ 53 by norm_num
  key := fun i _ j j' hj hj' _ _ => by
    simp only [mlBadBoot] at hj hj'
    omega
  brNoise := fun j i l => by
    have h0 : pabs (0 : Poly 16 (BitVec 32)) = 0 := (polyNorm 16 32).zero
    show pabs ((0 : Poly 16 (BitVec 32)) - ∑ t : Fin 1, (0 : Poly 16 (BitVec 32))) ≤ 0
    rw [Finset.sum_const_zero, sub_zero, h0]
  ksNoise := fun i j _ => by
    show wabs (0 : BitVec 32) ≤ 0
    rw [wabs_zero]

/-- The table that is generated. -/
theorem mlBad_table : mlGenRaw 32 16 2 8 (mlBadFs.map fun f x => encodeLWECustom (f x) 2#32 0x40000000#32)
    (List.replicate 16 0) = some ([4, 4, 4, 4, 0, 0, 0, 0, 0, 0, 0, 0, 0, 0, 0, 0].map (BitVec.ofNat 32 <| 0x10000000 * ·)) := by
  decide +kernel

/-- The same as a polynomial. -/
def mlBadTable : Poly 16 (BitVec 32) := fun j => if j.1 < 4 then 0x40000000 else 0

theorem mlBad_values : ∀ i : Fin 8, (mlBadFs[i.1]?.map (fun f => f 0) = some (if i.1 < 4 then 0 else 1)) ∧
    mlBadTable ⟨i.1, by omega⟩ = encodeLWECustom (if i.1 < 4 then 1 else 0) 2#32 0x40000000#32 := by
  decide +kernel

/-- **C40 is false in general.** With accepted parameters, keys without any noise and a noiseless encryption of 0,
every output decrypts to a wrong value: to `f_(i+4)(0) = 1` instead of 0 for the first four outputs and to
`f_(i-4)(1) = 0` instead of 1 for the others. -/
theorem C40_misaligned (buf : ℕ → BitVec 32) (outs : List (ℕ → BitVec 32)) (ho : 8 ≤ outs.length) :
    binPhase 1 mlBadBoot.lk (fun _ => (0 : BitVec 32)) = encodeLWECustom 0 2#32 0x40000000#32 ∧
    ∃ res, mlBadBoot.mlRunFunc .brKs 4 3 (List.replicate 16 0) (fun _ => 0) buf outs (fun _ => 0) mlBadFs = some res ∧
      ∀ i, i < 8 → ∃ r, res[i]? = some r ∧ mlBadFs[i]?.map (fun f => f 0) = some (if i < 4 then 0 else 1) ∧
        decodeLWECustom (decryptLWEPhase (lweKeyOf 32 1 mlBadBoot.lk) (fun t => r t)) 2#32 0x40000000#32
          = some (if i < 4 then 1 else 0) := by
  refine ⟨by decide +kernel, ?_⟩
  set V : Poly 16 (BitVec 32) := mlBadTable with hV
  have hgen : mlGenLUT 16 2#32 0x40000000#32 (2 ^ 3) mlBadFs (List.replicate 16 0) = some V := by
    unfold mlGenLUT mlGenLUTFull
    have := mlBad_table
    rw [show (2#32).toNat = 2 from rfl, show (2 ^ 3 : ℕ) = 8 from rfl, this, Option.bind_some]
    decide +kernel
  have h0 : pabs (0 : Poly 16 (BitVec 32)) = 0 := (polyNorm 16 32).zero
  obtain ⟨res, e, -, -, h⟩ := C40_lut mlBadBoot .brKs mlBadBoot_valid 4 3 (by norm_num) (fun _ => 0) (fun i => by
    show pabs (phase mlBadBoot.sk 0) ≤ 0
    rw [phase_zero, h0]) buf outs ho (fun _ => 0) V
  refine ⟨res, ?_, fun i hi => ?_⟩
  · unfold Boot.mlRunFunc mlBootstrapFunc
    show (mlGenLUT 16 2#32 0x40000000#32 (2 ^ 3) mlBadFs (List.replicate 16 0)).bind _ = _
    rw [hgen, Option.bind_some]
    exact e
  obtain ⟨r, hr, hw⟩ := h i hi
  have hval : (mlBadFs[i]?.map (fun f => f 0) = some (if i < 4 then 0 else 1)) ∧
      V ⟨i, by omega⟩ = encodeLWECustom (if i < 4 then 1 else 0) 2#32 0x40000000#32 := mlBad_values ⟨i, hi⟩
  refine ⟨r, hr, hval.1, ?_⟩
  have hR : rotExpSw (mlSwitch 32 4 3) (mlBadBoot.bs * mlBadBoot.bc) mlBadBoot.lk (mlBadBoot.brInput .brKs fun _ => 0) = 0 := by
    decide +kernel
  rw [hR, Nat.cast_zero, zero_add, at_natCast _ _ (by omega : i < 16), hval.2] at hw
  have hon : mlBadBoot.outNoise .brKs ≤ 2 ^ 26 := by
    show 1 * (1 * (2 * ((2 ^ (32 - 3 * 4) / 2) * (1 + 1 * 16) + (1 + 1) * (3 * (16 * (16 / 2 * 0))))) + 0)
      + ksBound (⟨16, 4, 3⟩ : GadgetParams 32) (1 * 16 - 1 * 1) 0 ≤ _
    decide +kernel
  set x : BitVec 64 := if i < 4 then 1 else 0 with hx
  set d := binPhase 1 mlBadBoot.lk r - encodeLWECustom x 2#32 0x40000000#32 with hd
  have hdec := C05_decrypt_of_phase (w := 32) (by norm_num) (lweKeyOf 32 1 mlBadBoot.lk) (fun t => r t) x 2#32
    0x40000000#32 (by decide) (by decide +kernel) d.toInt
    (by rw [phase_lweKeyOf, BitVec.ofInt_toInt, hd]; ring)
    (by
      have e1 : |(d.toInt : ℚ)| = (wabs d : ℚ) := by unfold wabs; rw [Nat.cast_natAbs, Int.cast_abs]
      rw [e1]
      have h1 : wabs d ≤ 2 ^ 26 := le_trans hw hon
      have : (wabs d : ℚ) ≤ 2 ^ 26 := by exact_mod_cast h1
      refine lt_of_le_of_lt (add_le_add_left (add_le_add_left this _) _) ?_
      show (2 : ℚ) ^ 26 + ((2 : ℕ) : ℚ) + 2 ^ 32 / 2 ^ 50 < ((0x40000000 : ℕ) : ℚ) / 2
      norm_num)
  rw [hdec, hx]
  split <;> rfl

/-- The windows of these parameters are not aligned. -/
example : ¬ MlAligned 16 2 8 := by
  rintro ⟨-, h⟩
  revert h; decide

/-! ### A concrete instance

The parameters of the instance of `C20` (degree 2048, modulus 4, 200 blocks of 3), with two functions. -/
example (N : ℕ) [NeZero N] (hN : N = 2048) (brMask ksMask brNoise ksNoise)
    (h1 : ∀ j i l, pabs (brNoise j i l) ≤ 2 ^ 10)
    (h2 : ∀ i j, wabs (ksNoise i j) ≤ 2 ^ 40) (order : BootstrapOrder) (raw : List (BitVec 64))
    (hraw : raw.length = N) (buf mask : ℕ → BitVec 64) (outs : List (ℕ → BitVec 64)) (ho : outs.length = 2)
    (f g : ℕ → BitVec 64) (e : BitVec 64) (he : wabs e ≤ 2 ^ 53) :
    let b := exBoot N brMask ksMask brNoise ksNoise
    let ct := fun t => if t = 0 then encodeLWECustom 3 4#64 0x2000000000000000#64 + e
        - ∑ i ∈ Finset.range (b.ctDim order), (if b.lk i then mask i else 0) else mask (t - 1)
    ∃ r0 r1, b.mlRunFunc order 11 1 raw (fun _ => 0) buf outs ct [f, g] = some [r0, r1] ∧
      decodeLWECustom (decryptLWEPhase (lweKeyOf 64 (b.ctDim order) b.lk) (fun t => r0 t)) 4#64 0x2000000000000000#64
        = some (((f 3).toNat % 4 : ℕ) : ℤ) ∧
      decodeLWECustom (decryptLWEPhase (lweKeyOf 64 (b.ctDim order) b.lk) (fun t => r1 t)) 4#64 0x2000000000000000#64
        = some (((g 3).toNat % 4 : ℕ) : ℤ) := by
  intro b ct
  have hw : weight (3 * 200) (fun i => i % 3 == 1) = 200 := by decide +kernel
  have hNq : (N : ℚ) = 2048 := by exact_mod_cast hN
  have hks : b.ksOut ≤ 2 ^ 57 := by
    show ksBound (⟨16, 4, 8⟩ : GadgetParams 64) (1 * N - 3 * 200) (2 ^ 40) ≤ _
    rw [hN]
    decide +kernel
  have hbr : b.brOut ≤ 2 ^ 50 := by
    show 200 * (3 * (2 * ((2 ^ (64 - 4 * 10) / 2) * (1 + 1 * N) + (1 + 1) * (4 * (N * (1024 / 2 * 2 ^ 10))))) + 2 ^ 20) ≤ _
    rw [hN]
    norm_num
  have hin : b.inNoise order (wabs e) ≤ 2 ^ 53 + 2 ^ 57 := by
    cases order
    · exact Nat.add_le_add he hks
    · exact he.trans (by norm_num)
  have hon : b.outNoise order ≤ 2 ^ 50 + 2 ^ 57 := by
    cases order
    · exact hbr.trans (by norm_num)
    · exact Nat.add_le_add hbr hks
  have g1 : ∀ i : ℕ, pabs (phase b.sk ((fun _ => 0 : ℕ → Fin 2 → Poly N (BitVec 64)) i)) ≤ b.Fe := fun i => by
    have h0 : pabs (0 : Poly N (BitVec 64)) = 0 := (polyNorm N 64).zero
    show pabs (phase b.sk 0) ≤ _
    rw [phase_zero, h0]; exact Nat.zero_le _
  have g2 : phase (lweKeyOf 64 (b.ctDim order) b.lk) (fun t => ct t) = encodeLWECustom 3 b.p b.s + e := by
    rw [phase_lweKeyOf]
    unfold binPhase
    simp only [ct, if_true, Nat.add_sub_cancel, Nat.succ_ne_zero, if_false]
    exact sub_add_cancel _ _
  have g3 : (b.inNoise order (wabs e) : ℚ) * (2 * N) / 2 ^ 64 + b.mlWindow 1 ≤ N / (2 * b.p.toNat) := by
    have hin' : (b.inNoise order (wabs e) : ℚ) ≤ 2 ^ 53 + 2 ^ 57 := by exact_mod_cast hin
    show _ * (2 * (N : ℚ)) / 2 ^ 64 + ((1 + (weight (3 * 200) (fun i => i % 3 == 1) : ℚ)) * (2 ^ 1 / 2)
      + (N : ℚ) * |(2 : ℚ) ^ 64 - 2 * ((4 : ℕ) : ℚ) * ((0x2000000000000000 : ℕ) : ℚ)| / 2 ^ 64 + 1) ≤ (N : ℚ) / (2 * ((4 : ℕ) : ℚ))
    rw [hw, hNq]
    norm_num
    linarith
  have g4 : (b.outNoise order : ℚ) + b.p.toNat + 2 ^ 64 / 2 ^ 50 < (b.s.toNat : ℚ) / 2 := by
    have hon' : (b.outNoise order : ℚ) ≤ 2 ^ 50 + 2 ^ 57 := by exact_mod_cast hon
    show _ + ((4 : ℕ) : ℚ) + 2 ^ 64 / 2 ^ 50 < ((0x2000000000000000 : ℕ) : ℚ) / 2
    norm_num
    linarith
  obtain ⟨res, hres, hl, h⟩ := C40_decrypts_partial b order (exBoot_valid N hN _ _ _ _ h1 h2) rfl 11 1 (by rw [hN]; norm_num)
    (by norm_num) (by norm_num)
    (mlAligned_of_dvd N 4 (2 ^ 1) (by norm_num) (Or.inl (by rw [hN]; exact ⟨128, by norm_num⟩))) raw hraw
    (fun _ => 0) g1 buf outs (by omega) ct [f, g] (by simp) 3 e g2 g3 g4
  obtain ⟨r0, a0, d0⟩ := h 0 (by simp)
  obtain ⟨r1, a1, d1⟩ := h 1 (by simp)
  refine ⟨r0, r1, ?_, d0, d1⟩
  rw [hres]
  match res, hl.trans ho with
  | [x, y], _ =>
    simp only [List.getElem?_cons_zero, List.getElem?_cons_succ, Option.some.injEq] at a0 a1
    rw [a0, a1]
end Tfhe
