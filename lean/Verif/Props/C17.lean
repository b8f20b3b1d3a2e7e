import Verif.Lemma.Bootstrap

/-!
# C17 and C18: blind rotation, original and block-binary

The phase of the result is the table times `X^-(b' + Σ a'_i s_i)`, up to a noise that is bounded
explicitly.  `b'`, `a'_i` are the switched ciphertext elements (`C16`).
-/
namespace Tfhe
open Poly

section
variable {w N k : ℕ} [NeZero N]

/-- Bound on the noise of one external product with a key element. -/
def brStep (N k : ℕ) (G : Gadget (Poly N (BitVec w))) (D E S B : ℕ) : ℕ :=
  E * (1 + k * S) + (k + 1) * (G.level * (N * (D * B)))

/-- What is assumed of a blind rotation key: element `j < n` is a GGSW encryption of key bit `j` with
noise at most `B`. -/
def IsBRK (G : Gadget (Poly N (BitVec w))) (sk : Fin k → Poly N (BitVec w)) (n B : ℕ) (key : ℕ → Bool)
    (brk : ℕ → Fin (k + 1) → ℕ → Fin (k + 1) → Poly N (BitVec w)) : Prop :=
  ∀ j, j < n → ∃ e, IsGSW G sk (C N (kbit w (key j))) (brk j) e ∧
    ∀ i l, l < G.level → pabs (e i l) ≤ B

/-- One key element: `bit * phase + noise`. -/
theorem extProd_bit (G : Gadget (Poly N (BitVec w))) {D E : ℕ} (hG : G.Bounded (polyNorm N w) D E)
    (sk : Fin k → Poly N (BitVec w)) (S B n : ℕ) (key : ℕ → Bool)
    (brk : ℕ → Fin (k + 1) → ℕ → Fin (k + 1) → Poly N (BitVec w)) (hbrk : IsBRK G sk n B key brk)
    (hS : ∀ i x, pabs (x * sk i) ≤ S * pabs x) (c : Fin (k + 1) → Poly N (BitVec w)) (j : ℕ) (hj : j < n) :
    ∃ ν, phase sk (extProd G.level (brk j) (fun t => G.dec (c t)))
        = C N (kbit w (key j)) * phase sk c + ν ∧ pabs ν ≤ brStep N k G D E S B := by
  obtain ⟨e, h, he⟩ := hbrk j hj
  refine ⟨extNoise G sk (C N (kbit w (key j))) e c 0, ?_, ?_⟩
  · have := phase_extProd G hG.level_pos sk _ _ e h c 0
    rw [← this]
    congr 1
    funext t
    exact (add_zero _).symm
  · have := C13_noise_le (polyNorm N w) G hG sk (C N (kbit w (key j))) e c 0 1 S B 0
      (pabs_kbit_mul _) hS he (by rw [phase_zero]; exact ((polyNorm N w).zero).le)
    refine this.trans ?_
    unfold brStep
    show 1 * _ + (k + 1) * (G.level * (N * (D * B))) + 0 ≤ _
    omega

/-- One block: rotation of the phase plus bounded noise. -/
theorem block_step (G : Gadget (Poly N (BitVec w))) {D E : ℕ} (hG : G.Bounded (polyNorm N w) D E)
    (sk : Fin k → Poly N (BitVec w)) (S B n Fe : ℕ) (key : ℕ → Bool)
    (brk : ℕ → Fin (k + 1) → ℕ → Fin (k + 1) → Poly N (BitVec w)) (hbrk : IsBRK G sk n B key brk)
    (hS : ∀ i x, pabs (x * sk i) ≤ S * pabs x) (c err : Fin (k + 1) → Poly N (BitVec w))
    (hF : pabs (phase sk err) ≤ Fe) (a : ℕ → ℕ) (j0 bs : ℕ) (hn : j0 + bs ≤ n) (h1 : AtMostOne key j0 bs) :
    ∃ r, phase sk (invFFTAdd c (fun t => ∑ j ∈ Finset.range bs, monoSubOne N w (-(a (j0 + j) : ℤ)) *
          extProd G.level (brk (j0 + j)) (fun t => G.dec (c t)) t) err)
        = mono N (BitVec w) (-((∑ j ∈ Finset.range bs, if key (j0 + j) then a (j0 + j) else 0 : ℕ) : ℤ)) *
            phase sk c + r
      ∧ pabs r ≤ bs * (2 * brStep N k G D E S B) + Fe := by
  have hx : ∀ j, ∃ ν, j < bs → (phase sk (extProd G.level (brk (j0 + j)) (fun t => G.dec (c t)))
        = C N (kbit w (key (j0 + j))) * phase sk c + ν ∧ pabs ν ≤ brStep N k G D E S B) := by
    intro j
    by_cases hj : j < bs
    · obtain ⟨ν, h⟩ := extProd_bit G hG sk S B n key brk hbrk hS c (j0 + j) (by omega)
      exact ⟨ν, fun _ => h⟩
    · exact ⟨0, fun h => absurd h hj⟩
  choose ν hν using hx
  obtain ⟨r, e, hr⟩ := block_phase a key j0 bs h1 (phase sk c) ν (phase sk err) (brStep N k G D E S B) Fe
    (fun j hj => (hν j hj).2) hF
  refine ⟨r, ?_, hr⟩
  rw [← e]
  have e1 := phase_add sk c ((fun t => ∑ j ∈ Finset.range bs, monoSubOne N w (-(a (j0 + j) : ℤ)) *
          extProd G.level (brk (j0 + j)) (fun t => G.dec (c t)) t) + err)
  refine e1.trans ?_
  rw [phase_add, phase_lin, ← add_assoc]
  congr 2
  refine Finset.sum_congr rfl fun j hj => ?_
  rw [(hν j (Finset.mem_range.1 hj)).1]

theorem phase_accInit (sk : Fin k → Poly N (BitVec w)) (lut : Poly N (BitVec w)) (b : ℕ) :
    phase sk (accInit k lut b) = mono N (BitVec w) (-(b : ℤ)) * lut := by
  unfold phase accInit
  simp

theorem rotExp_add (L m bs : ℕ) (key : ℕ → Bool) (ct : ℕ → BitVec w) :
    rotExp w L (m + bs) key ct = rotExp w L m key ct +
      ∑ j ∈ Finset.range bs, if key (m + j) then modSwitch w L (ct (m + j + 1)) else 0 := by
  unfold rotExp
  rw [Finset.sum_range_add, add_assoc]

/-- **C18.** `blindRotateBlockTo` with a key that has at most one 1 in every block: the phase of the
result is `X^-(b' + Σ a'_i s_i) * lut` up to `blockCount` times the noise of one block. -/
theorem C18_blindRotateBlock (G : Gadget (Poly N (BitVec w))) {D E : ℕ} (hG : G.Bounded (polyNorm N w) D E)
    (hG0 : ∀ j, j < G.level → G.dec 0 j = 0) (sk : Fin k → Poly N (BitVec w)) (S B Fe bs bc : ℕ)
    (hbs : 0 < bs) (hbc : 0 < bc) (key : ℕ → Bool) (hkey : ∀ i, i < bc → AtMostOne key (i * bs) bs)
    (brk : ℕ → Fin (k + 1) → ℕ → Fin (k + 1) → Poly N (BitVec w)) (hbrk : IsBRK G sk (bs * bc) B key brk)
    (hS : ∀ i x, pabs (x * sk i) ≤ S * pabs x) (err : ℕ → Fin (k + 1) → Poly N (BitVec w))
    (hF : ∀ i, pabs (phase sk (err i)) ≤ Fe) (ct : ℕ → BitVec w) (lut : Poly N (BitVec w)) :
    pabs (phase sk (blindRotateBlock G bs bc brk err ct lut)
        - mono N (BitVec w) (-(rotExp w N (bs * bc) key ct : ℤ)) * lut)
      ≤ bc * (bs * (2 * brStep N k G D E S B) + Fe) := by
  set a : ℕ → ℕ := fun j => modSwitch w N (ct (j + 1)) with ha
  set acc0 := accInit k lut (modSwitch w N (ct 0)) with hacc0
  -- the first block
  set acc1 := invFFTAdd acc0 (fun t => ∑ j ∈ Finset.range bs, monoSubOne N w (-(a (0 + j) : ℤ)) *
          extProd G.level (brk (0 + j)) (fun t => G.dec (acc0 t)) t) (err 0) with hacc1
  set step : (Fin (k + 1) → Poly N (BitVec w)) → ℕ → (Fin (k + 1) → Poly N (BitVec w)) := fun acc i =>
    invFFTAdd acc (fun t => ∑ j ∈ Finset.range bs, monoSubOne N w (-(a (i * bs + j) : ℤ)) *
          extProd G.level (brk (i * bs + j)) (fun t => G.dec (acc t)) t) (err i) with hstep
  have hrw : blindRotateBlock G bs bc brk err ct lut = (List.range' 1 (bc - 1)).foldl step acc1 := by
    unfold blindRotateBlock
    have h0 : ∀ j, gadgetProd G.level (brk j 0) (G.dec (acc0 0))
        = extProd G.level (brk j) (fun t => G.dec (acc0 t)) := fun j =>
      gadgetProd_eq_extProd G hG.level_pos hG0 (brk j) acc0 (fun i => rfl)
    simp only [← hacc0]
    simp only [h0]
    congr 1
    · funext acc i
      rw [hstep]
      have := foldl_block bs (i * bs) hbs (fun j => monoSubOne N w (-(modSwitch w N (ct (j + 1)) : ℤ)))
        (fun j => extProd G.level (brk j) (fun t => G.dec (acc t)))
      beta_reduce at this ⊢
      rw [this]
    · rw [hacc1]
      have := foldl_block bs 0 hbs (fun j => monoSubOne N w (-(modSwitch w N (ct (j + 1)) : ℤ)))
        (fun j => extProd G.level (brk j) (fun t => G.dec (acc0 t)))
      beta_reduce at this ⊢
      rw [zero_add] at this
      rw [this]
  rw [hrw]
  have hle : ∀ i, i < bc → i * bs + bs ≤ bs * bc := by
    intro i hi
    have := Nat.mul_le_mul_right bs hi
    calc i * bs + bs = (i + 1) * bs := by ring
      _ ≤ bc * bs := this
      _ = bs * bc := by ring
  have key1 : ∀ m, m < bc → pabs (phase sk ((List.range' 1 m).foldl step acc1)
        - mono N (BitVec w) (-(rotExp w N ((m + 1) * bs) key ct : ℤ)) * lut)
      ≤ (m + 1) * (bs * (2 * brStep N k G D E S B) + Fe) := by
    intro m
    induction m with
    | zero =>
      intro hm
      obtain ⟨r, e, hr⟩ := block_step G hG sk S B (bs * bc) Fe key brk hbrk hS acc0 (err 0) (hF 0) a 0 bs
        (by have := hle 0 hm; omega) (by have := hkey 0 hm; rwa [zero_mul] at this)
      have hb : pabs (phase sk acc0 - mono N (BitVec w) (-((modSwitch w N (ct 0) : ℕ) : ℤ)) * lut) ≤ 0 := by
        rw [hacc0, phase_accInit, sub_self]; exact ((polyNorm N w).zero).le
      have := rotate_step (phase sk acc0) (phase sk acc1) lut r _ _ 0 _ hb e hr
      simp only [List.range'_zero, List.foldl_nil]
      have hexp : (rotExp w N ((0 + 1) * bs) key ct : ℤ) = (modSwitch w N (ct 0) : ℤ)
          + ((∑ j ∈ Finset.range bs, if key (0 + j) then a (0 + j) else 0 : ℕ) : ℤ) := by
        unfold rotExp; rw [Nat.zero_add, one_mul, Nat.cast_add]; simp only [Nat.zero_add, ha]
      rw [hexp]
      exact this.trans (by omega)
    | succ m ih =>
      intro hm
      have ih' := ih (by omega)
      rw [List.range'_concat, List.foldl_append, List.foldl_cons, List.foldl_nil]
      set acc := (List.range' 1 m).foldl step acc1
      obtain ⟨r, e, hr⟩ := block_step G hG sk S B (bs * bc) Fe key brk hbrk hS acc (err (1 + 1 * m)) (hF _) a
        ((1 + 1 * m) * bs) bs (hle _ (by omega)) (hkey _ (by omega))
      have := rotate_step (phase sk acc) (phase sk (step acc (1 + 1 * m))) lut r _ _ _ _ ih' e hr
      have hexp : (rotExp w N ((m + 1 + 1) * bs) key ct : ℤ) = (rotExp w N ((m + 1) * bs) key ct : ℤ)
          + ((∑ j ∈ Finset.range bs, if key ((1 + 1 * m) * bs + j) then a ((1 + 1 * m) * bs + j) else 0 : ℕ) : ℤ) := by
        rw [show (m + 1 + 1) * bs = (m + 1) * bs + bs by ring, rotExp_add, Nat.cast_add]
        rw [show 1 + 1 * m = m + 1 by omega]
      rw [hexp]
      refine this.trans (le_of_eq ?_)
      ring
  have := key1 (bc - 1) (by omega)
  rw [show bc - 1 + 1 = bc by omega, mul_comm bc bs] at this
  exact this

/-- `blindRotateOriginalTo` is `blindRotateBlockTo` for blocks of size 1. -/
theorem original_eq_block (G : Gadget (Poly N (BitVec w))) (n : ℕ)
    (brk : ℕ → Fin (k + 1) → ℕ → Fin (k + 1) → Poly N (BitVec w)) (err : ℕ → Fin (k + 1) → Poly N (BitVec w))
    (ct : ℕ → BitVec w) (lut : Poly N (BitVec w)) :
    blindRotateOriginal G n brk err ct lut = blindRotateBlock G 1 n brk err ct lut := by
  unfold blindRotateOriginal blindRotateBlock
  simp

/-- **C17.** `blindRotateOriginalTo`, any binary key. -/
theorem C17_blindRotateOriginal (G : Gadget (Poly N (BitVec w))) {D E : ℕ} (hG : G.Bounded (polyNorm N w) D E)
    (hG0 : ∀ j, j < G.level → G.dec 0 j = 0) (sk : Fin k → Poly N (BitVec w)) (S B Fe n : ℕ)
    (hn : 0 < n) (key : ℕ → Bool)
    (brk : ℕ → Fin (k + 1) → ℕ → Fin (k + 1) → Poly N (BitVec w)) (hbrk : IsBRK G sk n B key brk)
    (hS : ∀ i x, pabs (x * sk i) ≤ S * pabs x) (err : ℕ → Fin (k + 1) → Poly N (BitVec w))
    (hF : ∀ i, pabs (phase sk (err i)) ≤ Fe) (ct : ℕ → BitVec w) (lut : Poly N (BitVec w)) :
    pabs (phase sk (blindRotateOriginal G n brk err ct lut)
        - mono N (BitVec w) (-(rotExp w N n key ct : ℤ)) * lut)
      ≤ n * (2 * brStep N k G D E S B + Fe) := by
  rw [original_eq_block]
  have := C18_blindRotateBlock G hG hG0 sk S B Fe 1 n (by omega) hn key
    (fun i _ j j' h1 h2 _ _ => by omega) brk (by rwa [one_mul]) hS err hF ct lut
  rwa [one_mul, one_mul] at this

/-- The key generated by `GenBlindRotateKey` is one: noise and FFT errors of encryption bounded by `B`. -/
theorem isBRK_gen (g : GadgetParams w) (sk : Fin k → Poly N (BitVec w)) (n B : ℕ) (key : ℕ → Bool)
    (mask err : ℕ → Fin (k + 1) → ℕ → Fin k → Poly N (BitVec w))
    (noise : ℕ → Fin (k + 1) → ℕ → Poly N (BitVec w))
    (hB : ∀ j i l, pabs (noise j i l - ∑ t, err j i l t) ≤ B) :
    IsBRK (polyGadget N g) sk n B key
      (fun j => genBlindRotateKeyElem g sk (mask j) (err j) (noise j) (kbit w (key j))) :=
  fun j _ => ⟨_, isGSW_blindRotateKey g sk (mask j) (err j) (noise j) (kbit w (key j)), fun i l _ => hB j i l⟩

/-- **C17 with generated keys**: key generation and blind rotation composed. -/
theorem C17_generated (g : GadgetParams w) (hg : g.Valid) (sk : Fin k → Poly N (BitVec w)) (S B Fe n : ℕ)
    (hn : 0 < n) (key : ℕ → Bool) (mask kerr : ℕ → Fin (k + 1) → ℕ → Fin k → Poly N (BitVec w))
    (noise : ℕ → Fin (k + 1) → ℕ → Poly N (BitVec w))
    (hB : ∀ j i l, pabs (noise j i l - ∑ t, kerr j i l t) ≤ B)
    (hS : ∀ i x, pabs (x * sk i) ≤ S * pabs x) (err : ℕ → Fin (k + 1) → Poly N (BitVec w))
    (hF : ∀ i, pabs (phase sk (err i)) ≤ Fe) (ct : ℕ → BitVec w) (lut : Poly N (BitVec w)) :
    pabs (phase sk (blindRotateOriginal (polyGadget N g) n
        (fun j => genBlindRotateKeyElem g sk (mask j) (kerr j) (noise j) (kbit w (key j))) err ct lut)
        - mono N (BitVec w) (-(rotExp w N n key ct : ℤ)) * lut)
      ≤ n * (2 * brStep N k (polyGadget N g) (g.base.toNat / 2) (2 ^ (w - g.level * g.logBase) / 2) S B + Fe) :=
  C17_blindRotateOriginal _ (polyGadget_bounded g hg) (fun j _ => polyGadget_zero N g j) sk S B Fe n hn key _
    (isBRK_gen g sk n B key mask kerr noise hB) hS err hF ct lut

/-- **C18 with generated keys.** -/
theorem C18_generated (g : GadgetParams w) (hg : g.Valid) (sk : Fin k → Poly N (BitVec w)) (S B Fe bs bc : ℕ)
    (hbs : 0 < bs) (hbc : 0 < bc) (key : ℕ → Bool) (hkey : ∀ i, i < bc → AtMostOne key (i * bs) bs)
    (mask kerr : ℕ → Fin (k + 1) → ℕ → Fin k → Poly N (BitVec w))
    (noise : ℕ → Fin (k + 1) → ℕ → Poly N (BitVec w))
    (hB : ∀ j i l, pabs (noise j i l - ∑ t, kerr j i l t) ≤ B)
    (hS : ∀ i x, pabs (x * sk i) ≤ S * pabs x) (err : ℕ → Fin (k + 1) → Poly N (BitVec w))
    (hF : ∀ i, pabs (phase sk (err i)) ≤ Fe) (ct : ℕ → BitVec w) (lut : Poly N (BitVec w)) :
    pabs (phase sk (blindRotateBlock (polyGadget N g) bs bc
        (fun j => genBlindRotateKeyElem g sk (mask j) (kerr j) (noise j) (kbit w (key j))) err ct lut)
        - mono N (BitVec w) (-(rotExp w N (bs * bc) key ct : ℤ)) * lut)
      ≤ bc * (bs * (2 * brStep N k (polyGadget N g) (g.base.toNat / 2) (2 ^ (w - g.level * g.logBase) / 2) S B) + Fe) :=
  C18_blindRotateBlock _ (polyGadget_bounded g hg) (fun j _ => polyGadget_zero N g j) sk S B Fe bs bc hbs hbc key
    hkey _ (isBRK_gen g sk _ B key mask kerr noise hB) hS err hF ct lut
end


/-- A concrete rotation: degree 4, rank 1, three key bits `1, 0, 1`, all noises and errors non-zero. -/
example :
    (let sk : Fin 1 → Poly 4 (BitVec 32) := fun _ i => BitVec.ofNat 32 (i % 2)
     let key : ℕ → Bool := fun j => j % 2 == 0
     let brk := fun j => genBlindRotateKeyElem exGadget sk
       (fun i l _ t => BitVec.ofNat 32 (0x1234567 * (i + 2 * l + 3 * t + j))) 0
       (fun i l _ => BitVec.ofNat 32 (i + l)) (kbit 32 (key j))
     let ct : ℕ → BitVec 32 := fun i => BitVec.ofNat 32 (0x31234567 * (i + 1))
     let lut : Poly 4 (BitVec 32) := fun t => BitVec.ofNat 32 (0x11111111 * (t + 1))
     let err : ℕ → Fin 2 → Poly 4 (BitVec 32) := fun _ _ _ => 3
     let out := blindRotateOriginal (polyGadget 4 exGadget) 3 brk err ct lut
     rotExp 32 4 3 key ct = 11 ∧ rotExp 32 4 3 (fun _ => true) ct = 16 ∧
       pabs (phase sk out - mono 4 (BitVec 32) (-11) * lut) < 2 ^ 21) := by
  decide +kernel
end Tfhe
