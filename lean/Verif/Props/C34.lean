import Verif.Props.C33
import Verif.Props.C20

/-!
# C34: multi-key bootstrapping

The keys of all parties are bits `lk i t`.  With the bits of unknown parties replaced by zero they form one long binary
key, `jointKey`, and all statements are about phases under this key, exactly as in the single-key case.
-/
namespace Tfhe.Mk
open Finset Poly

/-! ### The joint key -/

/-- Bit `t` of the concatenation of the first `n` bits of every party's key, zero for unknown parties. -/
def jointKey (n : ℕ) (on : ℕ → Bool) (lk : ℕ → ℕ → Bool) (t : ℕ) : Bool := on (t / n) && lk (t / n) (t % n)

theorem jointKey_block (n : ℕ) (on : ℕ → Bool) (lk : ℕ → ℕ → Bool) (i j : ℕ) (hj : j < n) :
    jointKey n on lk (i * n + j) = (on i && lk i j) := by
  unfold jointKey
  have h1 : (i * n + j) / n = i := by
    rw [mul_comm, Nat.mul_add_div (by omega), Nat.div_eq_of_lt hj, add_zero]
  have h2 : (i * n + j) % n = j := by rw [mul_comm, Nat.mul_add_mod, Nat.mod_eq_of_lt hj]
  rw [h1, h2]

theorem sum_range_blocks {M : Type} [AddCommMonoid M] (P n : ℕ) (f : ℕ → M) :
    ∑ t ∈ range (P * n), f t = ∑ i ∈ range P, ∑ j ∈ range n, f (i * n + j) := by
  induction P with
  | zero => simp
  | succ P ih => rw [sum_range_succ, ← ih, Nat.succ_mul, Finset.sum_range_add]

/-- A sum over the joint key is a sum over the known parties. -/
theorem sum_jointKey {M : Type} [AddCommMonoid M] (P n : ℕ) (on : ℕ → Bool) (lk : ℕ → ℕ → Bool) (f : ℕ → M) :
    ∑ t ∈ range (P * n), (if jointKey n on lk t then f t else 0) =
      ∑ i ∈ range P, if on i then ∑ j ∈ range n, (if lk i j then f (i * n + j) else 0) else 0 := by
  rw [sum_range_blocks]
  refine sum_congr rfl fun i _ => ?_
  by_cases ho : on i
  · rw [if_pos ho]
    refine sum_congr rfl fun j hj => ?_
    rw [jointKey_block n on lk i j (mem_range.1 hj), ho, Bool.true_and]
  · rw [if_neg ho]
    refine sum_eq_zero fun j hj => ?_
    rw [jointKey_block n on lk i j (mem_range.1 hj)]
    simp [ho]

section
variable {w N : ℕ} [NeZero N]

/-- The GLWE key of one party. -/
def zOf (w N : ℕ) (lk : ℕ → ℕ → Bool) (i : ℕ) : Poly N (BitVec w) := fun j => kbit w (lk i j)

omit [NeZero N] in
theorem zOf_eq (lk : ℕ → ℕ → Bool) (i : ℕ) : (fun _ : Fin 1 => zOf w N lk i) = glweKeyOf w N 1 (lk i) := by
  funext t j
  simp [zOf, glweKeyOf]

theorem mkKey_eq {K : Type} (P : ℕ) (keys : ℕ → Option K) (lk : ℕ → ℕ → Bool) :
    mkKey P keys (zOf w N lk) = glweKeyOf w N P (jointKey N (isOn keys) lk) := by
  funext i j
  unfold mkKey glweKeyOf
  rw [jointKey_block N _ lk i j j.2]
  cases h : isOn keys i
  · simp [kbit]
  · simp [zOf]

theorem zOf_mul (lk : ℕ → ℕ → Bool) (i : ℕ) (x : Poly N (BitVec w)) : pabs (x * zOf w N lk i) ≤ N * pabs x := by
  apply pabs_mul_binary
  intro j
  unfold zOf kbit
  cases lk i j <;> simp

/-! ### The accumulators of one party -/

/-- The exponent that party `i` contributes. -/
def partyExp (w N n : ℕ) (key : ℕ → Bool) (i : ℕ) (ct : ℕ → BitVec w) : ℕ :=
  ∑ j ∈ range n, if key j then modSwitch w N (ct (i * n + j + 1)) else 0

theorem modSwitch_zero (w N : ℕ) : modSwitch w N 0 = 0 := by
  unfold modSwitch
  have h0 : fl ((0 : BitVec w).toNat : ℚ) = 0 := by simp [fl_zero]
  rw [h0, mul_zero, fl_zero, goRound_eq (m := 0) le_rfl (by norm_num) (by norm_num)]
  simp

omit [NeZero N] in
theorem rotExp_rotateIn (n i : ℕ) (key : ℕ → Bool) (ct : ℕ → BitVec w) :
    rotExp w N n key (rotateIn n i ct) = partyExp w N n key i ct := by
  unfold rotExp partyExp rotateIn
  simp only [if_true, modSwitch_zero, zero_add, Nat.add_eq_zero_iff, one_ne_zero, and_false, if_false, ← add_assoc]

/-- Blind rotation with tables of the size of the ring, either algorithm. -/
theorem blindRotate_one (G : Gadget (Poly N (BitVec w))) {D E : ℕ} (hG : G.Bounded (polyNorm N w) D E)
    (hG0 : ∀ j, j < G.level → G.dec 0 j = 0) {k : ℕ} (sk : Fin k → Poly N (BitVec w)) (S B Fe bs bc : ℕ)
    (hbs : 0 < bs) (hbc : 0 < bc) (key : ℕ → Bool) (hkey : ∀ i, i < bc → AtMostOne key (i * bs) bs)
    (brk : ℕ → Fin (k + 1) → ℕ → Fin (k + 1) → Poly N (BitVec w)) (hbrk : IsBRK G sk (bs * bc) B key brk)
    (hS : ∀ i x, pabs (x * sk i) ≤ S * pabs x) (err : ℕ → ℕ → Fin (k + 1) → Poly N (BitVec w))
    (hF : ∀ i q, pabs (phase sk (err i q)) ≤ Fe) (old : ℕ → Poly N (BitVec w)) (ct : ℕ → BitVec w)
    (lut : ℕ → Poly N (BitVec w)) :
    pabs (phase sk (blindRotate G 1 bs bc brk err old ct lut)
        - mono N (BitVec w) (-(rotExp w N (bs * bc) key ct : ℤ)) * lut 0)
      ≤ bc * (bs * (2 * brStep N k G D E S B) + Fe) := by
  unfold blindRotate
  rw [if_neg (by omega)]
  by_cases hb : 1 < bs
  · rw [if_pos hb]
    exact C18_blindRotateBlock G hG hG0 sk S B Fe bs bc hbs hbc key hkey brk hbrk hS _ (fun i => hF i 0) ct _
  · rw [if_neg hb]
    obtain rfl : bs = 1 := by omega
    have h := C17_blindRotateOriginal G hG hG0 sk S B Fe (1 * bc) (by omega) key brk hbrk hS (fun i => err i 0)
      (fun i => hF i 0) ct (lut 0)
    rw [Nat.one_mul (2 * brStep N k G D E S B)]
    rw [Nat.one_mul bc] at h ⊢
    exact h

/-- The accumulators of party `i` are a GLev encryption of `X` to the minus exponent of the party. -/
theorem acc_isLev (gacc : GadgetParams w) (G : Gadget (Poly N (BitVec w))) {D E : ℕ} (hG : G.Bounded (polyNorm N w) D E)
    (hG0 : ∀ j, j < G.level → G.dec 0 j = 0) (lk : ℕ → ℕ → Bool) (B Fe bs bc i : ℕ) (hbs : 0 < bs) (hbc : 0 < bc)
    (hkey : ∀ b, b < bc → AtMostOne (lk i) (b * bs) bs)
    (brk : ℕ → Fin 2 → ℕ → Fin 2 → Poly N (BitVec w))
    (hbrk : IsBRK G (fun _ : Fin 1 => zOf w N lk i) (bs * bc) B (lk i) brk)
    (err : ℕ → ℕ → ℕ → Fin 2 → Poly N (BitVec w))
    (hF : ∀ j b q, pabs (phase (fun _ : Fin 1 => zOf w N lk i) (err j b q)) ≤ Fe) (old : ℕ → Poly N (BitVec w))
    (ct : ℕ → BitVec w) :
    ∃ el : ℕ → Poly N (BitVec w), IsLev (polyGadget N gacc) (fun _ : Fin 1 => zOf w N lk i)
        (mono N (BitVec w) (-(partyExp w N (bs * bc) (lk i) i ct : ℤ))) (accOf gacc G bs bc i brk err old ct) el ∧
      ∀ j, pabs (el j) ≤ bc * (bs * (2 * brStep N 1 G D E N B) + Fe) := by
  refine ⟨fun j => phase (fun _ : Fin 1 => zOf w N lk i) (accOf gacc G bs bc i brk err old ct j) -
    mono N (BitVec w) (-(partyExp w N (bs * bc) (lk i) i ct : ℤ)) * C N (gacc.baseQ j), fun j _ => ?_, fun j => ?_⟩
  · show _ = _ * C N (gacc.baseQ j) + _
    ring
  · have h := blindRotate_one G hG hG0 (fun _ : Fin 1 => zOf w N lk i) N B Fe bs bc hbs hbc (lk i) hkey brk hbrk
      (fun _ x => zOf_mul lk i x) (err j) (hF j) old (rotateIn (bs * bc) i ct) (gadgetLUT gacc N j)
    rw [rotExp_rotateIn] at h
    exact h

/-! ### Blind rotation -/

theorem rotateInit_phase (P : ℕ) (sk : Fin P → Poly N (BitVec w)) (ct : ℕ → BitVec w) (lut : ℕ → Poly N (BitVec w))
    (out : ℕ) (m : Mem (Poly N (BitVec w))) :
    phase sk (ctOf P (rotateInit P ct lut out m) out) = mono N (BitVec w) (-(modSwitch w N (ct 0) : ℤ)) * lut 0 := by
  unfold rotateInit phase ctOf
  have h : ∀ i : Fin P, mapLoopI (fun _ _ _ _ => (0 : Poly N (BitVec w))) out out out (List.range (P + 1)) m out
      (i.succ : Fin (P + 1)) = 0 := by
    intro i
    rw [mapLoopI_spec _ _ _ _ _ List.nodup_range, if_pos ⟨rfl, List.mem_range.2 i.succ.2⟩]
  simp only [Mem.write, Fin.val_zero, and_self, if_true, Fin.val_succ, Nat.add_eq_zero_iff, one_ne_zero, and_false,
    if_false]
  simp only [Fin.val_succ] at h
  simp [h]

/-- What blind rotation needs to know about the keys; `acc` are the gadget parameters of the accumulators, `gbr` those of
the blind rotation keys and `gr` those of the relinearization keys.  All keys are as the library generates them, with
arbitrary masks, and noises (including the Fourier errors of encryption) up to `Bbr` and `Br`. -/
structure RotKeys (P : ℕ) (keys : ℕ → Option (EvalKey (Poly N (BitVec w)))) (gacc gbr gr : GadgetParams w)
    (bs bc : ℕ) (lk : ℕ → ℕ → Bool) (brk : ℕ → ℕ → Fin 2 → ℕ → Fin 2 → Poly N (BitVec w)) (Bbr Br : ℕ) : Prop where
  gacc_ok : gacc.Valid
  gbr_ok : gbr.Valid
  gr_ok : gr.Valid
  bs_ok : 0 < bs
  bc_ok : 0 < bc
  key_ok : ∀ i < P, isOn keys i → ∀ b, b < bc → AtMostOne (lk i) (b * bs) bs
  brk_ok : ∀ i < P, isOn keys i → ∃ (mask err : ℕ → Fin 2 → ℕ → Fin 1 → Poly N (BitVec w))
    (noise : ℕ → Fin 2 → ℕ → Poly N (BitVec w)), (∀ j t l, pabs (noise j t l - ∑ q : Fin 1, err j t l q) ≤ Bbr) ∧
    brk i = fun j => genBlindRotateKeyElem gbr (fun _ : Fin 1 => zOf w N lk i) (mask j) (err j) (noise j)
      (kbit w (lk i j))
  /-- there is a common reference string `a` -/
  crs_ok : ∃ a : ℕ → Poly N (BitVec w), ∀ i < P, ∀ k, keys i = some k →
    (∃ noise err : ℕ → Poly N (BitVec w), (∀ j, pabs (noise j - err j) ≤ Br) ∧ k.crs = genCRSPublicKey a (zOf w N lk i) noise err) ∧
    (∃ (rk : ℕ → Bool) (err0 noise0 mask1 err1 noise1 : ℕ → Poly N (BitVec w)),
      (∀ j, pabs (err0 j + noise0 j) ≤ Br) ∧ (∀ j, pabs (noise1 j - err1 j) ≤ Br) ∧
      k.relin = uniEncryptPoly (polyGadget N gr).g a (zOf w N lk i) (zOf w N (fun _ => rk) 0) err0 noise0 mask1 err1 noise1
        (zOf w N lk i))

/-- Bounds on the errors of one external product. -/
structure ExtArgs.Bounded (x : ExtArgs (Poly N (BitVec w))) (P Fa Fs F : ℕ) : Prop where
  errT : ∀ t ≤ P, ∀ i, pabs (x.errT t i) ≤ Fa
  errSub : pabs x.errSub ≤ Fs
  err : ∀ t ≤ P, pabs (x.err t) ≤ F

/-- The noise one party adds to a multi-key blind rotation. -/
def partyNoise (w N P : ℕ) [NeZero N] (gacc gbr gr : GadgetParams w) (bs bc Bbr Br Fe Fa Fs F : ℕ) : ℕ :=
  extBound P N N gacc.level (gacc.base.toNat / 2) (2 ^ (w - gacc.level * gacc.logBase) / 2)
    (bc * (bs * (2 * brStep N 1 (polyGadget N gbr) (gbr.base.toNat / 2) (2 ^ (w - gbr.level * gbr.logBase) / 2) N Bbr) + Fe))
    Fa 1 gr.level (gr.base.toNat / 2) (2 ^ (w - gr.level * gr.logBase) / 2) Br Fs F

/-- The number of known parties. -/
def countOn {K : Type} (P : ℕ) (keys : ℕ → Option K) : ℕ := ∑ i ∈ range P, if isOn keys i then 1 else 0

variable {P : ℕ} {keys : ℕ → Option (EvalKey (Poly N (BitVec w)))} {gacc gbr gr : GadgetParams w} {bs bc : ℕ}
  {lk : ℕ → ℕ → Bool} {brk : ℕ → ℕ → Fin 2 → ℕ → Fin 2 → Poly N (BitVec w)} {Bbr Br : ℕ}

/-- The external product with the accumulators of one party. -/
theorem party_step (h : RotKeys P keys gacc gbr gr bs bc lk brk Bbr Br) (Fe Fa Fs F : ℕ) (i : ℕ) (hi : i < P)
    (hon : isOn keys i) (err : ℕ → ℕ → ℕ → Fin 2 → Poly N (BitVec w))
    (hF : ∀ j b q, pabs (phase (fun _ : Fin 1 => zOf w N lk i) (err j b q)) ≤ Fe) (old : ℕ → Poly N (BitVec w))
    (x : ExtArgs (Poly N (BitVec w))) (hx : x.Bounded P Fa Fs F) (ct : ℕ → BitVec w) (out : ℕ)
    (m : Mem (Poly N (BitVec w))) :
    ∃ m', externalProdTo P keys i (polyGadget N gacc) (polyGadget N gr)
        (accOf gacc (polyGadget N gbr) bs bc i (brk i) err old ct) x.bufT x.bufR x.buf x.errT x.errSub x.err out out m
          = some m' ∧
      pabs (phase (mkKey P keys (zOf w N lk)) (ctOf P m' out) -
          mono N (BitVec w) (-(partyExp w N (bs * bc) (lk i) i ct : ℤ)) *
            phase (mkKey P keys (zOf w N lk)) (ctOf P m out)) ≤
        partyNoise w N P gacc gbr gr bs bc Bbr Br Fe Fa Fs F ∧
      (∀ j < P, isOn keys j = false → m' out (j + 1) = 0) ∧ (∀ v t, v ≠ out ∨ P + 1 ≤ t → m' v t = m v t) := by
  obtain ⟨a, hcrs⟩ := h.crs_ok
  obtain ⟨mask, kerr, noise, hB, hbrk⟩ := h.brk_ok i hi hon
  obtain ⟨el, hlev, hel⟩ := acc_isLev gacc (polyGadget N gbr) (polyGadget_bounded gbr h.gbr_ok)
    (fun j _ => polyGadget_zero N gbr j) lk Bbr Fe bs bc i h.bs_ok h.bc_ok (h.key_ok i hi hon) (brk i)
    (by rw [hbrk]; exact isBRK_gen gbr _ _ Bbr (lk i) mask kerr noise hB) err hF old ct
  obtain ⟨k, hk⟩ := Option.isSome_iff_exists.1 (show (keys i).isSome from hon)
  have hc : ∃ noise err : ℕ → ℕ → Poly N (BitVec w), ∀ i < P, ∀ k, keys i = some k →
      (∀ j, pabs (noise i j - err i j) ≤ Br) ∧ k.crs = genCRSPublicKey a (zOf w N lk i) (noise i) (err i) := by
    have : ∀ i, ∃ ne : (ℕ → Poly N (BitVec w)) × (ℕ → Poly N (BitVec w)), i < P → ∀ k, keys i = some k →
        (∀ j, pabs (ne.1 j - ne.2 j) ≤ Br) ∧ k.crs = genCRSPublicKey a (zOf w N lk i) ne.1 ne.2 := by
      intro i
      by_cases hi : i < P
      · cases hki : keys i with
        | none => exact ⟨(0, 0), fun _ k hk => by simp at hk⟩
        | some k =>
          obtain ⟨n', e', h1, h2⟩ := (hcrs i hi k hki).1
          exact ⟨(n', e'), fun _ k' hk' => by
            simp only [Option.some.injEq] at hk'; subst hk'; exact ⟨h1, h2⟩⟩
      · exact ⟨(0, 0), fun h => absurd h hi⟩
    choose ne hne using this
    exact ⟨fun i => (ne i).1, fun i => (ne i).2, fun i hi k hk => hne i hi k hk⟩
  obtain ⟨cn, ce, hcn⟩ := hc
  obtain ⟨rk, err0, noise0, mask1, err1, noise1, b0, b1, hrel⟩ := (hcrs i hi k hk).2
  have ok : ExtOK P keys i (polyGadget N gacc) (polyGadget N gr) a (zOf w N lk) (fun i j => cn i j - ce i j)
      (zOf w N (fun _ => rk) 0) k (fun j => err0 j + noise0 j) (fun j => noise1 j - err1 j)
      (accOf gacc (polyGadget N gbr) bs bc i (brk i) err old ct)
      (mono N (BitVec w) (-(partyExp w N (bs * bc) (lk i) i ct : ℤ))) el :=
    ⟨hk, C33_keys_valid P keys i hi (polyGadget N gr) (polyGadget_bounded gr h.gr_ok).level_pos a _ cn ce _ err0 noise0 mask1
      err1 noise1 (fun i hi k hk => (hcn i hi k hk).2) k hk hrel, (polyGadget_bounded gacc h.gacc_ok).level_pos, hlev⟩
  obtain ⟨m', h1, h2, h3, h4⟩ := C33_external ok x.bufT x.bufR x.buf x.errT x.errSub x.err out out m
  refine ⟨m', h1, ?_, h3, h4⟩
  rw [h2, add_sub_cancel_left]
  refine C33_ext_bound (polyNorm N w) P keys (zOf w N lk) i hi (polyGadget N gacc) (polyGadget N gr)
    (polyGadget_bounded gacc h.gacc_ok) (polyGadget_bounded gr h.gr_ok) _ _ el a _ _ _ _ (m out) x.errT x.errSub x.err N
    (bc * (bs * (2 * brStep N 1 (polyGadget N gbr) (gbr.base.toNat / 2) (2 ^ (w - gbr.level * gbr.logBase) / 2) N Bbr) + Fe))
    Fa 1 Br Fs F
    (fun j _ y => zOf_mul lk j y) (fun y => ?_) (fun y => ?_) (fun j _ => hel j) hx.errT
    (fun j hj ho l _ => ?_) (fun j _ => b0 j) (fun j _ => b1 j) hx.errSub hx.err
  · show pabs (_ * y) ≤ N * pabs y
    rw [mul_comm _ y]
    exact zOf_mul _ _ y
  · rw [one_mul]; exact (pabs_mono_mul _ _).le
  · obtain ⟨k', hk'⟩ := Option.isSome_iff_exists.1 (show (keys j).isSome from ho)
    exact (hcn j hj k' hk').1 l

/-- `BlindRotateTo`: the joint phase of the result is the table rotated by the switched joint phase of the
input, up to the noise of one external product per known party; whatever the buffers held. -/
theorem C34_blindRotate (h : RotKeys P keys gacc gbr gr bs bc lk brk Bbr Br) (Fe Fa Fs F : ℕ)
    (errBR : ℕ → ℕ → ℕ → ℕ → Fin 2 → Poly N (BitVec w))
    (hF : ∀ i j b q, pabs (phase (fun _ : Fin 1 => zOf w N lk i) (errBR i j b q)) ≤ Fe) (old : ℕ → ℕ → Poly N (BitVec w))
    (ext : ℕ → ExtArgs (Poly N (BitVec w))) (hx : ∀ i < P, (ext i).Bounded P Fa Fs F) (ct : ℕ → BitVec w)
    (lut : ℕ → Poly N (BitVec w)) (out : ℕ) (m : Mem (Poly N (BitVec w))) :
    ∃ m', blindRotateTo P keys gacc (polyGadget N gbr) (polyGadget N gr) bs bc brk errBR old ext ct lut out m = some m' ∧
      pabs (phase (glweKeyOf w N P (jointKey N (isOn keys) lk)) (ctOf P m' out) -
          mono N (BitVec w) (-(rotExp w N (P * (bs * bc)) (jointKey (bs * bc) (isOn keys) lk) ct : ℤ)) * lut 0) ≤
        countOn P keys * partyNoise w N P gacc gbr gr bs bc Bbr Br Fe Fa Fs F ∧
      (∀ j < P, isOn keys j = false → m' out (j + 1) = 0) ∧
      (∀ v t, v ≠ out ∨ P + 1 ≤ t → m' v t = m v t) := by
  set n := bs * bc with hn
  set K := partyNoise w N P gacc gbr gr bs bc Bbr Br Fe Fa Fs F with hK
  have key : ∀ Q ≤ P, ∃ m', (List.range Q).foldlM (fun m i =>
      match keys i with
      | none => some m
      | some _ =>
        let acc := accOf gacc (polyGadget N gbr) bs bc i (brk i) (errBR i) (old i) ct
        let x := ext i
        externalProdTo P keys i (polyGadget N gacc) (polyGadget N gr) acc x.bufT x.bufR x.buf x.errT x.errSub x.err out out m)
      (rotateInit P ct lut out m) = some m' ∧
      pabs (phase (mkKey P keys (zOf w N lk)) (ctOf P m' out) -
          mono N (BitVec w) (-((modSwitch w N (ct 0) +
            ∑ i ∈ range Q, if isOn keys i then partyExp w N n (lk i) i ct else 0 : ℕ) : ℤ)) * lut 0) ≤
        countOn Q keys * K ∧
      (∀ j < P, isOn keys j = false → m' out (j + 1) = 0) ∧
      (∀ v t, v ≠ out ∨ P + 1 ≤ t → m' v t = m v t) := by
    intro Q
    induction Q with
    | zero =>
      intro _
      refine ⟨_, rfl, ?_, fun j hj _ => ?_, fun v t hvt => ?_⟩
      · rw [rotateInit_phase]
        have h0 : pabs (0 : Poly N (BitVec w)) = 0 := (polyNorm N w).zero
        simp [h0]
      · unfold rotateInit
        simp only [Mem.write]
        rw [if_neg (by omega), mapLoopI_spec _ _ _ _ _ List.nodup_range, if_pos ⟨rfl, List.mem_range.2 (by omega)⟩]
      · unfold rotateInit
        simp only [Mem.write]
        rw [if_neg (by omega), mapLoopI_spec _ _ _ _ _ List.nodup_range, if_neg]
        simp only [List.mem_range]; omega
    | succ Q ih =>
      intro hQ
      obtain ⟨m1, g1, g2, g0, g3⟩ := ih (by omega)
      rw [List.range_succ]
      simp only [List.foldlM_append, g1, Option.bind_eq_bind, Option.bind_some, List.foldlM_cons, List.foldlM_nil]
      cases hk : keys Q with
      | none =>
        have hoff : isOn keys Q = false := by simp [isOn, hk]
        refine ⟨m1, rfl, ?_, g0, g3⟩
        rw [sum_range_succ, hoff]
        unfold countOn at g2 ⊢
        rw [sum_range_succ, hoff]
        simpa using g2
      | some k =>
        have hon : isOn keys Q = true := by simp [isOn, hk]
        obtain ⟨m2, f1, f2, f3, f4⟩ := party_step h Fe Fa Fs F Q (by omega) hon (errBR Q) (hF Q) (old Q) (ext Q)
          (hx Q (by omega)) ct out m1
        refine ⟨m2, by simp [f1], ?_, f3, fun v t hvt => by rw [f4 v t hvt, g3 v t hvt]⟩
        rw [sum_range_succ, hon, if_pos rfl]
        unfold countOn at g2 ⊢
        rw [sum_range_succ, hon, if_pos rfl]
        set ρ := modSwitch w N (ct 0) + ∑ i ∈ range Q, if isOn keys i then partyExp w N n (lk i) i ct else 0 with hρ
        set φ2 := phase (mkKey P keys (zOf w N lk)) (ctOf P m2 out)
        set φ1 := phase (mkKey P keys (zOf w N lk)) (ctOf P m1 out)
        have hm : mono N (BitVec w) (-((modSwitch w N (ct 0) + (∑ i ∈ range Q, (if isOn keys i then
            partyExp w N n (lk i) i ct else 0) + partyExp w N n (lk Q) Q ct) : ℕ) : ℤ)) =
            mono N (BitVec w) (-(partyExp w N n (lk Q) Q ct : ℤ)) * mono N (BitVec w) (-(ρ : ℤ)) := by
          rw [← mono_add, hρ]; congr 1; push_cast; ring
        rw [hm]
        have hsplit : φ2 - mono N (BitVec w) (-(partyExp w N n (lk Q) Q ct : ℤ)) * mono N (BitVec w) (-(ρ : ℤ)) * lut 0 =
            (φ2 - mono N (BitVec w) (-(partyExp w N n (lk Q) Q ct : ℤ)) * φ1) +
              mono N (BitVec w) (-(partyExp w N n (lk Q) Q ct : ℤ)) * (φ1 - mono N (BitVec w) (-(ρ : ℤ)) * lut 0) := by
          ring
        rw [hsplit, add_mul, one_mul, add_comm (_ * K)]
        refine ((polyNorm N w).add_le _ _).trans (Nat.add_le_add f2 ?_)
        show pabs _ ≤ _
        rw [pabs_mono_mul]; exact g2
  obtain ⟨m', h1, h2, h0, h3⟩ := key P le_rfl
  refine ⟨m', h1, ?_, h0, h3⟩
  rw [← mkKey_eq]
  have he : rotExp w N (P * n) (jointKey n (isOn keys) lk) ct = modSwitch w N (ct 0) +
      ∑ i ∈ range P, if isOn keys i then partyExp w N n (lk i) i ct else 0 := by
    unfold rotExp
    rw [sum_jointKey P n (isOn keys) lk fun t => modSwitch w N (ct (t + 1))]
    rfl
  rw [he]
  exact h2

/-! ### Key switching -/

omit [NeZero N] in
theorem binPhase_joint (P n : ℕ) (on : ℕ → Bool) (lk : ℕ → ℕ → Bool) (ct : ℕ → BitVec w) :
    binPhase (P * n) (jointKey n on lk) ct = ct 0 +
      ∑ i ∈ range P, if on i then ∑ j ∈ range n, (if lk i j then ct (i * n + j + 1) else 0) else 0 := by
  unfold binPhase
  rw [sum_jointKey P n on lk fun t => ct (t + 1)]

/-- The key-switching keys of the known parties are as `GenDefaultKeySwitchKey` makes them, with any masks and noises up to
`Bks`. -/
structure SwitchKeys (P : ℕ) (on : ℕ → Bool) (gks : GadgetParams w) (n dim : ℕ) (lk : ℕ → ℕ → Bool)
    (ksk : ℕ → Option (ℕ → ℕ → Fin (n + 1) → BitVec w)) (Bks : ℕ) : Prop where
  gks_ok : gks.Valid
  dim_ok : n ≤ dim
  on_ok : ∀ i < P, (ksk i).isSome = on i
  ksk_ok : ∀ i < P, ∀ k, ksk i = some k → ∃ (mask : ℕ → ℕ → Fin n → BitVec w) (noise : ℕ → ℕ → BitVec w),
    (∀ j l, l < gks.level → wabs (noise j l) ≤ Bks) ∧
    k = fun j => encryptLevScalar gks (lweKeyOf w n (lk i)) (mask j) (noise j) (kbit w (lk i (n + j)))

/-- `DefaultKeySwitchTo`: the joint phase changes by at most one key switching noise per known party, the masks of unknown
parties become zero, and nothing past the ciphertext is written; for any old contents of the output. -/
theorem C34_keySwitch (P : ℕ) (on : ℕ → Bool) (gks : GadgetParams w) (n dim : ℕ) (lk : ℕ → ℕ → Bool)
    (ksk : ℕ → Option (ℕ → ℕ → Fin (n + 1) → BitVec w)) (Bks : ℕ) (h : SwitchKeys P on gks n dim lk ksk Bks)
    (ct out : ℕ → BitVec w) :
    let res := defaultKeySwitchTo P (scalarGadget gks) n dim ksk ct out
    wabs (binPhase (P * n) (jointKey n on lk) res - binPhase (P * dim) (jointKey dim on lk) ct) ≤
        (∑ i ∈ range P, if on i then 1 else 0) * ksBound gks (dim - n) Bks ∧
      (∀ i < P, on i = false → ∀ j < n, res (i * n + j + 1) = 0) ∧ ∀ t, P * n + 1 ≤ t → res t = out t := by
  intro res
  have key : ∀ Q ≤ P, ∀ r, r = (List.range Q).foldl (fun out i => keySwitchParty (scalarGadget gks) n dim i (ksk i) ct out)
        (upd out 0 (ct 0)) →
      wabs (binPhase (Q * n) (jointKey n on lk) r - binPhase (Q * dim) (jointKey dim on lk) ct) ≤
        (∑ i ∈ range Q, if on i then 1 else 0) * ksBound gks (dim - n) Bks ∧
      (∀ i < Q, on i = false → ∀ j < n, r (i * n + j + 1) = 0) ∧ ∀ t, Q * n + 1 ≤ t → r t = out t := by
    intro Q
    induction Q with
    | zero =>
      rintro _ _ rfl
      refine ⟨?_, fun i hi => absurd hi (by omega), fun t ht => ?_⟩
      · simp [binPhase, upd, wabs]
      · show upd out 0 (ct 0) t = _
        unfold upd; rw [if_neg (by omega)]
    | succ Q ih =>
      intro hQ r' hr'
      obtain ⟨g1, g2, g3⟩ := ih (by omega) _ rfl
      rw [List.range_succ, List.foldl_append, List.foldl_cons, List.foldl_nil] at hr'
      subst hr'
      set r := (List.range Q).foldl (fun out i => keySwitchParty (scalarGadget gks) n dim i (ksk i) ct out)
        (upd out 0 (ct 0)) with hr
      have hsucc : (Q + 1) * n = Q * n + n := Nat.succ_mul Q n
      have hle : ∀ i < Q, ∀ j < n, i * n + j + 1 < 1 + Q * n := by
        intro i hi j hj
        have : (i + 1) * n ≤ Q * n := Nat.mul_le_mul_right _ hi
        rw [Nat.succ_mul] at this; omega
      cases hk : ksk Q with
      | none =>
        have hoff : on Q = false := by rw [← h.on_ok Q (by omega), hk]; rfl
        have hv : ∀ t, keySwitchParty (scalarGadget gks) n dim Q none ct r t =
            if 1 + Q * n ≤ t ∧ t < 1 + (Q + 1) * n then 0 else r t := fun t => rfl
        refine ⟨?_, fun i hi ho j hj => ?_, fun t ht => ?_⟩
        · have e1 : binPhase ((Q + 1) * n) (jointKey n on lk) (keySwitchParty (scalarGadget gks) n dim Q none ct r) =
              binPhase (Q * n) (jointKey n on lk) r := by
            rw [binPhase_joint, binPhase_joint, sum_range_succ, hoff, hv, if_neg (by omega)]
            simp only [Bool.false_eq_true, if_false, add_zero]
            congr 1
            refine sum_congr rfl fun i hi => ?_
            congr 1
            refine sum_congr rfl fun j hj => ?_
            have := hle i (mem_range.1 hi) j (mem_range.1 hj)
            have e : keySwitchParty (scalarGadget gks) n dim Q none ct r (i * n + j + 1) = r (i * n + j + 1) := by
              rw [hv, if_neg (by omega)]
            rw [e]
          have e2 : binPhase ((Q + 1) * dim) (jointKey dim on lk) ct = binPhase (Q * dim) (jointKey dim on lk) ct := by
            rw [binPhase_joint, binPhase_joint, sum_range_succ, hoff]; simp
          rw [e1, e2, sum_range_succ, hoff]
          simpa using g1
        · rw [hv]
          rcases Nat.lt_or_ge i Q with hi' | hi'
          · have := hle i hi' j hj
            rw [if_neg (by omega)]; exact g2 i hi' ho j hj
          · obtain rfl : i = Q := by omega
            rw [if_pos (by omega)]
        · rw [hv, if_neg (by omega)]; exact g3 t (by omega)
      | some k =>
        have hon : on Q = true := by rw [← h.on_ok Q (by omega), hk]; rfl
        obtain ⟨mask, noise, hB, hkk⟩ := h.ksk_ok Q (by omega) k hk
        set c' : ℕ → BitVec w := fun t => if t = 0 then r 0 else ct (Q * dim + t) with hc'
        set sub := defaultKeySwitch (scalarGadget gks) n dim k c' with hsub
        have hv : ∀ t, keySwitchParty (scalarGadget gks) n dim Q (some k) ct r t = if t = 0 then sub 0
            else if 1 + Q * n ≤ t ∧ t < 1 + (Q + 1) * n then ext0 sub (t - Q * n) else r t := fun t => rfl
        have hks := defaultKeySwitch_phase gks h.gks_ok n dim h.dim_ok (lk Q) mask noise Bks hB c'
        rw [← hkk, ← hsub] at hks
        refine ⟨?_, fun i hi ho j hj => ?_, fun t ht => ?_⟩
        · have e1 : binPhase ((Q + 1) * n) (jointKey n on lk) (keySwitchParty (scalarGadget gks) n dim Q (some k) ct r) =
              binPhase n (lk Q) (ext0 sub) + (binPhase (Q * n) (jointKey n on lk) r - r 0) := by
            rw [binPhase_joint, binPhase_joint, sum_range_succ, hon, if_pos rfl, hv, if_pos rfl]
            have a1 : ∑ i ∈ range Q, (if on i then ∑ j ∈ range n, (if lk i j then
                keySwitchParty (scalarGadget gks) n dim Q (some k) ct r (i * n + j + 1) else 0) else 0) =
                ∑ i ∈ range Q, (if on i then ∑ j ∈ range n, (if lk i j then r (i * n + j + 1) else 0) else 0) := by
              refine sum_congr rfl fun i hi => ?_
              congr 1
              refine sum_congr rfl fun j hj => ?_
              have := hle i (mem_range.1 hi) j (mem_range.1 hj)
              have e : keySwitchParty (scalarGadget gks) n dim Q (some k) ct r (i * n + j + 1) = r (i * n + j + 1) := by
                rw [hv, if_neg (by omega), if_neg (by omega)]
              rw [e]
            have a2 : ∑ j ∈ range n, (if lk Q j then
                keySwitchParty (scalarGadget gks) n dim Q (some k) ct r (Q * n + j + 1) else 0) =
                ∑ j ∈ range n, (if lk Q j then ext0 sub (j + 1) else 0) := by
              refine sum_congr rfl fun j hj => ?_
              have := mem_range.1 hj
              have e : keySwitchParty (scalarGadget gks) n dim Q (some k) ct r (Q * n + j + 1) = ext0 sub (j + 1) := by
                rw [hv, if_neg (by omega), if_pos (by omega)]
                congr 1; omega
              rw [e]
            have a3 : ext0 sub 0 = sub 0 := by unfold ext0; rw [dif_pos (by omega)]; rfl
            rw [a1, a2]
            unfold binPhase
            rw [a3]; ring
          have e2 : binPhase ((Q + 1) * dim) (jointKey dim on lk) ct =
              binPhase dim (lk Q) c' + (binPhase (Q * dim) (jointKey dim on lk) ct - r 0) := by
            rw [binPhase_joint, binPhase_joint, sum_range_succ, hon, if_pos rfl]
            unfold binPhase
            simp only [hc', if_true, Nat.add_eq_zero_iff, one_ne_zero, and_false, if_false, ← add_assoc]
            ring
          rw [e1, e2, sum_range_succ, hon, if_pos rfl, add_mul, one_mul, add_comm (_ * _)]
          have hs : binPhase n (lk Q) (ext0 sub) + (binPhase (Q * n) (jointKey n on lk) r - r 0) -
              (binPhase dim (lk Q) c' + (binPhase (Q * dim) (jointKey dim on lk) ct - r 0)) =
              (binPhase n (lk Q) (ext0 sub) - binPhase dim (lk Q) c') +
                (binPhase (Q * n) (jointKey n on lk) r - binPhase (Q * dim) (jointKey dim on lk) ct) := by ring
          rw [hs]
          exact (wabs_add_le _ _).trans (Nat.add_le_add hks g1)
        · have hi' : i < Q := by
            rcases Nat.lt_or_ge i Q with h' | h'
            · exact h'
            · obtain rfl : i = Q := by omega
              rw [hon] at ho; cases ho
          have := hle i hi' j hj
          rw [hv, if_neg (by omega), if_neg (by omega)]; exact g2 i hi' ho j hj
        · rw [hv, if_neg (by omega), if_neg (by omega)]; exact g3 t (by omega)
  exact key P le_rfl _ rfl
end

end Tfhe.Mk
