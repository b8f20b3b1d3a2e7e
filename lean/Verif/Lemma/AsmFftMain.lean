import Verif.Lemma.AsmFft

/-!
# The transforms of `math/poly/asm_fft_amd64.s`
-/
set_option linter.unusedSimpArgs false
namespace Tfhe
namespace Asm
open Tfhe.Fft

/-! ### The forward kernel -/

theorem bfStage_eq (B : Bfly) (tw : Nat → BitVec 64 × BitVec 64) (M t : Nat) (x : Nat → BitVec 64) (w : Nat) :
    bfStage B tw M t (x, w) = ((stageN B tw t x w M).1, w + M) := by
  rw [← stageN_snd B tw t x w M]; rfl

theorem bfStage2_eq (B : Bfly) (tw : Nat → BitVec 64 × BitVec 64) (Q : Nat) (x : Nat → BitVec 64) (w : Nat) :
    bfStage2 B tw (8 * Q) (x, w) = ((st2N B tw x w Q).1, w + Q) := by
  rw [← st2N_snd B tw x w Q, bfStage2, show (8 * Q + 7) / 8 = Q by omega]; rfl

theorem bfStage1_eq (B : Bfly) (tw : Nat → BitVec 64 × BitVec 64) (Q : Nat) (x : Nat → BitVec 64) (w : Nat) :
    bfStage1 B tw (8 * Q) (x, w) = ((st1N B tw x w Q).1, w + 2 * Q) := by
  rw [← st1N_snd B tw x w Q, bfStage1, show (8 * Q + 7) / 8 = Q by omega]; rfl

theorem pow_split {a l : Nat} (h : a ≤ l) : 2 ^ l = 2 ^ a * 2 ^ (l - a) := by
  rw [← pow_add, Nat.add_sub_cancel' h]

/-- State between the stages of the forward kernel. -/
structure MidI (m : Memory) (b tb : BitVec 64) (N pc : Nat) (X : Nat → BitVec 64) (w : Nat) (s : St) : Prop where
  pc : s.pc = pc
  ret : s.ret = false
  mem : s.mem = over m b (dw X) (2 * N)
  ax : s.gpr .AX = b
  cx : s.gpr .CX = tb
  dx : s.gpr .DX = BitVec.ofNat 64 N
  bx : s.gpr .BX = BitVec.ofNat 64 (2 * w)

theorem fwdMid_snd {B : Bfly} {tw : Nat → BitVec 64 × BitVec 64} {l : Nat} :
    ∀ fuel a, 1 ≤ a → a ≤ l + 1 → l + 1 ≤ fuel + a → ∀ (t : Nat) (x : Nat → BitVec 64),
      (fwdMid B tw (2 ^ (l + 4)) fuel (2 ^ a) t (x, 2 ^ a - 1)).2 = 2 ^ (l + 1) - 1 := by
  have hN16 : 2 ^ (l + 4) / 16 = 2 ^ l := by rw [pow_add]; omega
  have hp1 : 2 ^ (l + 1) = 2 * 2 ^ l := by rw [pow_succ]; omega
  have hpos := Nat.two_pow_pos l
  intro fuel
  induction fuel with
  | zero =>
    intro a h1 h2 h3 t x
    obtain rfl : a = l + 1 := by omega
    rfl
  | succ fuel ih =>
    intro a h1 h2 h3 t x
    by_cases hal : a ≤ l
    · have hale : 2 ^ a ≤ 2 ^ l := Nat.pow_le_pow_right (by norm_num) hal
      have ha1' : 2 ^ (a + 1) = 2 ^ a * 2 := pow_succ 2 a
      have := Nat.two_pow_pos a
      rw [fwdMid, if_pos (by rw [hN16]; exact hale)]
      dsimp only
      rw [bfStage_eq, ← ha1', show 2 ^ a - 1 + 2 ^ a = 2 ^ (a + 1) - 1 by omega]
      exact ih (a + 1) (by omega) (by omega) (by omega) _ _
    · obtain rfl : a = l + 1 := by omega
      rw [fwdMid, if_neg (by rw [hN16]; omega)]

theorem fwd_mid {F : Fpu} {fp : List (BitVec 32)} {m : Memory} {b tb : BitVec 64} {l L : Nat}
    {tw : Nat → BitVec 64 × BitVec 64} (h : Table m b tb tw (2 ^ (l + 4)) L) (hL : 2 ^ (l + 3) ≤ L + 1) :
    ∀ fuel a, 1 ≤ a → a ≤ l + 1 → l + 1 ≤ fuel + a → ∀ (x : Nat → BitVec 64) (s : St),
      MidI m b tb (2 ^ (l + 4)) 82 x (2 ^ a - 1) s → s.gpr .SI = BitVec.ofNat 64 (2 ^ l) →
      s.gpr .R9 = BitVec.ofNat 64 (2 ^ (l + 4 - a)) → s.gpr .R10 = BitVec.ofNat 64 (2 ^ a) →
      Wp F fwdFFTInPlaceAVX2 fp s (fun s => MidI m b tb (2 ^ (l + 4)) 85
        (fwdMid (fwdR F) tw (2 ^ (l + 4)) fuel (2 ^ a) (2 ^ (l + 4 - a)) (x, 2 ^ a - 1)).1 (2 ^ (l + 1) - 1) s) := by
  have e1 : target fwdFFTInPlaceAVX2 .m_loop_body = 40 := by decide +kernel
  have e2 : target fwdFFTInPlaceAVX2 .i_loop_end = 78 := by decide +kernel
  have hs := h.size
  have hN16 : 2 ^ (l + 4) / 16 = 2 ^ l := by rw [pow_add]; omega
  have hl4 : 2 ^ (l + 4) = 16 * 2 ^ l := by rw [pow_add]; omega
  have hp1 : 2 ^ (l + 1) = 2 * 2 ^ l := by rw [pow_succ]; omega
  have hp3 : 2 ^ (l + 3) = 8 * 2 ^ l := by rw [pow_add]; omega
  have hpl := Nat.two_pow_pos l
  intro fuel
  induction fuel with
  | zero =>
    rintro a ha1 ha2 ha3 x ⟨pc, g, y, c', m', r⟩ ⟨h0, h1, h2, h3, h4, h5, h6⟩ h7 h8 h9
    obtain rfl : a = l + 1 := by omega
    dsimp only at h0 h1 h2 h3 h4 h5 h6 h7 h8 h9
    subst h0 h1 h2
    have hle : (BitVec.ofNat 64 (2 ^ (l + 1))).sle (BitVec.ofNat 64 (2 ^ l)) = false := by
      rw [sle_ofNat (by omega) (by omega), decide_eq_false_iff_not]; omega
    iterate 3 asm1 [h7, h9, hle, Bool.false_eq_true]
    exact .refl ⟨rfl, rfl, rfl, h3, h4, h5, h6⟩
  | succ fuel ih =>
    rintro a ha1 ha2 ha3 x ⟨pc, g, y, c', m', r⟩ ⟨h0, h1, h2, h3, h4, h5, h6⟩ h7 h8 h9
    dsimp only at h0 h1 h2 h3 h4 h5 h6 h7 h8 h9
    subst h0 h1 h2
    by_cases hal : a ≤ l
    · have hp := pow_split hal
      have hpos := Nat.two_pow_pos (l - a)
      have hpos' := Nat.two_pow_pos a
      have hale : 2 ^ a ≤ 2 ^ l := Nat.pow_le_pow_right (by norm_num) hal
      have ht : 2 ^ (l + 4 - a) = 2 * (8 * 2 ^ (l - a)) := by
        rw [show l + 4 - a = l - a + 4 by omega, pow_add]; omega
      have ht2 : 2 ^ (l + 4 - (a + 1)) = 8 * 2 ^ (l - a) := by
        rw [show l + 4 - (a + 1) = l - a + 3 by omega, pow_add]; omega
      have ha1' : 2 ^ (a + 1) = 2 ^ a * 2 := pow_succ 2 a
      have hple : 2 ^ (l - a) ≤ 2 ^ l := Nat.pow_le_pow_right (by norm_num) (by omega)
      have hle : (BitVec.ofNat 64 (2 ^ a)).sle (BitVec.ofNat 64 (2 ^ l)) = true := by
        rw [sle_ofNat (by omega) (by omega), decide_eq_true_eq]; omega
      have hsh : BitVec.ofNat 64 (2 ^ (l + 4 - a)) >>> 1 = BitVec.ofNat 64 (8 * 2 ^ (l - a)) := by
        rw [ht, shr_ofNat (by omega)]; congr 1; omega
      have hw : 2 ^ a - 1 + 2 ^ a = 2 ^ (a + 1) - 1 := by omega
      have hrw : fwdMid (fwdR F) tw (2 ^ (l + 4)) (fuel + 1) (2 ^ a) (2 ^ (l + 4 - a)) (x, 2 ^ a - 1) =
          fwdMid (fwdR F) tw (2 ^ (l + 4)) fuel (2 ^ (a + 1)) (2 ^ (l + 4 - (a + 1)))
            ((stageN (fwdR F) tw (8 * 2 ^ (l - a)) x (2 ^ a - 1) (2 ^ a)).1, 2 ^ (a + 1) - 1) := by
        rw [fwdMid, if_pos (by rw [hN16]; exact hale)]
        dsimp only
        rw [ht, ht2, Nat.mul_div_cancel_left _ (by norm_num : 0 < 2), bfStage_eq, ← ha1', hw]
      rw [hrw]
      iterate 7 asm1 [e1, e2, h7, h8, h9, hle, hsh, BitVec.xor_self]
      refine (fwd_stage h (g0 := Function.update g .R9 (BitVec.ofNat 64 (8 * 2 ^ (l - a)))) (M := 2 ^ a) (Q := 2 ^ (l - a)) (w := 2 ^ a - 1)
        (x := x) ?_ ?_ ?_ ?_ ?_ hpos ?_ _ ⟨rfl, rfl, rfl, ?_, ?_, ?_⟩).trans ?_
      · simp only [Function.update_apply, reduceCtorEq, if_false, h3]
      · simp only [Function.update_apply, reduceCtorEq, if_false, h4]
      · simp only [Function.update_apply, reduceCtorEq, if_true]
      · simp only [Function.update_apply, reduceCtorEq, if_false, h9]
      · have : 2 * 2 ^ a * (8 * 2 ^ (l - a)) = 16 * (2 ^ a * 2 ^ (l - a)) := by ring
        rw [this, ← hp, hl4]
      · omega
      · simp only [Function.update_apply, reduceCtorEq, if_false, h6]
      · simp only [Function.update_apply, reduceCtorEq, if_true]
      · intro r hr
        simp only [List.mem_cons, List.not_mem_nil, or_false, not_or] at hr
        simp only [Function.update_apply, hr.2.1, if_false]
      rintro ⟨pc, g', y', c'', m', r⟩ ⟨h0, h1, h2, h3', hi', hk'⟩
      dsimp only at h0 h1 h2 h3' hi' hk'
      subst h0 h1 h2
      have hlt : (BitVec.ofNat 64 (2 ^ a)).slt (BitVec.ofNat 64 (2 ^ a)) = false := by
        rw [slt_ofNat (by omega) (by omega)]; simp
      have k1 : g' .R10 = BitVec.ofNat 64 (2 ^ a) := by
        rw [hk' _ (by decide)]; simp only [Function.update_apply, reduceCtorEq, if_false, h9]
      have hsl : BitVec.ofNat 64 (2 ^ a) <<< 1 = BitVec.ofNat 64 (2 ^ (a + 1)) := by
        rw [shl_ofNat, ha1', pow_one]
      iterate 4 asm1 [hi', k1, hlt, hsl, Bool.false_eq_true]
      refine ih (a + 1) (by omega) (by omega) (by omega) _ _ ⟨rfl, rfl, rfl, ?_, ?_, ?_, ?_⟩ ?_ ?_ ?_
      · simp only [Function.update_apply, reduceCtorEq, if_false]
        rw [hk' _ (by decide)]; simp only [Function.update_apply, reduceCtorEq, if_false, h3]
      · simp only [Function.update_apply, reduceCtorEq, if_false]
        rw [hk' _ (by decide)]; simp only [Function.update_apply, reduceCtorEq, if_false, h4]
      · simp only [Function.update_apply, reduceCtorEq, if_false]
        rw [hk' _ (by decide)]; simp only [Function.update_apply, reduceCtorEq, if_false, h5]
      · simp only [Function.update_apply, reduceCtorEq, if_false]
        rw [h3', hw]
      · simp only [Function.update_apply, reduceCtorEq, if_false]
        rw [hk' _ (by decide)]; simp only [Function.update_apply, reduceCtorEq, if_false, h7]
      · simp only [Function.update_apply, reduceCtorEq, if_false]
        rw [hk' _ (by decide), ht2]; simp only [Function.update_apply, reduceCtorEq, if_true]
      · simp only [Function.update_apply, reduceCtorEq, if_true]
    · obtain rfl : a = l + 1 := by omega
      rw [fwdMid, if_neg (by rw [hN16]; omega)]
      have hle : (BitVec.ofNat 64 (2 ^ (l + 1))).sle (BitVec.ofNat 64 (2 ^ l)) = false := by
        rw [sle_ofNat (by omega) (by omega), decide_eq_false_iff_not]; omega
      iterate 3 asm1 [h7, h9, hle, Bool.false_eq_true]
      exact .refl ⟨rfl, rfl, rfl, h3, h4, h5, h6⟩

theorem over_holds {m : Memory} {b : BitVec 64} {W : Nat → BitVec 32} {n : Nat} (h : Holds m b W n)
    (hn : 4 * n ≤ 2 ^ 64) : over m b W n = m := by
  funext a
  by_cases ha : ∃ i < n, a = b + BitVec.ofNat 64 (4 * i)
  · obtain ⟨i, hi, rfl⟩ := ha
    rw [h.2 i hi, over_at hi hn]
  · push Not at ha
    exact over_off ha

/-- The forward kernel computes the transform. -/
theorem fwdFFTInPlaceAVX2_spec {F : Fpu} {b tb : BitVec 64} {l L c1 c2 : Nat} (g : Reg → BitVec 64) (y : Nat → Y)
    (m : Memory) {x : Nat → BitVec 64} {tw : Nat → BitVec 64 × BitVec 64}
    (hx : Holds m b (dw x) (2 * 2 ^ (l + 4))) (h : Table m b tb tw (2 ^ (l + 4)) L) (hL : 2 ^ (l + 3) ≤ L + 1) :
    Returns F fwdFFTInPlaceAVX2 (sliceArg b (2 ^ (l + 4)) c1 ++ sliceArg tb L c2) (entry g y m)
      (over m b (dw (fwdFFTStages (fwdR F) (fwdN F) (2 ^ (l + 4)) x tw)) (2 * 2 ^ (l + 4))) := by
  have hs := h.size
  have hs' := h.size'
  have hl4 : 2 ^ (l + 4) = 16 * 2 ^ l := by rw [pow_add]; omega
  have hp1 : 2 ^ (l + 1) = 2 * 2 ^ l := by rw [pow_succ]; omega
  have hp3 : 2 ^ (l + 3) = 8 * 2 ^ l := by rw [pow_add]; omega
  have hpl := Nat.two_pow_pos l
  have e1 : target fwdFFTInPlaceAVX2 .first_loop_end = 31 := by decide +kernel
  have e2 : target fwdFFTInPlaceAVX2 .m_loop_end = 82 := by decide +kernel
  have e3 : target fwdFFTInPlaceAVX2 .last_loop_2_end = 109 := by decide +kernel
  have e4 : target fwdFFTInPlaceAVX2 .last_loop_1_end = 136 := by decide +kernel
  have a0 : arg64 (sliceArg b (2 ^ (l + 4)) c1 ++ sliceArg tb L c2) 0 = some b := by
    simp only [arg64, arg32, sliceArg, word64]
    simp [join_split, join_ofNat]
  have a1 : arg64 (sliceArg b (2 ^ (l + 4)) c1 ++ sliceArg tb L c2) 8 = some (BitVec.ofNat 64 (2 ^ (l + 4))) := by
    simp only [arg64, arg32, sliceArg, word64]
    simp only [List.cons_append, List.nil_append]
    simp [join_split, join_ofNat]
  have a2 : arg64 (sliceArg b (2 ^ (l + 4)) c1 ++ sliceArg tb L c2) 24 = some tb := by
    simp only [arg64, arg32, sliceArg, word64]
    simp [join_split, join_ofNat]
  have hm : m = over m b (dw x) (2 * 2 ^ (l + 4)) := (over_holds hx (by omega)).symm
  have hsh : BitVec.ofNat 64 (2 ^ (l + 4)) >>> 1 = BitVec.ofNat 64 (0 + 8 * 2 ^ l) := by
    rw [hl4, shr_ofNat (by omega)]; congr 1; omega
  have hsh4 : BitVec.ofNat 64 (2 ^ (l + 4)) >>> 4 = BitVec.ofNat 64 (2 ^ l) := by
    rw [hl4, shr_ofNat (by omega)]; congr 1; omega
  have l0 := h.re (x := x) 0 (by omega) (addr8 tb (2 * 0))
  have l1 := h.im (x := x) 0 (by omega) (addr8_im tb 0)
  rw [← hm] at l0 l1
  generalize hfp : sliceArg b (2 ^ (l + 4)) c1 ++ sliceArg tb L c2 = fp at *
  refine Wp.trans (Q := fun s => RowI m b (2 ^ (l + 4)) 31 0 1 .DI .R8 s.gpr (fwdR F) x 0 (8 * 2 ^ l) (tw 0) 0 s ∧
    s.gpr .AX = b ∧ s.gpr .CX = tb ∧ s.gpr .DX = BitVec.ofNat 64 (2 ^ (l + 4)) ∧ s.gpr .BX = BitVec.ofNat 64 (2 * 1) ∧
    s.gpr .SI = BitVec.ofNat 64 (0 + 8 * 2 ^ l)) ?_ ?_
  · unfold entry
    have z1 : (0#64) = BitVec.ofNat 64 (2 * 0) := rfl
    iterate 6 asm1 [a0, a1, a2, e1, BitVec.xor_self, hsh]
    rw [z1]
    iterate 6 asm1 [a0, a1, a2, e1, BitVec.xor_self, hsh, l0, l1, join2_split2]
    refine .refl ⟨⟨rfl, rfl, hm, ?_, ?_, ?_, ?_, fun _ _ _ => rfl⟩, ?_, ?_, ?_, ?_, ?_⟩
    · simp only [Function.update_apply, reduceCtorEq, if_true, if_false]
    · simp only [Function.update_apply, reduceCtorEq, if_true, if_false]
    · simp only [Function.update_apply, reduceCtorEq, Nat.reduceEqDiff, one_ne_zero, zero_ne_one, if_true, if_false]
    · simp only [Function.update_apply, reduceCtorEq, Nat.reduceEqDiff, one_ne_zero, zero_ne_one, if_true, if_false]
    · simp only [Function.update_apply, reduceCtorEq, if_true, if_false]
    · simp only [Function.update_apply, reduceCtorEq, if_true, if_false]
    · simp only [Function.update_apply, reduceCtorEq, if_true, if_false]
    · simp only [Function.update_apply, reduceCtorEq, if_true, if_false]; rfl
    · simp only [Function.update_apply, reduceCtorEq, if_true, if_false]
  rintro s ⟨hr, q1, q2, q3, q4, q5⟩
  refine (fwd_first_row h.align h.size q1 q5 (by omega) s hr).trans ?_
  generalize s.gpr = g at q1 q2 q3 q4 q5
  clear hr s
  rintro ⟨pc, g', y', c', m', r⟩ ⟨h0, h1, h2, h3, h4, h5, h6, h7⟩
  dsimp only at h0 h1 h2 h3 h4 h5 h6 h7
  subst h0 h1 h2
  rw [← h7 _ (by decide) (by decide)] at q1 q2 q3 q4 q5
  have hlt : (BitVec.ofNat 64 (0 + 8 * 2 ^ l)).slt (BitVec.ofNat 64 (0 + 8 * 2 ^ l)) = false := by
    rw [slt_ofNat (by omega) (by omega)]; simp
  rw [← bfRow_eq]
  iterate 9 asm1 [e2, q1, q2, q3, q4, q5, h3, h4, hlt, hsh, hsh4, Bool.false_eq_true]
  have hfst : (bfRow (fwdR F) x 0 (8 * 2 ^ l) (tw 0), 1) = (bfRow (fwdR F) x 0 (2 ^ (l + 4) / 2) (tw 0), 1) := by
    rw [hl4, show 16 * 2 ^ l / 2 = 8 * 2 ^ l by omega]
  refine (fwd_mid h hL (2 ^ (l + 4)) 1 (le_refl _) (by omega) (by have := Nat.lt_two_pow_self (n := l); omega) _ _
    ⟨rfl, rfl, rfl, ?_, ?_, ?_, ?_⟩ ?_ ?_ ?_).trans ?_
  · simp only [Function.update_apply, reduceCtorEq, if_false, q1]
  · simp only [Function.update_apply, reduceCtorEq, if_false, q2]
  · simp only [Function.update_apply, reduceCtorEq, if_false, q3]
  · simp only [Function.update_apply, reduceCtorEq, if_false, q4]; rfl
  · simp only [Function.update_apply, reduceCtorEq, if_true, if_false]
  · simp only [Function.update_apply, reduceCtorEq, if_true, if_false]
    rw [show l + 4 - 1 = l + 3 by omega, hp3]; simp
  · simp only [Function.update_apply, reduceCtorEq, if_true, if_false]; rfl
  have hmid := fwdMid_snd (B := fwdR F) (tw := tw) (l := l) (2 ^ (l + 4)) 1 (le_refl _) (by omega)
    (by have := Nat.lt_two_pow_self (n := l); omega) (2 ^ (l + 4 - 1)) (bfRow (fwdR F) x 0 (8 * 2 ^ l) (tw 0))
  generalize hX : fwdMid (fwdR F) tw (2 ^ (l + 4)) (2 ^ (l + 4)) (2 ^ 1) (2 ^ (l + 4 - 1)) (bfRow (fwdR F) x 0 (8 * 2 ^ l) (tw 0), 2 ^ 1 - 1) = X1 at hmid ⊢
  clear h3 h4 h5 h6 h7 q1 q2 q3 q4 q5 hlt
  rintro ⟨pc, g', y', c', m', r⟩ ⟨h0, h1, h2, h3, h4, h5, h6⟩
  dsimp only at h0 h1 h2 h3 h4 h5 h6
  subst h0 h1 h2
  have hN8 : 2 ^ (l + 4) = 8 * 2 ^ (l + 1) := by rw [hl4, hp1]; ring
  rw [hN8] at h h5 ⊢
  iterate 2 asm1 [e3, BitVec.xor_self]
  refine (fwd_stage2 h (g0 := g') (x := X1.1) (w := 2 ^ (l + 1) - 1) h3 h4 h5 (by omega) _ ⟨rfl, rfl, rfl, ?_, ?_, ?_⟩).trans ?_
  · simp only [Function.update_apply, reduceCtorEq, if_false, h6]
  · simp only [Function.update_apply, reduceCtorEq, if_true]
  · intro r hr
    simp only [List.mem_cons, List.not_mem_nil, or_false, not_or] at hr
    simp only [Function.update_apply, hr.2, if_false]
  rintro ⟨pc, g2, y', c', m', r⟩ ⟨h0, h1, h2, h3', hi', hk'⟩
  dsimp only at h0 h1 h2 h3' hi' hk'
  subst h0 h1 h2
  rw [← hk' _ (by decide)] at h3 h4 h5
  have hlt : (BitVec.ofNat 64 (8 * 2 ^ (l + 1))).slt (BitVec.ofNat 64 (8 * 2 ^ (l + 1))) = false := by
    rw [slt_ofNat (by omega) (by omega)]; simp
  iterate 6 asm1 [e4, h5, hi', hlt, Bool.false_eq_true, BitVec.xor_self, VOp.eval, zero_ofQ]
  refine (fwd_stage1 h (g0 := g2) (x := (st2N (fwdR F) tw X1.1 (2 ^ (l + 1) - 1) (2 ^ (l + 1))).1) (w := 2 ^ (l + 1) - 1 + 2 ^ (l + 1)) h3 h4 h5
    (by omega) _ ⟨rfl, rfl, rfl, ?_, ?_, ?_⟩ ?_).trans ?_
  · simp only [Function.update_apply, reduceCtorEq, if_false, h3']
  · simp only [Function.update_apply, reduceCtorEq, if_true]
  · intro r hr
    simp only [List.mem_cons, List.not_mem_nil, or_false, not_or] at hr
    simp only [Function.update_apply, hr.2, if_false]
  · simp only [Function.update_apply, if_true]
  rintro ⟨pc, g3, y', c', m', r⟩ ⟨⟨h0, h1, h2, h3'', hi'', hk''⟩, -⟩
  dsimp only at h0 h1 h2 h3'' hi'' hk''
  subst h0 h1 h2
  rw [← hk'' _ (by decide)] at h5
  iterate 3 asm1 [h5, hi'', hlt, Bool.false_eq_true]
  refine Wp.step rfl ?_
  simp only [exec, wpO_some]
  refine .refl ⟨rfl, ?_⟩
  simp only
  congr 2
  unfold fwdFFTStages
  dsimp only
  rw [← hN8, ← hfst, show 2 ^ (l + 4) / 2 = 2 ^ (l + 4 - 1) by rw [show l + 4 - 1 = l + 3 by omega, hl4, hp3]; omega]
  have hX' : fwdMid (fwdR F) tw (2 ^ (l + 4)) (2 ^ (l + 4)) 2 (2 ^ (l + 4 - 1)) (bfRow (fwdR F) x 0 (8 * 2 ^ l) (tw 0), 1) = (X1.1, 2 ^ (l + 1) - 1) := by
    rw [← hmid]; exact hX
  rw [hX', hN8, bfStage2_eq, bfStage1_eq]

/-! ### The inverse kernel -/

/-- The next twiddle factor of a stage of the inverse. -/
def invW (l a : Nat) : Nat := 2 ^ (l + 3) - 2 ^ (a + 1)

theorem invMid_snd {B : Bfly} {tw : Nat → BitVec 64 × BitVec 64} {l : Nat} :
    ∀ fuel a, a ≤ l → a ≤ fuel → ∀ (t : Nat) (x : Nat → BitVec 64),
      (invMid B tw fuel (2 ^ a) t (x, invW l a)).2 = 2 ^ (l + 3) - 2 := by
  intro fuel
  induction fuel with
  | zero =>
    intro a h1 h2 t x
    obtain rfl : a = 0 := by omega
    rfl
  | succ fuel ih =>
    intro a h1 h2 t x
    cases a with
    | zero => rw [invMid, if_neg (by norm_num)]; rfl
    | succ a =>
      have ha1' : 2 ^ (a + 1) = 2 ^ a * 2 := pow_succ 2 a
      have ha2' : 2 ^ (a + 1 + 1) = 2 ^ a * 4 := by rw [pow_succ, pow_succ]; ring
      have hpa := Nat.two_pow_pos a
      have hle : 2 ^ a * 8 ≤ 2 ^ (l + 3) := by
        rw [show 2 ^ a * 8 = 2 ^ (a + 3) by rw [pow_add]; norm_num]
        exact Nat.pow_le_pow_right (by norm_num) (by omega)
      rw [invMid, if_pos (by omega), bfStage_eq, show 2 ^ (a + 1) / 2 = 2 ^ a by omega,
        show invW l (a + 1) + 2 ^ (a + 1) = invW l a by unfold invW; omega]
      exact ih a (by omega) (by omega) _ _

theorem inv_mid {F : Fpu} {fp : List (BitVec 32)} {m : Memory} {b tb : BitVec 64} {l L : Nat}
    {tw : Nat → BitVec 64 × BitVec 64} (h : Table m b tb tw (2 ^ (l + 4)) L) (hL : 2 ^ (l + 3) ≤ L + 1) :
    ∀ fuel a, a ≤ l → a ≤ fuel → ∀ (x : Nat → BitVec 64) (s : St),
      MidI m b tb (2 ^ (l + 4)) 102 x (invW l a) s → s.gpr .SI = BitVec.ofNat 64 (8 * 2 ^ (l - a)) →
      s.gpr .DI = BitVec.ofNat 64 (2 ^ a) →
      Wp F invFFTInPlaceAVX2 fp s (fun s => MidI m b tb (2 ^ (l + 4)) 105
        (invMid (invR F) tw fuel (2 ^ a) (8 * 2 ^ (l - a)) (x, invW l a)).1 (2 ^ (l + 3) - 2) s) := by
  have e1 : target invFFTInPlaceAVX2 .m_loop_body = 60 := by decide +kernel
  have e2 : target invFFTInPlaceAVX2 .i_loop_end = 97 := by decide +kernel
  have hs := h.size
  have hl4 : 2 ^ (l + 4) = 16 * 2 ^ l := by rw [pow_add]; omega
  have hp3 : 2 ^ (l + 3) = 8 * 2 ^ l := by rw [pow_add]; omega
  have hpl := Nat.two_pow_pos l
  have base : ∀ (x : Nat → BitVec 64) (s : St),
      MidI m b tb (2 ^ (l + 4)) 102 x (invW l 0) s → s.gpr .DI = BitVec.ofNat 64 (2 ^ 0) →
      Wp F invFFTInPlaceAVX2 fp s (fun s => MidI m b tb (2 ^ (l + 4)) 105 x (2 ^ (l + 3) - 2) s) := by
    rintro x ⟨pc, g, y, c', m', r⟩ ⟨h0, h1, h2, h3, h4, h5, h6⟩ h7
    dsimp only at h0 h1 h2 h3 h4 h5 h6 h7
    subst h0 h1 h2
    have hle : (2 : BitVec 64).sle (BitVec.ofNat 64 (2 ^ 0)) = false := by decide
    iterate 3 asm1 [h7, hle, Bool.false_eq_true]
    exact .refl ⟨rfl, rfl, rfl, h3, h4, h5, h6⟩
  intro fuel
  induction fuel with
  | zero =>
    intro a ha1 ha2 x s hs h7 h8
    obtain rfl : a = 0 := by omega
    exact base x s hs h8
  | succ fuel ih =>
    intro a ha1 ha2 x s hs h7 h8
    cases a with
    | zero =>
      rw [invMid, if_neg (by norm_num)]
      exact base x s hs h8
    | succ a =>
      obtain ⟨pc, g, y, c', m', r⟩ := s
      obtain ⟨h0, h1, h2, h3, h4, h5, h6⟩ := hs
      dsimp only at h0 h1 h2 h3 h4 h5 h6 h7 h8
      subst h0 h1 h2
      have ha1' : 2 ^ (a + 1) = 2 ^ a * 2 := pow_succ 2 a
      have ha2' : 2 ^ (a + 1 + 1) = 2 ^ a * 4 := by rw [pow_succ, pow_succ]; ring
      have hpa := Nat.two_pow_pos a
      have hpos := Nat.two_pow_pos (l - (a + 1))
      have hp := pow_split ha1
      have hple : 2 ^ (l - (a + 1)) ≤ 2 ^ l := Nat.pow_le_pow_right (by norm_num) (by omega)
      have hale : 2 ^ (a + 1) ≤ 2 ^ l := Nat.pow_le_pow_right (by norm_num) ha1
      have hq : 2 ^ (l - a) = 2 ^ (l - (a + 1)) * 2 := by
        rw [← pow_succ, show l - (a + 1) + 1 = l - a by omega]
      have hw : invW l (a + 1) + 2 ^ (a + 1) = invW l a := by unfold invW; omega
      have hrw : invMid (invR F) tw (fuel + 1) (2 ^ (a + 1)) (8 * 2 ^ (l - (a + 1))) (x, invW l (a + 1)) =
          invMid (invR F) tw fuel (2 ^ a) (8 * 2 ^ (l - a))
            ((stageN (invR F) tw (8 * 2 ^ (l - (a + 1))) x (invW l (a + 1)) (2 ^ (a + 1))).1, invW l a) := by
        rw [invMid, if_pos (by omega), bfStage_eq, show 2 ^ (a + 1) / 2 = 2 ^ a by omega, hw, hq, Nat.mul_assoc]
      rw [hrw]
      have hle : (2 : BitVec 64).sle (BitVec.ofNat 64 (2 ^ (a + 1))) = true := by
        rw [show (2 : BitVec 64) = BitVec.ofNat 64 2 from rfl, sle_ofNat (by omega) (by omega), decide_eq_true_eq]; omega
      iterate 6 asm1 [e1, e2, h7, h8, hle, BitVec.xor_self]
      refine (inv_stage h (g0 := g) (M := 2 ^ (a + 1)) (Q := 2 ^ (l - (a + 1))) (w := invW l (a + 1))
        (x := x) h3 h4 h7 h8 ?_ hpos ?_ _ ⟨rfl, rfl, rfl, ?_, ?_, ?_⟩).trans ?_
      · have : 2 * 2 ^ (a + 1) * (8 * 2 ^ (l - (a + 1))) = 16 * (2 ^ (a + 1) * 2 ^ (l - (a + 1))) := by ring
        rw [this, ← hp, hl4]
      · unfold invW; omega
      · simp only [Function.update_apply, reduceCtorEq, if_false, h6]
      · simp only [Function.update_apply, reduceCtorEq, if_true]
      · intro r hr
        simp only [List.mem_cons, List.not_mem_nil, or_false, not_or] at hr
        simp only [Function.update_apply, hr.2.1, if_false]
      rintro ⟨pc, g', y', c'', m', r⟩ ⟨h0, h1, h2, h3', hi', hk'⟩
      dsimp only at h0 h1 h2 h3' hi' hk'
      subst h0 h1 h2
      have hlt : (BitVec.ofNat 64 (2 ^ (a + 1))).slt (BitVec.ofNat 64 (2 ^ (a + 1))) = false := by
        rw [slt_ofNat (by omega) (by omega)]; simp
      have k1 : g' .DI = BitVec.ofNat 64 (2 ^ (a + 1)) := by rw [hk' _ (by decide), h8]
      have k2 : g' .SI = BitVec.ofNat 64 (8 * 2 ^ (l - (a + 1))) := by rw [hk' _ (by decide), h7]
      have hsl : BitVec.ofNat 64 (8 * 2 ^ (l - (a + 1))) <<< 1 = BitVec.ofNat 64 (8 * 2 ^ (l - a)) := by
        rw [shl_ofNat, hq, pow_one, Nat.mul_assoc]
      have hsr : BitVec.ofNat 64 (2 ^ (a + 1)) >>> 1 = BitVec.ofNat 64 (2 ^ a) := by
        rw [shr_ofNat (by omega)]; congr 1; omega
      iterate 5 asm1 [hi', k1, k2, hlt, hsl, hsr, Bool.false_eq_true]
      refine ih a (by omega) (by omega) _ _ ⟨rfl, rfl, rfl, ?_, ?_, ?_, ?_⟩ ?_ ?_
      · simp only [Function.update_apply, reduceCtorEq, if_false]
        rw [hk' _ (by decide), h3]
      · simp only [Function.update_apply, reduceCtorEq, if_false]
        rw [hk' _ (by decide), h4]
      · simp only [Function.update_apply, reduceCtorEq, if_false]
        rw [hk' _ (by decide), h5]
      · simp only [Function.update_apply, reduceCtorEq, if_false]
        rw [h3', hw]
      · simp only [Function.update_apply, reduceCtorEq, if_true, if_false]
      · simp only [Function.update_apply, reduceCtorEq, if_true]

/-- Scaling block by block is scaling the row. -/
theorem rowN_invL (F : Fpu) (z : BitVec 64) (x : Nat → BitVec 64) (Q : Nat) (w : BitVec 64 × BitVec 64) :
    ∀ J ≤ Q, rowN (invL F z) x 0 (8 * Q) w J = fun j =>
      if j < 8 * J ∨ (8 * Q ≤ j ∧ j < 8 * Q + 8 * J) then F.mul (rowN (invR F) x 0 (8 * Q) w J j) z
      else rowN (invR F) x 0 (8 * Q) w J j := by
  intro J
  induction J with
  | zero =>
    intro _
    funext j
    rw [if_neg (by omega)]; rfl
  | succ J ih =>
    intro hJ
    have ih := ih (by omega)
    have e : ∀ c, (8 * J ≤ c ∧ c < 8 * J + 8) ∨ (8 * J + 8 * Q ≤ c ∧ c < 8 * J + 8 * Q + 8) →
        rowN (invL F z) x 0 (8 * Q) w J c = rowN (invR F) x 0 (8 * Q) w J c := by
      intro c hc
      rw [ih]
      dsimp only
      rw [if_neg (by omega)]
    rw [rowN_succ, rowN_succ, bf8_eq _ _ (by omega), bf8_eq _ _ (by omega)]
    simp only [Nat.zero_add]
    generalize hA : rowN (invL F z) x 0 (8 * Q) w J = A at *
    generalize hB : rowN (invR F) x 0 (8 * Q) w J = B at *
    have e' : ∀ q < 4, A (8 * J + q) = B (8 * J + q) ∧ A (8 * J + 4 + q) = B (8 * J + 4 + q) ∧
        A (8 * J + 8 * Q + q) = B (8 * J + 8 * Q + q) ∧ A (8 * J + 8 * Q + 4 + q) = B (8 * J + 8 * Q + 4 + q) := fun q hq =>
      ⟨e _ (by omega), e _ (by omega), e _ (by omega), e _ (by omega)⟩
    funext i
    by_cases h1 : 8 * J ≤ i ∧ i < 8 * J + 4
    · obtain ⟨q, rfl⟩ := Nat.exists_eq_add_of_le h1.1
      obtain ⟨e1, e2, e3, e4⟩ := e' q (by omega)
      rw [if_pos (by omega)]
      simp (disch := omega) only [updN_in, updN_out, Nat.add_sub_cancel_left, e1, e2, e3, e4, invL]
    by_cases h2 : 8 * J + 4 ≤ i ∧ i < 8 * J + 4 + 4
    · obtain ⟨q, rfl⟩ := Nat.exists_eq_add_of_le h2.1
      obtain ⟨e1, e2, e3, e4⟩ := e' q (by omega)
      rw [if_pos (by omega)]
      simp (disch := omega) only [updN_in, updN_out, Nat.add_sub_cancel_left, e1, e2, e3, e4, invL]
    by_cases h3 : 8 * J + 8 * Q ≤ i ∧ i < 8 * J + 8 * Q + 4
    · obtain ⟨q, rfl⟩ := Nat.exists_eq_add_of_le h3.1
      obtain ⟨e1, e2, e3, e4⟩ := e' q (by omega)
      rw [if_pos (by omega)]
      simp (disch := omega) only [updN_in, updN_out, Nat.add_sub_cancel_left, e1, e2, e3, e4, invL]
    by_cases h4 : 8 * J + 8 * Q + 4 ≤ i ∧ i < 8 * J + 8 * Q + 4 + 4
    · obtain ⟨q, rfl⟩ := Nat.exists_eq_add_of_le h4.1
      obtain ⟨e1, e2, e3, e4⟩ := e' q (by omega)
      rw [if_pos (by omega)]
      simp (disch := omega) only [updN_in, updN_out, Nat.add_sub_cancel_left, e1, e2, e3, e4, invL]
    · simp (disch := omega) only [updN_in, updN_out]
      rw [ih]
      dsimp only
      by_cases h5 : i < 8 * J ∨ 8 * Q ≤ i ∧ i < 8 * Q + 8 * J
      · rw [if_pos h5, if_pos (by omega)]
      · rw [if_neg h5, if_neg (by omega)]

/-- The inverse kernel computes the inverse transform. -/
theorem invFFTInPlaceAVX2_spec {F : Fpu} {b tb z : BitVec 64} {l L c1 c2 : Nat} (g : Reg → BitVec 64) (y : Nat → Y)
    (m : Memory) {x : Nat → BitVec 64} {tw : Nat → BitVec 64 × BitVec 64}
    (hx : Holds m b (dw x) (2 * 2 ^ (l + 4))) (h : Table m b tb tw (2 ^ (l + 4)) L) (hL : 2 ^ (l + 3) ≤ L + 1) :
    Returns F invFFTInPlaceAVX2 (sliceArg b (2 ^ (l + 4)) c1 ++ sliceArg tb L c2 ++ word64 z) (entry g y m)
      (over m b (dw (invFFTStages (invR F) (invN F) (fun v => F.mul v z) (2 ^ (l + 4)) x tw)) (2 * 2 ^ (l + 4))) := by
  have hs := h.size
  have hs' := h.size'
  have hl4 : 2 ^ (l + 4) = 16 * 2 ^ l := by rw [pow_add]; omega
  have hp1 : 2 ^ (l + 1) = 2 * 2 ^ l := by rw [pow_succ]; omega
  have hp3 : 2 ^ (l + 3) = 8 * 2 ^ l := by rw [pow_add]; omega
  have hpl := Nat.two_pow_pos l
  have e1 : target invFFTInPlaceAVX2 .first_loop_1_end = 26 := by decide +kernel
  have e2 : target invFFTInPlaceAVX2 .first_loop_2_end = 53 := by decide +kernel
  have e3 : target invFFTInPlaceAVX2 .m_loop_end = 102 := by decide +kernel
  have e4 : target invFFTInPlaceAVX2 .last_loop_end = 136 := by decide +kernel
  have a0 : arg64 (sliceArg b (2 ^ (l + 4)) c1 ++ sliceArg tb L c2 ++ word64 z) 0 = some b := by
    simp only [arg64, arg32, sliceArg, word64]
    simp [join_split, join_ofNat]
  have a1 : arg64 (sliceArg b (2 ^ (l + 4)) c1 ++ sliceArg tb L c2 ++ word64 z) 8 = some (BitVec.ofNat 64 (2 ^ (l + 4))) := by
    simp only [arg64, arg32, sliceArg, word64]
    simp only [List.cons_append, List.nil_append]
    simp [join_split, join_ofNat]
  have a2 : arg64 (sliceArg b (2 ^ (l + 4)) c1 ++ sliceArg tb L c2 ++ word64 z) 24 = some tb := by
    simp only [arg64, arg32, sliceArg, word64]
    simp [join_split, join_ofNat]
  have a3 : arg64 (sliceArg b (2 ^ (l + 4)) c1 ++ sliceArg tb L c2 ++ word64 z) 48 = some z := by
    simp only [arg64, arg32, sliceArg, word64]
    simp [join_split, join_ofNat]
  have hm : m = over m b (dw x) (2 * 2 ^ (l + 4)) := (over_holds hx (by omega)).symm
  have hsh : BitVec.ofNat 64 (2 ^ (l + 4)) >>> 1 = BitVec.ofNat 64 (0 + 8 * 2 ^ l) := by
    rw [hl4, shr_ofNat (by omega)]; congr 1; omega
  have hsh4 : BitVec.ofNat 64 (2 ^ (l + 4)) >>> 4 = BitVec.ofNat 64 (2 ^ l) := by
    rw [hl4, shr_ofNat (by omega)]; congr 1; omega
  have hN8 : 2 ^ (l + 4) = 8 * 2 ^ (l + 1) := by rw [hl4, hp1]; ring
  have h' := h
  rw [hN8] at h'
  generalize hfp : sliceArg b (2 ^ (l + 4)) c1 ++ sliceArg tb L c2 ++ word64 z = fp at *
  refine Wp.trans (Q := fun s => CntI m b (8 * 2 ^ (l + 1)) 26 .SI [.BX, .SI] s.gpr x 0 0 s ∧
    s.gpr .AX = b ∧ s.gpr .CX = tb ∧ s.gpr .DX = BitVec.ofNat 64 (2 ^ (l + 4))) ?_ ?_
  · unfold entry
    iterate 6 asm1 [a0, a1, a2, e1, BitVec.xor_self]
    refine .refl ⟨⟨rfl, rfl, by rw [← hN8]; exact hm, ?_, ?_, fun _ _ => rfl⟩, ?_, ?_, ?_⟩
    · simp only [Function.update_apply, reduceCtorEq, if_true, if_false]
    · simp only [Function.update_apply, reduceCtorEq, if_true, if_false]
    · simp only [Function.update_apply, reduceCtorEq, if_true, if_false]
    · simp only [Function.update_apply, reduceCtorEq, if_true, if_false]
    · simp only [Function.update_apply, reduceCtorEq, if_true, if_false]
  rintro s ⟨hr, q1, q2, q3⟩
  rw [hN8] at q3
  refine (inv_stage1 h' q1 q2 q3 (by omega) s hr).trans ?_
  generalize s.gpr = g at q1 q2 q3
  clear hr s
  rintro ⟨pc, g', y', c', m', r⟩ ⟨h0, h1, h2, h3, h4, h5⟩
  dsimp only at h0 h1 h2 h3 h4 h5
  subst h0 h1 h2
  rw [← h5 _ (by decide)] at q1 q2 q3
  have hlt : (BitVec.ofNat 64 (8 * 2 ^ (l + 1))).slt (BitVec.ofNat 64 (8 * 2 ^ (l + 1))) = false := by
    rw [slt_ofNat (by omega) (by omega)]; simp
  iterate 5 asm1 [e2, q3, h4, hlt, BitVec.xor_self, Bool.false_eq_true]
  refine (inv_stage2 h' (g0 := g') (x := (st1N (invN F) tw x 0 (2 ^ (l + 1))).1) (w := 0 + 2 * 2 ^ (l + 1)) q1 q2 q3 (by omega) _
    ⟨rfl, rfl, rfl, ?_, ?_, ?_⟩).trans ?_
  · simp only [Function.update_apply, reduceCtorEq, if_false, h3]
  · simp only [Function.update_apply, reduceCtorEq, if_true]
  · intro r hr
    simp only [List.mem_cons, List.not_mem_nil, or_false, not_or] at hr
    simp only [Function.update_apply, hr.2, if_false]
  generalize hX2 : (st2N (invR F) tw (st1N (invN F) tw x 0 (2 ^ (l + 1))).1 (0 + 2 * 2 ^ (l + 1)) (2 ^ (l + 1))).1 = X2
  have hw2 : 0 + 2 * 2 ^ (l + 1) + 2 ^ (l + 1) = invW l l := by unfold invW; omega
  rw [hw2]
  rintro ⟨pc, g2, y', c', m', r⟩ ⟨h0, h1, h2, h3', hi', hk'⟩
  dsimp only at h0 h1 h2 h3' hi' hk'
  subst h0 h1 h2
  rw [← hk' _ (by decide)] at q1 q2 q3
  have q3' : g2 .DX = BitVec.ofNat 64 (2 ^ (l + 4)) := by rw [q3, hN8]
  have hlt' : (BitVec.ofNat 64 (8 * 2 ^ (l + 1))).slt (BitVec.ofNat 64 (2 ^ (l + 4))) = false := by rw [hN8]; exact hlt
  rw [← hN8]
  rw [← hN8] at hi'
  rw [← hN8] at hlt'
  iterate 7 asm1 [e3, q3', hi', hlt', hsh4, Bool.false_eq_true]
  refine (inv_mid h hL (2 ^ (l + 4)) l (le_refl _) (by have := Nat.lt_two_pow_self (n := l); omega) X2 _
    ⟨rfl, rfl, rfl, ?_, ?_, ?_, ?_⟩ ?_ ?_).trans ?_
  · simp only [Function.update_apply, reduceCtorEq, if_false, q1]
  · simp only [Function.update_apply, reduceCtorEq, if_false, q2]
  · simp only [Function.update_apply, reduceCtorEq, if_false, q3']
  · simp only [Function.update_apply, reduceCtorEq, if_false, h3']
  · simp only [Function.update_apply, reduceCtorEq, if_true, if_false]
    rw [Nat.sub_self]; rfl
  · simp only [Function.update_apply, reduceCtorEq, if_true]
  have hmid := invMid_snd (B := invR F) (tw := tw) (l := l) (2 ^ (l + 4)) l (le_refl _)
    (by have := Nat.lt_two_pow_self (n := l); omega) (8 * 2 ^ (l - l)) X2
  generalize hX : invMid (invR F) tw (2 ^ (l + 4)) (2 ^ l) (8 * 2 ^ (l - l)) (X2, invW l l) = X3 at hmid ⊢
  rintro ⟨pc, g3, y3, c', m', r⟩ ⟨h0, h1, h2, k3, k4, k5, k6⟩
  dsimp only at h0 h1 h2 k3 k4 k5 k6
  subst h0 h1 h2
  have l0 := h.re (x := X3.1) (2 ^ (l + 3) - 2) (by omega) (addr8 tb (2 * (2 ^ (l + 3) - 2)))
  have l1 := h.im (x := X3.1) (2 ^ (l + 3) - 2) (by omega) (addr8_im tb (2 ^ (l + 3) - 2))
  iterate 8 asm1 [a3, e4, k3, k4, k5, k6, hsh, l0, l1, join2_split2, BitVec.xor_self]
  refine (inv_last_row (m := m) (x := X3.1) (w := tw (2 ^ (l + 3) - 2)) (z := z) (g0 := Function.update g3 .CX (BitVec.ofNat 64 (0 + 8 * 2 ^ l)))
    (j1 := 0) (Q := 2 ^ l) h.align h.size ?_ ?_ (by omega) _ ⟨rfl, rfl, rfl, ?_, ?_, ?_, ?_, ?_, ?_⟩).trans ?_
  · simp only [Function.update_apply, reduceCtorEq, if_false, k3]
  · simp only [Function.update_apply, reduceCtorEq, if_true]
  · simp only [Function.update_apply, reduceCtorEq, if_false, if_true, Nat.mul_zero, Nat.add_zero]
  · simp only [Function.update_apply, reduceCtorEq, if_false, if_true, Nat.mul_zero, Nat.add_zero]
  · simp only [Function.update_apply, reduceCtorEq, Nat.reduceEqDiff, one_ne_zero, zero_ne_one, if_true, if_false]
  · simp only [Function.update_apply, reduceCtorEq, Nat.reduceEqDiff, one_ne_zero, zero_ne_one, if_true, if_false]
  · intro r hr1 hr2
    simp only [Function.update_apply, hr1, hr2, if_false]
    split_ifs <;> rfl
  · simp only [Function.update_apply, reduceCtorEq, Nat.reduceEqDiff, one_ne_zero, zero_ne_one, if_true, if_false]
  rintro ⟨pc, g4, y4, c', m', r⟩ ⟨h0, h1, h2, j3, j4, j5, j6, j7, -⟩
  dsimp only at h0 h1 h2 j3 j4 j5 j6 j7
  subst h0 h1 h2
  have j8 : g4 .CX = BitVec.ofNat 64 (0 + 8 * 2 ^ l) := by
    rw [j7 _ (by decide) (by decide)]; simp only [Function.update_apply, reduceCtorEq, if_true]
  have hlt2 : (BitVec.ofNat 64 (0 + 8 * 2 ^ l)).slt (BitVec.ofNat 64 (0 + 8 * 2 ^ l)) = false := by
    rw [slt_ofNat (by omega) (by omega)]; simp
  iterate 3 asm1 [j3, j8, hlt2, Bool.false_eq_true]
  refine Wp.step rfl ?_
  simp only [exec, wpO_some]
  refine .refl ⟨rfl, ?_⟩
  simp only
  have hX' : invMid (invR F) tw (2 ^ (l + 4)) (2 ^ (l + 4) / 16) 8 (X2, invW l l) = (X3.1, 2 ^ (l + 3) - 2) := by
    rw [← hmid, ← hX, Nat.sub_self, pow_zero, Nat.mul_one, show 2 ^ (l + 4) / 16 = 2 ^ l by omega]
  have hfin : invFFTStages (invR F) (invN F) (fun v => F.mul v z) (2 ^ (l + 4)) x tw =
      rowN (invL F z) X3.1 0 (8 * 2 ^ l) (tw (2 ^ (l + 3) - 2)) (2 ^ l) := by
    rw [rowN_invL F z X3.1 (2 ^ l) _ (2 ^ l) (le_refl _)]
    unfold invFFTStages
    dsimp only
    have hs2 : bfStage2 (invR F) tw (2 ^ (l + 4)) (bfStage1 (invN F) tw (2 ^ (l + 4)) (x, 0)) = (X2, invW l l) := by
      rw [hN8, bfStage1_eq, bfStage2_eq, hX2, hw2]
    rw [hs2, hX']
    dsimp only
    rw [show 2 ^ (l + 4) / 2 = 8 * 2 ^ l by omega, bfRow_eq]
    funext j
    by_cases hj : j < 2 ^ (l + 4)
    · rw [if_pos hj, if_pos (by omega)]
    · rw [if_neg hj, if_neg (by omega)]
  rw [hfin]

end Asm
end Tfhe
