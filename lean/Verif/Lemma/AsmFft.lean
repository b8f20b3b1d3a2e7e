import Verif.Lemma.AsmInPlace
import Verif.Model.AsmFft
import Verif.Model.FftStages

/-!
# What the programs of `math/poly/asm_fft_amd64.s` do to memory
-/
set_option linter.unusedSimpArgs false

namespace Tfhe
namespace Asm
open Tfhe.Fft

/-- The butterfly of the forward kernel, except in the stage with neighbours. -/
def fwdR (F : Fpu) : Bfly := fun uR uI vR vI wR wI =>
  let vwR := F.fnma vI wI (F.mul vR wR)
  let vwI := F.fma vI wR (F.mul vR wI)
  (F.add uR vwR, F.add uI vwI, F.sub uR vwR, F.sub uI vwI)

/-- The butterfly of the forward kernel in the stage with neighbours. -/
def fwdN (F : Fpu) : Bfly := fun uR uI vR vI wR wI =>
  let nR := F.sub 0 (F.fms vR wR (F.mul vI wI))
  let nI := F.sub 0 (F.fma vR wI (F.mul vI wR))
  (F.sub uR nR, F.sub uI nI, F.add uR nR, F.add uI nI)

/-- The butterfly of the inverse kernel, except in the stage with neighbours. -/
def invR (F : Fpu) : Bfly := fun uR uI vR vI wR wI =>
  let dR := F.sub uR vR
  let dI := F.sub uI vI
  (F.add uR vR, F.add uI vI, F.fnma dI wI (F.mul dR wR), F.fma dI wR (F.mul dR wI))

/-- The butterfly of the inverse kernel in the stage with neighbours. -/
def invN (F : Fpu) : Bfly := fun uR uI vR vI wR wI =>
  let dR := F.sub uR vR
  let dI := F.sub uI vI
  (F.add uR vR, F.add uI vI, F.fms dR wR (F.mul dI wI), F.fma dR wI (F.mul dI wR))

/-- The butterfly of the last stage of the inverse kernel. -/
def invL (F : Fpu) (z : BitVec 64) : Bfly := fun uR uI vR vI wR wI =>
  let r := invR F uR uI vR vI wR wI
  (F.mul r.1 z, F.mul r.2.1 z, F.mul r.2.2.1 z, F.mul r.2.2.2 z)

/-- A part of a row. -/
def rowN (B : Bfly) (x : Nat → BitVec 64) (j1 t : Nat) (w : BitVec 64 × BitVec 64) (J : Nat) : Nat → BitVec 64 :=
  (List.range J).foldl (fun x J => bf8 B x (j1 + 8 * J) t w) x

theorem rowN_succ (B : Bfly) (x : Nat → BitVec 64) (j1 t : Nat) (w : BitVec 64 × BitVec 64) (J : Nat) :
    rowN B x j1 t w (J + 1) = bf8 B (rowN B x j1 t w J) (j1 + 8 * J) t w := by
  rw [rowN, List.range_succ, List.foldl_append]; rfl

/-- State in a row. -/
structure RowI (m : Memory) (b : BitVec 64) (N : Nat) (pc y0 y1 : Nat) (rj rt : Reg) (g0 : Reg → BitVec 64) (B : Bfly)
    (x : Nat → BitVec 64) (j1 t : Nat) (w : BitVec 64 × BitVec 64) (J : Nat) (s : St) : Prop where
  pc : s.pc = pc
  ret : s.ret = false
  mem : s.mem = over m b (dw (rowN B x j1 t w J)) (2 * N)
  j : s.gpr rj = BitVec.ofNat 64 (j1 + 8 * J)
  jt : s.gpr rt = BitVec.ofNat 64 (j1 + 8 * J + t)
  w0 : s.ymm y0 = ofQ fun _ => w.1
  w1 : s.ymm y1 = ofQ fun _ => w.2
  keep : ∀ r, r ≠ rj → r ≠ rt → s.gpr r = g0 r


/-- State in the last row of the inverse. -/
structure LastI (m : Memory) (b : BitVec 64) (N : Nat) (pc y0 y1 : Nat) (rj rt : Reg) (g0 : Reg → BitVec 64) (B : Bfly) (z : BitVec 64)
    (x : Nat → BitVec 64) (j1 t : Nat) (w : BitVec 64 × BitVec 64) (J : Nat) (s : St) : Prop where
  pc : s.pc = pc
  ret : s.ret = false
  mem : s.mem = over m b (dw (rowN B x j1 t w J)) (2 * N)
  j : s.gpr rj = BitVec.ofNat 64 (j1 + 8 * J)
  jt : s.gpr rt = BitVec.ofNat 64 (j1 + 8 * J + t)
  w0 : s.ymm y0 = ofQ fun _ => w.1
  w1 : s.ymm y1 = ofQ fun _ => w.2
  keep : ∀ r, r ≠ rj → r ≠ rt → s.gpr r = g0 r
  scale : s.ymm 0 = ofQ fun _ => z

theorem bfRow_eq (B : Bfly) (x : Nat → BitVec 64) (j1 Q : Nat) (w : BitVec 64 × BitVec 64) :
    bfRow B x j1 (8 * Q) w = rowN B x j1 (8 * Q) w Q := by
  rw [bfRow, show (8 * Q + 7) / 8 = Q by omega]; rfl

/-- A part of a stage. -/
def stageN (B : Bfly) (tw : Nat → BitVec 64 × BitVec 64) (t : Nat) (x : Nat → BitVec 64) (w i : Nat) : (Nat → BitVec 64) × Nat :=
  (List.range i).foldl (fun s i => (bfRow B s.1 (2 * i * t) t (tw s.2), s.2 + 1)) (x, w)

theorem stageN_snd (B : Bfly) (tw : Nat → BitVec 64 × BitVec 64) (t : Nat) (x : Nat → BitVec 64) (w i : Nat) :
    (stageN B tw t x w i).2 = w + i := by
  induction i with
  | zero => rfl
  | succ i ih => rw [stageN, List.range_succ, List.foldl_append, ← stageN]; simp [ih]; omega

theorem stageN_succ (B : Bfly) (tw : Nat → BitVec 64 × BitVec 64) (t : Nat) (x : Nat → BitVec 64) (w i : Nat) :
    (stageN B tw t x w (i + 1)).1 = bfRow B (stageN B tw t x w i).1 (2 * i * t) t (tw (w + i)) := by
  rw [stageN, List.range_succ, List.foldl_append, ← stageN, ← stageN_snd B tw t x w i]; rfl

/-- A part of the stage with two butterflies. -/
def st2N (B : Bfly) (tw : Nat → BitVec 64 × BitVec 64) (x : Nat → BitVec 64) (w J : Nat) : (Nat → BitVec 64) × Nat :=
  (List.range J).foldl (fun s J =>
    let j := 8 * J
    let w := tw s.2
    let x := bf B s.1 j (j + 4) (j + 2) (j + 6) w
    (bf B x (j + 1) (j + 5) (j + 3) (j + 7) w, s.2 + 1)) (x, w)

theorem st2N_snd (B : Bfly) (tw : Nat → BitVec 64 × BitVec 64) (x : Nat → BitVec 64) (w i : Nat) :
    (st2N B tw x w i).2 = w + i := by
  induction i with
  | zero => rfl
  | succ i ih => rw [st2N, List.range_succ, List.foldl_append, ← st2N]; simp [ih]; omega

theorem st2N_succ (B : Bfly) (tw : Nat → BitVec 64 × BitVec 64) (x : Nat → BitVec 64) (w i : Nat) :
    (st2N B tw x w (i + 1)).1 = bf B (bf B (st2N B tw x w i).1 (8 * i) (8 * i + 4) (8 * i + 2) (8 * i + 6) (tw (w + i)))
      (8 * i + 1) (8 * i + 5) (8 * i + 3) (8 * i + 7) (tw (w + i)) := by
  rw [st2N, List.range_succ, List.foldl_append, ← st2N, ← st2N_snd B tw x w i]; rfl

/-- A part of the stage with neighbours. -/
def st1N (B : Bfly) (tw : Nat → BitVec 64 × BitVec 64) (x : Nat → BitVec 64) (w J : Nat) : (Nat → BitVec 64) × Nat :=
  (List.range J).foldl (fun s J =>
    let j := 8 * J
    let x := bf B s.1 j (j + 4) (j + 1) (j + 5) (tw s.2)
    (bf B x (j + 2) (j + 6) (j + 3) (j + 7) (tw (s.2 + 1)), s.2 + 2)) (x, w)

theorem st1N_snd (B : Bfly) (tw : Nat → BitVec 64 × BitVec 64) (x : Nat → BitVec 64) (w i : Nat) :
    (st1N B tw x w i).2 = w + 2 * i := by
  induction i with
  | zero => rfl
  | succ i ih => rw [st1N, List.range_succ, List.foldl_append, ← st1N]; simp [ih]; omega

theorem st1N_succ (B : Bfly) (tw : Nat → BitVec 64 × BitVec 64) (x : Nat → BitVec 64) (w i : Nat) :
    (st1N B tw x w (i + 1)).1 = bf B (bf B (st1N B tw x w i).1 (8 * i) (8 * i + 4) (8 * i + 1) (8 * i + 5) (tw (w + 2 * i)))
      (8 * i + 2) (8 * i + 6) (8 * i + 3) (8 * i + 7) (tw (w + 2 * i + 1)) := by
  rw [st1N, List.range_succ, List.foldl_append, ← st1N, ← st1N_snd B tw x w i]; rfl

/-- State between rows or blocks: the array holds `X`, the next twiddle factor is `w`, the counter `ri` is `i`, and registers outside
`R` are those of `g0`. -/
structure CntI (m : Memory) (b : BitVec 64) (N : Nat) (pc : Nat) (ri : Reg) (R : List Reg) (g0 : Reg → BitVec 64)
    (X : Nat → BitVec 64) (w i : Nat) (s : St) : Prop where
  pc : s.pc = pc
  ret : s.ret = false
  mem : s.mem = over m b (dw X) (2 * N)
  bx : s.gpr .BX = BitVec.ofNat 64 (2 * w)
  i : s.gpr ri = BitVec.ofNat 64 i
  keep : ∀ r, r ∉ R → s.gpr r = g0 r

/-! Half registers. -/

theorem vloadX_low (A : Nat → BitVec 64) (j : Nat) :
    (fun l : Fin 8 => if _h : l.val < 4 then dw A (2 * j + l.val) else 0) = lowQ fun q => A (j + q) := vloadX_eq A j

theorem low_mapQ (o : BitVec 64 → BitVec 64 → BitVec 64) (f g : Nat → BitVec 64) :
    lowX (mapQ o (lowQ f) (lowQ g)) = lowQ fun q => o (f q) (g q) := by
  rw [mapQ, lowX_ofQ]
  exact lowQ_congr (by simp [qw_lowQ]) (by simp [qw_lowQ])

theorem low_fma (F : Fpu) (f g h : Nat → BitVec 64) :
    lowX (ofQ fun k => F.fma (qw (lowQ f) k) (qw (lowQ g) k) (qw (lowQ h) k)) = lowQ fun q => F.fma (f q) (g q) (h q) := by
  rw [lowX_ofQ]
  exact lowQ_congr (by simp [qw_lowQ]) (by simp [qw_lowQ])

theorem low_fnma (F : Fpu) (f g h : Nat → BitVec 64) :
    lowX (ofQ fun k => F.fnma (qw (lowQ f) k) (qw (lowQ g) k) (qw (lowQ h) k)) = lowQ fun q => F.fnma (f q) (g q) (h q) := by
  rw [lowX_ofQ]
  exact lowQ_congr (by simp [qw_lowQ]) (by simp [qw_lowQ])

theorem low_shuf3 (f : Nat → BitVec 64) : lowX (shufpd 3 (lowQ f) (lowQ f)) = lowQ fun _ => f 1 := by
  rw [shufpd, lowX_ofQ]
  exact lowQ_congr (by simp [qw_lowQ]) (by simp [qw_lowQ])

theorem low_shuf0 (f : Nat → BitVec 64) : lowX (shufpd 0 (lowQ f) (lowQ f)) = lowQ fun _ => f 0 := by
  rw [shufpd, lowX_ofQ]
  exact lowQ_congr (by simp [qw_lowQ]) (by simp [qw_lowQ])

theorem quad_eq (tw : Nat → BitVec 64 × BitVec 64) (w : Nat) : (ofQ fun q => flat tw (2 * w + q.val)) =
    ofQ fun q => if q.val = 0 then (tw w).1 else if q.val = 1 then (tw w).2 else if q.val = 2 then (tw (w + 1)).1
      else (tw (w + 1)).2 := by
  congr 1
  funext q
  fin_cases q
  · exact flat_re tw w
  · exact flat_im tw w
  · exact flat_re tw (w + 1)
  · exact flat_im tw (w + 1)

theorem addr8_im (b : BitVec 64) (w : Nat) :
    b + BitVec.ofNat 64 (2 * w) * 8 + 8 = b + BitVec.ofNat 64 (4 * (2 * (2 * w + 1))) := addr8_8 b (2 * w)

theorem fwd_first_row {F : Fpu} {fp : List (BitVec 32)} {m : Memory} {b : BitVec 64} {N : Nat} (hb : b.toNat % 4 = 0)
    (hN : N < 2 ^ 58) {g0 : Reg → BitVec 64} {x : Nat → BitVec 64} {j1 Q : Nat} {w : BitVec 64 × BitVec 64}
    (hA : g0 .AX = b) (hl : g0 .SI = BitVec.ofNat 64 (j1 + 8 * Q)) (hj : j1 + 2 * (8 * Q) ≤ N) :
    ∀ s, RowI m b N 31 0 1 .DI .R8 g0 (fwdR F) x j1 (8 * Q) w 0 s →
      Wp F fwdFFTInPlaceAVX2 fp s (fun s => RowI m b N 31 0 1 .DI .R8 g0 (fwdR F) x j1 (8 * Q) w Q s) := by
  have e1 : target fwdFFTInPlaceAVX2 .first_loop_body = 12 := by decide +kernel
  refine Wp.loop1 (I := fun J s => RowI m b N 31 0 1 .DI .R8 g0 (fwdR F) x j1 (8 * Q) w J s) ?_ (Nat.zero_le _)
  rintro J ⟨pc, g, y, c', m', r⟩ - hJ ⟨h0, h1, h2, h3, h4, h5, h6, h7⟩
  dsimp only at h0 h1 h2 h3 h4 h5 h6 h7
  subst h0 h1 h2
  have k1 : g .AX = b := by rw [h7 _ (by decide) (by decide), hA]
  have k2 : g .SI = BitVec.ofNat 64 (j1 + 8 * Q) := by rw [h7 _ (by decide) (by decide), hl]
  have hlt : (BitVec.ofNat 64 (j1 + 8 * J)).slt (BitVec.ofNat 64 (j1 + 8 * Q)) = true := by
    rw [slt_ofNat (by omega) (by omega), decide_eq_true_eq]; omega
  generalize hx : rowN (fwdR F) x j1 (8 * Q) w J = X
  have l0 := load4 (m := m) (x := X) (N := N) (j1 + 8 * J) hb (by omega) (by omega) (addr8 b _)
  have l1 := load4 (m := m) (x := X) (N := N) (j1 + 8 * J + 4) hb (by omega) (by omega) (addr8_32 b _)
  have l2 := load4 (m := m) (x := X) (N := N) (j1 + 8 * J + 8 * Q) hb (by omega) (by omega) (addr8 b _)
  have l3 := load4 (m := m) (x := X) (N := N) (j1 + 8 * J + 8 * Q + 4) hb (by omega) (by omega) (addr8_32 b _)
  iterate 16 asm1 [e1, h3, h4, h5, h6, k1, k2, hlt, l0, l1, l2, l3, VOp.eval, VFma.eval, mapQ_ofQ, qw_ofQ]
  refine Wp.step rfl ?_
  simp only [exec, ea, Function.update_apply, reduceCtorEq, Nat.reduceEqDiff, one_ne_zero, zero_ne_one, if_true, if_false,
    h3, h4, k1]
  refine wpO_map (store4 (N := N) (j1 + 8 * J) hb (by omega) (by omega) (addr8 b _)
    (f := fun q => (fwdR F (X (j1 + 8 * J + q)) (X (j1 + 8 * J + 4 + q)) (X (j1 + 8 * J + 8 * Q + q)) (X (j1 + 8 * J + 8 * Q + 4 + q)) w.1 w.2).1) rfl) ?_
  simp only [St.next]
  refine Wp.step rfl ?_
  simp only [exec, ea, Function.update_apply, reduceCtorEq, Nat.reduceEqDiff, one_ne_zero, zero_ne_one, if_true, if_false,
    h3, h4, k1]
  refine wpO_map (store4 (N := N) (j1 + 8 * J + 4) hb (by omega) (by omega) (addr8_32 b _)
    (f := fun q => (fwdR F (X (j1 + 8 * J + q)) (X (j1 + 8 * J + 4 + q)) (X (j1 + 8 * J + 8 * Q + q)) (X (j1 + 8 * J + 8 * Q + 4 + q)) w.1 w.2).2.1) rfl) ?_
  simp only [St.next]
  refine Wp.step rfl ?_
  simp only [exec, ea, Function.update_apply, reduceCtorEq, Nat.reduceEqDiff, one_ne_zero, zero_ne_one, if_true, if_false,
    h3, h4, k1]
  refine wpO_map (store4 (N := N) (j1 + 8 * J + 8 * Q) hb (by omega) (by omega) (addr8 b _)
    (f := fun q => (fwdR F (X (j1 + 8 * J + q)) (X (j1 + 8 * J + 4 + q)) (X (j1 + 8 * J + 8 * Q + q)) (X (j1 + 8 * J + 8 * Q + 4 + q)) w.1 w.2).2.2.1) rfl) ?_
  simp only [St.next]
  refine Wp.step rfl ?_
  simp only [exec, ea, Function.update_apply, reduceCtorEq, Nat.reduceEqDiff, one_ne_zero, zero_ne_one, if_true, if_false,
    h3, h4, k1]
  refine wpO_map (store4 (N := N) (j1 + 8 * J + 8 * Q + 4) hb (by omega) (by omega) (addr8_32 b _)
    (f := fun q => (fwdR F (X (j1 + 8 * J + q)) (X (j1 + 8 * J + 4 + q)) (X (j1 + 8 * J + 8 * Q + q)) (X (j1 + 8 * J + 8 * Q + 4 + q)) w.1 w.2).2.2.2) rfl) ?_
  simp only [St.next]
  rw [← bf8_eq (fwdR F) X (by omega), ← hx, ← rowN_succ]
  iterate 2 asm1 [h3, h4]
  refine .refl ⟨rfl, rfl, rfl, ?_, ?_, ?_, ?_, ?_⟩
  · simp only [Function.update_apply, reduceCtorEq, if_true, if_false, h3]
    rw [show j1 + 8 * (J + 1) = j1 + 8 * J + 8 by ring, BitVec.ofNat_add _ 8]; rfl
  · simp only [Function.update_apply, reduceCtorEq, if_true, if_false, h4]
    rw [show j1 + 8 * (J + 1) + 8 * Q = j1 + 8 * J + 8 * Q + 8 by ring, BitVec.ofNat_add _ 8]; rfl
  · simp only [Function.update_apply, reduceCtorEq, Nat.reduceEqDiff, one_ne_zero, zero_ne_one, if_true, if_false, h5]
  · simp only [Function.update_apply, reduceCtorEq, Nat.reduceEqDiff, one_ne_zero, zero_ne_one, if_true, if_false, h6]
  · intro r hr1 hr2
    simp only [Function.update_apply, hr1, hr2, if_false, h7 r hr1 hr2]

theorem fwd_mid_row {F : Fpu} {fp : List (BitVec 32)} {m : Memory} {b : BitVec 64} {N : Nat} (hb : b.toNat % 4 = 0)
    (hN : N < 2 ^ 58) {g0 : Reg → BitVec 64} {x : Nat → BitVec 64} {j1 Q : Nat} {w : BitVec 64 × BitVec 64}
    (hA : g0 .AX = b) (hl : g0 .R12 = BitVec.ofNat 64 (j1 + 8 * Q)) (hj : j1 + 2 * (8 * Q) ≤ N) :
    ∀ s, RowI m b N 74 0 1 .DI .R8 g0 (fwdR F) x j1 (8 * Q) w 0 s →
      Wp F fwdFFTInPlaceAVX2 fp s (fun s => RowI m b N 74 0 1 .DI .R8 g0 (fwdR F) x j1 (8 * Q) w Q s) := by
  have e1 : target fwdFFTInPlaceAVX2 .j_loop_body = 55 := by decide +kernel
  refine Wp.loop1 (I := fun J s => RowI m b N 74 0 1 .DI .R8 g0 (fwdR F) x j1 (8 * Q) w J s) ?_ (Nat.zero_le _)
  rintro J ⟨pc, g, y, c', m', r⟩ - hJ ⟨h0, h1, h2, h3, h4, h5, h6, h7⟩
  dsimp only at h0 h1 h2 h3 h4 h5 h6 h7
  subst h0 h1 h2
  have k1 : g .AX = b := by rw [h7 _ (by decide) (by decide), hA]
  have k2 : g .R12 = BitVec.ofNat 64 (j1 + 8 * Q) := by rw [h7 _ (by decide) (by decide), hl]
  have hlt : (BitVec.ofNat 64 (j1 + 8 * J)).slt (BitVec.ofNat 64 (j1 + 8 * Q)) = true := by
    rw [slt_ofNat (by omega) (by omega), decide_eq_true_eq]; omega
  generalize hx : rowN (fwdR F) x j1 (8 * Q) w J = X
  have l0 := load4 (m := m) (x := X) (N := N) (j1 + 8 * J) hb (by omega) (by omega) (addr8 b _)
  have l1 := load4 (m := m) (x := X) (N := N) (j1 + 8 * J + 4) hb (by omega) (by omega) (addr8_32 b _)
  have l2 := load4 (m := m) (x := X) (N := N) (j1 + 8 * J + 8 * Q) hb (by omega) (by omega) (addr8 b _)
  have l3 := load4 (m := m) (x := X) (N := N) (j1 + 8 * J + 8 * Q + 4) hb (by omega) (by omega) (addr8_32 b _)
  iterate 16 asm1 [e1, h3, h4, h5, h6, k1, k2, hlt, l0, l1, l2, l3, VOp.eval, VFma.eval, mapQ_ofQ, qw_ofQ]
  refine Wp.step rfl ?_
  simp only [exec, ea, Function.update_apply, reduceCtorEq, Nat.reduceEqDiff, one_ne_zero, zero_ne_one, if_true, if_false,
    h3, h4, k1]
  refine wpO_map (store4 (N := N) (j1 + 8 * J) hb (by omega) (by omega) (addr8 b _)
    (f := fun q => (fwdR F (X (j1 + 8 * J + q)) (X (j1 + 8 * J + 4 + q)) (X (j1 + 8 * J + 8 * Q + q)) (X (j1 + 8 * J + 8 * Q + 4 + q)) w.1 w.2).1) rfl) ?_
  simp only [St.next]
  refine Wp.step rfl ?_
  simp only [exec, ea, Function.update_apply, reduceCtorEq, Nat.reduceEqDiff, one_ne_zero, zero_ne_one, if_true, if_false,
    h3, h4, k1]
  refine wpO_map (store4 (N := N) (j1 + 8 * J + 4) hb (by omega) (by omega) (addr8_32 b _)
    (f := fun q => (fwdR F (X (j1 + 8 * J + q)) (X (j1 + 8 * J + 4 + q)) (X (j1 + 8 * J + 8 * Q + q)) (X (j1 + 8 * J + 8 * Q + 4 + q)) w.1 w.2).2.1) rfl) ?_
  simp only [St.next]
  refine Wp.step rfl ?_
  simp only [exec, ea, Function.update_apply, reduceCtorEq, Nat.reduceEqDiff, one_ne_zero, zero_ne_one, if_true, if_false,
    h3, h4, k1]
  refine wpO_map (store4 (N := N) (j1 + 8 * J + 8 * Q) hb (by omega) (by omega) (addr8 b _)
    (f := fun q => (fwdR F (X (j1 + 8 * J + q)) (X (j1 + 8 * J + 4 + q)) (X (j1 + 8 * J + 8 * Q + q)) (X (j1 + 8 * J + 8 * Q + 4 + q)) w.1 w.2).2.2.1) rfl) ?_
  simp only [St.next]
  refine Wp.step rfl ?_
  simp only [exec, ea, Function.update_apply, reduceCtorEq, Nat.reduceEqDiff, one_ne_zero, zero_ne_one, if_true, if_false,
    h3, h4, k1]
  refine wpO_map (store4 (N := N) (j1 + 8 * J + 8 * Q + 4) hb (by omega) (by omega) (addr8_32 b _)
    (f := fun q => (fwdR F (X (j1 + 8 * J + q)) (X (j1 + 8 * J + 4 + q)) (X (j1 + 8 * J + 8 * Q + q)) (X (j1 + 8 * J + 8 * Q + 4 + q)) w.1 w.2).2.2.2) rfl) ?_
  simp only [St.next]
  rw [← bf8_eq (fwdR F) X (by omega), ← hx, ← rowN_succ]
  iterate 2 asm1 [h3, h4]
  refine .refl ⟨rfl, rfl, rfl, ?_, ?_, ?_, ?_, ?_⟩
  · simp only [Function.update_apply, reduceCtorEq, if_true, if_false, h3]
    rw [show j1 + 8 * (J + 1) = j1 + 8 * J + 8 by ring, BitVec.ofNat_add _ 8]; rfl
  · simp only [Function.update_apply, reduceCtorEq, if_true, if_false, h4]
    rw [show j1 + 8 * (J + 1) + 8 * Q = j1 + 8 * J + 8 * Q + 8 by ring, BitVec.ofNat_add _ 8]; rfl
  · simp only [Function.update_apply, reduceCtorEq, Nat.reduceEqDiff, one_ne_zero, zero_ne_one, if_true, if_false, h5]
  · simp only [Function.update_apply, reduceCtorEq, Nat.reduceEqDiff, one_ne_zero, zero_ne_one, if_true, if_false, h6]
  · intro r hr1 hr2
    simp only [Function.update_apply, hr1, hr2, if_false, h7 r hr1 hr2]

theorem inv_mid_row {F : Fpu} {fp : List (BitVec 32)} {m : Memory} {b : BitVec 64} {N : Nat} (hb : b.toNat % 4 = 0)
    (hN : N < 2 ^ 58) {g0 : Reg → BitVec 64} {x : Nat → BitVec 64} {j1 Q : Nat} {w : BitVec 64 × BitVec 64}
    (hA : g0 .AX = b) (hl : g0 .R10 = BitVec.ofNat 64 (j1 + 8 * Q)) (hj : j1 + 2 * (8 * Q) ≤ N) :
    ∀ s, RowI m b N 93 0 1 .R9 .R11 g0 (invR F) x j1 (8 * Q) w 0 s →
      Wp F invFFTInPlaceAVX2 fp s (fun s => RowI m b N 93 0 1 .R9 .R11 g0 (invR F) x j1 (8 * Q) w Q s) := by
  have e1 : target invFFTInPlaceAVX2 .j_loop_body = 74 := by decide +kernel
  refine Wp.loop1 (I := fun J s => RowI m b N 93 0 1 .R9 .R11 g0 (invR F) x j1 (8 * Q) w J s) ?_ (Nat.zero_le _)
  rintro J ⟨pc, g, y, c', m', r⟩ - hJ ⟨h0, h1, h2, h3, h4, h5, h6, h7⟩
  dsimp only at h0 h1 h2 h3 h4 h5 h6 h7
  subst h0 h1 h2
  have k1 : g .AX = b := by rw [h7 _ (by decide) (by decide), hA]
  have k2 : g .R10 = BitVec.ofNat 64 (j1 + 8 * Q) := by rw [h7 _ (by decide) (by decide), hl]
  have hlt : (BitVec.ofNat 64 (j1 + 8 * J)).slt (BitVec.ofNat 64 (j1 + 8 * Q)) = true := by
    rw [slt_ofNat (by omega) (by omega), decide_eq_true_eq]; omega
  generalize hx : rowN (invR F) x j1 (8 * Q) w J = X
  have l0 := load4 (m := m) (x := X) (N := N) (j1 + 8 * J) hb (by omega) (by omega) (addr8 b _)
  have l1 := load4 (m := m) (x := X) (N := N) (j1 + 8 * J + 4) hb (by omega) (by omega) (addr8_32 b _)
  have l2 := load4 (m := m) (x := X) (N := N) (j1 + 8 * J + 8 * Q) hb (by omega) (by omega) (addr8 b _)
  have l3 := load4 (m := m) (x := X) (N := N) (j1 + 8 * J + 8 * Q + 4) hb (by omega) (by omega) (addr8_32 b _)
  iterate 16 asm1 [e1, h3, h4, h5, h6, k1, k2, hlt, l0, l1, l2, l3, VOp.eval, VFma.eval, mapQ_ofQ, qw_ofQ]
  refine Wp.step rfl ?_
  simp only [exec, ea, Function.update_apply, reduceCtorEq, Nat.reduceEqDiff, one_ne_zero, zero_ne_one, if_true, if_false,
    h3, h4, k1]
  refine wpO_map (store4 (N := N) (j1 + 8 * J) hb (by omega) (by omega) (addr8 b _)
    (f := fun q => (invR F (X (j1 + 8 * J + q)) (X (j1 + 8 * J + 4 + q)) (X (j1 + 8 * J + 8 * Q + q)) (X (j1 + 8 * J + 8 * Q + 4 + q)) w.1 w.2).1) rfl) ?_
  simp only [St.next]
  refine Wp.step rfl ?_
  simp only [exec, ea, Function.update_apply, reduceCtorEq, Nat.reduceEqDiff, one_ne_zero, zero_ne_one, if_true, if_false,
    h3, h4, k1]
  refine wpO_map (store4 (N := N) (j1 + 8 * J + 4) hb (by omega) (by omega) (addr8_32 b _)
    (f := fun q => (invR F (X (j1 + 8 * J + q)) (X (j1 + 8 * J + 4 + q)) (X (j1 + 8 * J + 8 * Q + q)) (X (j1 + 8 * J + 8 * Q + 4 + q)) w.1 w.2).2.1) rfl) ?_
  simp only [St.next]
  refine Wp.step rfl ?_
  simp only [exec, ea, Function.update_apply, reduceCtorEq, Nat.reduceEqDiff, one_ne_zero, zero_ne_one, if_true, if_false,
    h3, h4, k1]
  refine wpO_map (store4 (N := N) (j1 + 8 * J + 8 * Q) hb (by omega) (by omega) (addr8 b _)
    (f := fun q => (invR F (X (j1 + 8 * J + q)) (X (j1 + 8 * J + 4 + q)) (X (j1 + 8 * J + 8 * Q + q)) (X (j1 + 8 * J + 8 * Q + 4 + q)) w.1 w.2).2.2.1) rfl) ?_
  simp only [St.next]
  refine Wp.step rfl ?_
  simp only [exec, ea, Function.update_apply, reduceCtorEq, Nat.reduceEqDiff, one_ne_zero, zero_ne_one, if_true, if_false,
    h3, h4, k1]
  refine wpO_map (store4 (N := N) (j1 + 8 * J + 8 * Q + 4) hb (by omega) (by omega) (addr8_32 b _)
    (f := fun q => (invR F (X (j1 + 8 * J + q)) (X (j1 + 8 * J + 4 + q)) (X (j1 + 8 * J + 8 * Q + q)) (X (j1 + 8 * J + 8 * Q + 4 + q)) w.1 w.2).2.2.2) rfl) ?_
  simp only [St.next]
  rw [← bf8_eq (invR F) X (by omega), ← hx, ← rowN_succ]
  iterate 2 asm1 [h3, h4]
  refine .refl ⟨rfl, rfl, rfl, ?_, ?_, ?_, ?_, ?_⟩
  · simp only [Function.update_apply, reduceCtorEq, if_true, if_false, h3]
    rw [show j1 + 8 * (J + 1) = j1 + 8 * J + 8 by ring, BitVec.ofNat_add _ 8]; rfl
  · simp only [Function.update_apply, reduceCtorEq, if_true, if_false, h4]
    rw [show j1 + 8 * (J + 1) + 8 * Q = j1 + 8 * J + 8 * Q + 8 by ring, BitVec.ofNat_add _ 8]; rfl
  · simp only [Function.update_apply, reduceCtorEq, Nat.reduceEqDiff, one_ne_zero, zero_ne_one, if_true, if_false, h5]
  · simp only [Function.update_apply, reduceCtorEq, Nat.reduceEqDiff, one_ne_zero, zero_ne_one, if_true, if_false, h6]
  · intro r hr1 hr2
    simp only [Function.update_apply, hr1, hr2, if_false, h7 r hr1 hr2]

theorem inv_last_row {F : Fpu} {fp : List (BitVec 32)} {m : Memory} {b : BitVec 64} {N : Nat} (hb : b.toNat % 4 = 0)
    (hN : N < 2 ^ 58) {g0 : Reg → BitVec 64} {x : Nat → BitVec 64} {j1 Q : Nat} {w : BitVec 64 × BitVec 64} {z : BitVec 64}
    (hA : g0 .AX = b) (hl : g0 .CX = BitVec.ofNat 64 (j1 + 8 * Q)) (hj : j1 + 2 * (8 * Q) ≤ N) :
    ∀ s, LastI m b N 136 1 6 .R9 .R11 g0 (invL F z) z x j1 (8 * Q) w 0 s →
      Wp F invFFTInPlaceAVX2 fp s (fun s => LastI m b N 136 1 6 .R9 .R11 g0 (invL F z) z x j1 (8 * Q) w Q s) := by
  have e1 : target invFFTInPlaceAVX2 .last_loop_body = 113 := by decide +kernel
  refine Wp.loop1 (I := fun J s => LastI m b N 136 1 6 .R9 .R11 g0 (invL F z) z x j1 (8 * Q) w J s) ?_ (Nat.zero_le _)
  rintro J ⟨pc, g, y, c', m', r⟩ - hJ ⟨h0, h1, h2, h3, h4, h5, h6, h7, h8⟩
  dsimp only at h0 h1 h2 h3 h4 h5 h6 h7 h8
  subst h0 h1 h2
  have k1 : g .AX = b := by rw [h7 _ (by decide) (by decide), hA]
  have k2 : g .CX = BitVec.ofNat 64 (j1 + 8 * Q) := by rw [h7 _ (by decide) (by decide), hl]
  have hlt : (BitVec.ofNat 64 (j1 + 8 * J)).slt (BitVec.ofNat 64 (j1 + 8 * Q)) = true := by
    rw [slt_ofNat (by omega) (by omega), decide_eq_true_eq]; omega
  generalize hx : rowN (invL F z) x j1 (8 * Q) w J = X
  have l0 := load4 (m := m) (x := X) (N := N) (j1 + 8 * J) hb (by omega) (by omega) (addr8 b _)
  have l1 := load4 (m := m) (x := X) (N := N) (j1 + 8 * J + 4) hb (by omega) (by omega) (addr8_32 b _)
  have l2 := load4 (m := m) (x := X) (N := N) (j1 + 8 * J + 8 * Q) hb (by omega) (by omega) (addr8 b _)
  have l3 := load4 (m := m) (x := X) (N := N) (j1 + 8 * J + 8 * Q + 4) hb (by omega) (by omega) (addr8_32 b _)
  iterate 20 asm1 [e1, h3, h4, h5, h6, h8, k1, k2, hlt, l0, l1, l2, l3, VOp.eval, VFma.eval, mapQ_ofQ, qw_ofQ]
  refine Wp.step rfl ?_
  simp only [exec, ea, Function.update_apply, reduceCtorEq, Nat.reduceEqDiff, one_ne_zero, zero_ne_one, if_true, if_false,
    h3, h4, k1]
  refine wpO_map (store4 (N := N) (j1 + 8 * J) hb (by omega) (by omega) (addr8 b _)
    (f := fun q => (invL F z (X (j1 + 8 * J + q)) (X (j1 + 8 * J + 4 + q)) (X (j1 + 8 * J + 8 * Q + q)) (X (j1 + 8 * J + 8 * Q + 4 + q)) w.1 w.2).1) rfl) ?_
  simp only [St.next]
  refine Wp.step rfl ?_
  simp only [exec, ea, Function.update_apply, reduceCtorEq, Nat.reduceEqDiff, one_ne_zero, zero_ne_one, if_true, if_false,
    h3, h4, k1]
  refine wpO_map (store4 (N := N) (j1 + 8 * J + 4) hb (by omega) (by omega) (addr8_32 b _)
    (f := fun q => (invL F z (X (j1 + 8 * J + q)) (X (j1 + 8 * J + 4 + q)) (X (j1 + 8 * J + 8 * Q + q)) (X (j1 + 8 * J + 8 * Q + 4 + q)) w.1 w.2).2.1) rfl) ?_
  simp only [St.next]
  refine Wp.step rfl ?_
  simp only [exec, ea, Function.update_apply, reduceCtorEq, Nat.reduceEqDiff, one_ne_zero, zero_ne_one, if_true, if_false,
    h3, h4, k1]
  refine wpO_map (store4 (N := N) (j1 + 8 * J + 8 * Q) hb (by omega) (by omega) (addr8 b _)
    (f := fun q => (invL F z (X (j1 + 8 * J + q)) (X (j1 + 8 * J + 4 + q)) (X (j1 + 8 * J + 8 * Q + q)) (X (j1 + 8 * J + 8 * Q + 4 + q)) w.1 w.2).2.2.1) rfl) ?_
  simp only [St.next]
  refine Wp.step rfl ?_
  simp only [exec, ea, Function.update_apply, reduceCtorEq, Nat.reduceEqDiff, one_ne_zero, zero_ne_one, if_true, if_false,
    h3, h4, k1]
  refine wpO_map (store4 (N := N) (j1 + 8 * J + 8 * Q + 4) hb (by omega) (by omega) (addr8_32 b _)
    (f := fun q => (invL F z (X (j1 + 8 * J + q)) (X (j1 + 8 * J + 4 + q)) (X (j1 + 8 * J + 8 * Q + q)) (X (j1 + 8 * J + 8 * Q + 4 + q)) w.1 w.2).2.2.2) rfl) ?_
  simp only [St.next]
  rw [← bf8_eq (invL F z) X (by omega), ← hx, ← rowN_succ]
  iterate 2 asm1 [h3, h4]
  refine .refl ⟨rfl, rfl, rfl, ?_, ?_, ?_, ?_, ?_, ?_⟩
  · simp only [Function.update_apply, reduceCtorEq, if_true, if_false, h3]
    rw [show j1 + 8 * (J + 1) = j1 + 8 * J + 8 by ring, BitVec.ofNat_add _ 8]; rfl
  · simp only [Function.update_apply, reduceCtorEq, if_true, if_false, h4]
    rw [show j1 + 8 * (J + 1) + 8 * Q = j1 + 8 * J + 8 * Q + 8 by ring, BitVec.ofNat_add _ 8]; rfl
  · simp only [Function.update_apply, reduceCtorEq, Nat.reduceEqDiff, one_ne_zero, zero_ne_one, if_true, if_false, h5]
  · simp only [Function.update_apply, reduceCtorEq, Nat.reduceEqDiff, one_ne_zero, zero_ne_one, if_true, if_false, h6]
  · intro r hr1 hr2
    simp only [Function.update_apply, hr1, hr2, if_false, h7 r hr1 hr2]
  · simp only [Function.update_apply, reduceCtorEq, Nat.reduceEqDiff, one_ne_zero, zero_ne_one, if_true, if_false, h8]

theorem fwd_stage {F : Fpu} {fp : List (BitVec 32)} {m : Memory} {b tb : BitVec 64} {N L : Nat} {tw : Nat → BitVec 64 × BitVec 64}
    (h : Table m b tb tw N L) {g0 : Reg → BitVec 64} {x : Nat → BitVec 64} {Q M w : Nat}
    (hA : g0 .AX = b) (hC : g0 .CX = tb) (ht : g0 .R9 = BitVec.ofNat 64 (8 * Q)) (hm : g0 .R10 = BitVec.ofNat 64 M)
    (hM : 2 * M * (8 * Q) ≤ N) (hQ : 0 < Q) (hw : w + M ≤ L) :
    ∀ s, CntI m b N 78 .R11 [.BX, .R11, .DI, .R12, .R8] g0 x w 0 s →
      Wp F fwdFFTInPlaceAVX2 fp s (fun s => CntI m b N 78 .R11 [.BX, .R11, .DI, .R12, .R8] g0 (stageN (fwdR F) tw (8 * Q) x w M).1 (w + M) M s) := by
  have e1 : target fwdFFTInPlaceAVX2 .i_loop_body = 44 := by decide +kernel
  have e2 : target fwdFFTInPlaceAVX2 .j_loop_end = 74 := by decide +kernel
  have hMN : M ≤ N := le_trans (le_trans (by omega) (Nat.le_mul_of_pos_right (2 * M) (by omega : 0 < 8 * Q))) hM
  have := h.size
  have := h.size'
  refine Wp.loop1 (I := fun i s => CntI m b N 78 .R11 [.BX, .R11, .DI, .R12, .R8] g0 (stageN (fwdR F) tw (8 * Q) x w i).1 (w + i) i s) ?_ (Nat.zero_le _)
  rintro i ⟨pc, g, y, c', m', r⟩ - hiM ⟨h0, h1, h2, h3, hi, hk⟩
  dsimp only at h0 h1 h2 h3 hi hk
  subst h0 h1 h2
  have k1 : g .AX = b := by rw [hk _ (by decide), hA]
  have k2 : g .CX = tb := by rw [hk _ (by decide), hC]
  have k3 : g .R9 = BitVec.ofNat 64 (8 * Q) := by rw [hk _ (by decide), ht]
  have k4 : g .R10 = BitVec.ofNat 64 M := by rw [hk _ (by decide), hm]
  have hlt : (BitVec.ofNat 64 i).slt (BitVec.ofNat 64 M) = true := by
    rw [slt_ofNat (by omega) (by omega), decide_eq_true_eq]; omega
  have hj : 2 * i * (8 * Q) + 2 * (8 * Q) ≤ N := by
    calc 2 * i * (8 * Q) + 2 * (8 * Q) = 2 * (i + 1) * (8 * Q) := by ring
      _ ≤ 2 * M * (8 * Q) := Nat.mul_le_mul_right _ (by omega)
      _ ≤ N := hM
  have ej : (BitVec.ofNat 64 (8 * Q) * BitVec.ofNat 64 i) <<< 1 = BitVec.ofNat 64 (2 * i * (8 * Q)) := by
    rw [← BitVec.ofNat_mul, shl_ofNat]; congr 1; ring
  have ej' : BitVec.ofNat 64 (2 * i * (8 * Q)) + BitVec.ofNat 64 (8 * Q) = BitVec.ofNat 64 (2 * i * (8 * Q) + 8 * Q) := by
    rw [← BitVec.ofNat_add]
  generalize hx : (stageN (fwdR F) tw (8 * Q) x w i).1 = X
  have l0 := h.re (x := X) (w + i) (by omega) (addr8 tb (2 * (w + i)))
  have l1 := h.im (x := X) (w + i) (by omega) (addr8_im tb (w + i))
  iterate 14 asm1 [e1, e2, hlt, h3, hi, k1, k2, k3, k4, ej, ej', l0, l1, join2_split2]
  refine (fwd_mid_row (m := m) (x := X) (w := tw (w + i)) (g0 := Function.update (Function.update g .R12 (BitVec.ofNat 64 (2 * i * (8 * Q) + 8 * Q))) .BX (BitVec.ofNat 64 (2 * (w + i)) + 2))
    (j1 := 2 * i * (8 * Q)) (Q := Q) h.align h.size ?_ ?_ hj _ ⟨rfl, rfl, rfl, ?_, ?_, ?_, ?_, ?_⟩).trans ?_
  · simp only [Function.update_apply, reduceCtorEq, if_false, k1]
  · simp only [Function.update_apply, reduceCtorEq, if_false, if_true]
  · simp only [Function.update_apply, reduceCtorEq, if_false, if_true, Nat.mul_zero, Nat.add_zero]
  · simp only [Function.update_apply, reduceCtorEq, if_false, if_true, Nat.mul_zero, Nat.add_zero]
  · simp only [Function.update_apply, reduceCtorEq, Nat.reduceEqDiff, one_ne_zero, zero_ne_one, if_true, if_false]
  · simp only [Function.update_apply, reduceCtorEq, Nat.reduceEqDiff, one_ne_zero, zero_ne_one, if_true, if_false]
  · intro r hr1 hr2
    simp only [Function.update_apply, hr1, hr2, if_false]
    split_ifs <;> rfl
  rintro ⟨pc, g', y', c'', m', r⟩ ⟨h0, h1, h2, h3', h4', h5', h6', h7'⟩
  dsimp only at h0 h1 h2 h3' h4' h5' h6' h7'
  subst h0 h1 h2
  have hlt : (BitVec.ofNat 64 (2 * i * (8 * Q) + 8 * Q)).slt (BitVec.ofNat 64 (2 * i * (8 * Q) + 8 * Q)) = false := by
    rw [slt_ofNat (by omega) (by omega)]; simp
  have k5 : g' .R12 = BitVec.ofNat 64 (2 * i * (8 * Q) + 8 * Q) := by
    rw [h7' _ (by decide) (by decide)]; simp only [Function.update_apply, reduceCtorEq, if_false, if_true]
  have k6 : g' .R11 = BitVec.ofNat 64 i := by
    rw [h7' _ (by decide) (by decide)]; simp only [Function.update_apply, reduceCtorEq, if_false, if_true, hi]
  have k7 : g' .BX = BitVec.ofNat 64 (2 * (w + i)) + 2 := by
    rw [h7' _ (by decide) (by decide)]; simp only [Function.update_apply, reduceCtorEq, if_false, if_true]
  rw [← bfRow_eq, ← hx, ← stageN_succ]
  iterate 4 asm1 [h3', k5, k6, hlt, Bool.false_eq_true]
  refine .refl ⟨rfl, rfl, rfl, ?_, ?_, ?_⟩
  · simp only [Function.update_apply, reduceCtorEq, if_false, k7]
    rw [show 2 * (w + (i + 1)) = 2 * (w + i) + 2 by ring, BitVec.ofNat_add _ 2]; rfl
  · simp only [Function.update_apply, reduceCtorEq, if_true]
    rw [BitVec.ofNat_add]; rfl
  · intro r hr
    simp only [List.mem_cons, List.not_mem_nil, or_false, not_or] at hr
    obtain ⟨q1, q2, q3, q4, q5⟩ := hr
    simp only [Function.update_apply, q2, if_false]
    rw [h7' r q3 q5]
    simp only [Function.update_apply, q1, q4, if_false]
    exact hk r (by simp [q1, q2, q3, q4, q5])

theorem inv_stage {F : Fpu} {fp : List (BitVec 32)} {m : Memory} {b tb : BitVec 64} {N L : Nat} {tw : Nat → BitVec 64 × BitVec 64}
    (h : Table m b tb tw N L) {g0 : Reg → BitVec 64} {x : Nat → BitVec 64} {Q M w : Nat}
    (hA : g0 .AX = b) (hC : g0 .CX = tb) (ht : g0 .SI = BitVec.ofNat 64 (8 * Q)) (hm : g0 .DI = BitVec.ofNat 64 M)
    (hM : 2 * M * (8 * Q) ≤ N) (hQ : 0 < Q) (hw : w + M ≤ L) :
    ∀ s, CntI m b N 97 .R8 [.BX, .R8, .R9, .R10, .R11] g0 x w 0 s →
      Wp F invFFTInPlaceAVX2 fp s (fun s => CntI m b N 97 .R8 [.BX, .R8, .R9, .R10, .R11] g0 (stageN (invR F) tw (8 * Q) x w M).1 (w + M) M s) := by
  have e1 : target invFFTInPlaceAVX2 .i_loop_body = 63 := by decide +kernel
  have e2 : target invFFTInPlaceAVX2 .j_loop_end = 93 := by decide +kernel
  have hMN : M ≤ N := le_trans (le_trans (by omega) (Nat.le_mul_of_pos_right (2 * M) (by omega : 0 < 8 * Q))) hM
  have := h.size
  have := h.size'
  refine Wp.loop1 (I := fun i s => CntI m b N 97 .R8 [.BX, .R8, .R9, .R10, .R11] g0 (stageN (invR F) tw (8 * Q) x w i).1 (w + i) i s) ?_ (Nat.zero_le _)
  rintro i ⟨pc, g, y, c', m', r⟩ - hiM ⟨h0, h1, h2, h3, hi, hk⟩
  dsimp only at h0 h1 h2 h3 hi hk
  subst h0 h1 h2
  have k1 : g .AX = b := by rw [hk _ (by decide), hA]
  have k2 : g .CX = tb := by rw [hk _ (by decide), hC]
  have k3 : g .SI = BitVec.ofNat 64 (8 * Q) := by rw [hk _ (by decide), ht]
  have k4 : g .DI = BitVec.ofNat 64 M := by rw [hk _ (by decide), hm]
  have hlt : (BitVec.ofNat 64 i).slt (BitVec.ofNat 64 M) = true := by
    rw [slt_ofNat (by omega) (by omega), decide_eq_true_eq]; omega
  have hj : 2 * i * (8 * Q) + 2 * (8 * Q) ≤ N := by
    calc 2 * i * (8 * Q) + 2 * (8 * Q) = 2 * (i + 1) * (8 * Q) := by ring
      _ ≤ 2 * M * (8 * Q) := Nat.mul_le_mul_right _ (by omega)
      _ ≤ N := hM
  have ej : (BitVec.ofNat 64 (8 * Q) * BitVec.ofNat 64 i) <<< 1 = BitVec.ofNat 64 (2 * i * (8 * Q)) := by
    rw [← BitVec.ofNat_mul, shl_ofNat]; congr 1; ring
  have ej' : BitVec.ofNat 64 (2 * i * (8 * Q)) + BitVec.ofNat 64 (8 * Q) = BitVec.ofNat 64 (2 * i * (8 * Q) + 8 * Q) := by
    rw [← BitVec.ofNat_add]
  generalize hx : (stageN (invR F) tw (8 * Q) x w i).1 = X
  have l0 := h.re (x := X) (w + i) (by omega) (addr8 tb (2 * (w + i)))
  have l1 := h.im (x := X) (w + i) (by omega) (addr8_im tb (w + i))
  iterate 14 asm1 [e1, e2, hlt, h3, hi, k1, k2, k3, k4, ej, ej', l0, l1, join2_split2]
  refine (inv_mid_row (m := m) (x := X) (w := tw (w + i)) (g0 := Function.update (Function.update g .R10 (BitVec.ofNat 64 (2 * i * (8 * Q) + 8 * Q))) .BX (BitVec.ofNat 64 (2 * (w + i)) + 2))
    (j1 := 2 * i * (8 * Q)) (Q := Q) h.align h.size ?_ ?_ hj _ ⟨rfl, rfl, rfl, ?_, ?_, ?_, ?_, ?_⟩).trans ?_
  · simp only [Function.update_apply, reduceCtorEq, if_false, k1]
  · simp only [Function.update_apply, reduceCtorEq, if_false, if_true]
  · simp only [Function.update_apply, reduceCtorEq, if_false, if_true, Nat.mul_zero, Nat.add_zero]
  · simp only [Function.update_apply, reduceCtorEq, if_false, if_true, Nat.mul_zero, Nat.add_zero]
  · simp only [Function.update_apply, reduceCtorEq, Nat.reduceEqDiff, one_ne_zero, zero_ne_one, if_true, if_false]
  · simp only [Function.update_apply, reduceCtorEq, Nat.reduceEqDiff, one_ne_zero, zero_ne_one, if_true, if_false]
  · intro r hr1 hr2
    simp only [Function.update_apply, hr1, hr2, if_false]
    split_ifs <;> rfl
  rintro ⟨pc, g', y', c'', m', r⟩ ⟨h0, h1, h2, h3', h4', h5', h6', h7'⟩
  dsimp only at h0 h1 h2 h3' h4' h5' h6' h7'
  subst h0 h1 h2
  have hlt : (BitVec.ofNat 64 (2 * i * (8 * Q) + 8 * Q)).slt (BitVec.ofNat 64 (2 * i * (8 * Q) + 8 * Q)) = false := by
    rw [slt_ofNat (by omega) (by omega)]; simp
  have k5 : g' .R10 = BitVec.ofNat 64 (2 * i * (8 * Q) + 8 * Q) := by
    rw [h7' _ (by decide) (by decide)]; simp only [Function.update_apply, reduceCtorEq, if_false, if_true]
  have k6 : g' .R8 = BitVec.ofNat 64 i := by
    rw [h7' _ (by decide) (by decide)]; simp only [Function.update_apply, reduceCtorEq, if_false, if_true, hi]
  have k7 : g' .BX = BitVec.ofNat 64 (2 * (w + i)) + 2 := by
    rw [h7' _ (by decide) (by decide)]; simp only [Function.update_apply, reduceCtorEq, if_false, if_true]
  rw [← bfRow_eq, ← hx, ← stageN_succ]
  iterate 4 asm1 [h3', k5, k6, hlt, Bool.false_eq_true]
  refine .refl ⟨rfl, rfl, rfl, ?_, ?_, ?_⟩
  · simp only [Function.update_apply, reduceCtorEq, if_false, k7]
    rw [show 2 * (w + (i + 1)) = 2 * (w + i) + 2 by ring, BitVec.ofNat_add _ 2]; rfl
  · simp only [Function.update_apply, reduceCtorEq, if_true]
    rw [BitVec.ofNat_add]; rfl
  · intro r hr
    simp only [List.mem_cons, List.not_mem_nil, or_false, not_or] at hr
    obtain ⟨q1, q2, q3, q4, q5⟩ := hr
    simp only [Function.update_apply, q2, if_false]
    rw [h7' r q3 q5]
    simp only [Function.update_apply, q1, q4, if_false]
    exact hk r (by simp [q1, q2, q3, q4, q5])

theorem fwd_stage2 {F : Fpu} {fp : List (BitVec 32)} {m : Memory} {b tb : BitVec 64} {L : Nat} {tw : Nat → BitVec 64 × BitVec 64}
    {Q : Nat} (h : Table m b tb tw (8 * Q) L) {g0 : Reg → BitVec 64} {x : Nat → BitVec 64} {w : Nat}
    (hA : g0 .AX = b) (hC : g0 .CX = tb) (hD : g0 .DX = BitVec.ofNat 64 (8 * Q)) (hw : w + Q ≤ L) :
    ∀ s, CntI m b (8 * Q) 109 .DI [.BX, .DI] g0 x w 0 s →
      Wp F fwdFFTInPlaceAVX2 fp s (fun s => CntI m b (8 * Q) 109 .DI [.BX, .DI] g0 (st2N (fwdR F) tw x w Q).1 (w + Q) (8 * Q) s) := by
  have e1 : target fwdFFTInPlaceAVX2 .last_loop_2_body = 87 := by decide +kernel
  have := h.size
  have := h.size'
  have hb := h.align
  refine Wp.loop1 (I := fun J s => CntI m b (8 * Q) 109 .DI [.BX, .DI] g0 (st2N (fwdR F) tw x w J).1 (w + J) (8 * J) s) ?_ (Nat.zero_le _)
  rintro J ⟨pc, g, y, c', m', r⟩ - hJ ⟨h0, h1, h2, h3, hi, hk⟩
  dsimp only at h0 h1 h2 h3 hi hk
  subst h0 h1 h2
  have k1 : g .AX = b := by rw [hk _ (by decide), hA]
  have k2 : g .CX = tb := by rw [hk _ (by decide), hC]
  have k3 : g .DX = BitVec.ofNat 64 (8 * Q) := by rw [hk _ (by decide), hD]
  have hlt : (BitVec.ofNat 64 (8 * J)).slt (BitVec.ofNat 64 (8 * Q)) = true := by
    rw [slt_ofNat (by omega) (by omega), decide_eq_true_eq]; omega
  generalize hx : (st2N (fwdR F) tw x w J).1 = X
  have lw := h.pair (x := X) (w + J) (by omega) (addr8 tb (2 * (w + J)))
  have l0 := load2 (m := m) (x := X) (N := 8 * Q) (8 * J) hb (by omega) (by omega) (addr8 b _)
  have l1 := load2 (m := m) (x := X) (N := 8 * Q) (8 * J + 2) hb (by omega) (by omega) (addr8_16 b _)
  have l2 := load2 (m := m) (x := X) (N := 8 * Q) (8 * J + 4) hb (by omega) (by omega) (addr8_32 b _)
  have l3 := load2 (m := m) (x := X) (N := 8 * Q) (8 * J + 6) hb (by omega) (by omega) (addr8_48 b _)
  have f0 : flat tw (2 * (w + J) + 0) = (tw (w + J)).1 := flat_re tw _
  have f1 : flat tw (2 * (w + J) + 1) = (tw (w + J)).2 := flat_im tw _
  iterate 20 asm1 [e1, h3, hi, k1, k2, k3, hlt, lw, l0, l1, l2, l3, vloadX_low, low_shuf3, low_shuf0, low_mapQ, low_fma, low_fnma,
    VOp.eval, VFma.eval, f0, f1]
  refine Wp.step rfl ?_
  simp only [exec, ea, Function.update_apply, reduceCtorEq, Nat.reduceEqDiff, one_ne_zero, zero_ne_one, if_true, if_false,
    hi, k1]
  refine wpO_map (store2 (N := 8 * Q) (8 * J) (f := fun q => (fwdR F (X (8 * J + q)) (X (8 * J + 4 + q)) (X (8 * J + 2 + q)) (X (8 * J + 6 + q)) (tw (w + J)).1 (tw (w + J)).2).1) hb (by omega) (by omega) (addr8 b _)) ?_
  simp only [St.next]
  refine Wp.step rfl ?_
  simp only [exec, ea, Function.update_apply, reduceCtorEq, Nat.reduceEqDiff, one_ne_zero, zero_ne_one, if_true, if_false,
    hi, k1]
  refine wpO_map (store2 (N := 8 * Q) (8 * J + 2) (f := fun q => (fwdR F (X (8 * J + q)) (X (8 * J + 4 + q)) (X (8 * J + 2 + q)) (X (8 * J + 6 + q)) (tw (w + J)).1 (tw (w + J)).2).2.2.1) hb (by omega) (by omega) (addr8_16 b _)) ?_
  simp only [St.next]
  refine Wp.step rfl ?_
  simp only [exec, ea, Function.update_apply, reduceCtorEq, Nat.reduceEqDiff, one_ne_zero, zero_ne_one, if_true, if_false,
    hi, k1]
  refine wpO_map (store2 (N := 8 * Q) (8 * J + 4) (f := fun q => (fwdR F (X (8 * J + q)) (X (8 * J + 4 + q)) (X (8 * J + 2 + q)) (X (8 * J + 6 + q)) (tw (w + J)).1 (tw (w + J)).2).2.1) hb (by omega) (by omega) (addr8_32 b _)) ?_
  simp only [St.next]
  refine Wp.step rfl ?_
  simp only [exec, ea, Function.update_apply, reduceCtorEq, Nat.reduceEqDiff, one_ne_zero, zero_ne_one, if_true, if_false,
    hi, k1]
  refine wpO_map (store2 (N := 8 * Q) (8 * J + 6) (f := fun q => (fwdR F (X (8 * J + q)) (X (8 * J + 4 + q)) (X (8 * J + 2 + q)) (X (8 * J + 6 + q)) (tw (w + J)).1 (tw (w + J)).2).2.2.2) hb (by omega) (by omega) (addr8_48 b _)) ?_
  simp only [St.next]
  rw [← bf2_eq (fwdR F) X, ← hx, ← st2N_succ]
  iterate 1 asm1 [hi]
  refine .refl ⟨rfl, rfl, rfl, ?_, ?_, ?_⟩
  · simp only [Function.update_apply, reduceCtorEq, if_false, if_true, h3]
    rw [show 2 * (w + (J + 1)) = 2 * (w + J) + 2 by ring, BitVec.ofNat_add _ 2]; rfl
  · simp only [Function.update_apply, reduceCtorEq, if_true]
    rw [show 8 * (J + 1) = 8 * J + 8 by ring, BitVec.ofNat_add _ 8]; rfl
  · intro r hr
    have hr' := hr
    simp only [List.mem_cons, List.not_mem_nil, or_false, not_or] at hr
    simp only [Function.update_apply, hr.1, hr.2, if_false, hk r hr']

theorem inv_stage2 {F : Fpu} {fp : List (BitVec 32)} {m : Memory} {b tb : BitVec 64} {L : Nat} {tw : Nat → BitVec 64 × BitVec 64}
    {Q : Nat} (h : Table m b tb tw (8 * Q) L) {g0 : Reg → BitVec 64} {x : Nat → BitVec 64} {w : Nat}
    (hA : g0 .AX = b) (hC : g0 .CX = tb) (hD : g0 .DX = BitVec.ofNat 64 (8 * Q)) (hw : w + Q ≤ L) :
    ∀ s, CntI m b (8 * Q) 53 .SI [.BX, .SI] g0 x w 0 s →
      Wp F invFFTInPlaceAVX2 fp s (fun s => CntI m b (8 * Q) 53 .SI [.BX, .SI] g0 (st2N (invR F) tw x w Q).1 (w + Q) (8 * Q) s) := by
  have e1 : target invFFTInPlaceAVX2 .first_loop_2_body = 31 := by decide +kernel
  have := h.size
  have := h.size'
  have hb := h.align
  refine Wp.loop1 (I := fun J s => CntI m b (8 * Q) 53 .SI [.BX, .SI] g0 (st2N (invR F) tw x w J).1 (w + J) (8 * J) s) ?_ (Nat.zero_le _)
  rintro J ⟨pc, g, y, c', m', r⟩ - hJ ⟨h0, h1, h2, h3, hi, hk⟩
  dsimp only at h0 h1 h2 h3 hi hk
  subst h0 h1 h2
  have k1 : g .AX = b := by rw [hk _ (by decide), hA]
  have k2 : g .CX = tb := by rw [hk _ (by decide), hC]
  have k3 : g .DX = BitVec.ofNat 64 (8 * Q) := by rw [hk _ (by decide), hD]
  have hlt : (BitVec.ofNat 64 (8 * J)).slt (BitVec.ofNat 64 (8 * Q)) = true := by
    rw [slt_ofNat (by omega) (by omega), decide_eq_true_eq]; omega
  generalize hx : (st2N (invR F) tw x w J).1 = X
  have lw := h.pair (x := X) (w + J) (by omega) (addr8 tb (2 * (w + J)))
  have l0 := load2 (m := m) (x := X) (N := 8 * Q) (8 * J) hb (by omega) (by omega) (addr8 b _)
  have l1 := load2 (m := m) (x := X) (N := 8 * Q) (8 * J + 2) hb (by omega) (by omega) (addr8_16 b _)
  have l2 := load2 (m := m) (x := X) (N := 8 * Q) (8 * J + 4) hb (by omega) (by omega) (addr8_32 b _)
  have l3 := load2 (m := m) (x := X) (N := 8 * Q) (8 * J + 6) hb (by omega) (by omega) (addr8_48 b _)
  have f0 : flat tw (2 * (w + J) + 0) = (tw (w + J)).1 := flat_re tw _
  have f1 : flat tw (2 * (w + J) + 1) = (tw (w + J)).2 := flat_im tw _
  iterate 20 asm1 [e1, h3, hi, k1, k2, k3, hlt, lw, l0, l1, l2, l3, vloadX_low, low_shuf3, low_shuf0, low_mapQ, low_fma, low_fnma,
    VOp.eval, VFma.eval, f0, f1]
  refine Wp.step rfl ?_
  simp only [exec, ea, Function.update_apply, reduceCtorEq, Nat.reduceEqDiff, one_ne_zero, zero_ne_one, if_true, if_false,
    hi, k1]
  refine wpO_map (store2 (N := 8 * Q) (8 * J) (f := fun q => (invR F (X (8 * J + q)) (X (8 * J + 4 + q)) (X (8 * J + 2 + q)) (X (8 * J + 6 + q)) (tw (w + J)).1 (tw (w + J)).2).1) hb (by omega) (by omega) (addr8 b _)) ?_
  simp only [St.next]
  refine Wp.step rfl ?_
  simp only [exec, ea, Function.update_apply, reduceCtorEq, Nat.reduceEqDiff, one_ne_zero, zero_ne_one, if_true, if_false,
    hi, k1]
  refine wpO_map (store2 (N := 8 * Q) (8 * J + 2) (f := fun q => (invR F (X (8 * J + q)) (X (8 * J + 4 + q)) (X (8 * J + 2 + q)) (X (8 * J + 6 + q)) (tw (w + J)).1 (tw (w + J)).2).2.2.1) hb (by omega) (by omega) (addr8_16 b _)) ?_
  simp only [St.next]
  refine Wp.step rfl ?_
  simp only [exec, ea, Function.update_apply, reduceCtorEq, Nat.reduceEqDiff, one_ne_zero, zero_ne_one, if_true, if_false,
    hi, k1]
  refine wpO_map (store2 (N := 8 * Q) (8 * J + 4) (f := fun q => (invR F (X (8 * J + q)) (X (8 * J + 4 + q)) (X (8 * J + 2 + q)) (X (8 * J + 6 + q)) (tw (w + J)).1 (tw (w + J)).2).2.1) hb (by omega) (by omega) (addr8_32 b _)) ?_
  simp only [St.next]
  refine Wp.step rfl ?_
  simp only [exec, ea, Function.update_apply, reduceCtorEq, Nat.reduceEqDiff, one_ne_zero, zero_ne_one, if_true, if_false,
    hi, k1]
  refine wpO_map (store2 (N := 8 * Q) (8 * J + 6) (f := fun q => (invR F (X (8 * J + q)) (X (8 * J + 4 + q)) (X (8 * J + 2 + q)) (X (8 * J + 6 + q)) (tw (w + J)).1 (tw (w + J)).2).2.2.2) hb (by omega) (by omega) (addr8_48 b _)) ?_
  simp only [St.next]
  rw [← bf2_eq (invR F) X, ← hx, ← st2N_succ]
  iterate 1 asm1 [hi]
  refine .refl ⟨rfl, rfl, rfl, ?_, ?_, ?_⟩
  · simp only [Function.update_apply, reduceCtorEq, if_false, if_true, h3]
    rw [show 2 * (w + (J + 1)) = 2 * (w + J) + 2 by ring, BitVec.ofNat_add _ 2]; rfl
  · simp only [Function.update_apply, reduceCtorEq, if_true]
    rw [show 8 * (J + 1) = 8 * J + 8 by ring, BitVec.ofNat_add _ 8]; rfl
  · intro r hr
    have hr' := hr
    simp only [List.mem_cons, List.not_mem_nil, or_false, not_or] at hr
    simp only [Function.update_apply, hr.1, hr.2, if_false, hk r hr']

theorem fwd_stage1 {F : Fpu} {fp : List (BitVec 32)} {m : Memory} {b tb : BitVec 64} {L : Nat} {tw : Nat → BitVec 64 × BitVec 64}
    {Q : Nat} (h : Table m b tb tw (8 * Q) L) {g0 : Reg → BitVec 64} {x : Nat → BitVec 64} {w : Nat}
    (hA : g0 .AX = b) (hC : g0 .CX = tb) (hD : g0 .DX = BitVec.ofNat 64 (8 * Q)) (hw : w + 2 * Q ≤ L) :
    ∀ s, CntI m b (8 * Q) 136 .DI [.BX, .DI] g0 x w 0 s → (s.ymm 0 = ofQ fun _ => 0#64) → 
      Wp F fwdFFTInPlaceAVX2 fp s (fun s => CntI m b (8 * Q) 136 .DI [.BX, .DI] g0 (st1N (fwdN F) tw x w Q).1 (w + 2 * Q) (8 * Q) s ∧ s.ymm 0 = ofQ fun _ => 0#64) := by
  have e1 : target fwdFFTInPlaceAVX2 .last_loop_1_body = 115 := by decide +kernel
  have := h.size
  have := h.size'
  have hb := h.align
  intro s hs hz
  refine Wp.loop1 (I := fun J => (fun s => CntI m b (8 * Q) 136 .DI [.BX, .DI] g0 (st1N (fwdN F) tw x w J).1 (w + 2 * J) (8 * J) s ∧ s.ymm 0 = ofQ fun _ => 0#64)) ?_ (Nat.zero_le _) s ⟨hs, hz⟩
  clear hs hz s
  rintro J ⟨pc, g, y, c', m', r⟩ - hJ ⟨⟨h0, h1, h2, h3, hi, hk⟩, hz⟩
  dsimp only at h0 h1 h2 h3 hi hk hz
  subst h0 h1 h2
  have k1 : g .AX = b := by rw [hk _ (by decide), hA]
  have k2 : g .CX = tb := by rw [hk _ (by decide), hC]
  have k3 : g .DX = BitVec.ofNat 64 (8 * Q) := by rw [hk _ (by decide), hD]
  have hlt : (BitVec.ofNat 64 (8 * J)).slt (BitVec.ofNat 64 (8 * Q)) = true := by
    rw [slt_ofNat (by omega) (by omega), decide_eq_true_eq]; omega
  generalize hx : (st1N (fwdN F) tw x w J).1 = X
  have lw := h.quad (x := X) (w + 2 * J) (by omega) (addr8 tb (2 * (w + 2 * J)))
  rw [quad_eq] at lw
  have l0 := load4 (m := m) (x := X) (N := 8 * Q) (8 * J) hb (by omega) (by omega) (addr8 b _)
  have l1 := load4 (m := m) (x := X) (N := 8 * Q) (8 * J + 4) hb (by omega) (by omega) (addr8_32 b _)
  iterate 21 asm1 [e1, h3, hi, k1, k2, k3, hlt, lw, l0, l1, shufpd_ofQ, mapQ_ofQ, qw_ofQ, VOp.eval, VFma.eval, hz]
  refine Wp.step rfl ?_
  simp only [exec, ea, Function.update_apply, reduceCtorEq, Nat.reduceEqDiff, one_ne_zero, zero_ne_one, if_true, if_false,
    hi, k1]
  refine wpO_map (store4 (N := 8 * Q) (8 * J) (f := fun q => if q = 0 then (fwdN F (X (8 * J)) (X (8 * J + 4)) (X (8 * J + 1)) (X (8 * J + 5)) (tw (w + 2 * J)).1 (tw (w + 2 * J)).2).1 else if q = 1 then (fwdN F (X (8 * J)) (X (8 * J + 4)) (X (8 * J + 1)) (X (8 * J + 5)) (tw (w + 2 * J)).1 (tw (w + 2 * J)).2).2.2.1
      else if q = 2 then (fwdN F (X (8 * J + 2)) (X (8 * J + 6)) (X (8 * J + 3)) (X (8 * J + 7)) (tw (w + 2 * J + 1)).1 (tw (w + 2 * J + 1)).2).1 else (fwdN F (X (8 * J + 2)) (X (8 * J + 6)) (X (8 * J + 3)) (X (8 * J + 7)) (tw (w + 2 * J + 1)).1 (tw (w + 2 * J + 1)).2).2.2.1) hb (by omega) (by omega) (addr8 b _)
    (congrArg ofQ (funext fun q => by fin_cases q <;> rfl))) ?_
  simp only [St.next]
  refine Wp.step rfl ?_
  simp only [exec, ea, Function.update_apply, reduceCtorEq, Nat.reduceEqDiff, one_ne_zero, zero_ne_one, if_true, if_false,
    hi, k1]
  refine wpO_map (store4 (N := 8 * Q) (8 * J + 4) (f := fun q => if q = 0 then (fwdN F (X (8 * J)) (X (8 * J + 4)) (X (8 * J + 1)) (X (8 * J + 5)) (tw (w + 2 * J)).1 (tw (w + 2 * J)).2).2.1 else if q = 1 then (fwdN F (X (8 * J)) (X (8 * J + 4)) (X (8 * J + 1)) (X (8 * J + 5)) (tw (w + 2 * J)).1 (tw (w + 2 * J)).2).2.2.2
      else if q = 2 then (fwdN F (X (8 * J + 2)) (X (8 * J + 6)) (X (8 * J + 3)) (X (8 * J + 7)) (tw (w + 2 * J + 1)).1 (tw (w + 2 * J + 1)).2).2.1 else (fwdN F (X (8 * J + 2)) (X (8 * J + 6)) (X (8 * J + 3)) (X (8 * J + 7)) (tw (w + 2 * J + 1)).1 (tw (w + 2 * J + 1)).2).2.2.2) hb (by omega) (by omega) (addr8_32 b _)
    (congrArg ofQ (funext fun q => by fin_cases q <;> rfl))) ?_
  simp only [St.next]
  rw [← bf1_eq (fwdN F) X, ← hx, ← st1N_succ]
  iterate 1 asm1 [hi]
  refine .refl ⟨⟨rfl, rfl, rfl, ?_, ?_, ?_⟩, ?_⟩
  · simp only [Function.update_apply, reduceCtorEq, if_false, if_true, h3]
    rw [show 2 * (w + 2 * (J + 1)) = 2 * (w + 2 * J) + 4 by ring, BitVec.ofNat_add _ 4]; rfl
  · simp only [Function.update_apply, reduceCtorEq, if_true]
    rw [show 8 * (J + 1) = 8 * J + 8 by ring, BitVec.ofNat_add _ 8]; rfl
  · intro r hr
    have hr' := hr
    simp only [List.mem_cons, List.not_mem_nil, or_false, not_or] at hr
    simp only [Function.update_apply, hr.1, hr.2, if_false, hk r hr']
  · simp only [Function.update_apply, Nat.reduceEqDiff, one_ne_zero, zero_ne_one, if_false, hz]

theorem inv_stage1 {F : Fpu} {fp : List (BitVec 32)} {m : Memory} {b tb : BitVec 64} {L : Nat} {tw : Nat → BitVec 64 × BitVec 64}
    {Q : Nat} (h : Table m b tb tw (8 * Q) L) {g0 : Reg → BitVec 64} {x : Nat → BitVec 64} {w : Nat}
    (hA : g0 .AX = b) (hC : g0 .CX = tb) (hD : g0 .DX = BitVec.ofNat 64 (8 * Q)) (hw : w + 2 * Q ≤ L) :
    ∀ s, CntI m b (8 * Q) 26 .SI [.BX, .SI] g0 x w 0 s → 
      Wp F invFFTInPlaceAVX2 fp s (fun s => CntI m b (8 * Q) 26 .SI [.BX, .SI] g0 (st1N (invN F) tw x w Q).1 (w + 2 * Q) (8 * Q) s) := by
  have e1 : target invFFTInPlaceAVX2 .first_loop_1_body = 6 := by decide +kernel
  have := h.size
  have := h.size'
  have hb := h.align
  intro s hs
  refine Wp.loop1 (I := fun J => (fun s => CntI m b (8 * Q) 26 .SI [.BX, .SI] g0 (st1N (invN F) tw x w J).1 (w + 2 * J) (8 * J) s)) ?_ (Nat.zero_le _) s hs
  clear hs  s
  rintro J ⟨pc, g, y, c', m', r⟩ - hJ ⟨h0, h1, h2, h3, hi, hk⟩
  dsimp only at h0 h1 h2 h3 hi hk 
  subst h0 h1 h2
  have k1 : g .AX = b := by rw [hk _ (by decide), hA]
  have k2 : g .CX = tb := by rw [hk _ (by decide), hC]
  have k3 : g .DX = BitVec.ofNat 64 (8 * Q) := by rw [hk _ (by decide), hD]
  have hlt : (BitVec.ofNat 64 (8 * J)).slt (BitVec.ofNat 64 (8 * Q)) = true := by
    rw [slt_ofNat (by omega) (by omega), decide_eq_true_eq]; omega
  generalize hx : (st1N (invN F) tw x w J).1 = X
  have lw := h.quad (x := X) (w + 2 * J) (by omega) (addr8 tb (2 * (w + 2 * J)))
  rw [quad_eq] at lw
  have l0 := load4 (m := m) (x := X) (N := 8 * Q) (8 * J) hb (by omega) (by omega) (addr8 b _)
  have l1 := load4 (m := m) (x := X) (N := 8 * Q) (8 * J + 4) hb (by omega) (by omega) (addr8_32 b _)
  iterate 20 asm1 [e1, h3, hi, k1, k2, k3, hlt, lw, l0, l1, shufpd_ofQ, mapQ_ofQ, qw_ofQ, VOp.eval, VFma.eval]
  refine Wp.step rfl ?_
  simp only [exec, ea, Function.update_apply, reduceCtorEq, Nat.reduceEqDiff, one_ne_zero, zero_ne_one, if_true, if_false,
    hi, k1]
  refine wpO_map (store4 (N := 8 * Q) (8 * J) (f := fun q => if q = 0 then (invN F (X (8 * J)) (X (8 * J + 4)) (X (8 * J + 1)) (X (8 * J + 5)) (tw (w + 2 * J)).1 (tw (w + 2 * J)).2).1 else if q = 1 then (invN F (X (8 * J)) (X (8 * J + 4)) (X (8 * J + 1)) (X (8 * J + 5)) (tw (w + 2 * J)).1 (tw (w + 2 * J)).2).2.2.1
      else if q = 2 then (invN F (X (8 * J + 2)) (X (8 * J + 6)) (X (8 * J + 3)) (X (8 * J + 7)) (tw (w + 2 * J + 1)).1 (tw (w + 2 * J + 1)).2).1 else (invN F (X (8 * J + 2)) (X (8 * J + 6)) (X (8 * J + 3)) (X (8 * J + 7)) (tw (w + 2 * J + 1)).1 (tw (w + 2 * J + 1)).2).2.2.1) hb (by omega) (by omega) (addr8 b _)
    (congrArg ofQ (funext fun q => by fin_cases q <;> rfl))) ?_
  simp only [St.next]
  refine Wp.step rfl ?_
  simp only [exec, ea, Function.update_apply, reduceCtorEq, Nat.reduceEqDiff, one_ne_zero, zero_ne_one, if_true, if_false,
    hi, k1]
  refine wpO_map (store4 (N := 8 * Q) (8 * J + 4) (f := fun q => if q = 0 then (invN F (X (8 * J)) (X (8 * J + 4)) (X (8 * J + 1)) (X (8 * J + 5)) (tw (w + 2 * J)).1 (tw (w + 2 * J)).2).2.1 else if q = 1 then (invN F (X (8 * J)) (X (8 * J + 4)) (X (8 * J + 1)) (X (8 * J + 5)) (tw (w + 2 * J)).1 (tw (w + 2 * J)).2).2.2.2
      else if q = 2 then (invN F (X (8 * J + 2)) (X (8 * J + 6)) (X (8 * J + 3)) (X (8 * J + 7)) (tw (w + 2 * J + 1)).1 (tw (w + 2 * J + 1)).2).2.1 else (invN F (X (8 * J + 2)) (X (8 * J + 6)) (X (8 * J + 3)) (X (8 * J + 7)) (tw (w + 2 * J + 1)).1 (tw (w + 2 * J + 1)).2).2.2.2) hb (by omega) (by omega) (addr8_32 b _)
    (congrArg ofQ (funext fun q => by fin_cases q <;> rfl))) ?_
  simp only [St.next]
  rw [← bf1_eq (invN F) X, ← hx, ← st1N_succ]
  iterate 1 asm1 [hi]
  refine .refl ⟨rfl, rfl, rfl, ?_, ?_, ?_⟩
  · simp only [Function.update_apply, reduceCtorEq, if_false, if_true, h3]
    rw [show 2 * (w + 2 * (J + 1)) = 2 * (w + 2 * J) + 4 by ring, BitVec.ofNat_add _ 4]; rfl
  · simp only [Function.update_apply, reduceCtorEq, if_true]
    rw [show 8 * (J + 1) = 8 * J + 8 by ring, BitVec.ofNat_add _ 8]; rfl
  · intro r hr
    have hr' := hr
    simp only [List.mem_cons, List.not_mem_nil, or_false, not_or] at hr
    simp only [Function.update_apply, hr.1, hr.2, if_false, hk r hr']

end Asm
end Tfhe
