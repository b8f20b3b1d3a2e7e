import Verif.Lemma.AsmVec
import Verif.Model.AsmCmplx

/-!
# What the programs of `math/poly/asm_vec_cmplx_amd64.s` do to memory
-/
set_option linter.unusedSimpArgs false

namespace Tfhe
namespace Asm

theorem addr8_32 (b : BitVec 64) (i : Nat) :
    b + BitVec.ofNat 64 i * 8 + 32 = b + BitVec.ofNat 64 (4 * (2 * (i + 4))) := by
  rw [show 4 * (2 * (i + 4)) = i * 8 + 32 by ring, BitVec.ofNat_add, BitVec.ofNat_mul, ← BitVec.add_assoc]
  rfl

/-- Reading input that is not before the written part. -/
theorem loadN_over64_at {m : Memory} {b a x : BitVec 64} {R A : Nat → BitVec 64} {k n : Nat} (j : Nat)
    (hA : Holds m a (dw A) (2 * n)) (hj : k ≤ j) (hK : j + 4 ≤ n) (hs : Ahead a b (2 * n))
    (hx : x = a + BitVec.ofNat 64 (4 * (2 * j))) :
    loadN 8 (over m b (dw R) (2 * k)) x = some (ofQ fun q => A (j + q.val)) := by
  subst hx
  rw [← dw_eq_ofQ A j]
  refine loadN_eq (align_add hA.1 _) fun l => ?_
  rw [BitVec.add_assoc, ← BitVec.ofNat_add, ← Nat.mul_add, over_off, hA.2 _ (by omega)]
  intro i hi
  exact hs _ _ (by omega) (by omega)

theorem zero_ofQ : (fun _ => 0#32 : Y) = ofQ fun _ => 0#64 := by
  apply qw_ext
  intro k
  rw [qw_ofQ]
  simp only [qw]
  decide

/-- A single loop in steps of `V`. -/
theorem one_loop {F : Fpu} {P : Prog} {fp : List (BitVec 32)} {I1 : Nat → St → Prop} {V K : Nat}
    {m' : Memory} {s : St} (h0 : Wp F P fp s (I1 0))
    (h1 : ∀ k s, k < K → I1 (k * V) s → Wp F P fp s (I1 (k * V + V)))
    (h4 : ∀ s, I1 (K * V) s → Wp F P fp s (fun t => t.ret = true ∧ t.mem = m')) : Returns F P fp s m' :=
  h0.trans fun s hs => (Wp.loop h1 _ (le_refl _) s hs).trans fun s hs => h4 s hs

/-- A vector in blocks of four real parts and four imaginary parts. -/
def cx (re im : Nat → BitVec 64) (i : Nat) : BitVec 64 := if i % 8 < 4 then re i else im (i - 4)

theorem cx_re (re im : Nat → BitVec 64) (k : Nat) (q : Fin 4) : cx re im (k * 8 + q.val) = re (k * 8 + q.val) := by
  have := q.isLt
  rw [cx, if_pos (by omega)]

theorem cx_im (re im : Nat → BitVec 64) (k : Nat) (q : Fin 4) :
    cx re im (k * 8 + 4 + q.val) = im (k * 8 + q.val) := by
  have := q.isLt
  rw [cx, if_neg (by omega)]
  congr 1
  omega


theorem addCmplxToAVX2_spec {F : Fpu} {out a b : BitVec 64} {K c1 c2 c3 : Nat} (hn : K * 8 < 2 ^ 60)
    (g : Reg → BitVec 64) (y : Nat → Y) (m : Memory) {O A B : Nat → BitVec 64}
    (hO : Holds m out (dw O) (2 * (K * 8))) (hA : Holds m a (dw A) (2 * (K * 8))) (hB : Holds m b (dw B) (2 * (K * 8)))
    (sA : Ahead a out (2 * (K * 8))) (sB : Ahead b out (2 * (K * 8))) :
    Returns F addCmplxToAVX2 (sliceArg out (K * 8) c1 ++ sliceArg a (K * 8) c2 ++ sliceArg b (K * 8) c3) (entry g y m)
      (over m out (dw (fun i => F.add (A i) (B i))) (2 * (K * 8))) := by
  have e1 : target addCmplxToAVX2 .loop_end = 12 := by decide
  have e2 : target addCmplxToAVX2 .loop_body = 6 := by decide
  have sO : Ahead out out (2 * (K * 8)) := ahead_self out (by omega)
  generalize hR : (fun i => F.add (A i) (B i)) = R
  replace hR : ∀ i, R i = F.add (A i) (B i) := fun i => by rw [← hR]
  refine one_loop (V := 4) (K := K * 2)
    (I1 := fun i s =>
      s.pc = 12 ∧ s.ret = false ∧ s.mem = over m out (dw R) (2 * i) ∧ s.gpr .SI = BitVec.ofNat 64 i ∧
      s.gpr .AX = out ∧ s.gpr .CX = a ∧ s.gpr .DX = b ∧ s.gpr .BX = BitVec.ofNat 64 (K * 8))
    ?_ ?_ ?_
  · unfold entry
    have a0 : arg64 (sliceArg out (K * 8) c1 ++ sliceArg a (K * 8) c2 ++ sliceArg b (K * 8) c3) 0 =
        some (out) := by
      simp only [arg64, arg32, sliceArg, word64]
      simp [join_split, join_ofNat]
    have a1 : arg64 (sliceArg out (K * 8) c1 ++ sliceArg a (K * 8) c2 ++ sliceArg b (K * 8) c3) 24 =
        some (a) := by
      simp only [arg64, arg32, sliceArg, word64]
      simp [join_split, join_ofNat]
    have a2 : arg64 (sliceArg out (K * 8) c1 ++ sliceArg a (K * 8) c2 ++ sliceArg b (K * 8) c3) 8 =
        some (BitVec.ofNat 64 (K * 8)) := by
      simp only [arg64, arg32, sliceArg, word64]
      simp [join_split, join_ofNat]
    have a3 : arg64 (sliceArg out (K * 8) c1 ++ sliceArg a (K * 8) c2 ++ sliceArg b (K * 8) c3) 48 =
        some (b) := by
      simp only [arg64, arg32, sliceArg, word64]
      simp [join_split, join_ofNat]
    iterate 6 asm1 [a0, a1, a2, a3, e1, VOp.eval]
    refine .refl ?_
    simp [over_zero]
  · rintro k ⟨pc, g, y, c', m', r⟩ hk ⟨h0, h1, h2, h3, h4, h5, h6, h7⟩
    dsimp only at h0 h1 h2 h3 h4 h5 h6 h7
    subst h0 h1 h2
    have hkn : k * 4 + 4 ≤ K * 8 := by omega
    have hl : (BitVec.ofNat 64 (k * 4)).slt (BitVec.ofNat 64 (K * 8)) = true := by
      rw [slt_ofNat (by omega) (by omega), decide_eq_true_eq]; omega
    have l0 := loadN_over64_at (R := R) (k := k * 4) (k * 4) hA (by omega) (by omega) sA (addr8 a (k * 4))
    have l1 := loadN_over64_at (R := R) (k := k * 4) (k * 4) hB (by omega) (by omega) sB (addr8 b (k * 4))
    iterate 7 asm1 [e1, e2, h3, h4, h5, h6, h7, hl, l0, l1,
      VOp.eval, VFma.eval, mapQ_ofQ, qw_ofQ]
    refine Wp.step rfl ?_
    simp only [exec, ea, Function.update_apply, reduceCtorEq, Nat.reduceEqDiff, one_ne_zero, zero_ne_one, if_true, if_false,
      h3, h4, h5, h6, h7]
    refine wpO_map (storeN_over64 (n := K * 8) (k := k * 4) hO (by omega) hn (addr8 out (k * 4)) ?_) ?_
    · exact congrArg ofQ (funext fun q => (hR _).symm)
    simp only [St.next]
    iterate 1 asm1 [h3, h4, h5, h6, h7]
    refine .refl ?_
    simp [h3, h4, h5, h6, h7, BitVec.ofNat_add, Nat.add_assoc]
  · rintro ⟨pc, g, y, c', m', r⟩ ⟨h0, h1, h2, h3, h4, h5, h6, h7⟩
    dsimp only at h0 h1 h2 h3 h4 h5 h6 h7
    subst h0 h1 h2
    have hl : (BitVec.ofNat 64 (K * 8)).slt (BitVec.ofNat 64 (K * 8)) = false := by
      rw [slt_ofNat (by omega) (by omega)]; simp
    have e3 : K * 2 * 4 = K * 8 := by omega
    rw [e3] at h3 ⊢
    iterate 3 asm1 [h3, h4, h5, h6, h7, hl, Bool.false_eq_true]
    refine Wp.step rfl ?_
    simp only [exec, wpO_some]
    refine .refl ⟨rfl, ?_⟩
    simp only

theorem subCmplxToAVX2_spec {F : Fpu} {out a b : BitVec 64} {K c1 c2 c3 : Nat} (hn : K * 8 < 2 ^ 60)
    (g : Reg → BitVec 64) (y : Nat → Y) (m : Memory) {O A B : Nat → BitVec 64}
    (hO : Holds m out (dw O) (2 * (K * 8))) (hA : Holds m a (dw A) (2 * (K * 8))) (hB : Holds m b (dw B) (2 * (K * 8)))
    (sA : Ahead a out (2 * (K * 8))) (sB : Ahead b out (2 * (K * 8))) :
    Returns F subCmplxToAVX2 (sliceArg out (K * 8) c1 ++ sliceArg a (K * 8) c2 ++ sliceArg b (K * 8) c3) (entry g y m)
      (over m out (dw (fun i => F.sub (A i) (B i))) (2 * (K * 8))) := by
  have e1 : target subCmplxToAVX2 .loop_end = 12 := by decide
  have e2 : target subCmplxToAVX2 .loop_body = 6 := by decide
  have sO : Ahead out out (2 * (K * 8)) := ahead_self out (by omega)
  generalize hR : (fun i => F.sub (A i) (B i)) = R
  replace hR : ∀ i, R i = F.sub (A i) (B i) := fun i => by rw [← hR]
  refine one_loop (V := 4) (K := K * 2)
    (I1 := fun i s =>
      s.pc = 12 ∧ s.ret = false ∧ s.mem = over m out (dw R) (2 * i) ∧ s.gpr .SI = BitVec.ofNat 64 i ∧
      s.gpr .AX = out ∧ s.gpr .CX = a ∧ s.gpr .DX = b ∧ s.gpr .BX = BitVec.ofNat 64 (K * 8))
    ?_ ?_ ?_
  · unfold entry
    have a0 : arg64 (sliceArg out (K * 8) c1 ++ sliceArg a (K * 8) c2 ++ sliceArg b (K * 8) c3) 0 =
        some (out) := by
      simp only [arg64, arg32, sliceArg, word64]
      simp [join_split, join_ofNat]
    have a1 : arg64 (sliceArg out (K * 8) c1 ++ sliceArg a (K * 8) c2 ++ sliceArg b (K * 8) c3) 24 =
        some (a) := by
      simp only [arg64, arg32, sliceArg, word64]
      simp [join_split, join_ofNat]
    have a2 : arg64 (sliceArg out (K * 8) c1 ++ sliceArg a (K * 8) c2 ++ sliceArg b (K * 8) c3) 8 =
        some (BitVec.ofNat 64 (K * 8)) := by
      simp only [arg64, arg32, sliceArg, word64]
      simp [join_split, join_ofNat]
    have a3 : arg64 (sliceArg out (K * 8) c1 ++ sliceArg a (K * 8) c2 ++ sliceArg b (K * 8) c3) 48 =
        some (b) := by
      simp only [arg64, arg32, sliceArg, word64]
      simp [join_split, join_ofNat]
    iterate 6 asm1 [a0, a1, a2, a3, e1, VOp.eval]
    refine .refl ?_
    simp [over_zero]
  · rintro k ⟨pc, g, y, c', m', r⟩ hk ⟨h0, h1, h2, h3, h4, h5, h6, h7⟩
    dsimp only at h0 h1 h2 h3 h4 h5 h6 h7
    subst h0 h1 h2
    have hkn : k * 4 + 4 ≤ K * 8 := by omega
    have hl : (BitVec.ofNat 64 (k * 4)).slt (BitVec.ofNat 64 (K * 8)) = true := by
      rw [slt_ofNat (by omega) (by omega), decide_eq_true_eq]; omega
    have l0 := loadN_over64_at (R := R) (k := k * 4) (k * 4) hA (by omega) (by omega) sA (addr8 a (k * 4))
    have l1 := loadN_over64_at (R := R) (k := k * 4) (k * 4) hB (by omega) (by omega) sB (addr8 b (k * 4))
    iterate 7 asm1 [e1, e2, h3, h4, h5, h6, h7, hl, l0, l1,
      VOp.eval, VFma.eval, mapQ_ofQ, qw_ofQ]
    refine Wp.step rfl ?_
    simp only [exec, ea, Function.update_apply, reduceCtorEq, Nat.reduceEqDiff, one_ne_zero, zero_ne_one, if_true, if_false,
      h3, h4, h5, h6, h7]
    refine wpO_map (storeN_over64 (n := K * 8) (k := k * 4) hO (by omega) hn (addr8 out (k * 4)) ?_) ?_
    · exact congrArg ofQ (funext fun q => (hR _).symm)
    simp only [St.next]
    iterate 1 asm1 [h3, h4, h5, h6, h7]
    refine .refl ?_
    simp [h3, h4, h5, h6, h7, BitVec.ofNat_add, Nat.add_assoc]
  · rintro ⟨pc, g, y, c', m', r⟩ ⟨h0, h1, h2, h3, h4, h5, h6, h7⟩
    dsimp only at h0 h1 h2 h3 h4 h5 h6 h7
    subst h0 h1 h2
    have hl : (BitVec.ofNat 64 (K * 8)).slt (BitVec.ofNat 64 (K * 8)) = false := by
      rw [slt_ofNat (by omega) (by omega)]; simp
    have e3 : K * 2 * 4 = K * 8 := by omega
    rw [e3] at h3 ⊢
    iterate 3 asm1 [h3, h4, h5, h6, h7, hl, Bool.false_eq_true]
    refine Wp.step rfl ?_
    simp only [exec, wpO_some]
    refine .refl ⟨rfl, ?_⟩
    simp only

theorem negCmplxToAVX2_spec {F : Fpu} {out a : BitVec 64} {K c1 c2 : Nat} (hn : K * 8 < 2 ^ 60)
    (g : Reg → BitVec 64) (y : Nat → Y) (m : Memory) {O A : Nat → BitVec 64}
    (hO : Holds m out (dw O) (2 * (K * 8))) (hA : Holds m a (dw A) (2 * (K * 8)))
    (sA : Ahead a out (2 * (K * 8))) :
    Returns F negCmplxToAVX2 (sliceArg out (K * 8) c1 ++ sliceArg a (K * 8) c2) (entry g y m)
      (over m out (dw (fun i => F.sub 0 (A i))) (2 * (K * 8))) := by
  have e1 : target negCmplxToAVX2 .loop_end = 11 := by decide
  have e2 : target negCmplxToAVX2 .loop_body = 6 := by decide
  have sO : Ahead out out (2 * (K * 8)) := ahead_self out (by omega)
  generalize hR : (fun i => F.sub 0 (A i)) = R
  replace hR : ∀ i, R i = F.sub 0 (A i) := fun i => by rw [← hR]
  refine one_loop (V := 4) (K := K * 2)
    (I1 := fun i s =>
      s.pc = 11 ∧ s.ret = false ∧ s.mem = over m out (dw R) (2 * i) ∧ s.gpr .BX = BitVec.ofNat 64 i ∧
      s.gpr .AX = out ∧ s.gpr .CX = a ∧ s.gpr .DX = BitVec.ofNat 64 (K * 8) ∧
      s.ymm 0 = (ofQ fun _ => 0))
    ?_ ?_ ?_
  · unfold entry
    have a0 : arg64 (sliceArg out (K * 8) c1 ++ sliceArg a (K * 8) c2) 0 =
        some (out) := by
      simp only [arg64, arg32, sliceArg, word64]
      simp [join_split, join_ofNat]
    have a1 : arg64 (sliceArg out (K * 8) c1 ++ sliceArg a (K * 8) c2) 24 =
        some (a) := by
      simp only [arg64, arg32, sliceArg, word64]
      simp [join_split, join_ofNat]
    have a2 : arg64 (sliceArg out (K * 8) c1 ++ sliceArg a (K * 8) c2) 8 =
        some (BitVec.ofNat 64 (K * 8)) := by
      simp only [arg64, arg32, sliceArg, word64]
      simp [join_split, join_ofNat]
    iterate 6 asm1 [a0, a1, a2, e1, VOp.eval]
    refine .refl ?_
    simp [over_zero, zero_ofQ]
  · rintro k ⟨pc, g, y, c', m', r⟩ hk ⟨h0, h1, h2, h3, h4, h5, h6, h7⟩
    dsimp only at h0 h1 h2 h3 h4 h5 h6 h7
    subst h0 h1 h2
    have hkn : k * 4 + 4 ≤ K * 8 := by omega
    have hl : (BitVec.ofNat 64 (k * 4)).slt (BitVec.ofNat 64 (K * 8)) = true := by
      rw [slt_ofNat (by omega) (by omega), decide_eq_true_eq]; omega
    have l0 := loadN_over64_at (R := R) (k := k * 4) (k * 4) hA (by omega) (by omega) sA (addr8 a (k * 4))
    iterate 6 asm1 [e1, e2, h3, h4, h5, h6, h7, hl, l0,
      VOp.eval, VFma.eval, mapQ_ofQ, qw_ofQ]
    refine Wp.step rfl ?_
    simp only [exec, ea, Function.update_apply, reduceCtorEq, Nat.reduceEqDiff, one_ne_zero, zero_ne_one, if_true, if_false,
      h3, h4, h5, h6, h7]
    refine wpO_map (storeN_over64 (n := K * 8) (k := k * 4) hO (by omega) hn (addr8 out (k * 4)) ?_) ?_
    · exact congrArg ofQ (funext fun q => (hR _).symm)
    simp only [St.next]
    iterate 1 asm1 [h3, h4, h5, h6, h7]
    refine .refl ?_
    simp [h3, h4, h5, h6, h7, BitVec.ofNat_add, Nat.add_assoc]
  · rintro ⟨pc, g, y, c', m', r⟩ ⟨h0, h1, h2, h3, h4, h5, h6, h7⟩
    dsimp only at h0 h1 h2 h3 h4 h5 h6 h7
    subst h0 h1 h2
    have hl : (BitVec.ofNat 64 (K * 8)).slt (BitVec.ofNat 64 (K * 8)) = false := by
      rw [slt_ofNat (by omega) (by omega)]; simp
    have e3 : K * 2 * 4 = K * 8 := by omega
    rw [e3] at h3 ⊢
    iterate 3 asm1 [h3, h4, h5, h6, h7, hl, Bool.false_eq_true]
    refine Wp.step rfl ?_
    simp only [exec, wpO_some]
    refine .refl ⟨rfl, ?_⟩
    simp only

theorem floatMulCmplxToAVX2_spec {F : Fpu} {out a : BitVec 64} {K c1 c2 : Nat} (hn : K * 8 < 2 ^ 60)
    (g : Reg → BitVec 64) (y : Nat → Y) (m : Memory) {O A : Nat → BitVec 64} (c : BitVec 64)
    (hO : Holds m out (dw O) (2 * (K * 8))) (hA : Holds m a (dw A) (2 * (K * 8)))
    (sA : Ahead a out (2 * (K * 8))) :
    Returns F floatMulCmplxToAVX2 (sliceArg out (K * 8) c1 ++ sliceArg a (K * 8) c2 ++ word64 c) (entry g y m)
      (over m out (dw (fun i => F.mul (A i) c)) (2 * (K * 8))) := by
  have e1 : target floatMulCmplxToAVX2 .loop_end = 11 := by decide
  have e2 : target floatMulCmplxToAVX2 .loop_body = 6 := by decide
  have sO : Ahead out out (2 * (K * 8)) := ahead_self out (by omega)
  generalize hR : (fun i => F.mul (A i) c) = R
  replace hR : ∀ i, R i = F.mul (A i) c := fun i => by rw [← hR]
  refine one_loop (V := 4) (K := K * 2)
    (I1 := fun i s =>
      s.pc = 11 ∧ s.ret = false ∧ s.mem = over m out (dw R) (2 * i) ∧ s.gpr .BX = BitVec.ofNat 64 i ∧
      s.gpr .AX = out ∧ s.gpr .CX = a ∧ s.gpr .DX = BitVec.ofNat 64 (K * 8) ∧
      s.ymm 0 = (ofQ fun _ => c))
    ?_ ?_ ?_
  · unfold entry
    have a0 : arg64 (sliceArg out (K * 8) c1 ++ sliceArg a (K * 8) c2 ++ word64 c) 0 =
        some (out) := by
      simp only [arg64, arg32, sliceArg, word64]
      simp [join_split, join_ofNat]
    have a1 : arg64 (sliceArg out (K * 8) c1 ++ sliceArg a (K * 8) c2 ++ word64 c) 24 =
        some (a) := by
      simp only [arg64, arg32, sliceArg, word64]
      simp [join_split, join_ofNat]
    have a2 : arg64 (sliceArg out (K * 8) c1 ++ sliceArg a (K * 8) c2 ++ word64 c) 8 =
        some (BitVec.ofNat 64 (K * 8)) := by
      simp only [arg64, arg32, sliceArg, word64]
      simp [join_split, join_ofNat]
    have a3 : arg64 (sliceArg out (K * 8) c1 ++ sliceArg a (K * 8) c2 ++ word64 c) 48 =
        some (c) := by
      simp only [arg64, arg32, sliceArg, word64]
      simp [join_split, join_ofNat]
    iterate 6 asm1 [a0, a1, a2, a3, e1, VOp.eval]
    refine .refl ?_
    simp [over_zero]
  · rintro k ⟨pc, g, y, c', m', r⟩ hk ⟨h0, h1, h2, h3, h4, h5, h6, h7⟩
    dsimp only at h0 h1 h2 h3 h4 h5 h6 h7
    subst h0 h1 h2
    have hkn : k * 4 + 4 ≤ K * 8 := by omega
    have hl : (BitVec.ofNat 64 (k * 4)).slt (BitVec.ofNat 64 (K * 8)) = true := by
      rw [slt_ofNat (by omega) (by omega), decide_eq_true_eq]; omega
    have l0 := loadN_over64_at (R := R) (k := k * 4) (k * 4) hA (by omega) (by omega) sA (addr8 a (k * 4))
    iterate 6 asm1 [e1, e2, h3, h4, h5, h6, h7, hl, l0,
      VOp.eval, VFma.eval, mapQ_ofQ, qw_ofQ]
    refine Wp.step rfl ?_
    simp only [exec, ea, Function.update_apply, reduceCtorEq, Nat.reduceEqDiff, one_ne_zero, zero_ne_one, if_true, if_false,
      h3, h4, h5, h6, h7]
    refine wpO_map (storeN_over64 (n := K * 8) (k := k * 4) hO (by omega) hn (addr8 out (k * 4)) ?_) ?_
    · exact congrArg ofQ (funext fun q => (hR _).symm)
    simp only [St.next]
    iterate 1 asm1 [h3, h4, h5, h6, h7]
    refine .refl ?_
    simp [h3, h4, h5, h6, h7, BitVec.ofNat_add, Nat.add_assoc]
  · rintro ⟨pc, g, y, c', m', r⟩ ⟨h0, h1, h2, h3, h4, h5, h6, h7⟩
    dsimp only at h0 h1 h2 h3 h4 h5 h6 h7
    subst h0 h1 h2
    have hl : (BitVec.ofNat 64 (K * 8)).slt (BitVec.ofNat 64 (K * 8)) = false := by
      rw [slt_ofNat (by omega) (by omega)]; simp
    have e3 : K * 2 * 4 = K * 8 := by omega
    rw [e3] at h3 ⊢
    iterate 3 asm1 [h3, h4, h5, h6, h7, hl, Bool.false_eq_true]
    refine Wp.step rfl ?_
    simp only [exec, wpO_some]
    refine .refl ⟨rfl, ?_⟩
    simp only

theorem floatMulAddCmplxToAVX2_spec {F : Fpu} {out a : BitVec 64} {K c1 c2 : Nat} (hn : K * 8 < 2 ^ 60)
    (g : Reg → BitVec 64) (y : Nat → Y) (m : Memory) {O A : Nat → BitVec 64} (c : BitVec 64)
    (hO : Holds m out (dw O) (2 * (K * 8))) (hA : Holds m a (dw A) (2 * (K * 8)))
    (sA : Ahead a out (2 * (K * 8))) :
    Returns F floatMulAddCmplxToAVX2 (sliceArg out (K * 8) c1 ++ sliceArg a (K * 8) c2 ++ word64 c) (entry g y m)
      (over m out (dw (fun i => F.fma (A i) c (O i))) (2 * (K * 8))) := by
  have e1 : target floatMulAddCmplxToAVX2 .loop_end = 12 := by decide
  have e2 : target floatMulAddCmplxToAVX2 .loop_body = 6 := by decide
  have sO : Ahead out out (2 * (K * 8)) := ahead_self out (by omega)
  generalize hR : (fun i => F.fma (A i) c (O i)) = R
  replace hR : ∀ i, R i = F.fma (A i) c (O i) := fun i => by rw [← hR]
  refine one_loop (V := 4) (K := K * 2)
    (I1 := fun i s =>
      s.pc = 12 ∧ s.ret = false ∧ s.mem = over m out (dw R) (2 * i) ∧ s.gpr .BX = BitVec.ofNat 64 i ∧
      s.gpr .AX = out ∧ s.gpr .CX = a ∧ s.gpr .DX = BitVec.ofNat 64 (K * 8) ∧
      s.ymm 0 = (ofQ fun _ => c))
    ?_ ?_ ?_
  · unfold entry
    have a0 : arg64 (sliceArg out (K * 8) c1 ++ sliceArg a (K * 8) c2 ++ word64 c) 0 =
        some (out) := by
      simp only [arg64, arg32, sliceArg, word64]
      simp [join_split, join_ofNat]
    have a1 : arg64 (sliceArg out (K * 8) c1 ++ sliceArg a (K * 8) c2 ++ word64 c) 24 =
        some (a) := by
      simp only [arg64, arg32, sliceArg, word64]
      simp [join_split, join_ofNat]
    have a2 : arg64 (sliceArg out (K * 8) c1 ++ sliceArg a (K * 8) c2 ++ word64 c) 8 =
        some (BitVec.ofNat 64 (K * 8)) := by
      simp only [arg64, arg32, sliceArg, word64]
      simp [join_split, join_ofNat]
    have a3 : arg64 (sliceArg out (K * 8) c1 ++ sliceArg a (K * 8) c2 ++ word64 c) 48 =
        some (c) := by
      simp only [arg64, arg32, sliceArg, word64]
      simp [join_split, join_ofNat]
    iterate 6 asm1 [a0, a1, a2, a3, e1, VOp.eval]
    refine .refl ?_
    simp [over_zero]
  · rintro k ⟨pc, g, y, c', m', r⟩ hk ⟨h0, h1, h2, h3, h4, h5, h6, h7⟩
    dsimp only at h0 h1 h2 h3 h4 h5 h6 h7
    subst h0 h1 h2
    have hkn : k * 4 + 4 ≤ K * 8 := by omega
    have hl : (BitVec.ofNat 64 (k * 4)).slt (BitVec.ofNat 64 (K * 8)) = true := by
      rw [slt_ofNat (by omega) (by omega), decide_eq_true_eq]; omega
    have l0 := loadN_over64_at (R := R) (k := k * 4) (k * 4) hA (by omega) (by omega) sA (addr8 a (k * 4))
    have l1 := loadN_over64_at (R := R) (k := k * 4) (k * 4) hO (by omega) (by omega) sO (addr8 out (k * 4))
    iterate 7 asm1 [e1, e2, h3, h4, h5, h6, h7, hl, l0, l1,
      VOp.eval, VFma.eval, mapQ_ofQ, qw_ofQ]
    refine Wp.step rfl ?_
    simp only [exec, ea, Function.update_apply, reduceCtorEq, Nat.reduceEqDiff, one_ne_zero, zero_ne_one, if_true, if_false,
      h3, h4, h5, h6, h7]
    refine wpO_map (storeN_over64 (n := K * 8) (k := k * 4) hO (by omega) hn (addr8 out (k * 4)) ?_) ?_
    · exact congrArg ofQ (funext fun q => (hR _).symm)
    simp only [St.next]
    iterate 1 asm1 [h3, h4, h5, h6, h7]
    refine .refl ?_
    simp [h3, h4, h5, h6, h7, BitVec.ofNat_add, Nat.add_assoc]
  · rintro ⟨pc, g, y, c', m', r⟩ ⟨h0, h1, h2, h3, h4, h5, h6, h7⟩
    dsimp only at h0 h1 h2 h3 h4 h5 h6 h7
    subst h0 h1 h2
    have hl : (BitVec.ofNat 64 (K * 8)).slt (BitVec.ofNat 64 (K * 8)) = false := by
      rw [slt_ofNat (by omega) (by omega)]; simp
    have e3 : K * 2 * 4 = K * 8 := by omega
    rw [e3] at h3 ⊢
    iterate 3 asm1 [h3, h4, h5, h6, h7, hl, Bool.false_eq_true]
    refine Wp.step rfl ?_
    simp only [exec, wpO_some]
    refine .refl ⟨rfl, ?_⟩
    simp only

theorem floatMulSubCmplxToAVX2_spec {F : Fpu} {out a : BitVec 64} {K c1 c2 : Nat} (hn : K * 8 < 2 ^ 60)
    (g : Reg → BitVec 64) (y : Nat → Y) (m : Memory) {O A : Nat → BitVec 64} (c : BitVec 64)
    (hO : Holds m out (dw O) (2 * (K * 8))) (hA : Holds m a (dw A) (2 * (K * 8)))
    (sA : Ahead a out (2 * (K * 8))) :
    Returns F floatMulSubCmplxToAVX2 (sliceArg out (K * 8) c1 ++ sliceArg a (K * 8) c2 ++ word64 c) (entry g y m)
      (over m out (dw (fun i => F.fnma (A i) c (O i))) (2 * (K * 8))) := by
  have e1 : target floatMulSubCmplxToAVX2 .loop_end = 12 := by decide
  have e2 : target floatMulSubCmplxToAVX2 .loop_body = 6 := by decide
  have sO : Ahead out out (2 * (K * 8)) := ahead_self out (by omega)
  generalize hR : (fun i => F.fnma (A i) c (O i)) = R
  replace hR : ∀ i, R i = F.fnma (A i) c (O i) := fun i => by rw [← hR]
  refine one_loop (V := 4) (K := K * 2)
    (I1 := fun i s =>
      s.pc = 12 ∧ s.ret = false ∧ s.mem = over m out (dw R) (2 * i) ∧ s.gpr .BX = BitVec.ofNat 64 i ∧
      s.gpr .AX = out ∧ s.gpr .CX = a ∧ s.gpr .DX = BitVec.ofNat 64 (K * 8) ∧
      s.ymm 0 = (ofQ fun _ => c))
    ?_ ?_ ?_
  · unfold entry
    have a0 : arg64 (sliceArg out (K * 8) c1 ++ sliceArg a (K * 8) c2 ++ word64 c) 0 =
        some (out) := by
      simp only [arg64, arg32, sliceArg, word64]
      simp [join_split, join_ofNat]
    have a1 : arg64 (sliceArg out (K * 8) c1 ++ sliceArg a (K * 8) c2 ++ word64 c) 24 =
        some (a) := by
      simp only [arg64, arg32, sliceArg, word64]
      simp [join_split, join_ofNat]
    have a2 : arg64 (sliceArg out (K * 8) c1 ++ sliceArg a (K * 8) c2 ++ word64 c) 8 =
        some (BitVec.ofNat 64 (K * 8)) := by
      simp only [arg64, arg32, sliceArg, word64]
      simp [join_split, join_ofNat]
    have a3 : arg64 (sliceArg out (K * 8) c1 ++ sliceArg a (K * 8) c2 ++ word64 c) 48 =
        some (c) := by
      simp only [arg64, arg32, sliceArg, word64]
      simp [join_split, join_ofNat]
    iterate 6 asm1 [a0, a1, a2, a3, e1, VOp.eval]
    refine .refl ?_
    simp [over_zero]
  · rintro k ⟨pc, g, y, c', m', r⟩ hk ⟨h0, h1, h2, h3, h4, h5, h6, h7⟩
    dsimp only at h0 h1 h2 h3 h4 h5 h6 h7
    subst h0 h1 h2
    have hkn : k * 4 + 4 ≤ K * 8 := by omega
    have hl : (BitVec.ofNat 64 (k * 4)).slt (BitVec.ofNat 64 (K * 8)) = true := by
      rw [slt_ofNat (by omega) (by omega), decide_eq_true_eq]; omega
    have l0 := loadN_over64_at (R := R) (k := k * 4) (k * 4) hA (by omega) (by omega) sA (addr8 a (k * 4))
    have l1 := loadN_over64_at (R := R) (k := k * 4) (k * 4) hO (by omega) (by omega) sO (addr8 out (k * 4))
    iterate 7 asm1 [e1, e2, h3, h4, h5, h6, h7, hl, l0, l1,
      VOp.eval, VFma.eval, mapQ_ofQ, qw_ofQ]
    refine Wp.step rfl ?_
    simp only [exec, ea, Function.update_apply, reduceCtorEq, Nat.reduceEqDiff, one_ne_zero, zero_ne_one, if_true, if_false,
      h3, h4, h5, h6, h7]
    refine wpO_map (storeN_over64 (n := K * 8) (k := k * 4) hO (by omega) hn (addr8 out (k * 4)) ?_) ?_
    · exact congrArg ofQ (funext fun q => (hR _).symm)
    simp only [St.next]
    iterate 1 asm1 [h3, h4, h5, h6, h7]
    refine .refl ?_
    simp [h3, h4, h5, h6, h7, BitVec.ofNat_add, Nat.add_assoc]
  · rintro ⟨pc, g, y, c', m', r⟩ ⟨h0, h1, h2, h3, h4, h5, h6, h7⟩
    dsimp only at h0 h1 h2 h3 h4 h5 h6 h7
    subst h0 h1 h2
    have hl : (BitVec.ofNat 64 (K * 8)).slt (BitVec.ofNat 64 (K * 8)) = false := by
      rw [slt_ofNat (by omega) (by omega)]; simp
    have e3 : K * 2 * 4 = K * 8 := by omega
    rw [e3] at h3 ⊢
    iterate 3 asm1 [h3, h4, h5, h6, h7, hl, Bool.false_eq_true]
    refine Wp.step rfl ?_
    simp only [exec, wpO_some]
    refine .refl ⟨rfl, ?_⟩
    simp only

theorem cmplxMulCmplxToAVX2_spec {F : Fpu} {out a : BitVec 64} {K c1 c2 : Nat} (hn : K * 8 < 2 ^ 60)
    (g : Reg → BitVec 64) (y : Nat → Y) (m : Memory) {O A : Nat → BitVec 64} (cR cI : BitVec 64)
    (hO : Holds m out (dw O) (2 * (K * 8))) (hA : Holds m a (dw A) (2 * (K * 8)))
    (sA : Ahead a out (2 * (K * 8))) :
    Returns F cmplxMulCmplxToAVX2 (sliceArg out (K * 8) c1 ++ sliceArg a (K * 8) c2 ++ (word64 cR ++ word64 cI)) (entry g y m)
      (over m out (dw (cx (fun i => F.fnma (A (i + 4)) cI (F.mul (A i) cR))
      (fun i => F.fma (A i) cI (F.mul (A (i + 4)) cR)))) (2 * (K * 8))) := by
  have e1 : target cmplxMulCmplxToAVX2 .loop_end = 17 := by decide
  have e2 : target cmplxMulCmplxToAVX2 .loop_body = 7 := by decide
  have sO : Ahead out out (2 * (K * 8)) := ahead_self out (by omega)
  generalize hR : (cx (fun i => F.fnma (A (i + 4)) cI (F.mul (A i) cR))
      (fun i => F.fma (A i) cI (F.mul (A (i + 4)) cR))) = R
  have hR1 (k : Nat) (q : Fin 4) : R (k * 8 + q.val) =
      (fun i => F.fnma (A (i + 4)) cI (F.mul (A i) cR)) (k * 8 + q.val) := by
    rw [← hR]; exact cx_re _ _ k q
  have hR2 (k : Nat) (q : Fin 4) : R (k * 8 + 4 + q.val) =
      (fun i => F.fma (A i) cI (F.mul (A (i + 4)) cR)) (k * 8 + q.val) := by
    rw [← hR]; exact cx_im _ _ k q
  refine one_loop (V := 8) (K := K)
    (I1 := fun i s =>
      s.pc = 17 ∧ s.ret = false ∧ s.mem = over m out (dw R) (2 * i) ∧ s.gpr .BX = BitVec.ofNat 64 i ∧
      s.gpr .AX = out ∧ s.gpr .CX = a ∧ s.gpr .DX = BitVec.ofNat 64 (K * 8) ∧
      s.ymm 0 = (ofQ fun _ => cR) ∧ s.ymm 1 = (ofQ fun _ => cI))
    ?_ ?_ ?_
  · unfold entry
    have a0 : arg64 (sliceArg out (K * 8) c1 ++ sliceArg a (K * 8) c2 ++ (word64 cR ++ word64 cI)) 0 =
        some (out) := by
      simp only [arg64, arg32, sliceArg, word64]
      simp [join_split, join_ofNat]
    have a1 : arg64 (sliceArg out (K * 8) c1 ++ sliceArg a (K * 8) c2 ++ (word64 cR ++ word64 cI)) 24 =
        some (a) := by
      simp only [arg64, arg32, sliceArg, word64]
      simp [join_split, join_ofNat]
    have a2 : arg64 (sliceArg out (K * 8) c1 ++ sliceArg a (K * 8) c2 ++ (word64 cR ++ word64 cI)) 8 =
        some (BitVec.ofNat 64 (K * 8)) := by
      simp only [arg64, arg32, sliceArg, word64]
      simp [join_split, join_ofNat]
    have a3 : arg64 (sliceArg out (K * 8) c1 ++ sliceArg a (K * 8) c2 ++ (word64 cR ++ word64 cI)) 48 =
        some (cR) := by
      simp only [arg64, arg32, sliceArg, word64]
      simp [join_split, join_ofNat]
    have a4 : arg64 (sliceArg out (K * 8) c1 ++ sliceArg a (K * 8) c2 ++ (word64 cR ++ word64 cI)) 56 =
        some (cI) := by
      simp only [arg64, arg32, sliceArg, word64]
      simp [join_split, join_ofNat]
    iterate 7 asm1 [a0, a1, a2, a3, a4, e1, VOp.eval]
    refine .refl ?_
    simp [over_zero]
  · rintro k ⟨pc, g, y, c', m', r⟩ hk ⟨h0, h1, h2, h3, h4, h5, h6, h7, h8⟩
    dsimp only at h0 h1 h2 h3 h4 h5 h6 h7 h8
    subst h0 h1 h2
    have hkn : k * 8 + 8 ≤ K * 8 := by omega
    have hl : (BitVec.ofNat 64 (k * 8)).slt (BitVec.ofNat 64 (K * 8)) = true := by
      rw [slt_ofNat (by omega) (by omega), decide_eq_true_eq]; omega
    have l0 := loadN_over64_at (R := R) (k := k * 8) (k * 8) hA (by omega) (by omega) sA (addr8 a (k * 8))
    have l1 := loadN_over64_at (R := R) (k := k * 8) (k * 8 + 4) hA (by omega) (by omega) sA (addr8_32 a (k * 8))
    iterate 10 asm1 [e1, e2, h3, h4, h5, h6, h7, h8, hl, l0, l1,
      VOp.eval, VFma.eval, mapQ_ofQ, qw_ofQ]
    refine Wp.step rfl ?_
    simp only [exec, ea, Function.update_apply, reduceCtorEq, Nat.reduceEqDiff, one_ne_zero, zero_ne_one, if_true, if_false,
      h3, h4, h5, h6, h7, h8]
    refine wpO_map (storeN_over64 (n := K * 8) (k := k * 8) hO (by omega) hn (addr8 out (k * 8)) ?_) ?_
    · refine congrArg ofQ (funext fun q => ?_); rw [hR1]; simp only [Nat.add_right_comm]
    simp only [St.next]
    refine Wp.step rfl ?_
    simp only [exec, ea, Function.update_apply, reduceCtorEq, Nat.reduceEqDiff, one_ne_zero, zero_ne_one, if_true, if_false,
      h3, h4, h5, h6, h7, h8]
    refine wpO_map (storeN_over64 (n := K * 8) (k := k * 8 + 4) hO (by omega) hn (addr8_32 out (k * 8)) ?_) ?_
    · refine congrArg ofQ (funext fun q => ?_); rw [hR2]; simp only [Nat.add_right_comm]
    simp only [St.next]
    iterate 1 asm1 [h3, h4, h5, h6, h7, h8]
    refine .refl ?_
    simp [h3, h4, h5, h6, h7, h8, BitVec.ofNat_add, Nat.add_assoc]
  · rintro ⟨pc, g, y, c', m', r⟩ ⟨h0, h1, h2, h3, h4, h5, h6, h7, h8⟩
    dsimp only at h0 h1 h2 h3 h4 h5 h6 h7 h8
    subst h0 h1 h2
    have hl : (BitVec.ofNat 64 (K * 8)).slt (BitVec.ofNat 64 (K * 8)) = false := by
      rw [slt_ofNat (by omega) (by omega)]; simp
    iterate 3 asm1 [h3, h4, h5, h6, h7, h8, hl, Bool.false_eq_true]
    refine Wp.step rfl ?_
    simp only [exec, wpO_some]
    refine .refl ⟨rfl, ?_⟩
    simp only

theorem cmplxMulAddCmplxToAVX2_spec {F : Fpu} {out a : BitVec 64} {K c1 c2 : Nat} (hn : K * 8 < 2 ^ 60)
    (g : Reg → BitVec 64) (y : Nat → Y) (m : Memory) {O A : Nat → BitVec 64} (cR cI : BitVec 64)
    (hO : Holds m out (dw O) (2 * (K * 8))) (hA : Holds m a (dw A) (2 * (K * 8)))
    (sA : Ahead a out (2 * (K * 8))) :
    Returns F cmplxMulAddCmplxToAVX2 (sliceArg out (K * 8) c1 ++ sliceArg a (K * 8) c2 ++ (word64 cR ++ word64 cI)) (entry g y m)
      (over m out (dw (cx (fun i => F.fnma (A (i + 4)) cI (F.fma (A i) cR (O i)))
      (fun i => F.fma (A i) cI (F.fma (A (i + 4)) cR (O (i + 4)))))) (2 * (K * 8))) := by
  have e1 : target cmplxMulAddCmplxToAVX2 .loop_end = 19 := by decide
  have e2 : target cmplxMulAddCmplxToAVX2 .loop_body = 7 := by decide
  have sO : Ahead out out (2 * (K * 8)) := ahead_self out (by omega)
  generalize hR : (cx (fun i => F.fnma (A (i + 4)) cI (F.fma (A i) cR (O i)))
      (fun i => F.fma (A i) cI (F.fma (A (i + 4)) cR (O (i + 4))))) = R
  have hR1 (k : Nat) (q : Fin 4) : R (k * 8 + q.val) =
      (fun i => F.fnma (A (i + 4)) cI (F.fma (A i) cR (O i))) (k * 8 + q.val) := by
    rw [← hR]; exact cx_re _ _ k q
  have hR2 (k : Nat) (q : Fin 4) : R (k * 8 + 4 + q.val) =
      (fun i => F.fma (A i) cI (F.fma (A (i + 4)) cR (O (i + 4)))) (k * 8 + q.val) := by
    rw [← hR]; exact cx_im _ _ k q
  refine one_loop (V := 8) (K := K)
    (I1 := fun i s =>
      s.pc = 19 ∧ s.ret = false ∧ s.mem = over m out (dw R) (2 * i) ∧ s.gpr .BX = BitVec.ofNat 64 i ∧
      s.gpr .AX = out ∧ s.gpr .CX = a ∧ s.gpr .DX = BitVec.ofNat 64 (K * 8) ∧
      s.ymm 0 = (ofQ fun _ => cR) ∧ s.ymm 1 = (ofQ fun _ => cI))
    ?_ ?_ ?_
  · unfold entry
    have a0 : arg64 (sliceArg out (K * 8) c1 ++ sliceArg a (K * 8) c2 ++ (word64 cR ++ word64 cI)) 0 =
        some (out) := by
      simp only [arg64, arg32, sliceArg, word64]
      simp [join_split, join_ofNat]
    have a1 : arg64 (sliceArg out (K * 8) c1 ++ sliceArg a (K * 8) c2 ++ (word64 cR ++ word64 cI)) 24 =
        some (a) := by
      simp only [arg64, arg32, sliceArg, word64]
      simp [join_split, join_ofNat]
    have a2 : arg64 (sliceArg out (K * 8) c1 ++ sliceArg a (K * 8) c2 ++ (word64 cR ++ word64 cI)) 8 =
        some (BitVec.ofNat 64 (K * 8)) := by
      simp only [arg64, arg32, sliceArg, word64]
      simp [join_split, join_ofNat]
    have a3 : arg64 (sliceArg out (K * 8) c1 ++ sliceArg a (K * 8) c2 ++ (word64 cR ++ word64 cI)) 48 =
        some (cR) := by
      simp only [arg64, arg32, sliceArg, word64]
      simp [join_split, join_ofNat]
    have a4 : arg64 (sliceArg out (K * 8) c1 ++ sliceArg a (K * 8) c2 ++ (word64 cR ++ word64 cI)) 56 =
        some (cI) := by
      simp only [arg64, arg32, sliceArg, word64]
      simp [join_split, join_ofNat]
    iterate 7 asm1 [a0, a1, a2, a3, a4, e1, VOp.eval]
    refine .refl ?_
    simp [over_zero]
  · rintro k ⟨pc, g, y, c', m', r⟩ hk ⟨h0, h1, h2, h3, h4, h5, h6, h7, h8⟩
    dsimp only at h0 h1 h2 h3 h4 h5 h6 h7 h8
    subst h0 h1 h2
    have hkn : k * 8 + 8 ≤ K * 8 := by omega
    have hl : (BitVec.ofNat 64 (k * 8)).slt (BitVec.ofNat 64 (K * 8)) = true := by
      rw [slt_ofNat (by omega) (by omega), decide_eq_true_eq]; omega
    have l0 := loadN_over64_at (R := R) (k := k * 8) (k * 8) hA (by omega) (by omega) sA (addr8 a (k * 8))
    have l1 := loadN_over64_at (R := R) (k := k * 8) (k * 8 + 4) hA (by omega) (by omega) sA (addr8_32 a (k * 8))
    have l2 := loadN_over64_at (R := R) (k := k * 8) (k * 8) hO (by omega) (by omega) sO (addr8 out (k * 8))
    have l3 := loadN_over64_at (R := R) (k := k * 8) (k * 8 + 4) hO (by omega) (by omega) sO (addr8_32 out (k * 8))
    iterate 12 asm1 [e1, e2, h3, h4, h5, h6, h7, h8, hl, l0, l1, l2, l3,
      VOp.eval, VFma.eval, mapQ_ofQ, qw_ofQ]
    refine Wp.step rfl ?_
    simp only [exec, ea, Function.update_apply, reduceCtorEq, Nat.reduceEqDiff, one_ne_zero, zero_ne_one, if_true, if_false,
      h3, h4, h5, h6, h7, h8]
    refine wpO_map (storeN_over64 (n := K * 8) (k := k * 8) hO (by omega) hn (addr8 out (k * 8)) ?_) ?_
    · refine congrArg ofQ (funext fun q => ?_); rw [hR1]; simp only [Nat.add_right_comm]
    simp only [St.next]
    refine Wp.step rfl ?_
    simp only [exec, ea, Function.update_apply, reduceCtorEq, Nat.reduceEqDiff, one_ne_zero, zero_ne_one, if_true, if_false,
      h3, h4, h5, h6, h7, h8]
    refine wpO_map (storeN_over64 (n := K * 8) (k := k * 8 + 4) hO (by omega) hn (addr8_32 out (k * 8)) ?_) ?_
    · refine congrArg ofQ (funext fun q => ?_); rw [hR2]; simp only [Nat.add_right_comm]
    simp only [St.next]
    iterate 1 asm1 [h3, h4, h5, h6, h7, h8]
    refine .refl ?_
    simp [h3, h4, h5, h6, h7, h8, BitVec.ofNat_add, Nat.add_assoc]
  · rintro ⟨pc, g, y, c', m', r⟩ ⟨h0, h1, h2, h3, h4, h5, h6, h7, h8⟩
    dsimp only at h0 h1 h2 h3 h4 h5 h6 h7 h8
    subst h0 h1 h2
    have hl : (BitVec.ofNat 64 (K * 8)).slt (BitVec.ofNat 64 (K * 8)) = false := by
      rw [slt_ofNat (by omega) (by omega)]; simp
    iterate 3 asm1 [h3, h4, h5, h6, h7, h8, hl, Bool.false_eq_true]
    refine Wp.step rfl ?_
    simp only [exec, wpO_some]
    refine .refl ⟨rfl, ?_⟩
    simp only

theorem cmplxMulSubCmplxToAVX2_spec {F : Fpu} {out a : BitVec 64} {K c1 c2 : Nat} (hn : K * 8 < 2 ^ 60)
    (g : Reg → BitVec 64) (y : Nat → Y) (m : Memory) {O A : Nat → BitVec 64} (cR cI : BitVec 64)
    (hO : Holds m out (dw O) (2 * (K * 8))) (hA : Holds m a (dw A) (2 * (K * 8)))
    (sA : Ahead a out (2 * (K * 8))) :
    Returns F cmplxMulSubCmplxToAVX2 (sliceArg out (K * 8) c1 ++ sliceArg a (K * 8) c2 ++ (word64 cR ++ word64 cI)) (entry g y m)
      (over m out (dw (cx (fun i => F.fma (A (i + 4)) cI (F.fnma (A i) cR (O i)))
      (fun i => F.fnma (A i) cI (F.fnma (A (i + 4)) cR (O (i + 4)))))) (2 * (K * 8))) := by
  have e1 : target cmplxMulSubCmplxToAVX2 .loop_end = 19 := by decide
  have e2 : target cmplxMulSubCmplxToAVX2 .loop_body = 7 := by decide
  have sO : Ahead out out (2 * (K * 8)) := ahead_self out (by omega)
  generalize hR : (cx (fun i => F.fma (A (i + 4)) cI (F.fnma (A i) cR (O i)))
      (fun i => F.fnma (A i) cI (F.fnma (A (i + 4)) cR (O (i + 4))))) = R
  have hR1 (k : Nat) (q : Fin 4) : R (k * 8 + q.val) =
      (fun i => F.fma (A (i + 4)) cI (F.fnma (A i) cR (O i))) (k * 8 + q.val) := by
    rw [← hR]; exact cx_re _ _ k q
  have hR2 (k : Nat) (q : Fin 4) : R (k * 8 + 4 + q.val) =
      (fun i => F.fnma (A i) cI (F.fnma (A (i + 4)) cR (O (i + 4)))) (k * 8 + q.val) := by
    rw [← hR]; exact cx_im _ _ k q
  refine one_loop (V := 8) (K := K)
    (I1 := fun i s =>
      s.pc = 19 ∧ s.ret = false ∧ s.mem = over m out (dw R) (2 * i) ∧ s.gpr .BX = BitVec.ofNat 64 i ∧
      s.gpr .AX = out ∧ s.gpr .CX = a ∧ s.gpr .DX = BitVec.ofNat 64 (K * 8) ∧
      s.ymm 0 = (ofQ fun _ => cR) ∧ s.ymm 1 = (ofQ fun _ => cI))
    ?_ ?_ ?_
  · unfold entry
    have a0 : arg64 (sliceArg out (K * 8) c1 ++ sliceArg a (K * 8) c2 ++ (word64 cR ++ word64 cI)) 0 =
        some (out) := by
      simp only [arg64, arg32, sliceArg, word64]
      simp [join_split, join_ofNat]
    have a1 : arg64 (sliceArg out (K * 8) c1 ++ sliceArg a (K * 8) c2 ++ (word64 cR ++ word64 cI)) 24 =
        some (a) := by
      simp only [arg64, arg32, sliceArg, word64]
      simp [join_split, join_ofNat]
    have a2 : arg64 (sliceArg out (K * 8) c1 ++ sliceArg a (K * 8) c2 ++ (word64 cR ++ word64 cI)) 8 =
        some (BitVec.ofNat 64 (K * 8)) := by
      simp only [arg64, arg32, sliceArg, word64]
      simp [join_split, join_ofNat]
    have a3 : arg64 (sliceArg out (K * 8) c1 ++ sliceArg a (K * 8) c2 ++ (word64 cR ++ word64 cI)) 48 =
        some (cR) := by
      simp only [arg64, arg32, sliceArg, word64]
      simp [join_split, join_ofNat]
    have a4 : arg64 (sliceArg out (K * 8) c1 ++ sliceArg a (K * 8) c2 ++ (word64 cR ++ word64 cI)) 56 =
        some (cI) := by
      simp only [arg64, arg32, sliceArg, word64]
      simp [join_split, join_ofNat]
    iterate 7 asm1 [a0, a1, a2, a3, a4, e1, VOp.eval]
    refine .refl ?_
    simp [over_zero]
  · rintro k ⟨pc, g, y, c', m', r⟩ hk ⟨h0, h1, h2, h3, h4, h5, h6, h7, h8⟩
    dsimp only at h0 h1 h2 h3 h4 h5 h6 h7 h8
    subst h0 h1 h2
    have hkn : k * 8 + 8 ≤ K * 8 := by omega
    have hl : (BitVec.ofNat 64 (k * 8)).slt (BitVec.ofNat 64 (K * 8)) = true := by
      rw [slt_ofNat (by omega) (by omega), decide_eq_true_eq]; omega
    have l0 := loadN_over64_at (R := R) (k := k * 8) (k * 8) hA (by omega) (by omega) sA (addr8 a (k * 8))
    have l1 := loadN_over64_at (R := R) (k := k * 8) (k * 8 + 4) hA (by omega) (by omega) sA (addr8_32 a (k * 8))
    have l2 := loadN_over64_at (R := R) (k := k * 8) (k * 8) hO (by omega) (by omega) sO (addr8 out (k * 8))
    have l3 := loadN_over64_at (R := R) (k := k * 8) (k * 8 + 4) hO (by omega) (by omega) sO (addr8_32 out (k * 8))
    iterate 12 asm1 [e1, e2, h3, h4, h5, h6, h7, h8, hl, l0, l1, l2, l3,
      VOp.eval, VFma.eval, mapQ_ofQ, qw_ofQ]
    refine Wp.step rfl ?_
    simp only [exec, ea, Function.update_apply, reduceCtorEq, Nat.reduceEqDiff, one_ne_zero, zero_ne_one, if_true, if_false,
      h3, h4, h5, h6, h7, h8]
    refine wpO_map (storeN_over64 (n := K * 8) (k := k * 8) hO (by omega) hn (addr8 out (k * 8)) ?_) ?_
    · refine congrArg ofQ (funext fun q => ?_); rw [hR1]; simp only [Nat.add_right_comm]
    simp only [St.next]
    refine Wp.step rfl ?_
    simp only [exec, ea, Function.update_apply, reduceCtorEq, Nat.reduceEqDiff, one_ne_zero, zero_ne_one, if_true, if_false,
      h3, h4, h5, h6, h7, h8]
    refine wpO_map (storeN_over64 (n := K * 8) (k := k * 8 + 4) hO (by omega) hn (addr8_32 out (k * 8)) ?_) ?_
    · refine congrArg ofQ (funext fun q => ?_); rw [hR2]; simp only [Nat.add_right_comm]
    simp only [St.next]
    iterate 1 asm1 [h3, h4, h5, h6, h7, h8]
    refine .refl ?_
    simp [h3, h4, h5, h6, h7, h8, BitVec.ofNat_add, Nat.add_assoc]
  · rintro ⟨pc, g, y, c', m', r⟩ ⟨h0, h1, h2, h3, h4, h5, h6, h7, h8⟩
    dsimp only at h0 h1 h2 h3 h4 h5 h6 h7 h8
    subst h0 h1 h2
    have hl : (BitVec.ofNat 64 (K * 8)).slt (BitVec.ofNat 64 (K * 8)) = false := by
      rw [slt_ofNat (by omega) (by omega)]; simp
    iterate 3 asm1 [h3, h4, h5, h6, h7, h8, hl, Bool.false_eq_true]
    refine Wp.step rfl ?_
    simp only [exec, wpO_some]
    refine .refl ⟨rfl, ?_⟩
    simp only

theorem mulCmplxToAVX2_spec {F : Fpu} {out a b : BitVec 64} {K c1 c2 c3 : Nat} (hn : K * 8 < 2 ^ 60)
    (g : Reg → BitVec 64) (y : Nat → Y) (m : Memory) {O A B : Nat → BitVec 64}
    (hO : Holds m out (dw O) (2 * (K * 8))) (hA : Holds m a (dw A) (2 * (K * 8))) (hB : Holds m b (dw B) (2 * (K * 8)))
    (sA : Ahead a out (2 * (K * 8))) (sB : Ahead b out (2 * (K * 8))) :
    Returns F mulCmplxToAVX2 (sliceArg out (K * 8) c1 ++ sliceArg a (K * 8) c2 ++ sliceArg b (K * 8) c3) (entry g y m)
      (over m out (dw (cx (fun i => F.fnma (B (i + 4)) (A (i + 4)) (F.mul (B i) (A i)))
      (fun i => F.fma (B i) (A (i + 4)) (F.mul (B (i + 4)) (A i))))) (2 * (K * 8))) := by
  have e1 : target mulCmplxToAVX2 .loop_end = 18 := by decide
  have e2 : target mulCmplxToAVX2 .loop_body = 6 := by decide
  have sO : Ahead out out (2 * (K * 8)) := ahead_self out (by omega)
  generalize hR : (cx (fun i => F.fnma (B (i + 4)) (A (i + 4)) (F.mul (B i) (A i)))
      (fun i => F.fma (B i) (A (i + 4)) (F.mul (B (i + 4)) (A i)))) = R
  have hR1 (k : Nat) (q : Fin 4) : R (k * 8 + q.val) =
      (fun i => F.fnma (B (i + 4)) (A (i + 4)) (F.mul (B i) (A i))) (k * 8 + q.val) := by
    rw [← hR]; exact cx_re _ _ k q
  have hR2 (k : Nat) (q : Fin 4) : R (k * 8 + 4 + q.val) =
      (fun i => F.fma (B i) (A (i + 4)) (F.mul (B (i + 4)) (A i))) (k * 8 + q.val) := by
    rw [← hR]; exact cx_im _ _ k q
  refine one_loop (V := 8) (K := K)
    (I1 := fun i s =>
      s.pc = 18 ∧ s.ret = false ∧ s.mem = over m out (dw R) (2 * i) ∧ s.gpr .SI = BitVec.ofNat 64 i ∧
      s.gpr .AX = out ∧ s.gpr .CX = a ∧ s.gpr .DX = b ∧ s.gpr .BX = BitVec.ofNat 64 (K * 8))
    ?_ ?_ ?_
  · unfold entry
    have a0 : arg64 (sliceArg out (K * 8) c1 ++ sliceArg a (K * 8) c2 ++ sliceArg b (K * 8) c3) 0 =
        some (out) := by
      simp only [arg64, arg32, sliceArg, word64]
      simp [join_split, join_ofNat]
    have a1 : arg64 (sliceArg out (K * 8) c1 ++ sliceArg a (K * 8) c2 ++ sliceArg b (K * 8) c3) 24 =
        some (a) := by
      simp only [arg64, arg32, sliceArg, word64]
      simp [join_split, join_ofNat]
    have a2 : arg64 (sliceArg out (K * 8) c1 ++ sliceArg a (K * 8) c2 ++ sliceArg b (K * 8) c3) 8 =
        some (BitVec.ofNat 64 (K * 8)) := by
      simp only [arg64, arg32, sliceArg, word64]
      simp [join_split, join_ofNat]
    have a3 : arg64 (sliceArg out (K * 8) c1 ++ sliceArg a (K * 8) c2 ++ sliceArg b (K * 8) c3) 48 =
        some (b) := by
      simp only [arg64, arg32, sliceArg, word64]
      simp [join_split, join_ofNat]
    iterate 6 asm1 [a0, a1, a2, a3, e1, VOp.eval]
    refine .refl ?_
    simp [over_zero]
  · rintro k ⟨pc, g, y, c', m', r⟩ hk ⟨h0, h1, h2, h3, h4, h5, h6, h7⟩
    dsimp only at h0 h1 h2 h3 h4 h5 h6 h7
    subst h0 h1 h2
    have hkn : k * 8 + 8 ≤ K * 8 := by omega
    have hl : (BitVec.ofNat 64 (k * 8)).slt (BitVec.ofNat 64 (K * 8)) = true := by
      rw [slt_ofNat (by omega) (by omega), decide_eq_true_eq]; omega
    have l0 := loadN_over64_at (R := R) (k := k * 8) (k * 8) hA (by omega) (by omega) sA (addr8 a (k * 8))
    have l1 := loadN_over64_at (R := R) (k := k * 8) (k * 8 + 4) hA (by omega) (by omega) sA (addr8_32 a (k * 8))
    have l2 := loadN_over64_at (R := R) (k := k * 8) (k * 8) hB (by omega) (by omega) sB (addr8 b (k * 8))
    have l3 := loadN_over64_at (R := R) (k := k * 8) (k * 8 + 4) hB (by omega) (by omega) sB (addr8_32 b (k * 8))
    iterate 12 asm1 [e1, e2, h3, h4, h5, h6, h7, hl, l0, l1, l2, l3,
      VOp.eval, VFma.eval, mapQ_ofQ, qw_ofQ]
    refine Wp.step rfl ?_
    simp only [exec, ea, Function.update_apply, reduceCtorEq, Nat.reduceEqDiff, one_ne_zero, zero_ne_one, if_true, if_false,
      h3, h4, h5, h6, h7]
    refine wpO_map (storeN_over64 (n := K * 8) (k := k * 8) hO (by omega) hn (addr8 out (k * 8)) ?_) ?_
    · refine congrArg ofQ (funext fun q => ?_); rw [hR1]; simp only [Nat.add_right_comm]
    simp only [St.next]
    refine Wp.step rfl ?_
    simp only [exec, ea, Function.update_apply, reduceCtorEq, Nat.reduceEqDiff, one_ne_zero, zero_ne_one, if_true, if_false,
      h3, h4, h5, h6, h7]
    refine wpO_map (storeN_over64 (n := K * 8) (k := k * 8 + 4) hO (by omega) hn (addr8_32 out (k * 8)) ?_) ?_
    · refine congrArg ofQ (funext fun q => ?_); rw [hR2]; simp only [Nat.add_right_comm]
    simp only [St.next]
    iterate 1 asm1 [h3, h4, h5, h6, h7]
    refine .refl ?_
    simp [h3, h4, h5, h6, h7, BitVec.ofNat_add, Nat.add_assoc]
  · rintro ⟨pc, g, y, c', m', r⟩ ⟨h0, h1, h2, h3, h4, h5, h6, h7⟩
    dsimp only at h0 h1 h2 h3 h4 h5 h6 h7
    subst h0 h1 h2
    have hl : (BitVec.ofNat 64 (K * 8)).slt (BitVec.ofNat 64 (K * 8)) = false := by
      rw [slt_ofNat (by omega) (by omega)]; simp
    iterate 3 asm1 [h3, h4, h5, h6, h7, hl, Bool.false_eq_true]
    refine Wp.step rfl ?_
    simp only [exec, wpO_some]
    refine .refl ⟨rfl, ?_⟩
    simp only

theorem mulAddCmplxToAVX2_spec {F : Fpu} {out a b : BitVec 64} {K c1 c2 c3 : Nat} (hn : K * 8 < 2 ^ 60)
    (g : Reg → BitVec 64) (y : Nat → Y) (m : Memory) {O A B : Nat → BitVec 64}
    (hO : Holds m out (dw O) (2 * (K * 8))) (hA : Holds m a (dw A) (2 * (K * 8))) (hB : Holds m b (dw B) (2 * (K * 8)))
    (sA : Ahead a out (2 * (K * 8))) (sB : Ahead b out (2 * (K * 8))) :
    Returns F mulAddCmplxToAVX2 (sliceArg out (K * 8) c1 ++ sliceArg a (K * 8) c2 ++ sliceArg b (K * 8) c3) (entry g y m)
      (over m out (dw (cx (fun i => F.fnma (B (i + 4)) (A (i + 4)) (F.fma (B i) (A i) (O i)))
      (fun i => F.fma (B i) (A (i + 4)) (F.fma (B (i + 4)) (A i) (O (i + 4)))))) (2 * (K * 8))) := by
  have e1 : target mulAddCmplxToAVX2 .loop_end = 20 := by decide
  have e2 : target mulAddCmplxToAVX2 .loop_body = 6 := by decide
  have sO : Ahead out out (2 * (K * 8)) := ahead_self out (by omega)
  generalize hR : (cx (fun i => F.fnma (B (i + 4)) (A (i + 4)) (F.fma (B i) (A i) (O i)))
      (fun i => F.fma (B i) (A (i + 4)) (F.fma (B (i + 4)) (A i) (O (i + 4))))) = R
  have hR1 (k : Nat) (q : Fin 4) : R (k * 8 + q.val) =
      (fun i => F.fnma (B (i + 4)) (A (i + 4)) (F.fma (B i) (A i) (O i))) (k * 8 + q.val) := by
    rw [← hR]; exact cx_re _ _ k q
  have hR2 (k : Nat) (q : Fin 4) : R (k * 8 + 4 + q.val) =
      (fun i => F.fma (B i) (A (i + 4)) (F.fma (B (i + 4)) (A i) (O (i + 4)))) (k * 8 + q.val) := by
    rw [← hR]; exact cx_im _ _ k q
  refine one_loop (V := 8) (K := K)
    (I1 := fun i s =>
      s.pc = 20 ∧ s.ret = false ∧ s.mem = over m out (dw R) (2 * i) ∧ s.gpr .SI = BitVec.ofNat 64 i ∧
      s.gpr .AX = out ∧ s.gpr .CX = a ∧ s.gpr .DX = b ∧ s.gpr .BX = BitVec.ofNat 64 (K * 8))
    ?_ ?_ ?_
  · unfold entry
    have a0 : arg64 (sliceArg out (K * 8) c1 ++ sliceArg a (K * 8) c2 ++ sliceArg b (K * 8) c3) 0 =
        some (out) := by
      simp only [arg64, arg32, sliceArg, word64]
      simp [join_split, join_ofNat]
    have a1 : arg64 (sliceArg out (K * 8) c1 ++ sliceArg a (K * 8) c2 ++ sliceArg b (K * 8) c3) 24 =
        some (a) := by
      simp only [arg64, arg32, sliceArg, word64]
      simp [join_split, join_ofNat]
    have a2 : arg64 (sliceArg out (K * 8) c1 ++ sliceArg a (K * 8) c2 ++ sliceArg b (K * 8) c3) 8 =
        some (BitVec.ofNat 64 (K * 8)) := by
      simp only [arg64, arg32, sliceArg, word64]
      simp [join_split, join_ofNat]
    have a3 : arg64 (sliceArg out (K * 8) c1 ++ sliceArg a (K * 8) c2 ++ sliceArg b (K * 8) c3) 48 =
        some (b) := by
      simp only [arg64, arg32, sliceArg, word64]
      simp [join_split, join_ofNat]
    iterate 6 asm1 [a0, a1, a2, a3, e1, VOp.eval]
    refine .refl ?_
    simp [over_zero]
  · rintro k ⟨pc, g, y, c', m', r⟩ hk ⟨h0, h1, h2, h3, h4, h5, h6, h7⟩
    dsimp only at h0 h1 h2 h3 h4 h5 h6 h7
    subst h0 h1 h2
    have hkn : k * 8 + 8 ≤ K * 8 := by omega
    have hl : (BitVec.ofNat 64 (k * 8)).slt (BitVec.ofNat 64 (K * 8)) = true := by
      rw [slt_ofNat (by omega) (by omega), decide_eq_true_eq]; omega
    have l0 := loadN_over64_at (R := R) (k := k * 8) (k * 8) hA (by omega) (by omega) sA (addr8 a (k * 8))
    have l1 := loadN_over64_at (R := R) (k := k * 8) (k * 8 + 4) hA (by omega) (by omega) sA (addr8_32 a (k * 8))
    have l2 := loadN_over64_at (R := R) (k := k * 8) (k * 8) hB (by omega) (by omega) sB (addr8 b (k * 8))
    have l3 := loadN_over64_at (R := R) (k := k * 8) (k * 8 + 4) hB (by omega) (by omega) sB (addr8_32 b (k * 8))
    have l4 := loadN_over64_at (R := R) (k := k * 8) (k * 8) hO (by omega) (by omega) sO (addr8 out (k * 8))
    have l5 := loadN_over64_at (R := R) (k := k * 8) (k * 8 + 4) hO (by omega) (by omega) sO (addr8_32 out (k * 8))
    iterate 14 asm1 [e1, e2, h3, h4, h5, h6, h7, hl, l0, l1, l2, l3, l4, l5,
      VOp.eval, VFma.eval, mapQ_ofQ, qw_ofQ]
    refine Wp.step rfl ?_
    simp only [exec, ea, Function.update_apply, reduceCtorEq, Nat.reduceEqDiff, one_ne_zero, zero_ne_one, if_true, if_false,
      h3, h4, h5, h6, h7]
    refine wpO_map (storeN_over64 (n := K * 8) (k := k * 8) hO (by omega) hn (addr8 out (k * 8)) ?_) ?_
    · refine congrArg ofQ (funext fun q => ?_); rw [hR1]; simp only [Nat.add_right_comm]
    simp only [St.next]
    refine Wp.step rfl ?_
    simp only [exec, ea, Function.update_apply, reduceCtorEq, Nat.reduceEqDiff, one_ne_zero, zero_ne_one, if_true, if_false,
      h3, h4, h5, h6, h7]
    refine wpO_map (storeN_over64 (n := K * 8) (k := k * 8 + 4) hO (by omega) hn (addr8_32 out (k * 8)) ?_) ?_
    · refine congrArg ofQ (funext fun q => ?_); rw [hR2]; simp only [Nat.add_right_comm]
    simp only [St.next]
    iterate 1 asm1 [h3, h4, h5, h6, h7]
    refine .refl ?_
    simp [h3, h4, h5, h6, h7, BitVec.ofNat_add, Nat.add_assoc]
  · rintro ⟨pc, g, y, c', m', r⟩ ⟨h0, h1, h2, h3, h4, h5, h6, h7⟩
    dsimp only at h0 h1 h2 h3 h4 h5 h6 h7
    subst h0 h1 h2
    have hl : (BitVec.ofNat 64 (K * 8)).slt (BitVec.ofNat 64 (K * 8)) = false := by
      rw [slt_ofNat (by omega) (by omega)]; simp
    iterate 3 asm1 [h3, h4, h5, h6, h7, hl, Bool.false_eq_true]
    refine Wp.step rfl ?_
    simp only [exec, wpO_some]
    refine .refl ⟨rfl, ?_⟩
    simp only

theorem mulSubCmplxToAVX2_spec {F : Fpu} {out a b : BitVec 64} {K c1 c2 c3 : Nat} (hn : K * 8 < 2 ^ 60)
    (g : Reg → BitVec 64) (y : Nat → Y) (m : Memory) {O A B : Nat → BitVec 64}
    (hO : Holds m out (dw O) (2 * (K * 8))) (hA : Holds m a (dw A) (2 * (K * 8))) (hB : Holds m b (dw B) (2 * (K * 8)))
    (sA : Ahead a out (2 * (K * 8))) (sB : Ahead b out (2 * (K * 8))) :
    Returns F mulSubCmplxToAVX2 (sliceArg out (K * 8) c1 ++ sliceArg a (K * 8) c2 ++ sliceArg b (K * 8) c3) (entry g y m)
      (over m out (dw (cx (fun i => F.fma (B (i + 4)) (A (i + 4)) (F.fnma (B i) (A i) (O i)))
      (fun i => F.fnma (B i) (A (i + 4)) (F.fnma (B (i + 4)) (A i) (O (i + 4)))))) (2 * (K * 8))) := by
  have e1 : target mulSubCmplxToAVX2 .loop_end = 20 := by decide
  have e2 : target mulSubCmplxToAVX2 .loop_body = 6 := by decide
  have sO : Ahead out out (2 * (K * 8)) := ahead_self out (by omega)
  generalize hR : (cx (fun i => F.fma (B (i + 4)) (A (i + 4)) (F.fnma (B i) (A i) (O i)))
      (fun i => F.fnma (B i) (A (i + 4)) (F.fnma (B (i + 4)) (A i) (O (i + 4))))) = R
  have hR1 (k : Nat) (q : Fin 4) : R (k * 8 + q.val) =
      (fun i => F.fma (B (i + 4)) (A (i + 4)) (F.fnma (B i) (A i) (O i))) (k * 8 + q.val) := by
    rw [← hR]; exact cx_re _ _ k q
  have hR2 (k : Nat) (q : Fin 4) : R (k * 8 + 4 + q.val) =
      (fun i => F.fnma (B i) (A (i + 4)) (F.fnma (B (i + 4)) (A i) (O (i + 4)))) (k * 8 + q.val) := by
    rw [← hR]; exact cx_im _ _ k q
  refine one_loop (V := 8) (K := K)
    (I1 := fun i s =>
      s.pc = 20 ∧ s.ret = false ∧ s.mem = over m out (dw R) (2 * i) ∧ s.gpr .SI = BitVec.ofNat 64 i ∧
      s.gpr .AX = out ∧ s.gpr .CX = a ∧ s.gpr .DX = b ∧ s.gpr .BX = BitVec.ofNat 64 (K * 8))
    ?_ ?_ ?_
  · unfold entry
    have a0 : arg64 (sliceArg out (K * 8) c1 ++ sliceArg a (K * 8) c2 ++ sliceArg b (K * 8) c3) 0 =
        some (out) := by
      simp only [arg64, arg32, sliceArg, word64]
      simp [join_split, join_ofNat]
    have a1 : arg64 (sliceArg out (K * 8) c1 ++ sliceArg a (K * 8) c2 ++ sliceArg b (K * 8) c3) 24 =
        some (a) := by
      simp only [arg64, arg32, sliceArg, word64]
      simp [join_split, join_ofNat]
    have a2 : arg64 (sliceArg out (K * 8) c1 ++ sliceArg a (K * 8) c2 ++ sliceArg b (K * 8) c3) 8 =
        some (BitVec.ofNat 64 (K * 8)) := by
      simp only [arg64, arg32, sliceArg, word64]
      simp [join_split, join_ofNat]
    have a3 : arg64 (sliceArg out (K * 8) c1 ++ sliceArg a (K * 8) c2 ++ sliceArg b (K * 8) c3) 48 =
        some (b) := by
      simp only [arg64, arg32, sliceArg, word64]
      simp [join_split, join_ofNat]
    iterate 6 asm1 [a0, a1, a2, a3, e1, VOp.eval]
    refine .refl ?_
    simp [over_zero]
  · rintro k ⟨pc, g, y, c', m', r⟩ hk ⟨h0, h1, h2, h3, h4, h5, h6, h7⟩
    dsimp only at h0 h1 h2 h3 h4 h5 h6 h7
    subst h0 h1 h2
    have hkn : k * 8 + 8 ≤ K * 8 := by omega
    have hl : (BitVec.ofNat 64 (k * 8)).slt (BitVec.ofNat 64 (K * 8)) = true := by
      rw [slt_ofNat (by omega) (by omega), decide_eq_true_eq]; omega
    have l0 := loadN_over64_at (R := R) (k := k * 8) (k * 8) hA (by omega) (by omega) sA (addr8 a (k * 8))
    have l1 := loadN_over64_at (R := R) (k := k * 8) (k * 8 + 4) hA (by omega) (by omega) sA (addr8_32 a (k * 8))
    have l2 := loadN_over64_at (R := R) (k := k * 8) (k * 8) hB (by omega) (by omega) sB (addr8 b (k * 8))
    have l3 := loadN_over64_at (R := R) (k := k * 8) (k * 8 + 4) hB (by omega) (by omega) sB (addr8_32 b (k * 8))
    have l4 := loadN_over64_at (R := R) (k := k * 8) (k * 8) hO (by omega) (by omega) sO (addr8 out (k * 8))
    have l5 := loadN_over64_at (R := R) (k := k * 8) (k * 8 + 4) hO (by omega) (by omega) sO (addr8_32 out (k * 8))
    iterate 14 asm1 [e1, e2, h3, h4, h5, h6, h7, hl, l0, l1, l2, l3, l4, l5,
      VOp.eval, VFma.eval, mapQ_ofQ, qw_ofQ]
    refine Wp.step rfl ?_
    simp only [exec, ea, Function.update_apply, reduceCtorEq, Nat.reduceEqDiff, one_ne_zero, zero_ne_one, if_true, if_false,
      h3, h4, h5, h6, h7]
    refine wpO_map (storeN_over64 (n := K * 8) (k := k * 8) hO (by omega) hn (addr8 out (k * 8)) ?_) ?_
    · refine congrArg ofQ (funext fun q => ?_); rw [hR1]; simp only [Nat.add_right_comm]
    simp only [St.next]
    refine Wp.step rfl ?_
    simp only [exec, ea, Function.update_apply, reduceCtorEq, Nat.reduceEqDiff, one_ne_zero, zero_ne_one, if_true, if_false,
      h3, h4, h5, h6, h7]
    refine wpO_map (storeN_over64 (n := K * 8) (k := k * 8 + 4) hO (by omega) hn (addr8_32 out (k * 8)) ?_) ?_
    · refine congrArg ofQ (funext fun q => ?_); rw [hR2]; simp only [Nat.add_right_comm]
    simp only [St.next]
    iterate 1 asm1 [h3, h4, h5, h6, h7]
    refine .refl ?_
    simp [h3, h4, h5, h6, h7, BitVec.ofNat_add, Nat.add_assoc]
  · rintro ⟨pc, g, y, c', m', r⟩ ⟨h0, h1, h2, h3, h4, h5, h6, h7⟩
    dsimp only at h0 h1 h2 h3 h4 h5 h6 h7
    subst h0 h1 h2
    have hl : (BitVec.ofNat 64 (K * 8)).slt (BitVec.ofNat 64 (K * 8)) = false := by
      rw [slt_ofNat (by omega) (by omega)]; simp
    iterate 3 asm1 [h3, h4, h5, h6, h7, hl, Bool.false_eq_true]
    refine Wp.step rfl ?_
    simp only [exec, wpO_some]
    refine .refl ⟨rfl, ?_⟩
    simp only

end Asm
end Tfhe

