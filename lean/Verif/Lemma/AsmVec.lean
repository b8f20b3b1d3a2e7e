import Verif.Lemma.Asm
import Verif.Model.AsmVec

/-!
# What the programs of `math/vec/asm_vec_amd64.s` do to memory

Each program is executed symbolically: the prologue, one pass of the vector loop, one pass of the leftover
loop, and the two exits.
-/
set_option linter.unusedSimpArgs false

namespace Tfhe
namespace Asm

/-- No word of the input at `a` is overwritten by writes to `out` at smaller indices. -/
def Ahead (a out : BitVec 64) (n : Nat) : Prop :=
  ∀ i j, j < i → i < n → a + BitVec.ofNat 64 (4 * i) ≠ out + BitVec.ofNat 64 (4 * j)

theorem ahead_self (a : BitVec 64) {n : Nat} (h : 4 * n ≤ 2 ^ 64) : Ahead a a n := by
  intro i j hj hi e
  have e1 := addr_off a (i := i) (by omega)
  rw [e, addr_off a (by omega)] at e1
  omega

theorem wpO_map {F : Fpu} {P : Prog} {fp : List (BitVec 32)} {α : Type} {o : Option α} {f : α → St} {x : α}
    {Q : St → Prop} (h : o = some x) (k : Wp F P fp (f x) Q) : WpO F P fp (o.map f) Q :=
  ⟨f x, by rw [h]; rfl, k⟩

/-- The shape of all the programs: a loop in steps of `V`, then a loop in steps of one. -/
theorem two_loops {F : Fpu} {P : Prog} {fp : List (BitVec 32)} {I1 I2 : Nat → St → Prop} {V n : Nat}
    {m' : Memory} {s : St} (h0 : Wp F P fp s (I1 0))
    (h1 : ∀ k s, k < n / V → I1 (k * V) s → Wp F P fp s (I1 (k * V + V)))
    (h2 : ∀ s, I1 (n / V * V) s → Wp F P fp s (I2 (n / V * V)))
    (h3 : ∀ i s, i < n → I2 i s → Wp F P fp s (I2 (i + 1)))
    (h4 : ∀ s, I2 n s → Wp F P fp s (fun t => t.ret = true ∧ t.mem = m')) : Returns F P fp s m' := by
  have hle : n / V * V ≤ n := Nat.div_mul_le_self n V
  refine h0.trans fun s hs => ?_
  refine (Wp.loop h1 _ (le_refl _) s hs).trans fun s hs => ?_
  refine (h2 s hs).trans fun s hs => ?_
  refine (Wp.loop1 (fun i s _ hi => h3 i s hi) hle s hs).trans fun s hs => h4 s hs

theorem toNat_n {n : Nat} (hn : n < 2 ^ 60) (k : Nat) : n / k * k < 2 ^ 63 :=
  lt_of_le_of_lt (Nat.div_mul_le_self n k) (by omega)

theorem join_ofNat (n : Nat) :
    BitVec.setWidth 32 (BitVec.ofNat 64 n >>> 32) ++ BitVec.ofNat 32 n = BitVec.ofNat 64 n := by
  conv_rhs => rw [← join_split (BitVec.ofNat 64 n)]
  congr 1
  apply BitVec.eq_of_toNat_eq
  simp

/-- Operations on 64-bit lanes, in normal form. -/
theorem loadN_over64 {m : Memory} {b a x : BitVec 64} {R A : Nat → BitVec 64} {k n : Nat}
    (hA : Holds m a (dw A) (2 * n)) (hK : k + 4 ≤ n) (hs : Ahead a b (2 * n))
    (hx : x = a + BitVec.ofNat 64 (4 * (2 * k))) :
    loadN 8 (over m b (dw R) (2 * k)) x = some (ofQ fun q => A (k + q.val)) := by
  rw [loadN_over 8 hA (by omega) hs hx]
  exact congrArg some (dw_eq_ofQ A k)

theorem loadN_over64' {m : Memory} {b a x : BitVec 64} {R A : Nat → BitVec 64} {k n : Nat}
    (hA : Holds m a (dw A) (2 * n)) (hK : k < n) (hs : Ahead a b (2 * n))
    (hx : x = a + BitVec.ofNat 64 (4 * (2 * k))) :
    loadN 2 (over m b (dw R) (2 * k)) x = some (split2 (A k)) := by
  rw [loadN_over 2 hA (by omega) hs hx]
  exact congrArg some (dw_eq_split A k)

theorem Holds.mapped {m : Memory} {b : BitVec 64} {A : Nat → BitVec 32} {n : Nat} (h : Holds m b A n) :
    ∀ i < n, (m (b + BitVec.ofNat 64 (4 * i))).isSome := fun i hi => by rw [h.2 i hi]; rfl

theorem storeN_over64 {m : Memory} {b a : BitVec 64} {R O : Nat → BitVec 64} {k n : Nat} {v : Y}
    (hb : Holds m b (dw O) (2 * n)) (hK : k + 4 ≤ n) (hw : n < 2 ^ 60)
    (ha : a = b + BitVec.ofNat 64 (4 * (2 * k))) (hv : v = ofQ fun q => R (k + q.val)) :
    storeN 8 (over m b (dw R) (2 * k)) a v = some (over m b (dw R) (2 * (k + 4))) := by
  rw [Nat.mul_add]
  exact storeN_over 8 hb.1 (by omega) (by omega) hb.mapped ha
    (fun l => by rw [hv, ← dw_eq_ofQ R k])

theorem storeN_over64' {m : Memory} {b a : BitVec 64} {R O : Nat → BitVec 64} {k n : Nat} {x : BitVec 64}
    (hb : Holds m b (dw O) (2 * n)) (hK : k < n) (hw : n < 2 ^ 60)
    (ha : a = b + BitVec.ofNat 64 (4 * (2 * k))) (hv : x = R k) :
    storeN 2 (over m b (dw R) (2 * k)) a (split2 x) = some (over m b (dw R) (2 * (k + 1))) := by
  rw [Nat.mul_add]
  exact storeN_over 2 hb.1 (by omega) (by omega) hb.mapped ha
    (fun l => by rw [hv, ← dw_eq_split R k])

theorem zext_lo (x : BitVec 32) : (x.setWidth 64).setWidth 32 = x := by
  apply BitVec.eq_of_toNat_eq
  have := x.isLt
  simp only [BitVec.toNat_setWidth]
  omega


theorem addToUint32AVX2_spec {F : Fpu} {out a b : BitVec 64} {n c1 c2 c3 : Nat} (hn : n < 2 ^ 60)
    (g : Reg → BitVec 64) (y : Nat → Y) (m : Memory) {O A B : Nat → BitVec 32}
    (hO : Holds m out O n) (hA : Holds m a A n) (hB : Holds m b B n)
    (sA : Ahead a out n) (sB : Ahead b out n) :
    Returns F addToUint32AVX2 (sliceArg out n c1 ++ sliceArg a n c2 ++ sliceArg b n c3) (entry g y m)
      (over m out (fun i => A i + B i) n) := by
  have e1 : target addToUint32AVX2 .loop_end = 15 := by decide
  have e2 : target addToUint32AVX2 .loop_body = 9 := by decide
  have e3 : target addToUint32AVX2 .leftover_loop_end = 25 := by decide
  have e4 : target addToUint32AVX2 .leftover_loop_body = 19 := by decide
  have sO : Ahead out out n := ahead_self out (by omega)
  generalize hR : (fun i => A i + B i) = R
  replace hR : ∀ i, R i = A i + B i := fun i => by rw [← hR]
  refine two_loops (V := 8) (n := n)
    (I1 := fun i s =>
    s.pc = 15 ∧ s.ret = false ∧ s.mem = over m out R i ∧ s.gpr .DI = BitVec.ofNat 64 i ∧
      s.gpr .AX = out ∧ s.gpr .CX = a ∧ s.gpr .DX = b ∧ s.gpr .BX = BitVec.ofNat 64 n ∧
      s.gpr .SI = BitVec.ofNat 64 (n / 8 * 8))
    (I2 := fun i s =>
    s.pc = 25 ∧ s.ret = false ∧ s.mem = over m out R i ∧ s.gpr .DI = BitVec.ofNat 64 i ∧
      s.gpr .AX = out ∧ s.gpr .CX = a ∧ s.gpr .DX = b ∧ s.gpr .BX = BitVec.ofNat 64 n)
    ?_ ?_ ?_ ?_ ?_
  · unfold entry
    have a0 : arg64 (sliceArg out n c1 ++ sliceArg a n c2 ++ sliceArg b n c3) 0 =
        some (out) := by
      simp [arg64, arg32, sliceArg, word64, join_split, join_ofNat]
    have a1 : arg64 (sliceArg out n c1 ++ sliceArg a n c2 ++ sliceArg b n c3) 24 =
        some (a) := by
      simp [arg64, arg32, sliceArg, word64, join_split, join_ofNat]
    have a2 : arg64 (sliceArg out n c1 ++ sliceArg a n c2 ++ sliceArg b n c3) 8 =
        some (BitVec.ofNat 64 n) := by
      simp [arg64, arg32, sliceArg, word64, join_split, join_ofNat]
    have a3 : arg64 (sliceArg out n c1 ++ sliceArg a n c2 ++ sliceArg b n c3) 48 =
        some (b) := by
      simp [arg64, arg32, sliceArg, word64, join_split, join_ofNat]
    iterate 9 asm1 [a0, a1, a2, a3, e1]
    refine .refl ?_
    simp [over_zero, shr_ofNat (show n < 2 ^ 64 by omega), shl_ofNat]
  · rintro k ⟨pc, g, y, c, m', r⟩ hk ⟨h0, h1, h2, h3, h4, h5, h6, h7, h8⟩
    dsimp only at h0 h1 h2 h3 h4 h5 h6 h7 h8
    subst h0 h1 h2
    have hkn : k * 8 + 8 ≤ n := by
      have := Nat.div_mul_le_self n 8; nlinarith
    have hl : (BitVec.ofNat 64 (k * 8)).slt (BitVec.ofNat 64 (n / 8 * 8)) = true := by
      rw [slt_ofNat (by omega) (toNat_n hn 8), decide_eq_true_eq]; nlinarith
    have l0 := loadN_over (R := R) 8 hA (by omega) sA (addr4 a (k * 8))
    have l1 := loadN_over (R := R) 8 hB (by omega) sB (addr4 b (k * 8))
    iterate 7 asm1 [e1, e2, h3, h4, h5, h6, h7, h8, hl, l0, l1,
      VOp.eval]
    refine Wp.step rfl ?_
    simp only [exec, ea, Function.update_apply, reduceCtorEq, Nat.reduceEqDiff, one_ne_zero, zero_ne_one, if_true, if_false,
      h3, h4, h5, h6, h7, h8]
    refine wpO_map (storeN_over 8 hO.1 (by omega) (by omega) hO.mapped (addr4 out (k * 8)) ?_) ?_
    · intro l; simp [hR]
    simp only [St.next]
    iterate 1 asm1 [h3, h4, h5, h6, h7, h8]
    refine .refl ?_
    simp [h3, h4, h5, h6, h7, h8, BitVec.ofNat_add]
  · rintro ⟨pc, g, y, c, m', r⟩ ⟨h0, h1, h2, h3, h4, h5, h6, h7, h8⟩
    dsimp only at h0 h1 h2 h3 h4 h5 h6 h7 h8
    subst h0 h1 h2
    have hl : (BitVec.ofNat 64 (n / 8 * 8)).slt (BitVec.ofNat 64 (n / 8 * 8)) = false := by
      rw [slt_ofNat (toNat_n hn 8) (toNat_n hn 8)]; simp
    iterate 4 asm1 [e3, h3, h4, h5, h6, h7, h8, hl, Bool.false_eq_true]
    refine .refl ?_
    simp [h3, h4, h5, h6, h7, h8]
  · rintro i ⟨pc, g, y, c, m', r⟩ hi ⟨h0, h1, h2, h3, h4, h5, h6, h7⟩
    dsimp only at h0 h1 h2 h3 h4 h5 h6 h7
    subst h0 h1 h2
    have hl : (BitVec.ofNat 64 i).slt (BitVec.ofNat 64 n) = true := by
      rw [slt_ofNat (by omega) (by omega), decide_eq_true_eq]; exact hi
    have l0 := loadN_over (R := R) 1 hA (by omega) sA (addr4 a i)
    have l1 := loadN_over (R := R) 1 hB (by omega) sB (addr4 b i)
    iterate 7 asm1 [e4, h3, h4, h5, h6, h7, hl, l0, l1, zext_lo]
    refine Wp.step rfl ?_
    simp only [exec, ea, Function.update_apply, reduceCtorEq, Nat.reduceEqDiff, one_ne_zero, zero_ne_one, if_true, if_false,
      h3, h4, h5, h6, h7]
    refine wpO_map (storeN_over 1 hO.1 (by omega) (by omega) hO.mapped (addr4 out i) ?_) ?_
    · intro l; rw [show l = 0 from Subsingleton.elim _ _]; simp [hR, zext_lo]
    simp only [St.next]
    iterate 1 asm1 [h3, h4, h5, h6, h7]
    refine .refl ?_
    simp [h3, h4, h5, h6, h7, BitVec.ofNat_add]
  · rintro ⟨pc, g, y, c, m', r⟩ ⟨h0, h1, h2, h3, h4, h5, h6, h7⟩
    dsimp only at h0 h1 h2 h3 h4 h5 h6 h7
    subst h0 h1 h2
    have hl : (BitVec.ofNat 64 n).slt (BitVec.ofNat 64 n) = false := by
      rw [slt_ofNat (by omega) (by omega)]; simp
    iterate 3 asm1 [h3, h4, h5, h6, h7, hl, Bool.false_eq_true]
    refine Wp.step rfl ?_
    simp only [exec, wpO_some]
    refine .refl ⟨rfl, ?_⟩
    simp only

theorem subToUint32AVX2_spec {F : Fpu} {out a b : BitVec 64} {n c1 c2 c3 : Nat} (hn : n < 2 ^ 60)
    (g : Reg → BitVec 64) (y : Nat → Y) (m : Memory) {O A B : Nat → BitVec 32}
    (hO : Holds m out O n) (hA : Holds m a A n) (hB : Holds m b B n)
    (sA : Ahead a out n) (sB : Ahead b out n) :
    Returns F subToUint32AVX2 (sliceArg out n c1 ++ sliceArg a n c2 ++ sliceArg b n c3) (entry g y m)
      (over m out (fun i => A i - B i) n) := by
  have e1 : target subToUint32AVX2 .loop_end = 15 := by decide
  have e2 : target subToUint32AVX2 .loop_body = 9 := by decide
  have e3 : target subToUint32AVX2 .leftover_loop_end = 25 := by decide
  have e4 : target subToUint32AVX2 .leftover_loop_body = 19 := by decide
  have sO : Ahead out out n := ahead_self out (by omega)
  generalize hR : (fun i => A i - B i) = R
  replace hR : ∀ i, R i = A i - B i := fun i => by rw [← hR]
  refine two_loops (V := 8) (n := n)
    (I1 := fun i s =>
    s.pc = 15 ∧ s.ret = false ∧ s.mem = over m out R i ∧ s.gpr .DI = BitVec.ofNat 64 i ∧
      s.gpr .AX = out ∧ s.gpr .CX = a ∧ s.gpr .DX = b ∧ s.gpr .BX = BitVec.ofNat 64 n ∧
      s.gpr .SI = BitVec.ofNat 64 (n / 8 * 8))
    (I2 := fun i s =>
    s.pc = 25 ∧ s.ret = false ∧ s.mem = over m out R i ∧ s.gpr .DI = BitVec.ofNat 64 i ∧
      s.gpr .AX = out ∧ s.gpr .CX = a ∧ s.gpr .DX = b ∧ s.gpr .BX = BitVec.ofNat 64 n)
    ?_ ?_ ?_ ?_ ?_
  · unfold entry
    have a0 : arg64 (sliceArg out n c1 ++ sliceArg a n c2 ++ sliceArg b n c3) 0 =
        some (out) := by
      simp [arg64, arg32, sliceArg, word64, join_split, join_ofNat]
    have a1 : arg64 (sliceArg out n c1 ++ sliceArg a n c2 ++ sliceArg b n c3) 24 =
        some (a) := by
      simp [arg64, arg32, sliceArg, word64, join_split, join_ofNat]
    have a2 : arg64 (sliceArg out n c1 ++ sliceArg a n c2 ++ sliceArg b n c3) 8 =
        some (BitVec.ofNat 64 n) := by
      simp [arg64, arg32, sliceArg, word64, join_split, join_ofNat]
    have a3 : arg64 (sliceArg out n c1 ++ sliceArg a n c2 ++ sliceArg b n c3) 48 =
        some (b) := by
      simp [arg64, arg32, sliceArg, word64, join_split, join_ofNat]
    iterate 9 asm1 [a0, a1, a2, a3, e1]
    refine .refl ?_
    simp [over_zero, shr_ofNat (show n < 2 ^ 64 by omega), shl_ofNat]
  · rintro k ⟨pc, g, y, c, m', r⟩ hk ⟨h0, h1, h2, h3, h4, h5, h6, h7, h8⟩
    dsimp only at h0 h1 h2 h3 h4 h5 h6 h7 h8
    subst h0 h1 h2
    have hkn : k * 8 + 8 ≤ n := by
      have := Nat.div_mul_le_self n 8; nlinarith
    have hl : (BitVec.ofNat 64 (k * 8)).slt (BitVec.ofNat 64 (n / 8 * 8)) = true := by
      rw [slt_ofNat (by omega) (toNat_n hn 8), decide_eq_true_eq]; nlinarith
    have l0 := loadN_over (R := R) 8 hA (by omega) sA (addr4 a (k * 8))
    have l1 := loadN_over (R := R) 8 hB (by omega) sB (addr4 b (k * 8))
    iterate 7 asm1 [e1, e2, h3, h4, h5, h6, h7, h8, hl, l0, l1,
      VOp.eval]
    refine Wp.step rfl ?_
    simp only [exec, ea, Function.update_apply, reduceCtorEq, Nat.reduceEqDiff, one_ne_zero, zero_ne_one, if_true, if_false,
      h3, h4, h5, h6, h7, h8]
    refine wpO_map (storeN_over 8 hO.1 (by omega) (by omega) hO.mapped (addr4 out (k * 8)) ?_) ?_
    · intro l; simp [hR]
    simp only [St.next]
    iterate 1 asm1 [h3, h4, h5, h6, h7, h8]
    refine .refl ?_
    simp [h3, h4, h5, h6, h7, h8, BitVec.ofNat_add]
  · rintro ⟨pc, g, y, c, m', r⟩ ⟨h0, h1, h2, h3, h4, h5, h6, h7, h8⟩
    dsimp only at h0 h1 h2 h3 h4 h5 h6 h7 h8
    subst h0 h1 h2
    have hl : (BitVec.ofNat 64 (n / 8 * 8)).slt (BitVec.ofNat 64 (n / 8 * 8)) = false := by
      rw [slt_ofNat (toNat_n hn 8) (toNat_n hn 8)]; simp
    iterate 4 asm1 [e3, h3, h4, h5, h6, h7, h8, hl, Bool.false_eq_true]
    refine .refl ?_
    simp [h3, h4, h5, h6, h7, h8]
  · rintro i ⟨pc, g, y, c, m', r⟩ hi ⟨h0, h1, h2, h3, h4, h5, h6, h7⟩
    dsimp only at h0 h1 h2 h3 h4 h5 h6 h7
    subst h0 h1 h2
    have hl : (BitVec.ofNat 64 i).slt (BitVec.ofNat 64 n) = true := by
      rw [slt_ofNat (by omega) (by omega), decide_eq_true_eq]; exact hi
    have l0 := loadN_over (R := R) 1 hA (by omega) sA (addr4 a i)
    have l1 := loadN_over (R := R) 1 hB (by omega) sB (addr4 b i)
    iterate 7 asm1 [e4, h3, h4, h5, h6, h7, hl, l0, l1, zext_lo]
    refine Wp.step rfl ?_
    simp only [exec, ea, Function.update_apply, reduceCtorEq, Nat.reduceEqDiff, one_ne_zero, zero_ne_one, if_true, if_false,
      h3, h4, h5, h6, h7]
    refine wpO_map (storeN_over 1 hO.1 (by omega) (by omega) hO.mapped (addr4 out i) ?_) ?_
    · intro l; rw [show l = 0 from Subsingleton.elim _ _]; simp [hR, zext_lo]
    simp only [St.next]
    iterate 1 asm1 [h3, h4, h5, h6, h7]
    refine .refl ?_
    simp [h3, h4, h5, h6, h7, BitVec.ofNat_add]
  · rintro ⟨pc, g, y, c, m', r⟩ ⟨h0, h1, h2, h3, h4, h5, h6, h7⟩
    dsimp only at h0 h1 h2 h3 h4 h5 h6 h7
    subst h0 h1 h2
    have hl : (BitVec.ofNat 64 n).slt (BitVec.ofNat 64 n) = false := by
      rw [slt_ofNat (by omega) (by omega)]; simp
    iterate 3 asm1 [h3, h4, h5, h6, h7, hl, Bool.false_eq_true]
    refine Wp.step rfl ?_
    simp only [exec, wpO_some]
    refine .refl ⟨rfl, ?_⟩
    simp only

theorem addToUint64AVX2_spec {F : Fpu} {out a b : BitVec 64} {n c1 c2 c3 : Nat} (hn : n < 2 ^ 60)
    (g : Reg → BitVec 64) (y : Nat → Y) (m : Memory) {O A B : Nat → BitVec 64}
    (hO : Holds m out (dw O) (2 * n)) (hA : Holds m a (dw A) (2 * n)) (hB : Holds m b (dw B) (2 * n))
    (sA : Ahead a out (2 * n)) (sB : Ahead b out (2 * n)) :
    Returns F addToUint64AVX2 (sliceArg out n c1 ++ sliceArg a n c2 ++ sliceArg b n c3) (entry g y m)
      (over m out (dw (fun i => A i + B i)) (2 * n)) := by
  have e1 : target addToUint64AVX2 .loop_end = 15 := by decide
  have e2 : target addToUint64AVX2 .loop_body = 9 := by decide
  have e3 : target addToUint64AVX2 .leftover_loop_end = 25 := by decide
  have e4 : target addToUint64AVX2 .leftover_loop_body = 19 := by decide
  have sO : Ahead out out (2 * n) := ahead_self out (by omega)
  generalize hR : (fun i => A i + B i) = R
  replace hR : ∀ i, R i = A i + B i := fun i => by rw [← hR]
  refine two_loops (V := 4) (n := n)
    (I1 := fun i s =>
    s.pc = 15 ∧ s.ret = false ∧ s.mem = over m out (dw R) (2 * i) ∧ s.gpr .DI = BitVec.ofNat 64 i ∧
      s.gpr .AX = out ∧ s.gpr .CX = a ∧ s.gpr .DX = b ∧ s.gpr .BX = BitVec.ofNat 64 n ∧
      s.gpr .SI = BitVec.ofNat 64 (n / 4 * 4))
    (I2 := fun i s =>
    s.pc = 25 ∧ s.ret = false ∧ s.mem = over m out (dw R) (2 * i) ∧ s.gpr .DI = BitVec.ofNat 64 i ∧
      s.gpr .AX = out ∧ s.gpr .CX = a ∧ s.gpr .DX = b ∧ s.gpr .BX = BitVec.ofNat 64 n)
    ?_ ?_ ?_ ?_ ?_
  · unfold entry
    have a0 : arg64 (sliceArg out n c1 ++ sliceArg a n c2 ++ sliceArg b n c3) 0 =
        some (out) := by
      simp [arg64, arg32, sliceArg, word64, join_split, join_ofNat]
    have a1 : arg64 (sliceArg out n c1 ++ sliceArg a n c2 ++ sliceArg b n c3) 24 =
        some (a) := by
      simp [arg64, arg32, sliceArg, word64, join_split, join_ofNat]
    have a2 : arg64 (sliceArg out n c1 ++ sliceArg a n c2 ++ sliceArg b n c3) 8 =
        some (BitVec.ofNat 64 n) := by
      simp [arg64, arg32, sliceArg, word64, join_split, join_ofNat]
    have a3 : arg64 (sliceArg out n c1 ++ sliceArg a n c2 ++ sliceArg b n c3) 48 =
        some (b) := by
      simp [arg64, arg32, sliceArg, word64, join_split, join_ofNat]
    iterate 9 asm1 [a0, a1, a2, a3, e1]
    refine .refl ?_
    simp [over_zero, shr_ofNat (show n < 2 ^ 64 by omega), shl_ofNat]
  · rintro k ⟨pc, g, y, c, m', r⟩ hk ⟨h0, h1, h2, h3, h4, h5, h6, h7, h8⟩
    dsimp only at h0 h1 h2 h3 h4 h5 h6 h7 h8
    subst h0 h1 h2
    have hkn : k * 4 + 4 ≤ n := by
      have := Nat.div_mul_le_self n 4; nlinarith
    have hl : (BitVec.ofNat 64 (k * 4)).slt (BitVec.ofNat 64 (n / 4 * 4)) = true := by
      rw [slt_ofNat (by omega) (toNat_n hn 4), decide_eq_true_eq]; nlinarith
    have l0 := loadN_over64 (R := R) hA hkn sA (addr8 a (k * 4))
    have l1 := loadN_over64 (R := R) hB hkn sB (addr8 b (k * 4))
    iterate 7 asm1 [e1, e2, h3, h4, h5, h6, h7, h8, hl, l0, l1,
      VOp.eval, VImm.eval, mapQ_ofQ, mulld_ofQ, and_ofQ, shuf_ofQ, qw_ofQ]
    refine Wp.step rfl ?_
    simp only [exec, ea, Function.update_apply, reduceCtorEq, Nat.reduceEqDiff, one_ne_zero, zero_ne_one, if_true, if_false,
      h3, h4, h5, h6, h7, h8]
    refine wpO_map (storeN_over64 hO hkn hn (addr8 out (k * 4)) ?_) ?_
    · exact congrArg ofQ (funext fun q => (hR _).symm)
    simp only [St.next]
    iterate 1 asm1 [h3, h4, h5, h6, h7, h8]
    refine .refl ?_
    simp [h3, h4, h5, h6, h7, h8, BitVec.ofNat_add]
  · rintro ⟨pc, g, y, c, m', r⟩ ⟨h0, h1, h2, h3, h4, h5, h6, h7, h8⟩
    dsimp only at h0 h1 h2 h3 h4 h5 h6 h7 h8
    subst h0 h1 h2
    have hl : (BitVec.ofNat 64 (n / 4 * 4)).slt (BitVec.ofNat 64 (n / 4 * 4)) = false := by
      rw [slt_ofNat (toNat_n hn 4) (toNat_n hn 4)]; simp
    iterate 4 asm1 [e3, h3, h4, h5, h6, h7, h8, hl, Bool.false_eq_true]
    refine .refl ?_
    simp [h3, h4, h5, h6, h7, h8]
  · rintro i ⟨pc, g, y, c, m', r⟩ hi ⟨h0, h1, h2, h3, h4, h5, h6, h7⟩
    dsimp only at h0 h1 h2 h3 h4 h5 h6 h7
    subst h0 h1 h2
    have hl : (BitVec.ofNat 64 i).slt (BitVec.ofNat 64 n) = true := by
      rw [slt_ofNat (by omega) (by omega), decide_eq_true_eq]; exact hi
    have l0 := loadN_over64' (R := R) hA hi sA (addr8 a i)
    have l1 := loadN_over64' (R := R) hB hi sB (addr8 b i)
    iterate 7 asm1 [e4, h3, h4, h5, h6, h7, hl, l0, l1, join2_split2]
    refine Wp.step rfl ?_
    simp only [exec, ea, Function.update_apply, reduceCtorEq, Nat.reduceEqDiff, one_ne_zero, zero_ne_one, if_true, if_false,
      h3, h4, h5, h6, h7]
    refine wpO_map (storeN_over64' hO hi hn (addr8 out i) ?_) ?_
    · simp [hR]
    simp only [St.next]
    iterate 1 asm1 [h3, h4, h5, h6, h7]
    refine .refl ?_
    simp [h3, h4, h5, h6, h7, BitVec.ofNat_add]
  · rintro ⟨pc, g, y, c, m', r⟩ ⟨h0, h1, h2, h3, h4, h5, h6, h7⟩
    dsimp only at h0 h1 h2 h3 h4 h5 h6 h7
    subst h0 h1 h2
    have hl : (BitVec.ofNat 64 n).slt (BitVec.ofNat 64 n) = false := by
      rw [slt_ofNat (by omega) (by omega)]; simp
    iterate 3 asm1 [h3, h4, h5, h6, h7, hl, Bool.false_eq_true]
    refine Wp.step rfl ?_
    simp only [exec, wpO_some]
    refine .refl ⟨rfl, ?_⟩
    simp only

theorem subToUint64AVX2_spec {F : Fpu} {out a b : BitVec 64} {n c1 c2 c3 : Nat} (hn : n < 2 ^ 60)
    (g : Reg → BitVec 64) (y : Nat → Y) (m : Memory) {O A B : Nat → BitVec 64}
    (hO : Holds m out (dw O) (2 * n)) (hA : Holds m a (dw A) (2 * n)) (hB : Holds m b (dw B) (2 * n))
    (sA : Ahead a out (2 * n)) (sB : Ahead b out (2 * n)) :
    Returns F subToUint64AVX2 (sliceArg out n c1 ++ sliceArg a n c2 ++ sliceArg b n c3) (entry g y m)
      (over m out (dw (fun i => A i - B i)) (2 * n)) := by
  have e1 : target subToUint64AVX2 .loop_end = 15 := by decide
  have e2 : target subToUint64AVX2 .loop_body = 9 := by decide
  have e3 : target subToUint64AVX2 .leftover_loop_end = 25 := by decide
  have e4 : target subToUint64AVX2 .leftover_loop_body = 19 := by decide
  have sO : Ahead out out (2 * n) := ahead_self out (by omega)
  generalize hR : (fun i => A i - B i) = R
  replace hR : ∀ i, R i = A i - B i := fun i => by rw [← hR]
  refine two_loops (V := 4) (n := n)
    (I1 := fun i s =>
    s.pc = 15 ∧ s.ret = false ∧ s.mem = over m out (dw R) (2 * i) ∧ s.gpr .DI = BitVec.ofNat 64 i ∧
      s.gpr .AX = out ∧ s.gpr .CX = a ∧ s.gpr .DX = b ∧ s.gpr .BX = BitVec.ofNat 64 n ∧
      s.gpr .SI = BitVec.ofNat 64 (n / 4 * 4))
    (I2 := fun i s =>
    s.pc = 25 ∧ s.ret = false ∧ s.mem = over m out (dw R) (2 * i) ∧ s.gpr .DI = BitVec.ofNat 64 i ∧
      s.gpr .AX = out ∧ s.gpr .CX = a ∧ s.gpr .DX = b ∧ s.gpr .BX = BitVec.ofNat 64 n)
    ?_ ?_ ?_ ?_ ?_
  · unfold entry
    have a0 : arg64 (sliceArg out n c1 ++ sliceArg a n c2 ++ sliceArg b n c3) 0 =
        some (out) := by
      simp [arg64, arg32, sliceArg, word64, join_split, join_ofNat]
    have a1 : arg64 (sliceArg out n c1 ++ sliceArg a n c2 ++ sliceArg b n c3) 24 =
        some (a) := by
      simp [arg64, arg32, sliceArg, word64, join_split, join_ofNat]
    have a2 : arg64 (sliceArg out n c1 ++ sliceArg a n c2 ++ sliceArg b n c3) 8 =
        some (BitVec.ofNat 64 n) := by
      simp [arg64, arg32, sliceArg, word64, join_split, join_ofNat]
    have a3 : arg64 (sliceArg out n c1 ++ sliceArg a n c2 ++ sliceArg b n c3) 48 =
        some (b) := by
      simp [arg64, arg32, sliceArg, word64, join_split, join_ofNat]
    iterate 9 asm1 [a0, a1, a2, a3, e1]
    refine .refl ?_
    simp [over_zero, shr_ofNat (show n < 2 ^ 64 by omega), shl_ofNat]
  · rintro k ⟨pc, g, y, c, m', r⟩ hk ⟨h0, h1, h2, h3, h4, h5, h6, h7, h8⟩
    dsimp only at h0 h1 h2 h3 h4 h5 h6 h7 h8
    subst h0 h1 h2
    have hkn : k * 4 + 4 ≤ n := by
      have := Nat.div_mul_le_self n 4; nlinarith
    have hl : (BitVec.ofNat 64 (k * 4)).slt (BitVec.ofNat 64 (n / 4 * 4)) = true := by
      rw [slt_ofNat (by omega) (toNat_n hn 4), decide_eq_true_eq]; nlinarith
    have l0 := loadN_over64 (R := R) hA hkn sA (addr8 a (k * 4))
    have l1 := loadN_over64 (R := R) hB hkn sB (addr8 b (k * 4))
    iterate 7 asm1 [e1, e2, h3, h4, h5, h6, h7, h8, hl, l0, l1,
      VOp.eval, VImm.eval, mapQ_ofQ, mulld_ofQ, and_ofQ, shuf_ofQ, qw_ofQ]
    refine Wp.step rfl ?_
    simp only [exec, ea, Function.update_apply, reduceCtorEq, Nat.reduceEqDiff, one_ne_zero, zero_ne_one, if_true, if_false,
      h3, h4, h5, h6, h7, h8]
    refine wpO_map (storeN_over64 hO hkn hn (addr8 out (k * 4)) ?_) ?_
    · exact congrArg ofQ (funext fun q => (hR _).symm)
    simp only [St.next]
    iterate 1 asm1 [h3, h4, h5, h6, h7, h8]
    refine .refl ?_
    simp [h3, h4, h5, h6, h7, h8, BitVec.ofNat_add]
  · rintro ⟨pc, g, y, c, m', r⟩ ⟨h0, h1, h2, h3, h4, h5, h6, h7, h8⟩
    dsimp only at h0 h1 h2 h3 h4 h5 h6 h7 h8
    subst h0 h1 h2
    have hl : (BitVec.ofNat 64 (n / 4 * 4)).slt (BitVec.ofNat 64 (n / 4 * 4)) = false := by
      rw [slt_ofNat (toNat_n hn 4) (toNat_n hn 4)]; simp
    iterate 4 asm1 [e3, h3, h4, h5, h6, h7, h8, hl, Bool.false_eq_true]
    refine .refl ?_
    simp [h3, h4, h5, h6, h7, h8]
  · rintro i ⟨pc, g, y, c, m', r⟩ hi ⟨h0, h1, h2, h3, h4, h5, h6, h7⟩
    dsimp only at h0 h1 h2 h3 h4 h5 h6 h7
    subst h0 h1 h2
    have hl : (BitVec.ofNat 64 i).slt (BitVec.ofNat 64 n) = true := by
      rw [slt_ofNat (by omega) (by omega), decide_eq_true_eq]; exact hi
    have l0 := loadN_over64' (R := R) hA hi sA (addr8 a i)
    have l1 := loadN_over64' (R := R) hB hi sB (addr8 b i)
    iterate 7 asm1 [e4, h3, h4, h5, h6, h7, hl, l0, l1, join2_split2]
    refine Wp.step rfl ?_
    simp only [exec, ea, Function.update_apply, reduceCtorEq, Nat.reduceEqDiff, one_ne_zero, zero_ne_one, if_true, if_false,
      h3, h4, h5, h6, h7]
    refine wpO_map (storeN_over64' hO hi hn (addr8 out i) ?_) ?_
    · simp [hR]
    simp only [St.next]
    iterate 1 asm1 [h3, h4, h5, h6, h7]
    refine .refl ?_
    simp [h3, h4, h5, h6, h7, BitVec.ofNat_add]
  · rintro ⟨pc, g, y, c, m', r⟩ ⟨h0, h1, h2, h3, h4, h5, h6, h7⟩
    dsimp only at h0 h1 h2 h3 h4 h5 h6 h7
    subst h0 h1 h2
    have hl : (BitVec.ofNat 64 n).slt (BitVec.ofNat 64 n) = false := by
      rw [slt_ofNat (by omega) (by omega)]; simp
    iterate 3 asm1 [h3, h4, h5, h6, h7, hl, Bool.false_eq_true]
    refine Wp.step rfl ?_
    simp only [exec, wpO_some]
    refine .refl ⟨rfl, ?_⟩
    simp only

theorem scalarMulToUint32AVX2_spec {F : Fpu} {out a : BitVec 64} {n c1 c2 : Nat} (hn : n < 2 ^ 60)
    (g : Reg → BitVec 64) (y : Nat → Y) (m : Memory) {O A : Nat → BitVec 32} (x : BitVec 32)
    (hO : Holds m out O n) (hA : Holds m a A n)
    (sA : Ahead a out n) :
    Returns F scalarMulToUint32AVX2 (sliceArg out n c1 ++ sliceArg a n c2 ++ [x]) (entry g y m)
      (over m out (fun i => x * A i) n) := by
  have e1 : target scalarMulToUint32AVX2 .loop_end = 15 := by decide
  have e2 : target scalarMulToUint32AVX2 .loop_body = 10 := by decide
  have e3 : target scalarMulToUint32AVX2 .leftover_loop_end = 24 := by decide
  have e4 : target scalarMulToUint32AVX2 .leftover_loop_body = 19 := by decide
  have sO : Ahead out out n := ahead_self out (by omega)
  generalize hR : (fun i => x * A i) = R
  replace hR : ∀ i, R i = x * A i := fun i => by rw [← hR]
  refine two_loops (V := 8) (n := n)
    (I1 := fun i s =>
    s.pc = 15 ∧ s.ret = false ∧ s.mem = over m out R i ∧ s.gpr .DI = BitVec.ofNat 64 i ∧
      s.gpr .AX = out ∧ s.gpr .CX = a ∧ s.gpr .DX = BitVec.ofNat 64 n ∧ s.gpr .SI = x.setWidth 64 ∧
      s.ymm 0 = (fun _ => x) ∧ s.gpr .BX = BitVec.ofNat 64 (n / 8 * 8))
    (I2 := fun i s =>
    s.pc = 24 ∧ s.ret = false ∧ s.mem = over m out R i ∧ s.gpr .DI = BitVec.ofNat 64 i ∧
      s.gpr .AX = out ∧ s.gpr .CX = a ∧ s.gpr .DX = BitVec.ofNat 64 n ∧ s.gpr .SI = x.setWidth 64)
    ?_ ?_ ?_ ?_ ?_
  · unfold entry
    have a0 : arg64 (sliceArg out n c1 ++ sliceArg a n c2 ++ [x]) 0 =
        some (out) := by
      simp [arg64, arg32, sliceArg, word64, join_split, join_ofNat]
    have a1 : arg64 (sliceArg out n c1 ++ sliceArg a n c2 ++ [x]) 24 =
        some (a) := by
      simp [arg64, arg32, sliceArg, word64, join_split, join_ofNat]
    have a2 : arg64 (sliceArg out n c1 ++ sliceArg a n c2 ++ [x]) 8 =
        some (BitVec.ofNat 64 n) := by
      simp [arg64, arg32, sliceArg, word64, join_split, join_ofNat]
    have a3 : arg32 (sliceArg out n c1 ++ sliceArg a n c2 ++ [x]) 48 =
        some x := by
      simp [arg32, sliceArg, word64]
    iterate 10 asm1 [a0, a1, a2, a3, e1]
    refine .refl ?_
    simp [over_zero, shr_ofNat (show n < 2 ^ 64 by omega), shl_ofNat]
  · rintro k ⟨pc, g, y, c, m', r⟩ hk ⟨h0, h1, h2, h3, h4, h5, h6, h7, h8, h9⟩
    dsimp only at h0 h1 h2 h3 h4 h5 h6 h7 h8 h9
    subst h0 h1 h2
    have hkn : k * 8 + 8 ≤ n := by
      have := Nat.div_mul_le_self n 8; nlinarith
    have hl : (BitVec.ofNat 64 (k * 8)).slt (BitVec.ofNat 64 (n / 8 * 8)) = true := by
      rw [slt_ofNat (by omega) (toNat_n hn 8), decide_eq_true_eq]; nlinarith
    have l0 := loadN_over (R := R) 8 hA (by omega) sA (addr4 a (k * 8))
    iterate 6 asm1 [e1, e2, h3, h4, h5, h6, h7, h8, h9, hl, l0,
      VOp.eval]
    refine Wp.step rfl ?_
    simp only [exec, ea, Function.update_apply, reduceCtorEq, Nat.reduceEqDiff, one_ne_zero, zero_ne_one, if_true, if_false,
      h3, h4, h5, h6, h7, h8, h9]
    refine wpO_map (storeN_over 8 hO.1 (by omega) (by omega) hO.mapped (addr4 out (k * 8)) ?_) ?_
    · intro l; simp [hR, BitVec.mul_comm]
    simp only [St.next]
    iterate 1 asm1 [h3, h4, h5, h6, h7, h8, h9]
    refine .refl ?_
    simp [h3, h4, h5, h6, h7, h8, h9, BitVec.ofNat_add]
  · rintro ⟨pc, g, y, c, m', r⟩ ⟨h0, h1, h2, h3, h4, h5, h6, h7, h8, h9⟩
    dsimp only at h0 h1 h2 h3 h4 h5 h6 h7 h8 h9
    subst h0 h1 h2
    have hl : (BitVec.ofNat 64 (n / 8 * 8)).slt (BitVec.ofNat 64 (n / 8 * 8)) = false := by
      rw [slt_ofNat (toNat_n hn 8) (toNat_n hn 8)]; simp
    iterate 4 asm1 [e3, h3, h4, h5, h6, h7, h8, h9, hl, Bool.false_eq_true]
    refine .refl ?_
    simp [h3, h4, h5, h6, h7, h8, h9]
  · rintro i ⟨pc, g, y, c, m', r⟩ hi ⟨h0, h1, h2, h3, h4, h5, h6, h7⟩
    dsimp only at h0 h1 h2 h3 h4 h5 h6 h7
    subst h0 h1 h2
    have hl : (BitVec.ofNat 64 i).slt (BitVec.ofNat 64 n) = true := by
      rw [slt_ofNat (by omega) (by omega), decide_eq_true_eq]; exact hi
    have l0 := loadN_over (R := R) 1 hA (by omega) sA (addr4 a i)
    iterate 6 asm1 [e4, h3, h4, h5, h6, h7, hl, l0, zext_lo]
    refine Wp.step rfl ?_
    simp only [exec, ea, Function.update_apply, reduceCtorEq, Nat.reduceEqDiff, one_ne_zero, zero_ne_one, if_true, if_false,
      h3, h4, h5, h6, h7]
    refine wpO_map (storeN_over 1 hO.1 (by omega) (by omega) hO.mapped (addr4 out i) ?_) ?_
    · intro l; rw [show l = 0 from Subsingleton.elim _ _]; simp [hR, zext_lo, BitVec.mul_comm]
    simp only [St.next]
    iterate 1 asm1 [h3, h4, h5, h6, h7]
    refine .refl ?_
    simp [h3, h4, h5, h6, h7, BitVec.ofNat_add]
  · rintro ⟨pc, g, y, c, m', r⟩ ⟨h0, h1, h2, h3, h4, h5, h6, h7⟩
    dsimp only at h0 h1 h2 h3 h4 h5 h6 h7
    subst h0 h1 h2
    have hl : (BitVec.ofNat 64 n).slt (BitVec.ofNat 64 n) = false := by
      rw [slt_ofNat (by omega) (by omega)]; simp
    iterate 3 asm1 [h3, h4, h5, h6, h7, hl, Bool.false_eq_true]
    refine Wp.step rfl ?_
    simp only [exec, wpO_some]
    refine .refl ⟨rfl, ?_⟩
    simp only

theorem scalarMulAddToUint32AVX2_spec {F : Fpu} {out a : BitVec 64} {n c1 c2 : Nat} (hn : n < 2 ^ 60)
    (g : Reg → BitVec 64) (y : Nat → Y) (m : Memory) {O A : Nat → BitVec 32} (x : BitVec 32)
    (hO : Holds m out O n) (hA : Holds m a A n)
    (sA : Ahead a out n) :
    Returns F scalarMulAddToUint32AVX2 (sliceArg out n c1 ++ sliceArg a n c2 ++ [x]) (entry g y m)
      (over m out (fun i => O i + x * A i) n) := by
  have e1 : target scalarMulAddToUint32AVX2 .loop_end = 17 := by decide
  have e2 : target scalarMulAddToUint32AVX2 .loop_body = 10 := by decide
  have e3 : target scalarMulAddToUint32AVX2 .leftover_loop_end = 28 := by decide
  have e4 : target scalarMulAddToUint32AVX2 .leftover_loop_body = 21 := by decide
  have sO : Ahead out out n := ahead_self out (by omega)
  generalize hR : (fun i => O i + x * A i) = R
  replace hR : ∀ i, R i = O i + x * A i := fun i => by rw [← hR]
  refine two_loops (V := 8) (n := n)
    (I1 := fun i s =>
    s.pc = 17 ∧ s.ret = false ∧ s.mem = over m out R i ∧ s.gpr .DI = BitVec.ofNat 64 i ∧
      s.gpr .AX = out ∧ s.gpr .CX = a ∧ s.gpr .DX = BitVec.ofNat 64 n ∧ s.gpr .SI = x.setWidth 64 ∧
      s.ymm 0 = (fun _ => x) ∧ s.gpr .BX = BitVec.ofNat 64 (n / 8 * 8))
    (I2 := fun i s =>
    s.pc = 28 ∧ s.ret = false ∧ s.mem = over m out R i ∧ s.gpr .DI = BitVec.ofNat 64 i ∧
      s.gpr .AX = out ∧ s.gpr .CX = a ∧ s.gpr .DX = BitVec.ofNat 64 n ∧ s.gpr .SI = x.setWidth 64)
    ?_ ?_ ?_ ?_ ?_
  · unfold entry
    have a0 : arg64 (sliceArg out n c1 ++ sliceArg a n c2 ++ [x]) 0 =
        some (out) := by
      simp [arg64, arg32, sliceArg, word64, join_split, join_ofNat]
    have a1 : arg64 (sliceArg out n c1 ++ sliceArg a n c2 ++ [x]) 24 =
        some (a) := by
      simp [arg64, arg32, sliceArg, word64, join_split, join_ofNat]
    have a2 : arg64 (sliceArg out n c1 ++ sliceArg a n c2 ++ [x]) 8 =
        some (BitVec.ofNat 64 n) := by
      simp [arg64, arg32, sliceArg, word64, join_split, join_ofNat]
    have a3 : arg32 (sliceArg out n c1 ++ sliceArg a n c2 ++ [x]) 48 =
        some x := by
      simp [arg32, sliceArg, word64]
    iterate 10 asm1 [a0, a1, a2, a3, e1]
    refine .refl ?_
    simp [over_zero, shr_ofNat (show n < 2 ^ 64 by omega), shl_ofNat]
  · rintro k ⟨pc, g, y, c, m', r⟩ hk ⟨h0, h1, h2, h3, h4, h5, h6, h7, h8, h9⟩
    dsimp only at h0 h1 h2 h3 h4 h5 h6 h7 h8 h9
    subst h0 h1 h2
    have hkn : k * 8 + 8 ≤ n := by
      have := Nat.div_mul_le_self n 8; nlinarith
    have hl : (BitVec.ofNat 64 (k * 8)).slt (BitVec.ofNat 64 (n / 8 * 8)) = true := by
      rw [slt_ofNat (by omega) (toNat_n hn 8), decide_eq_true_eq]; nlinarith
    have l0 := loadN_over (R := R) 8 hA (by omega) sA (addr4 a (k * 8))
    have l1 := loadN_over (R := R) 8 hO (by omega) sO (addr4 out (k * 8))
    iterate 8 asm1 [e1, e2, h3, h4, h5, h6, h7, h8, h9, hl, l0, l1,
      VOp.eval]
    refine Wp.step rfl ?_
    simp only [exec, ea, Function.update_apply, reduceCtorEq, Nat.reduceEqDiff, one_ne_zero, zero_ne_one, if_true, if_false,
      h3, h4, h5, h6, h7, h8, h9]
    refine wpO_map (storeN_over 8 hO.1 (by omega) (by omega) hO.mapped (addr4 out (k * 8)) ?_) ?_
    · intro l; simp [hR, BitVec.mul_comm]
    simp only [St.next]
    iterate 1 asm1 [h3, h4, h5, h6, h7, h8, h9]
    refine .refl ?_
    simp [h3, h4, h5, h6, h7, h8, h9, BitVec.ofNat_add]
  · rintro ⟨pc, g, y, c, m', r⟩ ⟨h0, h1, h2, h3, h4, h5, h6, h7, h8, h9⟩
    dsimp only at h0 h1 h2 h3 h4 h5 h6 h7 h8 h9
    subst h0 h1 h2
    have hl : (BitVec.ofNat 64 (n / 8 * 8)).slt (BitVec.ofNat 64 (n / 8 * 8)) = false := by
      rw [slt_ofNat (toNat_n hn 8) (toNat_n hn 8)]; simp
    iterate 4 asm1 [e3, h3, h4, h5, h6, h7, h8, h9, hl, Bool.false_eq_true]
    refine .refl ?_
    simp [h3, h4, h5, h6, h7, h8, h9]
  · rintro i ⟨pc, g, y, c, m', r⟩ hi ⟨h0, h1, h2, h3, h4, h5, h6, h7⟩
    dsimp only at h0 h1 h2 h3 h4 h5 h6 h7
    subst h0 h1 h2
    have hl : (BitVec.ofNat 64 i).slt (BitVec.ofNat 64 n) = true := by
      rw [slt_ofNat (by omega) (by omega), decide_eq_true_eq]; exact hi
    have l0 := loadN_over (R := R) 1 hA (by omega) sA (addr4 a i)
    have l1 := loadN_over (R := R) 1 hO (by omega) sO (addr4 out i)
    iterate 8 asm1 [e4, h3, h4, h5, h6, h7, hl, l0, l1, zext_lo]
    refine Wp.step rfl ?_
    simp only [exec, ea, Function.update_apply, reduceCtorEq, Nat.reduceEqDiff, one_ne_zero, zero_ne_one, if_true, if_false,
      h3, h4, h5, h6, h7]
    refine wpO_map (storeN_over 1 hO.1 (by omega) (by omega) hO.mapped (addr4 out i) ?_) ?_
    · intro l; rw [show l = 0 from Subsingleton.elim _ _]; simp [hR, zext_lo, BitVec.mul_comm]
    simp only [St.next]
    iterate 1 asm1 [h3, h4, h5, h6, h7]
    refine .refl ?_
    simp [h3, h4, h5, h6, h7, BitVec.ofNat_add]
  · rintro ⟨pc, g, y, c, m', r⟩ ⟨h0, h1, h2, h3, h4, h5, h6, h7⟩
    dsimp only at h0 h1 h2 h3 h4 h5 h6 h7
    subst h0 h1 h2
    have hl : (BitVec.ofNat 64 n).slt (BitVec.ofNat 64 n) = false := by
      rw [slt_ofNat (by omega) (by omega)]; simp
    iterate 3 asm1 [h3, h4, h5, h6, h7, hl, Bool.false_eq_true]
    refine Wp.step rfl ?_
    simp only [exec, wpO_some]
    refine .refl ⟨rfl, ?_⟩
    simp only

theorem scalarMulSubToUint32AVX2_spec {F : Fpu} {out a : BitVec 64} {n c1 c2 : Nat} (hn : n < 2 ^ 60)
    (g : Reg → BitVec 64) (y : Nat → Y) (m : Memory) {O A : Nat → BitVec 32} (x : BitVec 32)
    (hO : Holds m out O n) (hA : Holds m a A n)
    (sA : Ahead a out n) :
    Returns F scalarMulSubToUint32AVX2 (sliceArg out n c1 ++ sliceArg a n c2 ++ [x]) (entry g y m)
      (over m out (fun i => O i - x * A i) n) := by
  have e1 : target scalarMulSubToUint32AVX2 .loop_end = 17 := by decide
  have e2 : target scalarMulSubToUint32AVX2 .loop_body = 10 := by decide
  have e3 : target scalarMulSubToUint32AVX2 .leftover_loop_end = 28 := by decide
  have e4 : target scalarMulSubToUint32AVX2 .leftover_loop_body = 21 := by decide
  have sO : Ahead out out n := ahead_self out (by omega)
  generalize hR : (fun i => O i - x * A i) = R
  replace hR : ∀ i, R i = O i - x * A i := fun i => by rw [← hR]
  refine two_loops (V := 8) (n := n)
    (I1 := fun i s =>
    s.pc = 17 ∧ s.ret = false ∧ s.mem = over m out R i ∧ s.gpr .DI = BitVec.ofNat 64 i ∧
      s.gpr .AX = out ∧ s.gpr .CX = a ∧ s.gpr .DX = BitVec.ofNat 64 n ∧ s.gpr .SI = x.setWidth 64 ∧
      s.ymm 0 = (fun _ => x) ∧ s.gpr .BX = BitVec.ofNat 64 (n / 8 * 8))
    (I2 := fun i s =>
    s.pc = 28 ∧ s.ret = false ∧ s.mem = over m out R i ∧ s.gpr .DI = BitVec.ofNat 64 i ∧
      s.gpr .AX = out ∧ s.gpr .CX = a ∧ s.gpr .DX = BitVec.ofNat 64 n ∧ s.gpr .SI = x.setWidth 64)
    ?_ ?_ ?_ ?_ ?_
  · unfold entry
    have a0 : arg64 (sliceArg out n c1 ++ sliceArg a n c2 ++ [x]) 0 =
        some (out) := by
      simp [arg64, arg32, sliceArg, word64, join_split, join_ofNat]
    have a1 : arg64 (sliceArg out n c1 ++ sliceArg a n c2 ++ [x]) 24 =
        some (a) := by
      simp [arg64, arg32, sliceArg, word64, join_split, join_ofNat]
    have a2 : arg64 (sliceArg out n c1 ++ sliceArg a n c2 ++ [x]) 8 =
        some (BitVec.ofNat 64 n) := by
      simp [arg64, arg32, sliceArg, word64, join_split, join_ofNat]
    have a3 : arg32 (sliceArg out n c1 ++ sliceArg a n c2 ++ [x]) 48 =
        some x := by
      simp [arg32, sliceArg, word64]
    iterate 10 asm1 [a0, a1, a2, a3, e1]
    refine .refl ?_
    simp [over_zero, shr_ofNat (show n < 2 ^ 64 by omega), shl_ofNat]
  · rintro k ⟨pc, g, y, c, m', r⟩ hk ⟨h0, h1, h2, h3, h4, h5, h6, h7, h8, h9⟩
    dsimp only at h0 h1 h2 h3 h4 h5 h6 h7 h8 h9
    subst h0 h1 h2
    have hkn : k * 8 + 8 ≤ n := by
      have := Nat.div_mul_le_self n 8; nlinarith
    have hl : (BitVec.ofNat 64 (k * 8)).slt (BitVec.ofNat 64 (n / 8 * 8)) = true := by
      rw [slt_ofNat (by omega) (toNat_n hn 8), decide_eq_true_eq]; nlinarith
    have l0 := loadN_over (R := R) 8 hA (by omega) sA (addr4 a (k * 8))
    have l1 := loadN_over (R := R) 8 hO (by omega) sO (addr4 out (k * 8))
    iterate 8 asm1 [e1, e2, h3, h4, h5, h6, h7, h8, h9, hl, l0, l1,
      VOp.eval]
    refine Wp.step rfl ?_
    simp only [exec, ea, Function.update_apply, reduceCtorEq, Nat.reduceEqDiff, one_ne_zero, zero_ne_one, if_true, if_false,
      h3, h4, h5, h6, h7, h8, h9]
    refine wpO_map (storeN_over 8 hO.1 (by omega) (by omega) hO.mapped (addr4 out (k * 8)) ?_) ?_
    · intro l; simp [hR, BitVec.mul_comm]
    simp only [St.next]
    iterate 1 asm1 [h3, h4, h5, h6, h7, h8, h9]
    refine .refl ?_
    simp [h3, h4, h5, h6, h7, h8, h9, BitVec.ofNat_add]
  · rintro ⟨pc, g, y, c, m', r⟩ ⟨h0, h1, h2, h3, h4, h5, h6, h7, h8, h9⟩
    dsimp only at h0 h1 h2 h3 h4 h5 h6 h7 h8 h9
    subst h0 h1 h2
    have hl : (BitVec.ofNat 64 (n / 8 * 8)).slt (BitVec.ofNat 64 (n / 8 * 8)) = false := by
      rw [slt_ofNat (toNat_n hn 8) (toNat_n hn 8)]; simp
    iterate 4 asm1 [e3, h3, h4, h5, h6, h7, h8, h9, hl, Bool.false_eq_true]
    refine .refl ?_
    simp [h3, h4, h5, h6, h7, h8, h9]
  · rintro i ⟨pc, g, y, c, m', r⟩ hi ⟨h0, h1, h2, h3, h4, h5, h6, h7⟩
    dsimp only at h0 h1 h2 h3 h4 h5 h6 h7
    subst h0 h1 h2
    have hl : (BitVec.ofNat 64 i).slt (BitVec.ofNat 64 n) = true := by
      rw [slt_ofNat (by omega) (by omega), decide_eq_true_eq]; exact hi
    have l0 := loadN_over (R := R) 1 hA (by omega) sA (addr4 a i)
    have l1 := loadN_over (R := R) 1 hO (by omega) sO (addr4 out i)
    iterate 8 asm1 [e4, h3, h4, h5, h6, h7, hl, l0, l1, zext_lo]
    refine Wp.step rfl ?_
    simp only [exec, ea, Function.update_apply, reduceCtorEq, Nat.reduceEqDiff, one_ne_zero, zero_ne_one, if_true, if_false,
      h3, h4, h5, h6, h7]
    refine wpO_map (storeN_over 1 hO.1 (by omega) (by omega) hO.mapped (addr4 out i) ?_) ?_
    · intro l; rw [show l = 0 from Subsingleton.elim _ _]; simp [hR, zext_lo, BitVec.mul_comm]
    simp only [St.next]
    iterate 1 asm1 [h3, h4, h5, h6, h7]
    refine .refl ?_
    simp [h3, h4, h5, h6, h7, BitVec.ofNat_add]
  · rintro ⟨pc, g, y, c, m', r⟩ ⟨h0, h1, h2, h3, h4, h5, h6, h7⟩
    dsimp only at h0 h1 h2 h3 h4 h5 h6 h7
    subst h0 h1 h2
    have hl : (BitVec.ofNat 64 n).slt (BitVec.ofNat 64 n) = false := by
      rw [slt_ofNat (by omega) (by omega)]; simp
    iterate 3 asm1 [h3, h4, h5, h6, h7, hl, Bool.false_eq_true]
    refine Wp.step rfl ?_
    simp only [exec, wpO_some]
    refine .refl ⟨rfl, ?_⟩
    simp only

theorem scalarMulToUint64AVX2_spec {F : Fpu} {out a : BitVec 64} {n c1 c2 : Nat} (hn : n < 2 ^ 60)
    (g : Reg → BitVec 64) (y : Nat → Y) (m : Memory) {O A : Nat → BitVec 64} (x : BitVec 64)
    (hO : Holds m out (dw O) (2 * n)) (hA : Holds m a (dw A) (2 * n))
    (sA : Ahead a out (2 * n)) :
    Returns F scalarMulToUint64AVX2 (sliceArg out n c1 ++ sliceArg a n c2 ++ word64 x) (entry g y m)
      (over m out (dw (fun i => x * A i)) (2 * n)) := by
  have e1 : target scalarMulToUint64AVX2 .loop_end = 22 := by decide
  have e2 : target scalarMulToUint64AVX2 .loop_body = 12 := by decide
  have e3 : target scalarMulToUint64AVX2 .leftover_loop_end = 31 := by decide
  have e4 : target scalarMulToUint64AVX2 .leftover_loop_body = 26 := by decide
  have sO : Ahead out out (2 * n) := ahead_self out (by omega)
  generalize hR : (fun i => x * A i) = R
  replace hR : ∀ i, R i = x * A i := fun i => by rw [← hR]
  refine two_loops (V := 4) (n := n)
    (I1 := fun i s =>
    s.pc = 22 ∧ s.ret = false ∧ s.mem = over m out (dw R) (2 * i) ∧ s.gpr .DI = BitVec.ofNat 64 i ∧
      s.gpr .AX = out ∧ s.gpr .CX = a ∧ s.gpr .DX = BitVec.ofNat 64 n ∧ s.gpr .SI = x ∧
      s.ymm 0 = (ofQ fun _ => 0xffffffff00000000#64) ∧ s.ymm 1 = (ofQ fun _ => x) ∧
      s.ymm 2 = (ofQ fun _ => join (lo x) (hi x)) ∧ s.gpr .BX = BitVec.ofNat 64 (n / 4 * 4))
    (I2 := fun i s =>
    s.pc = 31 ∧ s.ret = false ∧ s.mem = over m out (dw R) (2 * i) ∧ s.gpr .DI = BitVec.ofNat 64 i ∧
      s.gpr .AX = out ∧ s.gpr .CX = a ∧ s.gpr .DX = BitVec.ofNat 64 n ∧ s.gpr .SI = x)
    ?_ ?_ ?_ ?_ ?_
  · unfold entry
    have a0 : arg64 (sliceArg out n c1 ++ sliceArg a n c2 ++ word64 x) 0 =
        some (out) := by
      simp [arg64, arg32, sliceArg, word64, join_split, join_ofNat]
    have a1 : arg64 (sliceArg out n c1 ++ sliceArg a n c2 ++ word64 x) 24 =
        some (a) := by
      simp [arg64, arg32, sliceArg, word64, join_split, join_ofNat]
    have a2 : arg64 (sliceArg out n c1 ++ sliceArg a n c2 ++ word64 x) 8 =
        some (BitVec.ofNat 64 n) := by
      simp [arg64, arg32, sliceArg, word64, join_split, join_ofNat]
    have a3 : arg64 (sliceArg out n c1 ++ sliceArg a n c2 ++ word64 x) 48 =
        some x := by
      simp [arg64, arg32, sliceArg, word64, join_split]
    iterate 12 asm1 [a0, a1, a2, a3, e1, VImm.eval, shuf_ofQ]
    refine .refl ?_
    simp [over_zero, shr_ofNat (show n < 2 ^ 64 by omega), shl_ofNat]
  · rintro k ⟨pc, g, y, c, m', r⟩ hk ⟨h0, h1, h2, h3, h4, h5, h6, h7, h8, h9, h10, h11⟩
    dsimp only at h0 h1 h2 h3 h4 h5 h6 h7 h8 h9 h10 h11
    subst h0 h1 h2
    have hkn : k * 4 + 4 ≤ n := by
      have := Nat.div_mul_le_self n 4; nlinarith
    have hl : (BitVec.ofNat 64 (k * 4)).slt (BitVec.ofNat 64 (n / 4 * 4)) = true := by
      rw [slt_ofNat (by omega) (toNat_n hn 4), decide_eq_true_eq]; nlinarith
    have l0 := loadN_over64 (R := R) hA hkn sA (addr8 a (k * 4))
    iterate 11 asm1 [e1, e2, h3, h4, h5, h6, h7, h8, h9, h10, h11, hl, l0,
      VOp.eval, VImm.eval, mapQ_ofQ, mulld_ofQ, and_ofQ, shuf_ofQ, qw_ofQ]
    refine Wp.step rfl ?_
    simp only [exec, ea, Function.update_apply, reduceCtorEq, Nat.reduceEqDiff, one_ne_zero, zero_ne_one, if_true, if_false,
      h3, h4, h5, h6, h7, h8, h9, h10, h11]
    refine wpO_map (storeN_over64 hO hkn hn (addr8 out (k * 4)) ?_) ?_
    · refine congrArg ofQ (funext fun q => ?_)
      have := mul_words (A (k * 4 + q.val)) x
      simp only [lo_join, hi_join, qw_ofQ]
      rw [hR]
      exact this.trans (BitVec.mul_comm _ _)
    simp only [St.next]
    iterate 1 asm1 [h3, h4, h5, h6, h7, h8, h9, h10, h11]
    refine .refl ?_
    simp [h3, h4, h5, h6, h7, h8, h9, h10, h11, BitVec.ofNat_add]
  · rintro ⟨pc, g, y, c, m', r⟩ ⟨h0, h1, h2, h3, h4, h5, h6, h7, h8, h9, h10, h11⟩
    dsimp only at h0 h1 h2 h3 h4 h5 h6 h7 h8 h9 h10 h11
    subst h0 h1 h2
    have hl : (BitVec.ofNat 64 (n / 4 * 4)).slt (BitVec.ofNat 64 (n / 4 * 4)) = false := by
      rw [slt_ofNat (toNat_n hn 4) (toNat_n hn 4)]; simp
    iterate 4 asm1 [e3, h3, h4, h5, h6, h7, h8, h9, h10, h11, hl, Bool.false_eq_true]
    refine .refl ?_
    simp [h3, h4, h5, h6, h7, h8, h9, h10, h11]
  · rintro i ⟨pc, g, y, c, m', r⟩ hi ⟨h0, h1, h2, h3, h4, h5, h6, h7⟩
    dsimp only at h0 h1 h2 h3 h4 h5 h6 h7
    subst h0 h1 h2
    have hl : (BitVec.ofNat 64 i).slt (BitVec.ofNat 64 n) = true := by
      rw [slt_ofNat (by omega) (by omega), decide_eq_true_eq]; exact hi
    have l0 := loadN_over64' (R := R) hA hi sA (addr8 a i)
    iterate 6 asm1 [e4, h3, h4, h5, h6, h7, hl, l0, join2_split2]
    refine Wp.step rfl ?_
    simp only [exec, ea, Function.update_apply, reduceCtorEq, Nat.reduceEqDiff, one_ne_zero, zero_ne_one, if_true, if_false,
      h3, h4, h5, h6, h7]
    refine wpO_map (storeN_over64' hO hi hn (addr8 out i) ?_) ?_
    · simp [hR, BitVec.mul_comm]
    simp only [St.next]
    iterate 1 asm1 [h3, h4, h5, h6, h7]
    refine .refl ?_
    simp [h3, h4, h5, h6, h7, BitVec.ofNat_add]
  · rintro ⟨pc, g, y, c, m', r⟩ ⟨h0, h1, h2, h3, h4, h5, h6, h7⟩
    dsimp only at h0 h1 h2 h3 h4 h5 h6 h7
    subst h0 h1 h2
    have hl : (BitVec.ofNat 64 n).slt (BitVec.ofNat 64 n) = false := by
      rw [slt_ofNat (by omega) (by omega)]; simp
    iterate 3 asm1 [h3, h4, h5, h6, h7, hl, Bool.false_eq_true]
    refine Wp.step rfl ?_
    simp only [exec, wpO_some]
    refine .refl ⟨rfl, ?_⟩
    simp only

theorem scalarMulAddToUint64AVX2_spec {F : Fpu} {out a : BitVec 64} {n c1 c2 : Nat} (hn : n < 2 ^ 60)
    (g : Reg → BitVec 64) (y : Nat → Y) (m : Memory) {O A : Nat → BitVec 64} (x : BitVec 64)
    (hO : Holds m out (dw O) (2 * n)) (hA : Holds m a (dw A) (2 * n))
    (sA : Ahead a out (2 * n)) :
    Returns F scalarMulAddToUint64AVX2 (sliceArg out n c1 ++ sliceArg a n c2 ++ word64 x) (entry g y m)
      (over m out (dw (fun i => O i + x * A i)) (2 * n)) := by
  have e1 : target scalarMulAddToUint64AVX2 .loop_end = 24 := by decide
  have e2 : target scalarMulAddToUint64AVX2 .loop_body = 12 := by decide
  have e3 : target scalarMulAddToUint64AVX2 .leftover_loop_end = 35 := by decide
  have e4 : target scalarMulAddToUint64AVX2 .leftover_loop_body = 28 := by decide
  have sO : Ahead out out (2 * n) := ahead_self out (by omega)
  generalize hR : (fun i => O i + x * A i) = R
  replace hR : ∀ i, R i = O i + x * A i := fun i => by rw [← hR]
  refine two_loops (V := 4) (n := n)
    (I1 := fun i s =>
    s.pc = 24 ∧ s.ret = false ∧ s.mem = over m out (dw R) (2 * i) ∧ s.gpr .DI = BitVec.ofNat 64 i ∧
      s.gpr .AX = out ∧ s.gpr .CX = a ∧ s.gpr .DX = BitVec.ofNat 64 n ∧ s.gpr .SI = x ∧
      s.ymm 0 = (ofQ fun _ => 0xffffffff00000000#64) ∧ s.ymm 1 = (ofQ fun _ => x) ∧
      s.ymm 2 = (ofQ fun _ => join (lo x) (hi x)) ∧ s.gpr .BX = BitVec.ofNat 64 (n / 4 * 4))
    (I2 := fun i s =>
    s.pc = 35 ∧ s.ret = false ∧ s.mem = over m out (dw R) (2 * i) ∧ s.gpr .DI = BitVec.ofNat 64 i ∧
      s.gpr .AX = out ∧ s.gpr .CX = a ∧ s.gpr .DX = BitVec.ofNat 64 n ∧ s.gpr .SI = x)
    ?_ ?_ ?_ ?_ ?_
  · unfold entry
    have a0 : arg64 (sliceArg out n c1 ++ sliceArg a n c2 ++ word64 x) 0 =
        some (out) := by
      simp [arg64, arg32, sliceArg, word64, join_split, join_ofNat]
    have a1 : arg64 (sliceArg out n c1 ++ sliceArg a n c2 ++ word64 x) 24 =
        some (a) := by
      simp [arg64, arg32, sliceArg, word64, join_split, join_ofNat]
    have a2 : arg64 (sliceArg out n c1 ++ sliceArg a n c2 ++ word64 x) 8 =
        some (BitVec.ofNat 64 n) := by
      simp [arg64, arg32, sliceArg, word64, join_split, join_ofNat]
    have a3 : arg64 (sliceArg out n c1 ++ sliceArg a n c2 ++ word64 x) 48 =
        some x := by
      simp [arg64, arg32, sliceArg, word64, join_split]
    iterate 12 asm1 [a0, a1, a2, a3, e1, VImm.eval, shuf_ofQ]
    refine .refl ?_
    simp [over_zero, shr_ofNat (show n < 2 ^ 64 by omega), shl_ofNat]
  · rintro k ⟨pc, g, y, c, m', r⟩ hk ⟨h0, h1, h2, h3, h4, h5, h6, h7, h8, h9, h10, h11⟩
    dsimp only at h0 h1 h2 h3 h4 h5 h6 h7 h8 h9 h10 h11
    subst h0 h1 h2
    have hkn : k * 4 + 4 ≤ n := by
      have := Nat.div_mul_le_self n 4; nlinarith
    have hl : (BitVec.ofNat 64 (k * 4)).slt (BitVec.ofNat 64 (n / 4 * 4)) = true := by
      rw [slt_ofNat (by omega) (toNat_n hn 4), decide_eq_true_eq]; nlinarith
    have l0 := loadN_over64 (R := R) hA hkn sA (addr8 a (k * 4))
    have l1 := loadN_over64 (R := R) hO hkn sO (addr8 out (k * 4))
    iterate 13 asm1 [e1, e2, h3, h4, h5, h6, h7, h8, h9, h10, h11, hl, l0, l1,
      VOp.eval, VImm.eval, mapQ_ofQ, mulld_ofQ, and_ofQ, shuf_ofQ, qw_ofQ]
    refine Wp.step rfl ?_
    simp only [exec, ea, Function.update_apply, reduceCtorEq, Nat.reduceEqDiff, one_ne_zero, zero_ne_one, if_true, if_false,
      h3, h4, h5, h6, h7, h8, h9, h10, h11]
    refine wpO_map (storeN_over64 hO hkn hn (addr8 out (k * 4)) ?_) ?_
    · refine congrArg ofQ (funext fun q => ?_)
      have := mul_words (A (k * 4 + q.val)) x
      simp only [lo_join, hi_join, qw_ofQ]
      rw [hR]
      congr 1
      exact this.trans (BitVec.mul_comm _ _)
    simp only [St.next]
    iterate 1 asm1 [h3, h4, h5, h6, h7, h8, h9, h10, h11]
    refine .refl ?_
    simp [h3, h4, h5, h6, h7, h8, h9, h10, h11, BitVec.ofNat_add]
  · rintro ⟨pc, g, y, c, m', r⟩ ⟨h0, h1, h2, h3, h4, h5, h6, h7, h8, h9, h10, h11⟩
    dsimp only at h0 h1 h2 h3 h4 h5 h6 h7 h8 h9 h10 h11
    subst h0 h1 h2
    have hl : (BitVec.ofNat 64 (n / 4 * 4)).slt (BitVec.ofNat 64 (n / 4 * 4)) = false := by
      rw [slt_ofNat (toNat_n hn 4) (toNat_n hn 4)]; simp
    iterate 4 asm1 [e3, h3, h4, h5, h6, h7, h8, h9, h10, h11, hl, Bool.false_eq_true]
    refine .refl ?_
    simp [h3, h4, h5, h6, h7, h8, h9, h10, h11]
  · rintro i ⟨pc, g, y, c, m', r⟩ hi ⟨h0, h1, h2, h3, h4, h5, h6, h7⟩
    dsimp only at h0 h1 h2 h3 h4 h5 h6 h7
    subst h0 h1 h2
    have hl : (BitVec.ofNat 64 i).slt (BitVec.ofNat 64 n) = true := by
      rw [slt_ofNat (by omega) (by omega), decide_eq_true_eq]; exact hi
    have l0 := loadN_over64' (R := R) hA hi sA (addr8 a i)
    have l1 := loadN_over64' (R := R) hO hi sO (addr8 out i)
    iterate 8 asm1 [e4, h3, h4, h5, h6, h7, hl, l0, l1, join2_split2]
    refine Wp.step rfl ?_
    simp only [exec, ea, Function.update_apply, reduceCtorEq, Nat.reduceEqDiff, one_ne_zero, zero_ne_one, if_true, if_false,
      h3, h4, h5, h6, h7]
    refine wpO_map (storeN_over64' hO hi hn (addr8 out i) ?_) ?_
    · simp [hR, BitVec.mul_comm]
    simp only [St.next]
    iterate 1 asm1 [h3, h4, h5, h6, h7]
    refine .refl ?_
    simp [h3, h4, h5, h6, h7, BitVec.ofNat_add]
  · rintro ⟨pc, g, y, c, m', r⟩ ⟨h0, h1, h2, h3, h4, h5, h6, h7⟩
    dsimp only at h0 h1 h2 h3 h4 h5 h6 h7
    subst h0 h1 h2
    have hl : (BitVec.ofNat 64 n).slt (BitVec.ofNat 64 n) = false := by
      rw [slt_ofNat (by omega) (by omega)]; simp
    iterate 3 asm1 [h3, h4, h5, h6, h7, hl, Bool.false_eq_true]
    refine Wp.step rfl ?_
    simp only [exec, wpO_some]
    refine .refl ⟨rfl, ?_⟩
    simp only

theorem scalarMulSubToUint64AVX2_spec {F : Fpu} {out a : BitVec 64} {n c1 c2 : Nat} (hn : n < 2 ^ 60)
    (g : Reg → BitVec 64) (y : Nat → Y) (m : Memory) {O A : Nat → BitVec 64} (x : BitVec 64)
    (hO : Holds m out (dw O) (2 * n)) (hA : Holds m a (dw A) (2 * n))
    (sA : Ahead a out (2 * n)) :
    Returns F scalarMulSubToUint64AVX2 (sliceArg out n c1 ++ sliceArg a n c2 ++ word64 x) (entry g y m)
      (over m out (dw (fun i => O i - x * A i)) (2 * n)) := by
  have e1 : target scalarMulSubToUint64AVX2 .loop_end = 24 := by decide
  have e2 : target scalarMulSubToUint64AVX2 .loop_body = 12 := by decide
  have e3 : target scalarMulSubToUint64AVX2 .leftover_loop_end = 35 := by decide
  have e4 : target scalarMulSubToUint64AVX2 .leftover_loop_body = 28 := by decide
  have sO : Ahead out out (2 * n) := ahead_self out (by omega)
  generalize hR : (fun i => O i - x * A i) = R
  replace hR : ∀ i, R i = O i - x * A i := fun i => by rw [← hR]
  refine two_loops (V := 4) (n := n)
    (I1 := fun i s =>
    s.pc = 24 ∧ s.ret = false ∧ s.mem = over m out (dw R) (2 * i) ∧ s.gpr .DI = BitVec.ofNat 64 i ∧
      s.gpr .AX = out ∧ s.gpr .CX = a ∧ s.gpr .DX = BitVec.ofNat 64 n ∧ s.gpr .SI = x ∧
      s.ymm 0 = (ofQ fun _ => 0xffffffff00000000#64) ∧ s.ymm 1 = (ofQ fun _ => x) ∧
      s.ymm 2 = (ofQ fun _ => join (lo x) (hi x)) ∧ s.gpr .BX = BitVec.ofNat 64 (n / 4 * 4))
    (I2 := fun i s =>
    s.pc = 35 ∧ s.ret = false ∧ s.mem = over m out (dw R) (2 * i) ∧ s.gpr .DI = BitVec.ofNat 64 i ∧
      s.gpr .AX = out ∧ s.gpr .CX = a ∧ s.gpr .DX = BitVec.ofNat 64 n ∧ s.gpr .SI = x)
    ?_ ?_ ?_ ?_ ?_
  · unfold entry
    have a0 : arg64 (sliceArg out n c1 ++ sliceArg a n c2 ++ word64 x) 0 =
        some (out) := by
      simp [arg64, arg32, sliceArg, word64, join_split, join_ofNat]
    have a1 : arg64 (sliceArg out n c1 ++ sliceArg a n c2 ++ word64 x) 24 =
        some (a) := by
      simp [arg64, arg32, sliceArg, word64, join_split, join_ofNat]
    have a2 : arg64 (sliceArg out n c1 ++ sliceArg a n c2 ++ word64 x) 8 =
        some (BitVec.ofNat 64 n) := by
      simp [arg64, arg32, sliceArg, word64, join_split, join_ofNat]
    have a3 : arg64 (sliceArg out n c1 ++ sliceArg a n c2 ++ word64 x) 48 =
        some x := by
      simp [arg64, arg32, sliceArg, word64, join_split]
    iterate 12 asm1 [a0, a1, a2, a3, e1, VImm.eval, shuf_ofQ]
    refine .refl ?_
    simp [over_zero, shr_ofNat (show n < 2 ^ 64 by omega), shl_ofNat]
  · rintro k ⟨pc, g, y, c, m', r⟩ hk ⟨h0, h1, h2, h3, h4, h5, h6, h7, h8, h9, h10, h11⟩
    dsimp only at h0 h1 h2 h3 h4 h5 h6 h7 h8 h9 h10 h11
    subst h0 h1 h2
    have hkn : k * 4 + 4 ≤ n := by
      have := Nat.div_mul_le_self n 4; nlinarith
    have hl : (BitVec.ofNat 64 (k * 4)).slt (BitVec.ofNat 64 (n / 4 * 4)) = true := by
      rw [slt_ofNat (by omega) (toNat_n hn 4), decide_eq_true_eq]; nlinarith
    have l0 := loadN_over64 (R := R) hA hkn sA (addr8 a (k * 4))
    have l1 := loadN_over64 (R := R) hO hkn sO (addr8 out (k * 4))
    iterate 13 asm1 [e1, e2, h3, h4, h5, h6, h7, h8, h9, h10, h11, hl, l0, l1,
      VOp.eval, VImm.eval, mapQ_ofQ, mulld_ofQ, and_ofQ, shuf_ofQ, qw_ofQ]
    refine Wp.step rfl ?_
    simp only [exec, ea, Function.update_apply, reduceCtorEq, Nat.reduceEqDiff, one_ne_zero, zero_ne_one, if_true, if_false,
      h3, h4, h5, h6, h7, h8, h9, h10, h11]
    refine wpO_map (storeN_over64 hO hkn hn (addr8 out (k * 4)) ?_) ?_
    · refine congrArg ofQ (funext fun q => ?_)
      have := mul_words (A (k * 4 + q.val)) x
      simp only [lo_join, hi_join, qw_ofQ]
      rw [hR]
      congr 1
      exact this.trans (BitVec.mul_comm _ _)
    simp only [St.next]
    iterate 1 asm1 [h3, h4, h5, h6, h7, h8, h9, h10, h11]
    refine .refl ?_
    simp [h3, h4, h5, h6, h7, h8, h9, h10, h11, BitVec.ofNat_add]
  · rintro ⟨pc, g, y, c, m', r⟩ ⟨h0, h1, h2, h3, h4, h5, h6, h7, h8, h9, h10, h11⟩
    dsimp only at h0 h1 h2 h3 h4 h5 h6 h7 h8 h9 h10 h11
    subst h0 h1 h2
    have hl : (BitVec.ofNat 64 (n / 4 * 4)).slt (BitVec.ofNat 64 (n / 4 * 4)) = false := by
      rw [slt_ofNat (toNat_n hn 4) (toNat_n hn 4)]; simp
    iterate 4 asm1 [e3, h3, h4, h5, h6, h7, h8, h9, h10, h11, hl, Bool.false_eq_true]
    refine .refl ?_
    simp [h3, h4, h5, h6, h7, h8, h9, h10, h11]
  · rintro i ⟨pc, g, y, c, m', r⟩ hi ⟨h0, h1, h2, h3, h4, h5, h6, h7⟩
    dsimp only at h0 h1 h2 h3 h4 h5 h6 h7
    subst h0 h1 h2
    have hl : (BitVec.ofNat 64 i).slt (BitVec.ofNat 64 n) = true := by
      rw [slt_ofNat (by omega) (by omega), decide_eq_true_eq]; exact hi
    have l0 := loadN_over64' (R := R) hA hi sA (addr8 a i)
    have l1 := loadN_over64' (R := R) hO hi sO (addr8 out i)
    iterate 8 asm1 [e4, h3, h4, h5, h6, h7, hl, l0, l1, join2_split2]
    refine Wp.step rfl ?_
    simp only [exec, ea, Function.update_apply, reduceCtorEq, Nat.reduceEqDiff, one_ne_zero, zero_ne_one, if_true, if_false,
      h3, h4, h5, h6, h7]
    refine wpO_map (storeN_over64' hO hi hn (addr8 out i) ?_) ?_
    · simp [hR, BitVec.mul_comm]
    simp only [St.next]
    iterate 1 asm1 [h3, h4, h5, h6, h7]
    refine .refl ?_
    simp [h3, h4, h5, h6, h7, BitVec.ofNat_add]
  · rintro ⟨pc, g, y, c, m', r⟩ ⟨h0, h1, h2, h3, h4, h5, h6, h7⟩
    dsimp only at h0 h1 h2 h3 h4 h5 h6 h7
    subst h0 h1 h2
    have hl : (BitVec.ofNat 64 n).slt (BitVec.ofNat 64 n) = false := by
      rw [slt_ofNat (by omega) (by omega)]; simp
    iterate 3 asm1 [h3, h4, h5, h6, h7, hl, Bool.false_eq_true]
    refine Wp.step rfl ?_
    simp only [exec, wpO_some]
    refine .refl ⟨rfl, ?_⟩
    simp only

theorem mulToUint32AVX2_spec {F : Fpu} {out a b : BitVec 64} {n c1 c2 c3 : Nat} (hn : n < 2 ^ 60)
    (g : Reg → BitVec 64) (y : Nat → Y) (m : Memory) {O A B : Nat → BitVec 32}
    (hO : Holds m out O n) (hA : Holds m a A n) (hB : Holds m b B n)
    (sA : Ahead a out n) (sB : Ahead b out n) :
    Returns F mulToUint32AVX2 (sliceArg out n c1 ++ sliceArg a n c2 ++ sliceArg b n c3) (entry g y m)
      (over m out (fun i => A i * B i) n) := by
  have e1 : target mulToUint32AVX2 .loop_end = 15 := by decide
  have e2 : target mulToUint32AVX2 .loop_body = 9 := by decide
  have e3 : target mulToUint32AVX2 .leftover_loop_end = 25 := by decide
  have e4 : target mulToUint32AVX2 .leftover_loop_body = 19 := by decide
  have sO : Ahead out out n := ahead_self out (by omega)
  generalize hR : (fun i => A i * B i) = R
  replace hR : ∀ i, R i = A i * B i := fun i => by rw [← hR]
  refine two_loops (V := 8) (n := n)
    (I1 := fun i s =>
    s.pc = 15 ∧ s.ret = false ∧ s.mem = over m out R i ∧ s.gpr .DI = BitVec.ofNat 64 i ∧
      s.gpr .AX = out ∧ s.gpr .CX = a ∧ s.gpr .DX = b ∧ s.gpr .BX = BitVec.ofNat 64 n ∧
      s.gpr .SI = BitVec.ofNat 64 (n / 8 * 8))
    (I2 := fun i s =>
    s.pc = 25 ∧ s.ret = false ∧ s.mem = over m out R i ∧ s.gpr .DI = BitVec.ofNat 64 i ∧
      s.gpr .AX = out ∧ s.gpr .CX = a ∧ s.gpr .DX = b ∧ s.gpr .BX = BitVec.ofNat 64 n)
    ?_ ?_ ?_ ?_ ?_
  · unfold entry
    have a0 : arg64 (sliceArg out n c1 ++ sliceArg a n c2 ++ sliceArg b n c3) 0 =
        some (out) := by
      simp [arg64, arg32, sliceArg, word64, join_split, join_ofNat]
    have a1 : arg64 (sliceArg out n c1 ++ sliceArg a n c2 ++ sliceArg b n c3) 24 =
        some (a) := by
      simp [arg64, arg32, sliceArg, word64, join_split, join_ofNat]
    have a2 : arg64 (sliceArg out n c1 ++ sliceArg a n c2 ++ sliceArg b n c3) 8 =
        some (BitVec.ofNat 64 n) := by
      simp [arg64, arg32, sliceArg, word64, join_split, join_ofNat]
    have a3 : arg64 (sliceArg out n c1 ++ sliceArg a n c2 ++ sliceArg b n c3) 48 =
        some (b) := by
      simp [arg64, arg32, sliceArg, word64, join_split, join_ofNat]
    iterate 9 asm1 [a0, a1, a2, a3, e1]
    refine .refl ?_
    simp [over_zero, shr_ofNat (show n < 2 ^ 64 by omega), shl_ofNat]
  · rintro k ⟨pc, g, y, c, m', r⟩ hk ⟨h0, h1, h2, h3, h4, h5, h6, h7, h8⟩
    dsimp only at h0 h1 h2 h3 h4 h5 h6 h7 h8
    subst h0 h1 h2
    have hkn : k * 8 + 8 ≤ n := by
      have := Nat.div_mul_le_self n 8; nlinarith
    have hl : (BitVec.ofNat 64 (k * 8)).slt (BitVec.ofNat 64 (n / 8 * 8)) = true := by
      rw [slt_ofNat (by omega) (toNat_n hn 8), decide_eq_true_eq]; nlinarith
    have l0 := loadN_over (R := R) 8 hA (by omega) sA (addr4 a (k * 8))
    have l1 := loadN_over (R := R) 8 hB (by omega) sB (addr4 b (k * 8))
    iterate 7 asm1 [e1, e2, h3, h4, h5, h6, h7, h8, hl, l0, l1,
      VOp.eval]
    refine Wp.step rfl ?_
    simp only [exec, ea, Function.update_apply, reduceCtorEq, Nat.reduceEqDiff, one_ne_zero, zero_ne_one, if_true, if_false,
      h3, h4, h5, h6, h7, h8]
    refine wpO_map (storeN_over 8 hO.1 (by omega) (by omega) hO.mapped (addr4 out (k * 8)) ?_) ?_
    · intro l; simp [hR, BitVec.mul_comm]
    simp only [St.next]
    iterate 1 asm1 [h3, h4, h5, h6, h7, h8]
    refine .refl ?_
    simp [h3, h4, h5, h6, h7, h8, BitVec.ofNat_add]
  · rintro ⟨pc, g, y, c, m', r⟩ ⟨h0, h1, h2, h3, h4, h5, h6, h7, h8⟩
    dsimp only at h0 h1 h2 h3 h4 h5 h6 h7 h8
    subst h0 h1 h2
    have hl : (BitVec.ofNat 64 (n / 8 * 8)).slt (BitVec.ofNat 64 (n / 8 * 8)) = false := by
      rw [slt_ofNat (toNat_n hn 8) (toNat_n hn 8)]; simp
    iterate 4 asm1 [e3, h3, h4, h5, h6, h7, h8, hl, Bool.false_eq_true]
    refine .refl ?_
    simp [h3, h4, h5, h6, h7, h8]
  · rintro i ⟨pc, g, y, c, m', r⟩ hi ⟨h0, h1, h2, h3, h4, h5, h6, h7⟩
    dsimp only at h0 h1 h2 h3 h4 h5 h6 h7
    subst h0 h1 h2
    have hl : (BitVec.ofNat 64 i).slt (BitVec.ofNat 64 n) = true := by
      rw [slt_ofNat (by omega) (by omega), decide_eq_true_eq]; exact hi
    have l0 := loadN_over (R := R) 1 hA (by omega) sA (addr4 a i)
    have l1 := loadN_over (R := R) 1 hB (by omega) sB (addr4 b i)
    iterate 7 asm1 [e4, h3, h4, h5, h6, h7, hl, l0, l1, zext_lo]
    refine Wp.step rfl ?_
    simp only [exec, ea, Function.update_apply, reduceCtorEq, Nat.reduceEqDiff, one_ne_zero, zero_ne_one, if_true, if_false,
      h3, h4, h5, h6, h7]
    refine wpO_map (storeN_over 1 hO.1 (by omega) (by omega) hO.mapped (addr4 out i) ?_) ?_
    · intro l; rw [show l = 0 from Subsingleton.elim _ _]; simp [hR, zext_lo, BitVec.mul_comm]
    simp only [St.next]
    iterate 1 asm1 [h3, h4, h5, h6, h7]
    refine .refl ?_
    simp [h3, h4, h5, h6, h7, BitVec.ofNat_add]
  · rintro ⟨pc, g, y, c, m', r⟩ ⟨h0, h1, h2, h3, h4, h5, h6, h7⟩
    dsimp only at h0 h1 h2 h3 h4 h5 h6 h7
    subst h0 h1 h2
    have hl : (BitVec.ofNat 64 n).slt (BitVec.ofNat 64 n) = false := by
      rw [slt_ofNat (by omega) (by omega)]; simp
    iterate 3 asm1 [h3, h4, h5, h6, h7, hl, Bool.false_eq_true]
    refine Wp.step rfl ?_
    simp only [exec, wpO_some]
    refine .refl ⟨rfl, ?_⟩
    simp only

theorem mulAddToUint32AVX2_spec {F : Fpu} {out a b : BitVec 64} {n c1 c2 c3 : Nat} (hn : n < 2 ^ 60)
    (g : Reg → BitVec 64) (y : Nat → Y) (m : Memory) {O A B : Nat → BitVec 32}
    (hO : Holds m out O n) (hA : Holds m a A n) (hB : Holds m b B n)
    (sA : Ahead a out n) (sB : Ahead b out n) :
    Returns F mulAddToUint32AVX2 (sliceArg out n c1 ++ sliceArg a n c2 ++ sliceArg b n c3) (entry g y m)
      (over m out (fun i => O i + A i * B i) n) := by
  have e1 : target mulAddToUint32AVX2 .loop_end = 17 := by decide
  have e2 : target mulAddToUint32AVX2 .loop_body = 9 := by decide
  have e3 : target mulAddToUint32AVX2 .leftover_loop_end = 29 := by decide
  have e4 : target mulAddToUint32AVX2 .leftover_loop_body = 21 := by decide
  have sO : Ahead out out n := ahead_self out (by omega)
  generalize hR : (fun i => O i + A i * B i) = R
  replace hR : ∀ i, R i = O i + A i * B i := fun i => by rw [← hR]
  refine two_loops (V := 8) (n := n)
    (I1 := fun i s =>
    s.pc = 17 ∧ s.ret = false ∧ s.mem = over m out R i ∧ s.gpr .DI = BitVec.ofNat 64 i ∧
      s.gpr .AX = out ∧ s.gpr .CX = a ∧ s.gpr .DX = b ∧ s.gpr .BX = BitVec.ofNat 64 n ∧
      s.gpr .SI = BitVec.ofNat 64 (n / 8 * 8))
    (I2 := fun i s =>
    s.pc = 29 ∧ s.ret = false ∧ s.mem = over m out R i ∧ s.gpr .DI = BitVec.ofNat 64 i ∧
      s.gpr .AX = out ∧ s.gpr .CX = a ∧ s.gpr .DX = b ∧ s.gpr .BX = BitVec.ofNat 64 n)
    ?_ ?_ ?_ ?_ ?_
  · unfold entry
    have a0 : arg64 (sliceArg out n c1 ++ sliceArg a n c2 ++ sliceArg b n c3) 0 =
        some (out) := by
      simp [arg64, arg32, sliceArg, word64, join_split, join_ofNat]
    have a1 : arg64 (sliceArg out n c1 ++ sliceArg a n c2 ++ sliceArg b n c3) 24 =
        some (a) := by
      simp [arg64, arg32, sliceArg, word64, join_split, join_ofNat]
    have a2 : arg64 (sliceArg out n c1 ++ sliceArg a n c2 ++ sliceArg b n c3) 8 =
        some (BitVec.ofNat 64 n) := by
      simp [arg64, arg32, sliceArg, word64, join_split, join_ofNat]
    have a3 : arg64 (sliceArg out n c1 ++ sliceArg a n c2 ++ sliceArg b n c3) 48 =
        some (b) := by
      simp [arg64, arg32, sliceArg, word64, join_split, join_ofNat]
    iterate 9 asm1 [a0, a1, a2, a3, e1]
    refine .refl ?_
    simp [over_zero, shr_ofNat (show n < 2 ^ 64 by omega), shl_ofNat]
  · rintro k ⟨pc, g, y, c, m', r⟩ hk ⟨h0, h1, h2, h3, h4, h5, h6, h7, h8⟩
    dsimp only at h0 h1 h2 h3 h4 h5 h6 h7 h8
    subst h0 h1 h2
    have hkn : k * 8 + 8 ≤ n := by
      have := Nat.div_mul_le_self n 8; nlinarith
    have hl : (BitVec.ofNat 64 (k * 8)).slt (BitVec.ofNat 64 (n / 8 * 8)) = true := by
      rw [slt_ofNat (by omega) (toNat_n hn 8), decide_eq_true_eq]; nlinarith
    have l0 := loadN_over (R := R) 8 hA (by omega) sA (addr4 a (k * 8))
    have l1 := loadN_over (R := R) 8 hB (by omega) sB (addr4 b (k * 8))
    have l2 := loadN_over (R := R) 8 hO (by omega) sO (addr4 out (k * 8))
    iterate 9 asm1 [e1, e2, h3, h4, h5, h6, h7, h8, hl, l0, l1, l2,
      VOp.eval]
    refine Wp.step rfl ?_
    simp only [exec, ea, Function.update_apply, reduceCtorEq, Nat.reduceEqDiff, one_ne_zero, zero_ne_one, if_true, if_false,
      h3, h4, h5, h6, h7, h8]
    refine wpO_map (storeN_over 8 hO.1 (by omega) (by omega) hO.mapped (addr4 out (k * 8)) ?_) ?_
    · intro l; simp [hR, BitVec.mul_comm]
    simp only [St.next]
    iterate 1 asm1 [h3, h4, h5, h6, h7, h8]
    refine .refl ?_
    simp [h3, h4, h5, h6, h7, h8, BitVec.ofNat_add]
  · rintro ⟨pc, g, y, c, m', r⟩ ⟨h0, h1, h2, h3, h4, h5, h6, h7, h8⟩
    dsimp only at h0 h1 h2 h3 h4 h5 h6 h7 h8
    subst h0 h1 h2
    have hl : (BitVec.ofNat 64 (n / 8 * 8)).slt (BitVec.ofNat 64 (n / 8 * 8)) = false := by
      rw [slt_ofNat (toNat_n hn 8) (toNat_n hn 8)]; simp
    iterate 4 asm1 [e3, h3, h4, h5, h6, h7, h8, hl, Bool.false_eq_true]
    refine .refl ?_
    simp [h3, h4, h5, h6, h7, h8]
  · rintro i ⟨pc, g, y, c, m', r⟩ hi ⟨h0, h1, h2, h3, h4, h5, h6, h7⟩
    dsimp only at h0 h1 h2 h3 h4 h5 h6 h7
    subst h0 h1 h2
    have hl : (BitVec.ofNat 64 i).slt (BitVec.ofNat 64 n) = true := by
      rw [slt_ofNat (by omega) (by omega), decide_eq_true_eq]; exact hi
    have l0 := loadN_over (R := R) 1 hA (by omega) sA (addr4 a i)
    have l1 := loadN_over (R := R) 1 hB (by omega) sB (addr4 b i)
    have l2 := loadN_over (R := R) 1 hO (by omega) sO (addr4 out i)
    iterate 9 asm1 [e4, h3, h4, h5, h6, h7, hl, l0, l1, l2, zext_lo]
    refine Wp.step rfl ?_
    simp only [exec, ea, Function.update_apply, reduceCtorEq, Nat.reduceEqDiff, one_ne_zero, zero_ne_one, if_true, if_false,
      h3, h4, h5, h6, h7]
    refine wpO_map (storeN_over 1 hO.1 (by omega) (by omega) hO.mapped (addr4 out i) ?_) ?_
    · intro l; rw [show l = 0 from Subsingleton.elim _ _]; simp [hR, zext_lo, BitVec.mul_comm]
    simp only [St.next]
    iterate 1 asm1 [h3, h4, h5, h6, h7]
    refine .refl ?_
    simp [h3, h4, h5, h6, h7, BitVec.ofNat_add]
  · rintro ⟨pc, g, y, c, m', r⟩ ⟨h0, h1, h2, h3, h4, h5, h6, h7⟩
    dsimp only at h0 h1 h2 h3 h4 h5 h6 h7
    subst h0 h1 h2
    have hl : (BitVec.ofNat 64 n).slt (BitVec.ofNat 64 n) = false := by
      rw [slt_ofNat (by omega) (by omega)]; simp
    iterate 3 asm1 [h3, h4, h5, h6, h7, hl, Bool.false_eq_true]
    refine Wp.step rfl ?_
    simp only [exec, wpO_some]
    refine .refl ⟨rfl, ?_⟩
    simp only

theorem mulSubToUint32AVX2_spec {F : Fpu} {out a b : BitVec 64} {n c1 c2 c3 : Nat} (hn : n < 2 ^ 60)
    (g : Reg → BitVec 64) (y : Nat → Y) (m : Memory) {O A B : Nat → BitVec 32}
    (hO : Holds m out O n) (hA : Holds m a A n) (hB : Holds m b B n)
    (sA : Ahead a out n) (sB : Ahead b out n) :
    Returns F mulSubToUint32AVX2 (sliceArg out n c1 ++ sliceArg a n c2 ++ sliceArg b n c3) (entry g y m)
      (over m out (fun i => O i - A i * B i) n) := by
  have e1 : target mulSubToUint32AVX2 .loop_end = 17 := by decide
  have e2 : target mulSubToUint32AVX2 .loop_body = 9 := by decide
  have e3 : target mulSubToUint32AVX2 .leftover_loop_end = 29 := by decide
  have e4 : target mulSubToUint32AVX2 .leftover_loop_body = 21 := by decide
  have sO : Ahead out out n := ahead_self out (by omega)
  generalize hR : (fun i => O i - A i * B i) = R
  replace hR : ∀ i, R i = O i - A i * B i := fun i => by rw [← hR]
  refine two_loops (V := 8) (n := n)
    (I1 := fun i s =>
    s.pc = 17 ∧ s.ret = false ∧ s.mem = over m out R i ∧ s.gpr .DI = BitVec.ofNat 64 i ∧
      s.gpr .AX = out ∧ s.gpr .CX = a ∧ s.gpr .DX = b ∧ s.gpr .BX = BitVec.ofNat 64 n ∧
      s.gpr .SI = BitVec.ofNat 64 (n / 8 * 8))
    (I2 := fun i s =>
    s.pc = 29 ∧ s.ret = false ∧ s.mem = over m out R i ∧ s.gpr .DI = BitVec.ofNat 64 i ∧
      s.gpr .AX = out ∧ s.gpr .CX = a ∧ s.gpr .DX = b ∧ s.gpr .BX = BitVec.ofNat 64 n)
    ?_ ?_ ?_ ?_ ?_
  · unfold entry
    have a0 : arg64 (sliceArg out n c1 ++ sliceArg a n c2 ++ sliceArg b n c3) 0 =
        some (out) := by
      simp [arg64, arg32, sliceArg, word64, join_split, join_ofNat]
    have a1 : arg64 (sliceArg out n c1 ++ sliceArg a n c2 ++ sliceArg b n c3) 24 =
        some (a) := by
      simp [arg64, arg32, sliceArg, word64, join_split, join_ofNat]
    have a2 : arg64 (sliceArg out n c1 ++ sliceArg a n c2 ++ sliceArg b n c3) 8 =
        some (BitVec.ofNat 64 n) := by
      simp [arg64, arg32, sliceArg, word64, join_split, join_ofNat]
    have a3 : arg64 (sliceArg out n c1 ++ sliceArg a n c2 ++ sliceArg b n c3) 48 =
        some (b) := by
      simp [arg64, arg32, sliceArg, word64, join_split, join_ofNat]
    iterate 9 asm1 [a0, a1, a2, a3, e1]
    refine .refl ?_
    simp [over_zero, shr_ofNat (show n < 2 ^ 64 by omega), shl_ofNat]
  · rintro k ⟨pc, g, y, c, m', r⟩ hk ⟨h0, h1, h2, h3, h4, h5, h6, h7, h8⟩
    dsimp only at h0 h1 h2 h3 h4 h5 h6 h7 h8
    subst h0 h1 h2
    have hkn : k * 8 + 8 ≤ n := by
      have := Nat.div_mul_le_self n 8; nlinarith
    have hl : (BitVec.ofNat 64 (k * 8)).slt (BitVec.ofNat 64 (n / 8 * 8)) = true := by
      rw [slt_ofNat (by omega) (toNat_n hn 8), decide_eq_true_eq]; nlinarith
    have l0 := loadN_over (R := R) 8 hA (by omega) sA (addr4 a (k * 8))
    have l1 := loadN_over (R := R) 8 hB (by omega) sB (addr4 b (k * 8))
    have l2 := loadN_over (R := R) 8 hO (by omega) sO (addr4 out (k * 8))
    iterate 9 asm1 [e1, e2, h3, h4, h5, h6, h7, h8, hl, l0, l1, l2,
      VOp.eval]
    refine Wp.step rfl ?_
    simp only [exec, ea, Function.update_apply, reduceCtorEq, Nat.reduceEqDiff, one_ne_zero, zero_ne_one, if_true, if_false,
      h3, h4, h5, h6, h7, h8]
    refine wpO_map (storeN_over 8 hO.1 (by omega) (by omega) hO.mapped (addr4 out (k * 8)) ?_) ?_
    · intro l; simp [hR, BitVec.mul_comm]
    simp only [St.next]
    iterate 1 asm1 [h3, h4, h5, h6, h7, h8]
    refine .refl ?_
    simp [h3, h4, h5, h6, h7, h8, BitVec.ofNat_add]
  · rintro ⟨pc, g, y, c, m', r⟩ ⟨h0, h1, h2, h3, h4, h5, h6, h7, h8⟩
    dsimp only at h0 h1 h2 h3 h4 h5 h6 h7 h8
    subst h0 h1 h2
    have hl : (BitVec.ofNat 64 (n / 8 * 8)).slt (BitVec.ofNat 64 (n / 8 * 8)) = false := by
      rw [slt_ofNat (toNat_n hn 8) (toNat_n hn 8)]; simp
    iterate 4 asm1 [e3, h3, h4, h5, h6, h7, h8, hl, Bool.false_eq_true]
    refine .refl ?_
    simp [h3, h4, h5, h6, h7, h8]
  · rintro i ⟨pc, g, y, c, m', r⟩ hi ⟨h0, h1, h2, h3, h4, h5, h6, h7⟩
    dsimp only at h0 h1 h2 h3 h4 h5 h6 h7
    subst h0 h1 h2
    have hl : (BitVec.ofNat 64 i).slt (BitVec.ofNat 64 n) = true := by
      rw [slt_ofNat (by omega) (by omega), decide_eq_true_eq]; exact hi
    have l0 := loadN_over (R := R) 1 hA (by omega) sA (addr4 a i)
    have l1 := loadN_over (R := R) 1 hB (by omega) sB (addr4 b i)
    have l2 := loadN_over (R := R) 1 hO (by omega) sO (addr4 out i)
    iterate 9 asm1 [e4, h3, h4, h5, h6, h7, hl, l0, l1, l2, zext_lo]
    refine Wp.step rfl ?_
    simp only [exec, ea, Function.update_apply, reduceCtorEq, Nat.reduceEqDiff, one_ne_zero, zero_ne_one, if_true, if_false,
      h3, h4, h5, h6, h7]
    refine wpO_map (storeN_over 1 hO.1 (by omega) (by omega) hO.mapped (addr4 out i) ?_) ?_
    · intro l; rw [show l = 0 from Subsingleton.elim _ _]; simp [hR, zext_lo, BitVec.mul_comm]
    simp only [St.next]
    iterate 1 asm1 [h3, h4, h5, h6, h7]
    refine .refl ?_
    simp [h3, h4, h5, h6, h7, BitVec.ofNat_add]
  · rintro ⟨pc, g, y, c, m', r⟩ ⟨h0, h1, h2, h3, h4, h5, h6, h7⟩
    dsimp only at h0 h1 h2 h3 h4 h5 h6 h7
    subst h0 h1 h2
    have hl : (BitVec.ofNat 64 n).slt (BitVec.ofNat 64 n) = false := by
      rw [slt_ofNat (by omega) (by omega)]; simp
    iterate 3 asm1 [h3, h4, h5, h6, h7, hl, Bool.false_eq_true]
    refine Wp.step rfl ?_
    simp only [exec, wpO_some]
    refine .refl ⟨rfl, ?_⟩
    simp only

theorem mulToUint64AVX2_spec {F : Fpu} {out a b : BitVec 64} {n c1 c2 c3 : Nat} (hn : n < 2 ^ 60)
    (g : Reg → BitVec 64) (y : Nat → Y) (m : Memory) {O A B : Nat → BitVec 64}
    (hO : Holds m out (dw O) (2 * n)) (hA : Holds m a (dw A) (2 * n)) (hB : Holds m b (dw B) (2 * n))
    (sA : Ahead a out (2 * n)) (sB : Ahead b out (2 * n)) :
    Returns F mulToUint64AVX2 (sliceArg out n c1 ++ sliceArg a n c2 ++ sliceArg b n c3) (entry g y m)
      (over m out (dw (fun i => A i * B i)) (2 * n)) := by
  have e1 : target mulToUint64AVX2 .loop_end = 22 := by decide
  have e2 : target mulToUint64AVX2 .loop_body = 10 := by decide
  have e3 : target mulToUint64AVX2 .leftover_loop_end = 32 := by decide
  have e4 : target mulToUint64AVX2 .leftover_loop_body = 26 := by decide
  have sO : Ahead out out (2 * n) := ahead_self out (by omega)
  generalize hR : (fun i => A i * B i) = R
  replace hR : ∀ i, R i = A i * B i := fun i => by rw [← hR]
  refine two_loops (V := 4) (n := n)
    (I1 := fun i s =>
    s.pc = 22 ∧ s.ret = false ∧ s.mem = over m out (dw R) (2 * i) ∧ s.gpr .DI = BitVec.ofNat 64 i ∧
      s.gpr .AX = out ∧ s.gpr .CX = a ∧ s.gpr .DX = b ∧ s.gpr .BX = BitVec.ofNat 64 n ∧
      s.ymm 0 = (ofQ fun _ => 0xffffffff00000000#64) ∧ s.gpr .SI = BitVec.ofNat 64 (n / 4 * 4))
    (I2 := fun i s =>
    s.pc = 32 ∧ s.ret = false ∧ s.mem = over m out (dw R) (2 * i) ∧ s.gpr .DI = BitVec.ofNat 64 i ∧
      s.gpr .AX = out ∧ s.gpr .CX = a ∧ s.gpr .DX = b ∧ s.gpr .BX = BitVec.ofNat 64 n)
    ?_ ?_ ?_ ?_ ?_
  · unfold entry
    have a0 : arg64 (sliceArg out n c1 ++ sliceArg a n c2 ++ sliceArg b n c3) 0 =
        some (out) := by
      simp [arg64, arg32, sliceArg, word64, join_split, join_ofNat]
    have a1 : arg64 (sliceArg out n c1 ++ sliceArg a n c2 ++ sliceArg b n c3) 24 =
        some (a) := by
      simp [arg64, arg32, sliceArg, word64, join_split, join_ofNat]
    have a2 : arg64 (sliceArg out n c1 ++ sliceArg a n c2 ++ sliceArg b n c3) 8 =
        some (BitVec.ofNat 64 n) := by
      simp [arg64, arg32, sliceArg, word64, join_split, join_ofNat]
    have a3 : arg64 (sliceArg out n c1 ++ sliceArg a n c2 ++ sliceArg b n c3) 48 =
        some (b) := by
      simp [arg64, arg32, sliceArg, word64, join_split, join_ofNat]
    iterate 10 asm1 [a0, a1, a2, a3, e1]
    refine .refl ?_
    simp [over_zero, shr_ofNat (show n < 2 ^ 64 by omega), shl_ofNat]
  · rintro k ⟨pc, g, y, c, m', r⟩ hk ⟨h0, h1, h2, h3, h4, h5, h6, h7, h8, h9⟩
    dsimp only at h0 h1 h2 h3 h4 h5 h6 h7 h8 h9
    subst h0 h1 h2
    have hkn : k * 4 + 4 ≤ n := by
      have := Nat.div_mul_le_self n 4; nlinarith
    have hl : (BitVec.ofNat 64 (k * 4)).slt (BitVec.ofNat 64 (n / 4 * 4)) = true := by
      rw [slt_ofNat (by omega) (toNat_n hn 4), decide_eq_true_eq]; nlinarith
    have l0 := loadN_over64 (R := R) hA hkn sA (addr8 a (k * 4))
    have l1 := loadN_over64 (R := R) hB hkn sB (addr8 b (k * 4))
    iterate 13 asm1 [e1, e2, h3, h4, h5, h6, h7, h8, h9, hl, l0, l1,
      VOp.eval, VImm.eval, mapQ_ofQ, mulld_ofQ, and_ofQ, shuf_ofQ, qw_ofQ]
    refine Wp.step rfl ?_
    simp only [exec, ea, Function.update_apply, reduceCtorEq, Nat.reduceEqDiff, one_ne_zero, zero_ne_one, if_true, if_false,
      h3, h4, h5, h6, h7, h8, h9]
    refine wpO_map (storeN_over64 hO hkn hn (addr8 out (k * 4)) ?_) ?_
    · refine congrArg ofQ (funext fun q => ?_)
      have := mul_words (B (k * 4 + q.val)) (A (k * 4 + q.val))
      simp only [lo_join, hi_join, qw_ofQ]
      rw [hR]
      exact this.trans (BitVec.mul_comm _ _)
    simp only [St.next]
    iterate 1 asm1 [h3, h4, h5, h6, h7, h8, h9]
    refine .refl ?_
    simp [h3, h4, h5, h6, h7, h8, h9, BitVec.ofNat_add]
  · rintro ⟨pc, g, y, c, m', r⟩ ⟨h0, h1, h2, h3, h4, h5, h6, h7, h8, h9⟩
    dsimp only at h0 h1 h2 h3 h4 h5 h6 h7 h8 h9
    subst h0 h1 h2
    have hl : (BitVec.ofNat 64 (n / 4 * 4)).slt (BitVec.ofNat 64 (n / 4 * 4)) = false := by
      rw [slt_ofNat (toNat_n hn 4) (toNat_n hn 4)]; simp
    iterate 4 asm1 [e3, h3, h4, h5, h6, h7, h8, h9, hl, Bool.false_eq_true]
    refine .refl ?_
    simp [h3, h4, h5, h6, h7, h8, h9]
  · rintro i ⟨pc, g, y, c, m', r⟩ hi ⟨h0, h1, h2, h3, h4, h5, h6, h7⟩
    dsimp only at h0 h1 h2 h3 h4 h5 h6 h7
    subst h0 h1 h2
    have hl : (BitVec.ofNat 64 i).slt (BitVec.ofNat 64 n) = true := by
      rw [slt_ofNat (by omega) (by omega), decide_eq_true_eq]; exact hi
    have l0 := loadN_over64' (R := R) hA hi sA (addr8 a i)
    have l1 := loadN_over64' (R := R) hB hi sB (addr8 b i)
    iterate 7 asm1 [e4, h3, h4, h5, h6, h7, hl, l0, l1, join2_split2]
    refine Wp.step rfl ?_
    simp only [exec, ea, Function.update_apply, reduceCtorEq, Nat.reduceEqDiff, one_ne_zero, zero_ne_one, if_true, if_false,
      h3, h4, h5, h6, h7]
    refine wpO_map (storeN_over64' hO hi hn (addr8 out i) ?_) ?_
    · simp [hR, BitVec.mul_comm]
    simp only [St.next]
    iterate 1 asm1 [h3, h4, h5, h6, h7]
    refine .refl ?_
    simp [h3, h4, h5, h6, h7, BitVec.ofNat_add]
  · rintro ⟨pc, g, y, c, m', r⟩ ⟨h0, h1, h2, h3, h4, h5, h6, h7⟩
    dsimp only at h0 h1 h2 h3 h4 h5 h6 h7
    subst h0 h1 h2
    have hl : (BitVec.ofNat 64 n).slt (BitVec.ofNat 64 n) = false := by
      rw [slt_ofNat (by omega) (by omega)]; simp
    iterate 3 asm1 [h3, h4, h5, h6, h7, hl, Bool.false_eq_true]
    refine Wp.step rfl ?_
    simp only [exec, wpO_some]
    refine .refl ⟨rfl, ?_⟩
    simp only

theorem mulAddToUint64AVX2_spec {F : Fpu} {out a b : BitVec 64} {n c1 c2 c3 : Nat} (hn : n < 2 ^ 60)
    (g : Reg → BitVec 64) (y : Nat → Y) (m : Memory) {O A B : Nat → BitVec 64}
    (hO : Holds m out (dw O) (2 * n)) (hA : Holds m a (dw A) (2 * n)) (hB : Holds m b (dw B) (2 * n))
    (sA : Ahead a out (2 * n)) (sB : Ahead b out (2 * n)) :
    Returns F mulAddToUint64AVX2 (sliceArg out n c1 ++ sliceArg a n c2 ++ sliceArg b n c3) (entry g y m)
      (over m out (dw (fun i => O i + A i * B i)) (2 * n)) := by
  have e1 : target mulAddToUint64AVX2 .loop_end = 24 := by decide
  have e2 : target mulAddToUint64AVX2 .loop_body = 10 := by decide
  have e3 : target mulAddToUint64AVX2 .leftover_loop_end = 36 := by decide
  have e4 : target mulAddToUint64AVX2 .leftover_loop_body = 28 := by decide
  have sO : Ahead out out (2 * n) := ahead_self out (by omega)
  generalize hR : (fun i => O i + A i * B i) = R
  replace hR : ∀ i, R i = O i + A i * B i := fun i => by rw [← hR]
  refine two_loops (V := 4) (n := n)
    (I1 := fun i s =>
    s.pc = 24 ∧ s.ret = false ∧ s.mem = over m out (dw R) (2 * i) ∧ s.gpr .DI = BitVec.ofNat 64 i ∧
      s.gpr .AX = out ∧ s.gpr .CX = a ∧ s.gpr .DX = b ∧ s.gpr .BX = BitVec.ofNat 64 n ∧
      s.ymm 0 = (ofQ fun _ => 0xffffffff00000000#64) ∧ s.gpr .SI = BitVec.ofNat 64 (n / 4 * 4))
    (I2 := fun i s =>
    s.pc = 36 ∧ s.ret = false ∧ s.mem = over m out (dw R) (2 * i) ∧ s.gpr .DI = BitVec.ofNat 64 i ∧
      s.gpr .AX = out ∧ s.gpr .CX = a ∧ s.gpr .DX = b ∧ s.gpr .BX = BitVec.ofNat 64 n)
    ?_ ?_ ?_ ?_ ?_
  · unfold entry
    have a0 : arg64 (sliceArg out n c1 ++ sliceArg a n c2 ++ sliceArg b n c3) 0 =
        some (out) := by
      simp [arg64, arg32, sliceArg, word64, join_split, join_ofNat]
    have a1 : arg64 (sliceArg out n c1 ++ sliceArg a n c2 ++ sliceArg b n c3) 24 =
        some (a) := by
      simp [arg64, arg32, sliceArg, word64, join_split, join_ofNat]
    have a2 : arg64 (sliceArg out n c1 ++ sliceArg a n c2 ++ sliceArg b n c3) 8 =
        some (BitVec.ofNat 64 n) := by
      simp [arg64, arg32, sliceArg, word64, join_split, join_ofNat]
    have a3 : arg64 (sliceArg out n c1 ++ sliceArg a n c2 ++ sliceArg b n c3) 48 =
        some (b) := by
      simp [arg64, arg32, sliceArg, word64, join_split, join_ofNat]
    iterate 10 asm1 [a0, a1, a2, a3, e1]
    refine .refl ?_
    simp [over_zero, shr_ofNat (show n < 2 ^ 64 by omega), shl_ofNat]
  · rintro k ⟨pc, g, y, c, m', r⟩ hk ⟨h0, h1, h2, h3, h4, h5, h6, h7, h8, h9⟩
    dsimp only at h0 h1 h2 h3 h4 h5 h6 h7 h8 h9
    subst h0 h1 h2
    have hkn : k * 4 + 4 ≤ n := by
      have := Nat.div_mul_le_self n 4; nlinarith
    have hl : (BitVec.ofNat 64 (k * 4)).slt (BitVec.ofNat 64 (n / 4 * 4)) = true := by
      rw [slt_ofNat (by omega) (toNat_n hn 4), decide_eq_true_eq]; nlinarith
    have l0 := loadN_over64 (R := R) hA hkn sA (addr8 a (k * 4))
    have l1 := loadN_over64 (R := R) hB hkn sB (addr8 b (k * 4))
    have l2 := loadN_over64 (R := R) hO hkn sO (addr8 out (k * 4))
    iterate 15 asm1 [e1, e2, h3, h4, h5, h6, h7, h8, h9, hl, l0, l1, l2,
      VOp.eval, VImm.eval, mapQ_ofQ, mulld_ofQ, and_ofQ, shuf_ofQ, qw_ofQ]
    refine Wp.step rfl ?_
    simp only [exec, ea, Function.update_apply, reduceCtorEq, Nat.reduceEqDiff, one_ne_zero, zero_ne_one, if_true, if_false,
      h3, h4, h5, h6, h7, h8, h9]
    refine wpO_map (storeN_over64 hO hkn hn (addr8 out (k * 4)) ?_) ?_
    · refine congrArg ofQ (funext fun q => ?_)
      have := mul_words (B (k * 4 + q.val)) (A (k * 4 + q.val))
      simp only [lo_join, hi_join, qw_ofQ]
      rw [hR]
      congr 1
      exact this.trans (BitVec.mul_comm _ _)
    simp only [St.next]
    iterate 1 asm1 [h3, h4, h5, h6, h7, h8, h9]
    refine .refl ?_
    simp [h3, h4, h5, h6, h7, h8, h9, BitVec.ofNat_add]
  · rintro ⟨pc, g, y, c, m', r⟩ ⟨h0, h1, h2, h3, h4, h5, h6, h7, h8, h9⟩
    dsimp only at h0 h1 h2 h3 h4 h5 h6 h7 h8 h9
    subst h0 h1 h2
    have hl : (BitVec.ofNat 64 (n / 4 * 4)).slt (BitVec.ofNat 64 (n / 4 * 4)) = false := by
      rw [slt_ofNat (toNat_n hn 4) (toNat_n hn 4)]; simp
    iterate 4 asm1 [e3, h3, h4, h5, h6, h7, h8, h9, hl, Bool.false_eq_true]
    refine .refl ?_
    simp [h3, h4, h5, h6, h7, h8, h9]
  · rintro i ⟨pc, g, y, c, m', r⟩ hi ⟨h0, h1, h2, h3, h4, h5, h6, h7⟩
    dsimp only at h0 h1 h2 h3 h4 h5 h6 h7
    subst h0 h1 h2
    have hl : (BitVec.ofNat 64 i).slt (BitVec.ofNat 64 n) = true := by
      rw [slt_ofNat (by omega) (by omega), decide_eq_true_eq]; exact hi
    have l0 := loadN_over64' (R := R) hA hi sA (addr8 a i)
    have l1 := loadN_over64' (R := R) hB hi sB (addr8 b i)
    have l2 := loadN_over64' (R := R) hO hi sO (addr8 out i)
    iterate 9 asm1 [e4, h3, h4, h5, h6, h7, hl, l0, l1, l2, join2_split2]
    refine Wp.step rfl ?_
    simp only [exec, ea, Function.update_apply, reduceCtorEq, Nat.reduceEqDiff, one_ne_zero, zero_ne_one, if_true, if_false,
      h3, h4, h5, h6, h7]
    refine wpO_map (storeN_over64' hO hi hn (addr8 out i) ?_) ?_
    · simp [hR, BitVec.mul_comm]
    simp only [St.next]
    iterate 1 asm1 [h3, h4, h5, h6, h7]
    refine .refl ?_
    simp [h3, h4, h5, h6, h7, BitVec.ofNat_add]
  · rintro ⟨pc, g, y, c, m', r⟩ ⟨h0, h1, h2, h3, h4, h5, h6, h7⟩
    dsimp only at h0 h1 h2 h3 h4 h5 h6 h7
    subst h0 h1 h2
    have hl : (BitVec.ofNat 64 n).slt (BitVec.ofNat 64 n) = false := by
      rw [slt_ofNat (by omega) (by omega)]; simp
    iterate 3 asm1 [h3, h4, h5, h6, h7, hl, Bool.false_eq_true]
    refine Wp.step rfl ?_
    simp only [exec, wpO_some]
    refine .refl ⟨rfl, ?_⟩
    simp only

theorem mulSubToUint64AVX2_spec {F : Fpu} {out a b : BitVec 64} {n c1 c2 c3 : Nat} (hn : n < 2 ^ 60)
    (g : Reg → BitVec 64) (y : Nat → Y) (m : Memory) {O A B : Nat → BitVec 64}
    (hO : Holds m out (dw O) (2 * n)) (hA : Holds m a (dw A) (2 * n)) (hB : Holds m b (dw B) (2 * n))
    (sA : Ahead a out (2 * n)) (sB : Ahead b out (2 * n)) :
    Returns F mulSubToUint64AVX2 (sliceArg out n c1 ++ sliceArg a n c2 ++ sliceArg b n c3) (entry g y m)
      (over m out (dw (fun i => O i - A i * B i)) (2 * n)) := by
  have e1 : target mulSubToUint64AVX2 .loop_end = 24 := by decide
  have e2 : target mulSubToUint64AVX2 .loop_body = 10 := by decide
  have e3 : target mulSubToUint64AVX2 .leftover_loop_end = 36 := by decide
  have e4 : target mulSubToUint64AVX2 .leftover_loop_body = 28 := by decide
  have sO : Ahead out out (2 * n) := ahead_self out (by omega)
  generalize hR : (fun i => O i - A i * B i) = R
  replace hR : ∀ i, R i = O i - A i * B i := fun i => by rw [← hR]
  refine two_loops (V := 4) (n := n)
    (I1 := fun i s =>
    s.pc = 24 ∧ s.ret = false ∧ s.mem = over m out (dw R) (2 * i) ∧ s.gpr .DI = BitVec.ofNat 64 i ∧
      s.gpr .AX = out ∧ s.gpr .CX = a ∧ s.gpr .DX = b ∧ s.gpr .BX = BitVec.ofNat 64 n ∧
      s.ymm 0 = (ofQ fun _ => 0xffffffff00000000#64) ∧ s.gpr .SI = BitVec.ofNat 64 (n / 4 * 4))
    (I2 := fun i s =>
    s.pc = 36 ∧ s.ret = false ∧ s.mem = over m out (dw R) (2 * i) ∧ s.gpr .DI = BitVec.ofNat 64 i ∧
      s.gpr .AX = out ∧ s.gpr .CX = a ∧ s.gpr .DX = b ∧ s.gpr .BX = BitVec.ofNat 64 n)
    ?_ ?_ ?_ ?_ ?_
  · unfold entry
    have a0 : arg64 (sliceArg out n c1 ++ sliceArg a n c2 ++ sliceArg b n c3) 0 =
        some (out) := by
      simp [arg64, arg32, sliceArg, word64, join_split, join_ofNat]
    have a1 : arg64 (sliceArg out n c1 ++ sliceArg a n c2 ++ sliceArg b n c3) 24 =
        some (a) := by
      simp [arg64, arg32, sliceArg, word64, join_split, join_ofNat]
    have a2 : arg64 (sliceArg out n c1 ++ sliceArg a n c2 ++ sliceArg b n c3) 8 =
        some (BitVec.ofNat 64 n) := by
      simp [arg64, arg32, sliceArg, word64, join_split, join_ofNat]
    have a3 : arg64 (sliceArg out n c1 ++ sliceArg a n c2 ++ sliceArg b n c3) 48 =
        some (b) := by
      simp [arg64, arg32, sliceArg, word64, join_split, join_ofNat]
    iterate 10 asm1 [a0, a1, a2, a3, e1]
    refine .refl ?_
    simp [over_zero, shr_ofNat (show n < 2 ^ 64 by omega), shl_ofNat]
  · rintro k ⟨pc, g, y, c, m', r⟩ hk ⟨h0, h1, h2, h3, h4, h5, h6, h7, h8, h9⟩
    dsimp only at h0 h1 h2 h3 h4 h5 h6 h7 h8 h9
    subst h0 h1 h2
    have hkn : k * 4 + 4 ≤ n := by
      have := Nat.div_mul_le_self n 4; nlinarith
    have hl : (BitVec.ofNat 64 (k * 4)).slt (BitVec.ofNat 64 (n / 4 * 4)) = true := by
      rw [slt_ofNat (by omega) (toNat_n hn 4), decide_eq_true_eq]; nlinarith
    have l0 := loadN_over64 (R := R) hA hkn sA (addr8 a (k * 4))
    have l1 := loadN_over64 (R := R) hB hkn sB (addr8 b (k * 4))
    have l2 := loadN_over64 (R := R) hO hkn sO (addr8 out (k * 4))
    iterate 15 asm1 [e1, e2, h3, h4, h5, h6, h7, h8, h9, hl, l0, l1, l2,
      VOp.eval, VImm.eval, mapQ_ofQ, mulld_ofQ, and_ofQ, shuf_ofQ, qw_ofQ]
    refine Wp.step rfl ?_
    simp only [exec, ea, Function.update_apply, reduceCtorEq, Nat.reduceEqDiff, one_ne_zero, zero_ne_one, if_true, if_false,
      h3, h4, h5, h6, h7, h8, h9]
    refine wpO_map (storeN_over64 hO hkn hn (addr8 out (k * 4)) ?_) ?_
    · refine congrArg ofQ (funext fun q => ?_)
      have := mul_words (B (k * 4 + q.val)) (A (k * 4 + q.val))
      simp only [lo_join, hi_join, qw_ofQ]
      rw [hR]
      congr 1
      exact this.trans (BitVec.mul_comm _ _)
    simp only [St.next]
    iterate 1 asm1 [h3, h4, h5, h6, h7, h8, h9]
    refine .refl ?_
    simp [h3, h4, h5, h6, h7, h8, h9, BitVec.ofNat_add]
  · rintro ⟨pc, g, y, c, m', r⟩ ⟨h0, h1, h2, h3, h4, h5, h6, h7, h8, h9⟩
    dsimp only at h0 h1 h2 h3 h4 h5 h6 h7 h8 h9
    subst h0 h1 h2
    have hl : (BitVec.ofNat 64 (n / 4 * 4)).slt (BitVec.ofNat 64 (n / 4 * 4)) = false := by
      rw [slt_ofNat (toNat_n hn 4) (toNat_n hn 4)]; simp
    iterate 4 asm1 [e3, h3, h4, h5, h6, h7, h8, h9, hl, Bool.false_eq_true]
    refine .refl ?_
    simp [h3, h4, h5, h6, h7, h8, h9]
  · rintro i ⟨pc, g, y, c, m', r⟩ hi ⟨h0, h1, h2, h3, h4, h5, h6, h7⟩
    dsimp only at h0 h1 h2 h3 h4 h5 h6 h7
    subst h0 h1 h2
    have hl : (BitVec.ofNat 64 i).slt (BitVec.ofNat 64 n) = true := by
      rw [slt_ofNat (by omega) (by omega), decide_eq_true_eq]; exact hi
    have l0 := loadN_over64' (R := R) hA hi sA (addr8 a i)
    have l1 := loadN_over64' (R := R) hB hi sB (addr8 b i)
    have l2 := loadN_over64' (R := R) hO hi sO (addr8 out i)
    iterate 9 asm1 [e4, h3, h4, h5, h6, h7, hl, l0, l1, l2, join2_split2]
    refine Wp.step rfl ?_
    simp only [exec, ea, Function.update_apply, reduceCtorEq, Nat.reduceEqDiff, one_ne_zero, zero_ne_one, if_true, if_false,
      h3, h4, h5, h6, h7]
    refine wpO_map (storeN_over64' hO hi hn (addr8 out i) ?_) ?_
    · simp [hR, BitVec.mul_comm]
    simp only [St.next]
    iterate 1 asm1 [h3, h4, h5, h6, h7]
    refine .refl ?_
    simp [h3, h4, h5, h6, h7, BitVec.ofNat_add]
  · rintro ⟨pc, g, y, c, m', r⟩ ⟨h0, h1, h2, h3, h4, h5, h6, h7⟩
    dsimp only at h0 h1 h2 h3 h4 h5 h6 h7
    subst h0 h1 h2
    have hl : (BitVec.ofNat 64 n).slt (BitVec.ofNat 64 n) = false := by
      rw [slt_ofNat (by omega) (by omega)]; simp
    iterate 3 asm1 [h3, h4, h5, h6, h7, hl, Bool.false_eq_true]
    refine Wp.step rfl ?_
    simp only [exec, wpO_some]
    refine .refl ⟨rfl, ?_⟩
    simp only

end Asm
end Tfhe

