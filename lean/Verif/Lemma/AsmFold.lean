import Verif.Lemma.AsmInPlace
import Verif.Model.AsmFold

/-!
# What the programs of `math/poly/asm_fold_amd64.s` do to memory
-/
set_option linter.unusedSimpArgs false

namespace Tfhe
namespace Asm

/-! ### Lanes -/

theorem or_ofQ (f g : Fin 4 → BitVec 64) :
    (fun l => ofQ g l ||| ofQ f l) = ofQ fun k => g k ||| f k := by
  apply qw_ext
  intro k
  rw [qw_ofQ]
  unfold qw
  simp only [ofQ_even, ofQ_odd]
  rw [← join_split (g k ||| f k)]
  congr 1
  · rw [BitVec.ushiftRight_or_distrib]
    exact (BitVec.setWidth_or (x := g k >>> 32) (y := f k >>> 32)).symm
  · exact (BitVec.setWidth_or (x := g k) (y := f k)).symm

theorem xor_ofQ (f g : Fin 4 → BitVec 64) :
    (fun l => ofQ g l ^^^ ofQ f l) = ofQ fun k => g k ^^^ f k := by
  apply qw_ext
  intro k
  rw [qw_ofQ]
  unfold qw
  simp only [ofQ_even, ofQ_odd]
  rw [← join_split (g k ^^^ f k)]
  congr 1
  · rw [BitVec.ushiftRight_xor_distrib]
    exact (BitVec.setWidth_xor (x := g k >>> 32) (y := f k >>> 32)).symm
  · exact (BitVec.setWidth_xor (x := g k) (y := f k)).symm

/-- Low words of one register, high words of another. -/
theorem blendd_ofQ (f g : Fin 4 → BitVec 64) :
    (fun l : Fin 8 => if 85 / 2 ^ l.val % 2 = 1 then ofQ f l else ofQ g l) = ofQ fun k => join (hi (g k)) (lo (f k)) := by
  have e (l : Fin 8) : 85 / 2 ^ l.val % 2 = 1 ↔ l.val % 2 = 0 := by fin_cases l <;> decide
  funext l
  simp only [e]
  unfold ofQ
  by_cases h : l.val % 2 = 0
  · simp only [h, if_true]; exact (lo_join _ _).symm
  · simp only [h, if_false]; exact (hi_join _ _).symm

theorem xor_self_Y (f : Y) : (fun l => f l ^^^ f l) = ofQ fun _ => 0#64 := by
  rw [← zero_ofQ]; funext l; exact BitVec.xor_self

/-- The mask of the sign. -/
theorem blendvb_sign (x a b : Fin 4 → BitVec 64) :
    blendvb (ofQ fun k => 0#64 - x k >>> 63) (ofQ a) (ofQ b) = ofQ fun k => if (x k).msb then a k else b k := by
  unfold blendvb
  congr 1
  funext k
  simp only [qw_ofQ]
  have h : x k >>> 63 = if (x k).msb then 1#64 else 0#64 := by
    apply BitVec.eq_of_toNat_eq
    rw [BitVec.toNat_ushiftRight, BitVec.msb_eq_decide]
    have := (x k).isLt
    rw [Nat.shiftRight_eq_div_pow]
    by_cases h : 2 ^ 63 ≤ (x k).toNat
    · have e : (x k).toNat / 2 ^ 63 = 1 := by omega
      rw [e, decide_eq_true (by exact h)]; rfl
    · have e : (x k).toNat / 2 ^ 63 = 0 := by omega
      rw [e, decide_eq_false (by exact h)]; rfl
  rw [h]
  cases (x k).msb
  · have e : (List.range 8).foldl (fun r i => if (0#64 - (if false = true then 1#64 else 0#64)).getLsbD (8 * i + 7) then
      r ||| ((255#64) <<< (8 * i)) else r) 0 = 0#64 := by decide
    rw [e]; simpa using BitVec.and_allOnes (x := b k)
  · have e : (List.range 8).foldl (fun r i => if (0#64 - (if true = true then 1#64 else 0#64)).getLsbD (8 * i + 7) then
      r ||| ((255#64) <<< (8 * i)) else r) 0 = BitVec.allOnes 64 := by decide
    rw [e]; simpa using BitVec.and_allOnes (x := a k)

/-! ### Conversions -/

/-- The instructions that convert a signed 64-bit integer. -/
def cvtI64 (F : Fpu) (x : BitVec 64) : BitVec 64 :=
  F.add (join (hi EXP2_52) (lo x)) (F.sub (x >>> 32 ^^^ EXP2_84_63) EXP2_84_63_52)

/-- The instructions that convert to a signed 64-bit integer. -/
def truncI64 (x : BitVec 64) : BitVec 64 :=
  let t := ((x &&& 0x000fffffffffffff#64 ||| 0x0010000000000000#64) <<< 11) >>> (0x43e#64 - (x >>> 52 &&& 0x7ff#64)).toNat
  if x.msb then 0#64 - t else t

/-- The instructions that reduce modulo `q`. -/
def redF (F : Fpu) (q qInv x : BitVec 64) : BitVec 64 :=
  F.rne (F.mul (F.sub (F.mul x qInv) (F.rne (F.mul x qInv))) q)

/-! ### Arrays that are written in two halves -/

/-- Position of coefficient `i` in the transform of `2 h` coefficients. -/
def foldPos (h i : Nat) : Nat := if i < h then 8 * (i / 4) + i % 4 else 8 * ((i - h) / 4) + (i - h) % 4 + 4

/-- Coefficient at position `i` of the transform. -/
def unfoldPos (h i : Nat) : Nat := if i % 8 < 4 then 4 * (i / 8) + i % 8 else h + 4 * (i / 8) + (i % 8 - 4)

/-- The first `8 k` elements replaced. -/
def foldSt {α : Type} (R O : Nat → α) (k i : Nat) : α := if i < 8 * k then R i else O i

/-- The first `4 k` elements of both halves replaced. -/
def unfoldSt {α : Type} (h : Nat) (R O : Nat → α) (k i : Nat) : α :=
  if i < 4 * k ∨ h ≤ i ∧ i < h + 4 * k then R i else O i

/-- `x` with `f 0, …, f (c-1)` at `j`. -/
def updW (c : Nat) (x : Nat → BitVec 32) (j : Nat) (f : Nat → BitVec 32) : Nat → BitVec 32 := fun i =>
  if j ≤ i ∧ i < j + c then f (i - j) else x i

theorem store4w {m : Memory} {b a : BitVec 64} {x : Nat → BitVec 32} {n : Nat} (j : Nat) {v : Fin 4 → BitVec 32}
    {f : Nat → BitVec 32} (hb : b.toNat % 4 = 0) (hj : j + 4 ≤ n) (hn : 4 * n ≤ 2 ^ 64)
    (ha : a = b + BitVec.ofNat 64 (4 * j)) (hv : ∀ l : Fin 4, v l = f l.val) :
    storeN 4 (over m b x n) a v = some (over m b (updW 4 x j f) n) := by
  refine storeN_in 4 j hb hj hn ha (fun l => ?_) fun i hi => ?_
  · have hl := l.isLt
    have : j ≤ j + l.val ∧ j + l.val < j + 4 := by omega
    rw [hv, updW, if_pos this, Nat.add_sub_cancel_left]
  · have : ¬ (j ≤ i ∧ i < j + 4) := by omega
    rw [updW, if_neg this]

theorem foldSt_succ (R O : Nat → BitVec 64) (k : Nat) :
    updN 4 (updN 4 (foldSt R O k) (8 * k) fun l => R (8 * k + l)) (8 * k + 4) (fun l => R (8 * k + 4 + l)) =
      foldSt R O (k + 1) := by
  funext i
  unfold updN foldSt
  dsimp only
  split_ifs <;> first | rfl | (congr 1; omega)

theorem unfoldSt_succ (h : Nat) (R O : Nat → BitVec 64) (k : Nat) (hk : 4 * k + 4 ≤ h) :
    updN 4 (updN 4 (unfoldSt h R O k) (4 * k) fun l => R (4 * k + l)) (h + 4 * k) (fun l => R (h + 4 * k + l)) =
      unfoldSt h R O (k + 1) := by
  funext i
  unfold updN unfoldSt
  dsimp only
  split_ifs <;> first | rfl | (congr 1; omega)

theorem unfoldSt_succ32 (h : Nat) (R O : Nat → BitVec 32) (k : Nat) (hk : 4 * k + 4 ≤ h) :
    updW 4 (updW 4 (unfoldSt h R O k) (4 * k) fun l => R (4 * k + l)) (h + 4 * k) (fun l => R (h + 4 * k + l)) =
      unfoldSt h R O (k + 1) := by
  funext i
  unfold updW unfoldSt
  dsimp only
  split_ifs <;> first | rfl | (congr 1; omega)

theorem over_congr_n {m : Memory} {b : BitVec 64} {R R' : Nat → BitVec 32} {n : Nat} (h : ∀ i < n, R i = R' i)
    (hn : 4 * n ≤ 2 ^ 64) : over m b R n = over m b R' n := by
  funext a
  by_cases ha : ∃ i < n, a = b + BitVec.ofNat 64 (4 * i)
  · obtain ⟨i, hi, rfl⟩ := ha
    rw [over_at hi hn, over_at hi hn, h i hi]
  · push Not at ha
    rw [over_off ha, over_off ha]

theorem over_self_n {m : Memory} {b : BitVec 64} {R : Nat → BitVec 32} {n : Nat} (h : Holds m b R n)
    (hn : 4 * n ≤ 2 ^ 64) : over m b R n = m := by
  funext a
  by_cases ha : ∃ i < n, a = b + BitVec.ofNat 64 (4 * i)
  · obtain ⟨i, hi, rfl⟩ := ha
    rw [over_at hi hn, h.2 i hi]
  · push Not at ha
    rw [over_off ha]

theorem dw_congr {A B : Nat → BitVec 64} {n : Nat} (h : ∀ i < n, A i = B i) : ∀ i < 2 * n, dw A i = dw B i := by
  intro i hi
  unfold dw
  rw [h _ (by omega)]

/-- Two slices without a common word. -/
def ApartW (a o : BitVec 64) (na no : Nat) : Prop :=
  ∀ i < na, ∀ j < no, a + BitVec.ofNat 64 (4 * i) ≠ o + BitVec.ofNat 64 (4 * j)


theorem foldPolyToUint32AVX2_spec {F : Fpu} {out a : BitVec 64} {K c1 c2 : Nat} (hn : 8 * K < 2 ^ 58)
    (g : Reg → BitVec 64) (y : Nat → Y) (m : Memory) {O : Nat → BitVec 64} {A : Nat → BitVec 32}
    (hO : Holds m out (dw O) (2 * (8 * K))) (hA : Holds m a A (8 * K)) (sA : ApartW a out (8 * K) (2 * (8 * K))) :
    Returns F foldPolyToUint32AVX2 (sliceArg out (8 * K) c1 ++ sliceArg a (8 * K) c2) (entry g y m)
      (over m out (dw fun i => F.ofI32 (A (unfoldPos (4 * K) i))) (2 * (8 * K))) := by
  have e1 : target foldPolyToUint32AVX2 .loop_end = 18 := by decide
  have e2 : target foldPolyToUint32AVX2 .loop_body = 8 := by decide
  have hb := hO.1
  generalize hR : (fun i => F.ofI32 (A (unfoldPos (4 * K) i))) = R
  have hR1 (k : Nat) (q : Fin 4) : R (8 * k + q.val) = F.ofI32 (A (4 * k + q.val)) := by
    have h1 : (8 * k + q.val) % 8 < 4 := by omega
    have h2 : 4 * ((8 * k + q.val) / 8) + (8 * k + q.val) % 8 = 4 * k + q.val := by omega
    rw [← hR]; simp only [unfoldPos, h1, h2, if_true]
  have hR2 (k : Nat) (q : Fin 4) : R (8 * k + 4 + q.val) = F.ofI32 (A (4 * K + 4 * k + q.val)) := by
    have h1 : ¬ (8 * k + 4 + q.val) % 8 < 4 := by omega
    have h2 : 4 * K + 4 * ((8 * k + 4 + q.val) / 8) + ((8 * k + 4 + q.val) % 8 - 4) = 4 * K + 4 * k + q.val := by omega
    rw [← hR]; simp only [unfoldPos, h1, h2, if_false]
  refine one_loop (V := 1) (K := K)
    (I1 := fun k s =>
      s.pc = 18 ∧ s.ret = false ∧ s.mem = over m out (dw (foldSt R O k)) (2 * (8 * K)) ∧ s.gpr .SI = BitVec.ofNat 64 (8 * k) ∧
      s.gpr .DI = BitVec.ofNat 64 (4 * k) ∧ s.gpr .BX = BitVec.ofNat 64 (4 * K + 4 * k) ∧
      s.gpr .AX = out ∧ s.gpr .CX = a ∧ s.gpr .DX = BitVec.ofNat 64 (8 * K))
    ?_ ?_ ?_
  · unfold entry
    have a0 : arg64 (sliceArg out (8 * K) c1 ++ sliceArg a (8 * K) c2) 0 =
        some (out) := by
      simp only [arg64, arg32, sliceArg, word64]
      simp [join_split, join_ofNat]
    have a1 : arg64 (sliceArg out (8 * K) c1 ++ sliceArg a (8 * K) c2) 24 =
        some (a) := by
      simp only [arg64, arg32, sliceArg, word64]
      simp [join_split, join_ofNat]
    have a2 : arg64 (sliceArg out (8 * K) c1 ++ sliceArg a (8 * K) c2) 8 =
        some (BitVec.ofNat 64 (8 * K)) := by
      simp only [arg64, arg32, sliceArg, word64]
      simp [join_split, join_ofNat]
    have hs : BitVec.ofNat 64 (8 * K) >>> 1 = BitVec.ofNat 64 (4 * K) := by
      rw [shr_ofNat (by omega)]; congr 1; omega
    have hf : foldSt R O 0 = O := by funext i; simp [foldSt]
    have hm : over m out (dw (foldSt R O 0)) (2 * (8 * K)) = m := by rw [hf]; exact over_self_n hO (by omega)
    iterate 8 asm1 [a0, a1, a2, hs, e1, VOp.eval]
    refine .refl ?_
    simp [hm]
  · rintro k ⟨pc, g, y, c', m', r⟩ hk ⟨h0, h1, h2, h3, h4, h5, h6, h7, h8⟩
    dsimp only at h0 h1 h2 h3 h4 h5 h6 h7 h8
    simp only [Nat.mul_one] at h3 h4 h5 h6 h7 h8 h2
    subst h0 h1 h2
    have hl : (BitVec.ofNat 64 (8 * k)).slt (BitVec.ofNat 64 (8 * K)) = true := by
      rw [slt_ofNat (by omega) (by omega), decide_eq_true_eq]; omega
    have l0 := loadN_out (W := dw (foldSt R O k)) (n := 2 * (8 * K)) 4 (4 * k) hA (by omega) sA (addr4 a (4 * k))
    have l1 := loadN_out (W := dw (foldSt R O k)) (n := 2 * (8 * K)) 4 (4 * K + 4 * k) hA (by omega) sA (addr4 a (4 * K + 4 * k))
    iterate 8 asm1 [e1, e2, h3, h4, h5, h6, h7, h8, hl, l0, l1, Fin.is_lt, dif_pos, dite_true]
    refine Wp.step rfl ?_
    simp only [exec, ea, Function.update_apply, reduceCtorEq, Nat.reduceEqDiff, one_ne_zero, zero_ne_one, if_true, if_false, h3, h4, h5, h6, h7, h8]
    refine wpO_map (store4 (N := 8 * K) (8 * k) (f := fun l => R (8 * k + l)) hb (by omega) (by omega) (addr8 out (8 * k)) ?_) ?_
    · refine congrArg ofQ (funext fun q => ?_); rw [hR1]
    simp only [St.next]
    refine Wp.step rfl ?_
    simp only [exec, ea, Function.update_apply, reduceCtorEq, Nat.reduceEqDiff, one_ne_zero, zero_ne_one, if_true, if_false, h3, h4, h5, h6, h7, h8]
    refine wpO_map (store4 (N := 8 * K) (8 * k + 4) (f := fun l => R (8 * k + 4 + l)) hb (by omega) (by omega) (addr8_32 out (8 * k)) ?_) ?_
    · refine congrArg ofQ (funext fun q => ?_); rw [hR2]
    simp only [St.next]
    iterate 3 asm1 [h3, h4, h5, h6, h7, h8]
    refine .refl ?_
    rw [foldSt_succ]
    simp [h3, h4, h5, h6, h7, h8, BitVec.ofNat_add, Nat.mul_add, BitVec.add_assoc]
  · rintro ⟨pc, g, y, c', m', r⟩ ⟨h0, h1, h2, h3, h4, h5, h6, h7, h8⟩
    dsimp only at h0 h1 h2 h3 h4 h5 h6 h7 h8
    simp only [Nat.mul_one] at h3 h4 h5 h6 h7 h8 h2
    subst h0 h1 h2
    have hl : (BitVec.ofNat 64 (8 * K)).slt (BitVec.ofNat 64 (8 * K)) = false := by
      rw [slt_ofNat (by omega) (by omega)]; simp
    iterate 3 asm1 [h3, h4, h5, h6, h7, h8, hl, Bool.false_eq_true]
    refine Wp.step rfl ?_
    simp only [exec, wpO_some]
    refine .refl ⟨rfl, ?_⟩
    simp only
    exact over_congr_n (dw_congr fun i hi => by simp [foldSt, hi]) (by omega)

theorem foldPolyToUint64AVX2_spec {F : Fpu} {out a : BitVec 64} {K c1 c2 : Nat} (hn : 8 * K < 2 ^ 58)
    (g : Reg → BitVec 64) (y : Nat → Y) (m : Memory) {O : Nat → BitVec 64} {A : Nat → BitVec 64}
    (hO : Holds m out (dw O) (2 * (8 * K))) (hA : Holds m a (dw A) (2 * (8 * K))) (sA : ApartW a out (2 * (8 * K)) (2 * (8 * K))) :
    Returns F foldPolyToUint64AVX2 (sliceArg out (8 * K) c1 ++ sliceArg a (8 * K) c2) (entry g y m)
      (over m out (dw fun i => cvtI64 F (A (unfoldPos (4 * K) i))) (2 * (8 * K))) := by
  have e1 : target foldPolyToUint64AVX2 .loop_end = 29 := by decide
  have e2 : target foldPolyToUint64AVX2 .loop_body = 11 := by decide
  have hb := hO.1
  generalize hR : (fun i => cvtI64 F (A (unfoldPos (4 * K) i))) = R
  have hR1 (k : Nat) (q : Fin 4) : R (8 * k + q.val) = cvtI64 F (A (4 * k + q.val)) := by
    have h1 : (8 * k + q.val) % 8 < 4 := by omega
    have h2 : 4 * ((8 * k + q.val) / 8) + (8 * k + q.val) % 8 = 4 * k + q.val := by omega
    rw [← hR]; simp only [unfoldPos, h1, h2, if_true]
  have hR2 (k : Nat) (q : Fin 4) : R (8 * k + 4 + q.val) = cvtI64 F (A (4 * K + 4 * k + q.val)) := by
    have h1 : ¬ (8 * k + 4 + q.val) % 8 < 4 := by omega
    have h2 : 4 * K + 4 * ((8 * k + 4 + q.val) / 8) + ((8 * k + 4 + q.val) % 8 - 4) = 4 * K + 4 * k + q.val := by omega
    rw [← hR]; simp only [unfoldPos, h1, h2, if_false]
  refine one_loop (V := 1) (K := K)
    (I1 := fun k s =>
      s.pc = 29 ∧ s.ret = false ∧ s.mem = over m out (dw (foldSt R O k)) (2 * (8 * K)) ∧ s.gpr .SI = BitVec.ofNat 64 (8 * k) ∧
      s.gpr .DI = BitVec.ofNat 64 (4 * k) ∧ s.gpr .BX = BitVec.ofNat 64 (4 * K + 4 * k) ∧
      s.gpr .AX = out ∧ s.gpr .CX = a ∧ s.gpr .DX = BitVec.ofNat 64 (8 * K) ∧
      s.ymm 0 = (ofQ fun _ => EXP2_52) ∧
      s.ymm 1 = (ofQ fun _ => EXP2_84_63) ∧
      s.ymm 2 = (ofQ fun _ => EXP2_84_63_52))
    ?_ ?_ ?_
  · unfold entry
    have a0 : arg64 (sliceArg out (8 * K) c1 ++ sliceArg a (8 * K) c2) 0 =
        some (out) := by
      simp only [arg64, arg32, sliceArg, word64]
      simp [join_split, join_ofNat]
    have a1 : arg64 (sliceArg out (8 * K) c1 ++ sliceArg a (8 * K) c2) 24 =
        some (a) := by
      simp only [arg64, arg32, sliceArg, word64]
      simp [join_split, join_ofNat]
    have a2 : arg64 (sliceArg out (8 * K) c1 ++ sliceArg a (8 * K) c2) 8 =
        some (BitVec.ofNat 64 (8 * K)) := by
      simp only [arg64, arg32, sliceArg, word64]
      simp [join_split, join_ofNat]
    have hs : BitVec.ofNat 64 (8 * K) >>> 1 = BitVec.ofNat 64 (4 * K) := by
      rw [shr_ofNat (by omega)]; congr 1; omega
    have hf : foldSt R O 0 = O := by funext i; simp [foldSt]
    have hm : over m out (dw (foldSt R O 0)) (2 * (8 * K)) = m := by rw [hf]; exact over_self_n hO (by omega)
    iterate 11 asm1 [a0, a1, a2, hs, e1, VOp.eval]
    refine .refl ?_
    simp [hm]
  · rintro k ⟨pc, g, y, c', m', r⟩ hk ⟨h0, h1, h2, h3, h4, h5, h6, h7, h8, h9, h10, h11⟩
    dsimp only at h0 h1 h2 h3 h4 h5 h6 h7 h8 h9 h10 h11
    simp only [Nat.mul_one] at h3 h4 h5 h6 h7 h8 h9 h10 h11 h2
    subst h0 h1 h2
    have hl : (BitVec.ofNat 64 (8 * k)).slt (BitVec.ofNat 64 (8 * K)) = true := by
      rw [slt_ofNat (by omega) (by omega), decide_eq_true_eq]; omega
    have l0 := loadN_out (W := dw (foldSt R O k)) (n := 2 * (8 * K)) 8 (2 * (4 * k)) hA (by omega) sA (addr8 a (4 * k))
    rw [dw_eq_ofQ] at l0
    have l1 := loadN_out (W := dw (foldSt R O k)) (n := 2 * (8 * K)) 8 (2 * (4 * K + 4 * k)) hA (by omega) sA (addr8 a (4 * K + 4 * k))
    rw [dw_eq_ofQ] at l1
    iterate 16 asm1 [e1, e2, h3, h4, h5, h6, h7, h8, h9, h10, h11, hl, l0, l1, VOp.eval, VImm.eval, mapQ_ofQ, qw_ofQ, xor_ofQ, blendd_ofQ]
    refine Wp.step rfl ?_
    simp only [exec, ea, Function.update_apply, reduceCtorEq, Nat.reduceEqDiff, one_ne_zero, zero_ne_one, if_true, if_false, h3, h4, h5, h6, h7, h8, h9, h10, h11]
    refine wpO_map (store4 (N := 8 * K) (8 * k) (f := fun l => R (8 * k + l)) hb (by omega) (by omega) (addr8 out (8 * k)) ?_) ?_
    · refine congrArg ofQ (funext fun q => ?_); rw [hR1]; rfl
    simp only [St.next]
    refine Wp.step rfl ?_
    simp only [exec, ea, Function.update_apply, reduceCtorEq, Nat.reduceEqDiff, one_ne_zero, zero_ne_one, if_true, if_false, h3, h4, h5, h6, h7, h8, h9, h10, h11]
    refine wpO_map (store4 (N := 8 * K) (8 * k + 4) (f := fun l => R (8 * k + 4 + l)) hb (by omega) (by omega) (addr8_32 out (8 * k)) ?_) ?_
    · refine congrArg ofQ (funext fun q => ?_); rw [hR2]; rfl
    simp only [St.next]
    iterate 3 asm1 [h3, h4, h5, h6, h7, h8, h9, h10, h11]
    refine .refl ?_
    rw [foldSt_succ]
    simp [h3, h4, h5, h6, h7, h8, h9, h10, h11, BitVec.ofNat_add, Nat.mul_add, BitVec.add_assoc]
  · rintro ⟨pc, g, y, c', m', r⟩ ⟨h0, h1, h2, h3, h4, h5, h6, h7, h8, h9, h10, h11⟩
    dsimp only at h0 h1 h2 h3 h4 h5 h6 h7 h8 h9 h10 h11
    simp only [Nat.mul_one] at h3 h4 h5 h6 h7 h8 h9 h10 h11 h2
    subst h0 h1 h2
    have hl : (BitVec.ofNat 64 (8 * K)).slt (BitVec.ofNat 64 (8 * K)) = false := by
      rw [slt_ofNat (by omega) (by omega)]; simp
    iterate 3 asm1 [h3, h4, h5, h6, h7, h8, h9, h10, h11, hl, Bool.false_eq_true]
    refine Wp.step rfl ?_
    simp only [exec, wpO_some]
    refine .refl ⟨rfl, ?_⟩
    simp only
    exact over_congr_n (dw_congr fun i hi => by simp [foldSt, hi]) (by omega)

theorem unfoldPolyToUint32AVX2_spec {F : Fpu} {out a : BitVec 64} {K c1 c2 : Nat} (hn : 8 * K < 2 ^ 58)
    (g : Reg → BitVec 64) (y : Nat → Y) (m : Memory) {O : Nat → BitVec 32} {A : Nat → BitVec 64}
    (hO : Holds m out O (8 * K)) (hA : Holds m a (dw A) (2 * (8 * K))) (sA : ApartW a out (2 * (8 * K)) (8 * K)) :
    Returns F unfoldPolyToUint32AVX2 (sliceArg out (8 * K) c1 ++ sliceArg a (8 * K) c2) (entry g y m)
      (over m out (fun i => F.toI32 (A (foldPos (4 * K) i))) (8 * K)) := by
  have e1 : target unfoldPolyToUint32AVX2 .loop_end = 18 := by decide
  have e2 : target unfoldPolyToUint32AVX2 .loop_body = 8 := by decide
  have hb := hO.1
  generalize hR : (fun i => F.toI32 (A (foldPos (4 * K) i))) = R
  have hR1 (k : Nat) (q : Fin 4) (hk : k < K) : R (4 * k + q.val) = F.toI32 (A (8 * k + q.val)) := by
    have h1 : 4 * k + q.val < 4 * K := by omega
    have h2 : 8 * ((4 * k + q.val) / 4) + (4 * k + q.val) % 4 = 8 * k + q.val := by omega
    rw [← hR]; simp only [foldPos, h1, h2, if_true]
  have hR2 (k : Nat) (q : Fin 4) : R (4 * K + 4 * k + q.val) = F.toI32 (A (8 * k + 4 + q.val)) := by
    have h1 : ¬ 4 * K + 4 * k + q.val < 4 * K := by omega
    have h2 : 8 * ((4 * K + 4 * k + q.val - 4 * K) / 4) + (4 * K + 4 * k + q.val - 4 * K) % 4 + 4 = 8 * k + 4 + q.val := by omega
    rw [← hR]; simp only [foldPos, h1, h2, if_false]
  refine one_loop (V := 1) (K := K)
    (I1 := fun k s =>
      s.pc = 18 ∧ s.ret = false ∧ s.mem = over m out (unfoldSt (4 * K) R O k) (8 * K) ∧ s.gpr .SI = BitVec.ofNat 64 (8 * k) ∧
      s.gpr .DI = BitVec.ofNat 64 (4 * k) ∧ s.gpr .BX = BitVec.ofNat 64 (4 * K + 4 * k) ∧
      s.gpr .AX = out ∧ s.gpr .CX = a ∧ s.gpr .DX = BitVec.ofNat 64 (8 * K))
    ?_ ?_ ?_
  · unfold entry
    have a0 : arg64 (sliceArg out (8 * K) c1 ++ sliceArg a (8 * K) c2) 0 =
        some (out) := by
      simp only [arg64, arg32, sliceArg, word64]
      simp [join_split, join_ofNat]
    have a1 : arg64 (sliceArg out (8 * K) c1 ++ sliceArg a (8 * K) c2) 24 =
        some (a) := by
      simp only [arg64, arg32, sliceArg, word64]
      simp [join_split, join_ofNat]
    have a2 : arg64 (sliceArg out (8 * K) c1 ++ sliceArg a (8 * K) c2) 32 =
        some (BitVec.ofNat 64 (8 * K)) := by
      simp only [arg64, arg32, sliceArg, word64]
      simp [join_split, join_ofNat]
    have hs : BitVec.ofNat 64 (8 * K) >>> 1 = BitVec.ofNat 64 (4 * K) := by
      rw [shr_ofNat (by omega)]; congr 1; omega
    have hf : unfoldSt (4 * K) R O 0 = O := by funext i; rw [unfoldSt, if_neg (by omega)]
    have hm : over m out (unfoldSt (4 * K) R O 0) (8 * K) = m := by rw [hf]; exact over_self_n hO (by omega)
    iterate 8 asm1 [a0, a1, a2, hs, e1, VOp.eval, xor_self_Y]
    refine .refl ?_
    simp [hm]
  · rintro k ⟨pc, g, y, c', m', r⟩ hk ⟨h0, h1, h2, h3, h4, h5, h6, h7, h8⟩
    dsimp only at h0 h1 h2 h3 h4 h5 h6 h7 h8
    simp only [Nat.mul_one] at h3 h4 h5 h6 h7 h8 h2
    subst h0 h1 h2
    replace hR1 := fun q => hR1 k q hk
    have hl : (BitVec.ofNat 64 (8 * k)).slt (BitVec.ofNat 64 (8 * K)) = true := by
      rw [slt_ofNat (by omega) (by omega), decide_eq_true_eq]; omega
    have l0 := loadN_out (W := (unfoldSt (4 * K) R O k)) (n := 8 * K) 8 (2 * (8 * k)) hA (by omega) sA (addr8 a (8 * k))
    rw [dw_eq_ofQ] at l0
    have l1 := loadN_out (W := (unfoldSt (4 * K) R O k)) (n := 8 * K) 8 (2 * (8 * k + 4)) hA (by omega) sA (addr8_32 a (8 * k))
    rw [dw_eq_ofQ] at l1
    
    iterate 8 asm1 [e1, e2, h3, h4, h5, h6, h7, h8, hl, l0, l1, VOp.eval, qw_ofQ]
    refine Wp.step rfl ?_
    simp only [exec, ea, Function.update_apply, reduceCtorEq, Nat.reduceEqDiff, one_ne_zero, zero_ne_one, if_true, if_false, h3, h4, h5, h6, h7, h8]
    refine wpO_map (store4w (n := 8 * K) (4 * k) (f := fun l => R (4 * k + l)) hb (by omega) (by omega) (addr4 out (4 * k)) ?_) ?_
    · intro q; rw [hR1]; simp [lowX, q.isLt]
    simp only [St.next]
    refine Wp.step rfl ?_
    simp only [exec, ea, Function.update_apply, reduceCtorEq, Nat.reduceEqDiff, one_ne_zero, zero_ne_one, if_true, if_false, h3, h4, h5, h6, h7, h8]
    refine wpO_map (store4w (n := 8 * K) (4 * K + 4 * k) (f := fun l => R (4 * K + 4 * k + l)) hb (by omega) (by omega) (addr4 out (4 * K + 4 * k)) ?_) ?_
    · intro q; rw [hR2]; simp [lowX, q.isLt]
    simp only [St.next]
    iterate 3 asm1 [h3, h4, h5, h6, h7, h8]
    refine .refl ?_
    rw [unfoldSt_succ32 _ _ _ _ (by omega)]
    simp [h3, h4, h5, h6, h7, h8, BitVec.ofNat_add, Nat.mul_add, BitVec.add_assoc]
  · rintro ⟨pc, g, y, c', m', r⟩ ⟨h0, h1, h2, h3, h4, h5, h6, h7, h8⟩
    dsimp only at h0 h1 h2 h3 h4 h5 h6 h7 h8
    simp only [Nat.mul_one] at h3 h4 h5 h6 h7 h8 h2
    subst h0 h1 h2
    have hl : (BitVec.ofNat 64 (8 * K)).slt (BitVec.ofNat 64 (8 * K)) = false := by
      rw [slt_ofNat (by omega) (by omega)]; simp
    iterate 3 asm1 [h3, h4, h5, h6, h7, h8, hl, Bool.false_eq_true]
    refine Wp.step rfl ?_
    simp only [exec, wpO_some]
    refine .refl ⟨rfl, ?_⟩
    simp only
    exact over_congr_n (fun i hi => by rw [unfoldSt, if_pos (by omega)]) (by omega)

theorem unfoldPolyAddToUint32AVX2_spec {F : Fpu} {out a : BitVec 64} {K c1 c2 : Nat} (hn : 8 * K < 2 ^ 58)
    (g : Reg → BitVec 64) (y : Nat → Y) (m : Memory) {O : Nat → BitVec 32} {A : Nat → BitVec 64}
    (hO : Holds m out O (8 * K)) (hA : Holds m a (dw A) (2 * (8 * K))) (sA : ApartW a out (2 * (8 * K)) (8 * K)) :
    Returns F unfoldPolyAddToUint32AVX2 (sliceArg out (8 * K) c1 ++ sliceArg a (8 * K) c2) (entry g y m)
      (over m out (fun i => O i + F.toI32 (A (foldPos (4 * K) i))) (8 * K)) := by
  have e1 : target unfoldPolyAddToUint32AVX2 .loop_end = 22 := by decide
  have e2 : target unfoldPolyAddToUint32AVX2 .loop_body = 8 := by decide
  have hb := hO.1
  generalize hR : (fun i => O i + F.toI32 (A (foldPos (4 * K) i))) = R
  have hR1 (k : Nat) (q : Fin 4) (hk : k < K) : R (4 * k + q.val) = O (4 * k + q.val) + F.toI32 (A (8 * k + q.val)) := by
    have h1 : 4 * k + q.val < 4 * K := by omega
    have h2 : 8 * ((4 * k + q.val) / 4) + (4 * k + q.val) % 4 = 8 * k + q.val := by omega
    rw [← hR]; simp only [foldPos, h1, h2, if_true]
  have hR2 (k : Nat) (q : Fin 4) : R (4 * K + 4 * k + q.val) = O (4 * K + 4 * k + q.val) + F.toI32 (A (8 * k + 4 + q.val)) := by
    have h1 : ¬ 4 * K + 4 * k + q.val < 4 * K := by omega
    have h2 : 8 * ((4 * K + 4 * k + q.val - 4 * K) / 4) + (4 * K + 4 * k + q.val - 4 * K) % 4 + 4 = 8 * k + 4 + q.val := by omega
    rw [← hR]; simp only [foldPos, h1, h2, if_false]
  refine one_loop (V := 1) (K := K)
    (I1 := fun k s =>
      s.pc = 22 ∧ s.ret = false ∧ s.mem = over m out (unfoldSt (4 * K) R O k) (8 * K) ∧ s.gpr .SI = BitVec.ofNat 64 (8 * k) ∧
      s.gpr .DI = BitVec.ofNat 64 (4 * k) ∧ s.gpr .BX = BitVec.ofNat 64 (4 * K + 4 * k) ∧
      s.gpr .AX = out ∧ s.gpr .CX = a ∧ s.gpr .DX = BitVec.ofNat 64 (8 * K))
    ?_ ?_ ?_
  · unfold entry
    have a0 : arg64 (sliceArg out (8 * K) c1 ++ sliceArg a (8 * K) c2) 0 =
        some (out) := by
      simp only [arg64, arg32, sliceArg, word64]
      simp [join_split, join_ofNat]
    have a1 : arg64 (sliceArg out (8 * K) c1 ++ sliceArg a (8 * K) c2) 24 =
        some (a) := by
      simp only [arg64, arg32, sliceArg, word64]
      simp [join_split, join_ofNat]
    have a2 : arg64 (sliceArg out (8 * K) c1 ++ sliceArg a (8 * K) c2) 32 =
        some (BitVec.ofNat 64 (8 * K)) := by
      simp only [arg64, arg32, sliceArg, word64]
      simp [join_split, join_ofNat]
    have hs : BitVec.ofNat 64 (8 * K) >>> 1 = BitVec.ofNat 64 (4 * K) := by
      rw [shr_ofNat (by omega)]; congr 1; omega
    have hf : unfoldSt (4 * K) R O 0 = O := by funext i; rw [unfoldSt, if_neg (by omega)]
    have hm : over m out (unfoldSt (4 * K) R O 0) (8 * K) = m := by rw [hf]; exact over_self_n hO (by omega)
    iterate 8 asm1 [a0, a1, a2, hs, e1, VOp.eval, xor_self_Y]
    refine .refl ?_
    simp [hm]
  · rintro k ⟨pc, g, y, c', m', r⟩ hk ⟨h0, h1, h2, h3, h4, h5, h6, h7, h8⟩
    dsimp only at h0 h1 h2 h3 h4 h5 h6 h7 h8
    simp only [Nat.mul_one] at h3 h4 h5 h6 h7 h8 h2
    subst h0 h1 h2
    replace hR1 := fun q => hR1 k q hk
    have hl : (BitVec.ofNat 64 (8 * k)).slt (BitVec.ofNat 64 (8 * K)) = true := by
      rw [slt_ofNat (by omega) (by omega), decide_eq_true_eq]; omega
    have l0 := loadN_out (W := (unfoldSt (4 * K) R O k)) (n := 8 * K) 8 (2 * (8 * k)) hA (by omega) sA (addr8 a (8 * k))
    rw [dw_eq_ofQ] at l0
    have l1 := loadN_out (W := (unfoldSt (4 * K) R O k)) (n := 8 * K) 8 (2 * (8 * k + 4)) hA (by omega) sA (addr8_32 a (8 * k))
    rw [dw_eq_ofQ] at l1
    have l2 := loadN_in (m := m) (b := out) (W := unfoldSt (4 * K) R O k) (n := 8 * K) 4 (4 * k) hb (by omega) (by omega) (addr4 out (4 * k))
    have l3 : ∀ W, (∀ l : Fin 4, W (4 * K + 4 * k + l.val) = O (4 * K + 4 * k + l.val)) →
        loadN 4 (over m out W (8 * K)) (out + BitVec.ofNat 64 (4 * K + 4 * k) * 4 + 0) = some fun l => O (4 * K + 4 * k + l.val) :=
      fun W hW => by
        rw [loadN_in 4 (4 * K + 4 * k) hb (by omega) (by omega) (addr4 out (4 * K + 4 * k))]
        exact congrArg some (funext hW)
    have o1 : ∀ l : Fin 4, unfoldSt (4 * K) R O k (4 * k + l.val) = O (4 * k + l.val) := fun l => by
      rw [unfoldSt, if_neg (by omega)]
    have o2 : ∀ l : Fin 4, unfoldSt (4 * K) R O k (4 * K + 4 * k + l.val) = O (4 * K + 4 * k + l.val) := fun l => by
      rw [unfoldSt, if_neg (by omega)]
    have l3 := l3 _ o2
    simp only [o1] at l2
    iterate 12 asm1 [e1, e2, h3, h4, h5, h6, h7, h8, hl, l0, l1, l2, l3, VOp.eval, qw_ofQ]
    refine Wp.step rfl ?_
    simp only [exec, ea, Function.update_apply, reduceCtorEq, Nat.reduceEqDiff, one_ne_zero, zero_ne_one, if_true, if_false, h3, h4, h5, h6, h7, h8]
    refine wpO_map (store4w (n := 8 * K) (4 * k) (f := fun l => R (4 * k + l)) hb (by omega) (by omega) (addr4 out (4 * k)) ?_) ?_
    · intro q; rw [hR1]; simp [lowX, q.isLt]
    simp only [St.next]
    refine Wp.step rfl ?_
    simp only [exec, ea, Function.update_apply, reduceCtorEq, Nat.reduceEqDiff, one_ne_zero, zero_ne_one, if_true, if_false, h3, h4, h5, h6, h7, h8]
    refine wpO_map (store4w (n := 8 * K) (4 * K + 4 * k) (f := fun l => R (4 * K + 4 * k + l)) hb (by omega) (by omega) (addr4 out (4 * K + 4 * k)) ?_) ?_
    · intro q; rw [hR2]; simp [lowX, q.isLt]
    simp only [St.next]
    iterate 3 asm1 [h3, h4, h5, h6, h7, h8]
    refine .refl ?_
    rw [unfoldSt_succ32 _ _ _ _ (by omega)]
    simp [h3, h4, h5, h6, h7, h8, BitVec.ofNat_add, Nat.mul_add, BitVec.add_assoc]
  · rintro ⟨pc, g, y, c', m', r⟩ ⟨h0, h1, h2, h3, h4, h5, h6, h7, h8⟩
    dsimp only at h0 h1 h2 h3 h4 h5 h6 h7 h8
    simp only [Nat.mul_one] at h3 h4 h5 h6 h7 h8 h2
    subst h0 h1 h2
    have hl : (BitVec.ofNat 64 (8 * K)).slt (BitVec.ofNat 64 (8 * K)) = false := by
      rw [slt_ofNat (by omega) (by omega)]; simp
    iterate 3 asm1 [h3, h4, h5, h6, h7, h8, hl, Bool.false_eq_true]
    refine Wp.step rfl ?_
    simp only [exec, wpO_some]
    refine .refl ⟨rfl, ?_⟩
    simp only
    exact over_congr_n (fun i hi => by rw [unfoldSt, if_pos (by omega)]) (by omega)

theorem unfoldPolySubToUint32AVX2_spec {F : Fpu} {out a : BitVec 64} {K c1 c2 : Nat} (hn : 8 * K < 2 ^ 58)
    (g : Reg → BitVec 64) (y : Nat → Y) (m : Memory) {O : Nat → BitVec 32} {A : Nat → BitVec 64}
    (hO : Holds m out O (8 * K)) (hA : Holds m a (dw A) (2 * (8 * K))) (sA : ApartW a out (2 * (8 * K)) (8 * K)) :
    Returns F unfoldPolySubToUint32AVX2 (sliceArg out (8 * K) c1 ++ sliceArg a (8 * K) c2) (entry g y m)
      (over m out (fun i => O i - F.toI32 (A (foldPos (4 * K) i))) (8 * K)) := by
  have e1 : target unfoldPolySubToUint32AVX2 .loop_end = 22 := by decide
  have e2 : target unfoldPolySubToUint32AVX2 .loop_body = 8 := by decide
  have hb := hO.1
  generalize hR : (fun i => O i - F.toI32 (A (foldPos (4 * K) i))) = R
  have hR1 (k : Nat) (q : Fin 4) (hk : k < K) : R (4 * k + q.val) = O (4 * k + q.val) - F.toI32 (A (8 * k + q.val)) := by
    have h1 : 4 * k + q.val < 4 * K := by omega
    have h2 : 8 * ((4 * k + q.val) / 4) + (4 * k + q.val) % 4 = 8 * k + q.val := by omega
    rw [← hR]; simp only [foldPos, h1, h2, if_true]
  have hR2 (k : Nat) (q : Fin 4) : R (4 * K + 4 * k + q.val) = O (4 * K + 4 * k + q.val) - F.toI32 (A (8 * k + 4 + q.val)) := by
    have h1 : ¬ 4 * K + 4 * k + q.val < 4 * K := by omega
    have h2 : 8 * ((4 * K + 4 * k + q.val - 4 * K) / 4) + (4 * K + 4 * k + q.val - 4 * K) % 4 + 4 = 8 * k + 4 + q.val := by omega
    rw [← hR]; simp only [foldPos, h1, h2, if_false]
  refine one_loop (V := 1) (K := K)
    (I1 := fun k s =>
      s.pc = 22 ∧ s.ret = false ∧ s.mem = over m out (unfoldSt (4 * K) R O k) (8 * K) ∧ s.gpr .SI = BitVec.ofNat 64 (8 * k) ∧
      s.gpr .DI = BitVec.ofNat 64 (4 * k) ∧ s.gpr .BX = BitVec.ofNat 64 (4 * K + 4 * k) ∧
      s.gpr .AX = out ∧ s.gpr .CX = a ∧ s.gpr .DX = BitVec.ofNat 64 (8 * K))
    ?_ ?_ ?_
  · unfold entry
    have a0 : arg64 (sliceArg out (8 * K) c1 ++ sliceArg a (8 * K) c2) 0 =
        some (out) := by
      simp only [arg64, arg32, sliceArg, word64]
      simp [join_split, join_ofNat]
    have a1 : arg64 (sliceArg out (8 * K) c1 ++ sliceArg a (8 * K) c2) 24 =
        some (a) := by
      simp only [arg64, arg32, sliceArg, word64]
      simp [join_split, join_ofNat]
    have a2 : arg64 (sliceArg out (8 * K) c1 ++ sliceArg a (8 * K) c2) 32 =
        some (BitVec.ofNat 64 (8 * K)) := by
      simp only [arg64, arg32, sliceArg, word64]
      simp [join_split, join_ofNat]
    have hs : BitVec.ofNat 64 (8 * K) >>> 1 = BitVec.ofNat 64 (4 * K) := by
      rw [shr_ofNat (by omega)]; congr 1; omega
    have hf : unfoldSt (4 * K) R O 0 = O := by funext i; rw [unfoldSt, if_neg (by omega)]
    have hm : over m out (unfoldSt (4 * K) R O 0) (8 * K) = m := by rw [hf]; exact over_self_n hO (by omega)
    iterate 8 asm1 [a0, a1, a2, hs, e1, VOp.eval, xor_self_Y]
    refine .refl ?_
    simp [hm]
  · rintro k ⟨pc, g, y, c', m', r⟩ hk ⟨h0, h1, h2, h3, h4, h5, h6, h7, h8⟩
    dsimp only at h0 h1 h2 h3 h4 h5 h6 h7 h8
    simp only [Nat.mul_one] at h3 h4 h5 h6 h7 h8 h2
    subst h0 h1 h2
    replace hR1 := fun q => hR1 k q hk
    have hl : (BitVec.ofNat 64 (8 * k)).slt (BitVec.ofNat 64 (8 * K)) = true := by
      rw [slt_ofNat (by omega) (by omega), decide_eq_true_eq]; omega
    have l0 := loadN_out (W := (unfoldSt (4 * K) R O k)) (n := 8 * K) 8 (2 * (8 * k)) hA (by omega) sA (addr8 a (8 * k))
    rw [dw_eq_ofQ] at l0
    have l1 := loadN_out (W := (unfoldSt (4 * K) R O k)) (n := 8 * K) 8 (2 * (8 * k + 4)) hA (by omega) sA (addr8_32 a (8 * k))
    rw [dw_eq_ofQ] at l1
    have l2 := loadN_in (m := m) (b := out) (W := unfoldSt (4 * K) R O k) (n := 8 * K) 4 (4 * k) hb (by omega) (by omega) (addr4 out (4 * k))
    have l3 : ∀ W, (∀ l : Fin 4, W (4 * K + 4 * k + l.val) = O (4 * K + 4 * k + l.val)) →
        loadN 4 (over m out W (8 * K)) (out + BitVec.ofNat 64 (4 * K + 4 * k) * 4 + 0) = some fun l => O (4 * K + 4 * k + l.val) :=
      fun W hW => by
        rw [loadN_in 4 (4 * K + 4 * k) hb (by omega) (by omega) (addr4 out (4 * K + 4 * k))]
        exact congrArg some (funext hW)
    have o1 : ∀ l : Fin 4, unfoldSt (4 * K) R O k (4 * k + l.val) = O (4 * k + l.val) := fun l => by
      rw [unfoldSt, if_neg (by omega)]
    have o2 : ∀ l : Fin 4, unfoldSt (4 * K) R O k (4 * K + 4 * k + l.val) = O (4 * K + 4 * k + l.val) := fun l => by
      rw [unfoldSt, if_neg (by omega)]
    have l3 := l3 _ o2
    simp only [o1] at l2
    iterate 12 asm1 [e1, e2, h3, h4, h5, h6, h7, h8, hl, l0, l1, l2, l3, VOp.eval, qw_ofQ]
    refine Wp.step rfl ?_
    simp only [exec, ea, Function.update_apply, reduceCtorEq, Nat.reduceEqDiff, one_ne_zero, zero_ne_one, if_true, if_false, h3, h4, h5, h6, h7, h8]
    refine wpO_map (store4w (n := 8 * K) (4 * k) (f := fun l => R (4 * k + l)) hb (by omega) (by omega) (addr4 out (4 * k)) ?_) ?_
    · intro q; rw [hR1]; simp [lowX, q.isLt]
    simp only [St.next]
    refine Wp.step rfl ?_
    simp only [exec, ea, Function.update_apply, reduceCtorEq, Nat.reduceEqDiff, one_ne_zero, zero_ne_one, if_true, if_false, h3, h4, h5, h6, h7, h8]
    refine wpO_map (store4w (n := 8 * K) (4 * K + 4 * k) (f := fun l => R (4 * K + 4 * k + l)) hb (by omega) (by omega) (addr4 out (4 * K + 4 * k)) ?_) ?_
    · intro q; rw [hR2]; simp [lowX, q.isLt]
    simp only [St.next]
    iterate 3 asm1 [h3, h4, h5, h6, h7, h8]
    refine .refl ?_
    rw [unfoldSt_succ32 _ _ _ _ (by omega)]
    simp [h3, h4, h5, h6, h7, h8, BitVec.ofNat_add, Nat.mul_add, BitVec.add_assoc]
  · rintro ⟨pc, g, y, c', m', r⟩ ⟨h0, h1, h2, h3, h4, h5, h6, h7, h8⟩
    dsimp only at h0 h1 h2 h3 h4 h5 h6 h7 h8
    simp only [Nat.mul_one] at h3 h4 h5 h6 h7 h8 h2
    subst h0 h1 h2
    have hl : (BitVec.ofNat 64 (8 * K)).slt (BitVec.ofNat 64 (8 * K)) = false := by
      rw [slt_ofNat (by omega) (by omega)]; simp
    iterate 3 asm1 [h3, h4, h5, h6, h7, h8, hl, Bool.false_eq_true]
    refine Wp.step rfl ?_
    simp only [exec, wpO_some]
    refine .refl ⟨rfl, ?_⟩
    simp only
    exact over_congr_n (fun i hi => by rw [unfoldSt, if_pos (by omega)]) (by omega)

theorem unfoldPolyToUint64AVX2_spec {F : Fpu} {out a : BitVec 64} {K c1 c2 : Nat} (hn : 8 * K < 2 ^ 58)
    (g : Reg → BitVec 64) (y : Nat → Y) (m : Memory) {O : Nat → BitVec 64} {A : Nat → BitVec 64}
    (hO : Holds m out (dw O) (2 * (8 * K))) (hA : Holds m a (dw A) (2 * (8 * K))) (sA : ApartW a out (2 * (8 * K)) (2 * (8 * K))) :
    Returns F unfoldPolyToUint64AVX2 (sliceArg out (8 * K) c1 ++ sliceArg a (8 * K) c2) (entry g y m)
      (over m out (dw fun i => truncI64 (A (foldPos (4 * K) i))) (2 * (8 * K))) := by
  have e1 : target unfoldPolyToUint64AVX2 .loop_end = 43 := by decide
  have e2 : target unfoldPolyToUint64AVX2 .loop_body = 13 := by decide
  have hb := hO.1
  generalize hR : (fun i => truncI64 (A (foldPos (4 * K) i))) = R
  have hR1 (k : Nat) (q : Fin 4) (hk : k < K) : R (4 * k + q.val) = truncI64 (A (8 * k + q.val)) := by
    have h1 : 4 * k + q.val < 4 * K := by omega
    have h2 : 8 * ((4 * k + q.val) / 4) + (4 * k + q.val) % 4 = 8 * k + q.val := by omega
    rw [← hR]; simp only [foldPos, h1, h2, if_true]
  have hR2 (k : Nat) (q : Fin 4) : R (4 * K + 4 * k + q.val) = truncI64 (A (8 * k + 4 + q.val)) := by
    have h1 : ¬ 4 * K + 4 * k + q.val < 4 * K := by omega
    have h2 : 8 * ((4 * K + 4 * k + q.val - 4 * K) / 4) + (4 * K + 4 * k + q.val - 4 * K) % 4 + 4 = 8 * k + 4 + q.val := by omega
    rw [← hR]; simp only [foldPos, h1, h2, if_false]
  refine one_loop (V := 1) (K := K)
    (I1 := fun k s =>
      s.pc = 43 ∧ s.ret = false ∧ s.mem = over m out (dw (unfoldSt (4 * K) R O k)) (2 * (8 * K)) ∧ s.gpr .SI = BitVec.ofNat 64 (8 * k) ∧
      s.gpr .DI = BitVec.ofNat 64 (4 * k) ∧ s.gpr .BX = BitVec.ofNat 64 (4 * K + 4 * k) ∧
      s.gpr .AX = out ∧ s.gpr .CX = a ∧ s.gpr .DX = BitVec.ofNat 64 (8 * K) ∧
      s.ymm 0 = (ofQ fun _ => 0x000fffffffffffff) ∧
      s.ymm 1 = (ofQ fun _ => 0x0010000000000000) ∧
      s.ymm 2 = (ofQ fun _ => 0x7ff) ∧
      s.ymm 3 = (ofQ fun _ => 0x43e) ∧
      s.ymm 4 = (ofQ fun _ => 0#64))
    ?_ ?_ ?_
  · unfold entry
    have a0 : arg64 (sliceArg out (8 * K) c1 ++ sliceArg a (8 * K) c2) 0 =
        some (out) := by
      simp only [arg64, arg32, sliceArg, word64]
      simp [join_split, join_ofNat]
    have a1 : arg64 (sliceArg out (8 * K) c1 ++ sliceArg a (8 * K) c2) 24 =
        some (a) := by
      simp only [arg64, arg32, sliceArg, word64]
      simp [join_split, join_ofNat]
    have a2 : arg64 (sliceArg out (8 * K) c1 ++ sliceArg a (8 * K) c2) 32 =
        some (BitVec.ofNat 64 (8 * K)) := by
      simp only [arg64, arg32, sliceArg, word64]
      simp [join_split, join_ofNat]
    have hs : BitVec.ofNat 64 (8 * K) >>> 1 = BitVec.ofNat 64 (4 * K) := by
      rw [shr_ofNat (by omega)]; congr 1; omega
    have hf : unfoldSt (4 * K) R O 0 = O := by funext i; rw [unfoldSt, if_neg (by omega)]
    have hm : over m out (dw (unfoldSt (4 * K) R O 0)) (2 * (8 * K)) = m := by rw [hf]; exact over_self_n hO (by omega)
    iterate 13 asm1 [a0, a1, a2, hs, e1, VOp.eval, xor_self_Y]
    refine .refl ?_
    simp [hm]
  · rintro k ⟨pc, g, y, c', m', r⟩ hk ⟨h0, h1, h2, h3, h4, h5, h6, h7, h8, h9, h10, h11, h12, h13⟩
    dsimp only at h0 h1 h2 h3 h4 h5 h6 h7 h8 h9 h10 h11 h12 h13
    simp only [Nat.mul_one] at h3 h4 h5 h6 h7 h8 h9 h10 h11 h12 h13 h2
    subst h0 h1 h2
    replace hR1 := fun q => hR1 k q hk
    have hl : (BitVec.ofNat 64 (8 * k)).slt (BitVec.ofNat 64 (8 * K)) = true := by
      rw [slt_ofNat (by omega) (by omega), decide_eq_true_eq]; omega
    have l0 := loadN_out (W := (dw (unfoldSt (4 * K) R O k))) (n := 2 * (8 * K)) 8 (2 * (8 * k)) hA (by omega) sA (addr8 a (8 * k))
    rw [dw_eq_ofQ] at l0
    have l1 := loadN_out (W := (dw (unfoldSt (4 * K) R O k))) (n := 2 * (8 * K)) 8 (2 * (8 * k + 4)) hA (by omega) sA (addr8_32 a (8 * k))
    rw [dw_eq_ofQ] at l1
    
    iterate 28 asm1 [e1, e2, h3, h4, h5, h6, h7, h8, h9, h10, h11, h12, h13, hl, l0, l1, VOp.eval, VImm.eval, mapQ_ofQ, qw_ofQ, and_ofQ, or_ofQ, blendvb_sign]
    refine Wp.step rfl ?_
    simp only [exec, ea, Function.update_apply, reduceCtorEq, Nat.reduceEqDiff, one_ne_zero, zero_ne_one, if_true, if_false, h3, h4, h5, h6, h7, h8, h9, h10, h11, h12, h13]
    refine wpO_map (store4 (N := 8 * K) (4 * k) (f := fun l => R (4 * k + l)) hb (by omega) (by omega) (addr8 out (4 * k)) ?_) ?_
    · refine congrArg ofQ (funext fun q => ?_); rw [hR1]; rfl
    simp only [St.next]
    refine Wp.step rfl ?_
    simp only [exec, ea, Function.update_apply, reduceCtorEq, Nat.reduceEqDiff, one_ne_zero, zero_ne_one, if_true, if_false, h3, h4, h5, h6, h7, h8, h9, h10, h11, h12, h13]
    refine wpO_map (store4 (N := 8 * K) (4 * K + 4 * k) (f := fun l => R (4 * K + 4 * k + l)) hb (by omega) (by omega) (addr8 out (4 * K + 4 * k)) ?_) ?_
    · refine congrArg ofQ (funext fun q => ?_); rw [hR2]; rfl
    simp only [St.next]
    iterate 3 asm1 [h3, h4, h5, h6, h7, h8, h9, h10, h11, h12, h13]
    refine .refl ?_
    rw [unfoldSt_succ _ _ _ _ (by omega)]
    simp [h3, h4, h5, h6, h7, h8, h9, h10, h11, h12, h13, BitVec.ofNat_add, Nat.mul_add, BitVec.add_assoc]
  · rintro ⟨pc, g, y, c', m', r⟩ ⟨h0, h1, h2, h3, h4, h5, h6, h7, h8, h9, h10, h11, h12, h13⟩
    dsimp only at h0 h1 h2 h3 h4 h5 h6 h7 h8 h9 h10 h11 h12 h13
    simp only [Nat.mul_one] at h3 h4 h5 h6 h7 h8 h9 h10 h11 h12 h13 h2
    subst h0 h1 h2
    have hl : (BitVec.ofNat 64 (8 * K)).slt (BitVec.ofNat 64 (8 * K)) = false := by
      rw [slt_ofNat (by omega) (by omega)]; simp
    iterate 3 asm1 [h3, h4, h5, h6, h7, h8, h9, h10, h11, h12, h13, hl, Bool.false_eq_true]
    refine Wp.step rfl ?_
    simp only [exec, wpO_some]
    refine .refl ⟨rfl, ?_⟩
    simp only
    exact over_congr_n (dw_congr fun i hi => by rw [unfoldSt, if_pos (by omega)]) (by omega)

theorem unfoldPolyAddToUint64AVX2_spec {F : Fpu} {out a : BitVec 64} {K c1 c2 : Nat} (hn : 8 * K < 2 ^ 58)
    (g : Reg → BitVec 64) (y : Nat → Y) (m : Memory) {O : Nat → BitVec 64} {A : Nat → BitVec 64}
    (hO : Holds m out (dw O) (2 * (8 * K))) (hA : Holds m a (dw A) (2 * (8 * K))) (sA : ApartW a out (2 * (8 * K)) (2 * (8 * K))) :
    Returns F unfoldPolyAddToUint64AVX2 (sliceArg out (8 * K) c1 ++ sliceArg a (8 * K) c2) (entry g y m)
      (over m out (dw fun i => O i + truncI64 (A (foldPos (4 * K) i))) (2 * (8 * K))) := by
  have e1 : target unfoldPolyAddToUint64AVX2 .loop_end = 47 := by decide
  have e2 : target unfoldPolyAddToUint64AVX2 .loop_body = 13 := by decide
  have hb := hO.1
  generalize hR : (fun i => O i + truncI64 (A (foldPos (4 * K) i))) = R
  have hR1 (k : Nat) (q : Fin 4) (hk : k < K) : R (4 * k + q.val) = O (4 * k + q.val) + truncI64 (A (8 * k + q.val)) := by
    have h1 : 4 * k + q.val < 4 * K := by omega
    have h2 : 8 * ((4 * k + q.val) / 4) + (4 * k + q.val) % 4 = 8 * k + q.val := by omega
    rw [← hR]; simp only [foldPos, h1, h2, if_true]
  have hR2 (k : Nat) (q : Fin 4) : R (4 * K + 4 * k + q.val) = O (4 * K + 4 * k + q.val) + truncI64 (A (8 * k + 4 + q.val)) := by
    have h1 : ¬ 4 * K + 4 * k + q.val < 4 * K := by omega
    have h2 : 8 * ((4 * K + 4 * k + q.val - 4 * K) / 4) + (4 * K + 4 * k + q.val - 4 * K) % 4 + 4 = 8 * k + 4 + q.val := by omega
    rw [← hR]; simp only [foldPos, h1, h2, if_false]
  refine one_loop (V := 1) (K := K)
    (I1 := fun k s =>
      s.pc = 47 ∧ s.ret = false ∧ s.mem = over m out (dw (unfoldSt (4 * K) R O k)) (2 * (8 * K)) ∧ s.gpr .SI = BitVec.ofNat 64 (8 * k) ∧
      s.gpr .DI = BitVec.ofNat 64 (4 * k) ∧ s.gpr .BX = BitVec.ofNat 64 (4 * K + 4 * k) ∧
      s.gpr .AX = out ∧ s.gpr .CX = a ∧ s.gpr .DX = BitVec.ofNat 64 (8 * K) ∧
      s.ymm 0 = (ofQ fun _ => 0x000fffffffffffff) ∧
      s.ymm 1 = (ofQ fun _ => 0x0010000000000000) ∧
      s.ymm 2 = (ofQ fun _ => 0x7ff) ∧
      s.ymm 3 = (ofQ fun _ => 0x43e) ∧
      s.ymm 4 = (ofQ fun _ => 0#64))
    ?_ ?_ ?_
  · unfold entry
    have a0 : arg64 (sliceArg out (8 * K) c1 ++ sliceArg a (8 * K) c2) 0 =
        some (out) := by
      simp only [arg64, arg32, sliceArg, word64]
      simp [join_split, join_ofNat]
    have a1 : arg64 (sliceArg out (8 * K) c1 ++ sliceArg a (8 * K) c2) 24 =
        some (a) := by
      simp only [arg64, arg32, sliceArg, word64]
      simp [join_split, join_ofNat]
    have a2 : arg64 (sliceArg out (8 * K) c1 ++ sliceArg a (8 * K) c2) 32 =
        some (BitVec.ofNat 64 (8 * K)) := by
      simp only [arg64, arg32, sliceArg, word64]
      simp [join_split, join_ofNat]
    have hs : BitVec.ofNat 64 (8 * K) >>> 1 = BitVec.ofNat 64 (4 * K) := by
      rw [shr_ofNat (by omega)]; congr 1; omega
    have hf : unfoldSt (4 * K) R O 0 = O := by funext i; rw [unfoldSt, if_neg (by omega)]
    have hm : over m out (dw (unfoldSt (4 * K) R O 0)) (2 * (8 * K)) = m := by rw [hf]; exact over_self_n hO (by omega)
    iterate 13 asm1 [a0, a1, a2, hs, e1, VOp.eval, xor_self_Y]
    refine .refl ?_
    simp [hm]
  · rintro k ⟨pc, g, y, c', m', r⟩ hk ⟨h0, h1, h2, h3, h4, h5, h6, h7, h8, h9, h10, h11, h12, h13⟩
    dsimp only at h0 h1 h2 h3 h4 h5 h6 h7 h8 h9 h10 h11 h12 h13
    simp only [Nat.mul_one] at h3 h4 h5 h6 h7 h8 h9 h10 h11 h12 h13 h2
    subst h0 h1 h2
    replace hR1 := fun q => hR1 k q hk
    have hl : (BitVec.ofNat 64 (8 * k)).slt (BitVec.ofNat 64 (8 * K)) = true := by
      rw [slt_ofNat (by omega) (by omega), decide_eq_true_eq]; omega
    have l0 := loadN_out (W := (dw (unfoldSt (4 * K) R O k))) (n := 2 * (8 * K)) 8 (2 * (8 * k)) hA (by omega) sA (addr8 a (8 * k))
    rw [dw_eq_ofQ] at l0
    have l1 := loadN_out (W := (dw (unfoldSt (4 * K) R O k))) (n := 2 * (8 * K)) 8 (2 * (8 * k + 4)) hA (by omega) sA (addr8_32 a (8 * k))
    rw [dw_eq_ofQ] at l1
    have l2 := load4 (m := m) (b := out) (x := unfoldSt (4 * K) R O k) (N := 8 * K) (4 * k) hb (by omega) (by omega) (addr8 out (4 * k))
    have l3 := load4 (m := m) (b := out) (x := unfoldSt (4 * K) R O k) (N := 8 * K) (4 * K + 4 * k) hb (by omega) (by omega) (addr8 out (4 * K + 4 * k))
    have o1 : ∀ l : Fin 4, unfoldSt (4 * K) R O k (4 * k + l.val) = O (4 * k + l.val) := fun l => by
      rw [unfoldSt, if_neg (by omega)]
    have o2 : ∀ l : Fin 4, unfoldSt (4 * K) R O k (4 * K + 4 * k + l.val) = O (4 * K + 4 * k + l.val) := fun l => by
      rw [unfoldSt, if_neg (by omega)]
    simp only [o1] at l2
    simp only [o2] at l3
    iterate 32 asm1 [e1, e2, h3, h4, h5, h6, h7, h8, h9, h10, h11, h12, h13, hl, l0, l1, l2, l3, VOp.eval, VImm.eval, mapQ_ofQ, qw_ofQ, and_ofQ, or_ofQ, blendvb_sign]
    refine Wp.step rfl ?_
    simp only [exec, ea, Function.update_apply, reduceCtorEq, Nat.reduceEqDiff, one_ne_zero, zero_ne_one, if_true, if_false, h3, h4, h5, h6, h7, h8, h9, h10, h11, h12, h13]
    refine wpO_map (store4 (N := 8 * K) (4 * k) (f := fun l => R (4 * k + l)) hb (by omega) (by omega) (addr8 out (4 * k)) ?_) ?_
    · refine congrArg ofQ (funext fun q => ?_); rw [hR1]; rfl
    simp only [St.next]
    refine Wp.step rfl ?_
    simp only [exec, ea, Function.update_apply, reduceCtorEq, Nat.reduceEqDiff, one_ne_zero, zero_ne_one, if_true, if_false, h3, h4, h5, h6, h7, h8, h9, h10, h11, h12, h13]
    refine wpO_map (store4 (N := 8 * K) (4 * K + 4 * k) (f := fun l => R (4 * K + 4 * k + l)) hb (by omega) (by omega) (addr8 out (4 * K + 4 * k)) ?_) ?_
    · refine congrArg ofQ (funext fun q => ?_); rw [hR2]; rfl
    simp only [St.next]
    iterate 3 asm1 [h3, h4, h5, h6, h7, h8, h9, h10, h11, h12, h13]
    refine .refl ?_
    rw [unfoldSt_succ _ _ _ _ (by omega)]
    simp [h3, h4, h5, h6, h7, h8, h9, h10, h11, h12, h13, BitVec.ofNat_add, Nat.mul_add, BitVec.add_assoc]
  · rintro ⟨pc, g, y, c', m', r⟩ ⟨h0, h1, h2, h3, h4, h5, h6, h7, h8, h9, h10, h11, h12, h13⟩
    dsimp only at h0 h1 h2 h3 h4 h5 h6 h7 h8 h9 h10 h11 h12 h13
    simp only [Nat.mul_one] at h3 h4 h5 h6 h7 h8 h9 h10 h11 h12 h13 h2
    subst h0 h1 h2
    have hl : (BitVec.ofNat 64 (8 * K)).slt (BitVec.ofNat 64 (8 * K)) = false := by
      rw [slt_ofNat (by omega) (by omega)]; simp
    iterate 3 asm1 [h3, h4, h5, h6, h7, h8, h9, h10, h11, h12, h13, hl, Bool.false_eq_true]
    refine Wp.step rfl ?_
    simp only [exec, wpO_some]
    refine .refl ⟨rfl, ?_⟩
    simp only
    exact over_congr_n (dw_congr fun i hi => by rw [unfoldSt, if_pos (by omega)]) (by omega)

theorem unfoldPolySubToUint64AVX2_spec {F : Fpu} {out a : BitVec 64} {K c1 c2 : Nat} (hn : 8 * K < 2 ^ 58)
    (g : Reg → BitVec 64) (y : Nat → Y) (m : Memory) {O : Nat → BitVec 64} {A : Nat → BitVec 64}
    (hO : Holds m out (dw O) (2 * (8 * K))) (hA : Holds m a (dw A) (2 * (8 * K))) (sA : ApartW a out (2 * (8 * K)) (2 * (8 * K))) :
    Returns F unfoldPolySubToUint64AVX2 (sliceArg out (8 * K) c1 ++ sliceArg a (8 * K) c2) (entry g y m)
      (over m out (dw fun i => O i - truncI64 (A (foldPos (4 * K) i))) (2 * (8 * K))) := by
  have e1 : target unfoldPolySubToUint64AVX2 .loop_end = 47 := by decide
  have e2 : target unfoldPolySubToUint64AVX2 .loop_body = 13 := by decide
  have hb := hO.1
  generalize hR : (fun i => O i - truncI64 (A (foldPos (4 * K) i))) = R
  have hR1 (k : Nat) (q : Fin 4) (hk : k < K) : R (4 * k + q.val) = O (4 * k + q.val) - truncI64 (A (8 * k + q.val)) := by
    have h1 : 4 * k + q.val < 4 * K := by omega
    have h2 : 8 * ((4 * k + q.val) / 4) + (4 * k + q.val) % 4 = 8 * k + q.val := by omega
    rw [← hR]; simp only [foldPos, h1, h2, if_true]
  have hR2 (k : Nat) (q : Fin 4) : R (4 * K + 4 * k + q.val) = O (4 * K + 4 * k + q.val) - truncI64 (A (8 * k + 4 + q.val)) := by
    have h1 : ¬ 4 * K + 4 * k + q.val < 4 * K := by omega
    have h2 : 8 * ((4 * K + 4 * k + q.val - 4 * K) / 4) + (4 * K + 4 * k + q.val - 4 * K) % 4 + 4 = 8 * k + 4 + q.val := by omega
    rw [← hR]; simp only [foldPos, h1, h2, if_false]
  refine one_loop (V := 1) (K := K)
    (I1 := fun k s =>
      s.pc = 47 ∧ s.ret = false ∧ s.mem = over m out (dw (unfoldSt (4 * K) R O k)) (2 * (8 * K)) ∧ s.gpr .SI = BitVec.ofNat 64 (8 * k) ∧
      s.gpr .DI = BitVec.ofNat 64 (4 * k) ∧ s.gpr .BX = BitVec.ofNat 64 (4 * K + 4 * k) ∧
      s.gpr .AX = out ∧ s.gpr .CX = a ∧ s.gpr .DX = BitVec.ofNat 64 (8 * K) ∧
      s.ymm 0 = (ofQ fun _ => 0x000fffffffffffff) ∧
      s.ymm 1 = (ofQ fun _ => 0x0010000000000000) ∧
      s.ymm 2 = (ofQ fun _ => 0x7ff) ∧
      s.ymm 3 = (ofQ fun _ => 0x43e) ∧
      s.ymm 4 = (ofQ fun _ => 0#64))
    ?_ ?_ ?_
  · unfold entry
    have a0 : arg64 (sliceArg out (8 * K) c1 ++ sliceArg a (8 * K) c2) 0 =
        some (out) := by
      simp only [arg64, arg32, sliceArg, word64]
      simp [join_split, join_ofNat]
    have a1 : arg64 (sliceArg out (8 * K) c1 ++ sliceArg a (8 * K) c2) 24 =
        some (a) := by
      simp only [arg64, arg32, sliceArg, word64]
      simp [join_split, join_ofNat]
    have a2 : arg64 (sliceArg out (8 * K) c1 ++ sliceArg a (8 * K) c2) 32 =
        some (BitVec.ofNat 64 (8 * K)) := by
      simp only [arg64, arg32, sliceArg, word64]
      simp [join_split, join_ofNat]
    have hs : BitVec.ofNat 64 (8 * K) >>> 1 = BitVec.ofNat 64 (4 * K) := by
      rw [shr_ofNat (by omega)]; congr 1; omega
    have hf : unfoldSt (4 * K) R O 0 = O := by funext i; rw [unfoldSt, if_neg (by omega)]
    have hm : over m out (dw (unfoldSt (4 * K) R O 0)) (2 * (8 * K)) = m := by rw [hf]; exact over_self_n hO (by omega)
    iterate 13 asm1 [a0, a1, a2, hs, e1, VOp.eval, xor_self_Y]
    refine .refl ?_
    simp [hm]
  · rintro k ⟨pc, g, y, c', m', r⟩ hk ⟨h0, h1, h2, h3, h4, h5, h6, h7, h8, h9, h10, h11, h12, h13⟩
    dsimp only at h0 h1 h2 h3 h4 h5 h6 h7 h8 h9 h10 h11 h12 h13
    simp only [Nat.mul_one] at h3 h4 h5 h6 h7 h8 h9 h10 h11 h12 h13 h2
    subst h0 h1 h2
    replace hR1 := fun q => hR1 k q hk
    have hl : (BitVec.ofNat 64 (8 * k)).slt (BitVec.ofNat 64 (8 * K)) = true := by
      rw [slt_ofNat (by omega) (by omega), decide_eq_true_eq]; omega
    have l0 := loadN_out (W := (dw (unfoldSt (4 * K) R O k))) (n := 2 * (8 * K)) 8 (2 * (8 * k)) hA (by omega) sA (addr8 a (8 * k))
    rw [dw_eq_ofQ] at l0
    have l1 := loadN_out (W := (dw (unfoldSt (4 * K) R O k))) (n := 2 * (8 * K)) 8 (2 * (8 * k + 4)) hA (by omega) sA (addr8_32 a (8 * k))
    rw [dw_eq_ofQ] at l1
    have l2 := load4 (m := m) (b := out) (x := unfoldSt (4 * K) R O k) (N := 8 * K) (4 * k) hb (by omega) (by omega) (addr8 out (4 * k))
    have l3 := load4 (m := m) (b := out) (x := unfoldSt (4 * K) R O k) (N := 8 * K) (4 * K + 4 * k) hb (by omega) (by omega) (addr8 out (4 * K + 4 * k))
    have o1 : ∀ l : Fin 4, unfoldSt (4 * K) R O k (4 * k + l.val) = O (4 * k + l.val) := fun l => by
      rw [unfoldSt, if_neg (by omega)]
    have o2 : ∀ l : Fin 4, unfoldSt (4 * K) R O k (4 * K + 4 * k + l.val) = O (4 * K + 4 * k + l.val) := fun l => by
      rw [unfoldSt, if_neg (by omega)]
    simp only [o1] at l2
    simp only [o2] at l3
    iterate 32 asm1 [e1, e2, h3, h4, h5, h6, h7, h8, h9, h10, h11, h12, h13, hl, l0, l1, l2, l3, VOp.eval, VImm.eval, mapQ_ofQ, qw_ofQ, and_ofQ, or_ofQ, blendvb_sign]
    refine Wp.step rfl ?_
    simp only [exec, ea, Function.update_apply, reduceCtorEq, Nat.reduceEqDiff, one_ne_zero, zero_ne_one, if_true, if_false, h3, h4, h5, h6, h7, h8, h9, h10, h11, h12, h13]
    refine wpO_map (store4 (N := 8 * K) (4 * k) (f := fun l => R (4 * k + l)) hb (by omega) (by omega) (addr8 out (4 * k)) ?_) ?_
    · refine congrArg ofQ (funext fun q => ?_); rw [hR1]; rfl
    simp only [St.next]
    refine Wp.step rfl ?_
    simp only [exec, ea, Function.update_apply, reduceCtorEq, Nat.reduceEqDiff, one_ne_zero, zero_ne_one, if_true, if_false, h3, h4, h5, h6, h7, h8, h9, h10, h11, h12, h13]
    refine wpO_map (store4 (N := 8 * K) (4 * K + 4 * k) (f := fun l => R (4 * K + 4 * k + l)) hb (by omega) (by omega) (addr8 out (4 * K + 4 * k)) ?_) ?_
    · refine congrArg ofQ (funext fun q => ?_); rw [hR2]; rfl
    simp only [St.next]
    iterate 3 asm1 [h3, h4, h5, h6, h7, h8, h9, h10, h11, h12, h13]
    refine .refl ?_
    rw [unfoldSt_succ _ _ _ _ (by omega)]
    simp [h3, h4, h5, h6, h7, h8, h9, h10, h11, h12, h13, BitVec.ofNat_add, Nat.mul_add, BitVec.add_assoc]
  · rintro ⟨pc, g, y, c', m', r⟩ ⟨h0, h1, h2, h3, h4, h5, h6, h7, h8, h9, h10, h11, h12, h13⟩
    dsimp only at h0 h1 h2 h3 h4 h5 h6 h7 h8 h9 h10 h11 h12 h13
    simp only [Nat.mul_one] at h3 h4 h5 h6 h7 h8 h9 h10 h11 h12 h13 h2
    subst h0 h1 h2
    have hl : (BitVec.ofNat 64 (8 * K)).slt (BitVec.ofNat 64 (8 * K)) = false := by
      rw [slt_ofNat (by omega) (by omega)]; simp
    iterate 3 asm1 [h3, h4, h5, h6, h7, h8, h9, h10, h11, h12, h13, hl, Bool.false_eq_true]
    refine Wp.step rfl ?_
    simp only [exec, wpO_some]
    refine .refl ⟨rfl, ?_⟩
    simp only
    exact over_congr_n (dw_congr fun i hi => by rw [unfoldSt, if_pos (by omega)]) (by omega)

theorem floatModQInPlaceAVX2_spec {F : Fpu} {out : BitVec 64} {K c1 : Nat} (hn : K * 4 < 2 ^ 60)
    (g : Reg → BitVec 64) (y : Nat → Y) (m : Memory) {O : Nat → BitVec 64} (q qInv : BitVec 64)
    (hO : Holds m out (dw O) (2 * (K * 4))) :
    Returns F floatModQInPlaceAVX2 (sliceArg out (K * 4) c1 ++ (word64 q ++ word64 qInv)) (entry g y m)
      (over m out (dw fun i => redF F q qInv (O i)) (2 * (K * 4))) := by
  have e1 : target floatModQInPlaceAVX2 .loop_end = 15 := by decide
  have e2 : target floatModQInPlaceAVX2 .loop_body = 6 := by decide
  have sO : Ahead out out (2 * (K * 4)) := ahead_self out (by omega)
  generalize hR : (fun i => redF F q qInv (O i)) = R
  refine one_loop (V := 4) (K := K)
    (I1 := fun i s =>
      s.pc = 15 ∧ s.ret = false ∧ s.mem = over m out (dw R) (2 * i) ∧ s.gpr .DX = BitVec.ofNat 64 i ∧
      s.gpr .AX = out ∧ s.gpr .CX = BitVec.ofNat 64 (K * 4) ∧ s.ymm 0 = (ofQ fun _ => q) ∧ s.ymm 1 = ofQ fun _ => qInv)
    ?_ ?_ ?_
  · unfold entry
    have a0 : arg64 (sliceArg out (K * 4) c1 ++ (word64 q ++ word64 qInv)) 0 =
        some (out) := by
      simp only [arg64, arg32, sliceArg, word64]
      simp [join_split, join_ofNat]
    have a1 : arg64 (sliceArg out (K * 4) c1 ++ (word64 q ++ word64 qInv)) 8 =
        some (BitVec.ofNat 64 (K * 4)) := by
      simp only [arg64, arg32, sliceArg, word64]
      simp [join_split, join_ofNat]
    have a2 : arg64 (sliceArg out (K * 4) c1 ++ (word64 q ++ word64 qInv)) 24 =
        some (q) := by
      simp only [arg64, arg32, sliceArg, word64]
      simp [join_split, join_ofNat]
    have a3 : arg64 (sliceArg out (K * 4) c1 ++ (word64 q ++ word64 qInv)) 32 =
        some (qInv) := by
      simp only [arg64, arg32, sliceArg, word64]
      simp [join_split, join_ofNat]
    iterate 6 asm1 [a0, a1, a2, a3, e1, VOp.eval]
    refine .refl ?_
    simp [over_zero]
  · rintro k ⟨pc, g, y, c', m', r⟩ hk ⟨h0, h1, h2, h3, h4, h5, h6, h7⟩
    dsimp only at h0 h1 h2 h3 h4 h5 h6 h7
    subst h0 h1 h2
    have hkn : k * 4 + 4 ≤ K * 4 := by omega
    have hl : (BitVec.ofNat 64 (k * 4)).slt (BitVec.ofNat 64 (K * 4)) = true := by
      rw [slt_ofNat (by omega) (by omega), decide_eq_true_eq]; omega
    have l0 := loadN_over64_at (R := R) (k := k * 4) (k * 4) hO (by omega) (by omega) sO (addr8 out (k * 4))
    iterate 10 asm1 [e1, e2, h3, h4, h5, h6, h7, hl, l0, VOp.eval, mapQ_ofQ, qw_ofQ]
    refine Wp.step rfl ?_
    simp only [exec, ea, Function.update_apply, reduceCtorEq, Nat.reduceEqDiff, one_ne_zero, zero_ne_one, if_true, if_false, h3, h4, h5, h6, h7]
    refine wpO_map (storeN_over64 (n := K * 4) (k := k * 4) hO (by omega) hn (addr8 out (k * 4)) ?_) ?_
    · refine congrArg ofQ (funext fun q => ?_); rw [← hR]; rfl
    simp only [St.next]
    iterate 1 asm1 [h3, h4, h5, h6, h7]
    refine .refl ?_
    simp [h3, h4, h5, h6, h7, BitVec.ofNat_add, Nat.add_assoc]
  · rintro ⟨pc, g, y, c', m', r⟩ ⟨h0, h1, h2, h3, h4, h5, h6, h7⟩
    dsimp only at h0 h1 h2 h3 h4 h5 h6 h7
    subst h0 h1 h2
    have hl : (BitVec.ofNat 64 (K * 4)).slt (BitVec.ofNat 64 (K * 4)) = false := by
      rw [slt_ofNat (by omega) (by omega)]; simp
    iterate 3 asm1 [h3, h4, h5, h6, h7, hl, Bool.false_eq_true]
    refine Wp.step rfl ?_
    simp only [exec, wpO_some]
    refine .refl ⟨rfl, ?_⟩
    simp only

end Asm
end Tfhe
