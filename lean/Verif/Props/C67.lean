import Verif.Lemma.AsmCmplx
import Verif.Lemma.AsmFftMain
import Verif.Model.AsmPolyGo
import Verif.Props.C65

/-!
# C67: the AVX2 kernels of `math/poly` for transforms and for products of transforms

Which operations the kernels perform on the floats, in which order and with which fused products, for all inputs; that
they read and write nothing else.  The bit patterns and the operations of the processor on them (`Fpu`) are arbitrary.
-/
namespace Tfhe
namespace Asm

/-! ### Specification -/

/-- The complex number number `j` of a vector: of each block of eight floats four are real parts and four are imaginary
parts. -/
def at64 (v : List (BitVec 64)) (j : Nat) : BitVec 64 × BitVec 64 :=
  (v.getD (8 * (j / 4) + j % 4) 0, v.getD (8 * (j / 4) + j % 4 + 4) 0)

/-- The slice `s` of `complex128` holds `v`. -/
def HasC (m : Memory) (s : GoSlice) (v : List (BitVec 64 × BitVec 64)) : Prop :=
  s.len = v.length ∧ s.base.toNat % 4 = 0 ∧ ∀ i (h : i < v.length),
    m (s.base + BitVec.ofNat 64 (16 * i)) = some (v[i].1.setWidth 32) ∧
    m (s.base + BitVec.ofNat 64 (16 * i + 4)) = some ((v[i].1 >>> 32).setWidth 32) ∧
    m (s.base + BitVec.ofNat 64 (16 * i + 8)) = some (v[i].2.setWidth 32) ∧
    m (s.base + BitVec.ofNat 64 (16 * i + 12)) = some ((v[i].2 >>> 32).setWidth 32)

/-- The slice `t` of `complex128` and the slice `o` of `float64` have no word in common. -/
def ApartC (t o : GoSlice) : Prop :=
  ∀ i < 4 * t.len, ∀ j < 2 * o.len, t.base + BitVec.ofNat 64 (4 * i) ≠ o.base + BitVec.ofNat 64 (4 * j)

/-! ### The twelve kernels on vectors -/

theorem cmplx_result {m : Memory} {o : GoSlice} {vo : List (BitVec 64)} {K : Nat} (R : Nat → BitVec 64)
    (ho : Has64 m o vo) (hK : vo.length = K * 8) (hn : vo.length < 2 ^ 60) :
    ∃ v', Has64 (over m o.base (dw R) (2 * (K * 8))) o v' ∧ Outside64 m (over m o.base (dw R) (2 * (K * 8))) o ∧
      v'.length = vo.length ∧ ∀ j < vo.length / 2, at64 v' j = (R (8 * (j / 4) + j % 4), R (8 * (j / 4) + j % 4 + 4)) := by
  refine ⟨(List.range vo.length).map R, ?_, ?_, by simp, fun j hj => ?_⟩
  · rw [← hK]; exact has64_over ho ho.1 hn (by simp) fun i hi => by simp
  · rw [← hK]; exact outside64_over ho.1
  · have h1 : 8 * (j / 4) + j % 4 < vo.length := by omega
    have h2 : 8 * (j / 4) + j % 4 + 4 < vo.length := by omega
    simp [at64, h1, h2]

theorem cx_at (re im : Nat → BitVec 64) (j : Nat) :
    (cx re im (8 * (j / 4) + j % 4), cx re im (8 * (j / 4) + j % 4 + 4)) =
      (re (8 * (j / 4) + j % 4), im (8 * (j / 4) + j % 4)) := by
  have h1 : (8 * (j / 4) + j % 4) % 8 < 4 := by omega
  have h2 : ¬ (8 * (j / 4) + j % 4 + 4) % 8 < 4 := by omega
  rw [cx, cx, if_pos h1, if_neg h2, Nat.add_sub_cancel]

/-- `addCmplxTo`: sum. -/
theorem C67_addCmplxTo (F : Fpu) (g : Reg → BitVec 64) (y : Nat → Y) (m : Memory) (o a b : GoSlice)
    (vo va vb : List (BitVec 64)) (ho : Has64 m o vo) (ha : Has64 m a va) (hb : Has64 m b vb)
    (la : va.length = vo.length) (lb : vb.length = vo.length) (h8 : vo.length % 8 = 0) (hn : vo.length < 2 ^ 60)
    (aa : Alias 64 a o) (ab : Alias 64 b o) :
    ∃ m' v', addCmplxTo F o a b g y m m' ∧ Has64 m' o v' ∧ Outside64 m m' o ∧ v'.length = vo.length ∧
      ∀ j < vo.length / 2, at64 v' j =
        (F.add (at64 va j).1 (at64 vb j).1,
         F.add (at64 va j).2 (at64 vb j).2) := by
  obtain ⟨K, hK⟩ : ∃ K, vo.length = K * 8 := ⟨vo.length / 8, by omega⟩
  obtain ⟨lo, hO⟩ := holds64 ho
  obtain ⟨la', hA⟩ := holds64 ha
  rw [la, hK] at hA
  rw [hK] at hO
  have sA : Ahead a.base o.base (2 * (K * 8)) :=
    ahead_of (by have := alias64.1 aa; rwa [la', lo, la, hK] at this) (by omega)
  obtain ⟨lb', hB⟩ := holds64 hb
  rw [lb, hK] at hB
  have sB : Ahead b.base o.base (2 * (K * 8)) :=
    ahead_of (by have := alias64.1 ab; rwa [lb', lo, lb, hK] at this) (by omega)
  have r := addCmplxToAVX2_spec (c1 := o.cap) (c2 := a.cap) (c3 := b.cap) (F := F) (by omega) g y m hO hA hB sA sB
  obtain ⟨v', h1, h2, h3, h4⟩ := cmplx_result _ ho hK hn
  refine ⟨_, v', ?_, h1, h2, h3, fun j hj => ?_⟩
  · rw [addCmplxTo, GoSlice.arg, GoSlice.arg, GoSlice.arg, lo, la', la, lb', lb, hK]; exact r
  · rw [h4 j hj]; rfl

/-- `subCmplxTo`: difference. -/
theorem C67_subCmplxTo (F : Fpu) (g : Reg → BitVec 64) (y : Nat → Y) (m : Memory) (o a b : GoSlice)
    (vo va vb : List (BitVec 64)) (ho : Has64 m o vo) (ha : Has64 m a va) (hb : Has64 m b vb)
    (la : va.length = vo.length) (lb : vb.length = vo.length) (h8 : vo.length % 8 = 0) (hn : vo.length < 2 ^ 60)
    (aa : Alias 64 a o) (ab : Alias 64 b o) :
    ∃ m' v', subCmplxTo F o a b g y m m' ∧ Has64 m' o v' ∧ Outside64 m m' o ∧ v'.length = vo.length ∧
      ∀ j < vo.length / 2, at64 v' j =
        (F.sub (at64 va j).1 (at64 vb j).1,
         F.sub (at64 va j).2 (at64 vb j).2) := by
  obtain ⟨K, hK⟩ : ∃ K, vo.length = K * 8 := ⟨vo.length / 8, by omega⟩
  obtain ⟨lo, hO⟩ := holds64 ho
  obtain ⟨la', hA⟩ := holds64 ha
  rw [la, hK] at hA
  rw [hK] at hO
  have sA : Ahead a.base o.base (2 * (K * 8)) :=
    ahead_of (by have := alias64.1 aa; rwa [la', lo, la, hK] at this) (by omega)
  obtain ⟨lb', hB⟩ := holds64 hb
  rw [lb, hK] at hB
  have sB : Ahead b.base o.base (2 * (K * 8)) :=
    ahead_of (by have := alias64.1 ab; rwa [lb', lo, lb, hK] at this) (by omega)
  have r := subCmplxToAVX2_spec (c1 := o.cap) (c2 := a.cap) (c3 := b.cap) (F := F) (by omega) g y m hO hA hB sA sB
  obtain ⟨v', h1, h2, h3, h4⟩ := cmplx_result _ ho hK hn
  refine ⟨_, v', ?_, h1, h2, h3, fun j hj => ?_⟩
  · rw [subCmplxTo, GoSlice.arg, GoSlice.arg, GoSlice.arg, lo, la', la, lb', lb, hK]; exact r
  · rw [h4 j hj]; rfl

/-- `negCmplxTo`: negation, as a difference from +0. -/
theorem C67_negCmplxTo (F : Fpu) (g : Reg → BitVec 64) (y : Nat → Y) (m : Memory) (o a : GoSlice)
    (vo va : List (BitVec 64)) (ho : Has64 m o vo) (ha : Has64 m a va)
    (la : va.length = vo.length) (h8 : vo.length % 8 = 0) (hn : vo.length < 2 ^ 60)
    (aa : Alias 64 a o) :
    ∃ m' v', negCmplxTo F o a g y m m' ∧ Has64 m' o v' ∧ Outside64 m m' o ∧ v'.length = vo.length ∧
      ∀ j < vo.length / 2, at64 v' j =
        (F.sub 0 (at64 va j).1,
         F.sub 0 (at64 va j).2) := by
  obtain ⟨K, hK⟩ : ∃ K, vo.length = K * 8 := ⟨vo.length / 8, by omega⟩
  obtain ⟨lo, hO⟩ := holds64 ho
  obtain ⟨la', hA⟩ := holds64 ha
  rw [la, hK] at hA
  rw [hK] at hO
  have sA : Ahead a.base o.base (2 * (K * 8)) :=
    ahead_of (by have := alias64.1 aa; rwa [la', lo, la, hK] at this) (by omega)
  have r := negCmplxToAVX2_spec (c1 := o.cap) (c2 := a.cap) (F := F) (by omega) g y m hO hA sA
  obtain ⟨v', h1, h2, h3, h4⟩ := cmplx_result _ ho hK hn
  refine ⟨_, v', ?_, h1, h2, h3, fun j hj => ?_⟩
  · rw [negCmplxTo, GoSlice.arg, GoSlice.arg, lo, la', la, hK]; exact r
  · rw [h4 j hj]; rfl

/-- `floatMulCmplxTo`: product with a real number. -/
theorem C67_floatMulCmplxTo (F : Fpu) (g : Reg → BitVec 64) (y : Nat → Y) (m : Memory) (o a : GoSlice) (c : BitVec 64)
    (vo va : List (BitVec 64)) (ho : Has64 m o vo) (ha : Has64 m a va)
    (la : va.length = vo.length) (h8 : vo.length % 8 = 0) (hn : vo.length < 2 ^ 60)
    (aa : Alias 64 a o) :
    ∃ m' v', floatMulCmplxTo F o a c g y m m' ∧ Has64 m' o v' ∧ Outside64 m m' o ∧ v'.length = vo.length ∧
      ∀ j < vo.length / 2, at64 v' j =
        (F.mul (at64 va j).1 c,
         F.mul (at64 va j).2 c) := by
  obtain ⟨K, hK⟩ : ∃ K, vo.length = K * 8 := ⟨vo.length / 8, by omega⟩
  obtain ⟨lo, hO⟩ := holds64 ho
  obtain ⟨la', hA⟩ := holds64 ha
  rw [la, hK] at hA
  rw [hK] at hO
  have sA : Ahead a.base o.base (2 * (K * 8)) :=
    ahead_of (by have := alias64.1 aa; rwa [la', lo, la, hK] at this) (by omega)
  have r := floatMulCmplxToAVX2_spec (c1 := o.cap) (c2 := a.cap) (F := F) (by omega) g y m c hO hA sA
  obtain ⟨v', h1, h2, h3, h4⟩ := cmplx_result _ ho hK hn
  refine ⟨_, v', ?_, h1, h2, h3, fun j hj => ?_⟩
  · rw [floatMulCmplxTo, GoSlice.arg, GoSlice.arg, lo, la', la, hK]; exact r
  · rw [h4 j hj]; rfl

/-- `floatMulAddCmplxTo`: `vOut + c*v` with one rounding. -/
theorem C67_floatMulAddCmplxTo (F : Fpu) (g : Reg → BitVec 64) (y : Nat → Y) (m : Memory) (o a : GoSlice) (c : BitVec 64)
    (vo va : List (BitVec 64)) (ho : Has64 m o vo) (ha : Has64 m a va)
    (la : va.length = vo.length) (h8 : vo.length % 8 = 0) (hn : vo.length < 2 ^ 60)
    (aa : Alias 64 a o) :
    ∃ m' v', floatMulAddCmplxTo F o a c g y m m' ∧ Has64 m' o v' ∧ Outside64 m m' o ∧ v'.length = vo.length ∧
      ∀ j < vo.length / 2, at64 v' j =
        (F.fma (at64 va j).1 c (at64 vo j).1,
         F.fma (at64 va j).2 c (at64 vo j).2) := by
  obtain ⟨K, hK⟩ : ∃ K, vo.length = K * 8 := ⟨vo.length / 8, by omega⟩
  obtain ⟨lo, hO⟩ := holds64 ho
  obtain ⟨la', hA⟩ := holds64 ha
  rw [la, hK] at hA
  rw [hK] at hO
  have sA : Ahead a.base o.base (2 * (K * 8)) :=
    ahead_of (by have := alias64.1 aa; rwa [la', lo, la, hK] at this) (by omega)
  have r := floatMulAddCmplxToAVX2_spec (c1 := o.cap) (c2 := a.cap) (F := F) (by omega) g y m c hO hA sA
  obtain ⟨v', h1, h2, h3, h4⟩ := cmplx_result _ ho hK hn
  refine ⟨_, v', ?_, h1, h2, h3, fun j hj => ?_⟩
  · rw [floatMulAddCmplxTo, GoSlice.arg, GoSlice.arg, lo, la', la, hK]; exact r
  · rw [h4 j hj]; rfl

/-- `floatMulSubCmplxTo`: `vOut - c*v` with one rounding. -/
theorem C67_floatMulSubCmplxTo (F : Fpu) (g : Reg → BitVec 64) (y : Nat → Y) (m : Memory) (o a : GoSlice) (c : BitVec 64)
    (vo va : List (BitVec 64)) (ho : Has64 m o vo) (ha : Has64 m a va)
    (la : va.length = vo.length) (h8 : vo.length % 8 = 0) (hn : vo.length < 2 ^ 60)
    (aa : Alias 64 a o) :
    ∃ m' v', floatMulSubCmplxTo F o a c g y m m' ∧ Has64 m' o v' ∧ Outside64 m m' o ∧ v'.length = vo.length ∧
      ∀ j < vo.length / 2, at64 v' j =
        (F.fnma (at64 va j).1 c (at64 vo j).1,
         F.fnma (at64 va j).2 c (at64 vo j).2) := by
  obtain ⟨K, hK⟩ : ∃ K, vo.length = K * 8 := ⟨vo.length / 8, by omega⟩
  obtain ⟨lo, hO⟩ := holds64 ho
  obtain ⟨la', hA⟩ := holds64 ha
  rw [la, hK] at hA
  rw [hK] at hO
  have sA : Ahead a.base o.base (2 * (K * 8)) :=
    ahead_of (by have := alias64.1 aa; rwa [la', lo, la, hK] at this) (by omega)
  have r := floatMulSubCmplxToAVX2_spec (c1 := o.cap) (c2 := a.cap) (F := F) (by omega) g y m c hO hA sA
  obtain ⟨v', h1, h2, h3, h4⟩ := cmplx_result _ ho hK hn
  refine ⟨_, v', ?_, h1, h2, h3, fun j hj => ?_⟩
  · rw [floatMulSubCmplxTo, GoSlice.arg, GoSlice.arg, lo, la', la, hK]; exact r
  · rw [h4 j hj]; rfl

/-- `cmplxMulCmplxTo`: product with a complex number, with two roundings in each part. -/
theorem C67_cmplxMulCmplxTo (F : Fpu) (g : Reg → BitVec 64) (y : Nat → Y) (m : Memory) (o a : GoSlice) (cR cI : BitVec 64)
    (vo va : List (BitVec 64)) (ho : Has64 m o vo) (ha : Has64 m a va)
    (la : va.length = vo.length) (h8 : vo.length % 8 = 0) (hn : vo.length < 2 ^ 60)
    (aa : Alias 64 a o) :
    ∃ m' v', cmplxMulCmplxTo F o a cR cI g y m m' ∧ Has64 m' o v' ∧ Outside64 m m' o ∧ v'.length = vo.length ∧
      ∀ j < vo.length / 2, at64 v' j =
        (F.fnma (at64 va j).2 cI (F.mul (at64 va j).1 cR),
         F.fma (at64 va j).1 cI (F.mul (at64 va j).2 cR)) := by
  obtain ⟨K, hK⟩ : ∃ K, vo.length = K * 8 := ⟨vo.length / 8, by omega⟩
  obtain ⟨lo, hO⟩ := holds64 ho
  obtain ⟨la', hA⟩ := holds64 ha
  rw [la, hK] at hA
  rw [hK] at hO
  have sA : Ahead a.base o.base (2 * (K * 8)) :=
    ahead_of (by have := alias64.1 aa; rwa [la', lo, la, hK] at this) (by omega)
  have r := cmplxMulCmplxToAVX2_spec (c1 := o.cap) (c2 := a.cap) (F := F) (by omega) g y m cR cI hO hA sA
  obtain ⟨v', h1, h2, h3, h4⟩ := cmplx_result _ ho hK hn
  refine ⟨_, v', ?_, h1, h2, h3, fun j hj => ?_⟩
  · rw [cmplxMulCmplxTo, GoSlice.arg, GoSlice.arg, lo, la', la, hK]; exact r
  · rw [h4 j hj]; exact cx_at _ _ _

/-- `cmplxMulAddCmplxTo`: `vOut + c*v`, with two roundings in each part. -/
theorem C67_cmplxMulAddCmplxTo (F : Fpu) (g : Reg → BitVec 64) (y : Nat → Y) (m : Memory) (o a : GoSlice) (cR cI : BitVec 64)
    (vo va : List (BitVec 64)) (ho : Has64 m o vo) (ha : Has64 m a va)
    (la : va.length = vo.length) (h8 : vo.length % 8 = 0) (hn : vo.length < 2 ^ 60)
    (aa : Alias 64 a o) :
    ∃ m' v', cmplxMulAddCmplxTo F o a cR cI g y m m' ∧ Has64 m' o v' ∧ Outside64 m m' o ∧ v'.length = vo.length ∧
      ∀ j < vo.length / 2, at64 v' j =
        (F.fnma (at64 va j).2 cI (F.fma (at64 va j).1 cR (at64 vo j).1),
         F.fma (at64 va j).1 cI (F.fma (at64 va j).2 cR (at64 vo j).2)) := by
  obtain ⟨K, hK⟩ : ∃ K, vo.length = K * 8 := ⟨vo.length / 8, by omega⟩
  obtain ⟨lo, hO⟩ := holds64 ho
  obtain ⟨la', hA⟩ := holds64 ha
  rw [la, hK] at hA
  rw [hK] at hO
  have sA : Ahead a.base o.base (2 * (K * 8)) :=
    ahead_of (by have := alias64.1 aa; rwa [la', lo, la, hK] at this) (by omega)
  have r := cmplxMulAddCmplxToAVX2_spec (c1 := o.cap) (c2 := a.cap) (F := F) (by omega) g y m cR cI hO hA sA
  obtain ⟨v', h1, h2, h3, h4⟩ := cmplx_result _ ho hK hn
  refine ⟨_, v', ?_, h1, h2, h3, fun j hj => ?_⟩
  · rw [cmplxMulAddCmplxTo, GoSlice.arg, GoSlice.arg, lo, la', la, hK]; exact r
  · rw [h4 j hj]; exact cx_at _ _ _

/-- `cmplxMulSubCmplxTo`: `vOut - c*v`, with two roundings in each part. -/
theorem C67_cmplxMulSubCmplxTo (F : Fpu) (g : Reg → BitVec 64) (y : Nat → Y) (m : Memory) (o a : GoSlice) (cR cI : BitVec 64)
    (vo va : List (BitVec 64)) (ho : Has64 m o vo) (ha : Has64 m a va)
    (la : va.length = vo.length) (h8 : vo.length % 8 = 0) (hn : vo.length < 2 ^ 60)
    (aa : Alias 64 a o) :
    ∃ m' v', cmplxMulSubCmplxTo F o a cR cI g y m m' ∧ Has64 m' o v' ∧ Outside64 m m' o ∧ v'.length = vo.length ∧
      ∀ j < vo.length / 2, at64 v' j =
        (F.fma (at64 va j).2 cI (F.fnma (at64 va j).1 cR (at64 vo j).1),
         F.fnma (at64 va j).1 cI (F.fnma (at64 va j).2 cR (at64 vo j).2)) := by
  obtain ⟨K, hK⟩ : ∃ K, vo.length = K * 8 := ⟨vo.length / 8, by omega⟩
  obtain ⟨lo, hO⟩ := holds64 ho
  obtain ⟨la', hA⟩ := holds64 ha
  rw [la, hK] at hA
  rw [hK] at hO
  have sA : Ahead a.base o.base (2 * (K * 8)) :=
    ahead_of (by have := alias64.1 aa; rwa [la', lo, la, hK] at this) (by omega)
  have r := cmplxMulSubCmplxToAVX2_spec (c1 := o.cap) (c2 := a.cap) (F := F) (by omega) g y m cR cI hO hA sA
  obtain ⟨v', h1, h2, h3, h4⟩ := cmplx_result _ ho hK hn
  refine ⟨_, v', ?_, h1, h2, h3, fun j hj => ?_⟩
  · rw [cmplxMulSubCmplxTo, GoSlice.arg, GoSlice.arg, lo, la', la, hK]; exact r
  · rw [h4 j hj]; exact cx_at _ _ _

/-- `mulCmplxTo`: product, with two roundings in each part. -/
theorem C67_mulCmplxTo (F : Fpu) (g : Reg → BitVec 64) (y : Nat → Y) (m : Memory) (o a b : GoSlice)
    (vo va vb : List (BitVec 64)) (ho : Has64 m o vo) (ha : Has64 m a va) (hb : Has64 m b vb)
    (la : va.length = vo.length) (lb : vb.length = vo.length) (h8 : vo.length % 8 = 0) (hn : vo.length < 2 ^ 60)
    (aa : Alias 64 a o) (ab : Alias 64 b o) :
    ∃ m' v', mulCmplxTo F o a b g y m m' ∧ Has64 m' o v' ∧ Outside64 m m' o ∧ v'.length = vo.length ∧
      ∀ j < vo.length / 2, at64 v' j =
        (F.fnma (at64 vb j).2 (at64 va j).2 (F.mul (at64 vb j).1 (at64 va j).1),
         F.fma (at64 vb j).1 (at64 va j).2 (F.mul (at64 vb j).2 (at64 va j).1)) := by
  obtain ⟨K, hK⟩ : ∃ K, vo.length = K * 8 := ⟨vo.length / 8, by omega⟩
  obtain ⟨lo, hO⟩ := holds64 ho
  obtain ⟨la', hA⟩ := holds64 ha
  rw [la, hK] at hA
  rw [hK] at hO
  have sA : Ahead a.base o.base (2 * (K * 8)) :=
    ahead_of (by have := alias64.1 aa; rwa [la', lo, la, hK] at this) (by omega)
  obtain ⟨lb', hB⟩ := holds64 hb
  rw [lb, hK] at hB
  have sB : Ahead b.base o.base (2 * (K * 8)) :=
    ahead_of (by have := alias64.1 ab; rwa [lb', lo, lb, hK] at this) (by omega)
  have r := mulCmplxToAVX2_spec (c1 := o.cap) (c2 := a.cap) (c3 := b.cap) (F := F) (by omega) g y m hO hA hB sA sB
  obtain ⟨v', h1, h2, h3, h4⟩ := cmplx_result _ ho hK hn
  refine ⟨_, v', ?_, h1, h2, h3, fun j hj => ?_⟩
  · rw [mulCmplxTo, GoSlice.arg, GoSlice.arg, GoSlice.arg, lo, la', la, lb', lb, hK]; exact r
  · rw [h4 j hj]; exact cx_at _ _ _

/-- `mulAddCmplxTo`: `vOut + v0*v1`, with two roundings in each part. -/
theorem C67_mulAddCmplxTo (F : Fpu) (g : Reg → BitVec 64) (y : Nat → Y) (m : Memory) (o a b : GoSlice)
    (vo va vb : List (BitVec 64)) (ho : Has64 m o vo) (ha : Has64 m a va) (hb : Has64 m b vb)
    (la : va.length = vo.length) (lb : vb.length = vo.length) (h8 : vo.length % 8 = 0) (hn : vo.length < 2 ^ 60)
    (aa : Alias 64 a o) (ab : Alias 64 b o) :
    ∃ m' v', mulAddCmplxTo F o a b g y m m' ∧ Has64 m' o v' ∧ Outside64 m m' o ∧ v'.length = vo.length ∧
      ∀ j < vo.length / 2, at64 v' j =
        (F.fnma (at64 vb j).2 (at64 va j).2 (F.fma (at64 vb j).1 (at64 va j).1 (at64 vo j).1),
         F.fma (at64 vb j).1 (at64 va j).2 (F.fma (at64 vb j).2 (at64 va j).1 (at64 vo j).2)) := by
  obtain ⟨K, hK⟩ : ∃ K, vo.length = K * 8 := ⟨vo.length / 8, by omega⟩
  obtain ⟨lo, hO⟩ := holds64 ho
  obtain ⟨la', hA⟩ := holds64 ha
  rw [la, hK] at hA
  rw [hK] at hO
  have sA : Ahead a.base o.base (2 * (K * 8)) :=
    ahead_of (by have := alias64.1 aa; rwa [la', lo, la, hK] at this) (by omega)
  obtain ⟨lb', hB⟩ := holds64 hb
  rw [lb, hK] at hB
  have sB : Ahead b.base o.base (2 * (K * 8)) :=
    ahead_of (by have := alias64.1 ab; rwa [lb', lo, lb, hK] at this) (by omega)
  have r := mulAddCmplxToAVX2_spec (c1 := o.cap) (c2 := a.cap) (c3 := b.cap) (F := F) (by omega) g y m hO hA hB sA sB
  obtain ⟨v', h1, h2, h3, h4⟩ := cmplx_result _ ho hK hn
  refine ⟨_, v', ?_, h1, h2, h3, fun j hj => ?_⟩
  · rw [mulAddCmplxTo, GoSlice.arg, GoSlice.arg, GoSlice.arg, lo, la', la, lb', lb, hK]; exact r
  · rw [h4 j hj]; exact cx_at _ _ _

/-- `mulSubCmplxTo`: `vOut - v0*v1`, with two roundings in each part. -/
theorem C67_mulSubCmplxTo (F : Fpu) (g : Reg → BitVec 64) (y : Nat → Y) (m : Memory) (o a b : GoSlice)
    (vo va vb : List (BitVec 64)) (ho : Has64 m o vo) (ha : Has64 m a va) (hb : Has64 m b vb)
    (la : va.length = vo.length) (lb : vb.length = vo.length) (h8 : vo.length % 8 = 0) (hn : vo.length < 2 ^ 60)
    (aa : Alias 64 a o) (ab : Alias 64 b o) :
    ∃ m' v', mulSubCmplxTo F o a b g y m m' ∧ Has64 m' o v' ∧ Outside64 m m' o ∧ v'.length = vo.length ∧
      ∀ j < vo.length / 2, at64 v' j =
        (F.fma (at64 vb j).2 (at64 va j).2 (F.fnma (at64 vb j).1 (at64 va j).1 (at64 vo j).1),
         F.fnma (at64 vb j).1 (at64 va j).2 (F.fnma (at64 vb j).2 (at64 va j).1 (at64 vo j).2)) := by
  obtain ⟨K, hK⟩ : ∃ K, vo.length = K * 8 := ⟨vo.length / 8, by omega⟩
  obtain ⟨lo, hO⟩ := holds64 ho
  obtain ⟨la', hA⟩ := holds64 ha
  rw [la, hK] at hA
  rw [hK] at hO
  have sA : Ahead a.base o.base (2 * (K * 8)) :=
    ahead_of (by have := alias64.1 aa; rwa [la', lo, la, hK] at this) (by omega)
  obtain ⟨lb', hB⟩ := holds64 hb
  rw [lb, hK] at hB
  have sB : Ahead b.base o.base (2 * (K * 8)) :=
    ahead_of (by have := alias64.1 ab; rwa [lb', lo, lb, hK] at this) (by omega)
  have r := mulSubCmplxToAVX2_spec (c1 := o.cap) (c2 := a.cap) (c3 := b.cap) (F := F) (by omega) g y m hO hA hB sA sB
  obtain ⟨v', h1, h2, h3, h4⟩ := cmplx_result _ ho hK hn
  refine ⟨_, v', ?_, h1, h2, h3, fun j hj => ?_⟩
  · rw [mulSubCmplxTo, GoSlice.arg, GoSlice.arg, GoSlice.arg, lo, la', la, lb', lb, hK]; exact r
  · rw [h4 j hj]; exact cx_at _ _ _

/-! ### The transforms -/

/-- The butterfly of the forward kernel: the product of the second operand and the twiddle factor has two roundings in each
part. -/
def fwdRow (F : Fpu) (uR uI vR vI wR wI : BitVec 64) : BitVec 64 × BitVec 64 × BitVec 64 × BitVec 64 :=
  (F.add uR (F.fnma vI wI (F.mul vR wR)), F.add uI (F.fma vI wR (F.mul vR wI)),
   F.sub uR (F.fnma vI wI (F.mul vR wR)), F.sub uI (F.fma vI wR (F.mul vR wI)))

/-- In the last stage of the forward kernel the other product is rounded first, and the product is negated. -/
def fwdNeighbours (F : Fpu) (uR uI vR vI wR wI : BitVec 64) : BitVec 64 × BitVec 64 × BitVec 64 × BitVec 64 :=
  (F.sub uR (F.sub 0 (F.fms vR wR (F.mul vI wI))), F.sub uI (F.sub 0 (F.fma vR wI (F.mul vI wR))),
   F.add uR (F.sub 0 (F.fms vR wR (F.mul vI wI))), F.add uI (F.sub 0 (F.fma vR wI (F.mul vI wR))))

/-- The butterfly of the inverse kernel. -/
def invRow (F : Fpu) (uR uI vR vI wR wI : BitVec 64) : BitVec 64 × BitVec 64 × BitVec 64 × BitVec 64 :=
  (F.add uR vR, F.add uI vI, F.fnma (F.sub uI vI) wI (F.mul (F.sub uR vR) wR),
   F.fma (F.sub uI vI) wR (F.mul (F.sub uR vR) wI))

/-- In the first stage of the inverse kernel the other product is rounded first. -/
def invNeighbours (F : Fpu) (uR uI vR vI wR wI : BitVec 64) : BitVec 64 × BitVec 64 × BitVec 64 × BitVec 64 :=
  (F.add uR vR, F.add uI vI, F.fms (F.sub uR vR) wR (F.mul (F.sub uI vI) wI),
   F.fma (F.sub uR vR) wI (F.mul (F.sub uI vI) wR))

theorem table_of {m : Memory} {o t : GoSlice} {vo : List (BitVec 64)} {tw : List (BitVec 64 × BitVec 64)}
    (ho : Has64 m o vo) (ht : HasC m t tw) (hd : ApartC t o) (hn : vo.length < 2 ^ 58) (hL : tw.length < 2 ^ 58) :
    Table m o.base t.base (fun i => tw.getD i (0, 0)) vo.length tw.length := by
  refine ⟨ho.2.1, ⟨ht.2.1, fun j hj => ?_⟩, fun i hi j hj => ?_, hn, hL⟩
  · have hi : j / 4 < tw.length := by omega
    obtain ⟨h1, h2, h3, h4⟩ := ht.2.2 _ hi
    have hv : tw.getD (j / 4) (0, 0) = tw[j / 4] := by simp [hi]
    have hr : flat (fun i => tw.getD i (0, 0)) (2 * (j / 4)) = tw[j / 4].1 := by rw [flat_re, hv]
    have hm : flat (fun i => tw.getD i (0, 0)) (2 * (j / 4) + 1) = tw[j / 4].2 := by rw [flat_im, hv]
    have h := Nat.mod_lt j (show 4 > 0 by norm_num)
    have hj4 : j = 4 * (j / 4) + j % 4 := by omega
    generalize hk : j % 4 = k at *
    rw [← hr] at h1 h2
    rw [← hm] at h3 h4
    interval_cases k
    · rw [hj4, show 4 * (j / 4) + 0 = 2 * (2 * (j / 4)) by omega, dw_even, ← h1]; congr 3; omega
    · rw [hj4, show 4 * (j / 4) + 1 = 2 * (2 * (j / 4)) + 1 by omega, dw_odd, ← h2]; congr 3; omega
    · rw [hj4, show 4 * (j / 4) + 2 = 2 * (2 * (j / 4) + 1) by omega, dw_even, ← h3]; congr 3; omega
    · rw [hj4, show 4 * (j / 4) + 3 = 2 * (2 * (j / 4) + 1) + 1 by omega, dw_odd, ← h4]; congr 3; omega
  · exact hd i (by rw [ht.1]; omega) j (by rw [ho.1]; omega)

/-- `fwdFFTInPlace`: the loops of the Go function with the butterflies of the kernel. -/
theorem C67_fwdFFTInPlace (F : Fpu) (g : Reg → BitVec 64) (y : Nat → Y) (m : Memory) (o t : GoSlice) (vo : List (BitVec 64))
    (tw : List (BitVec 64 × BitVec 64)) (l : Nat) (ho : Has64 m o vo) (ht : HasC m t tw) (hd : ApartC t o)
    (hl : vo.length = 2 ^ (l + 4)) (hL : vo.length / 2 ≤ tw.length + 1) (hn : vo.length < 2 ^ 58) (hL' : tw.length < 2 ^ 58) :
    ∃ m', fwdFFTInPlace F o t g y m m' ∧ Outside64 m m' o ∧
      Has64 m' o ((List.range vo.length).map (Fft.fwdFFTStages (fwdRow F) (fwdNeighbours F) vo.length
        (fun i => vo.getD i 0) (fun i => tw.getD i (0, 0)))) := by
  have r := fwdFFTInPlaceAVX2_spec (F := F) (c1 := o.cap) (c2 := t.cap) (L := tw.length) (l := l) g y m
    (by rw [← hl]; exact (holds64 ho).2) (by rw [← hl]; exact table_of ho ht hd hn hL')
    (by rw [hl, pow_succ (n := l + 3)] at hL; omega)
  rw [← hl] at r
  refine ⟨_, (by rw [fwdFFTInPlace, GoSlice.arg, GoSlice.arg, ho.1, ht.1]; exact r), ?_, ?_⟩
  · exact outside64_over ho.1
  · exact has64_over ho ho.1 (by omega) (by simp) fun i hi => by simp; rfl

/-- `invFFTInPlace`: the loops of the Go function with the butterflies of the kernel, and a product at the end where the Go
function divides. -/
theorem C67_invFFTInPlace (F : Fpu) (g : Reg → BitVec 64) (y : Nat → Y) (m : Memory) (o t : GoSlice) (scale : BitVec 64)
    (vo : List (BitVec 64)) (tw : List (BitVec 64 × BitVec 64)) (l : Nat) (ho : Has64 m o vo) (ht : HasC m t tw)
    (hd : ApartC t o) (hl : vo.length = 2 ^ (l + 4)) (hL : vo.length / 2 ≤ tw.length + 1) (hn : vo.length < 2 ^ 58)
    (hL' : tw.length < 2 ^ 58) :
    ∃ m', invFFTInPlace F o t scale g y m m' ∧ Outside64 m m' o ∧
      Has64 m' o ((List.range vo.length).map (Fft.invFFTStages (invRow F) (invNeighbours F) (fun v => F.mul v scale) vo.length
        (fun i => vo.getD i 0) (fun i => tw.getD i (0, 0)))) := by
  have r := invFFTInPlaceAVX2_spec (F := F) (c1 := o.cap) (c2 := t.cap) (L := tw.length) (l := l) (z := scale) g y m
    (by rw [← hl]; exact (holds64 ho).2) (by rw [← hl]; exact table_of ho ht hd hn hL')
    (by rw [hl, pow_succ (n := l + 3)] at hL; omega)
  rw [← hl] at r
  refine ⟨_, (by rw [invFFTInPlace, GoSlice.arg, GoSlice.arg, ho.1, ht.1]; exact r), ?_, ?_⟩
  · exact outside64_over ho.1
  · exact has64_over ho ho.1 (by omega) (by simp) fun i hi => by simp; rfl

/-! ### Exact arithmetic

With operations that do not round the kernels are the exact transforms of the model, so they perform the same products and
sums.  The integers modulo `2^64` are used because they are words that have exact operations. -/

/-- Exact operations on words. -/
def ringFpu : Fpu where
  add a b := a + b
  sub a b := a - b
  mul a b := a * b
  fma a b c := a * b + c
  fnma a b c := c - a * b
  fms a b c := a * b - c
  rne a := a
  ofI32 a := a.signExtend 64
  toI32 a := a.setWidth 32

section Ring
variable {R : Type} [CommRing R] (uR uI vR vI wR wI : R)

theorem ring_fwdRow : ((uR + (vR * wR - vI * wI), uI + (vI * wR + vR * wI), uR - (vR * wR - vI * wI),
    uI - (vI * wR + vR * wI)) : R × R × R × R) = Fft.fwdButterfly uR uI vR vI wR wI := by
  simp only [Fft.fwdButterfly, add_comm (vI * wR)]

theorem ring_fwdNeighbours : ((uR - (0 - (vR * wR - vI * wI)), uI - (0 - (vR * wI + vI * wR)),
    uR + (0 - (vR * wR - vI * wI)), uI + (0 - (vR * wI + vI * wR))) : R × R × R × R) =
      Fft.fwdButterfly uR uI vR vI wR wI := by
  simp only [Fft.fwdButterfly, Prod.mk.injEq]; refine ⟨?_, ?_, ?_, ?_⟩ <;> ring

theorem ring_invRow : ((uR + vR, uI + vI, (uR - vR) * wR - (uI - vI) * wI, (uI - vI) * wR + (uR - vR) * wI) : R × R × R × R) =
    Fft.invButterfly uR uI vR vI wR wI := by
  simp only [Fft.invButterfly, add_comm ((uI - vI) * wR)]

theorem ring_invNeighbours : ((uR + vR, uI + vI, (uR - vR) * wR - (uI - vI) * wI, (uR - vR) * wI + (uI - vI) * wR) :
    R × R × R × R) = Fft.invButterfly uR uI vR vI wR wI := rfl

end Ring

theorem C67_exact_fwd (N : Nat) (x : Nat → BitVec 64) (tw : Nat → BitVec 64 × BitVec 64) :
    Fft.fwdFFTStages (fwdRow ringFpu) (fwdNeighbours ringFpu) N x tw = Fft.fwdFFTInPlace N x tw := by
  have h1 : fwdRow ringFpu = Fft.fwdButterfly := by
    funext uR uI vR vI wR wI; exact ring_fwdRow uR uI vR vI wR wI
  have h2 : fwdNeighbours ringFpu = Fft.fwdButterfly := by
    funext uR uI vR vI wR wI; exact ring_fwdNeighbours uR uI vR vI wR wI
  rw [h1, h2, Fft.fwdFFTStages_self]; rfl

theorem C67_exact_inv (N : Nat) (scale : BitVec 64 → BitVec 64) (x : Nat → BitVec 64) (tw : Nat → BitVec 64 × BitVec 64) :
    Fft.invFFTStages (invRow ringFpu) (invNeighbours ringFpu) scale N x tw =
      Fft.invFFTWith Fft.invButterfly scale N x tw := by
  have h1 : invRow ringFpu = Fft.invButterfly := by
    funext uR uI vR vI wR wI; exact ring_invRow uR uI vR vI wR wI
  have h2 : invNeighbours ringFpu = Fft.invButterfly := by
    funext uR uI vR vI wR wI; exact ring_invNeighbours uR uI vR vI wR wI
  rw [h1, h2, Fft.invFFTStages_self]

/-! ### The results are unique -/

/-- A program that returns has one result. -/
theorem C67_deterministic (F : Fpu) (P : Prog) (fp : List (BitVec 32)) (s : St) (m1 m2 : Memory)
    (h1 : Returns F P fp s m1) (h2 : Returns F P fp s m2) : m1 = m2 := by
  obtain ⟨n1, t1, e1, r1, rfl⟩ := h1
  obtain ⟨n2, t2, e2, r2, rfl⟩ := h2
  have a1 := steps_add (F := F) (P := P) (fp := fp) n1 n2 s
  have a2 := steps_add (F := F) (P := P) (fp := fp) n2 n1 s
  rw [e1, Option.bind_some, steps_ret r1] at a1
  rw [e2, Option.bind_some, steps_ret r2, Nat.add_comm, a1] at a2
  rw [Option.some.inj a2]

/-! ### Different from the Go functions -/

/-- On a processor with `0 - 0 = +0`, `negCmplxTo` leaves `+0` where the negation of Go gives `-0`. -/
theorem C67_neg_zero (F : Fpu) (hF : F.sub 0 0 = 0) (g : Reg → BitVec 64) (y : Nat → Y) (m : Memory) (o : GoSlice)
    (ho : Has64 m o (List.replicate 8 0)) :
    ∃ m', negCmplxTo F o o g y m m' ∧ Has64 m' o (List.replicate 8 0) := by
  obtain ⟨m', v', h1, h2, -, h4, h5⟩ := C67_negCmplxTo F g y m o o _ _ ho ho rfl rfl (by simp) (.inl rfl)
  refine ⟨m', h1, ?_⟩
  have : v' = List.replicate 8 0 := by
    have e : ∀ j < 4, at64 v' j = (0, 0) := fun j hj => by
      rw [h5 j (by simpa using hj)]; interval_cases j <;> exact Prod.ext hF hF
    refine List.ext_getElem (by simpa using h4) fun i hi hi' => ?_
    have hi8 : i < 8 := by simpa using hi'
    have e0 := e 0 (by norm_num); have e1 := e 1 (by norm_num); have e2 := e 2 (by norm_num); have e3 := e 3 (by norm_num)
    simp only [at64, Prod.mk.injEq] at e0 e1 e2 e3
    have : v'.getD i 0 = 0 := by interval_cases i <;> simp_all
    rw [List.getElem_replicate]; simpa [hi] using this
  rw [← this]; exact h2

/-! ### Concrete cases -/

/-- The numbers in `rampMem` from address `a`. -/
def ramp64 (a n : Nat) : List (BitVec 64) :=
  (List.range n).map fun i => BitVec.ofNat 64 ((a / 4 + 2 * i + 1) * 2 ^ 32 + (a / 4 + 2 * i))

/-- Four complex numbers; the product is written over the first operand. -/
example : ∃ m' v', mulCmplxTo ringFpu ⟨64, 8, 8⟩ ⟨64, 8, 8⟩ ⟨128, 8, 8⟩ (fun _ => 0) (fun _ _ => 0) rampMem m' ∧
    Has64 m' ⟨64, 8, 8⟩ v' ∧ Outside64 rampMem m' ⟨64, 8, 8⟩ ∧ v'.length = 8 ∧
    at64 v' 1 = (0x1300000012 * 0x2300000022 - 0x1b0000001a * 0x2b0000002a,
      0x2300000022 * 0x1b0000001a + 0x2b0000002a * 0x1300000012) := by
  obtain ⟨m', v', h1, h2, h3, h4, h5⟩ := C67_mulCmplxTo ringFpu (fun _ => 0) (fun _ _ => 0) rampMem ⟨64, 8, 8⟩ ⟨64, 8, 8⟩
    ⟨128, 8, 8⟩ (ramp64 64 8) (ramp64 64 8) (ramp64 128 8) ⟨rfl, rfl, by decide +kernel⟩ ⟨rfl, rfl, by decide +kernel⟩
    ⟨rfl, rfl, by decide +kernel⟩ (by decide +kernel) (by decide +kernel) (by decide +kernel) (by decide +kernel) (.inl rfl) (.inr (by decide +kernel))
  exact ⟨m', v', h1, h2, h3, h4, (h5 1 (by decide +kernel)).trans (by decide +kernel)⟩

/-- A memory of 100 words, from address 64. -/
def wideMem : Memory := fun a =>
  if 64 ≤ a.toNat ∧ a.toNat < 464 then some (BitVec.ofNat 32 (a.toNat / 4)) else none

/-- Sixteen floats and seven twiddle factors. -/
example : ∃ m', fwdFFTInPlace ringFpu ⟨64, 16, 16⟩ ⟨192, 7, 7⟩ (fun _ => 0) (fun _ _ => 0) wideMem m' ∧
    Outside64 wideMem m' ⟨64, 16, 16⟩ ∧ Has64 m' ⟨64, 16, 16⟩ ((List.range 16).map (Fft.fwdFFTInPlace 16
      (fun i => (ramp64 64 16).getD i 0) (fun i => ((List.range 7).map fun k =>
        ((ramp64 192 14).getD (2 * k) 0, (ramp64 192 14).getD (2 * k + 1) 0)).getD i (0, 0)))) := by
  rw [← C67_exact_fwd]
  exact C67_fwdFFTInPlace ringFpu _ _ wideMem ⟨64, 16, 16⟩ ⟨192, 7, 7⟩ (ramp64 64 16) _ 0 ⟨rfl, rfl, by decide +kernel⟩
    ⟨rfl, rfl, by decide +kernel⟩ (by unfold ApartC; decide +kernel) rfl (by decide +kernel) (by decide +kernel) (by decide +kernel)

end Asm
end Tfhe
