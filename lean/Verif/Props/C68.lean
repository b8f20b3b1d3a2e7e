import Verif.Lemma.AsmFoldVal
import Verif.Model.Fft
import Verif.Props.C67

/-!
# C68: the AVX2 kernels of `math/poly` that convert between words and floats

What is asked of the processor is `IeeeFpu` (`Spec/Float64.lean`): exact results rounded by some monotone function that leaves the
numbers of the format alone, `VROUNDPD` to the nearest integer, and the two conversions of 32-bit integers.
-/
namespace Tfhe
namespace Asm

/-! ### Specification -/

/-- The slices `a`, with `p` words per element, and `o`, with `q`, have no word in common. -/
def Separate (a : GoSlice) (p : Nat) (o : GoSlice) (q : Nat) : Prop :=
  ∀ i < p * a.len, ∀ j < q * o.len, a.base + BitVec.ofNat 64 (4 * i) ≠ o.base + BitVec.ofNat 64 (4 * j)

/-- `uint64(x)` of a float, modulo `2^64`, for values between `-2^64` and `2^64`; all others, infinities and NaN give 0. -/
def truncMod64 (x : BitVec 64) : BitVec 64 :=
  if f64Exp x = 2047 ∨ 2 ^ 64 ≤ f64Abs x then 0
  else BitVec.ofInt 64 (if x.msb then -(⌊f64Abs x⌋₊ : ℤ) else ⌊f64Abs x⌋₊)

/-- The bits of the nearest integer to the number `x`, modulo `2^w`. -/
def IsNearestMod (w : Nat) (x : BitVec 64) (r : BitVec w) : Prop := ∃ k, NearestEven (f64Val x) k ∧ r = BitVec.ofInt w k

/-! ### Kernels -/

theorem truncI64_eq (x : BitVec 64) : truncI64 x = truncMod64 x := by
  have hlt : f64Exp x < 2 ^ 11 := Nat.mod_lt _ (by norm_num)
  unfold truncMod64
  by_cases he : f64Exp x ≤ 1086
  · have hb : f64Abs x < 2 ^ 64 := by
      have hf : f64Frac x < 2 ^ 52 := Nat.mod_lt _ (by norm_num)
      unfold f64Abs
      split
      · have hf' : (f64Frac x : ℚ) ≤ 2 ^ 52 := by exact_mod_cast hf.le
        calc (f64Frac x : ℚ) * 2 ^ (-1074 : ℤ) ≤ 2 ^ 52 * 2 ^ (0 : ℤ) :=
              mul_le_mul hf' (two_le (by omega)) (two_pos' _).le (by positivity)
          _ < 2 ^ 64 := by norm_num
      · have hf' : ((2 ^ 52 + f64Frac x : ℕ) : ℚ) < 2 ^ 53 := by
          have : 2 ^ 52 + f64Frac x < 2 ^ 53 := by omega
          exact_mod_cast this
        calc ((2 ^ 52 + f64Frac x : ℕ) : ℚ) * 2 ^ ((f64Exp x : ℤ) - 1075) < 2 ^ 53 * 2 ^ ((f64Exp x : ℤ) - 1075) :=
              mul_lt_mul_of_pos_right hf' (two_pos' _)
          _ ≤ 2 ^ 53 * 2 ^ (11 : ℤ) := mul_le_mul_of_nonneg_left (two_le (by omega)) (by positivity)
          _ = 2 ^ 64 := by norm_num
    rw [if_neg (by rintro (h | h); · omega
                   · exact absurd hb (not_lt.2 h)), truncI64_val x he]
  · rw [truncI64_big x (by omega), if_pos]
    by_contra hc
    push Not at hc
    exact he (exp_le_of (n := 64) hc.2 (by norm_num))

theorem fold_at {V : Nat → BitVec 64} {α : Type} {A : Nat → α} {c : α → BitVec 64} {K j : Nat}
    (hV : V = fun i => c (A (unfoldPos (4 * K) i))) :
    V (8 * (j / 4) + j % 4) = c (A j) ∧ V (8 * (j / 4) + j % 4 + 4) = c (A (j + 4 * K)) := by
  have h1 : (8 * (j / 4) + j % 4) % 8 < 4 := by omega
  have h2 : ¬ (8 * (j / 4) + j % 4 + 4) % 8 < 4 := by omega
  have e1 : 4 * ((8 * (j / 4) + j % 4) / 8) + (8 * (j / 4) + j % 4) % 8 = j := by omega
  have e2 : 4 * K + 4 * ((8 * (j / 4) + j % 4 + 4) / 8) + ((8 * (j / 4) + j % 4 + 4) % 8 - 4) = j + 4 * K := by omega
  subst hV
  constructor
  · simp only [unfoldPos, h1, e1, if_true]
  · simp only [unfoldPos, h2, e2, if_false]

theorem foldPos_lo {h j : Nat} (hj : j < h) : foldPos h j = 8 * (j / 4) + j % 4 := if_pos hj

theorem foldPos_hi (h j : Nat) : foldPos h (j + h) = 8 * (j / 4) + j % 4 + 4 := by
  have : ¬ j + h < h := by omega
  rw [foldPos, if_neg this, Nat.add_sub_cancel]

/-- `foldPolyTo` on `uint32`: number `j` of the transform has the real part `p[j]` and the imaginary part `p[j + N/2]`, as signed
integers. -/
theorem C68_foldPolyTo32 (F : Fpu) (rnd : ℚ → ℚ) (I : IeeeFpu F rnd) (g : Reg → BitVec 64) (y : Nat → Y) (m : Memory) (o a : GoSlice)
    (vo : List (BitVec 64)) (va : List (BitVec 32)) (ho : Has64 m o vo) (ha : Has32 m a va) (la : va.length = vo.length)
    (h8 : vo.length % 8 = 0) (hn : vo.length < 2 ^ 58) (sa : Separate a 1 o 2) :
    ∃ m' v', foldPolyTo32 F o a g y m m' ∧ Has64 m' o v' ∧ Outside64 m m' o ∧ v'.length = vo.length ∧
      ∀ j < vo.length / 2, f64Finite (at64 v' j).1 ∧ f64Finite (at64 v' j).2 ∧
        f64Val (at64 v' j).1 = ((va.getD j 0).toInt : ℚ) ∧
        f64Val (at64 v' j).2 = ((va.getD (j + vo.length / 2) 0).toInt : ℚ) := by
  obtain ⟨K, hK⟩ : ∃ K, vo.length = 8 * K := ⟨vo.length / 8, by omega⟩
  obtain ⟨lo, hO⟩ := holds64 ho
  obtain ⟨la', hA⟩ := holds32 ha
  rw [la, hK] at hA
  rw [hK] at hO
  have sA : ApartW a.base o.base (8 * K) (2 * (8 * K)) := by
    intro i hi j hj; exact sa i (by omega) j (by omega)
  have r := foldPolyToUint32AVX2_spec (c1 := o.cap) (c2 := a.cap) (F := F) (by omega) g y m hO hA sA
  obtain ⟨v', h1, h2, h3, h4⟩ := cmplx_result _ ho (show vo.length = K * 8 by omega) (by omega)
  rw [Nat.mul_comm K 8] at h1 h2
  refine ⟨_, v', ?_, h1, h2, h3, fun j hj => ?_⟩
  · rw [foldPolyTo32, GoSlice.arg, GoSlice.arg, lo, la', la, hK]; exact r
  · obtain ⟨e1, e2⟩ := fold_at (c := F.ofI32) (A := fun i => va.getD i 0) (K := K) (j := j) rfl
    rw [h4 j hj, e1, e2, show vo.length / 2 = 4 * K by omega]
    have c1 := I.ofI32 (va.getD j 0)
    have c2 := I.ofI32 (va.getD (j + 4 * K) 0)
    exact ⟨c1.1, c2.1, c1.2, c2.2⟩

/-- `foldPolyTo` on `uint64`: number `j` of the transform has the real part `p[j]` and the imaginary part `p[j + N/2]`, as signed
integers, rounded. -/
theorem C68_foldPolyTo64 (F : Fpu) (rnd : ℚ → ℚ) (I : IeeeFpu F rnd) (g : Reg → BitVec 64) (y : Nat → Y) (m : Memory) (o a : GoSlice)
    (vo : List (BitVec 64)) (va : List (BitVec 64)) (ho : Has64 m o vo) (ha : Has64 m a va) (la : va.length = vo.length)
    (h8 : vo.length % 8 = 0) (hn : vo.length < 2 ^ 58) (sa : Separate a 2 o 2) :
    ∃ m' v', foldPolyTo64 F o a g y m m' ∧ Has64 m' o v' ∧ Outside64 m m' o ∧ v'.length = vo.length ∧
      ∀ j < vo.length / 2, f64Finite (at64 v' j).1 ∧ f64Finite (at64 v' j).2 ∧
        f64Val (at64 v' j).1 = rnd ((va.getD j 0).toInt : ℚ) ∧
        f64Val (at64 v' j).2 = rnd ((va.getD (j + vo.length / 2) 0).toInt : ℚ) := by
  obtain ⟨K, hK⟩ : ∃ K, vo.length = 8 * K := ⟨vo.length / 8, by omega⟩
  obtain ⟨lo, hO⟩ := holds64 ho
  obtain ⟨la', hA⟩ := holds64 ha
  rw [la, hK] at hA
  rw [hK] at hO
  have sA : ApartW a.base o.base (2 * (8 * K)) (2 * (8 * K)) := by
    intro i hi j hj; exact sa i (by omega) j (by omega)
  have r := foldPolyToUint64AVX2_spec (c1 := o.cap) (c2 := a.cap) (F := F) (by omega) g y m hO hA sA
  obtain ⟨v', h1, h2, h3, h4⟩ := cmplx_result _ ho (show vo.length = K * 8 by omega) (by omega)
  rw [Nat.mul_comm K 8] at h1 h2
  refine ⟨_, v', ?_, h1, h2, h3, fun j hj => ?_⟩
  · rw [foldPolyTo64, GoSlice.arg, GoSlice.arg, lo, la', la, hK]; exact r
  · obtain ⟨e1, e2⟩ := fold_at (c := cvtI64 F) (A := fun i => va.getD i 0) (K := K) (j := j) rfl
    rw [h4 j hj, e1, e2, show vo.length / 2 = 4 * K by omega]
    have c1 := cvtI64_val I (va.getD j 0)
    have c2 := cvtI64_val I (va.getD (j + 4 * K) 0)
    exact ⟨c1.1, c2.1, c1.2, c2.2⟩

/-- `floatModQInPlace` with `q = 2^w`: every number becomes the integer nearest to it, modulo `2^w`, between `-2^(w-1)` and
`2^(w-1)`. -/
theorem C68_floatModQ (F : Fpu) (rnd : ℚ → ℚ) (I : IeeeFpu F rnd) (w : Nat) (hw : 1 ≤ w) (hw2 : w ≤ 64)
    (g : Reg → BitVec 64) (y : Nat → Y) (m : Memory) (o : GoSlice) (vo : List (BitVec 64)) (ho : Has64 m o vo) (q qInv : BitVec 64)
    (fq : f64Finite q) (vq : f64Val q = 2 ^ w) (fi : f64Finite qInv) (vi : f64Val qInv = 2 ^ (-(w : ℤ)))
    (h4 : vo.length % 4 = 0) (hn : vo.length < 2 ^ 60) :
    ∃ m' v', floatModQInPlace F o q qInv g y m m' ∧ Has64 m' o v' ∧ Outside64 m m' o ∧ v'.length = vo.length ∧
      ∀ i < vo.length, f64Finite (vo.getD i 0) → f64Finite (v'.getD i 0) ∧
        ∃ k r : ℤ, f64Val (v'.getD i 0) = k ∧ NearestEven (f64Val (vo.getD i 0)) (k + 2 ^ w * r) ∧ |k| ≤ 2 ^ (w - 1) := by
  obtain ⟨K, hK⟩ : ∃ K, vo.length = K * 4 := ⟨vo.length / 4, by omega⟩
  obtain ⟨lo, hO⟩ := holds64 ho
  rw [hK] at hO
  have r := floatModQInPlaceAVX2_spec (c1 := o.cap) (F := F) (by omega) g y m q qInv hO
  refine ⟨over m o.base (dw fun i => redF F q qInv (vo.getD i 0)) (2 * (K * 4)),
    (List.range vo.length).map fun i => redF F q qInv (vo.getD i 0), ?_, ?_, ?_, by simp, fun i hi fx => ?_⟩
  · rw [floatModQInPlace, GoSlice.arg, lo, hK]; exact r
  · rw [← hK]; exact has64_over ho ho.1 hn (by simp) fun i hi => by simp
  · rw [← hK]; exact outside64_over ho.1
  · have e : ((List.range vo.length).map fun i => redF F q qInv (vo.getD i 0)).getD i 0 = redF F q qInv (vo.getD i 0) := by
      simp [hi]
    rw [e]
    exact redF_val I hw hw2 fq vq fi vi fx

/-- `unfoldPolyTo` on `uint32`: the numbers are converted, real parts for the first half of the coefficients, imaginary parts for the second. -/
theorem C68_unfoldPolyTo32 (F : Fpu) (g : Reg → BitVec 64) (y : Nat → Y) (m : Memory) (o a : GoSlice)
    (vo : List (BitVec 32)) (va : List (BitVec 64)) (ho : Has32 m o vo) (ha : Has64 m a va) (la : va.length = vo.length)
    (h8 : vo.length % 8 = 0) (hn : vo.length < 2 ^ 58) (sa : Separate a 2 o 1) :
    ∃ m' v', unfoldPolyTo32 F o a g y m m' ∧ Has32 m' o v' ∧ Outside32 m m' o ∧ v'.length = vo.length ∧
      ∀ j < vo.length / 2, v'.getD j 0 = F.toI32 (at64 va j).1 ∧
        v'.getD (j + vo.length / 2) 0 = F.toI32 (at64 va j).2 := by
  obtain ⟨K, hK⟩ : ∃ K, vo.length = 8 * K := ⟨vo.length / 8, by omega⟩
  obtain ⟨lo, hO⟩ := holds32 ho
  obtain ⟨la', hA⟩ := holds64 ha
  rw [la, hK] at hA
  rw [hK] at hO
  have sA : ApartW a.base o.base (2 * (8 * K)) (8 * K) := by
    intro i hi j hj; exact sa i (by omega) j (by omega)
  have r := unfoldPolyToUint32AVX2_spec (c1 := o.cap) (c2 := a.cap) (F := F) (by omega) g y m hO hA sA
  rw [← hK] at r
  refine ⟨over m o.base (fun i => F.toI32 (va.getD (foldPos (4 * K) i) 0)) (vo.length), (List.range vo.length).map fun i => F.toI32 (va.getD (foldPos (4 * K) i) 0),
    ?_, has32_over ho ho.1 (by omega) (by simp) (fun i hi => by simp), outside32_over ho.1, by simp, fun j hj => ?_⟩
  · rw [unfoldPolyTo32, GoSlice.arg, GoSlice.arg, lo, la', la]; exact r
  · have h1 : j < vo.length := by omega
    have h2 : j + 4 * K < vo.length := by omega
    have h3 : j < 4 * K := by omega
    rw [show vo.length / 2 = 4 * K by omega]
    simp only [at64]
    constructor <;> simp [h1, h2, foldPos_lo h3, foldPos_hi (4 * K) j]

/-- `unfoldPolyAddTo` on `uint32`: the converted numbers are added, real parts for the first half of the coefficients, imaginary parts for the second. -/
theorem C68_unfoldPolyAddTo32 (F : Fpu) (g : Reg → BitVec 64) (y : Nat → Y) (m : Memory) (o a : GoSlice)
    (vo : List (BitVec 32)) (va : List (BitVec 64)) (ho : Has32 m o vo) (ha : Has64 m a va) (la : va.length = vo.length)
    (h8 : vo.length % 8 = 0) (hn : vo.length < 2 ^ 58) (sa : Separate a 2 o 1) :
    ∃ m' v', unfoldPolyAddTo32 F o a g y m m' ∧ Has32 m' o v' ∧ Outside32 m m' o ∧ v'.length = vo.length ∧
      ∀ j < vo.length / 2, v'.getD j 0 = vo.getD j 0 + F.toI32 (at64 va j).1 ∧
        v'.getD (j + vo.length / 2) 0 = vo.getD (j + vo.length / 2) 0 + F.toI32 (at64 va j).2 := by
  obtain ⟨K, hK⟩ : ∃ K, vo.length = 8 * K := ⟨vo.length / 8, by omega⟩
  obtain ⟨lo, hO⟩ := holds32 ho
  obtain ⟨la', hA⟩ := holds64 ha
  rw [la, hK] at hA
  rw [hK] at hO
  have sA : ApartW a.base o.base (2 * (8 * K)) (8 * K) := by
    intro i hi j hj; exact sa i (by omega) j (by omega)
  have r := unfoldPolyAddToUint32AVX2_spec (c1 := o.cap) (c2 := a.cap) (F := F) (by omega) g y m hO hA sA
  rw [← hK] at r
  refine ⟨over m o.base (fun i => vo.getD i 0 + F.toI32 (va.getD (foldPos (4 * K) i) 0)) (vo.length), (List.range vo.length).map fun i => vo.getD i 0 + F.toI32 (va.getD (foldPos (4 * K) i) 0),
    ?_, has32_over ho ho.1 (by omega) (by simp) (fun i hi => by simp), outside32_over ho.1, by simp, fun j hj => ?_⟩
  · rw [unfoldPolyAddTo32, GoSlice.arg, GoSlice.arg, lo, la', la]; exact r
  · have h1 : j < vo.length := by omega
    have h2 : j + 4 * K < vo.length := by omega
    have h3 : j < 4 * K := by omega
    rw [show vo.length / 2 = 4 * K by omega]
    simp only [at64]
    constructor <;> simp [h1, h2, foldPos_lo h3, foldPos_hi (4 * K) j]

/-- `unfoldPolySubTo` on `uint32`: the converted numbers are subtracted, real parts for the first half of the coefficients, imaginary parts for the second. -/
theorem C68_unfoldPolySubTo32 (F : Fpu) (g : Reg → BitVec 64) (y : Nat → Y) (m : Memory) (o a : GoSlice)
    (vo : List (BitVec 32)) (va : List (BitVec 64)) (ho : Has32 m o vo) (ha : Has64 m a va) (la : va.length = vo.length)
    (h8 : vo.length % 8 = 0) (hn : vo.length < 2 ^ 58) (sa : Separate a 2 o 1) :
    ∃ m' v', unfoldPolySubTo32 F o a g y m m' ∧ Has32 m' o v' ∧ Outside32 m m' o ∧ v'.length = vo.length ∧
      ∀ j < vo.length / 2, v'.getD j 0 = vo.getD j 0 - F.toI32 (at64 va j).1 ∧
        v'.getD (j + vo.length / 2) 0 = vo.getD (j + vo.length / 2) 0 - F.toI32 (at64 va j).2 := by
  obtain ⟨K, hK⟩ : ∃ K, vo.length = 8 * K := ⟨vo.length / 8, by omega⟩
  obtain ⟨lo, hO⟩ := holds32 ho
  obtain ⟨la', hA⟩ := holds64 ha
  rw [la, hK] at hA
  rw [hK] at hO
  have sA : ApartW a.base o.base (2 * (8 * K)) (8 * K) := by
    intro i hi j hj; exact sa i (by omega) j (by omega)
  have r := unfoldPolySubToUint32AVX2_spec (c1 := o.cap) (c2 := a.cap) (F := F) (by omega) g y m hO hA sA
  rw [← hK] at r
  refine ⟨over m o.base (fun i => vo.getD i 0 - F.toI32 (va.getD (foldPos (4 * K) i) 0)) (vo.length), (List.range vo.length).map fun i => vo.getD i 0 - F.toI32 (va.getD (foldPos (4 * K) i) 0),
    ?_, has32_over ho ho.1 (by omega) (by simp) (fun i hi => by simp), outside32_over ho.1, by simp, fun j hj => ?_⟩
  · rw [unfoldPolySubTo32, GoSlice.arg, GoSlice.arg, lo, la', la]; exact r
  · have h1 : j < vo.length := by omega
    have h2 : j + 4 * K < vo.length := by omega
    have h3 : j < 4 * K := by omega
    rw [show vo.length / 2 = 4 * K by omega]
    simp only [at64]
    constructor <;> simp [h1, h2, foldPos_lo h3, foldPos_hi (4 * K) j]

/-- `unfoldPolyTo` on `uint64`: the numbers are converted, real parts for the first half of the coefficients, imaginary parts for the second. -/
theorem C68_unfoldPolyTo64 (F : Fpu) (g : Reg → BitVec 64) (y : Nat → Y) (m : Memory) (o a : GoSlice)
    (vo : List (BitVec 64)) (va : List (BitVec 64)) (ho : Has64 m o vo) (ha : Has64 m a va) (la : va.length = vo.length)
    (h8 : vo.length % 8 = 0) (hn : vo.length < 2 ^ 58) (sa : Separate a 2 o 2) :
    ∃ m' v', unfoldPolyTo64 F o a g y m m' ∧ Has64 m' o v' ∧ Outside64 m m' o ∧ v'.length = vo.length ∧
      ∀ j < vo.length / 2, v'.getD j 0 = truncMod64 (at64 va j).1 ∧
        v'.getD (j + vo.length / 2) 0 = truncMod64 (at64 va j).2 := by
  obtain ⟨K, hK⟩ : ∃ K, vo.length = 8 * K := ⟨vo.length / 8, by omega⟩
  obtain ⟨lo, hO⟩ := holds64 ho
  obtain ⟨la', hA⟩ := holds64 ha
  rw [la, hK] at hA
  rw [hK] at hO
  have sA : ApartW a.base o.base (2 * (8 * K)) (2 * (8 * K)) := by
    intro i hi j hj; exact sa i (by omega) j (by omega)
  have r := unfoldPolyToUint64AVX2_spec (c1 := o.cap) (c2 := a.cap) (F := F) (by omega) g y m hO hA sA
  rw [← hK] at r
  refine ⟨over m o.base (dw fun i => truncI64 (va.getD (foldPos (4 * K) i) 0)) (2 * vo.length), (List.range vo.length).map fun i => truncI64 (va.getD (foldPos (4 * K) i) 0),
    ?_, has64_over ho ho.1 (by omega) (by simp) (fun i hi => by simp), outside64_over ho.1, by simp, fun j hj => ?_⟩
  · rw [unfoldPolyTo64, GoSlice.arg, GoSlice.arg, lo, la', la]; exact r
  · have h1 : j < vo.length := by omega
    have h2 : j + 4 * K < vo.length := by omega
    have h3 : j < 4 * K := by omega
    rw [show vo.length / 2 = 4 * K by omega]
    simp only [at64, ← truncI64_eq]
    constructor <;> simp [h1, h2, foldPos_lo h3, foldPos_hi (4 * K) j]

/-- `unfoldPolyAddTo` on `uint64`: the converted numbers are added, real parts for the first half of the coefficients, imaginary parts for the second. -/
theorem C68_unfoldPolyAddTo64 (F : Fpu) (g : Reg → BitVec 64) (y : Nat → Y) (m : Memory) (o a : GoSlice)
    (vo : List (BitVec 64)) (va : List (BitVec 64)) (ho : Has64 m o vo) (ha : Has64 m a va) (la : va.length = vo.length)
    (h8 : vo.length % 8 = 0) (hn : vo.length < 2 ^ 58) (sa : Separate a 2 o 2) :
    ∃ m' v', unfoldPolyAddTo64 F o a g y m m' ∧ Has64 m' o v' ∧ Outside64 m m' o ∧ v'.length = vo.length ∧
      ∀ j < vo.length / 2, v'.getD j 0 = vo.getD j 0 + truncMod64 (at64 va j).1 ∧
        v'.getD (j + vo.length / 2) 0 = vo.getD (j + vo.length / 2) 0 + truncMod64 (at64 va j).2 := by
  obtain ⟨K, hK⟩ : ∃ K, vo.length = 8 * K := ⟨vo.length / 8, by omega⟩
  obtain ⟨lo, hO⟩ := holds64 ho
  obtain ⟨la', hA⟩ := holds64 ha
  rw [la, hK] at hA
  rw [hK] at hO
  have sA : ApartW a.base o.base (2 * (8 * K)) (2 * (8 * K)) := by
    intro i hi j hj; exact sa i (by omega) j (by omega)
  have r := unfoldPolyAddToUint64AVX2_spec (c1 := o.cap) (c2 := a.cap) (F := F) (by omega) g y m hO hA sA
  rw [← hK] at r
  refine ⟨over m o.base (dw fun i => vo.getD i 0 + truncI64 (va.getD (foldPos (4 * K) i) 0)) (2 * vo.length), (List.range vo.length).map fun i => vo.getD i 0 + truncI64 (va.getD (foldPos (4 * K) i) 0),
    ?_, has64_over ho ho.1 (by omega) (by simp) (fun i hi => by simp), outside64_over ho.1, by simp, fun j hj => ?_⟩
  · rw [unfoldPolyAddTo64, GoSlice.arg, GoSlice.arg, lo, la', la]; exact r
  · have h1 : j < vo.length := by omega
    have h2 : j + 4 * K < vo.length := by omega
    have h3 : j < 4 * K := by omega
    rw [show vo.length / 2 = 4 * K by omega]
    simp only [at64, ← truncI64_eq]
    constructor <;> simp [h1, h2, foldPos_lo h3, foldPos_hi (4 * K) j]

/-- `unfoldPolySubTo` on `uint64`: the converted numbers are subtracted, real parts for the first half of the coefficients, imaginary parts for the second. -/
theorem C68_unfoldPolySubTo64 (F : Fpu) (g : Reg → BitVec 64) (y : Nat → Y) (m : Memory) (o a : GoSlice)
    (vo : List (BitVec 64)) (va : List (BitVec 64)) (ho : Has64 m o vo) (ha : Has64 m a va) (la : va.length = vo.length)
    (h8 : vo.length % 8 = 0) (hn : vo.length < 2 ^ 58) (sa : Separate a 2 o 2) :
    ∃ m' v', unfoldPolySubTo64 F o a g y m m' ∧ Has64 m' o v' ∧ Outside64 m m' o ∧ v'.length = vo.length ∧
      ∀ j < vo.length / 2, v'.getD j 0 = vo.getD j 0 - truncMod64 (at64 va j).1 ∧
        v'.getD (j + vo.length / 2) 0 = vo.getD (j + vo.length / 2) 0 - truncMod64 (at64 va j).2 := by
  obtain ⟨K, hK⟩ : ∃ K, vo.length = 8 * K := ⟨vo.length / 8, by omega⟩
  obtain ⟨lo, hO⟩ := holds64 ho
  obtain ⟨la', hA⟩ := holds64 ha
  rw [la, hK] at hA
  rw [hK] at hO
  have sA : ApartW a.base o.base (2 * (8 * K)) (2 * (8 * K)) := by
    intro i hi j hj; exact sa i (by omega) j (by omega)
  have r := unfoldPolySubToUint64AVX2_spec (c1 := o.cap) (c2 := a.cap) (F := F) (by omega) g y m hO hA sA
  rw [← hK] at r
  refine ⟨over m o.base (dw fun i => vo.getD i 0 - truncI64 (va.getD (foldPos (4 * K) i) 0)) (2 * vo.length), (List.range vo.length).map fun i => vo.getD i 0 - truncI64 (va.getD (foldPos (4 * K) i) 0),
    ?_, has64_over ho ho.1 (by omega) (by simp) (fun i hi => by simp), outside64_over ho.1, by simp, fun j hj => ?_⟩
  · rw [unfoldPolySubTo64, GoSlice.arg, GoSlice.arg, lo, la', la]; exact r
  · have h1 : j < vo.length := by omega
    have h2 : j + 4 * K < vo.length := by omega
    have h3 : j < 4 * K := by omega
    rw [show vo.length / 2 = 4 * K by omega]
    simp only [at64, ← truncI64_eq]
    constructor <;> simp [h1, h2, foldPos_lo h3, foldPos_hi (4 * K) j]

/-! ### Reduction followed by conversion -/

theorem ofInt_add_mul {w : Nat} (k r : ℤ) : BitVec.ofInt w (k + 2 ^ w * r) = BitVec.ofInt w k := by
  rw [BitVec.ofInt_add, BitVec.ofInt_mul]
  have : BitVec.ofInt w (2 ^ w) = 0 := by
    apply BitVec.eq_of_toInt_eq
    rw [BitVec.toInt_ofInt]
    have := Int.bmod_self (a := 2 ^ w)
    push_cast at this
    rw [this]; simp
  rw [this]; simp

theorem add_sub_self_bv {w : Nat} (a b : BitVec w) : a + b - a = b := by
  rw [BitVec.add_comm]; exact BitVec.add_sub_cancel b a

theorem sub_sub_self_bv {w : Nat} (a b : BitVec w) : a - (a - b) = b := by
  rw [BitVec.sub_eq_add_neg a b, ← BitVec.sub_sub]; simp

theorem truncI64_red {x : BitVec 64} {k : ℤ} (hv : f64Val x = k) (hk : |k| ≤ 2 ^ (64 - 1)) :
    truncMod64 x = BitVec.ofInt 64 k := by
  rw [← truncI64_eq]; exact truncI64_int hv (lt_of_le_of_lt hk (by norm_num))

theorem toI32_red {F : Fpu} {rnd : ℚ → ℚ} (I : IeeeFpu F rnd) {x : BitVec 64} {k : ℤ} (fx : f64Finite x) (hv : f64Val x = k)
    (hk : |k| ≤ 2 ^ (32 - 1)) : F.toI32 x = BitVec.ofInt 32 k := by
  rw [I.toI32 x k fx hv]
  split
  · rfl
  · rename_i h
    rw [abs_le] at hk
    have : k = 2 ^ 31 := by omega
    rw [this]; decide

theorem has64_outside {m m' : Memory} {o a : GoSlice} {v : List (BitVec 64)} (h : Has64 m o v) (ho : Outside64 m m' a)
    (s : Separate a 2 o 2) : Has64 m' o v := by
  refine ⟨h.1, h.2.1, fun i hi => ?_⟩
  have hl := h.1
  have key (t : Nat) (ht : t < 2 * o.len) : m' (o.base + BitVec.ofNat 64 (4 * t)) = m (o.base + BitVec.ofNat 64 (4 * t)) := by
    refine ho _ fun i hi => ⟨fun e => s (2 * i) (by omega) t ht ?_, fun e => s (2 * i + 1) (by omega) t ht ?_⟩
    · rw [e]; congr 2; omega
    · rw [e]; congr 2; omega
  have k1 := key (2 * i) (by omega)
  have k2 := key (2 * i + 1) (by omega)
  rw [show 4 * (2 * i) = 8 * i by omega] at k1
  rw [show 4 * (2 * i + 1) = 8 * i + 4 by omega] at k2
  rw [k1, k2]; exact h.2.2 i hi

theorem has32_outside {m m' : Memory} {o a : GoSlice} {v : List (BitVec 32)} (h : Has32 m o v) (ho : Outside64 m m' a)
    (s : Separate a 2 o 1) : Has32 m' o v := by
  refine ⟨h.1, h.2.1, fun i hi => ?_⟩
  have hl := h.1
  rw [ho _ fun t ht => ⟨fun e => s (2 * t) (by omega) i (by omega) ?_, fun e => s (2 * t + 1) (by omega) i (by omega) ?_⟩]
  · exact h.2.2 i hi
  · rw [e]; congr 2; omega
  · rw [e]; congr 2; omega

/-- Reduction and conversion in sequence: the nearest integers modulo `2^32`, for all numbers whatever. -/
theorem C68_reduceTo32 (F : Fpu) (rnd : ℚ → ℚ) (I : IeeeFpu F rnd) (g g' : Reg → BitVec 64) (y y' : Nat → Y) (m : Memory)
    (o a : GoSlice) (vo : List (BitVec 32)) (va : List (BitVec 64)) (ho : Has32 m o vo) (ha : Has64 m a va)
    (fin : ∀ x ∈ va, f64Finite x) (q qInv : BitVec 64) (fq : f64Finite q) (vq : f64Val q = 2 ^ 32)
    (fi : f64Finite qInv) (vi : f64Val qInv = 2 ^ (-32 : ℤ)) (la : va.length = vo.length)
    (h8 : vo.length % 8 = 0) (hn : vo.length < 2 ^ 58) (sa : Separate a 2 o 1) :
    ∃ m1 m' v', floatModQInPlace F a q qInv g y m m1 ∧ unfoldPolyTo32 F o a g' y' m1 m' ∧ Has32 m' o v' ∧
      v'.length = vo.length ∧ ∀ j < vo.length / 2,
        IsNearestMod 32 (at64 va j).1 (v'.getD j 0) ∧
        IsNearestMod 32 (at64 va j).2 (v'.getD (j + vo.length / 2) 0) := by
  obtain ⟨m1, v1, r1, b1, o1, l1, e1⟩ :=
    C68_floatModQ F rnd I 32 (by norm_num) (by norm_num) g y m a va ha q qInv fq vq fi vi (by omega) (by omega)
  have ho1 : Has32 m1 o vo := has32_outside ho o1 sa
  obtain ⟨m', v', r2, b2, -, l2, e2⟩ := C68_unfoldPolyTo32 F g' y' m1 o a vo v1 ho1 b1 (by omega) h8 hn sa
  refine ⟨m1, m', v', r1, r2, b2, l2, fun j hj => ?_⟩
  obtain ⟨t1, t2⟩ := e2 j hj
  have fin' (i : Nat) (hi : i < va.length) : f64Finite (va.getD i 0) := by
    have : va.getD i 0 = va[i] := by simp [hi]
    rw [this]; exact fin _ (List.getElem_mem hi)
  have i1 : 8 * (j / 4) + j % 4 < va.length := by omega
  have i2 : 8 * (j / 4) + j % 4 + 4 < va.length := by omega
  obtain ⟨f1, k1, s1, n1, u1, w1⟩ := e1 _ i1 (fin' _ i1)
  obtain ⟨f2, k2, s2, n2, u2, w2⟩ := e1 _ i2 (fin' _ i2)
  constructor
  · refine ⟨_, u1, ?_⟩
    rw [t1, ofInt_add_mul, ← toI32_red I f1 n1 w1]
    rfl
  · refine ⟨_, u2, ?_⟩
    rw [t2, ofInt_add_mul, ← toI32_red I f2 n2 w2]
    rfl

/-- Reduction and conversion in sequence: the nearest integers modulo `2^32`, for all numbers whatever. -/
theorem C68_reduceAddTo32 (F : Fpu) (rnd : ℚ → ℚ) (I : IeeeFpu F rnd) (g g' : Reg → BitVec 64) (y y' : Nat → Y) (m : Memory)
    (o a : GoSlice) (vo : List (BitVec 32)) (va : List (BitVec 64)) (ho : Has32 m o vo) (ha : Has64 m a va)
    (fin : ∀ x ∈ va, f64Finite x) (q qInv : BitVec 64) (fq : f64Finite q) (vq : f64Val q = 2 ^ 32)
    (fi : f64Finite qInv) (vi : f64Val qInv = 2 ^ (-32 : ℤ)) (la : va.length = vo.length)
    (h8 : vo.length % 8 = 0) (hn : vo.length < 2 ^ 58) (sa : Separate a 2 o 1) :
    ∃ m1 m' v', floatModQInPlace F a q qInv g y m m1 ∧ unfoldPolyAddTo32 F o a g' y' m1 m' ∧ Has32 m' o v' ∧
      v'.length = vo.length ∧ ∀ j < vo.length / 2,
        IsNearestMod 32 (at64 va j).1 (v'.getD j 0 - vo.getD j 0) ∧
        IsNearestMod 32 (at64 va j).2 (v'.getD (j + vo.length / 2) 0 - vo.getD (j + vo.length / 2) 0) := by
  obtain ⟨m1, v1, r1, b1, o1, l1, e1⟩ :=
    C68_floatModQ F rnd I 32 (by norm_num) (by norm_num) g y m a va ha q qInv fq vq fi vi (by omega) (by omega)
  have ho1 : Has32 m1 o vo := has32_outside ho o1 sa
  obtain ⟨m', v', r2, b2, -, l2, e2⟩ := C68_unfoldPolyAddTo32 F g' y' m1 o a vo v1 ho1 b1 (by omega) h8 hn sa
  refine ⟨m1, m', v', r1, r2, b2, l2, fun j hj => ?_⟩
  obtain ⟨t1, t2⟩ := e2 j hj
  have fin' (i : Nat) (hi : i < va.length) : f64Finite (va.getD i 0) := by
    have : va.getD i 0 = va[i] := by simp [hi]
    rw [this]; exact fin _ (List.getElem_mem hi)
  have i1 : 8 * (j / 4) + j % 4 < va.length := by omega
  have i2 : 8 * (j / 4) + j % 4 + 4 < va.length := by omega
  obtain ⟨f1, k1, s1, n1, u1, w1⟩ := e1 _ i1 (fin' _ i1)
  obtain ⟨f2, k2, s2, n2, u2, w2⟩ := e1 _ i2 (fin' _ i2)
  constructor
  · refine ⟨_, u1, ?_⟩
    rw [t1, ofInt_add_mul, ← toI32_red I f1 n1 w1]
    exact add_sub_self_bv _ _
  · refine ⟨_, u2, ?_⟩
    rw [t2, ofInt_add_mul, ← toI32_red I f2 n2 w2]
    exact add_sub_self_bv _ _

/-- Reduction and conversion in sequence: the nearest integers modulo `2^32`, for all numbers whatever. -/
theorem C68_reduceSubTo32 (F : Fpu) (rnd : ℚ → ℚ) (I : IeeeFpu F rnd) (g g' : Reg → BitVec 64) (y y' : Nat → Y) (m : Memory)
    (o a : GoSlice) (vo : List (BitVec 32)) (va : List (BitVec 64)) (ho : Has32 m o vo) (ha : Has64 m a va)
    (fin : ∀ x ∈ va, f64Finite x) (q qInv : BitVec 64) (fq : f64Finite q) (vq : f64Val q = 2 ^ 32)
    (fi : f64Finite qInv) (vi : f64Val qInv = 2 ^ (-32 : ℤ)) (la : va.length = vo.length)
    (h8 : vo.length % 8 = 0) (hn : vo.length < 2 ^ 58) (sa : Separate a 2 o 1) :
    ∃ m1 m' v', floatModQInPlace F a q qInv g y m m1 ∧ unfoldPolySubTo32 F o a g' y' m1 m' ∧ Has32 m' o v' ∧
      v'.length = vo.length ∧ ∀ j < vo.length / 2,
        IsNearestMod 32 (at64 va j).1 (vo.getD j 0 - v'.getD j 0) ∧
        IsNearestMod 32 (at64 va j).2 (vo.getD (j + vo.length / 2) 0 - v'.getD (j + vo.length / 2) 0) := by
  obtain ⟨m1, v1, r1, b1, o1, l1, e1⟩ :=
    C68_floatModQ F rnd I 32 (by norm_num) (by norm_num) g y m a va ha q qInv fq vq fi vi (by omega) (by omega)
  have ho1 : Has32 m1 o vo := has32_outside ho o1 sa
  obtain ⟨m', v', r2, b2, -, l2, e2⟩ := C68_unfoldPolySubTo32 F g' y' m1 o a vo v1 ho1 b1 (by omega) h8 hn sa
  refine ⟨m1, m', v', r1, r2, b2, l2, fun j hj => ?_⟩
  obtain ⟨t1, t2⟩ := e2 j hj
  have fin' (i : Nat) (hi : i < va.length) : f64Finite (va.getD i 0) := by
    have : va.getD i 0 = va[i] := by simp [hi]
    rw [this]; exact fin _ (List.getElem_mem hi)
  have i1 : 8 * (j / 4) + j % 4 < va.length := by omega
  have i2 : 8 * (j / 4) + j % 4 + 4 < va.length := by omega
  obtain ⟨f1, k1, s1, n1, u1, w1⟩ := e1 _ i1 (fin' _ i1)
  obtain ⟨f2, k2, s2, n2, u2, w2⟩ := e1 _ i2 (fin' _ i2)
  constructor
  · refine ⟨_, u1, ?_⟩
    rw [t1, ofInt_add_mul, ← toI32_red I f1 n1 w1]
    exact sub_sub_self_bv _ _
  · refine ⟨_, u2, ?_⟩
    rw [t2, ofInt_add_mul, ← toI32_red I f2 n2 w2]
    exact sub_sub_self_bv _ _

/-- Reduction and conversion in sequence: the nearest integers modulo `2^64`, for all numbers whatever. -/
theorem C68_reduceTo64 (F : Fpu) (rnd : ℚ → ℚ) (I : IeeeFpu F rnd) (g g' : Reg → BitVec 64) (y y' : Nat → Y) (m : Memory)
    (o a : GoSlice) (vo : List (BitVec 64)) (va : List (BitVec 64)) (ho : Has64 m o vo) (ha : Has64 m a va)
    (fin : ∀ x ∈ va, f64Finite x) (q qInv : BitVec 64) (fq : f64Finite q) (vq : f64Val q = 2 ^ 64)
    (fi : f64Finite qInv) (vi : f64Val qInv = 2 ^ (-64 : ℤ)) (la : va.length = vo.length)
    (h8 : vo.length % 8 = 0) (hn : vo.length < 2 ^ 58) (sa : Separate a 2 o 2) :
    ∃ m1 m' v', floatModQInPlace F a q qInv g y m m1 ∧ unfoldPolyTo64 F o a g' y' m1 m' ∧ Has64 m' o v' ∧
      v'.length = vo.length ∧ ∀ j < vo.length / 2,
        IsNearestMod 64 (at64 va j).1 (v'.getD j 0) ∧
        IsNearestMod 64 (at64 va j).2 (v'.getD (j + vo.length / 2) 0) := by
  obtain ⟨m1, v1, r1, b1, o1, l1, e1⟩ :=
    C68_floatModQ F rnd I 64 (by norm_num) (by norm_num) g y m a va ha q qInv fq vq fi vi (by omega) (by omega)
  have ho1 : Has64 m1 o vo := has64_outside ho o1 sa
  obtain ⟨m', v', r2, b2, -, l2, e2⟩ := C68_unfoldPolyTo64 F g' y' m1 o a vo v1 ho1 b1 (by omega) h8 hn sa
  refine ⟨m1, m', v', r1, r2, b2, l2, fun j hj => ?_⟩
  obtain ⟨t1, t2⟩ := e2 j hj
  have fin' (i : Nat) (hi : i < va.length) : f64Finite (va.getD i 0) := by
    have : va.getD i 0 = va[i] := by simp [hi]
    rw [this]; exact fin _ (List.getElem_mem hi)
  have i1 : 8 * (j / 4) + j % 4 < va.length := by omega
  have i2 : 8 * (j / 4) + j % 4 + 4 < va.length := by omega
  obtain ⟨f1, k1, s1, n1, u1, w1⟩ := e1 _ i1 (fin' _ i1)
  obtain ⟨f2, k2, s2, n2, u2, w2⟩ := e1 _ i2 (fin' _ i2)
  constructor
  · refine ⟨_, u1, ?_⟩
    rw [t1, ofInt_add_mul, ← truncI64_red n1 w1]
    rfl
  · refine ⟨_, u2, ?_⟩
    rw [t2, ofInt_add_mul, ← truncI64_red n2 w2]
    rfl

/-- Reduction and conversion in sequence: the nearest integers modulo `2^64`, for all numbers whatever. -/
theorem C68_reduceAddTo64 (F : Fpu) (rnd : ℚ → ℚ) (I : IeeeFpu F rnd) (g g' : Reg → BitVec 64) (y y' : Nat → Y) (m : Memory)
    (o a : GoSlice) (vo : List (BitVec 64)) (va : List (BitVec 64)) (ho : Has64 m o vo) (ha : Has64 m a va)
    (fin : ∀ x ∈ va, f64Finite x) (q qInv : BitVec 64) (fq : f64Finite q) (vq : f64Val q = 2 ^ 64)
    (fi : f64Finite qInv) (vi : f64Val qInv = 2 ^ (-64 : ℤ)) (la : va.length = vo.length)
    (h8 : vo.length % 8 = 0) (hn : vo.length < 2 ^ 58) (sa : Separate a 2 o 2) :
    ∃ m1 m' v', floatModQInPlace F a q qInv g y m m1 ∧ unfoldPolyAddTo64 F o a g' y' m1 m' ∧ Has64 m' o v' ∧
      v'.length = vo.length ∧ ∀ j < vo.length / 2,
        IsNearestMod 64 (at64 va j).1 (v'.getD j 0 - vo.getD j 0) ∧
        IsNearestMod 64 (at64 va j).2 (v'.getD (j + vo.length / 2) 0 - vo.getD (j + vo.length / 2) 0) := by
  obtain ⟨m1, v1, r1, b1, o1, l1, e1⟩ :=
    C68_floatModQ F rnd I 64 (by norm_num) (by norm_num) g y m a va ha q qInv fq vq fi vi (by omega) (by omega)
  have ho1 : Has64 m1 o vo := has64_outside ho o1 sa
  obtain ⟨m', v', r2, b2, -, l2, e2⟩ := C68_unfoldPolyAddTo64 F g' y' m1 o a vo v1 ho1 b1 (by omega) h8 hn sa
  refine ⟨m1, m', v', r1, r2, b2, l2, fun j hj => ?_⟩
  obtain ⟨t1, t2⟩ := e2 j hj
  have fin' (i : Nat) (hi : i < va.length) : f64Finite (va.getD i 0) := by
    have : va.getD i 0 = va[i] := by simp [hi]
    rw [this]; exact fin _ (List.getElem_mem hi)
  have i1 : 8 * (j / 4) + j % 4 < va.length := by omega
  have i2 : 8 * (j / 4) + j % 4 + 4 < va.length := by omega
  obtain ⟨f1, k1, s1, n1, u1, w1⟩ := e1 _ i1 (fin' _ i1)
  obtain ⟨f2, k2, s2, n2, u2, w2⟩ := e1 _ i2 (fin' _ i2)
  constructor
  · refine ⟨_, u1, ?_⟩
    rw [t1, ofInt_add_mul, ← truncI64_red n1 w1]
    exact add_sub_self_bv _ _
  · refine ⟨_, u2, ?_⟩
    rw [t2, ofInt_add_mul, ← truncI64_red n2 w2]
    exact add_sub_self_bv _ _

/-- Reduction and conversion in sequence: the nearest integers modulo `2^64`, for all numbers whatever. -/
theorem C68_reduceSubTo64 (F : Fpu) (rnd : ℚ → ℚ) (I : IeeeFpu F rnd) (g g' : Reg → BitVec 64) (y y' : Nat → Y) (m : Memory)
    (o a : GoSlice) (vo : List (BitVec 64)) (va : List (BitVec 64)) (ho : Has64 m o vo) (ha : Has64 m a va)
    (fin : ∀ x ∈ va, f64Finite x) (q qInv : BitVec 64) (fq : f64Finite q) (vq : f64Val q = 2 ^ 64)
    (fi : f64Finite qInv) (vi : f64Val qInv = 2 ^ (-64 : ℤ)) (la : va.length = vo.length)
    (h8 : vo.length % 8 = 0) (hn : vo.length < 2 ^ 58) (sa : Separate a 2 o 2) :
    ∃ m1 m' v', floatModQInPlace F a q qInv g y m m1 ∧ unfoldPolySubTo64 F o a g' y' m1 m' ∧ Has64 m' o v' ∧
      v'.length = vo.length ∧ ∀ j < vo.length / 2,
        IsNearestMod 64 (at64 va j).1 (vo.getD j 0 - v'.getD j 0) ∧
        IsNearestMod 64 (at64 va j).2 (vo.getD (j + vo.length / 2) 0 - v'.getD (j + vo.length / 2) 0) := by
  obtain ⟨m1, v1, r1, b1, o1, l1, e1⟩ :=
    C68_floatModQ F rnd I 64 (by norm_num) (by norm_num) g y m a va ha q qInv fq vq fi vi (by omega) (by omega)
  have ho1 : Has64 m1 o vo := has64_outside ho o1 sa
  obtain ⟨m', v', r2, b2, -, l2, e2⟩ := C68_unfoldPolySubTo64 F g' y' m1 o a vo v1 ho1 b1 (by omega) h8 hn sa
  refine ⟨m1, m', v', r1, r2, b2, l2, fun j hj => ?_⟩
  obtain ⟨t1, t2⟩ := e2 j hj
  have fin' (i : Nat) (hi : i < va.length) : f64Finite (va.getD i 0) := by
    have : va.getD i 0 = va[i] := by simp [hi]
    rw [this]; exact fin _ (List.getElem_mem hi)
  have i1 : 8 * (j / 4) + j % 4 < va.length := by omega
  have i2 : 8 * (j / 4) + j % 4 + 4 < va.length := by omega
  obtain ⟨f1, k1, s1, n1, u1, w1⟩ := e1 _ i1 (fin' _ i1)
  obtain ⟨f2, k2, s2, n2, u2, w2⟩ := e1 _ i2 (fin' _ i2)
  constructor
  · refine ⟨_, u1, ?_⟩
    rw [t1, ofInt_add_mul, ← truncI64_red n1 w1]
    exact sub_sub_self_bv _ _
  · refine ⟨_, u2, ?_⟩
    rw [t2, ofInt_add_mul, ← truncI64_red n2 w2]
    exact sub_sub_self_bv _ _

/-! ### Constants, differences from the Go loops, examples -/

theorem rep_gap {M0 : ℤ} (h0 : 2 ^ 52 < M0) {v : ℚ} (h : F64Rep v) (hne : v ≠ (M0 : ℚ) * 2 ^ 32) :
    (2 : ℚ) ^ 32 ≤ |v - (M0 : ℚ) * 2 ^ 32| := by
  obtain ⟨M, j, h1, h2, h3, rfl⟩ := h
  by_cases hj : 32 ≤ j
  · obtain ⟨n, hn⟩ := Int.eq_ofNat_of_zero_le (show 0 ≤ j - 32 by omega)
    have e : (M : ℚ) * 2 ^ j - (M0 : ℚ) * 2 ^ 32 = ((M * 2 ^ n - M0 : ℤ) : ℚ) * 2 ^ 32 := by
      have : (2 : ℚ) ^ j = 2 ^ n * 2 ^ 32 := by
        rw [← zpow_natCast (2 : ℚ) n, ← zpow_natCast (2 : ℚ) 32]
        exact (two_add (by omega)).symm
      rw [this]; push_cast; ring
    have hz : M * 2 ^ n - M0 ≠ 0 := fun hz => hne (by rw [← sub_eq_zero, e, hz]; simp)
    rw [e, abs_mul, abs_of_pos (show (0 : ℚ) < 2 ^ 32 by norm_num)]
    have : (1 : ℚ) ≤ |((M * 2 ^ n - M0 : ℤ) : ℚ)| := by exact_mod_cast Int.one_le_abs hz
    linarith
  · have hb : |(M : ℚ) * 2 ^ j| ≤ 2 ^ 84 := by
      rw [abs_mul, abs_of_pos (two_pos' j)]
      have hM : |(M : ℚ)| ≤ 2 ^ 53 := by exact_mod_cast h1.le
      calc |(M : ℚ)| * 2 ^ j ≤ 2 ^ 53 * 2 ^ (31 : ℤ) := mul_le_mul hM (two_le (by omega)) (two_pos' j).le (by positivity)
        _ = 2 ^ 84 := by norm_num
    have hM0 : (2 ^ 52 + 1 : ℚ) ≤ M0 := by exact_mod_cast h0
    have := (abs_le.1 hb).2
    rw [abs_sub_comm, abs_of_nonneg (by norm_num at this hM0 ⊢; linarith)]
    norm_num at this hM0 ⊢; linarith

/-- The decimal numbers in the file are read as the patterns of the model: no number of the format is nearer. -/
theorem C68_constants (v : ℚ) (hv : F64Rep v) :
    f64Val EXP2_52 = 4503599627370496 ∧
    |19342822337206104000000000 - f64Val EXP2_84_63| ≤ |19342822337206104000000000 - v| ∧
    |19342822341709703000000000 - f64Val EXP2_84_63_52| ≤ |19342822341709703000000000 - v| := by
  have e0 : f64Val EXP2_52 = 4503599627370496 := by
    rw [(f64_of 1075 0 (by norm_num) (by norm_num) (by norm_num) (x := EXP2_52) (by decide)).2]; norm_num
  have e1 : f64Val EXP2_84_63 = ((2 ^ 52 + 0x80000000 : ℤ) : ℚ) * 2 ^ 32 := by
    rw [(f64_of 1107 0x80000000 (by norm_num) (by norm_num) (by norm_num) (x := EXP2_84_63) (by decide)).2]; norm_num
  have e2 : f64Val EXP2_84_63_52 = ((2 ^ 52 + 0x80100000 : ℤ) : ℚ) * 2 ^ 32 := by
    rw [(f64_of 1107 0x80100000 (by norm_num) (by norm_num) (by norm_num) (x := EXP2_84_63_52) (by decide)).2]; norm_num
  refine ⟨e0, ?_, ?_⟩
  · by_cases h : v = ((2 ^ 52 + 0x80000000 : ℤ) : ℚ) * 2 ^ 32
    · rw [e1, h]
    · have g := rep_gap (by norm_num) hv h
      have d : |19342822337206104000000000 - f64Val EXP2_84_63| ≤ 2 ^ 31 := by rw [e1]; norm_num
      rw [← e1] at g
      have t := abs_sub_abs_le_abs_sub (v - f64Val EXP2_84_63) (v - 19342822337206104000000000)
      rw [show v - f64Val EXP2_84_63 - (v - 19342822337206104000000000) = 19342822337206104000000000 - f64Val EXP2_84_63 by ring,
        abs_sub_comm v 19342822337206104000000000] at t
      norm_num at g d
      linarith
  · by_cases h : v = ((2 ^ 52 + 0x80100000 : ℤ) : ℚ) * 2 ^ 32
    · rw [e2, h]
    · have g := rep_gap (by norm_num) hv h
      have d : |19342822341709703000000000 - f64Val EXP2_84_63_52| ≤ 2 ^ 31 := by rw [e2]; norm_num
      rw [← e2] at g
      have t := abs_sub_abs_le_abs_sub (v - f64Val EXP2_84_63_52) (v - 19342822341709703000000000)
      rw [show v - f64Val EXP2_84_63_52 - (v - 19342822341709703000000000) = 19342822341709703000000000 - f64Val EXP2_84_63_52 by ring,
        abs_sub_comm v 19342822341709703000000000] at t
      norm_num at g d
      linarith

/-- On ties the kernel and the Go loop differ: of 1/2 the kernel makes 0, the Go loop makes 1. -/
theorem C68_tie : (∀ k, NearestEven (1 / 2) k → k = 0) ∧ Fft.floatModQ (F := ℚ) (2 ^ 64) (1 / 2) = 1 := by
  refine ⟨fun k hk => nearestEven_unique hk (nearestEven_small (by rw [abs_of_pos (by norm_num)])), ?_⟩
  unfold Fft.floatModQ Fft.round
  norm_num

/-- The hypotheses about the processor can be met. -/
example : ∃ (F : Fpu) (rnd : ℚ → ℚ), IeeeFpu F rnd := exists_ieee

/-- The patterns of `2^64` and `2^-64`, and of `2^32` and `2^-32`. -/
example : f64Val 0x43f0000000000000 = 2 ^ 64 ∧ f64Val 0x3bf0000000000000 = 2 ^ (-64 : ℤ) ∧ f64Val 0x41f0000000000000 = 2 ^ 32 ∧
    f64Val 0x3df0000000000000 = 2 ^ (-32 : ℤ) := by
  rw [(f64_of 1087 0 (by norm_num) (by norm_num) (by norm_num) (x := 0x43f0000000000000) (by decide)).2,
    (f64_of 959 0 (by norm_num) (by norm_num) (by norm_num) (x := 0x3bf0000000000000) (by decide)).2,
    (f64_of 1055 0 (by norm_num) (by norm_num) (by norm_num) (x := 0x41f0000000000000) (by decide)).2,
    (f64_of 991 0 (by norm_num) (by norm_num) (by norm_num) (x := 0x3df0000000000000) (by decide)).2]
  norm_num

/-- Conversions: -2.5 is cut to -2, `2^63` and `2^64 - 2^11` are taken modulo `2^64`, `2^64` gives 0. -/
example : truncI64 0xc004000000000000 = 0xfffffffffffffffe ∧ truncI64 0x43e0000000000000 = 0x8000000000000000 ∧
    truncI64 0x43efffffffffffff = 0xfffffffffffff800 ∧ truncI64 0x43f0000000000000 = 0 := by decide +kernel

/-- Slices without common words: eight words and eight floats. -/
example : Separate ⟨64, 8, 8⟩ 2 ⟨0, 8, 8⟩ 2 ∧ Separate ⟨64, 8, 8⟩ 2 ⟨0, 8, 8⟩ 1 ∧ Separate ⟨64, 8, 8⟩ 1 ⟨0, 8, 8⟩ 2 := by
  unfold Separate; decide +kernel

end Asm
end Tfhe
