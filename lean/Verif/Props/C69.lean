import Mathlib.Tactic.IntervalCases
import Verif.Lemma.FpuExist
import Verif.Lemma.TwiddleGrid
import Verif.Model.AsmFwd
import Verif.Model.FftOps
import Verif.Props.C68

/-!
# C69: the AVX2 kernels compute what the model of the floating-point operations says

The theorems on floating-point operations (C56, C57, C64) are about real numbers and a rounding function.  Here the bit patterns that
the kernels leave in memory are finite, and their values are the ones of that model with the evaluation order `Fuse.avx2`, whenever no
exact result overflows or underflows; forward transforms of polynomials with integer coefficients never do.
-/
namespace Tfhe
namespace Asm
open Fft

/-! ### Specification -/

/-- The values of the elements; 0 behind the end. -/
def vals (v : List (BitVec 64)) (j : ℕ) : ℝ := f64Val (v.getD j 0)
/-- The values of the elements of a slice of `complex128`. -/
def valsC (v : List (BitVec 64 × BitVec 64)) (j : ℕ) : ℝ × ℝ := (f64Val (v.getD j (0, 0)).1, f64Val (v.getD j (0, 0)).2)
/-- The value of the complex number `j` of a vector. -/
def valC (v : List (BitVec 64)) (j : ℕ) : ℝ × ℝ := (f64Val (at64 v j).1, f64Val (at64 v j).2)
/-- The complex number `j` of a vector is finite and has the value `z`. -/
def IsValC (v : List (BitVec 64)) (j : ℕ) (z : ℝ × ℝ) : Prop := IsVal (at64 v j).1 z.1 ∧ IsVal (at64 v j).2 z.2

/-- The word `r` is an integer nearest to `y`, modulo `2^w`. -/
def IsNearWord {w : ℕ} (y : ℝ) (r : BitVec w) : Prop := ∃ z : ℤ, |y - z| ≤ 1 / 2 ∧ r = BitVec.ofInt w z

/-! ### Transforms -/

theorem isNearWord_of {w : ℕ} {x : BitVec 64} {y : ℝ} {r : BitVec w} (h : IsVal x y) (hr : IsNearestMod w x r) : IsNearWord y r := by
  obtain ⟨k, hk, rfl⟩ := hr
  refine ⟨k, ?_, rfl⟩
  rw [← h.2]
  have := hk.1
  have h2 : ((|f64Val x - k| : ℚ) : ℝ) ≤ ((1 / 2 : ℚ) : ℝ) := Rat.cast_le.2 this
  push_cast at h2
  linarith

theorem finite_zero : f64Finite 0 := isVal_zero.1

theorem isVal_vals {v : List (BitVec 64)} (h : ∀ x ∈ v, f64Finite x) (j : ℕ) : IsVal (v.getD j 0) (vals v j) := by
  refine ⟨?_, rfl⟩
  by_cases hj : j < v.length
  · rw [List.getD_eq_getElem _ _ hj]; exact h _ (List.getElem_mem hj)
  · rw [List.getD_eq_default _ _ (by omega)]; exact finite_zero

theorem isVal_valsC {v : List (BitVec 64 × BitVec 64)} (h : ∀ x ∈ v, f64Finite x.1 ∧ f64Finite x.2) (j : ℕ) :
    IsVal (v.getD j (0, 0)).1 (valsC v j).1 ∧ IsVal (v.getD j (0, 0)).2 (valsC v j).2 := by
  have : f64Finite (v.getD j (0, 0)).1 ∧ f64Finite (v.getD j (0, 0)).2 := by
    by_cases hj : j < v.length
    · rw [List.getD_eq_getElem _ _ hj]; exact h _ (List.getElem_mem hj)
    · rw [List.getD_eq_default _ _ (by omega)]; exact ⟨finite_zero, finite_zero⟩
  exact ⟨⟨this.1, rfl⟩, ⟨this.2, rfl⟩⟩

theorem isValC_valC {v : List (BitVec 64)} (h : ∀ x ∈ v, f64Finite x) (j : ℕ) : IsValC v j (valC v j) :=
  ⟨isVal_vals h _, isVal_vals h _⟩

section
variable {F : Fpu} {fl : ℝ → ℝ} (h : RoundsAs F fl)
include h

theorem fwd_vals {x : ℕ → BitVec 64} {w : ℕ → BitVec 64 × BitVec 64} {X : ℕ → ℝ} {W : ℕ → ℝ × ℝ} (hx : ∀ i, IsVal (x i) (X i))
    (hw : ∀ i, IsVal (w i).1 (W i).1 ∧ IsVal (w i).2 (W i).2) {N : ℕ} (hr : FwdInRange fl N X W) (j : ℕ) (hj : j < N) :
    IsVal (fwdFFTStages (fwdRow F) (fwdNeighbours F) N x w j)
      (fwdFFTStages (fwdButterflyFl (.ofFl .avx2 fl)) (fwdButterflyFl (Arith.ofFl .avx2 fl).atNear) N X W j) := by
  have a := rel_fwdFFTStages (rel_fwdRow h) (rel_fwdNeighbours h) (tw := w) (tw' := fun i => (((W i).1, True), ((W i).2, True)))
    (fun i => ⟨fun _ => (hw i).1, fun _ => (hw i).2⟩) N (x := x) (x' := fun i => (X i, True)) (fun i _ => hx i) j
  have b := rel_fwdFFTStages (rel_watch (fwdInRange .right fl) (fwdButterflyFl (.ofFl .avx2 fl)))
    (rel_watch (fwdInRange .left fl) (fwdButterflyFl (Arith.ofFl .avx2 fl).atNear)) (tw := W)
    (tw' := fun i => (((W i).1, True), ((W i).2, True))) (fun _ => ⟨rfl, rfl⟩) N (x := X) (x' := fun i => (X i, True)) (fun _ => rfl) j
  rw [← b]; exact a (hr j hj)

theorem inv_vals {x : ℕ → BitVec 64} {w : ℕ → BitVec 64 × BitVec 64} {X : ℕ → ℝ} {W : ℕ → ℝ × ℝ} (hx : ∀ i, IsVal (x i) (X i))
    (hw : ∀ i, IsVal (w i).1 (W i).1 ∧ IsVal (w i).2 (W i).2) {N : ℕ} {scale : BitVec 64} (hs : IsVal scale (1 / ((N / 2 : ℕ) : ℝ)))
    (hr : InvInRange fl N X W) (j : ℕ) (hj : j < N) :
    IsVal (invFFTStages (invRow F) (invNeighbours F) (fun v => F.mul v scale) N x w j)
      (invFFTInPlaceFl (.ofFl .avx2 fl) N X W j) := by
  have a := rel_invFFTStages (R2 := HoldsVal) (rel_invRow h) (rel_invNeighbours h) (tw := w) (tw' := fun i => (((W i).1, True), ((W i).2, True)))
    (fun i => ⟨fun _ => (hw i).1, fun _ => (hw i).2⟩) N (sc := fun v => F.mul v scale)
    (sc' := fun y => (fl (y.1 / ((N / 2 : ℕ) : ℝ)), y.2 ∧ InRange (y.1 / ((N / 2 : ℕ) : ℝ))))
    (fun v y hv hp => by
      have := val_mul h (hv hp.1) hs (by rw [mul_one_div]; exact hp.2)
      rw [mul_one_div] at this; exact this) (x := x) (x' := fun i => (X i, True)) (fun i _ => hx i) j hj
  have b := rel_invFFTStages (R2 := fun (r : ℝ) (q : ℝ × Prop) => q.1 = r) (rel_watch (invInRange .right fl) (invButterflyFl (.ofFl .avx2 fl)))
    (rel_watch (invInRange .left fl) (invButterflyFl (Arith.ofFl .avx2 fl).atNear)) (tw := W)
    (tw' := fun i => (((W i).1, True), ((W i).2, True))) (fun _ => ⟨rfl, rfl⟩) N
    (sc := fun y => (Arith.ofFl .avx2 fl).div y ((N / 2 : ℕ) : ℝ))
    (sc' := fun y => (fl (y.1 / ((N / 2 : ℕ) : ℝ)), y.2 ∧ InRange (y.1 / ((N / 2 : ℕ) : ℝ))))
    (fun r q hq => by rw [← hq]; rfl) (x := X) (x' := fun i => (X i, True)) (fun _ => rfl) j hj
  rw [invFFTInPlaceFl, ← b]; exact a (hr j hj)

/-- The forward kernel: finite patterns whose values are those of the model, if no result in the transform leaves the range. -/
theorem C69_fwdFFTInPlace (g : Reg → BitVec 64) (y : Nat → Y) (m : Memory) (o t : GoSlice) (vo : List (BitVec 64))
    (tw : List (BitVec 64 × BitVec 64)) (l : Nat) (ho : Has64 m o vo) (ht : HasC m t tw) (hd : ApartC t o)
    (hl : vo.length = 2 ^ (l + 4)) (hL : vo.length / 2 ≤ tw.length + 1) (hn : vo.length < 2 ^ 58) (hL' : tw.length < 2 ^ 58)
    (fo : ∀ x ∈ vo, f64Finite x) (ft : ∀ x ∈ tw, f64Finite x.1 ∧ f64Finite x.2)
    (hr : FwdInRange fl vo.length (vals vo) (valsC tw)) :
    ∃ m' v', fwdFFTInPlace F o t g y m m' ∧ Has64 m' o v' ∧ Outside64 m m' o ∧ v'.length = vo.length ∧
      ∀ j < vo.length, IsVal (v'.getD j 0) (fwdFFTStages (fwdButterflyFl (.ofFl .avx2 fl))
        (fwdButterflyFl (Arith.ofFl .avx2 fl).atNear) vo.length (vals vo) (valsC tw) j) := by
  obtain ⟨m', h1, h2, h3⟩ := C67_fwdFFTInPlace F g y m o t vo tw l ho ht hd hl hL hn hL'
  refine ⟨m', _, h1, h3, h2, by simp, fun j hj => ?_⟩
  rw [List.getD_eq_getElem _ _ (by simpa using hj), List.getElem_map, List.getElem_range]
  exact fwd_vals h (isVal_vals fo) (isVal_valsC ft) hr j hj

/-- The inverse kernel. -/
theorem C69_invFFTInPlace (g : Reg → BitVec 64) (y : Nat → Y) (m : Memory) (o t : GoSlice) (scale : BitVec 64)
    (vo : List (BitVec 64)) (tw : List (BitVec 64 × BitVec 64)) (l : Nat) (ho : Has64 m o vo) (ht : HasC m t tw)
    (hd : ApartC t o) (hl : vo.length = 2 ^ (l + 4)) (hL : vo.length / 2 ≤ tw.length + 1) (hn : vo.length < 2 ^ 58)
    (hL' : tw.length < 2 ^ 58) (fo : ∀ x ∈ vo, f64Finite x) (ft : ∀ x ∈ tw, f64Finite x.1 ∧ f64Finite x.2)
    (hs : IsVal scale (1 / ((vo.length / 2 : ℕ) : ℝ))) (hr : InvInRange fl vo.length (vals vo) (valsC tw)) :
    ∃ m' v', invFFTInPlace F o t scale g y m m' ∧ Has64 m' o v' ∧ Outside64 m m' o ∧ v'.length = vo.length ∧
      ∀ j < vo.length, IsVal (v'.getD j 0) (invFFTInPlaceFl (.ofFl .avx2 fl) vo.length (vals vo) (valsC tw) j) := by
  obtain ⟨m', h1, h2, h3⟩ := C67_invFFTInPlace F g y m o t scale vo tw l ho ht hd hl hL hn hL'
  refine ⟨m', _, h1, h3, h2, by simp, fun j hj => ?_⟩
  rw [List.getD_eq_getElem _ _ (by simpa using hj), List.getElem_map, List.getElem_range]
  exact inv_vals h (isVal_vals fo) (isVal_valsC ft) hs hr j hj

/-- `InvFFTToUnsafe` on `uint32`: the integers nearest to the values of the model, modulo `2^32`. -/
theorem C69_invFFTToUnsafe32 (r r' r'' : Regs) (m : Memory) (o a t : GoSlice) (scale q qInv : BitVec 64)
    (vo : List (BitVec 32)) (va : List (BitVec 64)) (tw : List (BitVec 64 × BitVec 64)) (l : Nat) (ho : Has32 m o vo) (hA : Has64 m a va)
    (ht : HasC m t tw) (hd : ApartC t a) (sa : Separate a 2 o 1) (hl : va.length = 2 ^ (l + 4)) (la : vo.length = va.length)
    (hL : va.length / 2 ≤ tw.length + 1) (hn : va.length < 2 ^ 58) (hL' : tw.length < 2 ^ 58)
    (fo : ∀ x ∈ va, f64Finite x) (ft : ∀ x ∈ tw, f64Finite x.1 ∧ f64Finite x.2)
    (hs : IsVal scale (1 / ((va.length / 2 : ℕ) : ℝ))) (fq : f64Finite q) (vq : f64Val q = 2 ^ 32)
    (fi : f64Finite qInv) (vi : f64Val qInv = 2 ^ (-32 : ℤ)) (hr : InvInRange fl va.length (vals va) (valsC tw)) :
    ∃ m' v', invFFTToUnsafe32 F o a t scale q qInv r r' r'' m m' ∧ Has32 m' o v' ∧ v'.length = vo.length ∧ ∀ j < vo.length / 2,
      IsNearWord (invFFTInPlaceFl (.ofFl .avx2 fl) va.length (vals va) (valsC tw) (8 * (j / 4) + j % 4)) (v'.getD j 0) ∧
      IsNearWord (invFFTInPlaceFl (.ofFl .avx2 fl) va.length (vals va) (valsC tw) (8 * (j / 4) + j % 4 + 4))
        (v'.getD (j + vo.length / 2) 0) := by
  have h8 : vo.length % 8 = 0 := by rw [la, hl, pow_add]; omega
  obtain ⟨m1, v1, a1, a2, a3, a4, a5⟩ := C69_invFFTInPlace h r.g r.y m a t scale va tw l hA ht hd hl hL hn hL' fo ft hs hr
  obtain ⟨rnd, I, hI⟩ := id h
  obtain ⟨m2, m', v', b1, b2, b3, b4, b5⟩ := C68_reduceTo32 F rnd I.toIeeeFpu r'.g r''.g r'.y r''.y m1 o a vo v1 (has32_outside ho a3 sa) a2
    (fun x hx => by
      obtain ⟨j, hj, rfl⟩ := List.mem_iff_getElem.1 hx
      have := (a5 j (by omega)).1; rwa [List.getD_eq_getElem _ _ hj] at this) q qInv fq vq fi vi (by omega) h8 (by omega) sa
  refine ⟨m', v', ⟨m1, m2, a1, b1, b2⟩, b3, b4, fun j hj => ?_⟩
  obtain ⟨n1, n2⟩ := b5 j hj
  exact ⟨isNearWord_of (a5 _ (by omega)) n1, isNearWord_of (a5 _ (by omega)) n2⟩

/-- `InvFFTToUnsafe` on `uint64`: the integers nearest to the values of the model, modulo `2^64`. -/
theorem C69_invFFTToUnsafe64 (r r' r'' : Regs) (m : Memory) (o a t : GoSlice) (scale q qInv : BitVec 64)
    (vo : List (BitVec 64)) (va : List (BitVec 64)) (tw : List (BitVec 64 × BitVec 64)) (l : Nat) (ho : Has64 m o vo) (hA : Has64 m a va)
    (ht : HasC m t tw) (hd : ApartC t a) (sa : Separate a 2 o 2) (hl : va.length = 2 ^ (l + 4)) (la : vo.length = va.length)
    (hL : va.length / 2 ≤ tw.length + 1) (hn : va.length < 2 ^ 58) (hL' : tw.length < 2 ^ 58)
    (fo : ∀ x ∈ va, f64Finite x) (ft : ∀ x ∈ tw, f64Finite x.1 ∧ f64Finite x.2)
    (hs : IsVal scale (1 / ((va.length / 2 : ℕ) : ℝ))) (fq : f64Finite q) (vq : f64Val q = 2 ^ 64)
    (fi : f64Finite qInv) (vi : f64Val qInv = 2 ^ (-64 : ℤ)) (hr : InvInRange fl va.length (vals va) (valsC tw)) :
    ∃ m' v', invFFTToUnsafe64 F o a t scale q qInv r r' r'' m m' ∧ Has64 m' o v' ∧ v'.length = vo.length ∧ ∀ j < vo.length / 2,
      IsNearWord (invFFTInPlaceFl (.ofFl .avx2 fl) va.length (vals va) (valsC tw) (8 * (j / 4) + j % 4)) (v'.getD j 0) ∧
      IsNearWord (invFFTInPlaceFl (.ofFl .avx2 fl) va.length (vals va) (valsC tw) (8 * (j / 4) + j % 4 + 4))
        (v'.getD (j + vo.length / 2) 0) := by
  have h8 : vo.length % 8 = 0 := by rw [la, hl, pow_add]; omega
  obtain ⟨m1, v1, a1, a2, a3, a4, a5⟩ := C69_invFFTInPlace h r.g r.y m a t scale va tw l hA ht hd hl hL hn hL' fo ft hs hr
  obtain ⟨rnd, I, hI⟩ := id h
  obtain ⟨m2, m', v', b1, b2, b3, b4, b5⟩ := C68_reduceTo64 F rnd I.toIeeeFpu r'.g r''.g r'.y r''.y m1 o a vo v1 (has64_outside ho a3 sa) a2
    (fun x hx => by
      obtain ⟨j, hj, rfl⟩ := List.mem_iff_getElem.1 hx
      have := (a5 j (by omega)).1; rwa [List.getD_eq_getElem _ _ hj] at this) q qInv fq vq fi vi (by omega) h8 (by omega) sa
  refine ⟨m', v', ⟨m1, m2, a1, b1, b2⟩, b3, b4, fun j hj => ?_⟩
  obtain ⟨n1, n2⟩ := b5 j hj
  exact ⟨isNearWord_of (a5 _ (by omega)) n1, isNearWord_of (a5 _ (by omega)) n2⟩

end

section
variable {M : Machine} (hM : Ieee M)
include hM

theorem ulp_of (x : ℝ) : |M.fl x - x| ≤ 2⁻¹ ^ 53 * |x| := hM.toAccurate.fl x

/-- Inputs up to `2^K` that are multiples of `2^-g`, and factors up to 2 that are multiples of `2^-b`: nothing leaves the range if the
bounds of the last stage are in the range. -/
theorem C69_fwd_inRange (l : ℕ) (K g b : ℤ) (x : ℕ → ℝ) (tw : ℕ → ℝ × ℝ) (hx : ∀ i, Dy K g (x i))
    (htw : ∀ i, Dy 1 b (tw i).1 ∧ Dy 1 b (tw i).2) (hb : 0 ≤ b) (hK : K + 6 * (l + 3) ≤ 1023) (hg : g + b * (l + 3) ≤ 1074) :
    FwdInRange M.fl (2 ^ (l + 4)) x tw := by
  intro j hj
  have r := rel_fwdFFTStages (R := Grade K g b (l + 3)) (Rw := fun q _ => q.2 ∧ Dy 1 b q.1)
    (grade_step (dy_fwd hM.isFloat hM.exact (ulp_of hM) .right (A := .ofFl .avx2 M.fl) rfl rfl rfl rfl hb) hb (by push_cast; exact hK) (by push_cast; exact hg))
    (grade_step (dy_fwd hM.isFloat hM.exact (ulp_of hM) .left (A := (Arith.ofFl .avx2 M.fl).atNear) rfl rfl rfl rfl hb) hb (by push_cast; exact hK) (by push_cast; exact hg))
    (tw := fun i => (((tw i).1, True), ((tw i).2, True))) (tw' := fun _ => (0, 0))
    (fun i => ⟨⟨trivial, (htw i).1⟩, ⟨trivial, (htw i).2⟩⟩) (2 ^ (l + 4)) (x := fun i => (x i, True)) (x' := fun _ => 0)
    (fun i => ⟨le_rfl, fun s _ _ => ⟨trivial, (hx i).mono (by omega) (by nlinarith [mul_nonneg hb (Int.natCast_nonneg s)])⟩⟩) j
  exact (r.2 (l + 3) (count_fwd l _ j hj) le_rfl).1

theorem C69_inv_inRange (l : ℕ) (K g b : ℤ) (x : ℕ → ℝ) (tw : ℕ → ℝ × ℝ) (hx : ∀ i, Dy K g (x i))
    (htw : ∀ i, Dy 1 b (tw i).1 ∧ Dy 1 b (tw i).2) (hb : 0 ≤ b) (hK : K + 6 * (l + 3) ≤ 1023)
    (hg : g + b * (l + 3) + (l + 3) ≤ 1074) : InvInRange M.fl (2 ^ (l + 4)) x tw := by
  intro j hj
  have hN : ((2 ^ (l + 4) / 2 : ℕ) : ℝ) = 2 ^ (l + 3) := by
    rw [show 2 ^ (l + 4) / 2 = 2 ^ (l + 3) by rw [pow_succ]; omega]; push_cast; rfl
  have hb' : (0 : ℤ) ≤ (l : ℤ) + 3 := by omega
  have r := rel_invFFTStages (R := Grade K g b (l + 3)) (Rw := fun q _ => q.2 ∧ Dy 1 b q.1) (R2 := fun q c => c ≤ (l + 3 : ℕ) → q.2)
    (grade_step (dy_inv hM.isFloat hM.exact (ulp_of hM) .right (A := .ofFl .avx2 M.fl) rfl rfl rfl rfl hb) hb (by push_cast; exact hK) (by push_cast; omega))
    (grade_step (dy_inv hM.isFloat hM.exact (ulp_of hM) .left (A := (Arith.ofFl .avx2 M.fl).atNear) rfl rfl rfl rfl hb) hb (by push_cast; exact hK) (by push_cast; omega))
    (tw := fun i => (((tw i).1, True), ((tw i).2, True))) (tw' := fun _ => (0, 0))
    (fun i => ⟨⟨trivial, (htw i).1⟩, ⟨trivial, (htw i).2⟩⟩) (2 ^ (l + 4)) (sc' := fun c => c)
    (sc := fun y => (M.fl (y.1 / ((2 ^ (l + 4) / 2 : ℕ) : ℝ)), y.2 ∧ InRange (y.1 / ((2 ^ (l + 4) / 2 : ℕ) : ℝ))))
    (fun q c hq hc => by
      obtain ⟨h1, h2⟩ := hq.2 (l + 3) hc le_rfl
      refine ⟨h1, ?_⟩
      push_cast at h2
      rw [hN]
      have h3 : Dy 0 (l + 3) ((2 : ℝ) ^ (l + 3))⁻¹ := by
        refine ⟨?_, 1, ?_⟩
        · rw [abs_of_pos (by positivity), zpow_zero]; exact inv_le_one_of_one_le₀ (one_le_pow₀ (by norm_num))
        · rw [Int.cast_one, one_mul, zpow_neg]; norm_cast
      have := h2.mul h3
      rw [div_eq_mul_inv]
      exact this.range (by omega) (by omega))
    (x := fun i => (x i, True)) (x' := fun _ => 0)
    (fun i => ⟨le_rfl, fun s _ _ => ⟨trivial, (hx i).mono (by omega) (by nlinarith [mul_nonneg hb (Int.natCast_nonneg s)])⟩⟩) j hj
  exact r (count_inv l _ j hj)

end
end Asm

namespace Fft

/-- A butterfly on complex numbers. -/
def cplx (B : ℝ → ℝ → ℝ → ℝ → ℝ → ℝ → ℝ × ℝ × ℝ × ℝ) (u v w : ℂ) : ℂ × ℂ :=
  (⟨(B u.re u.im v.re v.im w.re w.im).1, (B u.re u.im v.re v.im w.re w.im).2.1⟩,
   ⟨(B u.re u.im v.re v.im w.re w.im).2.2.1, (B u.re u.im v.re v.im w.re w.im).2.2.2⟩)

theorem rep_cplx (B : ℝ → ℝ → ℝ → ℝ → ℝ → ℝ → ℝ × ℝ × ℝ × ℝ) : Rep B (cplx B) := fun _ _ _ _ _ _ => rfl

/-- The forward transform reads the first `N` elements and the first `N/2 - 1` factors. -/
theorem fwd_congr (B B1 : ℝ → ℝ → ℝ → ℝ → ℝ → ℝ → ℝ × ℝ × ℝ × ℝ) (l : ℕ) {x x' : ℕ → ℝ} {tw tw' : ℕ → ℝ × ℝ}
    (hx : ∀ p < 2 ^ (l + 3), view x p = view x' p) (htw : ∀ k < 2 ^ (l + 3) - 1, tw k = tw' k) (j : ℕ) (hj : j < 2 ^ (l + 4)) :
    fwdFFTStages B B1 (2 ^ (l + 4)) x tw j = fwdFFTStages B B1 (2 ^ (l + 4)) x' tw' j := by
  have h1 := view_fwdFFTStages l (fun s i => toC (tw' (2 ^ s - 1 + i))) (rep_cplx B) tw (fun s hs i hi => by
    rw [htw]
    have : 2 ^ (s + 1) ≤ 2 ^ (l + 3) := Nat.pow_le_pow_right (by norm_num) (by omega)
    have := Nat.pow_pos (n := s) (show 0 < 2 by norm_num)
    have := pow_succ 2 s
    omega) (view x') (rep_cplx B1) x hx
  have h2 := view_fwdFFTStages l (fun s i => toC (tw' (2 ^ s - 1 + i))) (rep_cplx B) tw' (fun _ _ _ _ => rfl) (view x') (rep_cplx B1) x'
    (fun _ _ => rfl)
  obtain ⟨p, hp, h⟩ := idx_pos (by rw [pow_add]; omega) hj
  have hp : p < 2 ^ (l + 3) := by rw [pow_succ] at hp; omega
  have h3 := (h1 p hp).trans (h2 p hp).symm
  rcases h with rfl | rfl
  · exact congrArg Complex.re h3
  · exact congrArg Complex.im h3

end Fft

namespace Asm
open Fft

theorem hasC_outside {m m' : Memory} {o t : GoSlice} {v : List (BitVec 64 × BitVec 64)} (h : HasC m t v) (ho : Outside64 m m' o)
    (hd : ApartC t o) : HasC m' t v := by
  refine ⟨h.1, h.2.1, fun i hi => ?_⟩
  have hl := h.1
  have key (k : Nat) (hk : k < 4 * t.len) : m' (t.base + BitVec.ofNat 64 (4 * k)) = m (t.base + BitVec.ofNat 64 (4 * k)) := by
    refine ho _ fun i hi => ⟨fun e => hd k hk (2 * i) (by omega) ?_, fun e => hd k hk (2 * i + 1) (by omega) ?_⟩
    · rw [e]; congr 2; omega
    · rw [e]; congr 2; omega
  have k1 := key (4 * i) (by omega)
  have k2 := key (4 * i + 1) (by omega)
  have k3 := key (4 * i + 2) (by omega)
  have k4 := key (4 * i + 3) (by omega)
  rw [show 4 * (4 * i) = 16 * i by omega] at k1
  rw [show 4 * (4 * i + 1) = 16 * i + 4 by omega] at k2
  rw [show 4 * (4 * i + 2) = 16 * i + 8 by omega] at k3
  rw [show 4 * (4 * i + 3) = 16 * i + 12 by omega] at k4
  rw [k1, k2, k3, k4]; exact h.2.2 i hi

theorem outside_trans {m m1 m' : Memory} {o : GoSlice} (h1 : Outside64 m m1 o) (h2 : Outside64 m1 m' o) : Outside64 m m' o :=
  fun x hx => (h2 x hx).trans (h1 x hx)

theorem dy_int {z : ℤ} {K : ℕ} (h : |z| ≤ 2 ^ K) : Dy K 0 (z : ℝ) :=
  ⟨by rw [zpow_natCast]; exact_mod_cast h, z, by simp⟩

theorem abs_toInt_le {w : ℕ} (x : BitVec w) : |x.toInt| ≤ 2 ^ (w - 1) :=
  abs_le.2 ⟨BitVec.le_toInt x, (BitVec.toInt_lt (x := x)).le⟩

section
variable {F : Fpu} {M : Machine} (hF : RoundsAs F M.fl) (hM : Ieee M) (ha : M.fuse = .avx2) {l : ℕ} {N : BitVec 64}
  (hN : N.toInt = 2 ^ (l + 4)) {e : Eval ℝ} (he : newEvaluatorFl M.arith M.cis N = some e) (hl : l ≤ 12)
include hF hM ha hN he hl

/-- From the folded polynomial on. -/
theorem fwd_of_fold {w : ℕ} (hw : w ≤ 64) (g : Reg → BitVec 64) (y : Nat → Y) (m : Memory) (o t : GoSlice) (vo : List (BitVec 64))
    (tw : List (BitVec 64 × BitVec 64)) (p : ℕ → BitVec w) (ho : Has64 m o vo) (ht : HasC m t tw) (hd : ApartC t o)
    (lo : vo.length = 2 ^ (l + 4)) (lt : tw.length = 2 ^ (l + 3) - 1)
    (hv : ∀ k < tw.length, IsVal (tw.getD k (0, 0)).1 (e.tw k).1 ∧ IsVal (tw.getD k (0, 0)).2 (e.tw k).2)
    (hp : ∀ j < vo.length / 2, IsValC vo j (M.arith.conv (p j).toInt, M.arith.conv (p (j + vo.length / 2)).toInt)) (old : ℕ → ℝ) :
    ∃ m' v', fwdFFTInPlace F o t g y m m' ∧ Has64 m' o v' ∧ Outside64 m m' o ∧ v'.length = vo.length ∧
      ∀ j < vo.length, IsVal (v'.getD j 0) (fwdFFTFl M.arith e old p j) := by
  have e1 : 2 ^ (l + 4) = 2 * 2 ^ (l + 3) := by rw [pow_succ]; ring
  have e3 : 2 ^ (l + 3) = 8 * 2 ^ l := by rw [pow_add]; ring
  have eh : vo.length / 2 = 2 ^ (l + 3) := by omega
  have hb : 2 ^ (l + 4) ≤ 2 ^ 16 := Nat.pow_le_pow_right (by norm_num) (by omega)
  have hlt : 2 ^ (l + 3) - 1 < 2 ^ 58 := by have : (2 : ℕ) ^ 16 < 2 ^ 58 := by norm_num
                                            omega
  have hlo : vo.length < 2 ^ 58 := by have : (2 : ℕ) ^ 16 < 2 ^ 58 := by norm_num
                                      omega
  have arith : M.arith = Arith.ofFl .avx2 M.fl := by rw [Float64.arith, ha]
  have rank : e.rank = 2 ^ (l + 4) := (goodFl_of hM.toAccurate hN he).rank
  have conv (q : BitVec w) : Dy 65 0 (M.arith.conv q.toInt) := by
    have h1 : Dy ((w - 1 : ℕ) : ℤ) 0 (q.toInt : ℝ) := dy_int (abs_toInt_le q)
    have h2 := h1.round hM.isFloat hM.exact (ulp_of hM)
    exact h2.mono (by omega) le_rfl
  have zero : Dy 65 0 0 := ⟨by rw [abs_zero]; positivity, 0, by simp⟩
  have pos_lt {j : ℕ} (hj : j < vo.length) : ∃ k, k < vo.length / 2 ∧ (j = pos k ∨ j = pos k + 4) := idx_pos (by omega) hj
  have fo : ∀ j, f64Finite (vo.getD j 0) ∧ Dy 65 0 (vals vo j) := by
    intro j
    by_cases hj : j < vo.length
    · obtain ⟨k, hk, h⟩ := pos_lt hj
      obtain ⟨⟨f1, v1⟩, ⟨f2, v2⟩⟩ := hp k hk
      rcases h with rfl | rfl
      · exact ⟨f1, by rw [vals]; exact v1 ▸ conv _⟩
      · exact ⟨f2, by rw [vals]; exact v2 ▸ conv _⟩
    · rw [vals, List.getD_eq_default _ _ (by omega)]
      exact ⟨finite_zero, by rw [isVal_zero.2]; exact zero⟩
  have gt : ∀ k, (Dy 1 (l + 57) (valsC tw k).1 ∧ Dy 1 (l + 57) (valsC tw k).2) := by
    intro k
    by_cases hk : k < tw.length
    · have := tw_grid hM hN he (by omega) k (by omega)
      obtain ⟨⟨-, v1⟩, ⟨-, v2⟩⟩ := hv k hk
      rw [valsC]; dsimp only; rw [v1, v2]; exact this
    · rw [valsC, List.getD_eq_default _ _ (by omega)]; dsimp only
      have z : Dy 1 (l + 57) ((f64Val 0 : ℚ) : ℝ) := by
        rw [isVal_zero.2]; exact ⟨by rw [abs_zero]; positivity, 0, by simp⟩
      exact ⟨z, z⟩
  have hr := C69_fwd_inRange hM l 65 0 (l + 57) (vals vo) (valsC tw) (fun i => (fo i).2) gt (by omega) (by omega) (by
    have : (l : ℤ) ≤ 12 := by exact_mod_cast hl
    nlinarith)
  obtain ⟨m', v', r1, r2, r3, r4, r5⟩ := C69_fwdFFTInPlace hF g y m o t vo tw l ho ht hd lo (by omega) hlo (by omega)
    (fun x hx => by
      obtain ⟨j, hj, rfl⟩ := List.mem_iff_getElem.1 hx
      have := (fo j).1; rwa [List.getD_eq_getElem _ _ hj] at this)
    (fun x hx => by
      obtain ⟨j, hj, rfl⟩ := List.mem_iff_getElem.1 hx
      have := hv j hj; rw [List.getD_eq_getElem _ _ hj] at this
      exact ⟨this.1.1, this.2.1⟩) (by rw [lo]; exact hr)
  refine ⟨m', v', r1, r2, r3, r4, fun j hj => ?_⟩
  have := r5 j hj
  rw [lo] at this hj
  rw [fwdFFTFl, rank, arith]
  rw [fwd_congr _ _ l (x' := vals vo) (tw' := valsC tw) (fun k hk => ?_) (fun k hk => ?_) j hj]
  · exact this
  · obtain ⟨⟨-, v1⟩, ⟨-, v2⟩⟩ := hp k (by omega)
    rw [foldPolyWith, view_setAll _ (2 * 2 ^ l) (by omega), if_pos (by omega)]
    apply Complex.ext
    · show (Arith.ofFl .avx2 M.fl).conv _ = _
      rw [← arith]; exact v1.symm
    · show (Arith.ofFl .avx2 M.fl).conv (p (k + 2 ^ (l + 4) / 2)).toInt = _
      rw [← arith, ← lo]; exact v2.symm
  · obtain ⟨⟨-, v1⟩, ⟨-, v2⟩⟩ := hv k (by omega)
    exact Prod.ext v1.symm v2.symm

/-- `FwdFFTTo` on `uint32`: the bit patterns are finite and their values are those of the model, for every polynomial. -/
theorem C69_fwdFFTTo32 (g g' : Reg → BitVec 64) (y y' : Nat → Y) (m : Memory) (o a t : GoSlice) (vo : List (BitVec 64))
    (va : List (BitVec 32)) (tw : List (BitVec 64 × BitVec 64)) (ho : Has64 m o vo) (hA : Has32 m a va) (ht : HasC m t tw)
    (hd : ApartC t o) (sa : Separate a 1 o 2) (lo : vo.length = 2 ^ (l + 4)) (la : va.length = vo.length)
    (lt : tw.length = 2 ^ (l + 3) - 1)
    (hv : ∀ k < tw.length, IsVal (tw.getD k (0, 0)).1 (e.tw k).1 ∧ IsVal (tw.getD k (0, 0)).2 (e.tw k).2) (old : ℕ → ℝ) :
    ∃ m' v', fwdFFTTo32 F o a t g y g' y' m m' ∧ Has64 m' o v' ∧ Outside64 m m' o ∧ v'.length = vo.length ∧
      ∀ j < vo.length, IsVal (v'.getD j 0) (fwdFFTFl M.arith e old (fun i => va.getD i 0) j) := by
  obtain ⟨rnd, I, hI⟩ := id hF
  have hb : 2 ^ (l + 4) ≤ 2 ^ 16 := Nat.pow_le_pow_right (by norm_num) (by omega)
  have hlo : vo.length < 2 ^ 58 := by have : (2 : ℕ) ^ 16 < 2 ^ 58 := by norm_num
                                      omega
  obtain ⟨m1, v1, s1, s2, s3, s4, s5⟩ := C68_foldPolyTo32 F rnd I.toIeeeFpu g y m o a vo va ho hA la (by rw [lo, pow_add]; omega) hlo sa
  have ex (q : BitVec 32) : (q.toInt : ℝ) = M.arith.conv q.toInt := by
    have h1 := abs_toInt_le q
    exact (hM.exact _ ⟨q.toInt, 0, h1.trans (by norm_num), by simp⟩).symm
  obtain ⟨m', v', r1, r2, r3, r4, r5⟩ := fwd_of_fold hF hM ha hN he hl (by norm_num) g' y' m1 o t v1 tw (fun i => va.getD i 0)
    s2 (hasC_outside ht s3 hd) hd (s4.trans lo) lt hv (fun j hj => by
      rw [s4] at hj ⊢
      obtain ⟨f1, f2, q1, q2⟩ := s5 j hj
      exact ⟨⟨f1, by rw [q1, Rat.cast_intCast]; exact ex _⟩, ⟨f2, by rw [q2, Rat.cast_intCast]; exact ex _⟩⟩) old
  exact ⟨m', v', ⟨m1, s1, r1⟩, r2, outside_trans s3 r3, r4.trans s4, by rw [← s4]; exact r5⟩

/-- `FwdFFTTo` on `uint64`. -/
theorem C69_fwdFFTTo64 (g g' : Reg → BitVec 64) (y y' : Nat → Y) (m : Memory) (o a t : GoSlice) (vo : List (BitVec 64))
    (va : List (BitVec 64)) (tw : List (BitVec 64 × BitVec 64)) (ho : Has64 m o vo) (hA : Has64 m a va) (ht : HasC m t tw)
    (hd : ApartC t o) (sa : Separate a 2 o 2) (lo : vo.length = 2 ^ (l + 4)) (la : va.length = vo.length)
    (lt : tw.length = 2 ^ (l + 3) - 1)
    (hv : ∀ k < tw.length, IsVal (tw.getD k (0, 0)).1 (e.tw k).1 ∧ IsVal (tw.getD k (0, 0)).2 (e.tw k).2) (old : ℕ → ℝ) :
    ∃ m' v', fwdFFTTo64 F o a t g y g' y' m m' ∧ Has64 m' o v' ∧ Outside64 m m' o ∧ v'.length = vo.length ∧
      ∀ j < vo.length, IsVal (v'.getD j 0) (fwdFFTFl M.arith e old (fun i => va.getD i 0) j) := by
  obtain ⟨rnd, I, hI⟩ := id hF
  have hb : 2 ^ (l + 4) ≤ 2 ^ 16 := Nat.pow_le_pow_right (by norm_num) (by omega)
  have hlo : vo.length < 2 ^ 58 := by have : (2 : ℕ) ^ 16 < 2 ^ 58 := by norm_num
                                      omega
  obtain ⟨m1, v1, s1, s2, s3, s4, s5⟩ := C68_foldPolyTo64 F rnd I.toIeeeFpu g y m o a vo va ho hA la (by rw [lo, pow_add]; omega) hlo sa
  have ex (q : BitVec 64) : ((rnd (q.toInt : ℚ) : ℚ) : ℝ) = M.arith.conv q.toInt := by
    have h1 : Dy 63 0 (q.toInt : ℝ) := dy_int (K := 63) (abs_toInt_le q)
    have := hI (q.toInt : ℚ) (by rw [Rat.cast_intCast]; exact h1.range (by norm_num) (by norm_num))
    rw [← this, Rat.cast_intCast]; rfl
  obtain ⟨m', v', r1, r2, r3, r4, r5⟩ := fwd_of_fold hF hM ha hN he hl (by norm_num) g' y' m1 o t v1 tw (fun i => va.getD i 0)
    s2 (hasC_outside ht s3 hd) hd (s4.trans lo) lt hv (fun j hj => by
      rw [s4] at hj ⊢
      obtain ⟨f1, f2, q1, q2⟩ := s5 j hj
      exact ⟨⟨f1, by rw [q1]; exact ex _⟩, ⟨f2, by rw [q2]; exact ex _⟩⟩) old
  exact ⟨m', v', ⟨m1, s1, r1⟩, r2, outside_trans s3 r3, r4.trans s4, by rw [← s4]; exact r5⟩

end

/-! ### Vectors -/

theorem fused_comm (f : Fma) (fl : ℝ → ℝ) (s x y z t : ℝ) : fused f fl s x y z t = fused f fl s y x t z := by
  cases f <;> simp only [fused, mul_comm x y, mul_comm z t]

theorem fusedInRange_comm (f : Fma) (fl : ℝ → ℝ) (s x y z t : ℝ) : fusedInRange f fl s x y z t ↔ fusedInRange f fl s y x t z := by
  cases f <;> simp only [fusedInRange, mul_comm x y, mul_comm z t]

theorem isVal_congr {x : BitVec 64} {a b : ℝ} (h : IsVal x a) (e : a = b) : IsVal x b := e ▸ h

section
variable {F : Fpu} {fl : ℝ → ℝ} (h : RoundsAs F fl)
include h

theorem val_acc_re {σ : ℝ} {X Y Z T O : BitVec 64} {x y z t o : ℝ} (hx : IsVal X x) (hy : IsVal Y y) (hz : IsVal Z z) (ht : IsVal T t)
    (hO : IsVal O o) (hr : accumInRange false fl (-1) σ o x y z t) :
    (σ = 1 → IsVal (F.fnma T Z (F.fma Y X O)) (accum true false .right fl (-1) σ o x y z t)) ∧
    (σ = -1 → IsVal (F.fma T Z (F.fnma Y X O)) (accum true false .right fl (-1) σ o x y z t)) := by
  simp only [accumInRange, Bool.false_eq_true, if_false] at hr
  simp only [accum, if_true, Bool.false_eq_true, if_false]
  obtain ⟨r1, r2⟩ := hr
  constructor <;> rintro rfl
  · have e1 : o + 1 * (x * y) = y * x + o := by ring
    rw [e1] at r1 r2 ⊢
    have e2 : fl (y * x + o) + 1 * (-1 * (z * t)) = fl (y * x + o) - t * z := by ring
    rw [e2] at r2 ⊢
    exact val_fnma h ht hz (val_fma h hy hx hO r1).1 r2
  · have e1 : o + -1 * (x * y) = o - y * x := by ring
    rw [e1] at r1 r2 ⊢
    have e2 : fl (o - y * x) + -1 * (-1 * (z * t)) = t * z + fl (o - y * x) := by ring
    rw [e2] at r2 ⊢
    exact (val_fma h ht hz (val_fnma h hy hx hO r1) r2).1

theorem val_acc_re' {σ : ℝ} {X Y Z T O : BitVec 64} {x y z t o : ℝ} (hx : IsVal X x) (hy : IsVal Y y) (hz : IsVal Z z) (ht : IsVal T t)
    (hO : IsVal O o) (hr : accumInRange false fl (-1) σ o x y z t) :
    (σ = 1 → IsVal (F.fnma Z T (F.fma X Y O)) (accum true false .right fl (-1) σ o x y z t)) ∧
    (σ = -1 → IsVal (F.fma Z T (F.fnma X Y O)) (accum true false .right fl (-1) σ o x y z t)) := by
  have e : accum true false .right fl (-1) σ o x y z t = accum true false .right fl (-1) σ o y x t z := by
    simp only [accum, mul_comm x y, mul_comm z t, fused_comm .right fl (-1) x y z t]
  have r : accumInRange false fl (-1) σ o y x t z := by
    simp only [accumInRange, mul_comm y x, mul_comm t z] at hr ⊢; exact hr
  rw [e]; exact val_acc_re h hy hx ht hz hO r

theorem val_acc_im {σ : ℝ} {X Y Z T O : BitVec 64} {x y z t o : ℝ} (hx : IsVal X x) (hy : IsVal Y y) (hz : IsVal Z z) (ht : IsVal T t)
    (hO : IsVal O o) (hr : accumInRange false fl 1 σ o x y z t) :
    (σ = 1 → IsVal (F.fma T Z (F.fma Y X O)) (accum true false .right fl 1 σ o x y z t)) ∧
    (σ = -1 → IsVal (F.fnma T Z (F.fnma Y X O)) (accum true false .right fl 1 σ o x y z t)) := by
  simp only [accumInRange, Bool.false_eq_true, if_false] at hr
  simp only [accum, if_true, Bool.false_eq_true, if_false]
  obtain ⟨r1, r2⟩ := hr
  constructor <;> rintro rfl
  · have e1 : o + 1 * (x * y) = y * x + o := by ring
    rw [e1] at r1 r2 ⊢
    have e2 : fl (y * x + o) + 1 * (1 * (z * t)) = t * z + fl (y * x + o) := by ring
    rw [e2] at r2 ⊢
    exact (val_fma h ht hz (val_fma h hy hx hO r1).1 r2).1
  · have e1 : o + -1 * (x * y) = o - y * x := by ring
    rw [e1] at r1 r2 ⊢
    have e2 : fl (o - y * x) + -1 * (1 * (z * t)) = fl (o - y * x) - t * z := by ring
    rw [e2] at r2 ⊢
    exact val_fnma h ht hz (val_fnma h hy hx hO r1) r2

theorem val_acc_swap {σ : ℝ} {f : Fma} {X Y Z T O : BitVec 64} {x y z t o : ℝ} (hx : IsVal X x) (hy : IsVal Y y) (hz : IsVal Z z) (ht : IsVal T t)
    (hO : IsVal O o) (hr : accumInRange true fl 1 σ o x y z t) :
    (σ = 1 → IsVal (F.fma X Y (F.fma Z T O)) (accum true true f fl 1 σ o x y z t)) ∧
    (σ = -1 → IsVal (F.fnma X Y (F.fnma Z T O)) (accum true true f fl 1 σ o x y z t)) := by
  simp only [accumInRange, if_true] at hr
  simp only [accum, if_true]
  obtain ⟨r1, r2⟩ := hr
  constructor <;> rintro rfl
  · have e1 : o + 1 * (1 * (z * t)) = z * t + o := by ring
    rw [e1] at r1 r2 ⊢
    have e2 : fl (z * t + o) + 1 * (x * y) = x * y + fl (z * t + o) := by ring
    rw [e2] at r2 ⊢
    exact (val_fma h hx hy (val_fma h hz ht hO r1).1 r2).1
  · have e1 : o + -1 * (1 * (z * t)) = o - z * t := by ring
    rw [e1] at r1 r2 ⊢
    have e2 : fl (o - z * t) + -1 * (x * y) = fl (o - z * t) - x * y := by ring
    rw [e2] at r2 ⊢
    exact val_fnma h hx hy (val_fnma h hz ht hO r1) r2

/-- `addCmplxTo`: sums. -/
theorem C69_addCmplxTo (g : Reg → BitVec 64) (y : Nat → Y) (m : Memory) (o a b : GoSlice)
    (vo va vb : List (BitVec 64)) (ho : Has64 m o vo) (ha : Has64 m a va) (hb : Has64 m b vb)
    (la : va.length = vo.length) (lb : vb.length = vo.length) (h8 : vo.length % 8 = 0) (hn : vo.length < 2 ^ 60)
    (aa : Alias 64 a o) (ab : Alias 64 b o) (fa : ∀ x ∈ va, f64Finite x) (fb : ∀ x ∈ vb, f64Finite x)
    (hr : ∀ j < vo.length / 2, InRange ((valC va j).1 + (valC vb j).1) ∧ InRange ((valC va j).2 + (valC vb j).2)) :
    ∃ m' v', addCmplxTo F o a b g y m m' ∧ Has64 m' o v' ∧ Outside64 m m' o ∧ v'.length = vo.length ∧
      ∀ j < vo.length / 2, IsValC v' j ((Arith.ofFl .avx2 fl).add (valC va j).1 (valC vb j).1, (Arith.ofFl .avx2 fl).add (valC va j).2 (valC vb j).2) := by
  obtain ⟨m', v', r1, r2, r3, r4, r5⟩ := C67_addCmplxTo F g y m o a b vo va vb ho ha hb la lb h8 hn aa ab
  refine ⟨m', v', r1, r2, r3, r4, fun j hj => ?_⟩
  have A := isValC_valC fa j
  have B := isValC_valC fb j
  have R := hr j hj
  rw [IsValC, r5 j hj]
  exact ⟨val_add h A.1 B.1 R.1, val_add h A.2 B.2 R.2⟩

/-- `subCmplxTo`: differences. -/
theorem C69_subCmplxTo (g : Reg → BitVec 64) (y : Nat → Y) (m : Memory) (o a b : GoSlice)
    (vo va vb : List (BitVec 64)) (ho : Has64 m o vo) (ha : Has64 m a va) (hb : Has64 m b vb)
    (la : va.length = vo.length) (lb : vb.length = vo.length) (h8 : vo.length % 8 = 0) (hn : vo.length < 2 ^ 60)
    (aa : Alias 64 a o) (ab : Alias 64 b o) (fa : ∀ x ∈ va, f64Finite x) (fb : ∀ x ∈ vb, f64Finite x)
    (hr : ∀ j < vo.length / 2, InRange ((valC va j).1 - (valC vb j).1) ∧ InRange ((valC va j).2 - (valC vb j).2)) :
    ∃ m' v', subCmplxTo F o a b g y m m' ∧ Has64 m' o v' ∧ Outside64 m m' o ∧ v'.length = vo.length ∧
      ∀ j < vo.length / 2, IsValC v' j ((Arith.ofFl .avx2 fl).sub (valC va j).1 (valC vb j).1, (Arith.ofFl .avx2 fl).sub (valC va j).2 (valC vb j).2) := by
  obtain ⟨m', v', r1, r2, r3, r4, r5⟩ := C67_subCmplxTo F g y m o a b vo va vb ho ha hb la lb h8 hn aa ab
  refine ⟨m', v', r1, r2, r3, r4, fun j hj => ?_⟩
  have A := isValC_valC fa j
  have B := isValC_valC fb j
  have R := hr j hj
  rw [IsValC, r5 j hj]
  exact ⟨val_sub h A.1 B.1 R.1, val_sub h A.2 B.2 R.2⟩

/-- `negCmplxTo`: negatives. -/
theorem C69_negCmplxTo (g : Reg → BitVec 64) (y : Nat → Y) (m : Memory) (o a : GoSlice)
    (vo va : List (BitVec 64)) (ho : Has64 m o vo) (ha : Has64 m a va)
    (la : va.length = vo.length) (h8 : vo.length % 8 = 0) (hn : vo.length < 2 ^ 60)
    (aa : Alias 64 a o) (fa : ∀ x ∈ va, f64Finite x)
    (hr : ∀ j < vo.length / 2, |(valC va j).1| ≤ 2 ^ (1023 : ℤ) ∧ |(valC va j).2| ≤ 2 ^ (1023 : ℤ)) :
    ∃ m' v', negCmplxTo F o a g y m m' ∧ Has64 m' o v' ∧ Outside64 m m' o ∧ v'.length = vo.length ∧
      ∀ j < vo.length / 2, IsValC v' j (-(valC va j).1, -(valC va j).2) := by
  obtain ⟨m', v', r1, r2, r3, r4, r5⟩ := C67_negCmplxTo F g y m o a vo va ho ha la h8 hn aa
  refine ⟨m', v', r1, r2, r3, r4, fun j hj => ?_⟩
  have A := isValC_valC fa j
  have R := hr j hj
  rw [IsValC, r5 j hj]
  exact ⟨val_neg h A.1 R.1, val_neg h A.2 R.2⟩

/-- `floatMulCmplxTo`: products with a real number. -/
theorem C69_floatMulCmplxTo (g : Reg → BitVec 64) (y : Nat → Y) (m : Memory) (o a : GoSlice) (c : BitVec 64)
    (vo va : List (BitVec 64)) (ho : Has64 m o vo) (ha : Has64 m a va)
    (la : va.length = vo.length) (h8 : vo.length % 8 = 0) (hn : vo.length < 2 ^ 60)
    (aa : Alias 64 a o) (fa : ∀ x ∈ va, f64Finite x) (fc : f64Finite c)
    (hr : ∀ j < vo.length / 2, InRange ((f64Val c : ℝ) * (valC va j).1) ∧ InRange ((f64Val c : ℝ) * (valC va j).2)) :
    ∃ m' v', floatMulCmplxTo F o a c g y m m' ∧ Has64 m' o v' ∧ Outside64 m m' o ∧ v'.length = vo.length ∧
      ∀ j < vo.length / 2, IsValC v' j (fl ((f64Val c : ℝ) * (valC va j).1), fl ((f64Val c : ℝ) * (valC va j).2)) := by
  obtain ⟨m', v', r1, r2, r3, r4, r5⟩ := C67_floatMulCmplxTo F g y m o a c vo va ho ha la h8 hn aa
  refine ⟨m', v', r1, r2, r3, r4, fun j hj => ?_⟩
  have A := isValC_valC fa j
  have R := hr j hj
  rw [IsValC, r5 j hj]
  rw [mul_comm _ (valC va j).1, mul_comm _ (valC va j).2] at R
  exact ⟨isVal_congr (val_mul h A.1 ⟨fc, rfl⟩ R.1) (by rw [mul_comm]), isVal_congr (val_mul h A.2 ⟨fc, rfl⟩ R.2) (by rw [mul_comm])⟩

/-- `floatMulAddCmplxTo`: products with a real number are added, fused. -/
theorem C69_floatMulAddCmplxTo (g : Reg → BitVec 64) (y : Nat → Y) (m : Memory) (o a : GoSlice) (c : BitVec 64)
    (vo va : List (BitVec 64)) (ho : Has64 m o vo) (ha : Has64 m a va)
    (la : va.length = vo.length) (h8 : vo.length % 8 = 0) (hn : vo.length < 2 ^ 60)
    (aa : Alias 64 a o) (fo : ∀ x ∈ vo, f64Finite x) (fa : ∀ x ∈ va, f64Finite x) (fc : f64Finite c)
    (hr : ∀ j < vo.length / 2, InRange ((valC vo j).1 + (f64Val c : ℝ) * (valC va j).1) ∧ InRange ((valC vo j).2 + (f64Val c : ℝ) * (valC va j).2)) :
    ∃ m' v', floatMulAddCmplxTo F o a c g y m m' ∧ Has64 m' o v' ∧ Outside64 m m' o ∧ v'.length = vo.length ∧
      ∀ j < vo.length / 2, IsValC v' j (fl ((valC vo j).1 + (f64Val c : ℝ) * (valC va j).1), fl ((valC vo j).2 + (f64Val c : ℝ) * (valC va j).2)) := by
  obtain ⟨m', v', r1, r2, r3, r4, r5⟩ := C67_floatMulAddCmplxTo F g y m o a c vo va ho ha la h8 hn aa
  refine ⟨m', v', r1, r2, r3, r4, fun j hj => ?_⟩
  have A := isValC_valC fa j
  have O := isValC_valC fo j
  have R := hr j hj
  rw [IsValC, r5 j hj]
  rw [add_comm, mul_comm _ (valC va j).1, add_comm (valC vo j).2, mul_comm _ (valC va j).2] at R
  exact ⟨isVal_congr (val_fma h A.1 ⟨fc, rfl⟩ O.1 R.1).1 (by rw [mul_comm, add_comm]), isVal_congr (val_fma h A.2 ⟨fc, rfl⟩ O.2 R.2).1 (by rw [mul_comm, add_comm])⟩

/-- `floatMulSubCmplxTo`: products with a real number are subtracted, fused. -/
theorem C69_floatMulSubCmplxTo (g : Reg → BitVec 64) (y : Nat → Y) (m : Memory) (o a : GoSlice) (c : BitVec 64)
    (vo va : List (BitVec 64)) (ho : Has64 m o vo) (ha : Has64 m a va)
    (la : va.length = vo.length) (h8 : vo.length % 8 = 0) (hn : vo.length < 2 ^ 60)
    (aa : Alias 64 a o) (fo : ∀ x ∈ vo, f64Finite x) (fa : ∀ x ∈ va, f64Finite x) (fc : f64Finite c)
    (hr : ∀ j < vo.length / 2, InRange ((valC vo j).1 - (f64Val c : ℝ) * (valC va j).1) ∧ InRange ((valC vo j).2 - (f64Val c : ℝ) * (valC va j).2)) :
    ∃ m' v', floatMulSubCmplxTo F o a c g y m m' ∧ Has64 m' o v' ∧ Outside64 m m' o ∧ v'.length = vo.length ∧
      ∀ j < vo.length / 2, IsValC v' j (fl ((valC vo j).1 - (f64Val c : ℝ) * (valC va j).1), fl ((valC vo j).2 - (f64Val c : ℝ) * (valC va j).2)) := by
  obtain ⟨m', v', r1, r2, r3, r4, r5⟩ := C67_floatMulSubCmplxTo F g y m o a c vo va ho ha la h8 hn aa
  refine ⟨m', v', r1, r2, r3, r4, fun j hj => ?_⟩
  have A := isValC_valC fa j
  have O := isValC_valC fo j
  have R := hr j hj
  rw [IsValC, r5 j hj]
  rw [mul_comm _ (valC va j).1, mul_comm _ (valC va j).2] at R
  exact ⟨isVal_congr (val_fnma h A.1 ⟨fc, rfl⟩ O.1 R.1) (by rw [mul_comm]), isVal_congr (val_fnma h A.2 ⟨fc, rfl⟩ O.2 R.2) (by rw [mul_comm])⟩

/-- `cmplxMulCmplxTo`: products with a complex number. -/
theorem C69_cmplxMulCmplxTo (g : Reg → BitVec 64) (y : Nat → Y) (m : Memory) (o a : GoSlice) (cR cI : BitVec 64)
    (vo va : List (BitVec 64)) (ho : Has64 m o vo) (ha : Has64 m a va)
    (la : va.length = vo.length) (h8 : vo.length % 8 = 0) (hn : vo.length < 2 ^ 60)
    (aa : Alias 64 a o) (fa : ∀ x ∈ va, f64Finite x) (fR : f64Finite cR) (fI : f64Finite cI)
    (hr : ∀ j < vo.length / 2, fusedInRange .right fl (-1) (valC va j).1 (f64Val cR : ℝ) (valC va j).2 (f64Val cI : ℝ) ∧ fusedInRange .left fl 1 (valC va j).1 (f64Val cI : ℝ) (valC va j).2 (f64Val cR : ℝ)) :
    ∃ m' v', cmplxMulCmplxTo F o a cR cI g y m m' ∧ Has64 m' o v' ∧ Outside64 m m' o ∧ v'.length = vo.length ∧
      ∀ j < vo.length / 2, IsValC v' j ((Arith.ofFl .avx2 fl).atConst.mulSub (valC va j).1 (f64Val cR : ℝ) (valC va j).2 (f64Val cI : ℝ), (Arith.ofFl .avx2 fl).atConst.mulAdd (valC va j).1 (f64Val cI : ℝ) (valC va j).2 (f64Val cR : ℝ)) := by
  obtain ⟨m', v', r1, r2, r3, r4, r5⟩ := C67_cmplxMulCmplxTo F g y m o a cR cI vo va ho ha la h8 hn aa
  refine ⟨m', v', r1, r2, r3, r4, fun j hj => ?_⟩
  have A := isValC_valC fa j
  have R := hr j hj
  rw [IsValC, r5 j hj]
  exact ⟨val_right_re h A.1 ⟨fR, rfl⟩ A.2 ⟨fI, rfl⟩ R.1, (val_left_im h A.1 ⟨fI, rfl⟩ A.2 ⟨fR, rfl⟩ R.2).1⟩

/-- `cmplxMulAddCmplxTo`: products with a complex number are added, one half after the other. -/
theorem C69_cmplxMulAddCmplxTo (g : Reg → BitVec 64) (y : Nat → Y) (m : Memory) (o a : GoSlice) (cR cI : BitVec 64)
    (vo va : List (BitVec 64)) (ho : Has64 m o vo) (ha : Has64 m a va)
    (la : va.length = vo.length) (h8 : vo.length % 8 = 0) (hn : vo.length < 2 ^ 60)
    (aa : Alias 64 a o) (fo : ∀ x ∈ vo, f64Finite x) (fa : ∀ x ∈ va, f64Finite x) (fR : f64Finite cR) (fI : f64Finite cI)
    (hr : ∀ j < vo.length / 2, accumInRange false fl (-1) 1 (valC vo j).1 (valC va j).1 (f64Val cR : ℝ) (valC va j).2 (f64Val cI : ℝ) ∧ accumInRange true fl 1 1 (valC vo j).2 (valC va j).1 (f64Val cI : ℝ) (valC va j).2 (f64Val cR : ℝ)) :
    ∃ m' v', cmplxMulAddCmplxTo F o a cR cI g y m m' ∧ Has64 m' o v' ∧ Outside64 m m' o ∧ v'.length = vo.length ∧
      ∀ j < vo.length / 2, IsValC v' j ((Arith.ofFl .avx2 fl).atConst.accSub 1 (valC vo j).1 (valC va j).1 (f64Val cR : ℝ) (valC va j).2 (f64Val cI : ℝ), (Arith.ofFl .avx2 fl).atConst.accAdd 1 (valC vo j).2 (valC va j).1 (f64Val cI : ℝ) (valC va j).2 (f64Val cR : ℝ)) := by
  obtain ⟨m', v', r1, r2, r3, r4, r5⟩ := C67_cmplxMulAddCmplxTo F g y m o a cR cI vo va ho ha la h8 hn aa
  refine ⟨m', v', r1, r2, r3, r4, fun j hj => ?_⟩
  have A := isValC_valC fa j
  have O := isValC_valC fo j
  have R := hr j hj
  rw [IsValC, r5 j hj]
  exact ⟨(val_acc_re' h A.1 ⟨fR, rfl⟩ A.2 ⟨fI, rfl⟩ O.1 R.1).1 rfl, (val_acc_swap (f := .left) h A.1 ⟨fI, rfl⟩ A.2 ⟨fR, rfl⟩ O.2 R.2).1 rfl⟩

/-- `cmplxMulSubCmplxTo`: products with a complex number are subtracted, one half after the other. -/
theorem C69_cmplxMulSubCmplxTo (g : Reg → BitVec 64) (y : Nat → Y) (m : Memory) (o a : GoSlice) (cR cI : BitVec 64)
    (vo va : List (BitVec 64)) (ho : Has64 m o vo) (ha : Has64 m a va)
    (la : va.length = vo.length) (h8 : vo.length % 8 = 0) (hn : vo.length < 2 ^ 60)
    (aa : Alias 64 a o) (fo : ∀ x ∈ vo, f64Finite x) (fa : ∀ x ∈ va, f64Finite x) (fR : f64Finite cR) (fI : f64Finite cI)
    (hr : ∀ j < vo.length / 2, accumInRange false fl (-1) (-1) (valC vo j).1 (valC va j).1 (f64Val cR : ℝ) (valC va j).2 (f64Val cI : ℝ) ∧ accumInRange true fl 1 (-1) (valC vo j).2 (valC va j).1 (f64Val cI : ℝ) (valC va j).2 (f64Val cR : ℝ)) :
    ∃ m' v', cmplxMulSubCmplxTo F o a cR cI g y m m' ∧ Has64 m' o v' ∧ Outside64 m m' o ∧ v'.length = vo.length ∧
      ∀ j < vo.length / 2, IsValC v' j ((Arith.ofFl .avx2 fl).atConst.accSub (-1) (valC vo j).1 (valC va j).1 (f64Val cR : ℝ) (valC va j).2 (f64Val cI : ℝ), (Arith.ofFl .avx2 fl).atConst.accAdd (-1) (valC vo j).2 (valC va j).1 (f64Val cI : ℝ) (valC va j).2 (f64Val cR : ℝ)) := by
  obtain ⟨m', v', r1, r2, r3, r4, r5⟩ := C67_cmplxMulSubCmplxTo F g y m o a cR cI vo va ho ha la h8 hn aa
  refine ⟨m', v', r1, r2, r3, r4, fun j hj => ?_⟩
  have A := isValC_valC fa j
  have O := isValC_valC fo j
  have R := hr j hj
  rw [IsValC, r5 j hj]
  exact ⟨(val_acc_re' h A.1 ⟨fR, rfl⟩ A.2 ⟨fI, rfl⟩ O.1 R.1).2 rfl, (val_acc_swap (f := .left) h A.1 ⟨fI, rfl⟩ A.2 ⟨fR, rfl⟩ O.2 R.2).2 rfl⟩

/-- `mulCmplxTo`: products. -/
theorem C69_mulCmplxTo (g : Reg → BitVec 64) (y : Nat → Y) (m : Memory) (o a b : GoSlice)
    (vo va vb : List (BitVec 64)) (ho : Has64 m o vo) (ha : Has64 m a va) (hb : Has64 m b vb)
    (la : va.length = vo.length) (lb : vb.length = vo.length) (h8 : vo.length % 8 = 0) (hn : vo.length < 2 ^ 60)
    (aa : Alias 64 a o) (ab : Alias 64 b o) (fa : ∀ x ∈ va, f64Finite x) (fb : ∀ x ∈ vb, f64Finite x)
    (hr : ∀ j < vo.length / 2, fusedInRange .right fl (-1) (valC va j).1 (valC vb j).1 (valC va j).2 (valC vb j).2 ∧ fusedInRange .right fl 1 (valC va j).1 (valC vb j).2 (valC va j).2 (valC vb j).1) :
    ∃ m' v', mulCmplxTo F o a b g y m m' ∧ Has64 m' o v' ∧ Outside64 m m' o ∧ v'.length = vo.length ∧
      ∀ j < vo.length / 2, IsValC v' j (cmulFl (Arith.ofFl .avx2 fl) (valC va j) (valC vb j)) := by
  obtain ⟨m', v', r1, r2, r3, r4, r5⟩ := C67_mulCmplxTo F g y m o a b vo va vb ho ha hb la lb h8 hn aa ab
  refine ⟨m', v', r1, r2, r3, r4, fun j hj => ?_⟩
  have A := isValC_valC fa j
  have B := isValC_valC fb j
  have R := hr j hj
  rw [IsValC, r5 j hj]
  rw [fusedInRange_comm, fusedInRange_comm _ _ 1] at R
  exact ⟨isVal_congr (val_right_re h B.1 A.1 B.2 A.2 R.1) (fused_comm _ _ _ _ _ _ _), isVal_congr (val_right_im h B.2 A.1 B.1 A.2 R.2) (fused_comm _ _ _ _ _ _ _)⟩

/-- `mulAddCmplxTo`: products are added, one half after the other. -/
theorem C69_mulAddCmplxTo (g : Reg → BitVec 64) (y : Nat → Y) (m : Memory) (o a b : GoSlice)
    (vo va vb : List (BitVec 64)) (ho : Has64 m o vo) (ha : Has64 m a va) (hb : Has64 m b vb)
    (la : va.length = vo.length) (lb : vb.length = vo.length) (h8 : vo.length % 8 = 0) (hn : vo.length < 2 ^ 60)
    (aa : Alias 64 a o) (ab : Alias 64 b o) (fo : ∀ x ∈ vo, f64Finite x) (fa : ∀ x ∈ va, f64Finite x) (fb : ∀ x ∈ vb, f64Finite x)
    (hr : ∀ j < vo.length / 2, accumInRange false fl (-1) 1 (valC vo j).1 (valC va j).1 (valC vb j).1 (valC va j).2 (valC vb j).2 ∧ accumInRange false fl 1 1 (valC vo j).2 (valC va j).1 (valC vb j).2 (valC va j).2 (valC vb j).1) :
    ∃ m' v', mulAddCmplxTo F o a b g y m m' ∧ Has64 m' o v' ∧ Outside64 m m' o ∧ v'.length = vo.length ∧
      ∀ j < vo.length / 2, IsValC v' j ((Arith.ofFl .avx2 fl).accSub 1 (valC vo j).1 (valC va j).1 (valC vb j).1 (valC va j).2 (valC vb j).2, (Arith.ofFl .avx2 fl).accAdd 1 (valC vo j).2 (valC va j).1 (valC vb j).2 (valC va j).2 (valC vb j).1) := by
  obtain ⟨m', v', r1, r2, r3, r4, r5⟩ := C67_mulAddCmplxTo F g y m o a b vo va vb ho ha hb la lb h8 hn aa ab
  refine ⟨m', v', r1, r2, r3, r4, fun j hj => ?_⟩
  have A := isValC_valC fa j
  have B := isValC_valC fb j
  have O := isValC_valC fo j
  have R := hr j hj
  rw [IsValC, r5 j hj]
  exact ⟨(val_acc_re h A.1 B.1 A.2 B.2 O.1 R.1).1 rfl, (val_acc_im h A.1 B.2 A.2 B.1 O.2 R.2).1 rfl⟩

/-- `mulSubCmplxTo`: products are subtracted, one half after the other. -/
theorem C69_mulSubCmplxTo (g : Reg → BitVec 64) (y : Nat → Y) (m : Memory) (o a b : GoSlice)
    (vo va vb : List (BitVec 64)) (ho : Has64 m o vo) (ha : Has64 m a va) (hb : Has64 m b vb)
    (la : va.length = vo.length) (lb : vb.length = vo.length) (h8 : vo.length % 8 = 0) (hn : vo.length < 2 ^ 60)
    (aa : Alias 64 a o) (ab : Alias 64 b o) (fo : ∀ x ∈ vo, f64Finite x) (fa : ∀ x ∈ va, f64Finite x) (fb : ∀ x ∈ vb, f64Finite x)
    (hr : ∀ j < vo.length / 2, accumInRange false fl (-1) (-1) (valC vo j).1 (valC va j).1 (valC vb j).1 (valC va j).2 (valC vb j).2 ∧ accumInRange false fl 1 (-1) (valC vo j).2 (valC va j).1 (valC vb j).2 (valC va j).2 (valC vb j).1) :
    ∃ m' v', mulSubCmplxTo F o a b g y m m' ∧ Has64 m' o v' ∧ Outside64 m m' o ∧ v'.length = vo.length ∧
      ∀ j < vo.length / 2, IsValC v' j ((Arith.ofFl .avx2 fl).accSub (-1) (valC vo j).1 (valC va j).1 (valC vb j).1 (valC va j).2 (valC vb j).2, (Arith.ofFl .avx2 fl).accAdd (-1) (valC vo j).2 (valC va j).1 (valC vb j).2 (valC va j).2 (valC vb j).1) := by
  obtain ⟨m', v', r1, r2, r3, r4, r5⟩ := C67_mulSubCmplxTo F g y m o a b vo va vb ho ha hb la lb h8 hn aa ab
  refine ⟨m', v', r1, r2, r3, r4, fun j hj => ?_⟩
  have A := isValC_valC fa j
  have B := isValC_valC fb j
  have O := isValC_valC fo j
  have R := hr j hj
  rw [IsValC, r5 j hj]
  exact ⟨(val_acc_re h A.1 B.1 A.2 B.2 O.1 R.1).2 rfl, (val_acc_im h A.1 B.2 A.2 B.1 O.2 R.2).2 rfl⟩

end

/-! ### Concrete cases -/

theorem exists_isVal {r : ℝ} (hf : IsFloat r) (hr : InRange r) : ∃ x, IsVal x r := by
  obtain ⟨m, j, hm, rfl⟩ := id hf
  have e : (((m : ℚ) * 2 ^ j : ℚ) : ℝ) = m * 2 ^ j := by push_cast; rfl
  obtain ⟨x, h1, h2⟩ := exists_pattern (rep_of_float (v := (m : ℚ) * 2 ^ j) (by rw [e]; exact hf) (by rw [e]; exact hr))
  exact ⟨x, h1, by rw [h2, e]⟩

/-- The tables of `NewEvaluator` consist of floats. -/
theorem exists_table {M : Machine} (hM : Ieee M) {l : ℕ} {N : BitVec 64} (hN : N.toInt = 2 ^ (l + 4)) {e : Eval ℝ}
    (he : newEvaluatorFl M.arith M.cis N = some e) (hl : l ≤ 22) :
    ∃ tw : ℕ → BitVec 64 × BitVec 64, ∀ k < 2 ^ (l + 3) - 1, IsVal (tw k).1 (e.tw k).1 ∧ IsVal (tw k).2 (e.tw k).2 := by
  have key : ∀ k, ∃ z : BitVec 64 × BitVec 64, k < 2 ^ (l + 3) - 1 → IsVal z.1 (e.tw k).1 ∧ IsVal z.2 (e.tw k).2 := by
    intro k
    by_cases hk : k < 2 ^ (l + 3) - 1
    · obtain ⟨d1, d2⟩ := tw_grid hM hN he hl k hk
      obtain ⟨f1, f2⟩ := tw_isFloat hM hN he k hk
      obtain ⟨x, hx⟩ := exists_isVal f1 (d1.range (by norm_num) (by omega))
      obtain ⟨y, hy⟩ := exists_isVal f2 (d2.range (by norm_num) (by omega))
      exact ⟨(x, y), fun _ => ⟨hx, hy⟩⟩
    · exact ⟨(0, 0), fun h => absurd h hk⟩
  choose tw htw using key
  exact ⟨tw, htw⟩

/-- A memory of 1024 words with seven twiddle factors at address 192. -/
def twMem (tw : ℕ → BitVec 64 × BitVec 64) : Memory := fun a =>
  let k := a.toNat / 4
  if 1024 ≤ k then none
  else if k < 48 ∨ 76 ≤ k then some (BitVec.ofNat 32 k)
  else
    let z := tw ((k - 48) / 4)
    let x := if (k - 48) % 4 < 2 then z.1 else z.2
    some (if k % 2 = 0 then x.setWidth 32 else (x >>> 32).setWidth 32)

theorem twMem_eq (tw : ℕ → BitVec 64 × BitVec 64) {a : BitVec 64} (h : a.toNat / 4 < 48 ∨ 76 ≤ a.toNat / 4) :
    twMem tw a = twMem (fun _ => (0, 0)) a := by
  unfold twMem; simp only [h, if_true]

theorem twMem_has (tw : ℕ → BitVec 64 × BitVec 64) {b : BitVec 64} (h0 : Has64 (twMem fun _ => (0, 0)) ⟨b, 16, 16⟩ (ramp64 b.toNat 16))
    (h : ∀ k < 32, (b + BitVec.ofNat 64 (4 * k)).toNat / 4 < 48 ∨ 76 ≤ (b + BitVec.ofNat 64 (4 * k)).toNat / 4) :
    Has64 (twMem tw) ⟨b, 16, 16⟩ (ramp64 b.toNat 16) := by
  refine ⟨h0.1, h0.2.1, fun i hi => ?_⟩
  have hi' : i < 16 := by rw [← h0.1] at hi; exact hi
  have k1 := h (2 * i) (by omega)
  have k2 := h (2 * i + 1) (by omega)
  rw [show 4 * (2 * i) = 8 * i by omega] at k1
  rw [show 4 * (2 * i + 1) = 8 * i + 4 by omega] at k2
  dsimp only
  rw [twMem_eq tw k1, twMem_eq tw k2]; exact h0.2.2 i hi

/-- A transform of rank 16, on a processor and a platform that exist. -/
example : ∃ (F : Fpu) (M : Machine) (e : Eval ℝ) (m m' : Memory) (v' : List (BitVec 64)), RoundsAs F M.fl ∧ Ieee M ∧
    newEvaluatorFl M.arith M.cis 16 = some e ∧
    fwdFFTTo64 F ⟨64, 16, 16⟩ ⟨512, 16, 16⟩ ⟨192, 7, 7⟩ (fun _ => 0) (fun _ _ => 0) (fun _ => 0) (fun _ _ => 0) m m' ∧
    Has64 m ⟨512, 16, 16⟩ (ramp64 512 16) ∧ Has64 m' ⟨64, 16, 16⟩ v' ∧
    ∀ j < 16, IsVal (v'.getD j 0) (fwdFFTFl M.arith e (fun _ => 0) (fun i => (ramp64 512 16).getD i 0) j) := by
  obtain ⟨F, M, hF, hM, ha⟩ := exists_platform
  obtain ⟨e, he, -⟩ := newEvaluatorFl_good (ofFl_ok M.toFloat64 hM.toAccurate) (by positivity) (2⁻¹ ^ 49) (40 * 2⁻¹ ^ 53) (by norm_num) M.cis
    (cis_near M.toFloat64 hM.toAccurate) 0 16 (by decide)
  obtain ⟨tw, htw⟩ := exists_table hM (l := 0) (N := 16) (by decide) he (by norm_num)
  have hp : Has64 (twMem tw) ⟨512, 16, 16⟩ (ramp64 512 16) :=
    twMem_has tw (b := 512) ⟨rfl, rfl, by decide +kernel⟩ (by decide +kernel)
  obtain ⟨m', v', h1, h2, -, -, h5⟩ := C69_fwdFFTTo64 hF hM ha (l := 0) (N := 16) (by decide) he (by norm_num) (fun _ => 0) (fun _ => 0)
    (fun _ _ => 0) (fun _ _ => 0) (twMem tw) ⟨64, 16, 16⟩ ⟨512, 16, 16⟩ ⟨192, 7, 7⟩ (ramp64 64 16) (ramp64 512 16) ((List.range 7).map tw)
    (twMem_has tw (b := 64) ⟨rfl, rfl, by decide +kernel⟩ (by decide +kernel)) hp
    ⟨rfl, rfl, fun i hi => by
      have hi : i < 7 := hi
      interval_cases i <;> exact ⟨rfl, rfl, rfl, rfl⟩⟩ (by unfold ApartC; decide +kernel) (by unfold Separate; decide +kernel)
    (by simp [ramp64]) (by simp [ramp64]) (by simp) (fun k hk => by
      have hk : k < 7 := hk
      have := htw k (by norm_num; exact hk)
      interval_cases k <;> exact this) (fun _ => 0)
  exact ⟨F, M, e, _, m', v', hF, hM, he, h1, hp, h2, h5⟩

/-- Numbers up to `2^70` and multiples of `2^-900` can be transformed back at rank 16, with factors that are multiples of `2^-57`. -/
example (M : Machine) (hM : Ieee M) (x : ℕ → ℝ) (hx : ∀ i, Dy 70 900 (x i)) : InvInRange M.fl (2 ^ (0 + 4)) x (fun _ => (3 / 4, -1 / 2)) :=
  C69_inv_inRange hM 0 70 900 57 x _ hx
    (fun _ => ⟨⟨by norm_num [abs_le], 3 * 2 ^ 55, by norm_num⟩, ⟨by norm_num [abs_le], -2 ^ 56, by norm_num⟩⟩)
    (by norm_num) (by norm_num) (by norm_num)

/-- Not every product is in range: the square of `2^-600` underflows. -/
example : ¬ InRange ((2 : ℝ) ^ (-600 : ℤ) * 2 ^ (-600 : ℤ)) := by
  rw [← zpow_add₀ (by norm_num)]
  rintro ⟨-, h | ⟨k, h⟩⟩
  · rw [abs_of_pos (by positivity)] at h
    exact absurd ((zpow_le_zpow_iff_right₀ (by norm_num : (1 : ℝ) < 2)).1 h) (by norm_num)
  · have h2 : (2 : ℝ) ^ (-126 : ℤ) = k := by
      have := congrArg (· * (2 : ℝ) ^ (1074 : ℤ)) h
      simp only [mul_assoc] at this
      rw [← zpow_add₀ (by norm_num), ← zpow_add₀ (by norm_num)] at this
      simpa using this
    have h3 : 0 < k := by
      have : (0 : ℝ) < k := by rw [← h2]; positivity
      exact_mod_cast this
    have h4 : (1 : ℝ) ≤ k := by exact_mod_cast h3
    rw [← h2] at h4
    norm_num at h4

end Asm
end Tfhe
