import Verif.Model.Lwe
import Verif.Spec.Lwe
import Mathlib.Data.List.Nodup
import Mathlib.Data.List.Range
import Mathlib.Tactic.Ring
import Mathlib.Data.BitVec

/-!
# C06: LWE arithmetic is homomorphic, with any aliasing of output and inputs
-/
namespace Tfhe
variable {R : Type}

/-- The ciphertext stored in vector `v`. -/
def ctOf (n : ℕ) (m : Mem R) (v : ℕ) : Fin (n + 1) → R := fun i => m v i

theorem mapLoop_spec (f : R → R → R → R) (out v0 v1 : ℕ) (is : List ℕ) (hnd : is.Nodup) (m : Mem R) (v i : ℕ) :
    mapLoop f out v0 v1 is m v i =
      if v = out ∧ i ∈ is then f (m out i) (m v0 i) (m v1 i) else m v i := by
  induction is generalizing m with
  | nil => simp [mapLoop]
  | cons j js ih =>
    rw [List.nodup_cons] at hnd
    rw [mapLoop, ih hnd.2]
    by_cases hv : v = out
    · by_cases hij : i = j
      · subst hij; subst hv
        rw [if_neg (by tauto), if_pos (by simp)]
        simp [Mem.write]
      · have hw : ∀ u, (m.write out j (f (m out j) (m v0 j) (m v1 j))) u i = m u i := by
          intro u; simp [Mem.write, hij]
        simp only [hw, List.mem_cons, hij, false_or]
    · rw [if_neg (by tauto), if_neg (by tauto)]
      simp [Mem.write, hv]

theorem mem_unrolledIdx (len i : ℕ) : i ∈ unrolledIdx len ↔ i < len := by
  unfold unrolledIdx
  simp only [List.mem_append, List.mem_flatMap, List.mem_map, List.mem_range, List.mem_range'_1]
  constructor
  · rintro (⟨b, hb, k, hk, rfl⟩ | ⟨h1, h2⟩) <;> omega
  · intro h
    by_cases hc : i < len / 8 * 8
    · left; exact ⟨i / 8, by omega, i % 8, by omega, by omega⟩
    · right; omega

theorem nodup_unrolledIdx (len : ℕ) : (unrolledIdx len).Nodup := by
  unfold unrolledIdx
  rw [List.nodup_append]
  refine ⟨?_, List.nodup_range', ?_⟩
  · rw [List.nodup_flatMap]
    refine ⟨?_, ?_⟩
    · intro b _
      apply List.Nodup.map _ List.nodup_range
      intro x y h; simpa using h
    · apply List.Pairwise.imp_of_mem _ (List.nodup_range (n := len / 8))
      intro a b ha hb hab
      rw [Function.onFun, List.disjoint_left]
      intro x hx hy
      simp only [List.mem_map, List.mem_range] at hx hy
      obtain ⟨k, hk, rfl⟩ := hx
      obtain ⟨k', hk', he⟩ := hy
      omega
  · intro x hx y hy
    simp only [List.mem_flatMap, List.mem_map, List.mem_range, List.mem_range'_1] at hx hy
    obtain ⟨b, hb, k, hk, rfl⟩ := hx
    omega

/-- The result of a loop over a whole vector: every element of the output, everything else untouched. -/
theorem mapLoop_whole (f : R → R → R → R) (out v0 v1 len : ℕ) (is : List ℕ) (hnd : is.Nodup)
    (hmem : ∀ i, i ∈ is ↔ i < len) (m : Mem R) :
    (∀ i, i < len → mapLoop f out v0 v1 is m out i = f (m out i) (m v0 i) (m v1 i)) ∧
    (∀ v i, v ≠ out ∨ len ≤ i → mapLoop f out v0 v1 is m v i = m v i) := by
  constructor
  · intro i hi
    rw [mapLoop_spec _ _ _ _ _ hnd, if_pos ⟨rfl, (hmem i).2 hi⟩]
  · intro v i h
    rw [mapLoop_spec _ _ _ _ _ hnd, if_neg]
    rintro ⟨h1, h2⟩
    rw [hmem] at h2
    omega

/-- The three facts claimed of an operation: `out` gets the phase `p`, and no other vector and no
element past the end of `out` changes. -/
def HasPhase [CommRing R] (n out : ℕ) (m m' : Mem R) (p : (Fin n → R) → R) : Prop :=
  (∀ s : Fin n → R, phase s (ctOf n m' out) = p s) ∧
  (∀ v i, v ≠ out ∨ n + 1 ≤ i → m' v i = m v i)

variable [CommRing R]

omit [CommRing R] in
theorem ctOf_unrolled (f : R → R → R → R) (n out v0 v1 : ℕ) (m : Mem R) :
    ctOf n (mapLoop f out v0 v1 (unrolledIdx (n + 1)) m) out =
      fun i => f (ctOf n m out i) (ctOf n m v0 i) (ctOf n m v1 i) := by
  funext i
  exact (mapLoop_whole f out v0 v1 (n + 1) _ (nodup_unrolledIdx _) (mem_unrolledIdx _) m).1 i i.2

/-- `AddLWETo`, any aliasing. -/
theorem C06_add (n out ct0 ct1 : ℕ) (m : Mem R) :
    HasPhase n out m (addLWETo n out ct0 ct1 m)
      (fun s => phase s (ctOf n m ct0) + phase s (ctOf n m ct1)) := by
  refine ⟨fun s => ?_, (mapLoop_whole _ _ _ _ _ _ (nodup_unrolledIdx _) (mem_unrolledIdx _) m).2⟩
  unfold addLWETo vecAddTo
  rw [ctOf_unrolled]
  exact phase_add s _ _

/-- `SubLWETo`, any aliasing. -/
theorem C06_sub (n out ct0 ct1 : ℕ) (m : Mem R) :
    HasPhase n out m (subLWETo n out ct0 ct1 m)
      (fun s => phase s (ctOf n m ct0) - phase s (ctOf n m ct1)) := by
  refine ⟨fun s => ?_, (mapLoop_whole _ _ _ _ _ _ (nodup_unrolledIdx _) (mem_unrolledIdx _) m).2⟩
  unfold subLWETo vecSubTo
  rw [ctOf_unrolled]
  exact phase_sub s _ _

/-- `NegLWETo`, any aliasing. -/
theorem C06_neg (n out ct : ℕ) (m : Mem R) :
    HasPhase n out m (negLWETo n out ct m) (fun s => -phase s (ctOf n m ct)) := by
  have h := mapLoop_whole (fun _ a _ => -a) out ct ct (n + 1) (List.range (n + 1)) List.nodup_range
    (fun i => List.mem_range) m
  refine ⟨fun s => ?_, h.2⟩
  beta_reduce
  rw [← phase_neg]
  congr 1
  funext i
  exact h.1 i i.2

/-- `ScalarMulLWETo`, any aliasing. -/
theorem C06_scalarMul (n out ct : ℕ) (c : R) (m : Mem R) :
    HasPhase n out m (scalarMulLWETo n out ct c m) (fun s => c * phase s (ctOf n m ct)) := by
  refine ⟨fun s => ?_, (mapLoop_whole _ _ _ _ _ _ (nodup_unrolledIdx _) (mem_unrolledIdx _) m).2⟩
  unfold scalarMulLWETo vecScalarMulTo
  rw [ctOf_unrolled]
  exact phase_smul s _ _

/-- `ScalarMulAddLWETo`, any aliasing. -/
theorem C06_scalarMulAdd (n out ct : ℕ) (c : R) (m : Mem R) :
    HasPhase n out m (scalarMulAddLWETo n out ct c m)
      (fun s => phase s (ctOf n m out) + c * phase s (ctOf n m ct)) := by
  refine ⟨fun s => ?_, (mapLoop_whole _ _ _ _ _ _ (nodup_unrolledIdx _) (mem_unrolledIdx _) m).2⟩
  unfold scalarMulAddLWETo vecScalarMulAddTo
  beta_reduce
  rw [ctOf_unrolled, ← phase_smul]
  exact phase_add s _ _

/-- `ScalarMulSubLWETo`, any aliasing. -/
theorem C06_scalarMulSub (n out ct : ℕ) (c : R) (m : Mem R) :
    HasPhase n out m (scalarMulSubLWETo n out ct c m)
      (fun s => phase s (ctOf n m out) - c * phase s (ctOf n m ct)) := by
  refine ⟨fun s => ?_, (mapLoop_whole _ _ _ _ _ _ (nodup_unrolledIdx _) (mem_unrolledIdx _) m).2⟩
  unfold scalarMulSubLWETo vecScalarMulSubTo
  beta_reduce
  rw [ctOf_unrolled, ← phase_smul]
  exact phase_sub s _ _

omit [CommRing R] in
theorem vecCopy_spec (n out ct : ℕ) (m : Mem R) :
    ctOf n (vecCopy (n + 1) out ct m) out = ctOf n m ct ∧
    ∀ v i, v ≠ out ∨ n + 1 ≤ i → vecCopy (n + 1) out ct m v i = m v i := by
  have h := mapLoop_whole (fun _ a _ => a) out ct ct (n + 1) (List.range (n + 1)) List.nodup_range
    (fun i => List.mem_range) m
  exact ⟨funext fun i => h.1 i i.2, h.2⟩

theorem phase_write_zero (n out : ℕ) (m : Mem R) (x : R) (s : Fin n → R) :
    phase s (ctOf n (m.write out 0 x) out) = phase s (ctOf n m out) + (x - m out 0) := by
  have h0 : ctOf n (m.write out 0 x) out 0 = x := by simp [ctOf, Mem.write]
  have h1 : ∀ i : Fin n, ctOf n (m.write out 0 x) out i.succ = ctOf n m out i.succ := by
    intro i; simp [ctOf, Mem.write]
  unfold phase
  rw [h0]
  simp only [h1]
  have : ctOf n m out 0 = m out 0 := rfl
  rw [this]; ring

/-- `AddPlainLWETo`, any aliasing. -/
theorem C06_addPlain (n out ct : ℕ) (pt : R) (m : Mem R) :
    HasPhase n out m (addPlainLWETo n out ct pt m) (fun s => phase s (ctOf n m ct) + pt) := by
  obtain ⟨h1, h2⟩ := vecCopy_spec n out ct m
  refine ⟨fun s => ?_, fun v i h => ?_⟩
  · unfold addPlainLWETo
    simp only
    rw [phase_write_zero, h1]; ring
  · rw [← h2 v i h]
    simp only [addPlainLWETo, Mem.write]
    rw [if_neg (by omega)]

/-- `SubPlainLWETo`, any aliasing. -/
theorem C06_subPlain (n out ct : ℕ) (pt : R) (m : Mem R) :
    HasPhase n out m (subPlainLWETo n out ct pt m) (fun s => phase s (ctOf n m ct) - pt) := by
  obtain ⟨h1, h2⟩ := vecCopy_spec n out ct m
  refine ⟨fun s => ?_, fun v i h => ?_⟩
  · unfold subPlainLWETo
    simp only
    rw [phase_write_zero, h1]; ring
  · rw [← h2 v i h]
    simp only [subPlainLWETo, Mem.write]
    rw [if_neg (by omega)]

/-- A case with aliasing and a dimension that is not a multiple of 8: `ct1 -= ct0` then `ct1 += 3 ct1`
on 32-bit words. -/
example : (List.range 11).map (scalarMulAddLWETo (R := BitVec 32) 9 1 1 3
      (subLWETo 9 1 1 0 (fun v i => if v = 0 then 2 else BitVec.ofNat 32 i)) 1) =
    [-8, -4, 0, 4, 8, 12, 16, 20, 24, 28, 10] := by decide +kernel

end Tfhe
