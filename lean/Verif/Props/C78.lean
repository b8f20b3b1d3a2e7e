import Verif.Model.VecAlloc
import Verif.Props.C06
import Verif.Props.C44
import Verif.Props.C76

/-!
# C78: the vector functions that allocate their result

The specification is `List.zipWith`, `List.map` and `List.reverse`.
-/
namespace Tfhe.VecAlloc

open Tfhe.GoNum

variable {R : Type}

private theorem check3 (a b c : ℕ) :
    checkLength [a, b, c] = if b = a ∧ c = a then some () else none := by
  simp [checkLength]

private theorem check2 (a b : ℕ) : checkLength [a, b] = if b = a then some () else none := by
  simp [checkLength]

private theorem readBack_mapLoop (f : R → R → R) (z : R) (out v0 v1 : List R) (is : List ℕ)
    (hnd : is.Nodup) (hmem : ∀ i, i ∈ is ↔ i < out.length) (h0 : v0.length = out.length)
    (h1 : v1.length = out.length) :
    readBack out.length (mapLoop (fun _ a b => f a b) 0 1 2 is (memOf z out v0 v1)) =
      List.zipWith f v0 v1 := by
  apply List.ext_getElem
  · simp [readBack, h0, h1]
  · intro i hi _
    have hi' : i < out.length := by simpa [readBack] using hi
    simp only [readBack, List.getElem_map, List.getElem_range, List.getElem_zipWith]
    rw [(mapLoop_whole _ 0 1 2 out.length is hnd hmem _).1 i hi']
    simp [memOf, List.getD_eq_getElem?_getD, h0, h1, hi']

private theorem readBack_mapLoop1 (f : R → R) (z : R) (out v : List R) (is : List ℕ)
    (hnd : is.Nodup) (hmem : ∀ i, i ∈ is ↔ i < out.length) (h0 : v.length = out.length) :
    readBack out.length (mapLoop (fun _ a _ => f a) 0 1 1 is (memOf z out v v)) = v.map f := by
  apply List.ext_getElem
  · simp [readBack, h0]
  · intro i hi _
    have hi' : i < out.length := by simpa [readBack] using hi
    simp only [readBack, List.getElem_map, List.getElem_range]
    rw [(mapLoop_whole _ 0 1 1 out.length is hnd hmem _).1 i hi']
    simp [memOf, List.getD_eq_getElem?_getD, h0, hi']

private theorem heads_ok (avx : Bool) (caps : List ℕ) (h : avx = true ∨ ∀ c ∈ caps, 1 ≤ c) :
    heads avx caps = some () := by
  rcases h with rfl | h
  · rfl
  · unfold heads
    split
    · rfl
    · rw [if_pos (by simpa using h)]

private theorem heads_bad (caps : List ℕ) (h : 0 ∈ caps) : heads false caps = none := by
  unfold heads
  rw [if_neg (by simp), if_neg]
  intro hc
  have := List.all_eq_true.1 hc 0 h
  simp at this

private theorem elem2 (avx : Bool) (f : R → R → R) (z : R) (v0 v1 : Sl R) (h0 : v0.Ok) (h1 : v1.Ok) :
    ((checkLength [(make z v0.data.length).data.length, v0.data.length, v1.data.length]).bind fun _ =>
      (heads avx [(make z v0.data.length).cap, v0.cap, v1.cap]).bind fun _ =>
      some (readBack (make z v0.data.length).data.length
        (mapLoop (fun _ a b => f a b) 0 1 2 (unrolledIdx (make z v0.data.length).data.length)
          (memOf z (make z v0.data.length).data v0.data v1.data)))) =
      if v0.data.length = v1.data.length ∧ (avx = true ∨ v0.data ≠ []) then
        some (List.zipWith f v0.data v1.data) else none := by
  have hl : (make z v0.data.length).data.length = v0.data.length := by simp [make]
  rw [check3, hl]
  by_cases he : v0.data.length = v1.data.length
  · rw [if_pos ⟨rfl, he.symm⟩, Option.bind_some]
    by_cases ha : avx = true ∨ v0.data ≠ []
    · rw [if_pos ⟨he, ha⟩, heads_ok, Option.bind_some]
      · have := readBack_mapLoop f z (make z v0.data.length).data v0.data v1.data
          (unrolledIdx v0.data.length) (nodup_unrolledIdx _)
          (fun i => by rw [mem_unrolledIdx, hl]) hl.symm (by rw [hl, he])
        rw [hl] at this
        rw [this]
      · rcases ha with ha | ha
        · exact Or.inl ha
        · right
          have : 0 < v0.data.length := List.length_pos_iff.2 ha
          unfold Sl.Ok at h0 h1
          intro c hc
          simp only [make, List.mem_cons, List.not_mem_nil, or_false] at hc
          omega
    · rw [if_neg (fun h => ha h.2)]
      simp only [not_or, not_not] at ha
      obtain ⟨hav, hn⟩ := ha
      have hav : avx = false := by simpa using hav
      rw [hav, heads_bad _ (by simp [make, hn]), Option.bind_none]
  · rw [if_neg (fun h => he h.2.symm), if_neg (fun h => he h.1), Option.bind_none]

/-- **C78** (sum, difference, product).  They return exactly if the lengths agree and, in the
portable code, the vectors are not empty; the result is element-wise. -/
theorem C78_add_sub_mul_partial [Add R] [Sub R] [Mul R] (avx : Bool) (z : R) (v0 v1 : Sl R)
    (h0 : v0.Ok) (h1 : v1.Ok) :
    add avx z v0 v1 = (if v0.data.length = v1.data.length ∧ (avx = true ∨ v0.data ≠ []) then
        some (List.zipWith (· + ·) v0.data v1.data) else none) ∧
    sub avx z v0 v1 = (if v0.data.length = v1.data.length ∧ (avx = true ∨ v0.data ≠ []) then
        some (List.zipWith (· - ·) v0.data v1.data) else none) ∧
    mul avx z v0 v1 = (if v0.data.length = v1.data.length ∧ (avx = true ∨ v0.data ≠ []) then
        some (List.zipWith (· * ·) v0.data v1.data) else none) :=
  ⟨elem2 avx (· + ·) z v0 v1 h0 h1, elem2 avx (· - ·) z v0 v1 h0 h1, elem2 avx (· * ·) z v0 v1 h0 h1⟩

/-- **C78** (multiple). -/
theorem C78_scalarMul_partial [Mul R] (avx : Bool) (z : R) (v : Sl R) (c : R) (h : v.Ok) :
    scalarMul avx z v c = if avx = true ∨ v.data ≠ [] then some (v.data.map (c * ·)) else none := by
  have hl : (make z v.data.length).data.length = v.data.length := by simp [make]
  unfold scalarMul scalarMulTo
  rw [check2, hl, if_pos rfl, Option.bind_some]
  by_cases ha : avx = true ∨ v.data ≠ []
  · rw [if_pos ha, heads_ok, Option.bind_some]
    · have := readBack_mapLoop1 (c * ·) z (make z v.data.length).data v.data
        (unrolledIdx v.data.length) (nodup_unrolledIdx _)
        (fun i => by rw [mem_unrolledIdx, hl]) hl.symm
      rw [hl] at this
      unfold vecScalarMulTo
      rw [this]
    · rcases ha with ha | ha
      · exact Or.inl ha
      · right
        have : 0 < v.data.length := List.length_pos_iff.2 ha
        unfold Sl.Ok at h
        intro c hc
        simp only [make, List.mem_cons, List.not_mem_nil, or_false] at hc
        omega
  · rw [if_neg ha]
    simp only [not_or, not_not] at ha
    obtain ⟨hav, hn⟩ := ha
    have hav : avx = false := by simpa using hav
    rw [hav, heads_bad _ (by simp [make, hn]), Option.bind_none]

/-- **C78** (negation, reversal).  These return for every vector. -/
theorem C78_neg_reverse [Neg R] (z : R) (v : Sl R) :
    neg z v = some (v.data.map (- ·)) ∧ reverse z v = some v.data.reverse := by
  have hl : (make z v.data.length).data.length = v.data.length := by simp [make]
  constructor
  · unfold neg negTo
    rw [check2, hl, if_pos rfl, Option.bind_some]
    have := readBack_mapLoop1 (- ·) z (make z v.data.length).data v.data
      (List.range v.data.length) List.nodup_range (fun i => by rw [List.mem_range, hl]) hl.symm
    rw [hl] at this
    unfold vecNegTo
    rw [this]
  · unfold reverse
    rw [C44_reverseTo, if_pos hl]

/-- **C78** (rotation).  On a vector that is not empty. -/
theorem C78_rotate_partial (v : Sl R) (hv : v.data ≠ []) (hlen : v.data.length < 2 ^ 63) (l : ℤ)
    (hl : -(2 ^ 63) < l) : ∃ out, rotate v l = some out ∧ IsRotation v.data out l :=
  C44_rotateTo v.data hv hlen l hl

private theorem wrap_mod (t : GoInt) (x : ℤ) : (2 : ℤ) ^ sizeT t ∣ t.wrap x - x := by
  have hk : sizeT t = t.kind.2 := by cases t <;> rfl
  rw [hk]
  unfold GoInt.wrap wrapInt
  split
  · have := Int.dvd_bmod_sub_self (x := x) (m := 2 ^ t.kind.2)
    push_cast at this
    exact this
  · exact Int.dvd_emod_sub_self

private theorem wrap_wrap (t : GoInt) (x : ℤ) : t.wrap (t.wrap x) = t.wrap x := by
  unfold GoInt.wrap wrapInt
  split
  · exact Int.bmod_bmod
  · exact Int.emod_emod_of_dvd _ dvd_rfl

/-- **C78** (conversion).  `Cast` returns for every vector; every element is in the target type and
agrees with the source modulo the size of the type, and is the source if that is in the type. -/
theorem C78_cast (t : GoInt) (v : List ℤ) :
    ∃ r, cast t v = some r ∧ r.length = v.length ∧ ∀ i (h : i < v.length) (h' : i < r.length),
      r[i] ∈ t.values ∧ (2 : ℤ) ^ sizeT t ∣ r[i] - v[i] ∧ (v[i] ∈ t.values → r[i] = v[i]) := by
  refine ⟨v.map t.wrap, ?_, by simp, ?_⟩
  · unfold cast castTo
    rw [check2, List.length_replicate, if_pos rfl, Option.bind_some]
    have := readBack_mapLoop1 t.wrap 0 (List.replicate v.length 0) v (List.range v.length)
      List.nodup_range (fun i => by rw [List.mem_range, List.length_replicate]) (by simp)
    rw [List.length_replicate] at this
    rw [this]
  · intro i h h'
    rw [List.getElem_map]
    refine ⟨⟨_, rfl⟩, wrap_mod t _, ?_⟩
    rintro ⟨y, hy⟩
    rw [← hy, wrap_wrap]

/-- **C78** (full statement fails).  The portable `Add`, `Sub`, `Mul` and `ScalarMul` panic on empty
vectors, whatever their capacity, where the assembly returns the empty vector; so does `Rotate`. -/
theorem C78_empty_false [Add R] [Sub R] [Mul R] (z c : R) (k l : ℕ) :
    add false z ⟨[], k⟩ ⟨[], l⟩ = none ∧ sub false z ⟨[], k⟩ ⟨[], l⟩ = none ∧
    mul false z ⟨[], k⟩ ⟨[], l⟩ = none ∧ scalarMul false z ⟨[], k⟩ c = none ∧
    add true z ⟨[], k⟩ ⟨[], l⟩ = some [] ∧ (∀ i : ℤ, rotate (⟨[], k⟩ : Sl R) i = none) := by
  have h := C78_add_sub_mul_partial false z ⟨[], k⟩ ⟨[], l⟩ (Nat.zero_le _) (Nat.zero_le _)
  have h' := C78_add_sub_mul_partial true z ⟨[], k⟩ ⟨[], l⟩ (Nat.zero_le _) (Nat.zero_le _)
  refine ⟨by simpa using h.1, by simpa using h.2.1, by simpa using h.2.2, ?_, by simpa using h'.1,
    fun i => (C44_rotate_empty i).1⟩
  simpa using C78_scalarMul_partial false z ⟨[], k⟩ c (Nat.zero_le _)

/-- Nine elements: one block of eight and one more. -/
example : add false (0 : BitVec 8) ⟨[1, 2, 3, 4, 5, 6, 7, 8, 255], 9⟩ ⟨[1, 1, 1, 1, 1, 1, 1, 1, 1], 16⟩ =
    some [2, 3, 4, 5, 6, 7, 8, 9, 0] := by decide +kernel

example : cast .int8 [1, 127, 128, 300] = some [1, 127, -128, 44] := by decide +kernel

end Tfhe.VecAlloc
