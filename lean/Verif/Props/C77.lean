import Mathlib.Tactic.Ring
import Verif.Model.VecConv

/-!
# C77: the float-4 layout

Specification: number `i` of a complex slice has its real part at place `8·(i/4) + i%4` and its
imaginary part four places further.  Nothing below mentions the loops.
-/

namespace Tfhe.VecConv

variable {F : Type}

/-- Place of the real part of number `i` in the float-4 layout. -/
def rePlace (i : ℕ) : ℕ := 8 * (i / 4) + i % 4

/-- Place of the imaginary part of number `i` in the float-4 layout. -/
def imPlace (i : ℕ) : ℕ := 8 * (i / 4) + i % 4 + 4

/-- `u` is the float-4 layout of `v`. -/
def IsFloat4 (u : List F) (v : List (F × F)) : Prop :=
  u.length = 2 * v.length ∧
    ∀ i (h : i < v.length), u[rePlace i]? = some v[i].1 ∧ u[imPlace i]? = some v[i].2

private def flat : List (F × F) → List F
  | a0 :: a1 :: a2 :: a3 :: l =>
      a0.1 :: a1.1 :: a2.1 :: a3.1 :: a0.2 :: a1.2 :: a2.2 :: a3.2 :: flat l
  | _ => []

private def pack : List F → List (F × F)
  | x0 :: x1 :: x2 :: x3 :: x4 :: x5 :: x6 :: x7 :: l =>
      (x0, x4) :: (x1, x5) :: (x2, x6) :: (x3, x7) :: pack l
  | _ => []

private theorem c2f_flat (n : ℕ) : ∀ (v : List (F × F)) (pre rest : List F),
    v.length = 4 * n → rest.length = 8 * n →
    cmplxToFloat4Loop (pre ++ rest) pre.length v = pre ++ flat v := by
  induction n with
  | zero =>
    intro v pre rest hv hr
    obtain rfl := List.eq_nil_of_length_eq_zero (by simpa using hv)
    obtain rfl := List.eq_nil_of_length_eq_zero (by simpa using hr)
    simp [cmplxToFloat4Loop, flat]
  | succ n ih =>
    intro v pre rest hv hr
    match v, hv with
    | a0 :: a1 :: a2 :: a3 :: l, hv =>
      match rest, hr with
      | r0 :: r1 :: r2 :: r3 :: r4 :: r5 :: r6 :: r7 :: rs, hr =>
        have hl : l.length = 4 * n := by simp at hv; omega
        have hrs : rs.length = 8 * n := by simp at hr; omega
        have := ih l (pre ++ [a0.1, a1.1, a2.1, a3.1, a0.2, a1.2, a2.2, a3.2]) rs hl hrs
        simp only [cmplxToFloat4Loop, flat]
        simp [List.set_append_right] at this ⊢
        exact this
      | [], hr | [_], hr | [_, _], hr | [_, _, _], hr | [_, _, _, _], hr | [_, _, _, _, _], hr
      | [_, _, _, _, _, _], hr | [_, _, _, _, _, _, _], hr => simp at hr; try omega
    | [], hv | [_], hv | [_, _], hv | [_, _, _], hv => simp at hv; try omega

private theorem f2c_pack (n : ℕ) : ∀ (v : List F) (pre rest : List (F × F)),
    v.length = 8 * n → rest.length = 4 * n →
    float4ToCmplxLoop (pre ++ rest) pre.length v = pre ++ pack v := by
  induction n with
  | zero =>
    intro v pre rest hv hr
    obtain rfl := List.eq_nil_of_length_eq_zero (by simpa using hv)
    obtain rfl := List.eq_nil_of_length_eq_zero (by simpa using hr)
    simp [float4ToCmplxLoop, pack]
  | succ n ih =>
    intro v pre rest hv hr
    match rest, hr with
    | a0 :: a1 :: a2 :: a3 :: l, hr =>
      match v, hv with
      | r0 :: r1 :: r2 :: r3 :: r4 :: r5 :: r6 :: r7 :: rs, hv =>
        have hl : l.length = 4 * n := by simp at hr; omega
        have hrs : rs.length = 8 * n := by simp at hv; omega
        have := ih rs (pre ++ [(r0, r4), (r1, r5), (r2, r6), (r3, r7)]) l hrs hl
        simp only [float4ToCmplxLoop, pack]
        simp [List.set_append_right] at this ⊢
        exact this
      | [], hv | [_], hv | [_, _], hv | [_, _, _], hv | [_, _, _, _], hv | [_, _, _, _, _], hv
      | [_, _, _, _, _, _], hv | [_, _, _, _, _, _, _], hv => simp at hv; try omega
    | [], hr | [_], hr | [_, _], hr | [_, _, _], hr => simp at hr; try omega

private theorem flat_layout (n : ℕ) : ∀ v : List (F × F), v.length = 4 * n →
    IsFloat4 (flat v) v := by
  induction n with
  | zero =>
    intro v hv
    obtain rfl := List.eq_nil_of_length_eq_zero (by simpa using hv)
    simp [IsFloat4, flat]
  | succ n ih =>
    intro v hv
    match v, hv with
    | a0 :: a1 :: a2 :: a3 :: l, hv =>
      have hl : l.length = 4 * n := by simp at hv; omega
      obtain ⟨h1, h2⟩ := ih l hl
      refine ⟨by simp [flat, h1]; omega, ?_⟩
      intro i hi
      match i, hi with
      | 0, _ | 1, _ | 2, _ | 3, _ => simp [rePlace, imPlace, flat]
      | k + 4, hi =>
        have hk : k < l.length := by simp at hi; omega
        have e1 : rePlace (k + 4) = rePlace k + 8 := by unfold rePlace; omega
        have e2 : imPlace (k + 4) = imPlace k + 8 := by unfold imPlace; omega
        simpa [e1, e2, flat] using h2 k hk
    | [], hv | [_], hv | [_, _], hv | [_, _, _], hv => simp at hv; try omega

private theorem pack_flat (n : ℕ) : ∀ v : List (F × F), v.length = 4 * n → pack (flat v) = v := by
  induction n with
  | zero =>
    intro v hv
    obtain rfl := List.eq_nil_of_length_eq_zero (by simpa using hv)
    simp [flat, pack]
  | succ n ih =>
    intro v hv
    match v, hv with
    | a0 :: a1 :: a2 :: a3 :: l, hv =>
      have hl : l.length = 4 * n := by simp at hv; omega
      simp [flat, pack, ih l hl]
    | [], hv | [_], hv | [_, _], hv | [_, _, _], hv => simp at hv; try omega

private theorem flat_pack (n : ℕ) : ∀ v : List F, v.length = 8 * n →
    flat (pack v) = v ∧ (pack v).length = 4 * n := by
  induction n with
  | zero =>
    intro v hv
    obtain rfl := List.eq_nil_of_length_eq_zero (by simpa using hv)
    simp [flat, pack]
  | succ n ih =>
    intro v hv
    match v, hv with
    | r0 :: r1 :: r2 :: r3 :: r4 :: r5 :: r6 :: r7 :: rs, hv =>
      have hrs : rs.length = 8 * n := by simp at hv; omega
      obtain ⟨h1, h2⟩ := ih rs hrs
      exact ⟨by simp [flat, pack, h1], by simp [pack, h2]; omega⟩
    | [], hv | [_], hv | [_, _], hv | [_, _, _], hv | [_, _, _, _], hv | [_, _, _, _, _], hv
    | [_, _, _, _, _, _], hv | [_, _, _, _, _, _, _], hv => simp at hv; try omega

private theorem c2f_val (out : List F) (v : List (F × F)) (h4 : v.length % 4 = 0)
    (ho : out.length = 2 * v.length) : cmplxToFloat4To out v = some (flat v) := by
  have := c2f_flat (v.length / 4) v [] out (by omega) (by omega)
  simp only [List.nil_append, List.length_nil] at this
  simp [cmplxToFloat4To, h4, ho, this]

private theorem f2c_val (out : List (F × F)) (u : List F) (h8 : u.length % 8 = 0)
    (ho : out.length * 2 = u.length) : float4ToCmplxTo out u = some (pack u) := by
  have := f2c_pack (u.length / 8) u [] out (by omega) (by omega)
  simp only [List.nil_append, List.length_nil] at this
  simp [float4ToCmplxTo, h8, ho, this]

/-- **C77** (layout).  `CmplxToFloat4To` returns exactly if the lengths are as documented, and then
`vOut` is the float-4 layout of `v`, whatever it held before. -/
theorem C77_to_float4 (out : List F) (v : List (F × F)) :
    (cmplxToFloat4To out v = none ↔ ¬ (v.length % 4 = 0 ∧ out.length = 2 * v.length)) ∧
      ∀ u, cmplxToFloat4To out v = some u → IsFloat4 u v := by
  by_cases h4 : v.length % 4 = 0
  · by_cases ho : out.length = 2 * v.length
    · rw [c2f_val out v h4 ho]
      refine ⟨by simp [h4, ho], ?_⟩
      rintro u ⟨⟩
      exact flat_layout (v.length / 4) v (by omega)
    · simp [cmplxToFloat4To, h4, ho]
  · simp [cmplxToFloat4To, h4]

/-- **C77** (layout, back).  `Float4ToCmplxTo` returns exactly if the lengths are as documented, and
then its input is the float-4 layout of `vOut`. -/
theorem C77_to_cmplx (out : List (F × F)) (u : List F) :
    (float4ToCmplxTo out u = none ↔ ¬ (u.length % 8 = 0 ∧ out.length * 2 = u.length)) ∧
      ∀ v, float4ToCmplxTo out u = some v → IsFloat4 u v := by
  by_cases h8 : u.length % 8 = 0
  · by_cases ho : out.length * 2 = u.length
    · rw [f2c_val out u h8 ho]
      refine ⟨by simp [h8, ho], ?_⟩
      rintro v ⟨⟩
      obtain ⟨h1, h2⟩ := flat_pack (u.length / 8) u (by omega)
      have := flat_layout (u.length / 8) (pack u) h2
      rwa [h1] at this
    · simp [float4ToCmplxTo, h8, ho]
  · simp [float4ToCmplxTo, h8]

/-- **C77** (round trips).  The two conversions undo each other on every slice that either accepts,
with any old contents of the outputs; the allocating variants never panic on a documented length. -/
theorem C77_round_trips (z : F) :
    (∀ v : List (F × F), v.length % 4 = 0 →
      ∃ u, cmplxToFloat4 z v = some u ∧ float4ToCmplx z u = some v ∧
        (∀ out, out.length = 2 * v.length → cmplxToFloat4To out v = some u) ∧
        ∀ out, out.length = v.length → float4ToCmplxTo out u = some v) ∧
    (∀ u : List F, u.length % 8 = 0 →
      ∃ v, float4ToCmplx z u = some v ∧ cmplxToFloat4 z v = some u ∧
        (∀ out, out.length * 2 = u.length → float4ToCmplxTo out u = some v) ∧
        ∀ out, out.length = u.length → cmplxToFloat4To out v = some u) := by
  constructor
  · intro v h4
    have hl := (flat_layout (v.length / 4) v (by omega)).1
    have hp := pack_flat (v.length / 4) v (by omega)
    refine ⟨flat v, c2f_val _ v h4 (by simp), ?_, fun out ho => c2f_val out v h4 ho, ?_⟩
    · unfold float4ToCmplx
      rw [f2c_val _ _ (by omega) (by rw [List.length_replicate]; omega), hp]
    · intro out ho
      rw [f2c_val _ _ (by omega) (by omega), hp]
  · intro u h8
    obtain ⟨h1, h2⟩ := flat_pack (u.length / 8) u (by omega)
    refine ⟨pack u, f2c_val _ u h8 (by rw [List.length_replicate]; omega), ?_,
      fun out ho => f2c_val out u h8 ho, ?_⟩
    · unfold cmplxToFloat4
      rw [c2f_val _ _ (by omega) (by simp), h1]
    · intro out ho
      rw [c2f_val _ _ (by omega) (by omega), h1]

private theorem equalsLoop_iff {T : Type} [BEq T] [LawfulBEq T] (v0 v1 : List T)
    (hl : v0.length = v1.length) (n : ℕ) : ∀ i, i + n = v0.length →
    ∃ b, equalsLoop v0 v1 i n = some b ∧ (b = true ↔ v0.drop i = v1.drop i) := by
  induction n with
  | zero =>
    intro i hi
    refine ⟨true, rfl, ?_⟩
    rw [List.drop_of_length_le (by omega), List.drop_of_length_le (by omega)]
    simp
  | succ n ih =>
    intro i hi
    have h0 : i < v0.length := by omega
    have h1 : i < v1.length := by omega
    rw [List.drop_eq_getElem_cons h0, List.drop_eq_getElem_cons h1]
    by_cases hab : v0[i] = v1[i]
    · obtain ⟨b, e, hb⟩ := ih (i + 1) (by omega)
      refine ⟨b, ?_, ?_⟩
      · simp [equalsLoop, List.getElem?_eq_getElem h0, List.getElem?_eq_getElem h1, hab, e]
      · rw [hb, List.cons.injEq]
        exact ⟨fun h => ⟨hab, h⟩, fun h => h.2⟩
    · refine ⟨false, ?_, by rw [List.cons.injEq]; simp only [hab]; simp⟩
      simp [equalsLoop, List.getElem?_eq_getElem h0, List.getElem?_eq_getElem h1, hab]

/-- **C77** (equality).  `Equals` never panics, and is true exactly for equal slices, if `==` on the
elements is equality, as for all integer types (not for floats, where NaN differs from itself). -/
theorem C77_equals {T : Type} [BEq T] [LawfulBEq T] (v0 v1 : List T) :
    ∃ b, equals v0 v1 = some b ∧ (b = true ↔ v0 = v1) := by
  by_cases hl : v0.length = v1.length
  · obtain ⟨b, e, hb⟩ := equalsLoop_iff v0 v1 hl v0.length 0 (by omega)
    exact ⟨b, by simp [equals, hl] at e ⊢; simpa [hl] using e, by simpa using hb⟩
  · exact ⟨false, by simp [equals, hl], by simp; rintro rfl; exact hl rfl⟩

/-- Eight numbers and their layout. -/
example : cmplxToFloat4 0 [(1, 11), (2, 12), (3, 13), (4, 14), (5, 15), (6, 16), (7, 17), (8, 18)] =
    some [1, 2, 3, 4, 11, 12, 13, 14, 5, 6, 7, 8, 15, 16, 17, 18] := by decide +kernel

example : float4ToCmplx 0 [1, 2, 3, 4, 11, 12, 13, 14] =
    some [(1, 11), (2, 12), (3, 13), (4, 14)] := by decide +kernel

example : cmplxToFloat4 0 [(1, 11), (2, 12), (3, 13)] = none := by decide +kernel

example : equals [1, 2, 3] [1, 2, 4] = some false ∧ equals [1, 2, 3] [1, 2, 3] = some true := by
  decide +kernel

end Tfhe.VecConv
