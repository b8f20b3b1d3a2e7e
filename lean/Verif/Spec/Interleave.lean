import Verif.Spec.Noise

/-!
# Long polynomials as interleaved short ones

`Y ↦ X = Y^f` splits a polynomial of degree `f * N` in `Y` into `f` polynomials of degree `N` in `X`.
-/
namespace Tfhe
set_option linter.unusedSectionVars false
namespace Poly
variable {f N : ℕ} [NeZero f] [NeZero N] {R : Type*}

/-- The polynomial with coefficients `V_0[0], V_1[0], …, V_{f-1}[0], V_0[1], …`. -/
def inter (V : Fin f → Poly N R) : Poly (f * N) R := fun t =>
  V ⟨t % f, Nat.mod_lt _ (NeZero.pos f)⟩ ⟨t / f, Nat.div_lt_of_lt_mul t.2⟩

theorem inter_apply (V : Fin f → Poly N R) (t : ℕ) (ht : t < f * N) :
    inter V ⟨t, ht⟩ = V ⟨t % f, Nat.mod_lt _ (NeZero.pos f)⟩ ⟨t / f, Nat.div_lt_of_lt_mul ht⟩ := rfl

/-- Coefficients of an interleaved polynomial. -/
theorem at_inter [AddCommGroup R] (V : Fin f → Poly N R) (z : ℤ) :
    at' (inter V) z = at' (V (idx f z)) (z / f) := by
  have hf : (0:ℤ) < f := by exact_mod_cast NeZero.pos f
  have hN : (0:ℤ) < N := by exact_mod_cast NeZero.pos N
  have hfN : (0:ℤ) < (f * N : ℕ) := by push_cast; positivity
  have h1 : z / ((f * N : ℕ) : ℤ) = z / f / N := by
    push_cast; rw [Int.ediv_ediv_of_nonneg hf.le]
  have hm0 := Int.emod_nonneg z hfN.ne'
  have hm1 : (((z % ((f * N : ℕ) : ℤ)).toNat : ℕ) : ℤ) = z % ((f * N : ℕ) : ℤ) := Int.toNat_of_nonneg hm0
  have h2 : inter V (idx (f * N) z) = V (idx f z) (idx N (z / f)) := by
    unfold inter idx
    congr 1
    · congr 1
      apply Int.ofNat.inj
      show (((z % ((f * N : ℕ) : ℤ)).toNat % f : ℕ) : ℤ) = (((z % f).toNat : ℕ) : ℤ)
      rw [Int.natCast_emod, hm1, Int.toNat_of_nonneg (Int.emod_nonneg _ hf.ne')]
      push_cast
      rw [Int.emod_emod_of_dvd _ (Dvd.intro _ rfl)]
    · apply Fin.ext
      apply Int.ofNat.inj
      show (((z % ((f * N : ℕ) : ℤ)).toNat / f : ℕ) : ℤ) = (((z / f % N).toNat : ℕ) : ℤ)
      rw [Int.natCast_ediv, hm1, Int.toNat_of_nonneg (Int.emod_nonneg _ hN.ne')]
      push_cast
      have e := Int.emod_add_mul_ediv z (f * N)
      have : z / f = (z % (f * N)) / f + N * (z / (f * N)) := by
        conv_lhs => rw [← e]
        rw [mul_assoc, Int.add_mul_ediv_left _ _ hf.ne']
      have hlo : 0 ≤ z % (f * N) / (f : ℤ) := Int.ediv_nonneg (by push_cast at hm0; exact hm0) hf.le
      have hhi : z % (f * N) / (f : ℤ) < N := by
        have := Int.emod_lt_of_pos z hfN
        push_cast at this
        exact Int.ediv_lt_of_lt_mul hf (by linarith)
      rw [this, Int.add_mul_emod_self_left, Int.emod_eq_of_lt hlo hhi]
  unfold at'
  rw [h1, h2]

theorem inter_add [AddCommGroup R] (V W : Fin f → Poly N R) :
    inter (fun i => V i + W i) = inter V + inter W := rfl
theorem inter_sub [AddCommGroup R] (V W : Fin f → Poly N R) :
    inter (fun i => V i - W i) = inter V - inter W := rfl

theorem inter_sum [AddCommGroup R] {ι : Type*} (s : Finset ι) (V : ι → Fin f → Poly N R) :
    inter (fun i => ∑ j ∈ s, V j i) = ∑ j ∈ s, inter (V j) := by
  funext t
  rw [sum_apply]
  show (∑ j ∈ s, V j _) _ = _
  rw [sum_apply]
  rfl

theorem inter_C_mul [CommRing R] (c : R) (V : Fin f → Poly N R) :
    inter (fun i => C N c * V i) = C (f * N) c * inter V := by
  funext t
  rw [C_mul_apply]
  show (C N c * V _) _ = _
  rw [C_mul_apply]
  rfl

/-- The size of an interleaved polynomial. -/
theorem pabs_inter_le {w : ℕ} (V : Fin f → Poly N (BitVec w)) (B : ℕ) (h : ∀ i, pabs (V i) ≤ B) :
    pabs (inter V) ≤ B := by
  rw [pabs_le_iff]; intro t
  exact (wabs_le_pabs (V ⟨t % f, _⟩) ⟨t / f, _⟩).trans (h _)

theorem pabs_slot_le {w : ℕ} (V : Fin f → Poly N (BitVec w)) (i : Fin f) : pabs (V i) ≤ pabs (inter V) := by
  rw [pabs_le_iff]; intro j
  have hf : 0 < f := NeZero.pos f
  have ht : f * j.1 + i.1 < f * N := by
    have := j.2; have := i.2
    calc f * j.1 + i.1 < f * j.1 + f := by omega
      _ = f * (j.1 + 1) := by ring
      _ ≤ f * N := Nat.mul_le_mul_left _ j.2
  have e := wabs_le_pabs (inter V) ⟨f * j.1 + i.1, ht⟩
  rw [inter_apply] at e
  have h1 : (⟨(f * j.1 + i.1) % f, Nat.mod_lt _ hf⟩ : Fin f) = i := by
    apply Fin.ext; show (f * j.1 + i.1) % f = i.1
    rw [Nat.mul_add_mod, Nat.mod_eq_of_lt i.2]
  have h2 : (⟨(f * j.1 + i.1) / f, Nat.div_lt_of_lt_mul ht⟩ : Fin N) = j := by
    apply Fin.ext; show (f * j.1 + i.1) / f = j.1
    rw [Nat.mul_add_div hf, Nat.div_eq_of_lt i.2, add_zero]
  rw [h1, h2] at e
  exact e

/-- Multiplication by a monomial in `Y`, slot by slot: with `z = Idx + f * Mono`, slot `k` comes from
slot `k - Idx`, or from slot `k + f - Idx` with one more `X`. -/
theorem mono_mul_inter [CommRing R] (V : Fin f → Poly N R) (M : ℤ) (I : ℕ) (hI : I < f) :
    mono (f * N) R (f * M + I) * inter V = inter (fun k : Fin f =>
      if h : k.1 < I then mono N R (M + 1) * V ⟨f - I + k.1, by omega⟩
      else mono N R M * V ⟨k.1 - I, by omega⟩) := by
  have hf : (0:ℤ) < f := by exact_mod_cast NeZero.pos f
  apply at_ext
  intro z
  rw [at_mono_mul, at_inter, at_inter]
  obtain ⟨q, r, hr0, hrf, rfl⟩ : ∃ q r : ℤ, 0 ≤ r ∧ r < f ∧ z = f * q + r :=
    ⟨z / f, z % f, Int.emod_nonneg _ hf.ne', Int.emod_lt_of_pos _ hf, by rw [Int.mul_ediv_add_emod]⟩
  obtain ⟨r, rfl⟩ := Int.eq_ofNat_of_zero_le hr0
  have hidx : ∀ (q : ℤ) (r : ℕ) (h : r < f), idx f (f * q + r) = ⟨r, h⟩ := by
    intro q r h
    apply Fin.ext
    show ((f * q + r : ℤ) % f).toNat = r
    rw [Int.mul_add_emod_self_left, Int.emod_eq_of_lt (by omega) (by omega)]; omega
  have hdiv : ∀ (q : ℤ) (r : ℕ) (_ : r < f), (f * q + r : ℤ) / f = q := by
    intro q r h
    rw [Int.mul_add_ediv_left _ _ hf.ne', Int.ediv_eq_zero_of_lt (by omega) (by omega), add_zero]
  have hrf' : r < f := by omega
  rw [hidx q r hrf', hdiv q r hrf']
  by_cases hk : r < I
  · have e : ((f * q + r : ℤ)) - (f * M + I) = f * (q - (M + 1)) + ((f - I + r : ℕ) : ℤ) := by
      push_cast [Nat.cast_sub hI.le]; ring
    rw [e, hidx _ _ (by omega), hdiv _ _ (by omega), dif_pos hk, at_mono_mul]
  · have e : ((f * q + r : ℤ)) - (f * M + I) = f * (q - M) + ((r - I : ℕ) : ℤ) := by
      push_cast [Nat.cast_sub (not_lt.1 hk)]; ring
    rw [e, hidx _ _ (by omega), hdiv _ _ (by omega), dif_neg hk, at_mono_mul]

end Poly
end Tfhe
