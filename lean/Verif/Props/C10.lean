import Verif.Lemma.Lwe
import Mathlib.Algebra.BigOperators.Intervals
import Mathlib.Data.BitVec

/-!
# C10: sample extraction reads one coefficient
-/
namespace Tfhe
open Poly
variable {R : Type}

theorem foldl_upd (l : List ℕ) (off : ℕ) (g : ℕ → R) (out : ℕ → R) (t : ℕ) :
    l.foldl (fun out j => upd out (off + j) (g j)) out t =
      if off ≤ t ∧ t - off ∈ l then g (t - off) else out t := by
  induction l generalizing out with
  | nil => simp
  | cons a l ih =>
    rw [List.foldl_cons, ih]
    by_cases h : off ≤ t ∧ t - off ∈ l
    · rw [if_pos h, if_pos ⟨h.1, List.mem_cons_of_mem _ h.2⟩]
    · rw [if_neg h]
      unfold upd
      by_cases ha : t = off + a
      · have : t - off = a := by omega
        rw [if_pos ha, if_pos ⟨by omega, by simp [this]⟩, this]
      · rw [if_neg ha, if_neg]
        rintro ⟨h1, h2⟩
        rcases List.mem_cons.1 h2 with h3 | h3
        · omega
        · exact h ⟨h1, h3⟩

/-- One row of the extracted mask is the component read backwards from `idx`, negacyclically. -/
theorem extractRow_spec {N : ℕ} [NeZero N] [AddCommGroup R] (a : Poly N R) (idx : Fin N) (off : ℕ)
    (out : ℕ → R) (t : ℕ) :
    extractRow a idx off out t =
      if off ≤ t ∧ t < off + N then at' a ((idx : ℤ) - (t - off : ℕ)) else out t := by
  have e1 : ∀ o : ℕ → R, (List.range (idx + 1)).foldl
      (fun out j => upd out (off + j) (a ⟨idx - j, by omega⟩)) o =
      (List.range (idx + 1)).foldl (fun out j => upd out (off + j) (at' a ((idx - j : ℕ) : ℤ))) o := by
    intro o
    congr 1; funext out j
    rw [at_natCast a (idx - j) (by omega)]
  have e2 : ∀ o : ℕ → R, (List.range' (idx + 1) (N - (idx + 1))).attach.foldl
      (fun out j => upd out (off + j.1)
        (-a ⟨idx + N - j.1, by have := j.2; simp only [List.mem_range'_1] at this; omega⟩)) o =
      (List.range' (idx + 1) (N - (idx + 1))).foldl
        (fun out j => upd out (off + j) (-at' a ((idx + N - j : ℕ) : ℤ))) o := by
    intro o
    rw [← List.foldl_attach (f := fun out j => upd out (off + j) (-at' a ((idx + N - j : ℕ) : ℤ)))]
    congr 1; funext out j
    have := j.2; simp only [List.mem_range'_1] at this
    rw [at_natCast a _ (by omega)]
  have e3 : extractRow a idx off out = (List.range' (idx + 1) (N - (idx + 1))).foldl
      (fun out j => upd out (off + j) (-at' a ((idx + N - j : ℕ) : ℤ)))
      ((List.range (idx + 1)).foldl (fun out j => upd out (off + j) (at' a ((idx - j : ℕ) : ℤ))) out) := by
    rw [← e1, ← e2]; rfl
  rw [e3, foldl_upd, foldl_upd]
  simp only [List.mem_range'_1, List.mem_range]
  have hi := idx.2
  by_cases h : off ≤ t ∧ t < off + N
  · rw [if_pos h]
    by_cases h2 : t - off ≤ idx
    · rw [if_neg (by omega), if_pos ⟨h.1, by omega⟩]
      congr 1; omega
    · rw [if_pos ⟨h.1, by omega, by omega⟩, ← at_sub_N]
      congr 1; omega
  · rw [if_neg h, if_neg (by omega), if_neg (by omega)]

theorem foldl_rows {k : ℕ} (N base : ℕ) (F : Fin k → (ℕ → R) → ℕ → R) (g : Fin k → ℕ → R)
    (hF : ∀ i out t, F i out t = if base + i * N ≤ t ∧ t < base + i * N + N then g i (t - (base + i * N)) else out t)
    (out : ℕ → R) :
    (∀ (i : Fin k) (j : ℕ), j < N → Fin.foldl k (fun out i => F i out) out (base + i * N + j) = g i j) ∧
    (∀ t, t < base ∨ base + k * N ≤ t → Fin.foldl k (fun out i => F i out) out t = out t) := by
  induction k with
  | zero => exact ⟨fun i => i.elim0, fun t _ => by simp⟩
  | succ k ih =>
    obtain ⟨h1, h2⟩ := ih (fun i => F i.castSucc) (fun i => g i.castSucc) (fun i out t => hF i.castSucc out t)
    refine ⟨fun i j hj => ?_, fun t ht => ?_⟩
    · rw [Fin.foldl_succ_last, hF]
      refine Fin.lastCases ?_ (fun i => ?_) i
      · rw [if_pos (by constructor <;> omega)]
        congr 1; omega
      · have : (i : ℕ) * N + N ≤ k * N := by
          have := Nat.mul_le_mul_right N (show (i : ℕ) + 1 ≤ k from i.2)
          rw [Nat.add_mul] at this; omega
        rw [if_neg (by simp only [Fin.val_last, Fin.val_castSucc]; omega)]
        exact h1 i j hj
    · rw [Nat.add_mul] at ht
      rw [Fin.foldl_succ_last, hF, if_neg (by simp only [Fin.val_last]; omega)]
      exact h2 t (by omega)

/-- The elements of the extracted ciphertext; positions past the end keep their old contents. -/
theorem asLWECiphertext_spec {N k : ℕ} [NeZero N] [AddCommGroup R] (ct : Fin (k + 1) → Poly N R) (idx : Fin N)
    (out : ℕ → R) :
    asLWECiphertext ct idx out 0 = ct 0 idx ∧
    (∀ (i : Fin k) (j : ℕ), j < N →
      asLWECiphertext ct idx out (1 + i * N + j) = at' (ct i.succ) ((idx : ℤ) - j)) ∧
    (∀ t, 1 + k * N ≤ t → asLWECiphertext ct idx out t = out t) := by
  obtain ⟨h1, h2⟩ := foldl_rows N 1 (fun (i : Fin k) out => extractRow (ct i.succ) idx (1 + i * N) out)
    (fun i j => at' (ct i.succ) ((idx : ℤ) - j)) (fun i out t => extractRow_spec _ _ _ _ _) (upd out 0 (ct 0 idx))
  refine ⟨?_, h1, fun t ht => ?_⟩
  · exact (h2 0 (by omega)).trans (by simp [upd])
  · exact (h2 t (by omega)).trans (by unfold upd; rw [if_neg (by omega)])

theorem asLWEKey_spec {N k : ℕ} (sk : Fin k → Poly N R) (out : ℕ → R) :
    (∀ (i : Fin k) (j : Fin N), asLWEKey sk out (i * N + j) = sk i j) ∧
    (∀ t, k * N ≤ t → asLWEKey sk out t = out t) := by
  have row : ∀ (p : Poly N R) (off : ℕ) (out : ℕ → R) (n : ℕ) (hn : n ≤ N) (t : ℕ),
      Fin.foldl n (fun out j => upd out (off + j) (p (Fin.castLE hn j))) out t =
        if h : off ≤ t ∧ t < off + n then p ⟨t - off, by omega⟩ else out t := by
    intro p off out n
    induction n with
    | zero => intro hn t; simp
    | succ n ih =>
      intro hn t
      rw [Fin.foldl_succ_last]
      unfold upd
      by_cases ht : t = off + n
      · subst ht
        simp
        congr 1
      · rw [if_neg (by simpa using ht)]
        have := ih (by omega) t
        simp only [Fin.castLE] at this ⊢
        unfold upd at this
        simp only [Fin.val_castSucc]
        rw [this]
        by_cases h : off ≤ t ∧ t < off + n
        · rw [dif_pos h, dif_pos (by omega)]
        · rw [dif_neg h, dif_neg (by omega)]
  obtain ⟨h1, h2⟩ := foldl_rows N 0
    (fun (i : Fin k) out => Fin.foldl N (fun out j => upd out (i * N + j) (sk i j)) out)
    (fun i j => if h : j < N then sk i ⟨j, h⟩ else out 0)
    (fun i out t => by
      have := row (sk i) (i * N) out N le_rfl t
      simp only [Fin.castLE_rfl, id] at this
      rw [this]
      by_cases h : (i : ℕ) * N ≤ t ∧ t < i * N + N
      · rw [dif_pos h, if_pos (by omega), dif_pos (by omega)]
        congr 1; ext; simp
      · rw [dif_neg h, if_neg (by omega)]) out
  refine ⟨fun i j => ?_, fun t ht => h2 t (by omega)⟩
  have := h1 i j j.2
  rw [dif_pos j.2] at this
  simpa [asLWEKey] using this

theorem sum_rows {M : Type*} [AddCommMonoid M] (k N : ℕ) (F : ℕ → M) :
    ∑ t ∈ Finset.range (k * N), F t = ∑ i ∈ Finset.range k, ∑ j ∈ Finset.range N, F (i * N + j) := by
  induction k with
  | zero => simp
  | succ k ih => rw [Nat.add_mul, one_mul, Finset.sum_range_add, ih, Finset.sum_range_succ]

/-- **C10.** The extracted ciphertext has, under the key read from the GLWE key, the coefficient `idx`
of the GLWE phase; for all ciphertexts, keys, ranks, `N`, `idx` and old contents of the outputs. -/
theorem C10_extract {N k : ℕ} [NeZero N] [CommRing R] (ct : Fin (k + 1) → Poly N R) (sk : Fin k → Poly N R)
    (idx : Fin N) (out kout : ℕ → R) :
    phase (fun t : Fin (k * N) => asLWEKey sk kout t) (fun t : Fin (k * N + 1) => asLWECiphertext ct idx out t) =
      phase sk ct idx := by
  obtain ⟨a1, a2, -⟩ := asLWECiphertext_spec ct idx out
  obtain ⟨b1, -⟩ := asLWEKey_spec sk kout
  unfold phase
  rw [Poly.add_apply, Poly.sum_apply]
  congr 1
  simp only [Fin.val_succ]
  rw [Fin.sum_univ_eq_sum_range (fun t => asLWECiphertext ct idx out (t + 1) * asLWEKey sk kout t), sum_rows,
    ← Fin.sum_univ_eq_sum_range
      (fun i => ∑ j ∈ Finset.range N, asLWECiphertext ct idx out (i * N + j + 1) * asLWEKey sk kout (i * N + j))]
  refine Finset.sum_congr rfl fun i _ => ?_
  rw [← at_coe (ct i.succ * sk i), mul_comm (ct i.succ), at_mul]
  refine Finset.sum_congr rfl fun j hj => ?_
  have hj := Finset.mem_range.1 hj
  have hb := b1 i ⟨j, hj⟩
  simp only at hb
  rw [show (i : ℕ) * N + j + 1 = 1 + i * N + j by ring, a2 i j hj, hb, at_natCast _ _ hj, mul_comm]

/-- Nothing past the end of the outputs is written. -/
theorem C10_frame {N k : ℕ} [NeZero N] [CommRing R] (ct : Fin (k + 1) → Poly N R) (sk : Fin k → Poly N R)
    (idx : Fin N) (out : ℕ → R) :
    (∀ t, k * N + 1 ≤ t → asLWECiphertext ct idx out t = out t) ∧
    (∀ t, k * N ≤ t → asLWEKey sk out t = out t) :=
  ⟨fun t ht => (asLWECiphertext_spec ct idx out).2.2 t (by omega), (asLWEKey_spec sk out).2⟩

/-- A concrete extraction: rank 2, `N = 4`, index 2. -/
example : (List.range 10).map (asLWECiphertext (R := BitVec 32) (k := 2) (N := 4)
      (fun i j => BitVec.ofNat 32 (10 * i + j)) 2 (fun _ => 77)) =
    [2, 12, 11, 10, -13, 22, 21, 20, -23, 77] := by decide +kernel

end Tfhe
