import Verif.Model.CdtVec
import Verif.Props.C52
import Mathlib.Data.Fintype.Pi
import Mathlib.Algebra.BigOperators.Fin
import Mathlib.Data.Fintype.BigOperators

/-!
# C52, vectors and polynomials: one word for each coefficient, and independent coefficients
-/
namespace Tfhe
open Cdt Rng

theorem drawLoop_eq {w : ℕ} (op : BitVec w → BitVec w → BitVec w) (s : Sampler) :
    ∀ (out : List (BitVec w)) (words : List (BitVec 64)), drawLoop op s out words =
      if out.length ≤ words.length then
        .ok (List.zipWith (fun x r => op x (sample w s.table s.offset r)) out words) (words.drop out.length)
      else .reading
  | [], words => by simp [drawLoop]
  | _ :: _, [] => by simp [drawLoop]
  | x :: out, r :: words => by
    rw [drawLoop, drawLoop_eq op s out words]
    by_cases h : out.length ≤ words.length <;> simp [h]

/-- **C52 (vectors and polynomials).**  With a sorted table, sampling into, adding to and subtracting from `n` coefficients needs
exactly `n` raw words, leaves the words after them unread, and changes every coefficient by the sample of its own word. -/
theorem C52_vec {w : ℕ} (s : Sampler) (hs : Sorted64 s.table) (out : List (BitVec w)) (words : List (BitVec 64)) :
    (words.length < out.length → sampleVecTo s out words = .reading ∧ samplePolyAddTo s out words = .reading ∧
      samplePolySubTo s out words = .reading) ∧
    (out.length ≤ words.length → ∃ set add sub : List (BitVec w),
      sampleVecTo s out words = .ok set (words.drop out.length) ∧
      samplePolyAddTo s out words = .ok add (words.drop out.length) ∧
      samplePolySubTo s out words = .ok sub (words.drop out.length) ∧
      set.length = out.length ∧ add.length = out.length ∧ sub.length = out.length ∧
      ∀ (i : ℕ) x r, out[i]? = some x → words[i]? = some r →
        set[i]? = some (BitVec.ofInt w (below s.table r + s.offset)) ∧
        add[i]? = some (x + BitVec.ofInt w (below s.table r + s.offset)) ∧
        sub[i]? = some (x - BitVec.ofInt w (below s.table r + s.offset))) := by
  unfold sampleVecTo samplePolyAddTo samplePolySubTo
  simp only [drawLoop_eq]
  refine ⟨fun h => ?_, fun h => ?_⟩
  · simp [Nat.not_le.2 h]
  · simp only [if_pos h]
    refine ⟨_, _, _, rfl, rfl, rfl, by simp [h], by simp [h], by simp [h], fun i x r hx hr => ?_⟩
    simp only [List.getElem?_zipWith, hx, hr, (C52_sample s.table hs s.offset r w).2, and_self]

/-- Subtracting samples after adding those of the same words restores the polynomial, so a sampler made from the same seed
takes the noise out again. -/
theorem C52_add_sub {w : ℕ} (s : Sampler) (out add : List (BitVec w)) (words rest : List (BitVec 64))
    (h : samplePolyAddTo s out words = .ok add rest) : samplePolySubTo s add words = .ok out rest := by
  unfold samplePolyAddTo at h
  unfold samplePolySubTo
  rw [drawLoop_eq] at h ⊢
  split at h
  · rename_i hl
    injection h with h1 h2
    have hlen : add.length = out.length := by rw [← h1]; simp [hl]
    rw [hlen, if_pos hl, h2]
    congr 1
    rw [← h1]
    clear h1 h2 hlen
    induction out generalizing words with
    | nil => simp
    | cons x out ih =>
      cases words with
      | nil => simp at hl
      | cons r words =>
        simp only [List.zipWith_cons_cons, List.cons.injEq]
        exact ⟨by rw [BitVec.add_sub_cancel], ih words (by simpa using hl)⟩
  · cases h

/-- **C52 (independent coefficients).**  Among all choices of `n` raw words, the number for which every sample `i` is at most
`offset + b i` is the product of the table entries `b i`: the joint distribution is the product of the single ones. -/
theorem C52_joint {n : ℕ} (table : List (BitVec 64)) (h : Sorted64 table) (offset : ℤ) (b : Fin n → ℕ)
    (hb : ∀ i, b i < table.length) :
    ((Finset.univ : Finset (Fin n → Fin (2 ^ 64))).filter fun W =>
      ∀ i, sampleInt table offset (BitVec.ofNat 64 (W i)) ≤ offset + b i).card = ∏ i, (table.getD (b i) 0).toNat := by
  have hset : ((Finset.univ : Finset (Fin n → Fin (2 ^ 64))).filter fun W =>
      ∀ i, sampleInt table offset (BitVec.ofNat 64 (W i)) ≤ offset + b i) =
      Fintype.piFinset fun i => (Finset.univ : Finset (Fin (2 ^ 64))).filter fun x : Fin (2 ^ 64) =>
        sampleInt table offset (BitVec.ofNat 64 x.val) ≤ offset + b i := by
    ext W
    simp [Fintype.mem_piFinset]
  rw [hset, Fintype.card_piFinset]
  refine Finset.prod_congr rfl fun i _ => ?_
  rw [← C52_cumulative table h offset (b i) (hb i)]
  refine Finset.card_bij (fun x _ => x.val) ?_ ?_ ?_
  · intro x hx
    simpa using hx
  · intro x _ y _ e
    exact Fin.ext e
  · intro x hx
    rw [Finset.mem_filter, Finset.mem_range] at hx
    exact ⟨⟨x, hx.1⟩, Finset.mem_filter.2 ⟨Finset.mem_univ _, hx.2⟩, rfl⟩

/-- A sorted table, and three coefficients that take the first three of four words. -/
example : Sorted64 [10, 20, 30] ∧
    samplePolyAddTo ⟨[10, 20, 30], -1⟩ [(100 : BitVec 32), 200, 300] [5, 20, 99, 7] = .ok [99, 201, 302] [7] := by
  refine ⟨by unfold Sorted64; decide, ?_⟩
  rw [samplePolyAddTo, drawLoop_eq, if_pos (by decide)]
  exact congrArg₂ _ (by decide +kernel) rfl

end Tfhe
