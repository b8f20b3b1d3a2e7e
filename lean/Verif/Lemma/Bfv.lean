import Verif.Model.Bfv
import Verif.Spec.Bfv
import Verif.Props.C13
import Mathlib.Algebra.BigOperators.Intervals

/-!
# Lemmas about the tensor loop and about integer polynomials
-/
namespace Tfhe.Bfv
open Tfhe Finset

section
variable {P : Type} [CommRing P]

/-- Index pairs in the order of the tensor loop. -/
def pairs (n : ℕ) : List (ℕ × ℕ) := (List.range n).flatMap fun i => (List.range' i (n - i)).map fun j => (i, j)

theorem upd_upd {R : Type} (v : ℕ → R) (i : ℕ) (x : R) (f : R → R) :
    upd (upd v i x) i (f (upd v i x i)) = upd v i (f x) := by
  funext j; simp only [upd]; split <;> simp

omit [CommRing P] in
theorem counter_fold {α : Type} (f : α → P) (l : List α) (n0 : ℕ) (arr : ℕ → P) :
    l.foldl (fun (st : TState P) x => (st.1 + 1, upd st.2 st.1 (f x))) (n0, arr) =
      (n0 + l.length, fun t => if h : n0 ≤ t ∧ t - n0 < l.length then f l[t - n0] else arr t) := by
  induction l generalizing n0 arr with
  | nil => simp
  | cons x l ih =>
    rw [List.foldl_cons, ih]
    refine Prod.ext (by simp only [List.length_cons]; omega) ?_
    funext t
    simp only [List.length_cons]
    by_cases h1 : t = n0
    · subst h1
      rw [dif_neg (by omega), dif_pos (by omega)]
      simp [upd]
    · by_cases h2 : n0 + 1 ≤ t ∧ t - (n0 + 1) < l.length
      · rw [dif_pos h2, dif_pos (by omega)]
        have e : t - n0 = (t - (n0 + 1)) + 1 := by omega
        simp only [e, List.getElem_cons_succ]
      · rw [dif_neg h2, dif_neg (by omega)]
        simp [upd, h1]

/-- What the tensor loop puts at the position of a pair. -/
def tval (a b : ℕ → P) (x : ℕ × ℕ) : P :=
  if x.1 = x.2 then a x.1 * b x.1 else a x.1 * b x.2 + a x.2 * b x.1

theorem tensorRow_eq (n : ℕ) (a b : ℕ → P) (st : TState P) (i : ℕ) (hi : i < n) :
    tensorRow n a b st i = ((List.range' i (n - i)).map fun j => (i, j)).foldl
      (fun (st : TState P) x => (st.1 + 1, upd st.2 st.1 (tval a b x))) st := by
  have e : n - i = (n - (i + 1)) + 1 := by omega
  rw [e, List.range'_succ, List.map_cons, List.foldl_cons, List.foldl_map]
  unfold tensorRow
  simp only [tval, if_true]
  apply List.foldl_ext
  intro st' j hj
  rw [List.mem_range'_1] at hj
  rw [if_neg (by omega)]
  unfold tensorCross
  simp only
  rw [upd_upd _ _ _ (fun y => y + a j * b i)]

theorem tensorLoop_eq (n : ℕ) (a b old : ℕ → P) :
    tensorLoop n a b old = (pairs n).foldl
      (fun (st : TState P) x => (st.1 + 1, upd st.2 st.1 (tval a b x))) (0, old) := by
  unfold tensorLoop pairs
  rw [List.foldl_flatMap]
  apply List.foldl_ext
  intro st i hi
  exact tensorRow_eq n a b st i (List.mem_range.1 hi)

theorem tensorLoop_get (n : ℕ) (a b old : ℕ → P) (t : ℕ) (h : t < (pairs n).length) :
    (tensorLoop n a b old).2 t = tval a b (pairs n)[t] := by
  rw [tensorLoop_eq, counter_fold]
  simp [h]

theorem relinLoop_get (n : ℕ) (s old : ℕ → P) (t : ℕ) (h : t < (pairs n).length) :
    (relinLoop n s old).2 t = s (pairs n)[t].1 * s (pairs n)[t].2 := by
  have e : relinLoop n s old = (pairs n).foldl
      (fun (st : TState P) x => (st.1 + 1, upd st.2 st.1 (s x.1 * s x.2))) (0, old) := by
    unfold relinLoop pairs
    rw [List.foldl_flatMap]
    apply List.foldl_ext
    intro st i _
    rw [List.foldl_map]
  rw [e, counter_fold (fun x : ℕ × ℕ => s x.1 * s x.2)]
  simp [h]

theorem list_sum_range {M : Type} [AddCommMonoid M] (n : ℕ) (f : ℕ → M) :
    ((List.range n).map f).sum = ∑ i ∈ range n, f i := by
  induction n with
  | zero => simp
  | succ n ih => rw [List.range_succ, List.map_append, List.sum_append, ih, Finset.sum_range_succ]; simp

theorem sum_flatMap' {α M : Type} [AddCommMonoid M] (l : List α) (g : α → List M) :
    (l.flatMap g).sum = (l.map fun x => (g x).sum).sum := by
  induction l with
  | nil => simp
  | cons x l ih => simp [ih]

theorem pairs_sum {M : Type} [AddCommMonoid M] (n : ℕ) (f : ℕ × ℕ → M) :
    ((pairs n).map f).sum = ∑ i ∈ range n, ∑ j ∈ Ico i n, f (i, j) := by
  unfold pairs
  rw [List.map_flatMap, sum_flatMap', list_sum_range]
  refine Finset.sum_congr rfl fun i _ => ?_
  rw [List.map_map, Finset.sum_Ico_eq_sum_range, List.range'_eq_map_range, List.map_map]
  exact list_sum_range _ _

/-- Splitting off the row of the body. -/
theorem pairs_succ (k : ℕ) : pairs (k + 1) =
    ((List.range (k + 1)).map fun j => (0, j)) ++ (pairs k).map fun x => (x.1 + 1, x.2 + 1) := by
  unfold pairs
  rw [List.range_succ_eq_map, List.flatMap_cons, List.flatMap_map, List.map_flatMap, ← List.range_succ_eq_map]
  refine congrArg₂ (· ++ ·) (by rw [List.range_eq_range', Nat.sub_zero]) (List.flatMap_congr ?_)
  intro i _
  rw [List.map_map, Nat.succ_eq_add_one, show k + 1 - (i + 1) = k - i by omega, List.range'_eq_map_range,
    List.range'_eq_map_range, List.map_map, List.map_map]
  refine List.map_congr_left fun j _ => ?_
  simp only [Function.comp]
  congr 1
  omega

theorem pairs_length (n : ℕ) : 2 * (pairs n).length = n * (n + 1) := by
  induction n with
  | zero => simp [pairs]
  | succ n ih =>
    rw [pairs_succ]
    simp only [List.length_append, List.length_map, List.length_range]
    linarith

theorem pairs_length_tensor (k : ℕ) : (pairs (k + 1)).length = tensorRank k + 1 := by
  have h := pairs_length (k + 1)
  unfold tensorRank
  have e : (k + 1) * (k + 1 + 1) = k * (k + 3) + 2 := by ring
  omega

theorem pairs_length_rlk (k : ℕ) : (pairs k).length = rlkRank k := by
  have h := pairs_length k
  unfold rlkRank
  omega

theorem tensorRank_eq (k : ℕ) : tensorRank k = k + rlkRank k := by
  have h1 := pairs_length_tensor k
  rw [pairs_succ] at h1
  simp only [List.length_append, List.length_map, List.length_range, pairs_length_rlk] at h1
  omega

/-- The heart of tensoring: the products, weighted with the products of key elements, sum to the product. -/
theorem tensor_sum (n : ℕ) (a b S : ℕ → P) :
    ((pairs n).map fun x => tval a b x * (S x.1 * S x.2)).sum =
      (∑ i ∈ range n, a i * S i) * ∑ j ∈ range n, b j * S j := by
  rw [pairs_sum]
  induction n with
  | zero => simp
  | succ n ih =>
    rw [Finset.sum_range_succ, Finset.sum_range_succ, Finset.sum_range_succ (fun j => b j * S j)]
    have h1 : ∑ i ∈ range n, ∑ j ∈ Ico i (n + 1), tval a b (i, j) * (S i * S j) =
        ∑ i ∈ range n, ∑ j ∈ Ico i n, tval a b (i, j) * (S i * S j) +
          ∑ i ∈ range n, (a i * b n + a n * b i) * (S i * S n) := by
      rw [← Finset.sum_add_distrib]
      refine Finset.sum_congr rfl fun i hi => ?_
      have hi := Finset.mem_range.1 hi
      rw [Finset.sum_Ico_succ_top hi.le]
      simp [tval, hi.ne]
    have h2 : ∑ i ∈ range n, (a i * b n + a n * b i) * (S i * S n) =
        (∑ i ∈ range n, a i * S i) * (b n * S n) + (a n * S n) * ∑ i ∈ range n, b i * S i := by
      rw [Finset.sum_mul, Finset.mul_sum, ← Finset.sum_add_distrib]
      refine Finset.sum_congr rfl fun i _ => ?_
      ring
    simp only at h1 ih ⊢
    rw [h1, ih, h2]
    simp [tval]
    ring

theorem wsum_append (T : ℕ → P) (n : ℕ) (l l' : List P) :
    wsum T n (l ++ l') = wsum T n l + wsum T (n + l.length) l' := by
  induction l generalizing n with
  | nil => simp [wsum]
  | cons x l ih =>
    rw [List.cons_append, wsum, wsum, ih, List.length_cons, show n + 1 + l.length = n + (l.length + 1) by omega]
    ring

theorem wsum_map {α : Type} (T : ℕ → P) (n : ℕ) (l : List α) (f g : α → P)
    (h : ∀ i (hi : i < l.length), T (n + i) = f l[i]) :
    wsum T n (l.map g) = (l.map fun x => f x * g x).sum := by
  induction l generalizing n with
  | nil => simp [wsum]
  | cons x l ih =>
    rw [List.map_cons, wsum, List.map_cons, List.sum_cons, ih]
    · have := h 0 (by simp)
      simp only [Nat.add_zero, List.getElem_cons_zero] at this
      rw [this]
    · intro i hi
      have := h (i + 1) (by simpa using hi)
      rw [List.getElem_cons_succ] at this
      rw [← this]; congr 1; omega

theorem wsum_add (T U : ℕ → P) (n : ℕ) (l : List P) :
    wsum (fun t => T t + U t) n l = wsum T n l + wsum U n l := by
  induction l generalizing n with
  | nil => simp [wsum]
  | cons x l ih => simp only [wsum, ih]; ring

theorem wsum_eq_sum (T : ℕ → P) (n : ℕ) (l : List P) :
    wsum T n l = ∑ i ∈ range l.length, T (n + i) * l.getD i 0 := by
  induction l generalizing n with
  | nil => simp [wsum]
  | cons x l ih =>
    rw [wsum, ih, List.length_cons, Finset.sum_range_succ']
    simp only [List.getD_cons_succ, List.getD_cons_zero, Nat.add_zero]
    rw [add_comm]
    congr 1
    refine Finset.sum_congr rfl fun i _ => ?_
    rw [show n + 1 + i = n + (i + 1) by omega]

theorem wsum_congr (T U : ℕ → P) (n : ℕ) (l : List P) (h : ∀ i, i < l.length → T (n + i) = U (n + i)) :
    wsum T n l = wsum U n l := by
  rw [wsum_eq_sum, wsum_eq_sum]
  refine Finset.sum_congr rfl fun i hi => ?_
  rw [h i (Finset.mem_range.1 hi)]

theorem wsum_smul (c : P) (T : ℕ → P) (n : ℕ) (l : List P) : c * wsum T n l = wsum (fun t => c * T t) n l := by
  induction l generalizing n with
  | nil => simp [wsum]
  | cons x l ih => simp only [wsum, ← ih]; ring

theorem map_wsum {Q : Type} [CommRing Q] (f : P →+* Q) (T : ℕ → P) (n : ℕ) (l : List P) :
    f (wsum T n l) = wsum (fun t => f (T t)) n (l.map f) := by
  induction l generalizing n with
  | nil => simp [wsum]
  | cons x l ih => simp only [wsum, List.map_cons, ← ih, map_add, map_mul]

theorem wsum_le (ν : RNorm P) (T : ℕ → P) (n : ℕ) (l : List P) (S B : ℕ)
    (hS : ∀ x ∈ l, ∀ y, ν.f (y * x) ≤ S * ν.f y) (hB : ∀ i, i < l.length → ν.f (T (n + i)) ≤ B) :
    ν.f (wsum T n l) ≤ l.length * (S * B) := by
  induction l generalizing n with
  | nil => simp [wsum, ν.zero]
  | cons x l ih =>
    rw [wsum, List.length_cons]
    have h1 := ih (n + 1) (fun x hx => hS x (List.mem_cons_of_mem _ hx)) (fun i hi => by
      have := hB (i + 1) (by simpa using hi)
      rwa [show n + 1 + i = n + (i + 1) by omega])
    have h2 := hS x List.mem_cons_self (T n)
    have h3 : S * ν.f (T n) ≤ S * B := Nat.mul_le_mul_left _ (hB 0 (by simp))
    calc _ ≤ _ := ν.add_le _ _
      _ ≤ S * B + l.length * (S * B) := Nat.add_le_add (h2.trans h3) h1
      _ = _ := by ring

/-- The key with the constant 1 in front, as a slice. -/
def key1 {k : ℕ} (s : Fin k → P) : ℕ → P
  | 0 => 1
  | i + 1 => ext0 s i

theorem filter_range_le (i k : ℕ) (h : i ≤ k) :
    (List.range k).filter (fun j => decide (i ≤ j)) = List.range' i (k - i) := by
  have e : List.range k = List.range i ++ List.range' i (k - i) := by
    have := List.range'_append_1 (s := 0) (m := i) (n := k - i)
    rw [List.range_eq_range', List.range_eq_range', ← show i + (k - i) = k by omega, ← this]
    simp
  rw [e, List.filter_append, List.filter_eq_nil_iff.2, List.nil_append, List.filter_eq_self.2]
  · intro j hj; rw [List.mem_range'_1] at hj; simpa using hj.1
  · intro j hj; rw [List.mem_range] at hj; simpa using hj

/-- The independent description of the tensor key agrees with the order of the loops. -/
theorem tensorKey_eq {k : ℕ} (s : Fin k → P) :
    (1 : P) :: tensorKey s = (pairs (k + 1)).map fun x => key1 s x.1 * key1 s x.2 := by
  have hrow : List.ofFn s = (List.range k).map (ext0 s) := by
    apply List.ext_getElem (by simp)
    intro i h1 h2
    simp only [List.length_ofFn] at h1
    simp [ext0, h1]
  rw [pairs_succ, List.map_append, List.range_succ_eq_map]
  simp only [List.map_cons, List.map_map, List.cons_append, tensorKey]
  refine congrArg₂ List.cons (by simp [key1]) (congrArg₂ (· ++ ·) ?_ ?_)
  · rw [hrow]
    refine List.map_congr_left fun j _ => ?_
    simp [key1]
  · have hf : ∀ i : Fin k, ((List.finRange k).filter (i ≤ ·)).map (fun j => s i * s j) =
        (List.range' i (k - i)).map fun j => ext0 s i * ext0 s j := by
      intro i
      have e2 : ((List.finRange k).filter (i ≤ ·)).map (fun j => s i * s j) =
          (((List.finRange k).filter ((fun j : ℕ => decide ((i : ℕ) ≤ j)) ∘ Fin.val)).map Fin.val).map
            (fun j => ext0 s i * ext0 s j) := by
        rw [List.map_map]
        refine List.map_congr_left fun j _ => ?_
        simp [ext0]
      rw [e2, ← List.filter_map, List.map_coe_finRange_eq_range, filter_range_le _ _ i.2.le]
    unfold pairs
    rw [List.map_flatMap, ← List.map_coe_finRange_eq_range, List.flatMap_map]
    refine List.flatMap_congr fun i _ => ?_
    rw [hf i, List.map_map]
    refine List.map_congr_left fun j _ => ?_
    simp [key1]

theorem tensorPhase_eq {k : ℕ} (s : Fin k → P) (T : ℕ → P) :
    tensorPhase s T = wsum T 0 ((pairs (k + 1)).map fun x => key1 s x.1 * key1 s x.2) := by
  rw [← tensorKey_eq, wsum, mul_one]; rfl

theorem tensorKey_length {k : ℕ} (s : Fin k → P) : (tensorKey s).length = k + rlkRank k := by
  have h := congrArg List.length (tensorKey_eq s)
  rw [List.length_cons, List.length_map, pairs_length_tensor, tensorRank_eq] at h
  omega

/-- The size of a tensor phase: components at most `B`, one key polynomial grows a product by at most `S`. -/
theorem tensorPhase_le (ν : RNorm P) {k : ℕ} (s : Fin k → P) (T : ℕ → P) (S B : ℕ)
    (hS : ∀ i x, ν.f (x * s i) ≤ S * ν.f x) (hB : ∀ i, i ≤ k + rlkRank k → ν.f (T i) ≤ B) :
    ν.f (tensorPhase s T) ≤ B * (1 + k * S + rlkRank k * S ^ 2) := by
  have hl : ((List.finRange k).flatMap fun i => ((List.finRange k).filter (i ≤ ·)).map
      fun j => s i * s j).length = rlkRank k := by
    have := tensorKey_length s
    unfold tensorKey at this
    rw [List.length_append, List.length_ofFn] at this
    omega
  unfold tensorPhase tensorKey
  rw [wsum_append, List.length_ofFn]
  have h1 := wsum_le ν T 1 (List.ofFn s) S B
    (fun x hx y => by obtain ⟨i, rfl⟩ := (List.mem_ofFn' _ _).1 hx; exact hS i y)
    (fun i hi => hB _ (by rw [List.length_ofFn] at hi; omega))
  have h2 := wsum_le ν T (1 + k) ((List.finRange k).flatMap fun i => ((List.finRange k).filter (i ≤ ·)).map
      fun j => s i * s j) (S ^ 2) B
    (fun x hx y => by
      obtain ⟨i, _, hx⟩ := List.mem_flatMap.1 hx
      obtain ⟨j, _, rfl⟩ := List.mem_map.1 hx
      calc ν.f (y * (s i * s j)) = ν.f (y * s i * s j) := by rw [mul_assoc]
        _ ≤ S * ν.f (y * s i) := hS _ _
        _ ≤ S * (S * ν.f y) := Nat.mul_le_mul_left _ (hS _ _)
        _ = _ := by ring)
    (fun i hi => hB _ (by rw [hl] at hi; omega))
  rw [List.length_ofFn] at h1
  rw [hl] at h2
  calc _ ≤ _ := ν.add_le _ _
    _ ≤ B + (k * (S * B) + rlkRank k * (S ^ 2 * B)) :=
        Nat.add_le_add (hB 0 (by omega)) ((ν.add_le _ _).trans (Nat.add_le_add h1 h2))
    _ = _ := by ring

theorem phase_key1 {k : ℕ} (s : Fin k → P) (a : ℕ → P) :
    ∑ i ∈ range (k + 1), a i * key1 s i = phase s (fun i : Fin (k + 1) => a i) := by
  rw [Finset.sum_range_succ', Finset.sum_range]
  simp only [key1, mul_one, phase, Fin.val_zero, Fin.val_succ]
  rw [add_comm]
  congr 1
  refine Finset.sum_congr rfl fun i _ => ?_
  simp [ext0]
end
end Tfhe.Bfv
