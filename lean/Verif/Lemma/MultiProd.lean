import Verif.Lemma.MultiKey
import Verif.Lemma.Product
import Verif.Props.C07

/-!
# The multi-key hybrid product: closed forms and the phase identity
-/
namespace Tfhe.Mk
open Finset

section
variable {R : Type} [CommRing R]

theorem foldl_add_rows (is : List ℕ) (acc : R) (row d : ℕ → R) :
    is.foldl (fun acc j => acc + row j * d j) acc = acc + (is.map fun j => d j * row j).sum := by
  induction is generalizing acc with
  | nil => simp
  | cons j is ih => rw [List.foldl_cons, ih, List.map_cons, List.sum_cons, ← add_assoc, mul_comm (row j)]

theorem addDigits_eq (L : ℕ) (acc : R) (row d : ℕ → R) :
    addDigits L acc row d = acc + ∑ j ∈ range L, d j * row j := by
  rw [addDigits, foldl_add_rows, sum_map_range]

theorem sumDigits_eq (L : ℕ) (hL : 0 < L) (row d : ℕ → R) :
    sumDigits L row d = ∑ j ∈ range L, d j * row j := by
  obtain ⟨L, rfl⟩ : ∃ m, L = m + 1 := ⟨L - 1, by omega⟩
  rw [sumDigits, foldl_add_rows, Nat.add_sub_cancel, List.range'_eq_map_range, List.map_map, sum_map_range,
    sum_range_succ', add_comm, mul_comm (row 0)]
  simp [add_comm]

/-- The digits of `x` against a row. -/
def against (G : Gadget R) (row : ℕ → R) (x : R) : R := ∑ j ∈ range G.level, G.dec x j * row j

theorem hybridLoop_spec (keys : ℕ → Option (EvalKey R)) (G : Gadget R) (hL : 0 < G.level) (u : UniEnc R) (c : ℕ → R)
    (st : (ℕ → R) × R) (P : ℕ) :
    (hybridLoop P keys G u c st).1 =
      (fun t => if 1 ≤ t ∧ t ≤ P ∧ isOn keys (t - 1) then against G (fun j => u.v0 j 0) (c t) else st.1 t) ∧
    (hybridLoop P keys G u c st).2 =
      st.2 + ∑ i ∈ range P, (keys i).elim 0 fun k => against G (fun j => k.crs j 0) (c (i + 1)) := by
  induction P with
  | zero =>
    refine ⟨?_, by simp [hybridLoop]⟩
    funext t
    rw [if_neg (by omega)]; simp [hybridLoop]
  | succ P ih =>
    have e : hybridLoop (P + 1) keys G u c st = (match keys P with
      | none => hybridLoop P keys G u c st
      | some k => (upd (hybridLoop P keys G u c st).1 (P + 1)
            (sumDigits G.level (fun j => u.v0 j 0) (G.dec (c (P + 1)))),
          addDigits G.level (hybridLoop P keys G u c st).2 (fun j => k.crs j 0) (G.dec (c (P + 1))))) := by
      unfold hybridLoop
      rw [List.range_succ, List.foldl_append, List.foldl_cons, List.foldl_nil]
      cases keys P <;> rfl
    rw [e]
    cases hk : keys P with
    | none =>
      refine ⟨?_, by simp [ih.2, sum_range_succ, hk]⟩
      simp only [ih.1]
      funext t
      by_cases ht : t = P + 1
      · subst ht; simp [isOn, hk]
      · congr 1; simp only [eq_iff_iff]; constructor <;> rintro ⟨a, b, c⟩ <;> exact ⟨a, by omega, c⟩
    | some k =>
      constructor
      · funext t
        simp only [upd, ih.1]
        by_cases ht : t = P + 1
        · subst ht; simp [isOn, hk, sumDigits_eq _ hL, against]
        · rw [if_neg ht]
          congr 1; simp only [eq_iff_iff]; constructor <;> rintro ⟨a, b, c⟩ <;> exact ⟨a, by omega, c⟩
      · simp only [ih.2, addDigits_eq, sum_range_succ, hk, Option.elim_some, against, add_assoc]

theorem foldl_upd2 (idx : ℕ) (is : List ℕ) (x y : ℕ → R) (prod : ℕ → R) :
    is.foldl (fun prod j =>
      let prod := upd prod 0 (prod 0 + x j)
      upd prod (1 + idx) (prod (1 + idx) + y j)) prod =
    fun t => prod t + (if t = 0 then (is.map x).sum else if t = 1 + idx then (is.map y).sum else 0) := by
  induction is generalizing prod with
  | nil => funext t; simp
  | cons j is ih =>
    rw [List.foldl_cons, ih]
    funext t
    by_cases h0 : t = 0
    · subst h0
      have : ¬ 0 = 1 + idx := by omega
      simp [upd, this, add_assoc]
    · by_cases h1 : t = 1 + idx
      · subst h1; simp [upd, add_assoc]
      · simp [upd, h0, h1]

/-- What the hybrid product decomposes again. -/
def hybridV (P : ℕ) (keys : ℕ → Option (EvalKey R)) (a : ℕ → R) (G : Gadget R) (c : ℕ → R) (errSub : R) : R :=
  -against G a (c 0) +
    ∑ i ∈ range P, ((keys i).elim 0 fun k => against G (fun j => k.crs j 0) (c (i + 1))) + errSub

theorem hybridAcc_eq (P : ℕ) (keys : ℕ → Option (EvalKey R)) (idx : ℕ) (hidx : idx < P) (k : EvalKey R)
    (hk : keys idx = some k) (G : Gadget R) (hL : 0 < G.level) (u : UniEnc R) (c buf : ℕ → R) (errSub : R) :
    ∃ prod, hybridAcc P keys idx G u c buf errSub = some prod ∧
      ∀ t ≤ P, (t = 0 ∨ isOn keys (t - 1)) → prod t = against G (fun j => u.v0 j 0) (c t) +
        (if t = 0 then against G (fun j => u.v1 j 0) (hybridV P keys (fun j => k.crs j 1) G c errSub)
         else if t = 1 + idx then against G (fun j => u.v1 j 1) (hybridV P keys (fun j => k.crs j 1) G c errSub)
         else 0) := by
  unfold hybridAcc
  rw [if_neg (by omega), hk, Option.map_some]
  refine ⟨_, rfl, fun t ht hon => ?_⟩
  simp only
  rw [foldl_upd2 idx _ (fun j => u.v1 j 0 * _) (fun j => u.v1 j 1 * _)]
  simp only
  obtain ⟨h1, h2⟩ := hybridLoop_spec keys G hL u c (upd buf 0 (sumDigits G.level (fun j => u.v0 j 0) (G.dec (c 0))),
    -sumDigits G.level (fun j => k.crs j 1) (G.dec (c 0))) P
  rw [h1, h2]
  have hv : -sumDigits G.level (fun j => k.crs j 1) (G.dec (c 0)) +
      ∑ i ∈ range P, ((keys i).elim 0 fun k => against G (fun j => k.crs j 0) (c (i + 1))) + errSub =
      hybridV P keys (fun j => k.crs j 1) G c errSub := by
    rw [sumDigits_eq _ hL]; rfl
  rw [hv]
  have e : ∀ r : Fin 2, ((List.range G.level).map fun j => u.v1 j r *
      G.dec (hybridV P keys (fun j => k.crs j 1) G c errSub) j).sum =
      against G (fun j => u.v1 j r) (hybridV P keys (fun j => k.crs j 1) G c errSub) := by
    intro r
    rw [sum_map_range]
    exact sum_congr rfl fun j _ => mul_comm _ _
  rw [e 0, e 1]
  congr 1
  rcases hon with rfl | hon
  · simp [upd, sumDigits_eq _ hL, against]
  · by_cases h0 : t = 0
    · subst h0; simp [upd, sumDigits_eq _ hL, against]
    · beta_reduce
      rw [if_pos ⟨by omega, ht, hon⟩]
end

/-! ### Phases -/
section
variable {R : Type} [CommRing R]

/-- The GLWE keys of the known parties; the others count as zero. -/
def mkKey {K : Type} (P : ℕ) (keys : ℕ → Option K) (z : ℕ → R) : Fin P → R := fun i => if isOn keys i then z i else 0

/-- The public keys are encryptions of zero under the keys `z`, with the common reference string `a` as mask. -/
def CRSValid (P L : ℕ) (keys : ℕ → Option (EvalKey R)) (a z : ℕ → R) (e : ℕ → ℕ → R) : Prop :=
  ∀ i < P, ∀ k, keys i = some k → ∀ j < L, k.crs j 1 = a j ∧ k.crs j 0 + a j * z i = e i j

/-- `u` is a uni-encryption of `p` under `z`, with auxiliary key `r` and noises `e0`, `e1`. -/
def IsUni (G : Gadget R) (a : ℕ → R) (z p : R) (u : UniEnc R) (r : R) (e0 e1 : ℕ → R) : Prop :=
  ∀ j < G.level, u.v0 j 0 = p * G.g j + a j * r + e0 j ∧ u.v1 j 0 + u.v1 j 1 * z = r * G.g j + e1 j

theorem against_add (G : Gadget R) (f g : ℕ → R) (x : R) :
    against G (fun j => f j + g j) x = against G f x + against G g x := by
  unfold against; rw [← sum_add_distrib]; exact sum_congr rfl fun _ _ => by ring

theorem against_mul (G : Gadget R) (f : ℕ → R) (r x : R) :
    against G (fun j => f j * r) x = against G f x * r := by
  unfold against; rw [sum_mul]; exact sum_congr rfl fun _ _ => by ring

theorem against_g (G : Gadget R) (x : R) : against G G.g x = x + G.eps x := by
  unfold against Gadget.eps; ring

theorem against_congr (G : Gadget R) (f g : ℕ → R) (x : R) (h : ∀ j < G.level, f j = g j) :
    against G f x = against G g x := sum_congr rfl fun j hj => by rw [h j (mem_range.1 hj)]

/-- The noise of a hybrid product; `e`, `e0` and `e1` are the noises of public keys and uni-encryption. -/
def hybridNoise (P : ℕ) (keys : ℕ → Option (EvalKey R)) (z : ℕ → R) (G : Gadget R) (a : ℕ → R) (p r : R)
    (e : ℕ → ℕ → R) (e0 e1 : ℕ → R) (c : ℕ → R) (errSub : R) (err : ℕ → R) : R :=
  p * phase (mkKey P keys z) (fun t : Fin (P + 1) => G.eps (c t)) +
  phase (mkKey P keys z) (fun t : Fin (P + 1) => against G e0 (c t)) +
  r * (∑ i ∈ range P, (if isOn keys i then against G (e i) (c (i + 1)) else 0) + errSub +
    G.eps (hybridV P keys a G c errSub)) +
  against G e1 (hybridV P keys a G c errSub) +
  phase (mkKey P keys z) (fun t : Fin (P + 1) => err t)

theorem phase_range (P : ℕ) {K : Type} (keys : ℕ → Option K) (z c : ℕ → R) :
    phase (mkKey P keys z) (fun t : Fin (P + 1) => c t) =
      c 0 + ∑ i ∈ range P, if isOn keys i then c (i + 1) * z i else 0 := by
  unfold phase
  simp only [Fin.val_zero, Fin.val_succ]
  rw [← Fin.sum_univ_eq_sum_range (fun i => if isOn keys i then c (i + 1) * z i else 0) P]
  congr 1
  exact sum_congr rfl fun i _ => by unfold mkKey; split_ifs <;> simp

/-- The identity behind the hybrid product: the accumulator, with the errors of the conversion, has the phase
`p * phase c` plus noise. -/
theorem hybrid_phase (P : ℕ) (keys : ℕ → Option (EvalKey R)) (idx : ℕ) (hidx : idx < P) (k : EvalKey R)
    (hk : keys idx = some k) (G : Gadget R) (hL : 0 < G.level) (a z : ℕ → R) (e : ℕ → ℕ → R)
    (hcrs : CRSValid P G.level keys a z e) (p r : R) (u : UniEnc R) (e0 e1 : ℕ → R)
    (hu : IsUni G a (z idx) p u r e0 e1) (c buf : ℕ → R) (errSub : R) (err : ℕ → R) :
    ∃ prod, hybridAcc P keys idx G u c buf errSub = some prod ∧
      phase (mkKey P keys z) (fun t : Fin (P + 1) => prod t + err t) =
        p * phase (mkKey P keys z) (fun t : Fin (P + 1) => c t) +
          hybridNoise P keys z G a p r e e0 e1 c errSub err := by
  obtain ⟨prod, h1, h2⟩ := hybridAcc_eq P keys idx hidx k hk G hL u c buf errSub
  refine ⟨prod, h1, ?_⟩
  have hon : isOn keys idx = true := by simp [isOn, hk]
  have hva : hybridV P keys (fun j => k.crs j 1) G c errSub = hybridV P keys a G c errSub := by
    unfold hybridV; rw [against_congr G _ a _ fun j hj => (hcrs idx hidx k hk j hj).1]
  rw [hva] at h2
  set v := hybridV P keys a G c errSub with hv
  -- the first row of the uni-encryption
  have hrow : ∀ x, against G (fun j => u.v0 j 0) x = p * (x + G.eps x) + against G a x * r + against G e0 x := by
    intro x
    rw [against_congr G _ (fun j => (G.g j * p + a j * r) + e0 j) x fun j hj => by rw [(hu j hj).1]; ring,
      against_add, against_add, against_mul, against_mul, against_g]
    ring
  -- the second row
  have hrow1 : against G (fun j => u.v1 j 0) v + against G (fun j => u.v1 j 1) v * z idx =
      r * (v + G.eps v) + against G e1 v := by
    rw [← against_mul, ← against_add,
      against_congr G _ (fun j => G.g j * r + e1 j) v fun j hj => by rw [(hu j hj).2]; ring,
      against_add, against_mul, against_g]
    ring
  -- the masks cancel
  have hvz : v = -against G a (c 0) + ∑ i ∈ range P, (if isOn keys i then
      (against G (e i) (c (i + 1)) - against G a (c (i + 1)) * z i) else 0) + errSub := by
    rw [hv, hybridV]
    congr 2
    refine sum_congr rfl fun i hi => ?_
    cases hki : keys i with
    | none => simp [isOn, hki]
    | some ki =>
      simp only [isOn, hki, Option.elim_some, Option.isSome_some, if_true]
      rw [← against_mul, eq_sub_iff_add_eq, ← against_add]
      exact against_congr G _ _ _ fun j hj => (hcrs i (mem_range.1 hi) ki hki j hj).2
  have hsum : ∑ i ∈ range P, (if isOn keys i then (prod (i + 1) + err (i + 1)) * z i else 0) =
      ∑ i ∈ range P, (if isOn keys i then (against G (fun j => u.v0 j 0) (c (i + 1)) + err (i + 1)) * z i else 0) +
        against G (fun j => u.v1 j 1) v * z idx := by
    have : ∀ i ∈ range P, (if isOn keys i then (prod (i + 1) + err (i + 1)) * z i else 0) =
        (if isOn keys i then (against G (fun j => u.v0 j 0) (c (i + 1)) + err (i + 1)) * z i else 0) +
          (if i = idx then against G (fun j => u.v1 j 1) v * z i else 0) := by
      intro i hi
      have hi := mem_range.1 hi
      by_cases ho : isOn keys i
      · rw [if_pos ho, if_pos ho, h2 (i + 1) (by omega) (Or.inr (by simpa using ho)), if_neg (by omega)]
        by_cases hii : i = idx
        · rw [if_pos (by omega), if_pos hii]; ring
        · rw [if_neg (by omega), if_neg hii]; ring
      · rw [if_neg ho, if_neg ho, if_neg (fun h : i = idx => ho (by rw [h]; exact hon)), add_zero]
    rw [sum_congr rfl this, sum_add_distrib, Finset.sum_ite_eq' (range P) idx, if_pos (mem_range.2 hidx)]
  rw [phase_range P keys z (fun t => prod t + err t), hsum, h2 0 (by omega) (Or.inl rfl), if_pos rfl]
  unfold hybridNoise
  rw [phase_range P keys z c, phase_range P keys z (fun t => G.eps (c t)),
    phase_range P keys z (fun t => against G e0 (c t)), phase_range P keys z err, ← hv]
  have hT : ∑ i ∈ range P, (if isOn keys i then (against G (fun j => u.v0 j 0) (c (i + 1)) + err (i + 1)) * z i else 0) =
      p * (∑ i ∈ range P, if isOn keys i then c (i + 1) * z i else 0) +
      p * (∑ i ∈ range P, if isOn keys i then G.eps (c (i + 1)) * z i else 0) +
      (∑ i ∈ range P, if isOn keys i then against G e0 (c (i + 1)) * z i else 0) +
      (∑ i ∈ range P, if isOn keys i then err (i + 1) * z i else 0) +
      r * (∑ i ∈ range P, if isOn keys i then against G a (c (i + 1)) * z i else 0) := by
    simp only [mul_sum, ← sum_add_distrib]
    refine sum_congr rfl fun i _ => ?_
    split_ifs
    · rw [hrow]; ring
    · ring
  have hS : ∑ i ∈ range P, (if isOn keys i then
      (against G (e i) (c (i + 1)) - against G a (c (i + 1)) * z i) else 0) =
      (∑ i ∈ range P, if isOn keys i then against G (e i) (c (i + 1)) else 0) -
        ∑ i ∈ range P, if isOn keys i then against G a (c (i + 1)) * z i else 0 := by
    rw [← sum_sub_distrib]
    exact sum_congr rfl fun i _ => by split_ifs <;> ring
  rw [hS] at hvz
  rw [hT, hrow]
  have h3 : against G (fun j => u.v1 j 0) v = r * (v + G.eps v) + against G e1 v - against G (fun j => u.v1 j 1) v * z idx := by
    rw [← hrow1]; ring
  rw [h3]
  generalize G.eps v = ev
  generalize against G e1 v = e1v
  generalize against G (fun j => u.v1 j 1) v = y at *
  have h4 : r * v = r * (-against G a (c 0) + ((∑ i ∈ range P, if isOn keys i then against G (e i) (c (i + 1)) else 0) -
        ∑ i ∈ range P, if isOn keys i then against G a (c (i + 1)) * z i else 0) + errSub) := by rw [← hvz]
  rw [mul_add r v, h4]
  ring
end

end Tfhe.Mk
