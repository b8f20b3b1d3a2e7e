import Verif.Lemma.AsmCmplx
import Verif.Lemma.AsmDecompose
import Verif.Model.Fft
import Mathlib.Tactic.IntervalCases

/-!
# Memory of programs that work in place on `float64`
-/
set_option linter.unusedSimpArgs false

namespace Tfhe
namespace Asm
open Tfhe.Fft

/-- `x` with `f 0, f 1, …, f (c-1)` at `j`. -/
def updN (c : Nat) (x : Nat → BitVec 64) (j : Nat) (f : Nat → BitVec 64) : Nat → BitVec 64 := fun i =>
  if j ≤ i ∧ i < j + c then f (i - j) else x i

/-- Reading `c` words of an array. -/
theorem loadN_in {m : Memory} {b x : BitVec 64} {W : Nat → BitVec 32} {n : Nat} (c j : Nat) (hb : b.toNat % 4 = 0)
    (hj : j + c ≤ n) (hn : 4 * n ≤ 2 ^ 64) (hx : x = b + BitVec.ofNat 64 (4 * j)) :
    loadN c (over m b W n) x = some fun l => W (j + l.val) := by
  subst hx
  refine loadN_eq (align_add hb _) fun l => ?_
  rw [BitVec.add_assoc, ← BitVec.ofNat_add, ← Nat.mul_add, over_at (by omega) hn]

/-- Writing `c` words of an array. -/
theorem storeN_in {m : Memory} {b x : BitVec 64} {W W' : Nat → BitVec 32} {n : Nat} (c j : Nat)
    {v : Fin c → BitVec 32} (hb : b.toNat % 4 = 0)
    (hj : j + c ≤ n) (hn : 4 * n ≤ 2 ^ 64) (hx : x = b + BitVec.ofNat 64 (4 * j))
    (h1 : ∀ l, v l = W' (j + l.val)) (h2 : ∀ i, (i < j ∨ j + c ≤ i) → W' i = W i) :
    storeN c (over m b W n) x v = some (over m b W' n) := by
  subst hx
  rw [storeN_any c v (align_add hb _) (by omega)]
  · congr 1
    funext a
    by_cases ha : ∃ i < c, a = b + BitVec.ofNat 64 (4 * j) + BitVec.ofNat 64 (4 * i)
    · obtain ⟨i, hi, rfl⟩ := ha
      rw [over_at hi (by omega), dif_pos hi, h1, BitVec.add_assoc, ← BitVec.ofNat_add, ← Nat.mul_add,
        over_at (by omega) hn]
    · push Not at ha
      rw [over_off ha]
      by_cases hb : ∃ i < n, a = b + BitVec.ofNat 64 (4 * i)
      · obtain ⟨i, hi, rfl⟩ := hb
        rw [over_at hi hn, over_at hi hn, h2]
        by_contra hc
        push Not at hc
        apply ha (i - j) (by omega)
        rw [BitVec.add_assoc, ← BitVec.ofNat_add, ← Nat.mul_add, Nat.add_sub_cancel' hc.1]
      · push Not at hb
        rw [over_off hb, over_off hb]
  · intro i hi
    rw [BitVec.add_assoc, ← BitVec.ofNat_add, ← Nat.mul_add, over_at (by omega) hn]; rfl

/-- Reading words that are not in the array. -/
theorem loadN_out {m : Memory} {b t x : BitVec 64} {W A : Nat → BitVec 32} {n K : Nat} (c j : Nat)
    (hA : Holds m t A K) (hj : j + c ≤ K)
    (hs : ∀ i < K, ∀ i' < n, t + BitVec.ofNat 64 (4 * i) ≠ b + BitVec.ofNat 64 (4 * i'))
    (hx : x = t + BitVec.ofNat 64 (4 * j)) :
    loadN c (over m b W n) x = some fun l => A (j + l.val) := by
  subst hx
  refine loadN_eq (align_add hA.1 _) fun l => ?_
  rw [BitVec.add_assoc, ← BitVec.ofNat_add, ← Nat.mul_add, over_off, hA.2 _ (by omega)]
  intro i' hi'
  exact hs _ (by omega) _ hi'

/-! ### Half registers -/

/-- The lower half of a register as two 64-bit lanes. -/
def lowQ (f : Nat → BitVec 64) : Y := ofQ fun q => if q.val < 2 then f q.val else 0

theorem lowX_ofQ (f : Fin 4 → BitVec 64) : lowX (ofQ f) = lowQ fun q => if h : q < 4 then f ⟨q, h⟩ else 0 := by
  funext l
  unfold lowX lowQ ofQ
  have hl := l.isLt
  by_cases h : l.val < 4
  · have h2 : l.val / 2 < 2 := by omega
    have h3 : l.val / 2 < 4 := by omega
    simp only [h, h2, h3, if_true, dif_pos]
  · have h2 : ¬ l.val / 2 < 2 := by omega
    simp only [h, h2, if_false]
    split <;> rfl

theorem qw_lowQ (f : Nat → BitVec 64) (q : Fin 4) : qw (lowQ f) q = if q.val < 2 then f q.val else 0 := by
  rw [lowQ, qw_ofQ]

theorem lowQ_congr {f g : Nat → BitVec 64} (h0 : f 0 = g 0) (h1 : f 1 = g 1) : lowQ f = lowQ g := by
  unfold lowQ
  congr 1
  funext q
  fin_cases q <;> simp [h0, h1]

/-- Reading two floats into a half register. -/
theorem vloadX_eq (A : Nat → BitVec 64) (j : Nat) :
    (fun l : Fin 8 => if h : l.val < 4 then (fun l : Fin 4 => dw A (2 * j + l.val)) ⟨l.val, h⟩ else 0) =
      lowQ fun q => A (j + q) := by
  funext l
  unfold lowQ ofQ dw
  have hl := l.isLt
  have h1 : (2 * j + l.val) % 2 = l.val % 2 := by omega
  have h3 : (2 * j + l.val) / 2 = j + l.val / 2 := by omega
  by_cases h : l.val < 4
  · have h2 : l.val / 2 < 2 := by omega
    simp only [h, h1, h2, h3, dif_pos, if_true]
  · have h2 : ¬ l.val / 2 < 2 := by omega
    simp only [h, h2, dif_neg, if_false, not_false_eq_true]
    split <;> rfl

theorem lowQ_word (f : Nat → BitVec 64) (l : Fin 4) (h : l.val < 8) : lowQ f ⟨l.val, h⟩ = dw f l.val := by
  unfold lowQ ofQ dw
  have hl := l.isLt
  have h2 : l.val / 2 < 2 := by omega
  simp only [h2, if_true]

/-! ### Arrays of floats -/

theorem dw_add (x : Nat → BitVec 64) (j i : Nat) : dw x (2 * j + i) = dw (fun q => x (j + q)) i := by
  unfold dw
  have h1 : (2 * j + i) % 2 = i % 2 := by omega
  have h3 : (2 * j + i) / 2 = j + i / 2 := by omega
  rw [h1, h3]

section
variable {m : Memory} {b : BitVec 64} {x : Nat → BitVec 64} {N : Nat}

/-- Reading four floats. -/
theorem load4 {a : BitVec 64} (j : Nat) (hb : b.toNat % 4 = 0) (hj : j + 4 ≤ N) (hn : N < 2 ^ 60)
    (ha : a = b + BitVec.ofNat 64 (4 * (2 * j))) :
    loadN 8 (over m b (dw x) (2 * N)) a = some (ofQ fun q => x (j + q.val)) := by
  rw [loadN_in 8 (2 * j) hb (by omega) (by omega) ha]
  exact congrArg some (dw_eq_ofQ x j)

/-- Writing four floats. -/
theorem store4 {a : BitVec 64} (j : Nat) {v : Y} {f : Nat → BitVec 64} (hb : b.toNat % 4 = 0) (hj : j + 4 ≤ N)
    (hn : N < 2 ^ 60) (ha : a = b + BitVec.ofNat 64 (4 * (2 * j))) (hv : v = ofQ fun q => f q.val) :
    storeN 8 (over m b (dw x) (2 * N)) a v = some (over m b (dw (updN 4 x j f)) (2 * N)) := by
  refine storeN_in 8 (2 * j) hb (by omega) (by omega) ha (fun l => ?_) fun i hi => ?_
  · have hl := l.isLt
    rw [hv, dw_add]
    unfold dw ofQ
    have : j ≤ j + l.val / 2 ∧ j + l.val / 2 < j + 4 := by omega
    simp only [updN, this, and_self, if_true, Nat.add_sub_cancel_left]
  · unfold dw updN
    have : ¬ (j ≤ i / 2 ∧ i / 2 < j + 4) := by omega
    simp only [this, if_false]

/-- Reading two floats. -/
theorem load2 {a : BitVec 64} (j : Nat) (hb : b.toNat % 4 = 0) (hj : j + 2 ≤ N) (hn : N < 2 ^ 60)
    (ha : a = b + BitVec.ofNat 64 (4 * (2 * j))) :
    loadN 4 (over m b (dw x) (2 * N)) a = some fun l => dw x (2 * j + l.val) :=
  loadN_in 4 (2 * j) hb (by omega) (by omega) ha

/-- Writing two floats. -/
theorem store2 {a : BitVec 64} (j : Nat) {f : Nat → BitVec 64} (hb : b.toNat % 4 = 0) (hj : j + 2 ≤ N)
    (hn : N < 2 ^ 60) (ha : a = b + BitVec.ofNat 64 (4 * (2 * j))) :
    storeN 4 (over m b (dw x) (2 * N)) a (fun l => lowQ f ⟨l.val, by omega⟩) =
      some (over m b (dw (updN 2 x j f)) (2 * N)) := by
  refine storeN_in 4 (2 * j) hb (by omega) (by omega) ha (fun l => ?_) fun i hi => ?_
  · have hl := l.isLt
    rw [lowQ_word, dw_add]
    unfold dw
    have : j ≤ j + l.val / 2 ∧ j + l.val / 2 < j + 2 := by omega
    simp only [updN, this, and_self, if_true, Nat.add_sub_cancel_left]
  · unfold dw updN
    have : ¬ (j ≤ i / 2 ∧ i / 2 < j + 2) := by omega
    simp only [this, if_false]

/-- A table of complex numbers as floats. -/
def flat (tw : Nat → BitVec 64 × BitVec 64) (i : Nat) : BitVec 64 := if i % 2 = 0 then (tw (i / 2)).1 else (tw (i / 2)).2

theorem flat_re (tw : Nat → BitVec 64 × BitVec 64) (w : Nat) : flat tw (2 * w) = (tw w).1 := by
  have h1 : 2 * w % 2 = 0 := by omega
  have h2 : 2 * w / 2 = w := by omega
  rw [flat, if_pos h1, h2]

theorem flat_im (tw : Nat → BitVec 64 × BitVec 64) (w : Nat) : flat tw (2 * w + 1) = (tw w).2 := by
  have h1 : ¬ (2 * w + 1) % 2 = 0 := by omega
  have h2 : (2 * w + 1) / 2 = w := by omega
  rw [flat, if_neg h1, h2]

/-- The table at `t`, apart from the array. -/
structure Table (m : Memory) (b t : BitVec 64) (tw : Nat → BitVec 64 × BitVec 64) (N L : Nat) : Prop where
  align : b.toNat % 4 = 0
  holds : Holds m t (dw (flat tw)) (2 * (2 * L))
  apart : ∀ i < 2 * (2 * L), ∀ i' < 2 * N, t + BitVec.ofNat 64 (4 * i) ≠ b + BitVec.ofNat 64 (4 * i')
  size : N < 2 ^ 58
  size' : L < 2 ^ 58

variable {t : BitVec 64} {tw : Nat → BitVec 64 × BitVec 64} {L : Nat}

theorem Table.re (h : Table m b t tw N L) {a : BitVec 64} (w : Nat) (hw : w < L)
    (ha : a = t + BitVec.ofNat 64 (4 * (2 * (2 * w)))) :
    loadN 2 (over m b (dw x) (2 * N)) a = some (split2 (tw w).1) := by
  rw [loadN_out 2 (2 * (2 * w)) h.holds (by omega) h.apart ha, dw_eq_split (flat tw) (2 * w), flat_re]

theorem Table.im (h : Table m b t tw N L) {a : BitVec 64} (w : Nat) (hw : w < L)
    (ha : a = t + BitVec.ofNat 64 (4 * (2 * (2 * w + 1)))) :
    loadN 2 (over m b (dw x) (2 * N)) a = some (split2 (tw w).2) := by
  rw [loadN_out 2 (2 * (2 * w + 1)) h.holds (by omega) h.apart ha, dw_eq_split (flat tw) (2 * w + 1), flat_im]

theorem Table.pair (h : Table m b t tw N L) {a : BitVec 64} (w : Nat) (hw : w < L)
    (ha : a = t + BitVec.ofNat 64 (4 * (2 * (2 * w)))) :
    loadN 4 (over m b (dw x) (2 * N)) a = some fun l => dw (flat tw) (2 * (2 * w) + l.val) :=
  loadN_out 4 (2 * (2 * w)) h.holds (by omega) h.apart ha

theorem Table.quad (h : Table m b t tw N L) {a : BitVec 64} (w : Nat) (hw : w + 1 < L)
    (ha : a = t + BitVec.ofNat 64 (4 * (2 * (2 * w)))) :
    loadN 8 (over m b (dw x) (2 * N)) a = some (ofQ fun q => flat tw (2 * w + q.val)) := by
  rw [loadN_out 8 (2 * (2 * w)) h.holds (by omega) h.apart ha]
  exact congrArg some (dw_eq_ofQ (flat tw) (2 * w))
end

theorem addr8_8 (b : BitVec 64) (i : Nat) :
    b + BitVec.ofNat 64 i * 8 + 8 = b + BitVec.ofNat 64 (4 * (2 * (i + 1))) := by
  rw [show 4 * (2 * (i + 1)) = i * 8 + 8 by ring, BitVec.ofNat_add, BitVec.ofNat_mul, ← BitVec.add_assoc]
  rfl

theorem addr8_16 (b : BitVec 64) (i : Nat) :
    b + BitVec.ofNat 64 i * 8 + 16 = b + BitVec.ofNat 64 (4 * (2 * (i + 2))) := by
  rw [show 4 * (2 * (i + 2)) = i * 8 + 16 by ring, BitVec.ofNat_add, BitVec.ofNat_mul, ← BitVec.add_assoc]
  rfl

theorem addr8_48 (b : BitVec 64) (i : Nat) :
    b + BitVec.ofNat 64 i * 8 + 48 = b + BitVec.ofNat 64 (4 * (2 * (i + 6))) := by
  rw [show 4 * (2 * (i + 6)) = i * 8 + 48 by ring, BitVec.ofNat_add, BitVec.ofNat_mul, ← BitVec.add_assoc]
  rfl

theorem shufpd_ofQ (n : Nat) (f g : Fin 4 → BitVec 64) : shufpd n (ofQ f) (ofQ g) = ofQ fun k =>
    (if k.val % 2 = 0 then g else f) ⟨2 * (k.val / 2) + n / 2 ^ k.val % 2, by omega⟩ := by
  unfold shufpd
  congr 1
  funext k
  split <;> rw [qw_ofQ]

/-! ### Butterflies -/

theorem upd_at {R : Type} (f : Nat → R) (i : Nat) (x : R) : upd f i x i = x := by simp [upd]
theorem upd_ne {R : Type} (f : Nat → R) {i j : Nat} (x : R) (h : j ≠ i) : upd f i x j = f j := by simp [upd, h]

abbrev Bfly := BitVec 64 → BitVec 64 → BitVec 64 → BitVec 64 → BitVec 64 → BitVec 64 →
  BitVec 64 × BitVec 64 × BitVec 64 × BitVec 64

theorem updN_in {c : Nat} {x : Nat → BitVec 64} {j i : Nat} {f : Nat → BitVec 64} (h1 : j ≤ i) (h2 : i < j + c) :
    updN c x j f i = f (i - j) := by rw [updN, if_pos ⟨h1, h2⟩]
theorem updN_out {c : Nat} {x : Nat → BitVec 64} {j i : Nat} {f : Nat → BitVec 64} (h : i < j ∨ j + c ≤ i) :
    updN c x j f i = x i := by rw [updN, if_neg (by omega)]

/-- Close a goal about one place of an array. -/
macro "place" : tactic =>
  `(tactic| (simp (disch := omega) only [bf8, bf, upd_at, upd_ne, updN_in, updN_out, Nat.add_zero, Nat.add_assoc, Nat.reduceAdd,
      Nat.add_sub_cancel_left, Nat.sub_self]
             try simp only [Nat.add_sub_add_left, Nat.reduceSub, Nat.reduceAdd, Nat.add_zero, Nat.add_sub_cancel_left, Nat.add_assoc]))

/-- Four butterflies at once. -/
theorem bf8_eq (B : Bfly) (x : Nat → BitVec 64) {j t : Nat} (ht : 8 ≤ t) (w : BitVec 64 × BitVec 64) :
    bf8 B x j t w =
      updN 4 (updN 4 (updN 4 (updN 4 x
        j fun q => (B (x (j + q)) (x (j + 4 + q)) (x (j + t + q)) (x (j + t + 4 + q)) w.1 w.2).1)
        (j + 4) fun q => (B (x (j + q)) (x (j + 4 + q)) (x (j + t + q)) (x (j + t + 4 + q)) w.1 w.2).2.1)
        (j + t) fun q => (B (x (j + q)) (x (j + 4 + q)) (x (j + t + q)) (x (j + t + 4 + q)) w.1 w.2).2.2.1)
        (j + t + 4) fun q => (B (x (j + q)) (x (j + 4 + q)) (x (j + t + q)) (x (j + t + 4 + q)) w.1 w.2).2.2.2 := by
  funext i
  by_cases h1 : j ≤ i ∧ i < j + 4
  · obtain ⟨k, rfl⟩ := Nat.exists_eq_add_of_le h1.1
    have hk : k < 4 := by omega
    interval_cases k <;> place
  by_cases h2 : j + 4 ≤ i ∧ i < j + 4 + 4
  · obtain ⟨k, rfl⟩ := Nat.exists_eq_add_of_le h2.1
    have hk : k < 4 := by omega
    interval_cases k <;> place
  by_cases h3 : j + t ≤ i ∧ i < j + t + 4
  · obtain ⟨k, rfl⟩ := Nat.exists_eq_add_of_le h3.1
    have hk : k < 4 := by omega
    interval_cases k <;> place
  by_cases h4 : j + t + 4 ≤ i ∧ i < j + t + 4 + 4
  · obtain ⟨k, rfl⟩ := Nat.exists_eq_add_of_le h4.1
    have hk : k < 4 := by omega
    interval_cases k <;> place
  · place

/-- Two butterflies at once, at distance two. -/
theorem bf2_eq (B : Bfly) (x : Nat → BitVec 64) (j : Nat) (w : BitVec 64 × BitVec 64) :
    bf B (bf B x j (j + 4) (j + 2) (j + 6) w) (j + 1) (j + 5) (j + 3) (j + 7) w =
      updN 2 (updN 2 (updN 2 (updN 2 x
        j fun q => (B (x (j + q)) (x (j + 4 + q)) (x (j + 2 + q)) (x (j + 6 + q)) w.1 w.2).1)
        (j + 2) fun q => (B (x (j + q)) (x (j + 4 + q)) (x (j + 2 + q)) (x (j + 6 + q)) w.1 w.2).2.2.1)
        (j + 4) fun q => (B (x (j + q)) (x (j + 4 + q)) (x (j + 2 + q)) (x (j + 6 + q)) w.1 w.2).2.1)
        (j + 6) fun q => (B (x (j + q)) (x (j + 4 + q)) (x (j + 2 + q)) (x (j + 6 + q)) w.1 w.2).2.2.2 := by
  funext i
  by_cases h1 : j ≤ i ∧ i < j + 8
  · obtain ⟨k, rfl⟩ := Nat.exists_eq_add_of_le h1.1
    have hk : k < 8 := by omega
    interval_cases k <;> place
  · place

/-- Two butterflies at once, of neighbours. -/
theorem bf1_eq (B : Bfly) (x : Nat → BitVec 64) (j : Nat) (w w' : BitVec 64 × BitVec 64) :
    bf B (bf B x j (j + 4) (j + 1) (j + 5) w) (j + 2) (j + 6) (j + 3) (j + 7) w' =
      updN 4 (updN 4 x
        j fun q => if q = 0 then (B (x j) (x (j + 4)) (x (j + 1)) (x (j + 5)) w.1 w.2).1
          else if q = 1 then (B (x j) (x (j + 4)) (x (j + 1)) (x (j + 5)) w.1 w.2).2.2.1
          else if q = 2 then (B (x (j + 2)) (x (j + 6)) (x (j + 3)) (x (j + 7)) w'.1 w'.2).1
          else (B (x (j + 2)) (x (j + 6)) (x (j + 3)) (x (j + 7)) w'.1 w'.2).2.2.1)
        (j + 4) fun q => if q = 0 then (B (x j) (x (j + 4)) (x (j + 1)) (x (j + 5)) w.1 w.2).2.1
          else if q = 1 then (B (x j) (x (j + 4)) (x (j + 1)) (x (j + 5)) w.1 w.2).2.2.2
          else if q = 2 then (B (x (j + 2)) (x (j + 6)) (x (j + 3)) (x (j + 7)) w'.1 w'.2).2.1
          else (B (x (j + 2)) (x (j + 6)) (x (j + 3)) (x (j + 7)) w'.1 w'.2).2.2.2 := by
  funext i
  by_cases h1 : j ≤ i ∧ i < j + 8
  · obtain ⟨k, rfl⟩ := Nat.exists_eq_add_of_le h1.1
    have hk : k < 8 := by omega
    interval_cases k <;> place <;> simp
  · place

end Asm
end Tfhe
