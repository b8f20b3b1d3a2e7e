import Mathlib.Algebra.BigOperators.Group.Finset.Basic
import Mathlib.Algebra.BigOperators.Fin
import Mathlib.Algebra.BigOperators.Ring.Finset
import Mathlib.Algebra.Module.Pi
import Mathlib.RingTheory.Coprime.Basic
import Mathlib.Algebra.BigOperators.Pi
import Mathlib.Algebra.BigOperators.Intervals
import Mathlib.Tactic.Ring
import Mathlib.Tactic.Linarith
import Mathlib.Tactic.Abel

/-!
# The ring `R[X]/(X^N+1)` of negacyclic polynomials

`Poly N R` is the type of coefficient vectors.  The product is the negacyclic convolution;
`Spec/PolyQuotient.lean` proves that `Poly N R` is isomorphic, as a ring, to Mathlib's
`AdjoinRoot (X^N + 1)`, so the definition below means what it should.
-/
namespace Tfhe

/-- Polynomials over `R` modulo `X^N + 1`, by their `N` coefficients. -/
def Poly (N : ℕ) (R : Type*) := Fin N → R

namespace Poly
variable {N : ℕ} {R : Type*}

instance [DecidableEq R] : DecidableEq (Poly N R) := inferInstanceAs (DecidableEq (Fin N → R))
instance [AddCommGroup R] : AddCommGroup (Poly N R) := inferInstanceAs (AddCommGroup (Fin N → R))

@[ext] theorem ext' {p q : Poly N R} (h : ∀ i, p i = q i) : p = q := funext h

section
variable [AddCommGroup R]
@[simp] theorem add_apply (p q : Poly N R) (i : Fin N) : (p + q) i = p i + q i := rfl
@[simp] theorem sub_apply (p q : Poly N R) (i : Fin N) : (p - q) i = p i - q i := rfl
@[simp] theorem neg_apply (p : Poly N R) (i : Fin N) : (-p) i = -p i := rfl
@[simp] theorem zero_apply (i : Fin N) : (0 : Poly N R) i = 0 := rfl

theorem sum_apply {ι : Type*} (s : Finset ι) (f : ι → Poly N R) (i : Fin N) :
    (∑ j ∈ s, f j) i = ∑ j ∈ s, f j i :=
  Finset.sum_apply (M := fun _ : Fin N => R) i s f
end

variable [NeZero N]

/-- Index of an integer exponent: `z mod N` as an element of `Fin N`. -/
def idx (N : ℕ) [NeZero N] (z : ℤ) : Fin N :=
  ⟨(z % N).toNat, by
    have h1 : (0:ℤ) < N := by exact_mod_cast NeZero.pos N
    have := Int.emod_lt_of_pos z h1
    have := Int.emod_nonneg z (b := N) (by omega)
    omega⟩

/-- Coefficient at any integer exponent, using `X^N = -1`:
`at p (z + N) = - at p z` and `at p i = p i` for `0 ≤ i < N`. -/
def at' [Neg R] (p : Poly N R) (z : ℤ) : R :=
  if (z / N) % 2 = 0 then p (idx N z) else -p (idx N z)

section
variable [AddCommGroup R]

theorem at_coe (p : Poly N R) (i : Fin N) : at' p (i : ℤ) = p i := by
  have hi : (i : ℤ) < N := by exact_mod_cast i.2
  have h0 : (0:ℤ) ≤ (i : ℕ) := Int.natCast_nonneg _
  unfold at'
  rw [Int.ediv_eq_zero_of_lt h0 hi]
  simp only [Int.zero_emod, if_true]
  congr 1
  apply Fin.ext
  simp [idx, Int.emod_eq_of_lt h0 hi]

theorem at_natCast (p : Poly N R) (i : ℕ) (h : i < N) : at' p (i : ℤ) = p ⟨i, h⟩ := at_coe p ⟨i, h⟩

theorem at_add_N (p : Poly N R) (z : ℤ) : at' p (z + N) = -at' p z := by
  have h1 : (N : ℤ) ≠ 0 := by exact_mod_cast NeZero.ne N
  have hidx : idx N (z + N) = idx N z := by apply Fin.ext; simp [idx]
  unfold at'
  rw [hidx, Int.add_ediv_of_dvd_right dvd_rfl, Int.ediv_self h1]
  rcases Int.emod_two_eq_zero_or_one (z / N) with h | h
  · rw [if_neg (by omega), if_pos h]
  · rw [if_pos (by omega), if_neg (by omega), neg_neg]

theorem at_sub_N (p : Poly N R) (z : ℤ) : at' p (z - N) = -at' p z := by
  have := at_add_N p (z - N)
  rw [sub_add_cancel] at this
  rw [this, neg_neg]

theorem at_add_two_N_mul (p : Poly N R) (z k : ℤ) : at' p (z + 2 * N * k) = at' p z := by
  induction k using Int.induction_on with
  | zero => simp
  | succ i ih =>
    rw [show z + 2 * N * ((i : ℤ) + 1) = z + 2 * N * i + N + N by ring, at_add_N, at_add_N, neg_neg, ih]
  | pred i ih =>
    rw [show z + 2 * N * (-(i : ℤ) - 1) = z + 2 * N * (-i) - N - N by ring, at_sub_N, at_sub_N, neg_neg,
      ih]

theorem at_congr (p : Poly N R) {z z' : ℤ} (h : z % (2 * N) = z' % (2 * N)) : at' p z = at' p z' := by
  rw [← Int.emod_add_mul_ediv z (2 * N), ← Int.emod_add_mul_ediv z' (2 * N), at_add_two_N_mul,
    at_add_two_N_mul, h]

/-- A function on the integers with `F (z + N) = - F z` is the extension of a polynomial. -/
theorem at_mk (F : ℤ → R) (hF : ∀ z, F (z + N) = -F z) (z : ℤ) :
    at' (fun i : Fin N => F (i : ℕ)) z = F z := by
  have h1 : (0:ℤ) < N := by exact_mod_cast NeZero.pos N
  have h2 : ∀ k z : ℤ, F (z + N * k) = if k % 2 = 0 then F z else -F z := by
    intro k
    induction k using Int.induction_on with
    | zero => simp
    | succ i ih =>
      intro z
      rw [show z + N * ((i : ℤ) + 1) = z + N * i + N by ring, hF, ih]
      rcases Int.emod_two_eq_zero_or_one (i : ℤ) with h | h
      · rw [if_pos h, if_neg (by omega)]
      · rw [if_neg (by omega), if_pos (by omega), neg_neg]
    | pred i ih =>
      intro z
      have := hF (z + N * (-(i : ℤ) - 1))
      rw [show z + N * (-(i : ℤ) - 1) + N = z + N * (-i) by ring, ih] at this
      rw [eq_neg_iff_add_eq_zero, add_comm, ← eq_neg_iff_add_eq_zero] at this
      rw [this]
      rcases Int.emod_two_eq_zero_or_one (-(i : ℤ)) with h | h
      · rw [if_pos h, if_neg (by omega)]
      · rw [if_neg (by omega), if_pos (by omega), neg_neg]
  conv_rhs => rw [← Int.emod_add_mul_ediv z N, h2]
  have h3 := Int.emod_nonneg z (b := N) (by omega)
  unfold at'
  simp only [idx, Int.toNat_of_nonneg h3]

theorem at_ext {p q : Poly N R} (h : ∀ z, at' p z = at' q z) : p = q := by
  funext i
  have := h (i : ℕ)
  rwa [at_coe, at_coe] at this

@[simp] theorem at_add (p q : Poly N R) (z : ℤ) : at' (p + q) z = at' p z + at' q z := by
  unfold at'; split
  · rfl
  · simp; abel

@[simp] theorem at_neg (p : Poly N R) (z : ℤ) : at' (-p) z = -at' p z := by
  unfold at'; split <;> rfl

@[simp] theorem at_sub (p q : Poly N R) (z : ℤ) : at' (p - q) z = at' p z - at' q z := by
  rw [sub_eq_add_neg, at_add, at_neg, sub_eq_add_neg]

@[simp] theorem at_zero (z : ℤ) : at' (0 : Poly N R) z = 0 := by
  unfold at'; split <;> simp

theorem at_sum {ι : Type*} (s : Finset ι) (f : ι → Poly N R) (z : ℤ) :
    at' (∑ j ∈ s, f j) z = ∑ j ∈ s, at' (f j) z := by
  classical
  induction s using Finset.induction_on with
  | empty => simp
  | insert a s ha ih => rw [Finset.sum_insert ha, Finset.sum_insert ha, at_add, ih]
end

/-! ### Sums over one period -/

omit [NeZero N] in
theorem sum_shift {M : Type*} [AddCommGroup M] (G : ℤ → M) (hG : ∀ z, G (z + N) = G z) (z : ℤ) :
    ∑ i ∈ Finset.range N, G (i + z) = ∑ i ∈ Finset.range N, G i := by
  have h1 : ∀ z : ℤ, ∑ i ∈ Finset.range N, G (i + (z + 1)) = ∑ i ∈ Finset.range N, G (i + z) := by
    intro z
    have a := Finset.sum_range_succ (fun i : ℕ => G (i + z)) N
    have b := Finset.sum_range_succ' (fun i : ℕ => G (i + z)) N
    rw [a] at b
    have e : G ((N : ℤ) + z) = G (((0:ℕ) : ℤ) + z) := by
      rw [add_comm, hG]; simp
    rw [e] at b
    have b := add_right_cancel b
    rw [b]
    apply Finset.sum_congr rfl
    intro i _
    congr 1; push_cast; ring
  induction z using Int.induction_on with
  | zero => simp
  | succ i ih => rw [h1, ih]
  | pred i ih => rw [← ih, ← h1 (-(i : ℤ) - 1)]; simp

omit [NeZero N] in
theorem sum_reflect {M : Type*} [AddCommGroup M] (G : ℤ → M) (hG : ∀ z, G (z + N) = G z) (z : ℤ) :
    ∑ i ∈ Finset.range N, G (z - i) = ∑ i ∈ Finset.range N, G i := by
  rw [← sum_shift G hG (z - N + 1), ← Finset.sum_range_reflect]
  apply Finset.sum_congr rfl
  intro i hi
  have := Finset.mem_range.1 hi
  congr 1
  rw [show ((N - 1 - i : ℕ) : ℤ) = (N : ℤ) - 1 - i by omega]
  ring

/-! ### Ring structure -/

section
variable [CommRing R]

/-- Negacyclic convolution: coefficient `k` of `p q` is `Σ_i p_i q_(k-i)` with
`q_(j-N) = -q_j`. -/
def mul (p q : Poly N R) : Poly N R :=
  fun k => ∑ i ∈ Finset.range N, at' p i * at' q ((k : ℕ) - i)

/-- A constant polynomial. -/
def C (N : ℕ) [NeZero N] (c : R) : Poly N R := fun i => if (i : ℕ) = 0 then c else 0

instance : Mul (Poly N R) := ⟨mul⟩
instance : One (Poly N R) := ⟨C N 1⟩

theorem at_mul (p q : Poly N R) (z : ℤ) :
    at' (p * q) z = ∑ i ∈ Finset.range N, at' p i * at' q (z - i) := by
  have := at_mk (N := N) (fun z : ℤ => ∑ i ∈ Finset.range N, at' p i * at' q (z - i)) (by
    intro z
    rw [← Finset.sum_neg_distrib]
    apply Finset.sum_congr rfl
    intro i _
    rw [show z + (N : ℤ) - i = z - i + N by ring, at_add_N]; ring) z
  exact this

theorem at_C (c : R) (z : ℤ) :
    at' (C N c) z = if z % (2 * N) = 0 then c else if z % (2 * N) = N then -c else 0 := by
  have h1 : (0:ℤ) < N := by exact_mod_cast NeZero.pos N
  have e := Int.emod_add_mul_ediv z (2 * N)
  have h3 := Int.emod_nonneg z (b := 2 * N) (by omega)
  have h4 := Int.emod_lt_of_pos z (b := 2 * N) (by omega)
  rw [at_congr (C N c) (show z % (2 * N) = (z % (2 * N)) % (2 * N) by rw [Int.emod_emod_of_dvd _ dvd_rfl])]
  generalize z % (2 * N) = r at *
  by_cases hr : r < N
  · obtain ⟨n, rfl⟩ : ∃ n : ℕ, r = n := ⟨r.toNat, by omega⟩
    rw [at_natCast _ n (by omega)]
    simp only [C]
    by_cases hn : n = 0
    · simp [hn]
    · rw [if_neg hn, if_neg (by omega), if_neg (by omega)]
  · obtain ⟨n, hn⟩ : ∃ n : ℕ, r = n + N := ⟨(r - N).toNat, by omega⟩
    rw [hn, at_add_N, at_natCast _ n (by omega)]
    simp only [C]
    by_cases hn : n = 0
    · rw [if_pos hn, if_neg (by omega), if_pos (by omega)]
    · rw [if_neg hn, if_neg (by omega), if_neg (by omega), neg_zero]

theorem C_mul_at (c : R) (p : Poly N R) (z : ℤ) : at' (C N c * p) z = c * at' p z := by
  have hpos := NeZero.pos N
  rw [at_mul, Finset.sum_eq_single_of_mem 0 (Finset.mem_range.2 hpos)]
  · rw [at_natCast _ 0 hpos]; simp [C]
  · intro i hi hne
    rw [at_natCast _ i (Finset.mem_range.1 hi)]
    simp [C, hne]

theorem mul_comm' (p q : Poly N R) : p * q = q * p := by
  apply at_ext
  intro z
  rw [at_mul, at_mul]
  rw [← sum_reflect (fun i : ℤ => at' q i * at' p (z - i)) (by
    intro i
    rw [show z - (i + N) = z - i - N by ring, at_add_N, at_sub_N]; ring) z]
  apply Finset.sum_congr rfl
  intro i _
  rw [show z - (z - (i : ℤ)) = i by ring, mul_comm]

theorem mul_assoc' (p q r : Poly N R) : p * q * r = p * (q * r) := by
  apply at_ext
  intro z
  rw [at_mul, at_mul]
  simp only [at_mul, Finset.sum_mul, Finset.mul_sum]
  rw [Finset.sum_comm]
  apply Finset.sum_congr rfl
  intro j _
  rw [← sum_shift (fun i : ℤ => at' p j * (at' q i * at' r (z - j - i))) (by
    intro i
    rw [show z - (j : ℤ) - (i + N) = z - j - i - N by ring, at_add_N, at_sub_N]; ring) (-(j : ℤ))]
  apply Finset.sum_congr rfl
  intro i _
  rw [show z - (j : ℤ) - (i + -j) = z - i by ring, show (i : ℤ) + -j = i - j by ring]
  ring

theorem mul_add' (p q r : Poly N R) : p * (q + r) = p * q + p * r := by
  apply at_ext
  intro z
  simp only [at_mul, at_add, mul_add, Finset.sum_add_distrib]

instance : CommRing (Poly N R) where
  __ := (inferInstance : AddCommGroup (Poly N R))
  mul_assoc := mul_assoc'
  mul_comm := mul_comm'
  one_mul p := at_ext fun z => by change at' (C N 1 * p) z = _; rw [C_mul_at, one_mul]
  mul_one p := by
    rw [mul_comm']
    exact at_ext fun z => by change at' (C N 1 * p) z = _; rw [C_mul_at, one_mul]
  left_distrib := mul_add'
  right_distrib p q r := by rw [mul_comm', mul_add', mul_comm' r, mul_comm' r]
  zero_mul p := at_ext fun z => by simp [at_mul]
  mul_zero p := at_ext fun z => by simp [at_mul]

theorem one_def : (1 : Poly N R) = C N 1 := rfl

@[simp] theorem C_one : C N (1 : R) = 1 := rfl

theorem C_apply (c : R) (i : Fin N) : C N c i = if (i : ℕ) = 0 then c else 0 := rfl

theorem C_mul_apply (c : R) (p : Poly N R) (i : Fin N) : (C N c * p) i = c * p i := by
  have := C_mul_at c p (i : ℕ)
  rwa [at_coe, at_coe] at this

@[simp] theorem C_zero : C N (0 : R) = 0 := by funext i; simp [C_apply]

theorem C_add (a b : R) : C N (a + b) = C N a + C N b := by
  funext i; simp only [C_apply, add_apply]; split <;> simp

theorem C_neg (a : R) : C N (-a) = -C N a := by
  funext i; simp only [C_apply, neg_apply]; split <;> simp

theorem C_sub (a b : R) : C N (a - b) = C N a - C N b := by
  rw [sub_eq_add_neg, C_add, C_neg, sub_eq_add_neg]

theorem C_mul (a b : R) : C N (a * b) = C N a * C N b := by
  funext i; rw [C_mul_apply]; simp only [C_apply]; split <;> simp

/-- Constants, as a ring homomorphism. -/
def Chom (N : ℕ) [NeZero N] (R : Type*) [CommRing R] : R →+* Poly N R where
  toFun := C N
  map_one' := rfl
  map_mul' := C_mul
  map_zero' := C_zero
  map_add' := C_add

/-! ### Monomials -/

/-- The monomial `X^d` for an integer exponent: the polynomial `1` moved by `d` places, with
`X^N = -1`. -/
def mono (N : ℕ) [NeZero N] (R : Type*) [CommRing R] (d : ℤ) : Poly N R :=
  fun i => at' (1 : Poly N R) ((i : ℕ) - d)

theorem at_mono (d z : ℤ) : at' (mono N R d) z = at' (1 : Poly N R) (z - d) := by
  have := at_mk (N := N) (fun z : ℤ => at' (1 : Poly N R) (z - d)) (by
    intro z
    rw [show z + (N : ℤ) - d = z - d + N by ring, at_add_N]) z
  exact this

theorem at_mono_mul (d : ℤ) (p : Poly N R) (z : ℤ) : at' (mono N R d * p) z = at' p (z - d) := by
  have h := one_mul p
  have h2 := congrArg (fun q => at' q (z - d)) h
  simp only [at_mul] at h2
  rw [at_mul, ← h2]
  rw [← sum_shift (fun i : ℤ => at' (mono N R d) i * at' p (z - i)) (by
    intro i
    rw [show z - (i + (N : ℤ)) = z - i - N by ring, at_add_N, at_sub_N]; ring) d]
  apply Finset.sum_congr rfl
  intro i _
  rw [at_mono, add_sub_cancel_right, show z - ((i : ℤ) + d) = z - d - i by ring]

@[simp] theorem mono_zero : mono N R 0 = 1 := by
  apply at_ext; intro z; rw [at_mono, sub_zero]

theorem mono_add (a b : ℤ) : mono N R (a + b) = mono N R a * mono N R b := by
  apply at_ext; intro z
  rw [at_mono_mul, at_mono, at_mono]; congr 1; ring

theorem mono_N : mono N R N = -1 := by
  apply at_ext; intro z
  rw [at_mono, at_sub_N, at_neg]

theorem mono_congr {a b : ℤ} (h : a % (2 * N) = b % (2 * N)) : mono N R a = mono N R b := by
  apply at_ext; intro z
  rw [at_mono, at_mono]
  apply at_congr
  rw [Int.sub_emod, h, ← Int.sub_emod]

theorem mono_neg_mul (a : ℤ) : mono N R (-a) * mono N R a = 1 := by
  rw [← mono_add, neg_add_cancel, mono_zero]

theorem mono_nat (n : ℕ) : mono N R n = mono N R 1 ^ n := by
  induction n with
  | zero => simp
  | succ n ih => rw [pow_succ, ← ih, ← mono_add]; push_cast; rfl

theorem mono_one_pow_N : mono N R 1 ^ N = -1 := by rw [← mono_nat, mono_N]

/-- Every polynomial is the sum of its coefficients times powers of `X`. -/
theorem eq_sum_mono (p : Poly N R) : p = ∑ i : Fin N, C N (p i) * mono N R (i : ℕ) := by
  apply at_ext; intro z
  have h := congrArg (fun q => at' q z) (mul_one p)
  simp only [at_mul] at h
  rw [at_sum, ← h, ← Fin.sum_univ_eq_sum_range (fun i => at' p i * at' (1 : Poly N R) (z - i))]
  apply Finset.sum_congr rfl
  intro i _
  rw [C_mul_at, at_mono, at_coe]

/-! ### Automorphisms `X ↦ X^d` -/

/-- The substitution `X ↦ X^d`. -/
def subst (d : ℤ) (p : Poly N R) : Poly N R := ∑ i : Fin N, C N (p i) * mono N R (d * (i : ℕ))

theorem subst_C (d : ℤ) (c : R) : subst d (C N c) = C N c := by
  have hpos := NeZero.pos N
  unfold subst
  rw [Finset.sum_eq_single_of_mem (⟨0, hpos⟩ : Fin N) (Finset.mem_univ _)]
  · simp [C_apply]
  · intro i _ hne
    have : (i : ℕ) ≠ 0 := fun h => hne (Fin.ext h)
    simp [C_apply, this]

theorem subst_add (d : ℤ) (p q : Poly N R) : subst d (p + q) = subst d p + subst d q := by
  simp only [subst, add_apply, C_add, add_mul, Finset.sum_add_distrib]

theorem subst_C_mul (d : ℤ) (c : R) (p : Poly N R) : subst d (C N c * p) = C N c * subst d p := by
  simp only [subst, C_mul_apply, C_mul, Finset.mul_sum, mul_assoc]

/-- For odd `d`, `subst d` sends `X^e` to `X^(d e)` for every integer `e`. -/
theorem subst_mono (d : ℤ) (hd : d % 2 = 1) (e : ℤ) : subst d (mono N R e) = mono N R (d * e) := by
  have hpos : (0:ℤ) < N := by exact_mod_cast NeZero.pos N
  -- both sides change sign when `e` moves by `N`
  have hN : mono N R (d * N) = -1 := by
    rw [← mono_N]; apply mono_congr
    obtain ⟨k, hk⟩ : ∃ k, d = 2 * k + 1 := ⟨d / 2, by omega⟩
    rw [hk, show (2 * k + 1) * (N : ℤ) = N + 2 * N * k by ring, Int.add_mul_emod_self_left]
  have hsneg : ∀ p : Poly N R, subst d (-p) = -subst d p := by
    intro p
    rw [show -p = C N (-1) * p by rw [C_neg, C_one, neg_one_mul], subst_C_mul, C_neg, C_one, neg_one_mul]
  have base : ∀ n : ℕ, n < N → subst d (mono N R n) = mono N R (d * n) := by
    intro n hn
    have hm : ∀ i : Fin N, mono N R n i = if (i : ℕ) = n then 1 else 0 := by
      intro i
      change at' (1 : Poly N R) (((i : ℕ) : ℤ) - n) = _
      have hi := i.2
      by_cases h : n ≤ (i : ℕ)
      · rw [show ((i : ℕ) : ℤ) - n = ((i - n : ℕ) : ℤ) by omega, at_natCast _ _ (by omega), one_def, C_apply]
        simp only [Nat.sub_eq_zero_iff_le]
        by_cases h2 : (i : ℕ) = n
        · simp [h2]
        · rw [if_neg (by omega), if_neg h2]
      · rw [show ((i : ℕ) : ℤ) - n = ((i + N - n : ℕ) : ℤ) - N by omega, at_sub_N,
          at_natCast _ _ (by omega), one_def, C_apply, if_neg (by simp; omega), if_neg (by omega), neg_zero]
    unfold subst
    rw [Finset.sum_eq_single_of_mem (⟨n, hn⟩ : Fin N) (Finset.mem_univ _)]
    · rw [hm]; simp
    · intro i _ hne
      have : (i : ℕ) ≠ n := fun h => hne (Fin.ext h)
      rw [hm, if_neg this, C_zero, zero_mul]
  have h2 : ∀ r k : ℤ, mono N R (r + 2 * N * k) = mono N R r := by
    intro r k; apply mono_congr; rw [Int.add_mul_emod_self_left]
  rw [← Int.emod_add_mul_ediv e (2 * N), h2]
  rw [show d * (e % (2 * N) + 2 * N * (e / (2 * N))) = d * (e % (2 * N)) + 2 * N * (d * (e / (2 * N))) by
    ring, h2]
  have h3 := Int.emod_nonneg e (b := 2 * N) (by omega)
  have h4 := Int.emod_lt_of_pos e (b := 2 * N) (by omega)
  generalize e % (2 * N) = r at *
  by_cases hr : r < N
  · obtain ⟨n, rfl⟩ : ∃ n : ℕ, r = n := ⟨r.toNat, by omega⟩
    exact base n (by omega)
  · obtain ⟨n, rfl⟩ : ∃ n : ℕ, r = n + N := ⟨(r - N).toNat, by omega⟩
    rw [mono_add, mono_N, mul_neg_one, hsneg, base n (by omega), mul_add, mono_add, hN, mul_neg_one]

theorem subst_sum {ι : Type*} (d : ℤ) (s : Finset ι) (f : ι → Poly N R) :
    subst d (∑ j ∈ s, f j) = ∑ j ∈ s, subst d (f j) := by
  classical
  induction s using Finset.induction_on with
  | empty => simp [subst]
  | insert a s ha ih => rw [Finset.sum_insert ha, Finset.sum_insert ha, subst_add, ih]

theorem subst_mul (d : ℤ) (hd : d % 2 = 1) (p q : Poly N R) :
    subst d (p * q) = subst d p * subst d q := by
  have key : ∀ (e : ℤ) (q : Poly N R), subst d (mono N R e * q) = mono N R (d * e) * subst d q := by
    intro e q
    conv_lhs => rw [eq_sum_mono q]
    rw [Finset.mul_sum, subst_sum]
    unfold subst
    rw [Finset.mul_sum]
    apply Finset.sum_congr rfl
    intro i _
    have := subst_C_mul d (q i) (mono N R (e + (i : ℕ)))
    rw [subst_mono d hd] at this
    rw [← mul_assoc, mul_comm (mono N R e), mul_assoc, ← mono_add]
    change subst d _ = _
    rw [this, mul_add, mono_add]; ring
  conv_lhs => rw [eq_sum_mono p]
  rw [Finset.sum_mul, subst_sum]
  conv_rhs => rw [subst]
  rw [Finset.sum_mul]
  apply Finset.sum_congr rfl
  intro i _
  rw [mul_assoc, subst_C_mul, key, mul_assoc]

/-- `X ↦ X^d` for odd `d`, as a ring homomorphism. -/
def substHom (N : ℕ) [NeZero N] (R : Type*) [CommRing R] (d : ℤ) (hd : d % 2 = 1) :
    Poly N R →+* Poly N R where
  toFun := subst d
  map_one' := by rw [one_def, subst_C]
  map_mul' := subst_mul d hd
  map_zero' := by simp [subst]
  map_add' := subst_add d

theorem at_subst (d : ℤ) (hd : d % 2 = 1) (hcop : IsCoprime d (2 * N)) (p : Poly N R) (z : ℤ) :
    at' (subst d p) (d * z) = at' p z := by
  -- compare both sides on monomials
  have hm : ∀ e : ℤ, at' (mono N R (d * e)) (d * z) = at' (mono N R e) z := by
    intro e
    rw [at_mono, at_mono, ← mul_sub]
    generalize z - e = t
    have : ∀ t : ℤ, at' (1 : Poly N R) t =
        if t % (2 * N) = 0 then 1 else if t % (2 * N) = N then -1 else 0 := at_C 1
    rw [this, this]
    have e1 : (d * t) % (2 * N) = 0 ↔ t % (2 * N) = 0 := by
      rw [← Int.dvd_iff_emod_eq_zero, ← Int.dvd_iff_emod_eq_zero]
      exact ⟨fun h => hcop.symm.dvd_of_dvd_mul_left h, fun h => Dvd.dvd.mul_left h d⟩
    have e2 : ∀ t : ℤ, t % (2 * N) = N ↔ (t - N) % (2 * N) = 0 := by
      intro t
      have hpos : (0:ℤ) < N := by exact_mod_cast NeZero.pos N
      rw [← Int.emod_emod_of_dvd (t - N) (dvd_refl (2 * (N : ℤ))), Int.sub_emod]
      have h3 := Int.emod_nonneg t (b := 2 * N) (by omega)
      have h4 := Int.emod_lt_of_pos t (b := 2 * N) (by omega)
      rw [Int.emod_eq_of_lt (show (0:ℤ) ≤ N by omega) (show (N:ℤ) < 2 * N by omega)]
      generalize t % (2 * N) = r at *
      constructor
      · intro h; subst h; simp
      · intro h
        rw [Int.emod_emod_of_dvd _ dvd_rfl] at h
        have := Int.dvd_of_emod_eq_zero h
        obtain ⟨k, hk⟩ := this
        have : k = 0 := by
          by_contra hk0
          rcases lt_or_gt_of_ne hk0 with h | h
          · have : k ≤ -1 := by omega
            nlinarith
          · have : 1 ≤ k := by omega
            nlinarith
        subst this; omega
    have e3 : (d * t) % (2 * N) = N ↔ t % (2 * N) = N := by
      rw [e2, e2, ← Int.dvd_iff_emod_eq_zero, ← Int.dvd_iff_emod_eq_zero]
      obtain ⟨k, hk⟩ : ∃ k, d = 2 * k + 1 := ⟨d / 2, by omega⟩
      have : d * t - N = d * (t - N) + 2 * N * k := by rw [hk]; ring
      rw [this, dvd_add_left (Dvd.intro _ rfl)]
      exact ⟨fun h => hcop.symm.dvd_of_dvd_mul_left h, fun h => Dvd.dvd.mul_left h d⟩
    simp only [e1, e3]
  conv_rhs => rw [eq_sum_mono p]
  unfold subst
  rw [at_sum, at_sum]
  apply Finset.sum_congr rfl
  intro i _
  rw [C_mul_at, C_mul_at, hm]

end
end Poly
end Tfhe
