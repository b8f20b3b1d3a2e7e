import Verif.Spec.Lwe
import Verif.Spec.Poly
import Verif.Lemma.Word
import Mathlib.Data.Finset.Lattice.Fold

/-!
# Sizes of ring elements, gadgets, and what it means to be a gadget encryption

Vocabulary for noise statements, over any commutative ring, so that the same statements serve LWE
(`BitVec w`) and GLWE (`Poly N (BitVec w)`).
-/
namespace Tfhe

/-- A size on a ring: subadditive, and submultiplicative up to a constant. -/
structure RNorm (R : Type) [CommRing R] where
  f : R → ℕ
  c : ℕ
  zero : f 0 = 0
  neg : ∀ a, f (-a) = f a
  add_le : ∀ a b, f (a + b) ≤ f a + f b
  mul_le : ∀ a b, f (a * b) ≤ c * (f a * f b)

namespace RNorm
variable {R : Type} [CommRing R] (ν : RNorm R)

theorem sum_le {ι : Type*} (s : Finset ι) (g : ι → R) : ν.f (∑ i ∈ s, g i) ≤ ∑ i ∈ s, ν.f (g i) := by
  classical
  induction s using Finset.induction_on with
  | empty => simp [ν.zero]
  | insert a s ha ih =>
    rw [Finset.sum_insert ha, Finset.sum_insert ha]
    exact (ν.add_le _ _).trans (by omega)

theorem sub_le (a b : R) : ν.f (a - b) ≤ ν.f a + ν.f b := by
  rw [sub_eq_add_neg, ← ν.neg b]; exact ν.add_le _ _

theorem sum_le_card {ι : Type*} (s : Finset ι) (g : ι → R) (B : ℕ) (h : ∀ i ∈ s, ν.f (g i) ≤ B) :
    ν.f (∑ i ∈ s, g i) ≤ s.card * B := by
  refine (ν.sum_le s g).trans ?_
  rw [← smul_eq_mul]
  exact Finset.sum_le_card_nsmul s _ B h

/-- The size of a phase: components bounded by `B`, products with a key element grow by at most `S`. -/
theorem phase_le {k : ℕ} (s : Fin k → R) (c : Fin (k + 1) → R) (B S : ℕ) (hB : ∀ i, ν.f (c i) ≤ B)
    (hS : ∀ i x, ν.f (x * s i) ≤ S * ν.f x) : ν.f (phase s c) ≤ B * (1 + k * S) := by
  unfold phase
  refine (ν.add_le _ _).trans ?_
  have h1 := ν.sum_le_card Finset.univ (fun i => c i.succ * s i) (S * B)
    (fun i _ => (hS i _).trans (Nat.mul_le_mul_left _ (hB _)))
  rw [Finset.card_fin] at h1
  have h2 : B * (1 + k * S) = B + k * (S * B) := by ring
  rw [h2]
  exact Nat.add_le_add (hB 0) h1
end RNorm

/-- Words: distance from zero on the circle. -/
def wordNorm (w : ℕ) : RNorm (BitVec w) where
  f := wabs
  c := 1
  zero := wabs_zero
  neg := wabs_neg
  add_le := wabs_add_le
  mul_le a b := by rw [one_mul]; exact wabs_mul_le a b

section
variable {N w : ℕ}

/-- Largest coefficient of a polynomial. -/
def pabs (p : Poly N (BitVec w)) : ℕ := Finset.univ.sup fun i => wabs (p i)

theorem wabs_le_pabs (p : Poly N (BitVec w)) (i : Fin N) : wabs (p i) ≤ pabs p :=
  Finset.le_sup (f := fun i => wabs (p i)) (Finset.mem_univ i)

theorem pabs_le_iff (p : Poly N (BitVec w)) (B : ℕ) : pabs p ≤ B ↔ ∀ i, wabs (p i) ≤ B := by
  simp [pabs]

theorem wabs_at_le [NeZero N] (p : Poly N (BitVec w)) (z : ℤ) : wabs (Poly.at' p z) ≤ pabs p := by
  unfold Poly.at'
  split
  · exact wabs_le_pabs _ _
  · rw [wabs_neg]; exact wabs_le_pabs _ _

theorem pabs_add_le (p q : Poly N (BitVec w)) : pabs (p + q) ≤ pabs p + pabs q := by
  rw [pabs_le_iff]; intro i
  exact (wabs_add_le _ _).trans (Nat.add_le_add (wabs_le_pabs p i) (wabs_le_pabs q i))

theorem pabs_mul_le [NeZero N] (p q : Poly N (BitVec w)) : pabs (p * q) ≤ N * (pabs p * pabs q) := by
  rw [pabs_le_iff]; intro i
  have e := Poly.at_coe (p * q) i
  rw [Poly.at_mul] at e
  refine (congrArg wabs e).symm.le.trans ((wabs_sum_le _ _).trans ?_)
  have := Finset.sum_le_card_nsmul (Finset.range N)
    (fun j => wabs (Poly.at' p (j : ℤ) * Poly.at' q ((i : ℤ) - (j : ℤ)))) (pabs p * pabs q)
    (fun j _ => (wabs_mul_le _ _).trans (Nat.mul_le_mul (wabs_at_le _ _) (wabs_at_le _ _)))
  simpa using this

/-- Polynomials: the largest coefficient; a product of polynomials can grow by a factor `N`. -/
def polyNorm (N w : ℕ) [NeZero N] : RNorm (Poly N (BitVec w)) where
  f := pabs
  c := N
  zero := by
    have : pabs (0 : Poly N (BitVec w)) ≤ 0 := by
      rw [pabs_le_iff]; intro i; rw [Poly.zero_apply, wabs_zero]
    omega
  neg p := by
    have h : ∀ q : Poly N (BitVec w), pabs (-q) ≤ pabs q := by
      intro q; rw [pabs_le_iff]; intro i
      rw [Poly.neg_apply, wabs_neg]; exact wabs_le_pabs q i
    refine le_antisymm (h p) ?_
    have := h (-p); rwa [neg_neg] at this
  add_le := pabs_add_le
  mul_le := pabs_mul_le

/-- Multiplying by a monomial does not change the size. -/
theorem pabs_mono_mul [NeZero N] (d : ℤ) (p : Poly N (BitVec w)) :
    pabs (Poly.mono N (BitVec w) d * p) = pabs p := by
  have h : ∀ (d : ℤ) (q : Poly N (BitVec w)), pabs (Poly.mono N (BitVec w) d * q) ≤ pabs q := by
    intro d q; rw [pabs_le_iff]; intro i
    have e := Poly.at_coe (Poly.mono N (BitVec w) d * q) i
    rw [Poly.at_mono_mul] at e
    exact (congrArg wabs e).symm.le.trans (wabs_at_le _ _)
  refine le_antisymm (h d p) ?_
  have := h (-d) (Poly.mono N (BitVec w) d * p)
  rwa [← mul_assoc, Poly.mono_neg_mul, one_mul] at this
end

/-- A gadget: `dec a j` are the digits of `a` and `g j` their weights, `j < level`. -/
structure Gadget (R : Type) where
  level : ℕ
  dec : R → ℕ → R
  g : ℕ → R

/-- What decomposition loses: recomposed value minus the value. -/
def Gadget.eps {R : Type} [CommRing R] (G : Gadget R) (a : R) : R :=
  ∑ j ∈ Finset.range G.level, G.dec a j * G.g j - a

section
variable {R : Type} [CommRing R] {k : ℕ}

/-- `lev` is a leveled encryption of `m` under `s`, with noise `e j` at level `j`. -/
def IsLev (G : Gadget R) (s : Fin k → R) (m : R) (lev : ℕ → Fin (k + 1) → R) (e : ℕ → R) : Prop :=
  ∀ j, j < G.level → phase s (lev j) = m * G.g j + e j

/-- `ct` is a (G)GSW encryption of `m` under `s`: row 0 encrypts `m`, row `i+1` encrypts `m * s_i`. -/
def IsGSW (G : Gadget R) (s : Fin k → R) (m : R) (ct : Fin (k + 1) → ℕ → Fin (k + 1) → R)
    (e : Fin (k + 1) → ℕ → R) : Prop :=
  IsLev G s m (ct 0) (e 0) ∧ ∀ i : Fin k, IsLev G s (m * s i) (ct i.succ) (e i.succ)
end

end Tfhe
