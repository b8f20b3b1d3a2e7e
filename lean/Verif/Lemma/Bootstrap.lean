import Verif.Model.Bootstrap
import Verif.Spec.Interleave
import Verif.Lemma.Product
import Verif.Props.C13
import Verif.Props.C16

/-!
# Lemmas for blind rotation
-/
namespace Tfhe
open Poly

/-- A key bit as a word. -/
def kbit (w : ℕ) (b : Bool) : BitVec w := if b then 1 else 0

/-- At most one bit of the block `j0, …, j0 + bs - 1` is set. -/
def AtMostOne (key : ℕ → Bool) (j0 bs : ℕ) : Prop :=
  ∀ j j', j < bs → j' < bs → key (j0 + j) = true → key (j0 + j') = true → j = j'

section
variable {w N : ℕ} [NeZero N]

theorem pabs_kbit_mul (b : Bool) (x : Poly N (BitVec w)) : pabs (C N (kbit w b) * x) ≤ 1 * pabs x := by
  cases b
  · have : C N (kbit w false) * x = 0 := by
      show C N (0 : BitVec w) * x = 0
      rw [C_zero, zero_mul]
    rw [this]
    have := (polyNorm N w).zero
    show (polyNorm N w).f 0 ≤ _
    omega
  · show pabs (C N (1 : BitVec w) * x) ≤ _
    rw [C_one, one_mul]; omega

theorem pabs_monoSubOne_mul (d : ℤ) (x : Poly N (BitVec w)) : pabs (monoSubOne N w d * x) ≤ 2 * pabs x := by
  unfold monoSubOne
  rw [sub_mul, one_mul]
  have := (polyNorm N w).sub_le (mono N (BitVec w) d * x) x
  have h : (polyNorm N w).f (mono N (BitVec w) d * x) = pabs x := pabs_mono_mul d x
  rw [h] at this
  exact this.trans (by show pabs x + pabs x ≤ _; omega)

/-- The rotation a block performs. -/
theorem block_factor (a : ℕ → ℕ) (key : ℕ → Bool) (j0 bs : ℕ) (h : AtMostOne key j0 bs) :
    1 + ∑ j ∈ Finset.range bs, monoSubOne N w (-(a (j0 + j) : ℤ)) * C N (kbit w (key (j0 + j)))
      = mono N (BitVec w) (-((∑ j ∈ Finset.range bs, if key (j0 + j) then a (j0 + j) else 0 : ℕ) : ℤ)) := by
  by_cases hex : ∃ j < bs, key (j0 + j) = true
  · obtain ⟨j, hj, hk⟩ := hex
    have hother : ∀ i ∈ Finset.range bs, i ≠ j → key (j0 + i) = false := by
      intro i hi hne
      by_contra hc
      exact hne (h i j (Finset.mem_range.1 hi) hj (by simpa using hc) hk)
    rw [Finset.sum_eq_single j, Finset.sum_eq_single j]
    · rw [hk]
      show 1 + monoSubOne N w _ * C N (1 : BitVec w) = _
      rw [C_one, mul_one, if_pos rfl]
      unfold monoSubOne
      ring
    · intro i hi hne; rw [hother i hi hne]; rfl
    · intro hn; exact absurd (Finset.mem_range.2 hj) hn
    · intro i hi hne; rw [hother i hi hne]
      show _ * C N (0 : BitVec w) = 0
      rw [C_zero, mul_zero]
    · intro hn; exact absurd (Finset.mem_range.2 hj) hn
  · have hall : ∀ i ∈ Finset.range bs, key (j0 + i) = false := by
      intro i hi
      by_contra hc
      exact hex ⟨i, Finset.mem_range.1 hi, by simpa using hc⟩
    rw [Finset.sum_eq_zero, Finset.sum_eq_zero]
    · simp
    · intro i hi; rw [hall i hi]; rfl
    · intro i hi; rw [hall i hi]
      show _ * C N (0 : BitVec w) = 0
      rw [C_zero, mul_zero]

/-- One block, on phases: rotation plus bounded noise. -/
theorem block_phase (a : ℕ → ℕ) (key : ℕ → Bool) (j0 bs : ℕ) (h : AtMostOne key j0 bs)
    (Φ : Poly N (BitVec w)) (ν : ℕ → Poly N (BitVec w)) (ε : Poly N (BitVec w)) (X E : ℕ)
    (hν : ∀ j, j < bs → pabs (ν j) ≤ X) (hε : pabs ε ≤ E) :
    ∃ r, Φ + ∑ j ∈ Finset.range bs, monoSubOne N w (-(a (j0 + j) : ℤ)) * (C N (kbit w (key (j0 + j))) * Φ + ν j) + ε
      = mono N (BitVec w) (-((∑ j ∈ Finset.range bs, if key (j0 + j) then a (j0 + j) else 0 : ℕ) : ℤ)) * Φ + r
      ∧ pabs r ≤ bs * (2 * X) + E := by
  refine ⟨∑ j ∈ Finset.range bs, monoSubOne N w (-(a (j0 + j) : ℤ)) * ν j + ε, ?_, ?_⟩
  · rw [← block_factor a key j0 bs h, add_mul, one_mul, Finset.sum_mul]
    simp only [mul_add, Finset.sum_add_distrib, ← mul_assoc]
    ring
  · refine (pabs_add_le _ _).trans (Nat.add_le_add ?_ hε)
    have := (polyNorm N w).sum_le_card (Finset.range bs) (fun j => monoSubOne N w (-(a (j0 + j) : ℤ)) * ν j) (2 * X)
      (fun j hj => (pabs_monoSubOne_mul _ _).trans (Nat.mul_le_mul_left _ (hν j (Finset.mem_range.1 hj))))
    rwa [Finset.card_range] at this

/-- Composition of rotations with noise. -/
theorem rotate_step (Φ Φ' lut r : Poly N (BitVec w)) (A R : ℤ) (B X : ℕ)
    (h1 : pabs (Φ - mono N (BitVec w) (-R) * lut) ≤ B) (h2 : Φ' = mono N (BitVec w) (-A) * Φ + r)
    (h3 : pabs r ≤ X) : pabs (Φ' - mono N (BitVec w) (-(R + A)) * lut) ≤ B + X := by
  have e : Φ' - mono N (BitVec w) (-(R + A)) * lut
      = mono N (BitVec w) (-A) * (Φ - mono N (BitVec w) (-R) * lut) + r := by
    rw [h2, show -(R + A) = -A + -R by ring, mono_add]; ring
  rw [e]
  refine (pabs_add_le _ _).trans (Nat.add_le_add ?_ h3)
  rw [pabs_mono_mul]; exact h1
end

section
variable {R : Type} [CommRing R] {k : ℕ}

/-- The accumulation over a block: the first element overwrites, the others add. -/
theorem foldl_block (bs j0 : ℕ) (hbs : 0 < bs) (d : ℕ → R) (c : ℕ → Fin (k + 1) → R) :
    (List.range' (j0 + 1) (bs - 1)).foldl (fun fa j => ctMulAdd fa (d j) (c j)) (ctMul (d j0) (c j0))
      = fun t => ∑ j ∈ Finset.range bs, d (j0 + j) * c (j0 + j) t := by
  obtain ⟨m, rfl⟩ : ∃ m, bs = m + 1 := ⟨bs - 1, by omega⟩
  rw [foldl_ctMulAdd]; funext t
  rw [Nat.add_sub_cancel, List.range'_eq_map_range, List.map_map, sum_map_range, Finset.sum_range_succ',
    add_comm, ctMul]
  simp [add_comm, add_left_comm]

/-- With zero masks only row 0 of the GGSW matters. -/
theorem gadgetProd_eq_extProd (G : Gadget R) (hL : 0 < G.level) (h0 : ∀ j, j < G.level → G.dec 0 j = 0)
    (gsw : Fin (k + 1) → ℕ → Fin (k + 1) → R) (c : Fin (k + 1) → R) (hc : ∀ i : Fin k, c i.succ = 0) :
    gadgetProd G.level (gsw 0) (G.dec (c 0)) = extProd G.level gsw (fun t => G.dec (c t)) := by
  rw [gadgetProd_eq _ hL, extProd_eq _ hL]
  funext t
  rw [Fin.sum_univ_succ, Finset.sum_eq_zero (s := (Finset.univ : Finset (Fin k))), add_zero]
  intro i _
  refine Finset.sum_eq_zero fun j hj => ?_
  rw [hc i, h0 j (Finset.mem_range.1 hj), zero_mul]
end

section
variable {w : ℕ}

theorem decomposeScalar_zero (g : GadgetParams w) (j : ℕ) : (decomposeScalar g 0).getD j 0 = 0 := by
  have hd : dcmpDigit g 0#w = 0#w := by simp [dcmpDigit]
  have hn : dcmpNext g 0#w = 0#w := by simp [dcmpNext]
  have key : ∀ n acc, (∀ d ∈ acc, d = 0#w) → ∀ d ∈ dcmpLoop g n 0#w acc, d = 0#w := by
    intro n
    induction n with
    | zero => intro acc h d hm; rw [dcmpLoop, hd] at hm; rcases List.mem_cons.1 hm with h1 | h1; exacts [h1, h d h1]
    | succ n ih =>
      intro acc h d hm
      rw [dcmpLoop, hd, hn] at hm
      refine ih _ ?_ d hm
      intro d hm
      rcases List.mem_cons.1 hm with h1 | h1; exacts [h1, h d h1]
  have hdr : divRoundBits (0 : BitVec w) g.logLastBaseQ = 0#w := by simp [divRoundBits]
  have hmem : ∀ d ∈ decomposeScalar g 0, d = 0#w := by
    unfold decomposeScalar
    rw [hdr]; exact key _ [] (by simp)
  rcases Nat.lt_or_ge j (decomposeScalar g 0).length with hj | hj
  · rw [List.getD_eq_getElem _ _ hj]
    exact hmem _ (List.getElem_mem hj)
  · rw [List.getD_eq_default _ _ hj]

theorem polyGadget_zero (N : ℕ) [NeZero N] (g : GadgetParams w) (j : ℕ) : (polyGadget N g).dec 0 j = 0 := by
  funext i
  exact decomposeScalar_zero g j
end

end Tfhe
