import Verif.Model.Product
import Verif.Lemma.Lwe
import Verif.Lemma.Gadget
import Verif.Props.C01
import Mathlib.Tactic.Ring
import Mathlib.Tactic.LinearCombination

/-! # Sums computed by the product loops, and the two concrete gadgets -/
namespace Tfhe

section
variable {R : Type} [CommRing R] {k : ℕ}

theorem foldl_ctMulAdd (l : List ℕ) (acc : Fin (k + 1) → R) (lev : ℕ → Fin (k + 1) → R) (d : ℕ → R) :
    l.foldl (fun acc j => ctMulAdd acc (d j) (lev j)) acc
      = fun t => acc t + (l.map fun j => d j * lev j t).sum := by
  induction l generalizing acc with
  | nil => simp
  | cons a l ih => rw [List.foldl_cons, ih]; funext t; simp [ctMulAdd, add_assoc]

theorem foldl_ctMulSub (l : List ℕ) (acc : Fin (k + 1) → R) (lev : ℕ → Fin (k + 1) → R) (d : ℕ → R) :
    l.foldl (fun acc j => ctMulSub acc (d j) (lev j)) acc
      = fun t => acc t - (l.map fun j => d j * lev j t).sum := by
  induction l generalizing acc with
  | nil => simp
  | cons a l ih => rw [List.foldl_cons, ih]; funext t; simp [ctMulSub, sub_sub]

theorem sum_map_range (n : ℕ) (f : ℕ → R) : ((List.range n).map f).sum = ∑ j ∈ Finset.range n, f j := by
  rw [Finset.sum_range, ← List.sum_ofFn]
  congr 1
  apply List.ext_getElem <;> simp

theorem gadgetProdAdd_eq (L : ℕ) (acc : Fin (k + 1) → R) (lev : ℕ → Fin (k + 1) → R) (d : ℕ → R) :
    gadgetProdAdd L acc lev d = fun t => acc t + ∑ j ∈ Finset.range L, d j * lev j t := by
  rw [gadgetProdAdd, foldl_ctMulAdd]; funext t; rw [sum_map_range]

theorem gadgetProdSub_eq (L : ℕ) (acc : Fin (k + 1) → R) (lev : ℕ → Fin (k + 1) → R) (d : ℕ → R) :
    gadgetProdSub L acc lev d = fun t => acc t - ∑ j ∈ Finset.range L, d j * lev j t := by
  rw [gadgetProdSub, foldl_ctMulSub]; funext t; rw [sum_map_range]

theorem gadgetProd_eq (L : ℕ) (hL : 0 < L) (lev : ℕ → Fin (k + 1) → R) (d : ℕ → R) :
    gadgetProd L lev d = fun t => ∑ j ∈ Finset.range L, d j * lev j t := by
  obtain ⟨L, rfl⟩ : ∃ m, L = m + 1 := ⟨L - 1, by omega⟩
  rw [gadgetProd, foldl_ctMulAdd]; funext t
  rw [Nat.add_sub_cancel, List.range'_eq_map_range, List.map_map, sum_map_range, Finset.sum_range_succ',
    add_comm, ctMul]
  simp [add_comm]

theorem foldl_gadgetProdAdd (L n : ℕ) (acc : Fin (k + 1) → R) (lev : Fin n → ℕ → Fin (k + 1) → R)
    (d : Fin n → ℕ → R) :
    Fin.foldl n (fun acc i => gadgetProdAdd L acc (lev i) (d i)) acc
      = fun t => acc t + ∑ i, ∑ j ∈ Finset.range L, d i j * lev i j t := by
  induction n generalizing acc with
  | zero => simp
  | succ n ih =>
    rw [Fin.foldl_succ, ih, gadgetProdAdd_eq]; funext t
    rw [Fin.sum_univ_succ, add_assoc]

theorem foldl_gadgetProdSub (L n : ℕ) (acc : Fin (k + 1) → R) (lev : Fin n → ℕ → Fin (k + 1) → R)
    (d : Fin n → ℕ → R) :
    Fin.foldl n (fun acc i => gadgetProdSub L acc (lev i) (d i)) acc
      = fun t => acc t - ∑ i, ∑ j ∈ Finset.range L, d i j * lev i j t := by
  induction n generalizing acc with
  | zero => simp
  | succ n ih =>
    rw [Fin.foldl_succ, ih, gadgetProdSub_eq]; funext t
    rw [Fin.sum_univ_succ, sub_sub]

theorem extProd_eq (L : ℕ) (hL : 0 < L) (ct : Fin (k + 1) → ℕ → Fin (k + 1) → R) (d : Fin (k + 1) → ℕ → R) :
    extProd L ct d = fun t => ∑ i, ∑ j ∈ Finset.range L, d i j * ct i j t := by
  rw [extProd, foldl_gadgetProdAdd L k _ (fun i => ct i.succ) (fun i => d i.succ), gadgetProd_eq L hL]
  funext t; rw [Fin.sum_univ_succ]

theorem keySwitchAcc_eq (L : ℕ) (hL : 0 < L) {n : ℕ} (ksk : Fin (n + 1) → ℕ → Fin (k + 1) → R)
    (d : Fin (n + 1) → ℕ → R) :
    keySwitchAcc L ksk d = fun t => ∑ i, ∑ j ∈ Finset.range L, d i j * ksk i j t := by
  rw [keySwitchAcc, foldl_gadgetProdAdd L n _ (fun i => ksk i.succ) (fun i => d i.succ), gadgetProd_eq L hL]
  funext t; rw [Fin.sum_univ_succ]

theorem extProdAddFFT_eq (L : ℕ) (acc : Fin (k + 1) → R) (ct : Fin (k + 1) → ℕ → Fin (k + 1) → R)
    (d : Fin (k + 1) → ℕ → R) :
    extProdAddFFT L acc ct d = fun t => acc t + ∑ i, ∑ j ∈ Finset.range L, d i j * ct i j t :=
  foldl_gadgetProdAdd L (k + 1) acc ct d

theorem extProdSubFFT_eq (L : ℕ) (acc : Fin (k + 1) → R) (ct : Fin (k + 1) → ℕ → Fin (k + 1) → R)
    (d : Fin (k + 1) → ℕ → R) :
    extProdSubFFT L acc ct d = fun t => acc t - ∑ i, ∑ j ∈ Finset.range L, d i j * ct i j t :=
  foldl_gadgetProdSub L (k + 1) acc ct d

/-- The phase of a combination of ciphertexts. -/
theorem phase_lin {ι : Type} (S : Finset ι) (s : Fin k → R) (d : ι → R) (c : ι → Fin (k + 1) → R) :
    phase s (fun t => ∑ j ∈ S, d j * c j t) = ∑ j ∈ S, d j * phase s (c j) := by
  unfold phase
  simp only [mul_add, Finset.sum_add_distrib, Finset.mul_sum, Finset.sum_mul]
  congr 1
  rw [Finset.sum_comm]
  exact Finset.sum_congr rfl fun _ _ => Finset.sum_congr rfl fun _ _ => by ring

theorem phase_lin2 {n L : ℕ} (s : Fin k → R) (d : Fin n → ℕ → R) (c : Fin n → ℕ → Fin (k + 1) → R) :
    phase s (fun t => ∑ i, ∑ j ∈ Finset.range L, d i j * c i j t)
      = ∑ i, ∑ j ∈ Finset.range L, d i j * phase s (c i j) := by
  have h := phase_lin (Finset.univ : Finset (Fin n)) s (fun _ => 1)
    (fun i t => ∑ j ∈ Finset.range L, d i j * c i j t)
  simp only [one_mul] at h
  rw [h]
  exact Finset.sum_congr rfl fun i _ => phase_lin _ _ _ _

/-- A gadget product of the digits of `a` with a leveled encryption of `m`: the plaintext is `a * m`. -/
theorem sum_dec_lev (G : Gadget R) (s : Fin k → R) (m : R) (lev : ℕ → Fin (k + 1) → R) (e : ℕ → R)
    (h : IsLev G s m lev e) (a : R) :
    ∑ j ∈ Finset.range G.level, G.dec a j * phase s (lev j)
      = m * (a + G.eps a) + ∑ j ∈ Finset.range G.level, G.dec a j * e j := by
  have h1 : ∑ j ∈ Finset.range G.level, G.dec a j * phase s (lev j)
      = ∑ j ∈ Finset.range G.level, (m * (G.dec a j * G.g j) + G.dec a j * e j) := by
    refine Finset.sum_congr rfl fun j hj => ?_
    rw [h j (Finset.mem_range.1 hj)]; ring
  rw [h1, Finset.sum_add_distrib, ← Finset.mul_sum, Gadget.eps, add_sub_cancel]

/-- An external product: the plaintext is `m` times the phase of the ciphertext. -/
theorem sum_dec_gsw (G : Gadget R) (s : Fin k → R) (m : R) (gsw : Fin (k + 1) → ℕ → Fin (k + 1) → R)
    (e : Fin (k + 1) → ℕ → R) (h : IsGSW G s m gsw e) (c : Fin (k + 1) → R) :
    ∑ i, ∑ j ∈ Finset.range G.level, G.dec (c i) j * phase s (gsw i j)
      = m * (phase s c + phase s (fun i => G.eps (c i)))
        + ∑ i, ∑ j ∈ Finset.range G.level, G.dec (c i) j * e i j := by
  rw [Fin.sum_univ_succ, sum_dec_lev G s m _ _ h.1]
  have h2 : ∀ i : Fin k, ∑ j ∈ Finset.range G.level, G.dec (c i.succ) j * phase s (gsw i.succ j)
      = m * (c i.succ * s i) + m * (G.eps (c i.succ) * s i)
        + ∑ j ∈ Finset.range G.level, G.dec (c i.succ) j * e i.succ j := by
    intro i; rw [sum_dec_lev G s _ _ _ (h.2 i)]; ring
  rw [Finset.sum_congr rfl fun i _ => h2 i, Finset.sum_add_distrib, Finset.sum_add_distrib,
    ← Finset.mul_sum, ← Finset.mul_sum, Fin.sum_univ_succ (fun i => ∑ j ∈ Finset.range G.level, G.dec (c i) j * e i j)]
  unfold phase
  ring
end

/-- Bounds on the digits and on what is lost, for a gadget over a ring with a size. -/
structure Gadget.Bounded {R : Type} [CommRing R] (G : Gadget R) (ν : RNorm R) (D E : ℕ) : Prop where
  level_pos : 0 < G.level
  dec_le : ∀ a j, j < G.level → ν.f (G.dec a j) ≤ D
  eps_le : ∀ a, ν.f (G.eps a) ≤ E

section
variable {w : ℕ}

theorem decompose_getD (g : GadgetParams w) (hg : g.Valid) (x : BitVec w) (j : ℕ) (hj : j < g.level) :
    (decomposeScalar g x).getD j 0 ∈ decomposeScalar g x := by
  have hl : j < (decomposeScalar g x).length := by rw [C01_length g hg]; exact hj
  rw [List.getD_eq_getElem _ _ hl]; exact List.getElem_mem hl

theorem recomposeFrom_eq (g : GadgetParams w) (ds : List (BitVec w)) (i : ℕ) :
    recomposeFrom g i ds = ∑ j ∈ Finset.range ds.length, ds.getD j 0 * g.baseQ (i + j) := by
  induction ds generalizing i with
  | nil => rw [recomposeFrom]; rfl
  | cons d ds ih =>
    rw [recomposeFrom, ih, List.length_cons, Finset.sum_range_succ']
    rw [add_comm]
    congr 1
    · refine Finset.sum_congr rfl fun j _ => ?_
      rw [List.getD_cons_succ]
      congr 2; omega
    · rw [List.getD_cons_zero, Nat.add_zero, GadgetParams.baseQ, shl_eq, shl_eq (1#w)]
      rw [GadgetParams.logBaseQ]
      show _ = d * (1 * _)
      rw [one_mul]

theorem scalar_recompose (g : GadgetParams w) (hg : g.Valid) (x : BitVec w) :
    ∑ j ∈ Finset.range g.level, (decomposeScalar g x).getD j 0 * g.baseQ j
      = recomposeScalar g (decomposeScalar g x) := by
  rw [recomposeScalar, recomposeFrom_eq, C01_length g hg]
  simp only [Nat.zero_add]

theorem scalarGadget_bounded (g : GadgetParams w) (hg : g.Valid) :
    (scalarGadget g).Bounded (wordNorm w) (g.base.toNat / 2) (2 ^ (w - g.level * g.logBase) / 2) where
  level_pos := hg.level_pos
  dec_le a j hj := by
    have := C01_digit_range g hg a _ (decompose_getD g hg a j hj)
    show wabs _ ≤ _
    unfold wabs
    show ((decomposeScalar g a).getD j 0).toInt.natAbs ≤ _
    omega
  eps_le a := by
    have h := C01_recompose g hg a
    rw [← scalar_recompose g hg] at h
    rw [Nat.le_div_iff_mul_le (by norm_num), mul_comm]
    exact h

variable {N : ℕ} [NeZero N]

theorem polyGadget_eps (g : GadgetParams w) (hg : g.Valid) (p : Poly N (BitVec w)) (i : Fin N) :
    (polyGadget N g).eps p i = recomposeScalar g (decomposeScalar g (p i)) - p i := by
  rw [← scalar_recompose g hg]
  show (∑ j ∈ Finset.range g.level, _ - p) i = _
  rw [Poly.sub_apply]
  congr 1
  rw [Poly.sum_apply]
  refine Finset.sum_congr rfl fun j _ => ?_
  show ((polyGadget N g).dec p j * Poly.C N (g.baseQ j)) i = _
  rw [mul_comm, Poly.C_mul_apply, mul_comm]
  rfl

theorem polyGadget_bounded (g : GadgetParams w) (hg : g.Valid) :
    (polyGadget N g).Bounded (polyNorm N w) (g.base.toNat / 2) (2 ^ (w - g.level * g.logBase) / 2) where
  level_pos := hg.level_pos
  dec_le a j hj := by
    show pabs _ ≤ _
    rw [pabs_le_iff]
    intro i
    exact (scalarGadget_bounded g hg).dec_le (a i) j hj
  eps_le a := by
    show pabs _ ≤ _
    rw [pabs_le_iff]
    intro i
    rw [polyGadget_eps g hg, Nat.le_div_iff_mul_le (by norm_num), mul_comm]
    exact C01_recompose g hg (a i)
end

section
variable {R : Type} [CommRing R] {k : ℕ}

/-- Size of the noise that the digits pick up from a family of leveled encryptions. -/
theorem noise_le (G : Gadget R) (ν : RNorm R) {D E : ℕ} (hG : G.Bounded ν D E) {n : ℕ} (a : Fin n → R)
    (e : Fin n → ℕ → R) (B : ℕ) (hB : ∀ i j, j < G.level → ν.f (e i j) ≤ B) :
    ν.f (∑ i, ∑ j ∈ Finset.range G.level, G.dec (a i) j * e i j) ≤ n * (G.level * (ν.c * (D * B))) := by
  have h := ν.sum_le_card Finset.univ (fun i => ∑ j ∈ Finset.range G.level, G.dec (a i) j * e i j)
    (G.level * (ν.c * (D * B))) ?_
  · rwa [Finset.card_fin] at h
  · intro i _
    have h2 := ν.sum_le_card (Finset.range G.level) (fun j => G.dec (a i) j * e i j) (ν.c * (D * B)) ?_
    · rwa [Finset.card_range] at h2
    · intro j hj
      have hj := Finset.mem_range.1 hj
      exact (ν.mul_le _ _).trans (Nat.mul_le_mul_left _ (Nat.mul_le_mul (hG.dec_le _ _ hj) (hB i j hj)))
end
end Tfhe
