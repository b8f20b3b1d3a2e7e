import Verif.Props.C74

/-!
# C74: the masks of the shared part of the keys

What an evaluation key holds of the common reference string: polynomial `i` of the masks of the public key and of the
relinearization key is polynomial `i` of the string that belongs to the seed, with no level left out or shifted.
-/
namespace Tfhe.Mk
open Poly Rng

variable {bytes N : ℕ} [NeZero N]

omit [NeZero N] in
theorem crsPoly_word {L : ℕ} {ks : ℕ → BitVec 8} {crs : List (List (BitVec (8 * bytes)))} (h : IsCRS bytes N L ks crs)
    (i : ℕ) (hi : i < L) (j : Fin N) : (crsPoly N crs i j).toNat = crsWord bytes N ks i j := by
  have h1 : i < crs.length := by rw [h.1]; exact hi
  obtain ⟨h2, h3⟩ := h.2 i h1
  have h4 : (j : ℕ) < (crs[i]).length := by rw [h2]; exact j.2
  show ((crs.getD i []).getD j 0).toNat = _
  rw [List.getD_eq_getElem _ _ h1, List.getD_eq_getElem _ _ h4]
  exact h3 j h4

variable {c : Parties bytes N} {prng : List (BitVec 8) → ℕ → BitVec 8} {seed : List (BitVec 8)}

/-- **C74 (masks).**  The second components of the public key and of the first half of the relinearization key of every party are
the words of the stream of the seed, level by level. -/
theorem C74_masks (hc : c.ParamsOK) (h : c.Made prng seed) (i : ℕ) (hi : i < c.sp.P) (hg : c.given i) (l : ℕ)
    (hl : l < c.sp.gr.level) (j : Fin N) :
    ((c.evk i).prod.crs l 1 j).toNat = crsWord bytes N (prng seed) l j ∧
      ((c.evk i).prod.relin.v0 l 1 j).toNat = crsWord bytes N (prng seed) l j := by
  obtain ⟨r, rest, -, h1⟩ := h.evk i hi hg
  obtain ⟨aux, -, h2⟩ := genEvalKey_ok h1
  have h3 := crsPoly_word (h.key hc i hi hg).1 l hl j
  rw [h2]
  exact ⟨h3, h3⟩

/-- Two parties that shared the seed have the same masks. -/
theorem C74_masks_agree (hc : c.ParamsOK) (h : c.Made prng seed) (i i' : ℕ) (hi : i < c.sp.P) (hi' : i' < c.sp.P)
    (hg : c.given i) (hg' : c.given i') (l : ℕ) (hl : l < c.sp.gr.level) :
    (c.evk i).prod.crs l 1 = (c.evk i').prod.crs l 1 ∧ (c.evk i).prod.relin.v0 l 1 = (c.evk i').prod.crs l 1 := by
  constructor <;> funext j <;> apply BitVec.eq_of_toNat_eq
  · rw [(C74_masks hc h i hi hg l hl j).1, (C74_masks hc h i' hi' hg' l hl j).1]
  · rw [(C74_masks hc h i hi hg l hl j).2, (C74_masks hc h i' hi' hg' l hl j).1]

end Tfhe.Mk
