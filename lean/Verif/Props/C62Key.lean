import Verif.Model.FhewKey
import Verif.Props.C62

/-!
# C62: the keys that `GenSecretKey` makes are short
-/
namespace Tfhe
open Rng Gauss Fft Poly Enc Published

private theorem vecLoop_each {M : Libm} {w : ℕ} {σ : ℝ} (h0 : 0 ≤ σ) (P : BitVec w → Prop)
    (hP : ∀ ws, NoTwoSmall ws → ∀ v rest, sample M w σ ws = .ok v rest → P v)
    (cs : List (BitVec w)) : ∀ (ws : List (BitVec 32)), NoTwoSmall ws → ∀ l rest,
    vecLoop M (fun _ x => x) σ cs ws = some (l, rest) → l.length = cs.length ∧ ∀ v ∈ l, P v := by
  induction cs with
  | nil =>
    intro ws _ l rest h
    rw [vecLoop] at h
    obtain ⟨rfl, rfl⟩ := Prod.mk.inj (Option.some.inj h)
    simp
  | cons c cs ih =>
    intro ws hs l rest h
    rw [vecLoop] at h
    obtain ⟨⟨x, ws'⟩, e1, e2⟩ := Option.bind_eq_some_iff.mp h
    obtain ⟨⟨l', r'⟩, e3, e4⟩ := Option.map_eq_some_iff.mp e2
    obtain ⟨e5, rfl⟩ := Prod.mk.inj e4
    obtain ⟨used, -, e6, -⟩ := normFloat_reads ws x ws' e1
    obtain ⟨n1, n2⟩ := ih ws' (NoTwoSmall.suffix (pre := used) (e6 ▸ hs)) l' _ e3
    subst e5
    refine ⟨by simp [n1], ?_⟩
    intro v hv
    rcases List.mem_cons.mp hv with rfl | hv
    · refine hP ws hs _ ws' ?_
      rw [sample, if_neg (not_lt.2 h0), e1]
      rfl
    · exact n2 v hv

/-- **C62 (keys).**  Whatever parameters `Compile` accepts, other than a NaN for the standard deviation, `GenSecretKey` does
not panic; the key has `GLWEDimension` elements, every element of the LWE key and of every polynomial of the GLWE key is at
most `2^8`, and these are the elements of one array.  So the key is one that C39 and C75 are about, with bound `2^8`. -/
theorem C62_key_partial {M : Libm} (hM : GoodLibm M) {log2 : ℝ → ℝ} (hL : GoodLog2 log2) {w : ℕ} (hw : w ≤ 64)
    (impl : BitVec w) (lit : FHEWLit w) (p : FHEWParams w) (hp : lit.compile M log2 impl = some p)
    (hnan : f64IsNaN p.secretKeyStdDev = false) (ws : List (BitVec 32)) (hs : NoTwoSmall ws) :
    p.genSecretKey M ws ≠ .panic ∧
    ∀ key rest, p.genSecretKey M ws = .ok key rest → key.length = p.baseParams.glweDimension.toNat ∧
      (∀ v ∈ key, |v.toInt| ≤ 2 ^ 8) ∧ (∀ i, wabs (key.getD i 0) ≤ 2 ^ 8) ∧
      (∀ v ∈ p.lweKeyOf key, |v.toInt| ≤ 2 ^ 8) ∧
      (∀ j, j < p.baseParams.lweDimension.toNat → (p.lweKeyOf key)[j]? = key[j]?) ∧
      ∀ i, (∀ v ∈ p.glweKeyOf key i, |v.toInt| ≤ 2 ^ 8) ∧
        ∀ j, j < p.baseParams.polyRank.toNat → (p.glweKeyOf key i)[j]? = key[i * p.baseParams.polyRank.toNat + j]? := by
  have h0 : 0 ≤ stdDevQ M w p.secretKeyStdDev := by
    by_contra hneg
    exact (C62_short_partial hM hL hw impl lit p hp hnan ws hs).1
      ((C60_panic (w := w) (M := M) (σ := stdDevQ M w p.secretKeyStdDev) ws []).1.mpr (not_le.1 hneg))
  unfold FHEWParams.genSecretKey sampleVecTo
  rw [if_neg (not_lt.2 h0)]
  constructor
  · intro h
    generalize vecLoop M (fun _ x => x) (stdDevQ M w p.secretKeyStdDev)
      (List.replicate p.baseParams.glweDimension.toNat (0 : BitVec w)) ws = o at h
    cases o <;> cases h
  · intro key rest h
    obtain ⟨h1, h2⟩ := vecLoop_each h0 (fun v => |v.toInt| ≤ 2 ^ 8)
      (fun ws' hs' v r hv => (C62_short_partial hM hL hw impl lit p hp hnan ws' hs').2 v r hv) _ ws hs key rest (ofOption_ok h)
    refine ⟨by simpa using h1, h2, ?_, fun v hv => h2 v (List.mem_of_mem_take hv), ?_, ?_⟩
    · intro i
      rw [List.getD_eq_getElem?_getD]
      rcases hi : key[i]? with _ | v
      · simp [wabs]
      · have := h2 v (List.mem_of_getElem? hi)
        unfold wabs
        simp only [Option.getD_some]
        rw [Int.abs_eq_natAbs] at this
        omega
    · intro j hj
      simp [FHEWParams.lweKeyOf, hj]
    · intro i
      refine ⟨fun v hv => h2 v (List.mem_of_mem_drop (List.mem_of_mem_take hv)), fun j hj => ?_⟩
      simp [FHEWParams.glweKeyOf, hj]

private theorem vecLoop_returns (M : Libm) {w : ℕ} (σ : ℝ) (cs : List (BitVec w)) :
    ∃ l, vecLoop M (fun _ x => x) σ cs (List.replicate cs.length 512) = some (l, []) := by
  induction cs with
  | nil => exact ⟨[], rfl⟩
  | cons c cs ih =>
    obtain ⟨l, hl⟩ := ih
    obtain ⟨x, hx⟩ : ∃ x, normFloat M (512 :: List.replicate cs.length 512) = some (x, List.replicate cs.length 512) := by
      rw [normFloat.eq_def]
      simp only
      rw [if_pos (by decide +kernel)]
      exact ⟨_, rfl⟩
    rw [List.length_cons, List.replicate_succ, vecLoop, hx, Option.bind_some]
    simp only [hl, Option.map_some]
    exact ⟨_, rfl⟩

/-- The published set, with one word per element: a key is returned, and it is short. -/
example : ∃ p key, paramsFHEWBinary.compile exLibm (Real.logb 2) 0 = some p ∧
    p.genSecretKey exLibm (List.replicate p.baseParams.glweDimension.toNat 512) = .ok key [] ∧
    ∀ v ∈ key, |v.toInt| ≤ 2 ^ 8 := by
  have hL : GoodLog2 (Real.logb 2) := fun x _ _ => by simp
  obtain ⟨p, hp⟩ := Option.isSome_iff_exists.mp (C62_compile exLibm_good hL 0 paramsFHEWBinary (by simp [allFHEWLit64]))
  have hsd : p.secretKeyStdDev = paramsFHEWBinary.secretKeyStdDev := by
    obtain ⟨base, -, hp⟩ := Option.bind_eq_some_iff.mp hp
    split at hp
    · cases hp
    split at hp
    · cases hp
    split at hp
    · cases hp
    split at hp
    · cases hp
    split at hp
    · cases hp
    cases hp
    rfl
  have hs : NoTwoSmall (List.replicate p.baseParams.glweDimension.toNat 512) := by
    intro pre a b post h
    left
    have : a ∈ List.replicate p.baseParams.glweDimension.toNat (512 : BitVec 32) := by rw [h]; simp
    rw [(List.mem_replicate.mp this).2]
    decide
  have hk := C62_key_partial exLibm_good hL le_rfl 0 paramsFHEWBinary p hp (by rw [hsd]; decide +kernel) _ hs
  obtain ⟨key, hkey⟩ := vecLoop_returns exLibm (stdDevQ exLibm 64 p.secretKeyStdDev)
    (List.replicate p.baseParams.glweDimension.toNat (0 : BitVec 64))
  rw [List.length_replicate] at hkey
  have hrun : p.genSecretKey exLibm (List.replicate p.baseParams.glweDimension.toNat 512) = .ok key [] := by
    have hne := hk.1
    unfold FHEWParams.genSecretKey sampleVecTo at hne ⊢
    split at hne
    · exact absurd rfl hne
    · rw [if_neg ‹_›, hkey]
      rfl
  exact ⟨p, key, hp, hrun, (hk.2 key [] hrun).2.1⟩

end Tfhe
