import Verif.Lemma.AsmDecompose
import Verif.Props.C01
import Verif.Props.C65
import Mathlib.Tactic.IntervalCases

/-!
# C66: the AVX2 kernels of `Decomposer.DecomposePolyTo` compute the gadget decomposition
-/
namespace Tfhe
namespace Asm

/-! ### Specification -/

/-- The slice `s` of slices holds the headers `outs`: address, length and capacity of each. -/
def Headers (m : Memory) (s : GoSlice) (outs : List GoSlice) : Prop :=
  s.len = outs.length ∧ Has64 m ⟨s.base, 3 * s.len, 3 * s.len⟩
    (outs.flatMap fun o => [o.base, BitVec.ofNat 64 o.len, BitVec.ofNat 64 o.cap])

/-- Two ranges of 32-bit words have no word in common. -/
def Disjoint4 (a : BitVec 64) (n : Nat) (b : BitVec 64) (k : Nat) : Prop :=
  ∀ i < n, ∀ j < k, a + BitVec.ofNat 64 (4 * i) ≠ b + BitVec.ofNat 64 (4 * j)

instance (a : BitVec 64) (n : Nat) (b : BitVec 64) (k : Nat) : Decidable (Disjoint4 a n b k) := by
  unfold Disjoint4; infer_instance

/-! ### Connection with the lemmas about the programs -/

theorem flat3_getD (outs : List GoSlice) (d : GoSlice) (q : Nat) (hq : q < 3 * outs.length) :
    (outs.flatMap fun o => [o.base, BitVec.ofNat 64 o.len, BitVec.ofNat 64 o.cap]).getD q 0 =
      if q % 3 = 0 then (outs.getD (q / 3) d).base
      else if q % 3 = 1 then BitVec.ofNat 64 (outs.getD (q / 3) d).len
      else BitVec.ofNat 64 (outs.getD (q / 3) d).cap := by
  induction outs generalizing q with
  | nil => simp at hq
  | cons o os ih =>
    match q with
    | 0 => simp
    | 1 => simp
    | 2 => simp
    | q + 3 =>
      have h1 : (q + 3) % 3 = q % 3 := by omega
      have h2 : (q + 3) / 3 = q / 3 + 1 := by omega
      have := ih q (by simp at hq; omega)
      rw [h1, h2]
      simpa using this

theorem length_flat3 (outs : List GoSlice) :
    (outs.flatMap fun o => [o.base, BitVec.ofNat 64 o.len, BitVec.ofNat 64 o.cap]).length = 3 * outs.length := by
  induction outs with
  | nil => rfl
  | cons o os ih => simp only [List.flatMap_cons, List.length_append, ih, List.length_cons, List.length_nil]; omega

theorem holds_headers {m : Memory} {s : GoSlice} {outs : List GoSlice} (h : Headers m s outs) (d : GoSlice) :
    Holds m s.base (hdrWords (fun j => (outs.getD j d).base) (fun j => BitVec.ofNat 64 (outs.getD j d).len)
      (fun j => BitVec.ofNat 64 (outs.getD j d).cap)) (6 * outs.length) := by
  have h1 := (holds64 h.2).2
  rw [length_flat3] at h1
  refine ⟨h1.1, fun i hi => ?_⟩
  rw [h1.2 i (by omega)]
  unfold hdrWords dw
  dsimp only
  rw [flat3_getD outs d _ (by omega)]

/-- What the kernel writes, whatever the number of outputs. -/
theorem decompose32_any (F : Fpu) (g : Reg → BitVec 64) (y : Nat → Y) (m : Memory) (gp : GadgetParams 32)
    (hg : 1 ≤ gp.logBase) (hg' : gp.logBase < 2 ^ 32) (dcmpOut p : GoSlice) (outs : List GoSlice) (v : List (BitVec 32))
    (hH : Headers m dcmpOut outs) (h1 : outs ≠ []) (hL : outs.length < 2 ^ 56) (hp : Has32 m p v) (hv : 8 ∣ v.length)
    (hsz : v.length < 2 ^ 56)
    (ho : ∀ o ∈ outs, ∃ u : List (BitVec 32), u.length = v.length ∧ Has32 m o u)
    (hd : ∀ j j' (hj : j < outs.length) (hj' : j' < outs.length), j ≠ j' →
      Disjoint4 outs[j].base (v.length) outs[j'].base (v.length))
    (hh : ∀ o ∈ outs, Disjoint4 dcmpOut.base (6 * outs.length) o.base (v.length))
    (ha : ∀ o ∈ outs, Alias 32 p o) :
    ∃ m', decomposePolyTo32 F dcmpOut p gp g y m m' ∧
      (∀ j (hj : j < outs.length), Has32 m' outs[j] (v.map fun x => dcmpDigit gp (carry gp x (outs.length - 1 - j)))) ∧
      ∀ x, (∀ o ∈ outs, ∀ i < v.length, x ≠ o.base + BitVec.ofNat 64 (4 * i)) → m' x = m x := by
  obtain ⟨hp1, hp2⟩ := holds32 hp
  have hmem : ∀ j (hj : j < outs.length), outs.getD j ⟨0, 0, 0⟩ = outs[j] := fun j hj => by simp [hj]
  have hlen : ∀ o ∈ outs, o.len = v.length := fun o h => by
    obtain ⟨u, hu, h2⟩ := ho o h; rw [h2.1, hu]
  have ap : Apart m (fun j => (outs.getD j ⟨0, 0, 0⟩).base) outs.length (v.length) p.base dcmpOut.base := by
    refine ⟨fun j hj => ?_, fun j hj i hi => ?_, by omega, fun j hj j' hj' hne i hi i' hi' => ?_,
      fun j hj i i' hii hi' => ?_, fun j hj i hi i' hi' => ?_⟩
    · rw [hmem j hj]
      obtain ⟨u, -, h2⟩ := ho _ (List.getElem_mem hj)
      exact h2.2.1
    · rw [hmem j hj]
      obtain ⟨u, hu, h2⟩ := ho _ (List.getElem_mem hj)
      have := (holds32 h2).2.2 i (by omega)
      rw [this]; rfl
    · rw [hmem j hj, hmem j' hj']
      exact hd j j' hj hj' hne i hi i' hi'
    · rw [hmem j hj]
      have hal := alias32.1 (ha _ (List.getElem_mem hj))
      rw [hp1, hlen _ (List.getElem_mem hj)] at hal
      exact ahead_of hal (by omega) i' i hii hi'
    · rw [hmem j hj]
      exact hh _ (List.getElem_mem hj) i' hi' i hi
  obtain ⟨m', r, w1, w2⟩ := decomposePolyToUint32AVX2_spec (F := F) (c1 := dcmpOut.cap) (c2 := p.cap) hg hg'
    (List.length_pos_iff.2 h1) hL hv g y m hp2 (holds_headers hH ⟨0, 0, 0⟩) ap
  refine ⟨m', by rw [decomposePolyTo32, GoSlice.arg, GoSlice.arg, hH.1, hp1]; exact r, fun j hj => ?_, fun x hx => ?_⟩
  · refine ⟨by rw [hlen _ (List.getElem_mem hj), List.length_map], ?_, fun i hi => ?_⟩
    · obtain ⟨u, -, h2⟩ := ho _ (List.getElem_mem hj)
      exact h2.2.1
    · rw [List.length_map] at hi
      have := w1 j hj
      dsimp only at this
      rw [hmem j hj] at this
      rw [this i hi]; simp [hi]
  · refine w2 x fun j hj i hi => ?_
    dsimp only
    rw [hmem j hj]
    exact hx _ (List.getElem_mem hj) i hi

/-- **C66.** `DecomposePolyTo` on `uint32`, called as `PolyBuffer` and `DecomposePoly` prepare it: as many outputs as the
gadget has levels, each of the rank of `p`, apart from each other and from the slice of headers.  Every output may be `p`
itself.  Coefficient `i` of output `j` is digit `j` of coefficient `i` of `p`, and nothing else changes. -/
theorem C66_decompose32 (F : Fpu) (g : Reg → BitVec 64) (y : Nat → Y) (m : Memory) (gp : GadgetParams 32)
    (hg : gp.Valid) (dcmpOut p : GoSlice) (outs : List GoSlice) (v : List (BitVec 32))
    (hH : Headers m dcmpOut outs) (hL : outs.length = gp.level) (hp : Has32 m p v) (hv : 8 ∣ v.length)
    (hsz : v.length < 2 ^ 56)
    (ho : ∀ o ∈ outs, ∃ u : List (BitVec 32), u.length = v.length ∧ Has32 m o u)
    (hd : ∀ j j' (hj : j < outs.length) (hj' : j' < outs.length), j ≠ j' →
      Disjoint4 outs[j].base (v.length) outs[j'].base (v.length))
    (hh : ∀ o ∈ outs, Disjoint4 dcmpOut.base (6 * outs.length) o.base (v.length))
    (ha : ∀ o ∈ outs, Alias 32 p o) :
    ∃ m', decomposePolyTo32 F dcmpOut p gp g y m m' ∧
      (∀ j (hj : j < outs.length), Has32 m' outs[j] (v.map fun x => (decomposeScalar gp x).getD j 0)) ∧
      ∀ x, (∀ o ∈ outs, ∀ i < v.length, x ≠ o.base + BitVec.ofNat 64 (4 * i)) → m' x = m x := by
  have b1 := hg.level_pos
  have b2 := hg.logBase_pos
  have b3 := hg.fits
  have b4 : gp.logBase ≤ 32 := le_trans (Nat.le_mul_of_pos_right _ b1) b3
  have b5 : gp.level ≤ 32 := le_trans (Nat.le_mul_of_pos_left _ b2) b3
  obtain ⟨m', r, w1, w2⟩ := decompose32_any F g y m gp b2 (by omega) dcmpOut p outs v hH
    (List.length_pos_iff.1 (by omega)) (by omega) hp hv hsz ho hd hh ha
  refine ⟨m', r, fun j hj => ?_, w2⟩
  have := w1 j hj
  rw [hL] at this
  convert this using 2
  funext x
  exact decomposeScalar_getD gp x (by omega)

/-- Read back from memory, the digits are in `[-base/2, base/2)` and recompose to `p` up to half of the last scale. -/
theorem C66_recompose32 (F : Fpu) (g : Reg → BitVec 64) (y : Nat → Y) (m : Memory) (gp : GadgetParams 32)
    (hg : gp.Valid) (dcmpOut p : GoSlice) (outs : List GoSlice) (v : List (BitVec 32))
    (hH : Headers m dcmpOut outs) (hL : outs.length = gp.level) (hp : Has32 m p v) (hv : 8 ∣ v.length)
    (hsz : v.length < 2 ^ 56)
    (ho : ∀ o ∈ outs, ∃ u : List (BitVec 32), u.length = v.length ∧ Has32 m o u)
    (hd : ∀ j j' (hj : j < outs.length) (hj' : j' < outs.length), j ≠ j' →
      Disjoint4 outs[j].base (v.length) outs[j'].base (v.length))
    (hh : ∀ o ∈ outs, Disjoint4 dcmpOut.base (6 * outs.length) o.base (v.length))
    (ha : ∀ o ∈ outs, Alias 32 p o) :
    ∃ (m' : Memory) (ds : List (List (BitVec 32))), decomposePolyTo32 F dcmpOut p gp g y m m' ∧ ds.length = gp.level ∧
      (∀ j (hj : j < outs.length) (hj' : j < ds.length), Has32 m' outs[j] ds[j]) ∧
      ∀ i (hi : i < v.length),
        (∀ d ∈ ds, -(gp.base.toNat : Int) ≤ 2 * (d.getD i 0).toInt ∧ 2 * (d.getD i 0).toInt < gp.base.toNat) ∧
        2 * wabs (recomposeScalar gp (ds.map fun d => d.getD i 0) - v[i]) ≤ 2 ^ (32 - gp.level * gp.logBase) := by
  obtain ⟨m', r, w1, -⟩ := C66_decompose32 F g y m gp hg dcmpOut p outs v hH hL hp hv hsz ho hd hh ha
  refine ⟨m', (List.range gp.level).map fun j => v.map fun x => (decomposeScalar gp x).getD j 0, r, by simp,
    fun j hj hj' => by simpa using w1 j hj, fun i hi => ?_⟩
  have hl := C01_length gp hg v[i]
  have e : ((List.range gp.level).map fun j => v.map fun x => (decomposeScalar gp x).getD j 0).map
      (fun d => d.getD i 0) = decomposeScalar gp v[i] := by
    refine List.ext_getElem (by simp [hl]) fun j h1 h2 => ?_
    simp [hi, h2]
  refine ⟨fun d hdm => ?_, by rw [e]; exact C01_recompose gp hg v[i]⟩
  have : d.getD i 0 ∈ decomposeScalar gp v[i] := by
    rw [← e]; exact List.mem_map_of_mem hdm
  exact C01_digit_range gp hg v[i] _ this

/-- What the kernel writes, whatever the number of outputs. -/
theorem decompose64_any (F : Fpu) (g : Reg → BitVec 64) (y : Nat → Y) (m : Memory) (gp : GadgetParams 64)
    (hg : 1 ≤ gp.logBase) (hg' : gp.logBase < 2 ^ 32) (dcmpOut p : GoSlice) (outs : List GoSlice) (v : List (BitVec 64))
    (hH : Headers m dcmpOut outs) (h1 : outs ≠ []) (hL : outs.length < 2 ^ 56) (hp : Has64 m p v) (hv : 4 ∣ v.length)
    (hsz : v.length < 2 ^ 56)
    (ho : ∀ o ∈ outs, ∃ u : List (BitVec 64), u.length = v.length ∧ Has64 m o u)
    (hd : ∀ j j' (hj : j < outs.length) (hj' : j' < outs.length), j ≠ j' →
      Disjoint4 outs[j].base (2 * v.length) outs[j'].base (2 * v.length))
    (hh : ∀ o ∈ outs, Disjoint4 dcmpOut.base (6 * outs.length) o.base (2 * v.length))
    (ha : ∀ o ∈ outs, Alias 64 p o) :
    ∃ m', decomposePolyTo64 F dcmpOut p gp g y m m' ∧
      (∀ j (hj : j < outs.length), Has64 m' outs[j] (v.map fun x => dcmpDigit gp (carry gp x (outs.length - 1 - j)))) ∧
      ∀ x, (∀ o ∈ outs, ∀ i < 2 * v.length, x ≠ o.base + BitVec.ofNat 64 (4 * i)) → m' x = m x := by
  obtain ⟨hp1, hp2⟩ := holds64 hp
  have hmem : ∀ j (hj : j < outs.length), outs.getD j ⟨0, 0, 0⟩ = outs[j] := fun j hj => by simp [hj]
  have hlen : ∀ o ∈ outs, o.len = v.length := fun o h => by
    obtain ⟨u, hu, h2⟩ := ho o h; rw [h2.1, hu]
  have ap : Apart m (fun j => (outs.getD j ⟨0, 0, 0⟩).base) outs.length (2 * v.length) p.base dcmpOut.base := by
    refine ⟨fun j hj => ?_, fun j hj i hi => ?_, by omega, fun j hj j' hj' hne i hi i' hi' => ?_,
      fun j hj i i' hii hi' => ?_, fun j hj i hi i' hi' => ?_⟩
    · rw [hmem j hj]
      obtain ⟨u, -, h2⟩ := ho _ (List.getElem_mem hj)
      exact h2.2.1
    · rw [hmem j hj]
      obtain ⟨u, hu, h2⟩ := ho _ (List.getElem_mem hj)
      have := (holds64 h2).2.2 i (by omega)
      rw [this]; rfl
    · rw [hmem j hj, hmem j' hj']
      exact hd j j' hj hj' hne i hi i' hi'
    · rw [hmem j hj]
      have hal := alias64.1 (ha _ (List.getElem_mem hj))
      rw [hp1, hlen _ (List.getElem_mem hj)] at hal
      exact ahead_of hal (by omega) i' i hii hi'
    · rw [hmem j hj]
      exact hh _ (List.getElem_mem hj) i' hi' i hi
  obtain ⟨m', r, w1, w2⟩ := decomposePolyToUint64AVX2_spec (F := F) (c1 := dcmpOut.cap) (c2 := p.cap) hg hg'
    (List.length_pos_iff.2 h1) hL hv g y m hp2 (holds_headers hH ⟨0, 0, 0⟩) ap
  refine ⟨m', by rw [decomposePolyTo64, GoSlice.arg, GoSlice.arg, hH.1, hp1]; exact r, fun j hj => ?_, fun x hx => ?_⟩
  · refine ⟨by rw [hlen _ (List.getElem_mem hj), List.length_map], ?_, fun i hi => ?_⟩
    · obtain ⟨u, -, h2⟩ := ho _ (List.getElem_mem hj)
      exact h2.2.1
    · rw [List.length_map] at hi
      have := w1 j hj
      dsimp only at this
      rw [hmem j hj] at this
      have k1 := this (2 * i) (by omega)
      have k2 := this (2 * i + 1) (by omega)
      rw [dw_even, show 4 * (2 * i) = 8 * i by omega] at k1
      rw [dw_odd, show 4 * (2 * i + 1) = 8 * i + 4 by omega] at k2
      rw [k1, k2]; simp [hi]
  · refine w2 x fun j hj i hi => ?_
    dsimp only
    rw [hmem j hj]
    exact hx _ (List.getElem_mem hj) i hi

/-- **C66.** `DecomposePolyTo` on `uint64`, called as `PolyBuffer` and `DecomposePoly` prepare it: as many outputs as the
gadget has levels, each of the rank of `p`, apart from each other and from the slice of headers.  Every output may be `p`
itself.  Coefficient `i` of output `j` is digit `j` of coefficient `i` of `p`, and nothing else changes. -/
theorem C66_decompose64 (F : Fpu) (g : Reg → BitVec 64) (y : Nat → Y) (m : Memory) (gp : GadgetParams 64)
    (hg : gp.Valid) (dcmpOut p : GoSlice) (outs : List GoSlice) (v : List (BitVec 64))
    (hH : Headers m dcmpOut outs) (hL : outs.length = gp.level) (hp : Has64 m p v) (hv : 4 ∣ v.length)
    (hsz : v.length < 2 ^ 56)
    (ho : ∀ o ∈ outs, ∃ u : List (BitVec 64), u.length = v.length ∧ Has64 m o u)
    (hd : ∀ j j' (hj : j < outs.length) (hj' : j' < outs.length), j ≠ j' →
      Disjoint4 outs[j].base (2 * v.length) outs[j'].base (2 * v.length))
    (hh : ∀ o ∈ outs, Disjoint4 dcmpOut.base (6 * outs.length) o.base (2 * v.length))
    (ha : ∀ o ∈ outs, Alias 64 p o) :
    ∃ m', decomposePolyTo64 F dcmpOut p gp g y m m' ∧
      (∀ j (hj : j < outs.length), Has64 m' outs[j] (v.map fun x => (decomposeScalar gp x).getD j 0)) ∧
      ∀ x, (∀ o ∈ outs, ∀ i < 2 * v.length, x ≠ o.base + BitVec.ofNat 64 (4 * i)) → m' x = m x := by
  have b1 := hg.level_pos
  have b2 := hg.logBase_pos
  have b3 := hg.fits
  have b4 : gp.logBase ≤ 64 := le_trans (Nat.le_mul_of_pos_right _ b1) b3
  have b5 : gp.level ≤ 64 := le_trans (Nat.le_mul_of_pos_left _ b2) b3
  obtain ⟨m', r, w1, w2⟩ := decompose64_any F g y m gp b2 (by omega) dcmpOut p outs v hH
    (List.length_pos_iff.1 (by omega)) (by omega) hp hv hsz ho hd hh ha
  refine ⟨m', r, fun j hj => ?_, w2⟩
  have := w1 j hj
  rw [hL] at this
  convert this using 2
  funext x
  exact decomposeScalar_getD gp x (by omega)

/-- Read back from memory, the digits are in `[-base/2, base/2)` and recompose to `p` up to half of the last scale. -/
theorem C66_recompose64 (F : Fpu) (g : Reg → BitVec 64) (y : Nat → Y) (m : Memory) (gp : GadgetParams 64)
    (hg : gp.Valid) (dcmpOut p : GoSlice) (outs : List GoSlice) (v : List (BitVec 64))
    (hH : Headers m dcmpOut outs) (hL : outs.length = gp.level) (hp : Has64 m p v) (hv : 4 ∣ v.length)
    (hsz : v.length < 2 ^ 56)
    (ho : ∀ o ∈ outs, ∃ u : List (BitVec 64), u.length = v.length ∧ Has64 m o u)
    (hd : ∀ j j' (hj : j < outs.length) (hj' : j' < outs.length), j ≠ j' →
      Disjoint4 outs[j].base (2 * v.length) outs[j'].base (2 * v.length))
    (hh : ∀ o ∈ outs, Disjoint4 dcmpOut.base (6 * outs.length) o.base (2 * v.length))
    (ha : ∀ o ∈ outs, Alias 64 p o) :
    ∃ (m' : Memory) (ds : List (List (BitVec 64))), decomposePolyTo64 F dcmpOut p gp g y m m' ∧ ds.length = gp.level ∧
      (∀ j (hj : j < outs.length) (hj' : j < ds.length), Has64 m' outs[j] ds[j]) ∧
      ∀ i (hi : i < v.length),
        (∀ d ∈ ds, -(gp.base.toNat : Int) ≤ 2 * (d.getD i 0).toInt ∧ 2 * (d.getD i 0).toInt < gp.base.toNat) ∧
        2 * wabs (recomposeScalar gp (ds.map fun d => d.getD i 0) - v[i]) ≤ 2 ^ (64 - gp.level * gp.logBase) := by
  obtain ⟨m', r, w1, -⟩ := C66_decompose64 F g y m gp hg dcmpOut p outs v hH hL hp hv hsz ho hd hh ha
  refine ⟨m', (List.range gp.level).map fun j => v.map fun x => (decomposeScalar gp x).getD j 0, r, by simp,
    fun j hj hj' => by simpa using w1 j hj, fun i hi => ?_⟩
  have hl := C01_length gp hg v[i]
  have e : ((List.range gp.level).map fun j => v.map fun x => (decomposeScalar gp x).getD j 0).map
      (fun d => d.getD i 0) = decomposeScalar gp v[i] := by
    refine List.ext_getElem (by simp [hl]) fun j h1 h2 => ?_
    simp [hi, h2]
  refine ⟨fun d hdm => ?_, by rw [e]; exact C01_recompose gp hg v[i]⟩
  have : d.getD i 0 ∈ decomposeScalar gp v[i] := by
    rw [← e]; exact List.mem_map_of_mem hdm
  exact C01_digit_range gp hg v[i] _ this

/-! ### A `dcmpOut` that is longer than the level

The Go loop takes the number of digits from the gadget and leaves the other outputs alone; the kernel takes it from
`len(dcmpOut)`.  So `DecomposePolyTo` with a longer `dcmpOut` gives different results with and without AVX2.  With a shorter
one Go panics and the kernel returns. -/

/-- `level = 1`, `base = 16`. -/
def gp1 : GadgetParams 32 := ⟨16, 4, 1⟩
/-- `level = 2`, `base = 16`. -/
def gp2 : GadgetParams 32 := ⟨16, 4, 2⟩

/-- Two headers at 64, eight coefficients `0x72345678` at 128, outputs at 160 and 192, zero. -/
def dcmpMem : Memory := fun a =>
  if 64 ≤ a.toNat ∧ a.toNat < 112 then
    some ([160, 0, 8, 0, 8, 0, 192, 0, 8, 0, 8, 0].getD ((a.toNat - 64) / 4) 0)
  else if 112 ≤ a.toNat ∧ a.toNat < 128 then none
  else if 128 ≤ a.toNat ∧ a.toNat < 160 then some 0x72345678
  else if 160 ≤ a.toNat ∧ a.toNat < 224 then some 0
  else none

theorem dcmpMem_headers : Headers dcmpMem ⟨64, 2, 2⟩ [⟨160, 8, 8⟩, ⟨192, 8, 8⟩] := ⟨rfl, rfl, rfl, by decide +kernel⟩
theorem dcmpMem_p : Has32 dcmpMem ⟨128, 8, 8⟩ (List.replicate 8 0x72345678) := ⟨rfl, rfl, by decide +kernel⟩
theorem dcmpMem_out : ∀ o ∈ [(⟨160, 8, 8⟩ : GoSlice), ⟨192, 8, 8⟩],
    ∃ u : List (BitVec 32), u.length = (List.replicate 8 (0x72345678 : BitVec 32)).length ∧ Has32 dcmpMem o u := by
  intro o h
  simp only [List.mem_cons, List.not_mem_nil, or_false] at h
  rcases h with rfl | rfl <;> exact ⟨List.replicate 8 0, rfl, rfl, rfl, by decide +kernel⟩
theorem dcmpMem_disj (j j' : Nat) (hj : j < 2) (hj' : j' < 2) (h : j ≠ j') :
    Disjoint4 [(⟨160, 8, 8⟩ : GoSlice), ⟨192, 8, 8⟩][j].base 8 [(⟨160, 8, 8⟩ : GoSlice), ⟨192, 8, 8⟩][j'].base 8 := by
  have h1 : Disjoint4 160 8 192 8 := by decide +kernel
  have h2 : Disjoint4 192 8 160 8 := by decide +kernel
  interval_cases j <;> interval_cases j' <;> first | exact absurd rfl h | exact h1 | exact h2
theorem dcmpMem_hdr : ∀ o ∈ [(⟨160, 8, 8⟩ : GoSlice), ⟨192, 8, 8⟩], Disjoint4 64 12 o.base 8 := by
  intro o h
  simp only [List.mem_cons, List.not_mem_nil, or_false] at h
  rcases h with rfl | rfl <;> decide +kernel
theorem dcmpMem_alias : ∀ o ∈ [(⟨160, 8, 8⟩ : GoSlice), ⟨192, 8, 8⟩], Alias 32 ⟨128, 8, 8⟩ o := by
  intro o h
  simp only [List.mem_cons, List.not_mem_nil, or_false] at h
  rcases h with rfl | rfl <;> exact .inr (by decide +kernel)

/-- The negation of "same result with and without AVX2" for `dcmpOut` longer than the level: Go writes the digit 7 to output 0
and leaves output 1 alone; the kernel writes 7 to output 1 and 0 to output 0. -/
theorem C66_longer_differs :
    goDecomposePoly gp1 [List.replicate 8 0, List.replicate 8 0] (List.replicate 8 0x72345678) =
      some [List.replicate 8 7, List.replicate 8 0] ∧
    ∀ (F : Fpu) (g : Reg → BitVec 64) (y : Nat → Y), ∃ m',
      decomposePolyTo32 F ⟨64, 2, 2⟩ ⟨128, 8, 8⟩ gp1 g y dcmpMem m' ∧
      Has32 m' ⟨160, 8, 8⟩ (List.replicate 8 0) ∧ Has32 m' ⟨192, 8, 8⟩ (List.replicate 8 7) := by
  refine ⟨by decide +kernel, fun F g y => ?_⟩
  obtain ⟨m', r, w, -⟩ := decompose32_any F g y dcmpMem gp1 (by decide) (by decide) _ _ _ _ dcmpMem_headers (by simp)
    (by simp) dcmpMem_p (by decide) (by simp) dcmpMem_out dcmpMem_disj dcmpMem_hdr dcmpMem_alias
  exact ⟨m', r, w 0 (by simp), w 1 (by simp)⟩

/-- With a `dcmpOut` shorter than the level Go panics; the kernel returns, having written digits of a shorter gadget. -/
theorem C66_shorter_differs :
    goDecomposePoly (⟨16, 4, 3⟩ : GadgetParams 32) [List.replicate 8 0, List.replicate 8 0] (List.replicate 8 0x72345678) =
      none ∧
    ∀ (F : Fpu) (g : Reg → BitVec 64) (y : Nat → Y), ∃ m',
      decomposePolyTo32 F ⟨64, 2, 2⟩ ⟨128, 8, 8⟩ ⟨16, 4, 3⟩ g y dcmpMem m' := by
  refine ⟨by decide +kernel, fun F g y => ?_⟩
  obtain ⟨m', r, w, -⟩ := decompose32_any F g y dcmpMem ⟨16, 4, 3⟩ (by decide) (by decide) _ _ _ _ dcmpMem_headers (by simp)
    (by simp) dcmpMem_p (by decide) (by simp) dcmpMem_out dcmpMem_disj dcmpMem_hdr dcmpMem_alias
  exact ⟨m', r⟩

/-- When the lengths match, the kernel and the Go loop agree. -/
theorem C66_agrees {w : Nat} (gp : GadgetParams w) (outs : List (List (BitVec w))) (v : List (BitVec w))
    (hL : outs.length = gp.level) :
    ∃ r, goDecomposePoly gp outs v = some r ∧ r.length = gp.level ∧
      ∀ j (hj : j < r.length), r[j] = v.map fun x => (decomposeScalar gp x).getD j 0 := by
  refine ⟨_, by rw [goDecomposePoly, if_neg (by omega)], by simp [hL], fun j hj => ?_⟩
  simp only [List.length_mapIdx] at hj
  simp [hL ▸ hj]

/-! ### Concrete case -/

/-- Two levels, eight coefficients. -/
example (F : Fpu) (g : Reg → BitVec 64) (y : Nat → Y) : ∃ m',
    decomposePolyTo32 F ⟨64, 2, 2⟩ ⟨128, 8, 8⟩ gp2 g y dcmpMem m' ∧
    Has32 m' ⟨160, 8, 8⟩ (List.replicate 8 7) ∧ Has32 m' ⟨192, 8, 8⟩ (List.replicate 8 2) := by
  obtain ⟨m', r, w, -⟩ := C66_decompose32 F g y dcmpMem gp2 ⟨by decide, by decide, by decide, by decide⟩ _ _ _ _
    dcmpMem_headers rfl dcmpMem_p (by decide) (by simp) dcmpMem_out dcmpMem_disj dcmpMem_hdr dcmpMem_alias
  have e0 : (decomposeScalar gp2 0x72345678).getD 0 0 = 7 := by decide +kernel
  have e1 : (decomposeScalar gp2 0x72345678).getD 1 0 = 2 := by decide +kernel
  have w0 := w 0 (by simp)
  have w1 := w 1 (by simp)
  rw [List.map_replicate, e0] at w0
  rw [List.map_replicate, e1] at w1
  exact ⟨m', r, w0, w1⟩

end Asm
end Tfhe
