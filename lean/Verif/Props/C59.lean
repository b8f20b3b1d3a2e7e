import Verif.Model.MkOps
import Verif.Lemma.MultiKey
import Verif.Props.C07
import Verif.Props.C21
import Verif.Props.C31

/-!
# C59: multi-key arithmetic under every decryptor, and multi-key booleans and integers

The results are stated with the decryption of `mktfhe`, for every state of a decryptor: whichever keys it
holds, if it decrypts the operands then it decrypts the result, to the value of the operation.
-/
namespace Tfhe.Mk
open Finset

/-- Nothing changes but the first `len` elements of `out`. -/
def Only {R : Type} (len out : ℕ) (m m' : Mem R) : Prop := ∀ v i, v ≠ out ∨ len ≤ i → m' v i = m v i

/-- The decryptor with all its keys mapped. -/
def Decryptor.mapKeys {K K' : Type} (σ : K → K') (d : Decryptor K) : Decryptor K' :=
  ⟨d.subs.map (Option.map σ), d.keys.map (Option.map σ), d.on⟩

/-- The keys a decryptor uses. -/
def usedKeys {K : Type} (d : Decryptor K) (i : ℕ) : Option K := if d.on.getD i false then (d.subs[i]?).join else none

theorem holds_of_all {K : Type} (d : Decryptor K)
    (h : ∀ i < d.on.length, d.on.getD i false = true → ((d.subs[i]?).join).isSome) :
    Holds d.on.length d (usedKeys d) := by
  refine ⟨rfl, fun i hi => ?_, fun i hi s hs => ?_⟩
  · unfold usedKeys
    cases hon : d.on.getD i false with
    | false => simp
    | true => simp [h i hi hon]
  · unfold usedKeys at hs
    cases hon : d.on.getD i false with
    | false => rw [hon] at hs; simp at hs
    | true =>
      rw [hon, if_pos rfl] at hs
      exact Option.join_eq_some_iff.1 hs

theorem foldlM_range_some {α : Type} (f : α → ℕ → Option α) (n : ℕ) (a : α) {x : α}
    (h : (List.range n).foldlM f a = some x) : ∀ i < n, ∃ b c, f b i = some c := by
  induction n generalizing x with
  | zero => intro i hi; omega
  | succ n ih =>
    rw [List.range_succ, List.foldlM_append] at h
    cases hr : (List.range n).foldlM f a with
    | none => rw [hr] at h; cases h
    | some b =>
      rw [hr] at h
      intro i hi
      rcases Nat.lt_succ_iff_lt_or_eq.1 hi with hi | rfl
      · exact ih hr i hi
      · refine ⟨b, x, ?_⟩
        simpa using h

section
variable {R : Type} [CommRing R]

theorem holds_of_lwe {n : ℕ} {d : Decryptor (Fin n → R)} {ct : ℕ → R} {x : R}
    (h : decryptLWEPhase d ct = some x) : Holds d.on.length d (usedKeys d) := by
  refine holds_of_all d fun i hi hon => ?_
  obtain ⟨b, c, hc⟩ := foldlM_range_some _ _ _ h i hi
  rw [hon, if_pos rfl] at hc
  cases hs : (d.subs[i]?).join with
  | none => rw [hs] at hc; cases hc
  | some s => rfl

theorem holds_of_glwe {d : Decryptor R} {err ct : ℕ → R} {x : R}
    (h : Mk.decryptGLWEPhase d err ct = some x) : Holds d.on.length d (usedKeys d) := by
  refine holds_of_all d fun i hi hon => ?_
  obtain ⟨b, c, hc⟩ := foldlM_range_some _ _ _ h i hi
  rw [hon, if_pos rfl] at hc
  cases hs : (d.subs[i]?).join with
  | none => rw [hs] at hc; cases hc
  | some s => rfl

/-! ### LWE -/

/-- An operation described by C06 acts on the decryptions. -/
theorem lwe_of_phase {P n : ℕ} {d : Decryptor (Fin n → R)} (hP : d.on.length = P) {out : ℕ} {m m' : Mem R}
    {f : (Fin (P * n) → R) → R} (h : HasPhase (P * n) out m m' f) {ct : ℕ → R} {x : R}
    (hx : decryptLWEPhase d ct = some x) {y : R}
    (hy : f (fun t => jointLWE (usedKeys d) t) = y) :
    decryptLWEPhase d (m' out) = some y ∧ Only (P * n + 1) out m m' := by
  subst hP
  refine ⟨?_, h.2⟩
  rw [decryptLWEPhase_eq (holds_of_lwe hx), ← hy, ← h.1]
  rfl

theorem lwe_phase {P n : ℕ} {d : Decryptor (Fin n → R)} (hP : d.on.length = P) {m : Mem R} {v : ℕ} {x : R}
    (hx : decryptLWEPhase d (m v) = some x) :
    phase (fun t : Fin (P * n) => jointLWE (usedKeys d) t) (ctOf (P * n) m v) = x := by
  subst hP
  rw [decryptLWEPhase_eq (holds_of_lwe hx), Option.some.injEq] at hx
  exact hx

variable {P n : ℕ} {d : Decryptor (Fin n → R)} (hP : d.on.length = P) (m : Mem R) (out : ℕ) {ct0 ct1 ct : ℕ} {x y z : R}
include hP

/-- `AddLWETo`, any aliasing, any set of parties. -/
theorem C59_addLWE (h0 : decryptLWEPhase d (m ct0) = some x) (h1 : decryptLWEPhase d (m ct1) = some y) :
    decryptLWEPhase d (addLWETo P n out ct0 ct1 m out) = some (x + y) ∧
      Only (P * n + 1) out m (addLWETo P n out ct0 ct1 m) :=
  lwe_of_phase hP (C06_add (P * n) out ct0 ct1 m) h0 (by rw [lwe_phase hP h0, lwe_phase hP h1])

/-- `SubLWETo`. -/
theorem C59_subLWE (h0 : decryptLWEPhase d (m ct0) = some x) (h1 : decryptLWEPhase d (m ct1) = some y) :
    decryptLWEPhase d (subLWETo P n out ct0 ct1 m out) = some (x - y) ∧
      Only (P * n + 1) out m (subLWETo P n out ct0 ct1 m) :=
  lwe_of_phase hP (C06_sub (P * n) out ct0 ct1 m) h0 (by rw [lwe_phase hP h0, lwe_phase hP h1])

/-- `NegLWETo`. -/
theorem C59_negLWE (h : decryptLWEPhase d (m ct) = some x) :
    decryptLWEPhase d (negLWETo P n out ct m out) = some (-x) ∧ Only (P * n + 1) out m (negLWETo P n out ct m) :=
  lwe_of_phase hP (C06_neg (P * n) out ct m) h (by rw [lwe_phase hP h])

/-- `AddPlainLWETo`. -/
theorem C59_addPlainLWE (h : decryptLWEPhase d (m ct) = some x) (pt : R) :
    decryptLWEPhase d (addPlainLWETo P n out ct pt m out) = some (x + pt) ∧
      Only (P * n + 1) out m (addPlainLWETo P n out ct pt m) :=
  lwe_of_phase hP (C06_addPlain (P * n) out ct pt m) h (by rw [lwe_phase hP h])

/-- `SubPlainLWETo`. -/
theorem C59_subPlainLWE (h : decryptLWEPhase d (m ct) = some x) (pt : R) :
    decryptLWEPhase d (subPlainLWETo P n out ct pt m out) = some (x - pt) ∧
      Only (P * n + 1) out m (subPlainLWETo P n out ct pt m) :=
  lwe_of_phase hP (C06_subPlain (P * n) out ct pt m) h (by rw [lwe_phase hP h])

/-- `ScalarMulLWETo`. -/
theorem C59_scalarMulLWE (h : decryptLWEPhase d (m ct) = some x) (c : R) :
    decryptLWEPhase d (scalarMulLWETo P n out ct c m out) = some (c * x) ∧
      Only (P * n + 1) out m (scalarMulLWETo P n out ct c m) :=
  lwe_of_phase hP (C06_scalarMul (P * n) out ct c m) h (by rw [lwe_phase hP h])

/-- `ScalarMulAddLWETo`. -/
theorem C59_scalarMulAddLWE (ho : decryptLWEPhase d (m out) = some z) (h : decryptLWEPhase d (m ct) = some x) (c : R) :
    decryptLWEPhase d (scalarMulAddLWETo P n out ct c m out) = some (z + c * x) ∧
      Only (P * n + 1) out m (scalarMulAddLWETo P n out ct c m) :=
  lwe_of_phase hP (C06_scalarMulAdd (P * n) out ct c m) h (by rw [lwe_phase hP h, lwe_phase hP ho])

/-- `ScalarMulSubLWETo`. -/
theorem C59_scalarMulSubLWE (ho : decryptLWEPhase d (m out) = some z) (h : decryptLWEPhase d (m ct) = some x) (c : R) :
    decryptLWEPhase d (scalarMulSubLWETo P n out ct c m out) = some (z - c * x) ∧
      Only (P * n + 1) out m (scalarMulSubLWETo P n out ct c m) :=
  lwe_of_phase hP (C06_scalarMulSub (P * n) out ct c m) h (by rw [lwe_phase hP h, lwe_phase hP ho])
end

/-! ### GLWE

`decryptGLWEPhase d 0` is decryption with exact products; the next theorem says what errors do. -/
section
variable {R : Type} [CommRing R]

/-- Decryption with errors in its products is exact decryption plus the errors for the parties it knows. -/
theorem C59_decryptGLWE (d : Decryptor R) (err ct : ℕ → R) :
    Mk.decryptGLWEPhase d err ct = (Mk.decryptGLWEPhase d 0 ct).map
      (· + ∑ i ∈ range d.on.length, if d.on.getD i false then err i else 0) := by
  have key : ∀ err, (∃ x, Mk.decryptGLWEPhase d err ct = some x) → Holds d.on.length d (usedKeys d) :=
    fun err h => holds_of_glwe h.choose_spec
  by_cases hH : Holds d.on.length d (usedKeys d)
  · rw [mkDecryptGLWEPhase_eq hH, mkDecryptGLWEPhase_eq hH, Option.map_some]
    congr 1
    simp only [Pi.zero_apply, ite_self, sum_const_zero, add_zero]
    congr 1
    refine sum_congr rfl fun i hi => ?_
    rw [hH.on i (mem_range.1 hi)]
  · cases h : Mk.decryptGLWEPhase d err ct with
    | some x => exact absurd (key err ⟨x, h⟩) hH
    | none =>
      cases h0 : Mk.decryptGLWEPhase d 0 ct with
      | some x => exact absurd (key 0 ⟨x, h0⟩) hH
      | none => rfl

theorem glwe_eq {P : ℕ} {d : Decryptor R} (hP : d.on.length = P) (hH : Holds d.on.length d (usedKeys d)) (ct : ℕ → R) :
    Mk.decryptGLWEPhase d 0 ct =
      some (phase (fun i : Fin P => jointGLWE (usedKeys d) i) (fun t : Fin (P + 1) => ct t)) := by
  subst hP
  rw [mkDecryptGLWEPhase_eq hH]
  simp

theorem glwe_of_phase {P : ℕ} {d : Decryptor R} (hP : d.on.length = P) {out : ℕ} {m m' : Mem R}
    {f : (Fin P → R) → R} (h : HasPhase P out m m' f) {ct : ℕ → R} {x : R}
    (hx : Mk.decryptGLWEPhase d 0 ct = some x) {y : R}
    (hy : f (fun t => jointGLWE (usedKeys d) t) = y) :
    Mk.decryptGLWEPhase d 0 (m' out) = some y ∧ Only (P + 1) out m m' := by
  refine ⟨?_, h.2⟩
  rw [glwe_eq hP (holds_of_glwe hx), ← hy, ← h.1]
  rfl

theorem glwe_phase {P : ℕ} {d : Decryptor R} (hP : d.on.length = P) {ct : ℕ → R} {x : R}
    (hx : Mk.decryptGLWEPhase d 0 ct = some x) :
    phase (fun t : Fin P => jointGLWE (usedKeys d) t) (fun t : Fin (P + 1) => ct t) = x := by
  rw [glwe_eq hP (holds_of_glwe hx), Option.some.injEq] at hx
  exact hx

theorem glwe_phase' {P : ℕ} {d : Decryptor R} (hP : d.on.length = P) {m : Mem R} {v : ℕ} {x : R}
    (hx : Mk.decryptGLWEPhase d 0 (m v) = some x) :
    phase (fun t : Fin P => jointGLWE (usedKeys d) t) (ctOf P m v) = x := glwe_phase hP hx

variable {P : ℕ} {d : Decryptor R} (hP : d.on.length = P) (m : Mem R) (out : ℕ) {ct0 ct1 ct : ℕ} {x y z u : R}
include hP

/-- `AddGLWETo`, any aliasing, any set of parties. -/
theorem C59_addGLWE (h0 : Mk.decryptGLWEPhase d 0 (m ct0) = some x) (h1 : Mk.decryptGLWEPhase d 0 (m ct1) = some y) :
    Mk.decryptGLWEPhase d 0 (addGLWETo P out ct0 ct1 m out) = some (x + y) ∧
      Only (P + 1) out m (addGLWETo P out ct0 ct1 m) :=
  glwe_of_phase hP (C07_add P out ct0 ct1 m) h0 (by rw [glwe_phase' hP h0, glwe_phase' hP h1])

/-- `SubGLWETo`. -/
theorem C59_subGLWE (h0 : Mk.decryptGLWEPhase d 0 (m ct0) = some x) (h1 : Mk.decryptGLWEPhase d 0 (m ct1) = some y) :
    Mk.decryptGLWEPhase d 0 (subGLWETo P out ct0 ct1 m out) = some (x - y) ∧
      Only (P + 1) out m (subGLWETo P out ct0 ct1 m) :=
  glwe_of_phase hP (C07_sub P out ct0 ct1 m) h0 (by rw [glwe_phase' hP h0, glwe_phase' hP h1])

/-- `NegGLWETo`. -/
theorem C59_negGLWE (h : Mk.decryptGLWEPhase d 0 (m ct) = some x) :
    Mk.decryptGLWEPhase d 0 (negGLWETo P out ct m out) = some (-x) ∧ Only (P + 1) out m (negGLWETo P out ct m) :=
  glwe_of_phase hP (C07_neg P out ct m) h (by rw [glwe_phase' hP h])

/-- `AddPlainGLWETo`. -/
theorem C59_addPlainGLWE (h : Mk.decryptGLWEPhase d 0 (m ct) = some x) (pt : R) :
    Mk.decryptGLWEPhase d 0 (addPlainGLWETo P out ct pt m out) = some (x + pt) ∧
      Only (P + 1) out m (addPlainGLWETo P out ct pt m) :=
  glwe_of_phase hP (C07_addPlain P out ct pt m) h (by rw [glwe_phase' hP h])

/-- `SubPlainGLWETo`. -/
theorem C59_subPlainGLWE (h : Mk.decryptGLWEPhase d 0 (m ct) = some x) (pt : R) :
    Mk.decryptGLWEPhase d 0 (subPlainGLWETo P out ct pt m out) = some (x - pt) ∧
      Only (P + 1) out m (subPlainGLWETo P out ct pt m) :=
  glwe_of_phase hP (C07_subPlain P out ct pt m) h (by rw [glwe_phase' hP h])

/-- `ScalarMulGLWETo`, `PolyMulGLWETo`, `FFTPolyMulGLWETo`: `u` is what the errors of the products decrypt to. -/
theorem C59_mulGLWE (h : Mk.decryptGLWEPhase d 0 (m ct) = some x) (p : R) (err : ℕ → R)
    (hu : Mk.decryptGLWEPhase d 0 err = some u) :
    Mk.decryptGLWEPhase d 0 (mulGLWETo P out ct p err m out) = some (p * x + u) ∧
      Only (P + 1) out m (mulGLWETo P out ct p err m) :=
  glwe_of_phase hP (C07_mul P out ct p err m) h (by rw [glwe_phase' hP h, glwe_phase hP hu])

/-- `ScalarMulAddGLWETo`, `PolyMulAddGLWETo`, `FFTPolyMulAddGLWETo`. -/
theorem C59_mulAddGLWE (ho : Mk.decryptGLWEPhase d 0 (m out) = some z) (h : Mk.decryptGLWEPhase d 0 (m ct) = some x)
    (p : R) (err : ℕ → R) (hu : Mk.decryptGLWEPhase d 0 err = some u) :
    Mk.decryptGLWEPhase d 0 (mulAddGLWETo P out ct p err m out) = some (z + (p * x + u)) ∧
      Only (P + 1) out m (mulAddGLWETo P out ct p err m) :=
  glwe_of_phase hP (C07_mulAdd P out ct p err m) h
    (by rw [glwe_phase' hP h, glwe_phase' hP ho, glwe_phase hP hu])

/-- `ScalarMulSubGLWETo`, `PolyMulSubGLWETo`, `FFTPolyMulSubGLWETo`. -/
theorem C59_mulSubGLWE (ho : Mk.decryptGLWEPhase d 0 (m out) = some z) (h : Mk.decryptGLWEPhase d 0 (m ct) = some x)
    (p : R) (err : ℕ → R) (hu : Mk.decryptGLWEPhase d 0 err = some u) :
    Mk.decryptGLWEPhase d 0 (mulSubGLWETo P out ct p err m out) = some (z - (p * x + u)) ∧
      Only (P + 1) out m (mulSubGLWETo P out ct p err m) :=
  glwe_of_phase hP (C07_mulSub P out ct p err m) h
    (by rw [glwe_phase' hP h, glwe_phase' hP ho, glwe_phase hP hu])

/-- Products by monomials: exact, and the arguments must be apart. -/
theorem C59_monomialGLWE (hne : out ≠ ct) (h : Mk.decryptGLWEPhase d 0 (m ct) = some x) (q : R) :
    (∃ m', exactMapGLWETo P out ct (q * ·) m = some m' ∧
      Mk.decryptGLWEPhase d 0 (m' out) = some (q * x) ∧ Only (P + 1) out m m') ∧
    (∀ z, Mk.decryptGLWEPhase d 0 (m out) = some z →
      (∃ m', exactMapAddGLWETo P out ct (q * ·) m = some m' ∧
        Mk.decryptGLWEPhase d 0 (m' out) = some (z + q * x) ∧ Only (P + 1) out m m') ∧
      (∃ m', exactMapSubGLWETo P out ct (q * ·) m = some m' ∧
        Mk.decryptGLWEPhase d 0 (m' out) = some (z - q * x) ∧ Only (P + 1) out m m')) := by
  obtain ⟨⟨m1, e1, p1⟩, ⟨m2, e2, p2⟩, ⟨m3, e3, p3⟩⟩ := C07_monomial P out ct hne q m
  refine ⟨⟨m1, e1, glwe_of_phase hP p1 h (by rw [glwe_phase' hP h])⟩, fun z hz => ⟨⟨m2, e2, ?_⟩, ⟨m3, e3, ?_⟩⟩⟩
  · exact glwe_of_phase hP p2 h (by rw [glwe_phase' hP h, glwe_phase' hP hz])
  · exact glwe_of_phase hP p3 h (by rw [glwe_phase' hP h, glwe_phase' hP hz])

/-- `MonomialMulGLWEInPlace`. -/
theorem C59_monomialInPlace (h : Mk.decryptGLWEPhase d 0 (m ct) = some x) (q : R) :
    Mk.decryptGLWEPhase d 0 (exactMapGLWEInPlace P ct (q * ·) m ct) = some (q * x) ∧
      Only (P + 1) ct m (exactMapGLWEInPlace P ct (q * ·) m) :=
  glwe_of_phase hP (C07_monomialInPlace P ct q m) h (by rw [glwe_phase' hP h])

omit hP in
theorem usedKeys_map (σ : R →+* R) (d : Decryptor R) (i : ℕ) :
    usedKeys (d.mapKeys σ) i = (usedKeys d i).map σ := by
  unfold usedKeys Decryptor.mapKeys
  simp only
  split
  · rw [List.getElem?_map]
    cases d.subs[i]? with
    | none => rfl
    | some o => cases o <;> rfl
  · rfl

omit hP in
theorem holds_map (σ : R →+* R) {d : Decryptor R} (h : Holds d.on.length d (usedKeys d)) :
    Holds (d.mapKeys σ).on.length (d.mapKeys σ) (usedKeys (d.mapKeys σ)) := by
  refine holds_of_all _ fun i hi hon => ?_
  have h1 := h.on i hi
  rw [show d.on.getD i false = true from hon] at h1
  have h2 := usedKeys_map σ d i
  unfold usedKeys at h2
  rw [if_pos hon, if_pos (show d.on.getD i false = true from hon)] at h2
  rw [h2]
  unfold usedKeys at h1
  rw [if_pos (show d.on.getD i false = true from hon)] at h1
  simpa using h1.symm

omit hP in
theorem joint_map (σ : R →+* R) (d : Decryptor R) (i : ℕ) :
    jointGLWE (usedKeys (d.mapKeys σ)) i = σ (jointGLWE (usedKeys d) i) := by
  unfold jointGLWE
  rw [usedKeys_map]
  cases usedKeys d i <;> simp

/-- Permutations `X ↦ X^d`: the result decrypts with the permuted keys, to the permuted value. -/
theorem C59_permuteGLWE (hne : out ≠ ct) (h : Mk.decryptGLWEPhase d 0 (m ct) = some x) (σ : R →+* R) :
    (∃ m', exactMapGLWETo P out ct σ m = some m' ∧
      Mk.decryptGLWEPhase (d.mapKeys σ) 0 (m' out) = some (σ x) ∧ Only (P + 1) out m m') ∧
    (∀ z, Mk.decryptGLWEPhase (d.mapKeys σ) 0 (m out) = some z →
      (∃ m', exactMapAddGLWETo P out ct σ m = some m' ∧
        Mk.decryptGLWEPhase (d.mapKeys σ) 0 (m' out) = some (z + σ x) ∧ Only (P + 1) out m m') ∧
      (∃ m', exactMapSubGLWETo P out ct σ m = some m' ∧
        Mk.decryptGLWEPhase (d.mapKeys σ) 0 (m' out) = some (z - σ x) ∧ Only (P + 1) out m m')) := by
  obtain ⟨m1, e1, p1, f1⟩ := C07_permute P out ct hne σ m
  obtain ⟨m2, e2, p2, f2⟩ := C07_permuteAdd P out ct hne σ m
  obtain ⟨m3, e3, p3, f3⟩ := C07_permuteSub P out ct hne σ m
  have hP' : (d.mapKeys σ).on.length = P := hP
  have hH' := holds_map σ (holds_of_glwe h)
  have ej : (fun i : Fin P => jointGLWE (usedKeys (d.mapKeys σ)) i) = fun i : Fin P => σ (jointGLWE (usedKeys d) i) :=
    funext fun i => joint_map σ d i
  refine ⟨⟨m1, e1, ?_, f1⟩, fun z hz => ⟨⟨m2, e2, ?_, f2⟩, ⟨m3, e3, ?_, f3⟩⟩⟩
  · rw [glwe_eq hP' hH', ej, ← glwe_phase' hP h]
    exact congrArg some (p1 _)
  · have hz' := glwe_phase' hP' hz
    rw [ej] at hz'
    rw [glwe_eq hP' hH', ej, ← glwe_phase' hP h, ← hz']
    exact congrArg some (p2 _)
  · have hz' := glwe_phase' hP' hz
    rw [ej] at hz'
    rw [glwe_eq hP' hH', ej, ← glwe_phase' hP h, ← hz']
    exact congrArg some (p3 _)

/-- `PermuteGLWEInPlace`. -/
theorem C59_permuteInPlace (h : Mk.decryptGLWEPhase d 0 (m ct) = some x) (σ : R →+* R) :
    Mk.decryptGLWEPhase (d.mapKeys σ) 0 (exactMapGLWEInPlace P ct σ m ct) = some (σ x) ∧
      Only (P + 1) ct m (exactMapGLWEInPlace P ct σ m) := by
  obtain ⟨p1, f1⟩ := C07_permuteInPlace P ct σ m
  have hP' : (d.mapKeys σ).on.length = P := hP
  have ej : (fun i : Fin P => jointGLWE (usedKeys (d.mapKeys σ)) i) = fun i : Fin P => σ (jointGLWE (usedKeys d) i) :=
    funext fun i => joint_map σ d i
  refine ⟨?_, f1⟩
  rw [glwe_eq hP' (holds_map σ (holds_of_glwe h)), ej, ← glwe_phase' hP h]
  exact congrArg some (p1 _)
end

/-- Two parties, the second unknown to the decryptor: `ct1 -= ct0` and then `ct1 += 3 ct1`. -/
example :
    let d : Decryptor (Fin 2 → BitVec 32) := ⟨[some ![1, 1], none], [], [true, false]⟩
    let m : Mem (BitVec 32) := fun v i => BitVec.ofNat 32 (7 * v + i)
    d.on.length = 2 ∧ decryptLWEPhase d (m 0) = some 3 ∧ decryptLWEPhase d (m 1) = some 24 ∧
      decryptLWEPhase d (scalarMulAddLWETo 2 2 1 1 3 (subLWETo 2 2 1 1 0 m) 1) = some 84 := by decide +kernel

/-! ### Booleans and integers -/

section
variable {w n P idx : ℕ} {d : Decryptor (Fin n → BitVec w)} {held : ℕ → Option (Fin n → BitVec w)}

/-- A boolean of party `idx` decrypts with every decryptor that holds its key. -/
theorem C59_bool (hw : 3 ≤ w) (hn : 0 < n) (hidx : idx < P) (sk mask : Fin n → BitVec w) (noise : BitVec w) (b : Bool)
    (hd : Holds P d held) (hk : held idx = some sk) (hnoise : wabs noise < 2 ^ (w - 3)) :
    ∃ ct, encryptLWEBool P n idx sk mask noise b = some ct ∧ decryptLWEBool d ct = some b := by
  obtain ⟨ct, h1, h2⟩ := C31_lwe hn hidx sk mask noise (encodeLWEBool w b) hd hk
  refine ⟨ct, h1, ?_⟩
  unfold decryptLWEBool
  rw [h2, Option.map_some]
  have h3 := C21_decode hw sk _ _ _ (C21_fresh hw sk mask noise b) hnoise
  unfold Tfhe.decryptLWEBool Tfhe.encryptLWEBool at h3
  rw [Tfhe.decryptLWEPhase_eq, (C05_fresh sk mask noise _).1] at h3
  rw [h3]

/-- **C59, integers.** The bits of any integer, encrypted by any party, decrypt to the integer modulo `2^bits`
(as an `int`) with every decryptor that holds the key of the party. -/
theorem C59_bits (hw : 3 ≤ w) (hn : 0 < n) (hidx : idx < P) (sk : Fin n → BitVec w) (mask : ℕ → Fin n → BitVec w)
    (noise : ℕ → BitVec w) (bits : ℕ) (message : BitVec 64) (hd : Holds P d held) (hk : held idx = some sk)
    (hnoise : ∀ j, j < bits → wabs (noise j) < 2 ^ (w - 3)) :
    ∃ cts, encryptLWEBits P idx sk mask noise bits 0 message = some cts ∧ cts.length = bits ∧
      decryptLWEBits d cts = some (BitVec.ofInt 64 (message.toInt % 2 ^ bits)) := by
  have gen : ∀ bits i message, ∃ cts, encryptLWEBits P idx sk mask noise bits i message = some cts ∧
      cts.length = bits ∧
      decryptLWEBits d cts = some (Tfhe.decryptLWEBits sk (Tfhe.encryptLWEBits sk mask noise bits i message)) := by
    intro bits
    induction bits with
    | zero => intro i message; exact ⟨[], rfl, rfl, rfl⟩
    | succ bits ih =>
      intro i message
      obtain ⟨cts, h1, h2, h3⟩ := ih (i + 1) (message.sshiftRight 1)
      obtain ⟨ct, c1, c2⟩ := C31_lwe hn hidx sk (mask i) (noise i) (encodeLWEBool w (message &&& 1 == 1)) hd hk
      refine ⟨ct :: cts, ?_, by rw [List.length_cons, h2], ?_⟩
      · rw [encryptLWEBits, encryptLWEBool, c1, Option.bind_some, h1, Option.map_some]
      · unfold decryptLWEBits at h3 ⊢
        rw [List.reverse_cons, List.foldlM_append, h3]
        simp only [Option.bind_eq_bind, Option.bind_some, List.foldlM_cons, List.foldlM_nil, decryptBitStep, decryptLWEBool, c2,
          Option.map_some, Option.pure_def]
        unfold Tfhe.decryptLWEBits
        rw [Tfhe.encryptLWEBits, List.reverse_cons, List.foldl_append, List.foldl_cons, List.foldl_nil]
        unfold Tfhe.decryptBitStep Tfhe.decryptLWEBool Tfhe.encryptLWEBool
        rw [Tfhe.decryptLWEPhase_eq, (C05_fresh sk (mask i) (noise i) _).1]
  obtain ⟨cts, h1, h2, h3⟩ := gen bits 0 message
  exact ⟨cts, h1, h2, by rw [h3, C22_round_trip hw sk mask noise bits message hnoise]⟩

/-- An index out of range panics. -/
theorem C59_index (hn : 0 < n) (hidx : P ≤ idx) (sk mask : Fin n → BitVec w) (noise : BitVec w) (b : Bool) :
    encryptLWEBool P n idx sk mask noise b = none := by
  unfold encryptLWEBool encryptLWE mkLWECopyFromSubKey
  rw [if_neg (by omega), if_neg (by simp), if_pos]
  exact Nat.mul_lt_mul_of_pos_right (by omega) hn
end

/-- The bits of -3 from the second of three parties, on a decryptor that holds two keys. -/
example :
    let d : Decryptor (Fin 2 → BitVec 32) := ⟨[none, some ![1, 0], some ![1, 1]], [], [false, true, true]⟩
    ((encryptLWEBits 3 1 ![1, 0] (fun i _ => BitVec.ofNat 32 (12345 * i + 99)) (fun i => BitVec.ofNat 32 i) 5 0 (-3)).bind
      (decryptLWEBits d)) = some 29 := by decide +kernel

end Tfhe.Mk
