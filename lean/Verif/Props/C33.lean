import Verif.Lemma.MultiProd
import Verif.Props.C13

/-!
# C33: multi-key hybrid and external products multiply phases
-/
namespace Tfhe.Mk
open Finset

section
variable {R : Type} [CommRing R]

omit [CommRing R] in
/-- Write the body, then the components of all parties. -/
theorem writeAll_spec (P out : ℕ) (x : R) (f : ℕ → R → R → R → R) (m : Mem R) (v i : ℕ) :
    mapLoopI f out out out (List.range' 1 P) (m.write out 0 x) v i =
      if v = out ∧ i ≤ P then (if i = 0 then x else f i (m out i) (m out i) (m out i)) else m v i := by
  rw [mapLoopI_spec _ _ _ _ _ List.nodup_range']
  simp only [Mem.write, List.mem_range'_1, true_and]
  by_cases hv : v = out
  · subst hv
    by_cases hi : i = 0
    · subst hi; simp
    · by_cases hP : i ≤ P
      · simp [hi, hP, show 1 ≤ i ∧ i < 1 + P by omega]
      · simp [hi, hP, show ¬ (1 ≤ i ∧ i < 1 + P) by omega]
  · simp [hv]

theorem phase_mk_congr {K : Type} (P : ℕ) (keys : ℕ → Option K) (z c c' : ℕ → R) (h0 : c 0 = c' 0)
    (h : ∀ i < P, isOn keys i → c (i + 1) = c' (i + 1)) :
    phase (mkKey P keys z) (fun t : Fin (P + 1) => c t) = phase (mkKey P keys z) (fun t : Fin (P + 1) => c' t) := by
  rw [phase_range, phase_range, h0]
  congr 1
  refine sum_congr rfl fun i hi => ?_
  by_cases ho : isOn keys i
  · rw [if_pos ho, if_pos ho, h i (mem_range.1 hi) ho]
  · rw [if_neg ho, if_neg ho]

/-- Everything a hybrid product by party `idx` needs: the party is known, the public keys are valid and `u` is a
uni-encryption of `p`. -/
structure HybridOK (P : ℕ) (keys : ℕ → Option (EvalKey R)) (idx : ℕ) (G : Gadget R) (a z : ℕ → R) (e : ℕ → ℕ → R)
    (p r : R) (u : UniEnc R) (e0 e1 : ℕ → R) : Prop where
  idx_lt : idx < P
  known : (keys idx).isSome
  level_pos : 0 < G.level
  crs : CRSValid P G.level keys a z e
  uni : IsUni G a (z idx) p u r e0 e1

variable {P : ℕ} {keys : ℕ → Option (EvalKey R)} {idx : ℕ} {G : Gadget R} {a z : ℕ → R} {e : ℕ → ℕ → R} {p r : R}
  {u : UniEnc R} {e0 e1 : ℕ → R}

/-- `HybridProdGLWETo`: the joint phase is `p` times the phase of the input plus noise, whatever was in the output
and in the buffers; unknown parties are cleared and nothing else is written. -/
theorem C33_hybrid (h : HybridOK P keys idx G a z e p r u e0 e1) (c buf : ℕ → R) (errSub : R) (err : ℕ → R)
    (out : ℕ) (m : Mem R) :
    ∃ m', hybridProdTo P keys idx G u c buf errSub err out m = some m' ∧
      phase (mkKey P keys z) (ctOf P m' out) = p * phase (mkKey P keys z) (fun t : Fin (P + 1) => c t) +
        hybridNoise P keys z G a p r e e0 e1 c errSub err ∧
      (∀ i < P, isOn keys i = false → m' out (i + 1) = 0) ∧
      (∀ v i, v ≠ out ∨ P + 1 ≤ i → m' v i = m v i) := by
  obtain ⟨k, hk⟩ := Option.isSome_iff_exists.1 h.known
  obtain ⟨prod, h1, h2⟩ := hybrid_phase P keys idx h.idx_lt k hk G h.level_pos a z e h.crs p r u e0 e1 h.uni c buf errSub err
  unfold hybridProdTo
  rw [h1, Option.map_some]
  refine ⟨_, rfl, ?_, fun i hi hoff => ?_, fun v i hvi => ?_⟩
  · rw [← h2]
    refine phase_mk_congr P keys z (fun t => _) (fun t => prod t + err t) ?_ fun i hi ho => ?_
    · rw [writeAll_spec]; simp
    · rw [writeAll_spec]; simp [Nat.succ_le_of_lt hi, ho]
  · rw [writeAll_spec]; simp [Nat.succ_le_of_lt hi, hoff]
  · rw [writeAll_spec, if_neg (by omega)]

/-- `HybridProdAddGLWETo` adds exactly that to the output, and leaves unknown parties alone. -/
theorem C33_hybridAdd (h : HybridOK P keys idx G a z e p r u e0 e1) (c buf : ℕ → R) (errSub : R) (err : ℕ → R)
    (out : ℕ) (m : Mem R) :
    ∃ m', hybridProdAddTo P keys idx G u c buf errSub err out m = some m' ∧
      phase (mkKey P keys z) (ctOf P m' out) = phase (mkKey P keys z) (ctOf P m out) +
        (p * phase (mkKey P keys z) (fun t : Fin (P + 1) => c t) +
          hybridNoise P keys z G a p r e e0 e1 c errSub err) ∧
      (∀ i < P, isOn keys i = false → m' out (i + 1) = m out (i + 1)) ∧
      (∀ v i, v ≠ out ∨ P + 1 ≤ i → m' v i = m v i) := by
  obtain ⟨k, hk⟩ := Option.isSome_iff_exists.1 h.known
  obtain ⟨prod, h1, h2⟩ := hybrid_phase P keys idx h.idx_lt k hk G h.level_pos a z e h.crs p r u e0 e1 h.uni c buf errSub err
  unfold hybridProdAddTo
  rw [h1, Option.map_some]
  refine ⟨_, rfl, ?_, fun i hi hoff => ?_, fun v i hvi => ?_⟩
  · rw [← h2, ← phase_add]
    refine phase_mk_congr P keys z (fun t => _) (fun t => m out t + (prod t + err t)) ?_ fun i hi ho => ?_
    · rw [writeAll_spec]; simp
    · rw [writeAll_spec]; simp [Nat.succ_le_of_lt hi, ho]
  · rw [writeAll_spec]; simp [Nat.succ_le_of_lt hi, hoff]
  · rw [writeAll_spec, if_neg (by omega)]

/-- `HybridProdSubGLWETo` subtracts exactly that. -/
theorem C33_hybridSub (h : HybridOK P keys idx G a z e p r u e0 e1) (c buf : ℕ → R) (errSub : R) (err : ℕ → R)
    (out : ℕ) (m : Mem R) :
    ∃ m', hybridProdSubTo P keys idx G u c buf errSub err out m = some m' ∧
      phase (mkKey P keys z) (ctOf P m' out) = phase (mkKey P keys z) (ctOf P m out) -
        (p * phase (mkKey P keys z) (fun t : Fin (P + 1) => c t) +
          hybridNoise P keys z G a p r e e0 e1 c errSub err) ∧
      (∀ i < P, isOn keys i = false → m' out (i + 1) = m out (i + 1)) ∧
      (∀ v i, v ≠ out ∨ P + 1 ≤ i → m' v i = m v i) := by
  obtain ⟨k, hk⟩ := Option.isSome_iff_exists.1 h.known
  obtain ⟨prod, h1, h2⟩ := hybrid_phase P keys idx h.idx_lt k hk G h.level_pos a z e h.crs p r u e0 e1 h.uni c buf errSub err
  unfold hybridProdSubTo
  rw [h1, Option.map_some]
  refine ⟨_, rfl, ?_, fun i hi hoff => ?_, fun v i hvi => ?_⟩
  · rw [← h2, ← phase_sub]
    refine phase_mk_congr P keys z (fun t => _) (fun t => m out t - (prod t + err t)) ?_ fun i hi ho => ?_
    · rw [writeAll_spec]; simp
    · rw [writeAll_spec]; simp [Nat.succ_le_of_lt hi, ho]
  · rw [writeAll_spec]; simp [Nat.succ_le_of_lt hi, hoff]
  · rw [writeAll_spec, if_neg (by omega)]

/-! ### External products -/

theorem relinLoop_spec (P : ℕ) (keys : ℕ → Option (EvalKey R)) (G : Gadget R) (lev : ℕ → Fin 2 → R) (c : ℕ → R)
    (err : ℕ → Fin 2 → R) (st : (ℕ → Fin 2 → R) × (ℕ → R)) :
    ∀ t ≤ P, (t = 0 ∨ isOn keys (t - 1)) →
      (relinLoop P keys G lev c err st).1 t = gadgetProdGLWE G lev (c t) (err t) ∧
      (relinLoop P keys G lev c err st).2 t = gadgetProdGLWE G lev (c t) (err t) 1 := by
  induction P with
  | zero => intro t ht _; obtain rfl : t = 0 := by omega
            simp [relinLoop, upd]
  | succ P ih =>
    intro t ht hon
    have e : relinLoop (P + 1) keys G lev c err st = (match keys P with
      | none => relinLoop P keys G lev c err st
      | some _ => (upd (relinLoop P keys G lev c err st).1 (P + 1) (gadgetProdGLWE G lev (c (P + 1)) (err (P + 1))),
          upd (relinLoop P keys G lev c err st).2 (P + 1) (gadgetProdGLWE G lev (c (P + 1)) (err (P + 1)) 1))) := by
      unfold relinLoop
      simp only
      rw [List.range_succ, List.foldl_append, List.foldl_cons, List.foldl_nil]
      cases keys P <;> rfl
    rw [e]
    by_cases htP : t = P + 1
    · subst htP
      rcases hon with h | h
      · omega
      · obtain ⟨k, hk⟩ := Option.isSome_iff_exists.1 (show (keys P).isSome from h)
        rw [hk]; simp [upd]
    · cases keys P with
      | none => exact ih t (by omega) hon
      | some k => simp only [upd, if_neg htP]; exact ih t (by omega) hon

theorem hybridNoise_congr (P : ℕ) (keys : ℕ → Option (EvalKey R)) (z : ℕ → R) (G : Gadget R) (a : ℕ → R) (p r : R)
    (e : ℕ → ℕ → R) (e0 e1 : ℕ → R) (c c' : ℕ → R) (errSub : R) (err : ℕ → R)
    (h : ∀ t ≤ P, (t = 0 ∨ isOn keys (t - 1)) → c t = c' t) :
    hybridNoise P keys z G a p r e e0 e1 c errSub err = hybridNoise P keys z G a p r e e0 e1 c' errSub err := by
  have h0 : c 0 = c' 0 := h 0 (by omega) (Or.inl rfl)
  have hi : ∀ i < P, isOn keys i → c (i + 1) = c' (i + 1) := fun i hi ho =>
    h (i + 1) (by omega) (Or.inr (by simpa using ho))
  have hv : hybridV P keys a G c errSub = hybridV P keys a G c' errSub := by
    unfold hybridV
    rw [h0]
    congr 2
    refine sum_congr rfl fun i hi' => ?_
    cases hk : keys i with
    | none => rfl
    | some k => simp only [Option.elim_some]; rw [hi i (mem_range.1 hi') (by simp [isOn, hk])]
  have hsum : ∑ i ∈ range P, (if isOn keys i then against G (e i) (c (i + 1)) else 0) =
      ∑ i ∈ range P, (if isOn keys i then against G (e i) (c' (i + 1)) else 0) := by
    refine sum_congr rfl fun i hi' => ?_
    by_cases ho : isOn keys i
    · rw [if_pos ho, if_pos ho, hi i (mem_range.1 hi') ho]
    · rw [if_neg ho, if_neg ho]
  unfold hybridNoise
  rw [hv, hsum, phase_mk_congr P keys z (fun t => G.eps (c t)) (fun t => G.eps (c' t)) (by rw [h0])
      fun i hi' ho => by rw [hi i hi' ho],
    phase_mk_congr P keys z (fun t => against G e0 (c t)) (fun t => against G e0 (c' t)) (by rw [h0])
      fun i hi' ho => by rw [hi i hi' ho]]

/-- What the gadget products of the external product add to `m * phase c`. -/
def relinNoise {K : Type} (P : ℕ) (keys : ℕ → Option K) (z : ℕ → R) (zi : R) (G : Gadget R) (m : R) (e : ℕ → R)
    (c : ℕ → R) (errT : ℕ → Fin 2 → R) : R :=
  m * phase (mkKey P keys z) (fun t : Fin (P + 1) => G.eps (c t)) +
  phase (mkKey P keys z) (fun t : Fin (P + 1) => against G e (c t)) +
  phase (mkKey P keys z) (fun t : Fin (P + 1) => errT t 0 + errT t 1 * zi)

/-- The noise of an external product with a GLev ciphertext `lev` of `μ` with noise `el`. -/
def extNoise (P : ℕ) (keys : ℕ → Option (EvalKey R)) (z : ℕ → R) (idx : ℕ) (G Gr : Gadget R) (lev : ℕ → Fin 2 → R)
    (μ : R) (el a : ℕ → R) (r : R) (e : ℕ → ℕ → R) (e0 e1 c : ℕ → R) (errT : ℕ → Fin 2 → R) (errSub : R)
    (err : ℕ → R) : R :=
  relinNoise P keys z (z idx) G μ el c errT +
  hybridNoise P keys z Gr a (z idx) r e e0 e1 (fun t => gadgetProdGLWE G lev (c t) (errT t) 1) errSub err

theorem relin_phase (P : ℕ) {K : Type} (keys : ℕ → Option K) (z : ℕ → R) (zi : R) (G : Gadget R) (hL : 0 < G.level)
    (lev : ℕ → Fin 2 → R) (μ : R) (el : ℕ → R) (hlev : IsLev G (fun _ : Fin 1 => zi) μ lev el) (c : ℕ → R)
    (errT : ℕ → Fin 2 → R) :
    phase (mkKey P keys z) (fun t : Fin (P + 1) => gadgetProdGLWE G lev (c t) (errT t) 0) +
      zi * phase (mkKey P keys z) (fun t : Fin (P + 1) => gadgetProdGLWE G lev (c t) (errT t) 1) =
    μ * phase (mkKey P keys z) (fun t : Fin (P + 1) => c t) + relinNoise P keys z zi G μ el c errT := by
  unfold relinNoise
  rw [← phase_smul, ← phase_add, ← phase_smul, ← phase_smul, ← phase_add, ← phase_add, ← phase_add]
  congr 1
  funext t
  have h := C13_gadgetProd G hL (fun _ : Fin 1 => zi) μ lev el hlev (c t) (errT t)
  simp only [phase, Fin.sum_univ_succ, Fin.sum_univ_zero, add_zero] at h
  have h01 : (Fin.succ 0 : Fin 2) = 1 := rfl
  rw [h01] at h
  unfold against
  simp only [Pi.add_apply]
  linear_combination h

/-- Everything an external product by party `idx` needs; `lev` is a GLev ciphertext of `μ` under the key of the
party and `k` its evaluation key, whose relinearization key encrypts the key of the party. -/
structure ExtOK (P : ℕ) (keys : ℕ → Option (EvalKey R)) (idx : ℕ) (G Gr : Gadget R) (a z : ℕ → R) (e : ℕ → ℕ → R)
    (r : R) (k : EvalKey R) (e0 e1 : ℕ → R) (lev : ℕ → Fin 2 → R) (μ : R) (el : ℕ → R) : Prop where
  key : keys idx = some k
  hybrid : HybridOK P keys idx Gr a z e (z idx) r k.relin e0 e1
  level_pos : 0 < G.level
  lev : IsLev G (fun _ : Fin 1 => z idx) μ lev el

theorem addRelinT_spec (P : ℕ) (keys : ℕ → Option (EvalKey R)) (t : ℕ → Fin 2 → R) (out : ℕ) (m : Mem R) (z : ℕ → R) :
    phase (mkKey P keys z) (ctOf P (addRelinT P keys t out m) out) =
      phase (mkKey P keys z) (ctOf P m out) + phase (mkKey P keys z) (fun i : Fin (P + 1) => t i 0) ∧
    (∀ i < P, isOn keys i = false → addRelinT P keys t out m out (i + 1) = m out (i + 1)) ∧
    (∀ v i, v ≠ out ∨ P + 1 ≤ i → addRelinT P keys t out m v i = m v i) := by
  unfold addRelinT
  refine ⟨?_, fun i hi hoff => ?_, fun v i hvi => ?_⟩
  · rw [← phase_add]
    refine phase_mk_congr P keys z (fun t => _) (fun i => m out i + t i 0) ?_ fun i hi ho => ?_
    · rw [writeAll_spec]; simp
    · rw [writeAll_spec]; simp [Nat.succ_le_of_lt hi, ho]
  · rw [writeAll_spec]; simp [Nat.succ_le_of_lt hi, hoff]
  · rw [writeAll_spec, if_neg (by omega)]

variable {Gr : Gadget R} {k : EvalKey R} {lev : ℕ → Fin 2 → R} {μ : R} {el : ℕ → R}

/-- `ExternalProdGLWETo`: the joint phase is `μ` times the phase of the input plus noise, also in place. -/
theorem C33_external (h : ExtOK P keys idx G Gr a z e r k e0 e1 lev μ el) (bufT : ℕ → Fin 2 → R) (bufR buf : ℕ → R)
    (errT : ℕ → Fin 2 → R) (errSub : R) (err : ℕ → R) (ct out : ℕ) (m : Mem R) :
    ∃ m', externalProdTo P keys idx G Gr lev bufT bufR buf errT errSub err ct out m = some m' ∧
      phase (mkKey P keys z) (ctOf P m' out) = μ * phase (mkKey P keys z) (ctOf P m ct) +
        extNoise P keys z idx G Gr lev μ el a r e e0 e1 (m ct) errT errSub err ∧
      (∀ i < P, isOn keys i = false → m' out (i + 1) = 0) ∧
      (∀ v i, v ≠ out ∨ P + 1 ≤ i → m' v i = m v i) := by
  have hs := relinLoop_spec P keys G lev (m ct) errT (bufT, bufR)
  unfold externalProdTo
  rw [h.key, Option.bind_some]
  simp only
  generalize relinLoop P keys G lev (m ct) errT (bufT, bufR) = st at hs ⊢
  obtain ⟨m1, h1, h2, h3, h4⟩ := C33_hybrid h.hybrid st.2 buf errSub err out m
  rw [h1, Option.map_some]
  obtain ⟨g1, g2, g3⟩ := addRelinT_spec P keys st.1 out m1 z
  refine ⟨_, rfl, ?_, fun i hi hoff => by rw [g2 i hi hoff, h3 i hi hoff], fun v i hvi => by rw [g3 v i hvi, h4 v i hvi]⟩
  have hon : ∀ i < P, isOn keys i → (i + 1 = 0 ∨ isOn keys (i + 1 - 1)) := fun i _ ho => Or.inr (by simpa using ho)
  rw [g1, h2, hybridNoise_congr P keys z Gr a _ r e e0 e1 st.2
      (fun t => gadgetProdGLWE G lev (m ct t) (errT t) 1) errSub err fun t ht ho => (hs t ht ho).2,
    phase_mk_congr P keys z st.2 (fun t => gadgetProdGLWE G lev (m ct t) (errT t) 1) (hs 0 (by omega) (Or.inl rfl)).2
      (fun i hi ho => (hs (i + 1) (by omega) (hon i hi ho)).2),
    phase_mk_congr P keys z (fun t => st.1 t 0) (fun t => gadgetProdGLWE G lev (m ct t) (errT t) 0)
      (by rw [(hs 0 (by omega) (Or.inl rfl)).1]) (fun i hi ho => by rw [(hs (i + 1) (by omega) (hon i hi ho)).1])]
  have hr := relin_phase P keys z (z idx) G h.level_pos lev μ el h.lev (m ct) errT
  unfold extNoise ctOf
  linear_combination hr

/-- `ExternalProdAddGLWETo` adds exactly that to the output. -/
theorem C33_externalAdd (h : ExtOK P keys idx G Gr a z e r k e0 e1 lev μ el) (bufT : ℕ → Fin 2 → R) (bufR buf : ℕ → R)
    (errT : ℕ → Fin 2 → R) (errSub : R) (err : ℕ → R) (ct out : ℕ) (m : Mem R) :
    ∃ m', externalProdAddTo P keys idx G Gr lev bufT bufR buf errT errSub err ct out m = some m' ∧
      phase (mkKey P keys z) (ctOf P m' out) = phase (mkKey P keys z) (ctOf P m out) +
        (μ * phase (mkKey P keys z) (ctOf P m ct) +
          extNoise P keys z idx G Gr lev μ el a r e e0 e1 (m ct) errT errSub err) ∧
      (∀ i < P, isOn keys i = false → m' out (i + 1) = m out (i + 1)) ∧
      (∀ v i, v ≠ out ∨ P + 1 ≤ i → m' v i = m v i) := by
  have hs := relinLoop_spec P keys G lev (m ct) errT (bufT, bufR)
  unfold externalProdAddTo
  rw [h.key, Option.bind_some]
  simp only
  generalize relinLoop P keys G lev (m ct) errT (bufT, bufR) = st at hs ⊢
  obtain ⟨m1, h1, h2, h3, h4⟩ := C33_hybridAdd h.hybrid st.2 buf errSub err out m
  rw [h1, Option.map_some]
  obtain ⟨g1, g2, g3⟩ := addRelinT_spec P keys st.1 out m1 z
  refine ⟨_, rfl, ?_, fun i hi hoff => by rw [g2 i hi hoff, h3 i hi hoff], fun v i hvi => by rw [g3 v i hvi, h4 v i hvi]⟩
  have hon : ∀ i < P, isOn keys i → (i + 1 = 0 ∨ isOn keys (i + 1 - 1)) := fun i _ ho => Or.inr (by simpa using ho)
  rw [g1, h2, hybridNoise_congr P keys z Gr a _ r e e0 e1 st.2
      (fun t => gadgetProdGLWE G lev (m ct t) (errT t) 1) errSub err fun t ht ho => (hs t ht ho).2,
    phase_mk_congr P keys z st.2 (fun t => gadgetProdGLWE G lev (m ct t) (errT t) 1) (hs 0 (by omega) (Or.inl rfl)).2
      (fun i hi ho => (hs (i + 1) (by omega) (hon i hi ho)).2),
    phase_mk_congr P keys z (fun t => st.1 t 0) (fun t => gadgetProdGLWE G lev (m ct t) (errT t) 0)
      (by rw [(hs 0 (by omega) (Or.inl rfl)).1]) (fun i hi ho => by rw [(hs (i + 1) (by omega) (hon i hi ho)).1])]
  have hr := relin_phase P keys z (z idx) G h.level_pos lev μ el h.lev (m ct) errT
  unfold extNoise ctOf
  linear_combination hr

/-- What `ExternalProdSubGLWETo` really computes: the product is subtracted, but the bodies of the gadget products
are added where they should be subtracted, so twice their phase is left over.  Missing from the property: that
this last term is not there. -/
theorem C33_externalSub_partial (h : ExtOK P keys idx G Gr a z e r k e0 e1 lev μ el) (bufT : ℕ → Fin 2 → R)
    (bufR buf : ℕ → R) (errT : ℕ → Fin 2 → R) (errSub : R) (err : ℕ → R) (ct out : ℕ) (m : Mem R) :
    ∃ m', externalProdSubTo P keys idx G Gr lev bufT bufR buf errT errSub err ct out m = some m' ∧
      phase (mkKey P keys z) (ctOf P m' out) = phase (mkKey P keys z) (ctOf P m out) -
        (μ * phase (mkKey P keys z) (ctOf P m ct) +
          extNoise P keys z idx G Gr lev μ el a r e e0 e1 (m ct) errT errSub err) +
        2 * phase (mkKey P keys z) (fun t : Fin (P + 1) => gadgetProdGLWE G lev (m ct t) (errT t) 0) ∧
      (∀ i < P, isOn keys i = false → m' out (i + 1) = m out (i + 1)) ∧
      (∀ v i, v ≠ out ∨ P + 1 ≤ i → m' v i = m v i) := by
  have hs := relinLoop_spec P keys G lev (m ct) errT (bufT, bufR)
  unfold externalProdSubTo
  rw [h.key, Option.bind_some]
  simp only
  generalize relinLoop P keys G lev (m ct) errT (bufT, bufR) = st at hs ⊢
  obtain ⟨m1, h1, h2, h3, h4⟩ := C33_hybridSub h.hybrid st.2 buf errSub err out m
  rw [h1, Option.map_some]
  obtain ⟨g1, g2, g3⟩ := addRelinT_spec P keys st.1 out m1 z
  refine ⟨_, rfl, ?_, fun i hi hoff => by rw [g2 i hi hoff, h3 i hi hoff], fun v i hvi => by rw [g3 v i hvi, h4 v i hvi]⟩
  have hon : ∀ i < P, isOn keys i → (i + 1 = 0 ∨ isOn keys (i + 1 - 1)) := fun i _ ho => Or.inr (by simpa using ho)
  rw [g1, h2, hybridNoise_congr P keys z Gr a _ r e e0 e1 st.2
      (fun t => gadgetProdGLWE G lev (m ct t) (errT t) 1) errSub err fun t ht ho => (hs t ht ho).2,
    phase_mk_congr P keys z st.2 (fun t => gadgetProdGLWE G lev (m ct t) (errT t) 1) (hs 0 (by omega) (Or.inl rfl)).2
      (fun i hi ho => (hs (i + 1) (by omega) (hon i hi ho)).2),
    phase_mk_congr P keys z (fun t => st.1 t 0) (fun t => gadgetProdGLWE G lev (m ct t) (errT t) 0)
      (by rw [(hs 0 (by omega) (Or.inl rfl)).1]) (fun i hi ho => by rw [(hs (i + 1) (by omega) (hon i hi ho)).1])]
  have hr := relin_phase P keys z (z idx) G h.level_pos lev μ el h.lev (m ct) errT
  unfold extNoise ctOf
  linear_combination -hr

/-- The property for `ExternalProdSubGLWETo`. -/
def ExternalSubCorrect (R : Type) [CommRing R] : Prop :=
  ∀ (P idx : ℕ) (keys : ℕ → Option (EvalKey R)) (G Gr : Gadget R) (a z : ℕ → R) (e : ℕ → ℕ → R) (r : R)
    (k : EvalKey R) (e0 e1 : ℕ → R) (lev : ℕ → Fin 2 → R) (μ : R) (el : ℕ → R),
    ExtOK P keys idx G Gr a z e r k e0 e1 lev μ el →
    ∀ (bufT : ℕ → Fin 2 → R) (bufR buf : ℕ → R) (errT : ℕ → Fin 2 → R) (errSub : R) (err : ℕ → R) (ct out : ℕ) (m : Mem R),
    ∃ m', externalProdSubTo P keys idx G Gr lev bufT bufR buf errT errSub err ct out m = some m' ∧
      phase (mkKey P keys z) (ctOf P m' out) = phase (mkKey P keys z) (ctOf P m out) -
        (μ * phase (mkKey P keys z) (ctOf P m ct) +
          extNoise P keys z idx G Gr lev μ el a r e e0 e1 (m ct) errT errSub err)

end

/-- It is false: a noiseless encryption of 1 times the trivial ciphertext 1, subtracted from 0, gives 1. -/
theorem C33_externalSub_false : ¬ ExternalSubCorrect (BitVec 32) := by
  intro h
  let G : Gadget (BitVec 32) := ⟨1, fun x _ => x, fun _ => 1⟩
  let k : EvalKey (BitVec 32) := ⟨fun _ _ => 0, ⟨fun _ _ => 0, fun _ _ => 0⟩⟩
  let lev : ℕ → Fin 2 → BitVec 32 := fun _ => ![1, 0]
  have ok : ExtOK 1 (fun _ => some k) 0 G G (fun _ => 0) (fun _ => 0) (fun _ _ => 0) 0 k (fun _ => 0) (fun _ => 0)
      lev 1 (fun _ => 0) := by
    refine ⟨rfl, ⟨by norm_num, rfl, by norm_num [G], ?_, ?_⟩, by norm_num [G], ?_⟩
    · intro i _ k' hk' j _
      simp only [Option.some.injEq] at hk'
      subst hk'; simp [k]
    · intro j _; simp [k]
    · intro j _; simp [lev, phase, G]
  obtain ⟨m', h1, h2⟩ := h 1 0 _ G G _ _ _ 0 k _ _ lev 1 _ ok (fun _ _ => 0) (fun _ => 0) (fun _ => 0)
    (fun _ _ => 0) 0 (fun _ => 0) 0 1 (fun v i => if v = 0 ∧ i = 0 then 1 else 0)
  obtain ⟨m2, g1, g2, -⟩ := C33_externalSub_partial ok (fun _ _ => 0) (fun _ => 0) (fun _ => 0)
    (fun _ _ => 0) 0 (fun _ => 0) 0 1 (fun v i => if v = 0 ∧ i = 0 then 1 else 0)
  rw [h1, Option.some.injEq] at g1
  subst g1
  rw [h2] at g2
  have g3 := left_eq_add.1 g2
  revert g3
  simp [phase, gadgetProdGLWE, gadgetProd, G, lev, ctMul]

/-! ### Keys made by the library -/
section
variable {R : Type} [CommRing R]

/-- `GenCRSPublicKey` makes valid public keys. -/
theorem C33_crs_valid (P L : ℕ) (keys : ℕ → Option (EvalKey R)) (a z : ℕ → R) (noise err : ℕ → ℕ → R)
    (h : ∀ i < P, ∀ k, keys i = some k → k.crs = genCRSPublicKey a (z i) (noise i) (err i)) :
    CRSValid P L keys a z fun i j => noise i j - err i j := by
  intro i hi k hk j _
  rw [h i hi k hk]
  simp only [genCRSPublicKey, Matrix.cons_val_zero, Matrix.cons_val_one, true_and]
  ring

/-- `UniEncryptPolyTo` makes uni-encryptions. -/
theorem C33_uni_valid (G : Gadget R) (a : ℕ → R) (z r : R) (err0 noise0 mask1 err1 noise1 : ℕ → R) (p : R) :
    IsUni G a z p (uniEncryptPoly G.g a z r err0 noise0 mask1 err1 noise1 p) r (fun j => err0 j + noise0 j)
      fun j => noise1 j - err1 j := by
  intro j _
  refine ⟨by simp only [uniEncryptPoly, Matrix.cons_val_zero]; ring, ?_⟩
  have h := phase_encryptGLWEBody (fun _ : Fin 1 => z) (fun _ => mask1 j) (fun _ => err1 j) (noise1 j) (r * G.g j)
  simp only [phase, Fin.sum_univ_succ, Fin.sum_univ_zero, add_zero] at h
  have h01 : (Fin.succ 0 : Fin 2) = 1 := rfl
  rw [h01] at h
  simp only [uniEncryptPoly]
  rw [h]; ring

/-- So the hypotheses of the theorems above hold for every set of parties whose keys come from the key generator:
here for the relinearization key of party `idx`. -/
theorem C33_keys_valid (P : ℕ) (keys : ℕ → Option (EvalKey R)) (idx : ℕ) (hidx : idx < P) (G : Gadget R)
    (hL : 0 < G.level) (a z : ℕ → R) (noise err : ℕ → ℕ → R) (r : R) (err0 noise0 mask1 err1 noise1 : ℕ → R)
    (hcrs : ∀ i < P, ∀ k, keys i = some k → k.crs = genCRSPublicKey a (z i) (noise i) (err i)) (k : EvalKey R)
    (hk : keys idx = some k) (hr : k.relin = uniEncryptPoly G.g a (z idx) r err0 noise0 mask1 err1 noise1 (z idx)) :
    HybridOK P keys idx G a z (fun i j => noise i j - err i j) (z idx) r k.relin (fun j => err0 j + noise0 j)
      fun j => noise1 j - err1 j where
  idx_lt := hidx
  known := by rw [hk]; rfl
  level_pos := hL
  crs := C33_crs_valid P G.level keys a z noise err hcrs
  uni := by rw [hr]; exact C33_uni_valid G a (z idx) r err0 noise0 mask1 err1 noise1 (z idx)

/-! ### Size of the noise -/

variable (ν : RNorm R)

theorem against_le (G : Gadget R) {D E : ℕ} (hG : G.Bounded ν D E) (e : ℕ → R) (B : ℕ)
    (hB : ∀ j < G.level, ν.f (e j) ≤ B) (x : R) : ν.f (against G e x) ≤ G.level * (ν.c * (D * B)) := by
  have h := ν.sum_le_card (range G.level) (fun j => G.dec x j * e j) (ν.c * (D * B)) fun j hj =>
    (ν.mul_le _ _).trans (Nat.mul_le_mul_left _ (Nat.mul_le_mul (hG.dec_le x j (mem_range.1 hj)) (hB j (mem_range.1 hj))))
  rwa [card_range] at h

theorem mkKey_le {K : Type} (P : ℕ) (keys : ℕ → Option K) (z : ℕ → R) (S : ℕ)
    (hS : ∀ i < P, ∀ x, ν.f (x * z i) ≤ S * ν.f x) (i : Fin P) (x : R) : ν.f (x * mkKey P keys z i) ≤ S * ν.f x := by
  unfold mkKey
  split_ifs
  · exact hS i i.2 x
  · rw [mul_zero, ν.zero]; exact Nat.zero_le _

/-- The bound on the noise of a hybrid product: `S` bounds growth by keys, `M` by the plaintext `p`, `B` the noises
of the keys, `Fs` and `F` the errors of the conversions. -/
def hybridBound (P L c D E S M B Fs F : ℕ) : ℕ :=
  M * (E * (1 + P * S)) + L * (c * (D * B)) * (1 + P * S) + S * (P * (L * (c * (D * B))) + Fs + E) +
    L * (c * (D * B)) + F * (1 + P * S)

theorem C33_hybrid_bound (P : ℕ) (keys : ℕ → Option (EvalKey R)) (z : ℕ → R) (G : Gadget R) {D E : ℕ}
    (hG : G.Bounded ν D E) (a : ℕ → R) (p r : R) (e : ℕ → ℕ → R) (e0 e1 : ℕ → R) (c : ℕ → R) (errSub : R) (err : ℕ → R)
    (S M B Fs F : ℕ) (hS : ∀ i < P, ∀ x, ν.f (x * z i) ≤ S * ν.f x) (hr : ∀ x, ν.f (r * x) ≤ S * ν.f x)
    (hM : ∀ x, ν.f (p * x) ≤ M * ν.f x) (he : ∀ i < P, isOn keys i → ∀ j < G.level, ν.f (e i j) ≤ B)
    (he0 : ∀ j < G.level, ν.f (e0 j) ≤ B) (he1 : ∀ j < G.level, ν.f (e1 j) ≤ B) (hFs : ν.f errSub ≤ Fs)
    (hF : ∀ t ≤ P, ν.f (err t) ≤ F) :
    ν.f (hybridNoise P keys z G a p r e e0 e1 c errSub err) ≤ hybridBound P G.level ν.c D E S M B Fs F := by
  have hk := mkKey_le ν P keys z S hS
  unfold hybridNoise hybridBound
  refine (ν.add_le _ _).trans (Nat.add_le_add ((ν.add_le _ _).trans (Nat.add_le_add ((ν.add_le _ _).trans
    (Nat.add_le_add ((ν.add_le _ _).trans (Nat.add_le_add ?_ ?_)) ?_)) ?_)) ?_)
  · exact (hM _).trans (Nat.mul_le_mul_left _ (ν.phase_le _ _ E S (fun i => hG.eps_le _) hk))
  · exact ν.phase_le _ _ _ S (fun i => against_le ν G hG e0 B he0 _) hk
  · refine (hr _).trans (Nat.mul_le_mul_left _ ((ν.add_le _ _).trans (Nat.add_le_add ((ν.add_le _ _).trans
      (Nat.add_le_add ?_ hFs)) (hG.eps_le _))))
    have h := ν.sum_le_card (range P) (fun i => if isOn keys i then against G (e i) (c (i + 1)) else 0)
      (G.level * (ν.c * (D * B))) fun i hi => by
        split_ifs with ho
        · exact against_le ν G hG (e i) B (he i (mem_range.1 hi) ho) _
        · rw [ν.zero]; exact Nat.zero_le _
    rwa [card_range] at h
  · exact against_le ν G hG e1 B he1 _
  · exact ν.phase_le _ _ F S (fun i => hF i (by omega)) hk

/-- The bound on the noise of an external product; `La`, `Da`, `Ea`, `Ba`, `Fa` belong to the GLev ciphertext, its
gadget and the errors of the gadget products, `Mu` to its plaintext. -/
def extBound (P c S La Da Ea Ba Fa Mu L D E B Fs F : ℕ) : ℕ :=
  Mu * (Ea * (1 + P * S)) + La * (c * (Da * Ba)) * (1 + P * S) + (Fa + S * Fa) * (1 + P * S) +
    hybridBound P L c D E S S B Fs F

theorem C33_ext_bound (P : ℕ) (keys : ℕ → Option (EvalKey R)) (z : ℕ → R) (idx : ℕ) (hidx : idx < P) (G Gr : Gadget R)
    {Da Ea D E : ℕ} (hG : G.Bounded ν Da Ea) (hGr : Gr.Bounded ν D E) (lev : ℕ → Fin 2 → R) (μ : R) (el a : ℕ → R) (r : R)
    (e : ℕ → ℕ → R) (e0 e1 c : ℕ → R) (errT : ℕ → Fin 2 → R) (errSub : R) (err : ℕ → R) (S Ba Fa Mu B Fs F : ℕ)
    (hS : ∀ i < P, ∀ x, ν.f (x * z i) ≤ S * ν.f x) (hr : ∀ x, ν.f (r * x) ≤ S * ν.f x)
    (hMu : ∀ x, ν.f (μ * x) ≤ Mu * ν.f x) (hel : ∀ j < G.level, ν.f (el j) ≤ Ba)
    (hFa : ∀ t ≤ P, ∀ i, ν.f (errT t i) ≤ Fa)
    (he : ∀ i < P, isOn keys i → ∀ j < Gr.level, ν.f (e i j) ≤ B)
    (he0 : ∀ j < Gr.level, ν.f (e0 j) ≤ B) (he1 : ∀ j < Gr.level, ν.f (e1 j) ≤ B) (hFs : ν.f errSub ≤ Fs)
    (hF : ∀ t ≤ P, ν.f (err t) ≤ F) :
    ν.f (extNoise P keys z idx G Gr lev μ el a r e e0 e1 c errT errSub err) ≤
      extBound P ν.c S G.level Da Ea Ba Fa Mu Gr.level D E B Fs F := by
  have hk := mkKey_le ν P keys z S hS
  unfold extNoise extBound relinNoise
  refine (ν.add_le _ _).trans (Nat.add_le_add ((ν.add_le _ _).trans (Nat.add_le_add ((ν.add_le _ _).trans
    (Nat.add_le_add ?_ ?_)) ?_)) ?_)
  · exact (hMu _).trans (Nat.mul_le_mul_left _ (ν.phase_le _ _ Ea S (fun i => hG.eps_le _) hk))
  · exact ν.phase_le _ _ _ S (fun i => against_le ν G hG el Ba hel _) hk
  · refine ν.phase_le _ _ _ S (fun i => (ν.add_le _ _).trans (Nat.add_le_add (hFa i (by omega) 0)
      ((hS idx hidx _).trans (Nat.mul_le_mul_left _ (hFa i (by omega) 1))))) hk
  · exact C33_hybrid_bound ν P keys z Gr hGr a (z idx) r e e0 e1 _ errSub err S S B Fs F hS hr
      (fun x => by rw [mul_comm]; exact hS idx hidx x) he he0 he1 hFs hF
end

/-- A concrete hybrid product: two of three parties known, a uni-encryption of 3 by party 2 over words, noiseless and
with an exact gadget, on the ciphertext `(5, 7, 11, 13)`.  Its joint phase is 3 times that of the ciphertext. -/
example :
    let G : Gadget (BitVec 32) := ⟨1, fun x _ => x, fun _ => 1⟩
    let z : ℕ → BitVec 32 := fun i => BitVec.ofNat 32 (i + 1)
    let a : ℕ → BitVec 32 := fun _ => 1000
    let keys : ℕ → Option (EvalKey (BitVec 32)) := fun i =>
      if i = 1 then none else some ⟨genCRSPublicKey a (z i) 0 0, ⟨fun _ _ => 0, fun _ _ => 0⟩⟩
    let u := uniEncryptPoly G.g a (z 2) 1 0 0 (fun _ => 77) 0 0 3
    let c : ℕ → BitVec 32 := fun t => [5, 7, 11, 13].getD t 0
    (hybridProdTo 3 keys 2 G u c (fun _ => 99) 0 0 0 (fun _ _ => 55)).map (fun m =>
      (phase (mkKey 3 keys z) (ctOf 3 m 0), m 0 2)) = some (3 * phase (mkKey 3 keys z) (fun t => c t), 0) := by
  decide +kernel

end Tfhe.Mk
