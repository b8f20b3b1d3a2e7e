import Verif.Lemma.Bfv
import Verif.Lemma.IntPoly

/-!
# C35: BFV tensoring, relinearization and multiplication
-/
namespace Tfhe
open Bfv Finset

section
variable {P : Type} [CommRing P] {k : ℕ}

theorem gadgetProdAddTo_ct (G : Gadget P) (k out : ℕ) (lev : ℕ → Fin (k + 1) → P) (pv pi : ℕ)
    (err : Fin (k + 1) → P) (m : Mem P) :
    ctOf k (gadgetProdAddTo G k out lev pv pi err m) out = gadgetProdAddGLWE G (ctOf k m out) lev (m pv pi) err ∧
    (∀ v i, v ≠ out ∨ k + 1 ≤ i → gadgetProdAddTo G k out lev pv pi err m v i = m v i) := by
  unfold gadgetProdAddTo
  have h := mapLoopI_whole (fun t _ _ _ => ext0 (gadgetProdAddGLWE G (fun t : Fin (k + 1) => m out t) lev (m pv pi) err) t)
    k out out out m
  refine ⟨?_, h.2⟩
  rw [h.1]
  funext t
  simp only [ext0, t.2, dif_pos]
  rfl

/-- What relinearization adds to the phase: `T` is the tensored ciphertext, `ferr` the error in the key
products, `e` the noise of the relinearization key, `err` the FFT errors. -/
def relinNoise (G : Gadget P) (s : Fin k → P) (T ferr : ℕ → P) (e : ℕ → ℕ → P) (err : ℕ → Fin (k + 1) → P) : P :=
  ∑ t ∈ range (rlkRank k),
    (T (k + 1 + t) * ferr t + ((tensorKey s).getD (k + t) 0 + ferr t) * G.eps (T (k + 1 + t))
      + ∑ j ∈ range G.level, G.dec (T (k + 1 + t)) j * e t j + phase s (err (k + 1 + t)))

/-- `rlk` is a relinearization key: entry `t` is a GLev encryption of the `t`-th product `s_i s_j`, up to
`ferr t`. -/
def IsRelinKey (G : Gadget P) (s : Fin k → P) (ferr : ℕ → P) (rlk : ℕ → ℕ → Fin (k + 1) → P) (e : ℕ → ℕ → P) :
    Prop :=
  ∀ t, t < rlkRank k → IsLev G s ((tensorKey s).getD (k + t) 0 + ferr t) (rlk t) (e t)

theorem relin_fold (G : Gadget P) (hL : 0 < G.level) (s : Fin k → P) (out tb : ℕ) (hne : out ≠ tb)
    (rlk : ℕ → ℕ → Fin (k + 1) → P) (err : ℕ → Fin (k + 1) → P) (κ : ℕ → P) (e : ℕ → ℕ → P) (l : List ℕ)
    (hk : ∀ i ∈ l, IsLev G s (κ (i - (k + 1))) (rlk (i - (k + 1))) (e (i - (k + 1)))) (m : Mem P) :
    (phase s (ctOf k (l.foldl (fun m i => gadgetProdAddTo G k out (rlk (i - (k + 1))) tb i (err i) m) m) out) =
      phase s (ctOf k m out) + (l.map fun i => κ (i - (k + 1)) * (m tb i + G.eps (m tb i))
        + ∑ j ∈ range G.level, G.dec (m tb i) j * e (i - (k + 1)) j + phase s (err i)).sum) ∧
    (∀ v i, v ≠ out ∨ k + 1 ≤ i →
      l.foldl (fun m i => gadgetProdAddTo G k out (rlk (i - (k + 1))) tb i (err i) m) m v i = m v i) := by
  induction l generalizing m with
  | nil => simp
  | cons x l ih =>
    obtain ⟨h1, h2⟩ := gadgetProdAddTo_ct G k out (rlk (x - (k + 1))) tb x (err x) m
    obtain ⟨h3, h4⟩ := ih (fun i hi => hk i (List.mem_cons_of_mem _ hi))
      (gadgetProdAddTo G k out (rlk (x - (k + 1))) tb x (err x) m)
    constructor
    · rw [List.foldl_cons, h3, h1, C13_gadgetProdAdd G hL s _ _ _ (hk x List.mem_cons_self), List.map_cons,
        List.sum_cons]
      simp only [h2 tb _ (Or.inl hne.symm)]
      ring
    · intro v i hv
      rw [List.foldl_cons, h4 v i hv, h2 v i hv]

/-- `RelinearizeTo` writes only `ctOut`. -/
theorem relinearizeTo_frame (G : Gadget P) (k out ct tb : ℕ) (rlk : ℕ → ℕ → Fin (k + 1) → P)
    (err : ℕ → Fin (k + 1) → P) (m : Mem P) (v i : ℕ) (hv : v ≠ out) :
    relinearizeTo G k out ct tb rlk err m v i = m v i := by
  unfold relinearizeTo
  have h : ∀ (l : List ℕ) (m : Mem P),
      l.foldl (fun m i => gadgetProdAddTo G k out (rlk (i - (k + 1))) tb i (err i) m) m v i = m v i := by
    intro l
    induction l with
    | nil => intro m; rfl
    | cons x l ih => intro m; rw [List.foldl_cons, ih, (gadgetProdAddTo_ct G k out _ tb x _ m).2 v i (Or.inl hv)]
  rw [h]
  exact (mapLoopI_whole (fun _ _ a _ => a) k out tb tb m).2 v i (Or.inl hv)

/-- **C35 (relinearization of the buffer).** Whatever tensored ciphertext the buffer holds, `RelinearizeTo`
writes to `ctOut` a ciphertext with the phase of the buffer, up to explicit noise; only `ctOut` changes. -/
theorem C35_relinearize_buffer (G : Gadget P) (hL : 0 < G.level) (s : Fin k → P) (out ct tb : ℕ) (hne : out ≠ tb)
    (rlk : ℕ → ℕ → Fin (k + 1) → P) (ferr : ℕ → P) (e : ℕ → ℕ → P) (hk : IsRelinKey G s ferr rlk e)
    (err : ℕ → Fin (k + 1) → P) (m : Mem P) :
    phase s (ctOf k (relinearizeTo G k out ct tb rlk err m) out) =
      tensorPhase s (m tb) + relinNoise G s (m tb) ferr e err ∧
    (∀ v i, v ≠ out ∨ k + 1 ≤ i → relinearizeTo G k out ct tb rlk err m v i = m v i) := by
  unfold relinearizeTo
  obtain ⟨h1, h2⟩ := mapLoopI_whole (fun _ _ a _ => a) k out tb tb m
  have hr : tensorRank k + 1 - (k + 1) = rlkRank k := by rw [tensorRank_eq]; omega
  rw [hr]
  obtain ⟨h3, h4⟩ := relin_fold G hL s out tb hne rlk err (fun t => (tensorKey s).getD (k + t) 0 + ferr t) e
    (List.range' (k + 1) (rlkRank k))
    (fun i hi => by rw [List.mem_range'_1] at hi; exact hk _ (by omega))
    (mapLoopI (fun _ _ a _ => a) out tb tb (List.range (k + 1)) m)
  refine ⟨?_, fun v i hv => by rw [h4 v i hv, h2 v i hv]⟩
  rw [h3, h1, List.range'_eq_map_range, List.map_map, list_sum_range]
  have hw : tensorPhase s (m tb) = phase s (ctOf k m tb) +
      ∑ t ∈ range (rlkRank k), m tb (k + 1 + t) * (tensorKey s).getD (k + t) 0 := by
    unfold tensorPhase phase
    rw [wsum_eq_sum, tensorKey_length, Finset.sum_range_add, ← add_assoc]
    refine congrArg₂ (· + ·) (congrArg₂ (· + ·) rfl ?_) (Finset.sum_congr rfl fun t _ => ?_)
    · rw [Finset.sum_range]
      refine Finset.sum_congr rfl fun i _ => ?_
      have : (tensorKey s).getD i 0 = s i := by
        unfold tensorKey
        rw [List.getD_append _ _ _ _ (by simp)]
        simp
      rw [this, add_comm 1 (i : ℕ)]; rfl
    · rw [show 1 + (k + t) = k + 1 + t by omega]
  rw [hw, relinNoise, add_assoc, ← Finset.sum_add_distrib]
  refine congrArg₂ (· + ·) rfl (Finset.sum_congr rfl fun t _ => ?_)
  simp only [Function.comp, h2 tb _ (Or.inl hne.symm)]
  rw [show k + 1 + t - (k + 1) = t by omega]
  ring
end

section
variable {w N k : ℕ} [NeZero N]

local notation "Pl" => Poly N (BitVec w)

/-- **C35 (relinearization key).** The key made by `GenRelinKey` encrypts the products `s_i s_j` in the order
in which `RelinearizeTo` uses them. -/
theorem C35_relinKey (g : GadgetParams w) (sk : Fin k → Pl) (old ferr : ℕ → Pl) (ρ : KeyRand Pl (rlkRank k) k) :
    IsRelinKey (polyGadget N g) sk ferr (genRelinKey g sk old ferr ρ)
      (fun t j => if h : t < rlkRank k then ρ.noise ⟨t, h⟩ j - ∑ i, ρ.err ⟨t, h⟩ j i else 0) := by
  intro t ht
  have hp : t < (pairs k).length := by rw [pairs_length_rlk]; exact ht
  have e1 : (tensorKey sk).getD (k + t) 0 = (relinLoop k (ext0 sk) old).2 t := by
    rw [relinLoop_get _ _ _ _ hp]
    have h := tensorKey_eq sk
    rw [pairs_succ, List.map_append] at h
    have h2 := congrArg (fun l => l.getD (k + 1 + t) 0) h
    rw [List.getD_append_right _ _ _ _ (by simp), show k + 1 + t = k + t + 1 by omega, List.getD_cons_succ] at h2
    rw [h2]
    simp only [List.length_map, List.length_range]
    rw [show k + t + 1 - (k + 1) = t by omega, List.getD_eq_getElem _ _ (by simpa using hp)]
    simp [key1]
  have e2 : (genRelinKey g sk old ferr ρ) t = encryptGLevPoly g sk (ρ.mask ⟨t, ht⟩) (ρ.err ⟨t, ht⟩) (ρ.noise ⟨t, ht⟩)
      ((relinLoop k (ext0 sk) old).2 t + ferr t) := by
    simp only [genRelinKey, dif_pos ht, genGLWEKeySwitchKey]
  rw [e1, e2]
  simp only [dif_pos ht]
  exact isLev_encryptGLev g sk _ _ _ _

/-- **C35 (tensoring, into the buffer).** After `TensorTo` the *buffer* holds a tensored ciphertext: with the
ciphertexts and the key read as integers, `scale` times its phase is the product of the two phases, up to
the rounding error `E` of the components; `terr` are the floating-point errors. -/
theorem C35_tensor_buffer (scale : ℕ) (hs : 0 < scale) (σ : Fin k → Poly N ℤ) (out ct0 ct1 tb : ℕ)
    (old : ℕ → Poly N ℤ) (terr : ℕ → Pl) (m : Mem Pl) (S : ℕ) (hS : ∀ i x, iabs (x * σ i) ≤ S * iabs x) :
    ∃ R E : Poly N ℤ,
      tensorPhase (fun i => ofIntP w (σ i)) (tensorTo scale k out ct0 ct1 tb old terr m tb) =
        ofIntP w R + tensorPhase (fun i => ofIntP w (σ i)) terr ∧
      Poly.C N (scale : ℤ) * R =
        phase σ (fun i => lift (ctOf k m ct0 i)) * phase σ (fun i => lift (ctOf k m ct1 i)) + E ∧
      2 * iabs E ≤ scale * (1 + k * S + rlkRank k * S ^ 2) := by
  set F := (tensorLoop (k + 1) (fun i => lift (m ct0 i)) (fun i => lift (m ct1 i)) old).2 with hF
  choose r e h1 h2 h3 using fun t => invScaled_eq (w := w) scale hs (F t)
  refine ⟨tensorPhase σ r, tensorPhase σ e, ?_, ?_, ?_⟩
  · have hT : ∀ t, t < tensorRank k + 1 → tensorTo scale k out ct0 ct1 tb old terr m tb t = ofIntP w (r t) + terr t := by
      intro t ht
      unfold tensorTo
      rw [mapLoopI_spec _ _ _ _ _ List.nodup_range, if_pos ⟨rfl, List.mem_range.2 ht⟩, ← hF, h1]
    have hk1 : (fun i => key1 (fun i => ofIntP w (σ i)) i) = fun i => ofIntHom w N (key1 σ i) := by
      funext i
      cases i with
      | zero => exact (map_one (ofIntHom w N)).symm
      | succ i =>
        simp only [key1, ext0]
        split
        · rfl
        · exact (map_zero (ofIntHom w N)).symm
    rw [tensorPhase_eq, tensorPhase_eq, tensorPhase_eq, wsum_congr _ (fun t => ofIntHom w N (r t) + terr t), wsum_add,
      ← ofIntHom_apply, map_wsum, List.map_map]
    · refine congrArg₂ (· + ·) (congrArg (wsum _ 0) ?_) rfl
      refine List.map_congr_left fun x _ => ?_
      simp only [Function.comp, map_mul]
      rw [congrFun hk1 x.1, congrFun hk1 x.2]
    · intro i hi
      rw [List.length_map, pairs_length_tensor] at hi
      rw [Nat.zero_add]
      exact hT i hi
  · rw [tensorPhase_eq, tensorPhase_eq, wsum_smul, wsum_congr _ (fun t => F t + e t), wsum_add]
    · refine congrArg₂ (· + ·) ?_ rfl
      rw [wsum_map F 0 (pairs (k + 1)) (tval (fun i => lift (m ct0 i)) (fun i => lift (m ct1 i))) _, tensor_sum,
        phase_key1, phase_key1]
      · rfl
      · intro i hi
        rw [Nat.zero_add, hF]
        exact tensorLoop_get _ _ _ _ _ hi
    · intro i _
      exact h2 _
  · have := tensorPhase_le (intNorm N) σ e S (scale / 2) hS (fun i _ => by
      have := h3 i
      show iabs (e i) ≤ _
      omega)
    calc 2 * iabs (tensorPhase σ e) ≤ 2 * (scale / 2 * (1 + k * S + rlkRank k * S ^ 2)) := Nat.mul_le_mul_left _ this
      _ = (2 * (scale / 2)) * (1 + k * S + rlkRank k * S ^ 2) := by ring
      _ ≤ _ := Nat.mul_le_mul_right _ (by omega)

/-- `TensorTo` writes only the buffer. -/
theorem C35_tensor_frame (scale k out ct0 ct1 tb : ℕ) (old : ℕ → Poly N ℤ) (terr : ℕ → Pl) (m : Mem Pl) (v i : ℕ)
    (hv : v ≠ tb) : tensorTo scale k out ct0 ct1 tb old terr m v i = m v i := by
  unfold tensorTo
  rw [mapLoopI_spec _ _ _ _ _ List.nodup_range, if_neg (by tauto)]

theorem ofIntP_phase (σ : Fin k → Poly N ℤ) (c : Fin (k + 1) → Pl) :
    ofIntP w (phase σ (fun i => lift (c i))) = phase (fun i => ofIntP w (σ i)) c := by
  rw [← ofIntHom_apply]
  unfold phase
  rw [map_add, map_sum]
  refine congrArg₂ (· + ·) (ofIntP_lift _) (Finset.sum_congr rfl fun i _ => ?_)
  rw [map_mul]
  exact congrArg₂ (· * ·) (ofIntP_lift _) rfl

theorem iabs_C_mul (c : ℤ) (p : Poly N ℤ) : iabs (Poly.C N c * p) = c.natAbs * iabs p := by
  refine le_antisymm ?_ ?_
  · rw [iabs_le_iff]; intro i
    rw [Poly.C_mul_apply, Int.natAbs_mul]
    exact Nat.mul_le_mul_left _ (natAbs_le_iabs p i)
  · obtain ⟨i, -, hi⟩ := Finset.exists_mem_eq_sup (Finset.univ : Finset (Fin N)) ⟨⟨0, NeZero.pos N⟩, Finset.mem_univ _⟩
      (fun i => (p i).natAbs)
    have h := natAbs_le_iabs (Poly.C N c * p) i
    rw [Poly.C_mul_apply, Int.natAbs_mul] at h
    unfold iabs at h ⊢
    rw [hi]
    exact h

theorem ofIntP_C_pow (x : Poly N ℤ) : ofIntP w (Poly.C N (2 ^ w : ℤ) * x) = 0 := by
  funext i
  unfold ofIntP
  rw [Poly.C_mul_apply, Poly.zero_apply, bv_ofInt_eq_cast]
  push_cast
  have : ((2 : BitVec w) ^ w) = 0 := by
    have h := bv_ofInt_eq_cast (w := w) ((2 : ℤ) ^ w)
    push_cast at h
    rw [← h]
    apply BitVec.eq_of_toInt_eq
    rw [BitVec.toInt_ofInt]
    refine Eq.trans ?_ (BitVec.toInt_zero (w := w)).symm
    exact Int.bmod_eq_zero_of_dvd (by push_cast; exact dvd_refl _)
  rw [this, zero_mul]

/-- **C35 (multiplication).** `MulTo`, for every previous state of the evaluator: with `s` the key (integer
representatives `σ`), if the inputs have phases `scale * M_b + e_b` and `scale * p = 2^w + r`, then the phase
of the result is `scale * M_0 M_1` plus `M_0 e_1 + M_1 e_0`, plus `p (e_0 K_1 + e_1 K_0) - r p K_0 K_1` where
`K_b` counts how often the phase wraps around (bounded by the size of the key), plus a small `ρ`, plus the
phase of the floating-point errors, plus the noise of relinearization. -/
theorem C35_mul (G : Gadget Pl) (hL : 0 < G.level) (scale p : ℕ) (r : ℤ) (hs : 0 < scale)
    (hp : (scale : ℤ) * p = 2 ^ w + r) (σ : Fin k → Poly N ℤ) (S : ℕ) (hS : ∀ i x, iabs (x * σ i) ≤ S * iabs x)
    (out ct0 ct1 tb : ℕ) (hne : out ≠ tb) (rlk : ℕ → ℕ → Fin (k + 1) → Pl) (ferr : ℕ → Pl) (e : ℕ → ℕ → Pl)
    (hk : IsRelinKey G (fun i => ofIntP w (σ i)) ferr rlk e) (old : ℕ → Poly N ℤ) (terr : ℕ → Pl)
    (err : ℕ → Fin (k + 1) → Pl) (m : Mem Pl) (M0 M1 e0 e1 : Poly N ℤ)
    (h0 : phase (fun i => ofIntP w (σ i)) (ctOf k m ct0) = ofIntP w (Poly.C N (scale : ℤ) * M0 + e0))
    (h1 : phase (fun i => ofIntP w (σ i)) (ctOf k m ct1) = ofIntP w (Poly.C N (scale : ℤ) * M1 + e1)) :
    ∃ (K0 K1 ρ : Poly N ℤ) (T : ℕ → Pl),
      2 * (2 ^ w * iabs K0) ≤ 2 ^ w * (1 + k * S) + 2 * iabs (Poly.C N (scale : ℤ) * M0 + e0) ∧
      2 * (2 ^ w * iabs K1) ≤ 2 ^ w * (1 + k * S) + 2 * iabs (Poly.C N (scale : ℤ) * M1 + e1) ∧
      2 * (scale * iabs ρ) ≤ 2 * iabs (e0 * e1) + 2 * (r.natAbs * iabs (e0 * K1 + e1 * K0))
        + 2 * (r.natAbs ^ 2 * iabs (K0 * K1)) + scale * (1 + k * S + rlkRank k * S ^ 2) ∧
      phase (fun i => ofIntP w (σ i)) (ctOf k (mulTo G scale k out ct0 ct1 tb rlk old terr err m) out) =
        ofIntP w (Poly.C N (scale : ℤ) * (M0 * M1) + (M0 * e1 + M1 * e0 + Poly.C N (p : ℤ) * (e0 * K1 + e1 * K0)
          - Poly.C N (r * p) * (K0 * K1) + ρ))
        + tensorPhase (fun i => ofIntP w (σ i)) terr
        + relinNoise G (fun i => ofIntP w (σ i)) T ferr e err := by
  obtain ⟨R, E, t1, t2, t3⟩ := C35_tensor_buffer scale hs σ tb ct0 ct1 tb old terr m S hS
  obtain ⟨b1, -⟩ := C35_relinearize_buffer G hL (fun i => ofIntP w (σ i)) out tb tb hne rlk ferr e hk err
    (tensorTo scale k tb ct0 ct1 tb old terr m)
  have wrap : ∀ (ct : ℕ) (M e : Poly N ℤ),
      phase (fun i => ofIntP w (σ i)) (ctOf k m ct) = ofIntP w (Poly.C N (scale : ℤ) * M + e) →
      ∃ K : Poly N ℤ, phase σ (fun i => lift (ctOf k m ct i)) = Poly.C N (scale : ℤ) * M + e + Poly.C N (2 ^ w : ℤ) * K ∧
        2 * (2 ^ w * iabs K) ≤ 2 ^ w * (1 + k * S) + 2 * iabs (Poly.C N (scale : ℤ) * M + e) := by
    intro ct M e h
    obtain ⟨K, hK⟩ := ofIntP_eq_iff _ _ ((ofIntP_phase σ (ctOf k m ct)).trans h)
    refine ⟨K, hK, ?_⟩
    have q1 : iabs (Poly.C N (2 ^ w : ℤ) * K) = 2 ^ w * iabs K := by
      rw [iabs_C_mul]
      have : ((2 : ℤ) ^ w) = ((2 ^ w : ℕ) : ℤ) := by push_cast; rfl
      rw [this, Int.natAbs_natCast]
    have q2 : Poly.C N (2 ^ w : ℤ) * K = phase σ (fun i => lift (ctOf k m ct i)) - (Poly.C N (scale : ℤ) * M + e) := by
      rw [hK]; ring
    have q3 := (intNorm N).phase_le σ (fun i => lift (ctOf k m ct i)) (2 ^ w / 2) S (fun i => by
      show iabs _ ≤ _
      rw [iabs_lift, pabs_le_iff]
      intro j
      have := wabs_le_half (ctOf k m ct i j)
      omega) hS
    have q4 := (intNorm N).sub_le (phase σ (fun i => lift (ctOf k m ct i))) (Poly.C N (scale : ℤ) * M + e)
    rw [← q2] at q4
    change iabs _ ≤ iabs _ + iabs _ at q4
    change iabs _ ≤ _ at q3
    rw [← q1]
    have q5 : 2 * (2 ^ w / 2 * (1 + k * S)) ≤ 2 ^ w * (1 + k * S) := by
      rw [← mul_assoc]; exact Nat.mul_le_mul_right _ (by omega)
    omega
  obtain ⟨K0, w0, k0⟩ := wrap ct0 M0 e0 h0
  obtain ⟨K1, w1, k1⟩ := wrap ct1 M1 e1 h1
  set D := Poly.C N (scale : ℤ) with hD
  set Q := Poly.C N (2 ^ w : ℤ) with hQ
  set Rr := Poly.C N r with hRr
  set Pp := Poly.C N (p : ℤ) with hPp
  have hDP : D * Pp = Q + Rr := by rw [hD, hPp, hQ, hRr, ← Poly.C_mul, ← Poly.C_add, hp]
  have hRP : Poly.C N (r * p) = Rr * Pp := Poly.C_mul _ _
  rw [hRP]
  let ρ := R - (D * (M0 * M1) + (M0 * e1 + M1 * e0) + Q * (M0 * K1 + M1 * K0 + Pp * (K0 * K1))
    + Pp * (e0 * K1 + e1 * K0) - Rr * Pp * (K0 * K1))
  have hρ : D * ρ = e0 * e1 + E - Rr * (e0 * K1 + e1 * K0) + Rr * (Rr * (K0 * K1)) := by
    simp only [ρ]
    rw [w0, w1] at t2
    linear_combination t2 - (e0 * K1 + e1 * K0 + Q * (K0 * K1) - Rr * (K0 * K1)) * hDP
  refine ⟨K0, K1, ρ, tensorTo scale k tb ct0 ct1 tb old terr m tb, k0, k1, ?_, ?_⟩
  · have q1 : scale * iabs ρ = iabs (D * ρ) := by rw [hD, iabs_C_mul, Int.natAbs_natCast]
    have q2 : iabs (D * ρ) ≤ iabs (e0 * e1) + iabs E + r.natAbs * iabs (e0 * K1 + e1 * K0)
        + r.natAbs ^ 2 * iabs (K0 * K1) := by
      rw [hρ]
      have a1 := (intNorm N).add_le (e0 * e1 + E - Rr * (e0 * K1 + e1 * K0)) (Rr * (Rr * (K0 * K1)))
      have a2 := (intNorm N).sub_le (e0 * e1 + E) (Rr * (e0 * K1 + e1 * K0))
      have a3 := (intNorm N).add_le (e0 * e1) E
      change iabs _ ≤ iabs _ + iabs _ at a1 a2 a3
      have a4 : iabs (Rr * (Rr * (K0 * K1))) = r.natAbs ^ 2 * iabs (K0 * K1) := by
        rw [hRr, iabs_C_mul, iabs_C_mul]; ring
      have a5 : iabs (Rr * (e0 * K1 + e1 * K0)) = r.natAbs * iabs (e0 * K1 + e1 * K0) := by
        rw [hRr, iabs_C_mul]
      rw [a4] at a1
      rw [a5] at a2
      omega
    rw [q1]
    omega
  · unfold mulTo
    rw [b1, t1]
    refine congrArg₂ (· + ·) (congrArg₂ (· + ·) ?_ rfl) rfl
    have : R = D * (M0 * M1) + (M0 * e1 + M1 * e0 + Pp * (e0 * K1 + e1 * K0) - Rr * Pp * (K0 * K1) + ρ)
        + Q * (M0 * K1 + M1 * K0 + Pp * (K0 * K1)) := by simp only [ρ]; ring
    rw [this, ← ofIntHom_apply, map_add, ofIntHom_apply, ofIntHom_apply, hQ, ofIntP_C_pow, add_zero]

/-- `MulTo` writes only `ctOut` and the buffer. -/
theorem C35_mul_frame (G : Gadget Pl) (scale out ct0 ct1 tb : ℕ)
    (rlk : ℕ → ℕ → Fin (k + 1) → Pl) (old : ℕ → Poly N ℤ) (terr : ℕ → Pl) (err : ℕ → Fin (k + 1) → Pl) (m : Mem Pl)
    (v i : ℕ) (h1 : v ≠ out) (h2 : v ≠ tb) : mulTo G scale k out ct0 ct1 tb rlk old terr err m v i = m v i := by
  unfold mulTo
  rw [relinearizeTo_frame G k out tb tb rlk err _ v i h1, C35_tensor_frame _ _ _ _ _ _ _ _ _ _ _ h2]

/-- The size of the relinearization noise, for exact key products: `D`, `E` bound digits and loss of the
gadget, `B` the noise of the key, `F` the FFT error. -/
theorem C35_relinNoise_le (ν : RNorm Pl) (G : Gadget Pl) {D E : ℕ} (hG : G.Bounded ν D E) (s : Fin k → Pl) (S : ℕ)
    (hS : ∀ i x, ν.f (x * s i) ≤ S * ν.f x) (T : ℕ → Pl) (e : ℕ → ℕ → Pl) (err : ℕ → Fin (k + 1) → Pl) (B F : ℕ)
    (hB : ∀ t j, t < rlkRank k → j < G.level → ν.f (e t j) ≤ B) (hF : ∀ t, ν.f (phase s (err t)) ≤ F) :
    ν.f (relinNoise G s T (fun _ => 0) e err) ≤ rlkRank k * (S ^ 2 * E + G.level * (ν.c * (D * B)) + F) := by
  unfold relinNoise
  have h := ν.sum_le_card (range (rlkRank k)) (fun t => T (k + 1 + t) * 0
      + ((tensorKey s).getD (k + t) 0 + 0) * G.eps (T (k + 1 + t))
      + ∑ j ∈ range G.level, G.dec (T (k + 1 + t)) j * e t j + phase s (err (k + 1 + t)))
    (S ^ 2 * E + G.level * (ν.c * (D * B)) + F) ?_
  · rwa [Finset.card_range] at h
  · intro t ht
    have ht := Finset.mem_range.1 ht
    rw [mul_zero, zero_add, add_zero]
    have h1 : ν.f ((tensorKey s).getD (k + t) 0 * G.eps (T (k + 1 + t))) ≤ S ^ 2 * E := by
      have hm : ∃ i j, (tensorKey s).getD (k + t) 0 = s i * s j := by
        have hl := tensorKey_length s
        unfold tensorKey at hl ⊢
        rw [List.length_append, List.length_ofFn] at hl
        rw [List.getD_append_right _ _ _ _ (by simp), List.length_ofFn, show k + t - k = t by omega,
          List.getD_eq_getElem _ _ (by omega)]
        have := List.getElem_mem (l := (List.finRange k).flatMap fun i => ((List.finRange k).filter (i ≤ ·)).map
          fun j => s i * s j) (n := t) (by omega)
        obtain ⟨i, _, hx⟩ := List.mem_flatMap.1 this
        obtain ⟨j, _, hx⟩ := List.mem_map.1 hx
        exact ⟨i, j, hx.symm⟩
      obtain ⟨i, j, hij⟩ := hm
      rw [hij, show s i * s j * G.eps (T (k + 1 + t)) = G.eps (T (k + 1 + t)) * s i * s j by ring]
      calc _ ≤ S * ν.f (G.eps (T (k + 1 + t)) * s i) := hS _ _
        _ ≤ S * (S * ν.f (G.eps (T (k + 1 + t)))) := Nat.mul_le_mul_left _ (hS _ _)
        _ ≤ S * (S * E) := Nat.mul_le_mul_left _ (Nat.mul_le_mul_left _ (hG.eps_le _))
        _ = _ := by ring
    have h2 := ν.sum_le_card (Finset.range G.level) (fun j => G.dec (T (k + 1 + t)) j * e t j) (ν.c * (D * B))
      (fun j hj => (ν.mul_le _ _).trans (Nat.mul_le_mul_left _
        (Nat.mul_le_mul (hG.dec_le _ _ (Finset.mem_range.1 hj)) (hB t j ht (Finset.mem_range.1 hj)))))
    rw [Finset.card_range] at h2
    exact (ν.add_le _ _).trans (Nat.add_le_add ((ν.add_le _ _).trans (Nat.add_le_add h1 h2)) (hF _))

/-- **C35 (multiplication, bound).** When the scale divides `2^w`: messages at most `μ`, input errors at most
`η`, wrap-arounds at most `κ`. -/
theorem C35_mul_bound (G : Gadget Pl) (hL : 0 < G.level) (scale p : ℕ) (hs : 0 < scale)
    (hp : scale * p = 2 ^ w) (σ : Fin k → Poly N ℤ) (S : ℕ) (hS : ∀ i x, iabs (x * σ i) ≤ S * iabs x)
    (out ct0 ct1 tb : ℕ) (hne : out ≠ tb) (rlk : ℕ → ℕ → Fin (k + 1) → Pl) (ferr : ℕ → Pl) (e : ℕ → ℕ → Pl)
    (hk : IsRelinKey G (fun i => ofIntP w (σ i)) ferr rlk e) (old : ℕ → Poly N ℤ) (terr : ℕ → Pl)
    (err : ℕ → Fin (k + 1) → Pl) (m : Mem Pl) (M0 M1 e0 e1 : Poly N ℤ)
    (h0 : phase (fun i => ofIntP w (σ i)) (ctOf k m ct0) = ofIntP w (Poly.C N (scale : ℤ) * M0 + e0))
    (h1 : phase (fun i => ofIntP w (σ i)) (ctOf k m ct1) = ofIntP w (Poly.C N (scale : ℤ) * M1 + e1))
    (μ η κ F B : ℕ) (hM0 : iabs M0 ≤ μ) (hM1 : iabs M1 ≤ μ) (he0 : iabs e0 ≤ η) (he1 : iabs e1 ≤ η)
    (hκ : 2 ^ w * (1 + k * S) + 2 * (scale * μ + η) ≤ 2 * (2 ^ w * κ))
    (hF : pabs (tensorPhase (fun i => ofIntP w (σ i)) terr) ≤ F)
    (hB : ∀ T, pabs (relinNoise G (fun i => ofIntP w (σ i)) T ferr e err) ≤ B) :
    pabs (phase (fun i => ofIntP w (σ i)) (ctOf k (mulTo G scale k out ct0 ct1 tb rlk old terr err m) out)
        - ofIntP w (Poly.C N (scale : ℤ) * (M0 * M1))) ≤
      2 * (N * (μ * η)) + p * (2 * (N * (η * κ)))
        + (2 * (N * (η * η)) + scale * (1 + k * S + rlkRank k * S ^ 2)) / (2 * scale) + F + B := by
  obtain ⟨K0, K1, ρ, T, k0, k1, hρ, hph⟩ := C35_mul G hL scale p 0 hs (by rw [add_zero]; exact_mod_cast hp) σ S hS out ct0
    ct1 tb hne rlk ferr e hk old terr err m M0 M1 e0 e1 h0 h1
  have nu := intNorm N
  have hK : ∀ (K M e : Poly N ℤ), iabs M ≤ μ → iabs e ≤ η →
      2 * (2 ^ w * iabs K) ≤ 2 ^ w * (1 + k * S) + 2 * iabs (Poly.C N (scale : ℤ) * M + e) → iabs K ≤ κ := by
    intro K M e hM he h
    have a1 := (intNorm N).add_le (Poly.C N (scale : ℤ) * M) e
    change iabs _ ≤ iabs _ + iabs _ at a1
    rw [iabs_C_mul, Int.natAbs_natCast] at a1
    have a2 : scale * iabs M ≤ scale * μ := Nat.mul_le_mul_left _ hM
    have a3 : 2 * (2 ^ w * iabs K) ≤ 2 * (2 ^ w * κ) := by omega
    exact Nat.le_of_mul_le_mul_left (Nat.le_of_mul_le_mul_left a3 (by norm_num)) (by positivity)
  have hK0 := hK K0 M0 e0 hM0 he0 k0
  have hK1 := hK K1 M1 e1 hM1 he1 k1
  have hmul : ∀ (a b : Poly N ℤ) (x y : ℕ), iabs a ≤ x → iabs b ≤ y → iabs (a * b) ≤ N * (x * y) := fun a b x y ha hb =>
    ((intNorm N).mul_le a b).trans (Nat.mul_le_mul_left _ (Nat.mul_le_mul ha hb))
  have hadd : ∀ (a b : Poly N ℤ) (x y : ℕ), iabs a ≤ x → iabs b ≤ y → iabs (a + b) ≤ x + y := fun a b x y ha hb =>
    ((intNorm N).add_le a b).trans (Nat.add_le_add ha hb)
  have hρ' : iabs ρ ≤ (2 * (N * (η * η)) + scale * (1 + k * S + rlkRank k * S ^ 2)) / (2 * scale) := by
    rw [Nat.le_div_iff_mul_le (by omega)]
    have := hmul e0 e1 η η he0 he1
    simp only [Int.natAbs_zero, zero_mul, mul_zero, add_zero, ne_eq, OfNat.ofNat_ne_zero, not_false_eq_true,
      zero_pow] at hρ
    calc iabs ρ * (2 * scale) = 2 * (scale * iabs ρ) := by ring
      _ ≤ _ := hρ
      _ ≤ _ := by omega
  have hfin : iabs (M0 * e1 + M1 * e0 + Poly.C N (p : ℤ) * (e0 * K1 + e1 * K0) + ρ) ≤
      2 * (N * (μ * η)) + p * (2 * (N * (η * κ)))
        + (2 * (N * (η * η)) + scale * (1 + k * S + rlkRank k * S ^ 2)) / (2 * scale) := by
    refine hadd _ _ _ _ (hadd _ _ _ _ ?_ ?_) hρ'
    · rw [two_mul]
      exact hadd _ _ _ _ (hmul _ _ _ _ hM0 he1) (hmul _ _ _ _ hM1 he0)
    · rw [iabs_C_mul, Int.natAbs_natCast, two_mul]
      exact Nat.mul_le_mul_left _ (hadd _ _ _ _ (hmul _ _ _ _ he0 hK1) (hmul _ _ _ _ he1 hK0))
  rw [hph]
  have e1' : ofIntP w (Poly.C N (scale : ℤ) * (M0 * M1) + (M0 * e1 + M1 * e0 + Poly.C N (p : ℤ) * (e0 * K1 + e1 * K0)
          - Poly.C N (0 * (p : ℤ)) * (K0 * K1) + ρ))
        + tensorPhase (fun i => ofIntP w (σ i)) terr
        + relinNoise G (fun i => ofIntP w (σ i)) T ferr e err - ofIntP w (Poly.C N (scale : ℤ) * (M0 * M1)) =
      ofIntP w (M0 * e1 + M1 * e0 + Poly.C N (p : ℤ) * (e0 * K1 + e1 * K0) + ρ)
        + tensorPhase (fun i => ofIntP w (σ i)) terr
        + relinNoise G (fun i => ofIntP w (σ i)) T ferr e err := by
    have : Poly.C N ((0 : ℤ) * (p : ℤ)) = 0 := by rw [zero_mul]; funext i; simp [Poly.C_apply, Poly.zero_apply]
    rw [this, zero_mul, sub_zero, ← ofIntHom_apply, ← ofIntHom_apply, ← ofIntHom_apply, map_add]
    ring
  rw [e1']
  refine (pabs_add_le _ _).trans (Nat.add_le_add ((pabs_add_le _ _).trans (Nat.add_le_add ?_ hF)) (hB T))
  exact (pabs_ofIntP_le _).trans hfin

/-- For binary key polynomials `S = N`. -/
theorem iabs_mul_binary (s : Poly N ℤ) (hbin : ∀ i, s i = 0 ∨ s i = 1) (x : Poly N ℤ) : iabs (x * s) ≤ N * iabs x := by
  have h1 : iabs s ≤ 1 := by
    rw [iabs_le_iff]; intro i
    rcases hbin i with h | h <;> rw [h] <;> decide
  calc _ ≤ N * (iabs x * iabs s) := (intNorm N).mul_le x s
    _ ≤ N * (iabs x * 1) := Nat.mul_le_mul_left _ (Nat.mul_le_mul_left _ h1)
    _ = _ := by rw [mul_one]

/-- Non-trivial instance of `C35_mul_bound`: key polynomial 1, 32-bit words, scale `2^28`, a relinearization key
generated with any masks and noise 0, noiseless ciphertexts of any messages at most 3.  What remains is the
rounding of the tensor product and the loss of the gadget. -/
example (g : GadgetParams 32) (hg : g.Valid) (old : ℕ → Poly N (BitVec 32)) (old' : ℕ → Poly N ℤ)
    (mask : Fin (rlkRank 1) → ℕ → Fin 1 → Poly N (BitVec 32))
    (M0 M1 : Poly N ℤ) (h0 : iabs M0 ≤ 3) (h1 : iabs M1 ≤ 3) :
    let s := fun _ : Fin 1 => ofIntP 32 (1 : Poly N ℤ)
    let ρ : KeyRand (Poly N (BitVec 32)) (rlkRank 1) 1 := ⟨mask, fun _ _ _ => 0, fun _ _ => 0⟩
    let m : Mem (Poly N (BitVec 32)) := fun v i => if i = 0 then
      (if v = 0 then ofIntP 32 (Poly.C N ((2 ^ 28 : ℕ) : ℤ) * M0 + 0)
        else if v = 1 then ofIntP 32 (Poly.C N ((2 ^ 28 : ℕ) : ℤ) * M1 + 0) else 0) else 0
    pabs (phase s (ctOf 1 (mulTo (polyGadget N g) (2 ^ 28) 1 2 0 1 3 (genRelinKey g s old (fun _ => 0) ρ) old'
        (fun _ => 0) (fun _ _ => 0) m) 2) - ofIntP 32 (Poly.C N ((2 ^ 28 : ℕ) : ℤ) * (M0 * M1))) ≤
      2 * (N * (3 * 0)) + 16 * (2 * (N * (0 * 2)))
        + (2 * (N * (0 * 0)) + 2 ^ 28 * (1 + 1 * 1 + rlkRank 1 * 1 ^ 2)) / (2 * 2 ^ 28) + 0
        + rlkRank 1 * (1 ^ 2 * (2 ^ (32 - g.level * g.logBase) / 2)
          + g.level * (N * (g.base.toNat / 2 * 0)) + 0) := by
  intro s ρ m
  have hs1 : ∀ x : Poly N (BitVec 32), x * ofIntP 32 (1 : Poly N ℤ) = x := fun x => by
    rw [← ofIntHom_apply, map_one, mul_one]
  refine C35_mul_bound (polyGadget N g) hg.level_pos (2 ^ 28) 16 (by norm_num) (by norm_num) (fun _ => 1) 1
    (fun i x => by rw [mul_one, one_mul]) 2 0 1 3 (by decide) _ _ _ (C35_relinKey g s old (fun _ => 0) ρ) old' _ _ m
    M0 M1 0 0 ?_ ?_ 3 0 2 0 _ h0 h1 (intNorm N).zero.le (intNorm N).zero.le (by norm_num) ?_ ?_
  · simp [phase, ctOf, m]
  · simp [phase, ctOf, m]
  · have := tensorPhase_le (polyNorm N 32) s (fun _ => 0) N 0 (fun i x => by
      show pabs (x * ofIntP 32 (1 : Poly N ℤ)) ≤ _
      rw [hs1]
      exact Nat.le_mul_of_pos_left _ (NeZero.pos N)) (fun i _ => (polyNorm N 32).zero.le)
    rw [zero_mul] at this
    exact this
  · intro T
    refine C35_relinNoise_le (polyNorm N 32) (polyGadget N g) (polyGadget_bounded g hg) s 1
      (fun i x => by rw [show x * s i = x from hs1 x, one_mul]) T _ (fun _ _ => 0) 0 0 (fun t j ht _ => ?_) (fun t => ?_)
    · simp only [dif_pos ht, ρ, Finset.sum_const_zero, sub_zero]
      exact (polyNorm N 32).zero.le
    · have : phase s (fun _ => (0 : Poly N (BitVec 32))) = 0 := by simp [phase]
      rw [this]; exact (polyNorm N 32).zero.le

/-- **C35 (negation, `Tensor`).** `Tensor` returns the zero ciphertext, whatever its arguments: the result only
reaches the private buffer. -/
theorem C35_tensor_zero (scale k out ct0 ct1 tb : ℕ) (hne : out ≠ tb) (old : ℕ → Poly N ℤ) (terr : ℕ → Pl)
    (m : Mem Pl) (i : ℕ) (hi : i ≤ tensorRank k) : tensor scale k out ct0 ct1 tb old terr m out i = 0 := by
  unfold tensor
  rw [C35_tensor_frame _ _ _ _ _ _ _ _ _ _ _ hne, mapLoopI_spec _ _ _ _ _ List.nodup_range,
    if_pos ⟨rfl, List.mem_range.2 (by omega)⟩]

/-- **C35 (negation, `Relinearize`).** The result does not depend on the argument. -/
theorem C35_relinearize_ignores (G : Gadget Pl) (k out ct ct' tb : ℕ) (rlk : ℕ → ℕ → Fin (k + 1) → Pl)
    (err : ℕ → Fin (k + 1) → Pl) (m : Mem Pl) :
    relinearize G k out ct tb rlk err m = relinearize G k out ct' tb rlk err m := rfl
end

section
variable {N : ℕ} [NeZero N]

/-- A memory with constant polynomials as bodies of vectors 0 and 1 and zero elsewhere. -/
def exBfvMem (N : ℕ) [NeZero N] {w : ℕ} (a b : BitVec w) : Mem (Poly N (BitVec w)) :=
  fun v i => if i = 0 then (if v = 0 then Poly.C N a else if v = 1 then Poly.C N b else 0) else 0

theorem zero_mul_le (i : Fin 1) (x : Poly N ℤ) : iabs (x * (fun _ : Fin 1 => (0 : Poly N ℤ)) i) ≤ 0 * iabs x := by
  rw [mul_zero, zero_mul]; exact (intNorm N).zero.le

/-- **C35 (negation, `Tensor`).** The claim that is true of the buffer (`C35_tensor_buffer`, without
floating-point error) is false of the returned ciphertext: 8-bit words, scale 16, two noiseless ciphertexts
of the message 1, any `N`. -/
theorem C35_tensor_false : ∃ (m : Mem (Poly N (BitVec 8))), ∀ old,
    ¬ ∃ R E : Poly N ℤ,
      tensorPhase (fun _ : Fin 1 => ofIntP 8 (0 : Poly N ℤ)) (tensor 16 1 2 0 1 3 old (fun _ => 0) m 2) = ofIntP 8 R ∧
      Poly.C N ((16 : ℕ) : ℤ) * R = phase (fun _ : Fin 1 => (0 : Poly N ℤ)) (fun i => lift (ctOf 1 m 0 i))
        * phase (fun _ : Fin 1 => (0 : Poly N ℤ)) (fun i => lift (ctOf 1 m 1 i)) + E ∧
      2 * iabs E ≤ 16 * (1 + 1 * 0 + rlkRank 1 * 0 ^ 2) := by
  refine ⟨exBfvMem N 16 16, fun old => ?_⟩
  rintro ⟨R, E, h1, h2, h3⟩
  have hz : ∀ t, t ≤ 2 → tensor 16 1 2 0 1 3 old (fun _ => (0 : Poly N (BitVec 8))) (exBfvMem N 16 16) 2 t = 0 :=
    fun t ht => C35_tensor_zero 16 1 2 0 1 3 (by decide) old _ _ t ht
  have hph : tensorPhase (fun _ : Fin 1 => ofIntP 8 (0 : Poly N ℤ))
      (tensor 16 1 2 0 1 3 old (fun _ => 0) (exBfvMem N 16 16) 2) = 0 := by
    unfold tensorPhase
    rw [wsum_eq_sum, hz 0 (by omega), zero_add]
    refine Finset.sum_eq_zero fun i hi => ?_
    rw [tensorKey_length, Finset.mem_range] at hi
    have : 1 + rlkRank 1 = 2 := by decide
    rw [hz (1 + i) (by omega), zero_mul]
  rw [hph] at h1
  -- the constant coefficient
  have hphase : ∀ v : ℕ, v < 2 → phase (fun _ : Fin 1 => (0 : Poly N ℤ)) (fun i => lift (ctOf 1 (exBfvMem N (16 : BitVec 8) 16) v i))
      = Poly.C N (16 : ℤ) := by
    intro v hv
    unfold phase
    simp only [mul_zero, Finset.sum_const_zero, add_zero]
    funext j
    have hv' : v = 0 ∨ v = 1 := by omega
    rcases hv' with rfl | rfl <;>
    · simp only [lift, ctOf, exBfvMem, Fin.val_zero, if_true, one_ne_zero, if_false, Poly.C_apply]
      split <;> rfl
  rw [hphase 0 (by decide), hphase 1 (by decide), ← Poly.C_mul] at h2
  have h4 := congrFun h2 ⟨0, NeZero.pos N⟩
  rw [Poly.C_mul_apply, Poly.add_apply, Poly.C_apply] at h4
  simp only [if_true] at h4
  have h5 := natAbs_le_iabs E ⟨0, NeZero.pos N⟩
  have h6 := congrFun h1 ⟨0, NeZero.pos N⟩
  unfold ofIntP at h6
  rw [Poly.zero_apply] at h6
  have h7 := congrArg BitVec.toInt h6.symm
  rw [BitVec.toInt_ofInt] at h7
  have h8 := Int.dvd_of_bmod_eq_zero h7
  generalize R ⟨0, NeZero.pos N⟩ = x at h4 h8
  generalize E ⟨0, NeZero.pos N⟩ = y at h4 h5
  push_cast at h4 h8
  omega

/-- The claim about the buffer holds in the same situation, so the negation is not an artefact of the bounds. -/
example (old : ℕ → Poly N ℤ) : ∃ R E : Poly N ℤ,
      tensorPhase (fun _ : Fin 1 => ofIntP 8 (0 : Poly N ℤ))
        (tensorTo 16 1 2 0 1 3 old (fun _ => 0) (exBfvMem N (16 : BitVec 8) 16) 3) =
          ofIntP 8 R + tensorPhase (fun _ : Fin 1 => ofIntP 8 (0 : Poly N ℤ)) (fun _ => 0) ∧
      Poly.C N ((16 : ℕ) : ℤ) * R =
        phase (fun _ : Fin 1 => (0 : Poly N ℤ)) (fun i => lift (ctOf 1 (exBfvMem N (16 : BitVec 8) 16) 0 i))
        * phase (fun _ : Fin 1 => (0 : Poly N ℤ)) (fun i => lift (ctOf 1 (exBfvMem N (16 : BitVec 8) 16) 1 i)) + E ∧
      2 * iabs E ≤ 16 * (1 + 1 * 0 + rlkRank 1 * 0 ^ 2) :=
  C35_tensor_buffer 16 (by decide) (fun _ : Fin 1 => (0 : Poly N ℤ)) 2 0 1 3 old _ _ 0 zero_mul_le

theorem tensorKey_zero : tensorKey (fun _ : Fin 1 => (0 : Poly N (BitVec 8))) = [0, 0 * 0] := rfl

/-- **C35 (negation, `Relinearize`).** With a noiseless relinearization key and exact arithmetic, relinearizing
a noiseless ciphertext of rank 2 with phase 16 gives phase 16 or phase 0, depending on what the evaluator did
before. -/
theorem C35_relinearize_false (G : Gadget (Poly N (BitVec 8))) (hL : 0 < G.level) :
    ∃ (rlk : ℕ → ℕ → Fin 2 → Poly N (BitVec 8)) (m m' : Mem (Poly N (BitVec 8))),
      IsRelinKey G (fun _ : Fin 1 => (0 : Poly N (BitVec 8))) (fun _ => 0) rlk (fun _ _ => 0) ∧
      (∀ i, m 0 i = m' 0 i) ∧
      tensorPhase (fun _ : Fin 1 => (0 : Poly N (BitVec 8))) (m 0) = Poly.C N 16 ∧
      phase (fun _ : Fin 1 => 0) (ctOf 1 (relinearize G 1 2 0 3 rlk (fun _ _ => 0) m) 2) = 0 ∧
      phase (fun _ : Fin 1 => 0) (ctOf 1 (relinearize G 1 2 0 3 rlk (fun _ _ => 0) m') 2) = Poly.C N 16 := by
  have hkey : IsRelinKey G (fun _ : Fin 1 => (0 : Poly N (BitVec 8))) (fun _ => 0) (fun _ _ _ => 0) (fun _ _ => 0) := by
    intro t ht j _
    have : (tensorKey (fun _ : Fin 1 => (0 : Poly N (BitVec 8)))).getD (1 + t) 0 = 0 := by
      have ht : t = 0 := by have : rlkRank 1 = 1 := by decide
                            omega
      subst ht
      rw [tensorKey_zero]; simp
    rw [this]
    simp [phase]
  have hn : ∀ T : ℕ → Poly N (BitVec 8), (∀ i, 1 ≤ i → T i = 0) →
      relinNoise G (fun _ : Fin 1 => (0 : Poly N (BitVec 8))) T (fun _ => 0) (fun _ _ => 0) (fun _ _ => 0) = 0 := by
    intro T _
    unfold relinNoise
    refine Finset.sum_eq_zero fun t ht => ?_
    have ht : t = 0 := by have : rlkRank 1 = 1 := by decide
                          rw [Finset.mem_range] at ht; omega
    subst ht
    rw [tensorKey_zero]; simp [phase]
  have hout : ∀ m : Mem (Poly N (BitVec 8)), (∀ i, 1 ≤ i → m 3 i = 0) →
      phase (fun _ : Fin 1 => 0) (ctOf 1 (relinearize G 1 2 0 3 (fun _ _ _ => 0) (fun _ _ => 0) m) 2) = m 3 0 := by
    intro m hm
    unfold relinearize
    have hz : ∀ i, mapLoopI (fun _ _ _ _ => (0 : Poly N (BitVec 8))) 2 2 2 (List.range (1 + 1)) m 3 i = m 3 i := fun i =>
      (mapLoopI_whole (fun _ _ _ _ => 0) 1 2 2 2 m).2 3 i (Or.inl (by decide))
    rw [(C35_relinearize_buffer G hL (fun _ : Fin 1 => (0 : Poly N (BitVec 8))) 2 0 3 (by decide) _ _ _ hkey _ _).1,
      hn _ (fun i hi => by rw [hz, hm i hi])]
    unfold tensorPhase
    rw [wsum_eq_sum, hz, add_zero]
    convert add_zero _
    refine Finset.sum_eq_zero fun i _ => ?_
    rw [hz, hm _ (by omega), zero_mul]
  refine ⟨fun _ _ _ => 0, exBfvMem N 16 0, fun v i => if v = 3 then exBfvMem N 16 0 0 i else exBfvMem N 16 0 v i, hkey,
    fun i => by simp, ?_, ?_, ?_⟩
  · unfold tensorPhase
    rw [wsum_eq_sum, Finset.sum_eq_zero, add_zero]
    · simp [exBfvMem]
    · intro i _
      simp [exBfvMem]
  · rw [hout _ (fun i hi => by simp [exBfvMem])]
    simp [exBfvMem]
  · rw [hout _ (fun i hi => by simp [exBfvMem, show i ≠ 0 by omega])]
    simp [exBfvMem]
end
end Tfhe
