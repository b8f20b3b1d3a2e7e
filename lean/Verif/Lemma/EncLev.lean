import Verif.Lemma.RoundTrip
import Verif.Props.C47

/-!
# Leveled encryptions with rounded transforms

On streams without two small neighbours, `EncryptGLevPolyTo`, `EncryptFFTGLevPolyTo`, `EncryptGGSWPolyTo` and `EncryptFFTGGSWPolyTo`
return leveled encryptions with a small error.
-/
namespace Tfhe.Enc
open Tfhe Rng Gauss Fft Poly

/-- A leveled encryption of `m` with errors up to `E`. -/
def LevUpTo {w N k : ℕ} [NeZero N] (g : GadgetParams w) (sk : Fin k → Poly N (BitVec w)) (m : Poly N (BitVec w))
    (lev : ℕ → Fin (k + 1) → Poly N (BitVec w)) (E : ℕ) : Prop :=
  ∃ err : ℕ → Poly N (BitVec w), IsLev (polyGadget N g) sk m lev err ∧ ∀ j, j < g.level → pabs (err j) ≤ E

/-- A GGSW encryption of `m` with errors up to `E`. -/
def GSWUpTo {w N k : ℕ} [NeZero N] (g : GadgetParams w) (sk : Fin k → Poly N (BitVec w)) (m : Poly N (BitVec w))
    (ct : Fin (k + 1) → ℕ → Fin (k + 1) → Poly N (BitVec w)) (E : ℕ) : Prop :=
  ∃ err : Fin (k + 1) → ℕ → Poly N (BitVec w), IsGSW (polyGadget N g) sk m ct err ∧ ∀ i j, j < g.level → pabs (err i j) ≤ E

theorem gswUpTo {w N k : ℕ} [NeZero N] {g : GadgetParams w} {sk : Fin k → Poly N (BitVec w)} {m : Poly N (BitVec w)}
    {ct : Fin (k + 1) → ℕ → Fin (k + 1) → Poly N (BitVec w)} {E : ℕ} (h0 : LevUpTo g sk m (ct 0) E)
    (h : ∀ i : Fin k, LevUpTo g sk (m * sk i) (ct i.succ) E) : GSWUpTo g sk m ct E := by
  obtain ⟨e0, a0, b0⟩ := h0
  choose e a b using h
  refine ⟨Fin.cons e0 e, ⟨a0, fun i => ?_⟩, fun i => ?_⟩
  · rw [Fin.cons_succ]; exact a i
  · refine Fin.cases ?_ (fun i => ?_) i
    · exact b0
    · rw [Fin.cons_succ]; exact b i

/-- Decoding the first level. -/
theorem roundFirst_spec {w N k : ℕ} [NeZero N] {g : GadgetParams w} (hg : g.Valid) {sk : Fin k → Poly N (BitVec w)}
    {m : Poly N (BitVec w)} {lev : ℕ → Fin (k + 1) → Poly N (BitVec w)} {E : ℕ} (h : LevUpTo g sk m lev E)
    (hE : 2 * E < 2 ^ g.logFirstBaseQ) (i : Fin N) :
    (roundFirst g (phase sk (lev 0)) i).toNat = (m i).toNat % g.base.toNat := by
  obtain ⟨err, h1, h2⟩ := h
  have e := h1 0 hg.level_pos
  have hb := (wabs_le_pabs _ i).trans (h2 0 hg.level_pos)
  unfold wabs at hb
  have hE' : (2 * E : ℤ) < 2 ^ g.logFirstBaseQ := by exact_mod_cast hE
  unfold roundFirst
  rw [e]
  have e2 : (m * (polyGadget N g).g 0 + err 0) i = m i * g.baseQ 0 + err 0 i := by
    rw [Poly.add_apply]
    show (m * Poly.C N (g.baseQ 0)) i + _ = _
    rw [mul_comm, Poly.C_mul_apply, mul_comm]
  rw [e2]
  exact round_first g hg (m i) _ (by omega) (by omega)

/-- A loop that updates the elements `φ i` of an array one after the other. -/
theorem On.loopAt {S : List (BitVec 32) → Prop} (hS : ∀ ws rest, S ws → rest <:+ ws → S rest) {ι κ : Type} [DecidableEq κ]
    {A : Type} (φ : ι → κ) (hφ : Function.Injective φ) (f : (κ → A) → ι → Stream (κ → A)) (P : ι → A → Prop)
    (l : List ι) (hl : l.Nodup)
    (hf : ∀ s i, i ∈ l → On S (f s i) (fun s' => ∃ c, P i c ∧ s' = Function.update s (φ i) c)) (s : κ → A) :
    On S (l.foldlM f s) (fun s' => (∀ i, i ∈ l → P i (s' (φ i))) ∧ ∀ t, (∀ i ∈ l, φ i ≠ t) → s' t = s t) := by
  induction l generalizing s with
  | nil => exact On.ret ⟨by simp, fun _ _ => rfl⟩
  | cons j l ih =>
    obtain ⟨hj, hl⟩ := List.nodup_cons.mp hl
    rw [List.foldlM_cons]
    refine On.bind hS (hf s j List.mem_cons_self) ?_
    rintro _ ⟨c, hc, rfl⟩
    refine (ih hl (fun s i hi => hf s i (List.mem_cons_of_mem _ hi)) (Function.update s (φ j) c)).mono ?_
    rintro s' ⟨h1, h2⟩
    refine ⟨fun i hi => ?_, fun t ht => ?_⟩
    · rcases List.mem_cons.mp hi with rfl | hi
      · rw [h2 (φ i) fun i' hi' he => hj (hφ he ▸ hi'), Function.update_self]
        exact hc
      · exact h1 i hi
    · rw [h2 t fun i hi => ht i (List.mem_cons_of_mem _ hi), Function.update_of_ne (ht j List.mem_cons_self).symm]

theorem bind_ok' {α β : Type} {m : Stream α} {f : α → Stream β} {ws r r' : List (BitVec 32)} {a : α} {b : β} (h : m ws = .ok a r)
    (h' : f a r = .ok b r') : (m >>= f) ws = .ok b r' := by
  have e : (m >>= f) ws = match m ws with
    | .panic => .panic
    | .reading => .reading
    | .ok a rest => f a rest := rfl
  rw [e, h]
  exact h'

/-! ## Words -/

/-- A leveled encryption of the word `m` with errors up to `E`. -/
def WLevUpTo {w n : ℕ} (g : GadgetParams w) (sk : Fin n → BitVec w) (m : BitVec w) (lev : ℕ → Fin (n + 1) → BitVec w) (E : ℕ) : Prop :=
  ∃ err : ℕ → BitVec w, IsLev (scalarGadget g) sk m lev err ∧ ∀ j, j < g.level → wabs (err j) ≤ E

/-- A GSW encryption of the word `m` with errors up to `E`. -/
def WGSWUpTo {w n : ℕ} (g : GadgetParams w) (sk : Fin n → BitVec w) (m : BitVec w)
    (ct : Fin (n + 1) → ℕ → Fin (n + 1) → BitVec w) (E : ℕ) : Prop :=
  ∃ err : Fin (n + 1) → ℕ → BitVec w, IsGSW (scalarGadget g) sk m ct err ∧ ∀ i j, j < g.level → wabs (err i j) ≤ E

theorem decryptLev_spec {w n : ℕ} {g : GadgetParams w} (hg : g.Valid) {sk : Fin n → BitVec w} {m : BitVec w}
    {lev : ℕ → Fin (n + 1) → BitVec w} {E : ℕ} (h : WLevUpTo g sk m lev E) (hE : 2 * E < 2 ^ g.logFirstBaseQ) :
    (decryptLevScalar g sk lev).toNat = m.toNat % g.base.toNat := by
  obtain ⟨err, h1, h2⟩ := h
  have e := h1 0 hg.level_pos
  have hb := h2 0 hg.level_pos
  unfold wabs at hb
  have hE' : (2 * E : ℤ) < 2 ^ g.logFirstBaseQ := by exact_mod_cast hE
  rw [decryptLevScalar, C05_decryptPhase, e]
  exact round_first g hg m _ (by omega) (by omega)

section
variable {w : ℕ} (hw64 : w ≤ 64) {M : Libm} (hM : GoodLibm M) {σ : ℝ} (h0 : 1 / 16 ≤ σ) (hσ : 8.074 * σ + 1 / 2 < 2 ^ 63) {n B : ℕ}
  (hB : ∀ v : BitVec w, IsNoise σ v → wabs v ≤ B) (sk : Fin n → BitVec w) (g : GadgetParams w)
include hw64 hM h0 hσ

theorem mostly_sample : Mostly (sample M w σ : Stream (BitVec w)) (IsNoise σ) := by
  intro ws hs
  obtain ⟨g1, g2⟩ := (always_sample hM hw64 h0 hσ).mostly ws hs
  exact ⟨g1, fun v rest h => ⟨C60_bounded_partial hM hw64 hσ ws hs v rest h, (g2 v rest h).2⟩⟩

include hB

theorem mostly_encryptLevScalar (mask : ℕ → Fin n → BitVec w) (ct : ℕ → Fin (n + 1) → BitVec w) (c : BitVec w) :
    Mostly (encryptLevScalar M g σ sk mask ct c) fun ct => WLevUpTo g sk c ct B := by
  refine (On.loopAt mild_suffix id Function.injective_id _ (fun j r => ∃ v, wabs v ≤ B ∧ phase sk r = c * g.baseQ j + v) _
    List.nodup_range (fun s j _ => ?_) ct).mono ?_
  · refine On.bind mild_suffix (Q := fun r => ∃ v, wabs v ≤ B ∧ phase sk r = c * g.baseQ j + v) ?_ ?_
    · refine On.bind mild_suffix (mostly_sample hw64 hM h0 hσ) fun v hv => On.ret ⟨v, hB v hv, ?_⟩
      rw [(C05_fresh sk (mask j) v _).1, shl_logBaseQ]
    · exact fun r hr => On.ret ⟨r, hr, rfl⟩
  · intro s h
    have hj : ∀ j, j < g.level → ∃ v, wabs v ≤ B ∧ phase sk (s j) = c * g.baseQ j + v :=
      fun j hj => h.1 j (List.mem_range.mpr hj)
    choose! v h1 h2 using hj
    exact ⟨v, h2, h1⟩

theorem mostly_encryptGSWScalar (mask : Fin (n + 1) → ℕ → Fin n → BitVec w) (ct : Fin (n + 1) → ℕ → Fin (n + 1) → BitVec w)
    (c : BitVec w) : Mostly (encryptGSWScalar M g σ sk mask ct c) fun ct => WGSWUpTo g sk c ct B := by
  refine On.bind mild_suffix (mostly_encryptLevScalar hw64 hM h0 hσ hB sk g (mask 0) (ct 0) c) ?_
  intro lev hlev
  refine (On.loopAt mild_suffix Fin.succ (Fin.succ_injective n) _ (fun (i : Fin n) r => WLevUpTo g sk (c * sk i) r B) _
    (List.nodup_finRange n) (fun s i _ => ?_) _).mono ?_
  · rw [mul_comm c]
    refine On.bind mild_suffix (mostly_encryptLevScalar hw64 hM h0 hσ hB sk g (mask i.succ) (s i.succ) (sk i * c)) ?_
    exact fun c hc => On.ret ⟨c, hc, rfl⟩
  · rintro s ⟨h1, h2⟩
    have h3 : WLevUpTo g sk c (s 0) B := by
      rw [h2 0 fun i _ => Fin.succ_ne_zero i, Function.update_self]
      exact hlev
    obtain ⟨e0, a0, b0⟩ := h3
    choose e a b using fun i => h1 i (List.mem_finRange i)
    refine ⟨Fin.cons e0 e, ⟨a0, fun i => ?_⟩, fun i => ?_⟩
    · rw [Fin.cons_succ]; exact a i
    · refine Fin.cases ?_ (fun i => ?_) i
      · exact b0
      · rw [Fin.cons_succ]; exact b i
end

/-- What `EncryptLevScalarTo` does with infinities. -/
theorem encryptLev_inf {w n : ℕ} {M : Libm} (hM : GoodLibm M) {σ : ℝ} (hσ : 0 < σ) (g : GadgetParams w) (sk : Fin n → BitVec w)
    (mask : ℕ → Fin n → BitVec w) (ct : ℕ → Fin (n + 1) → BitVec w) (c : BitVec w) (rest : List (BitVec 32)) :
    ∃ ct', encryptLevScalar M g σ sk mask ct c ((List.replicate g.level [0xFFFFFF00, 0, 0]).flatten ++ rest) = .ok ct' rest ∧
      ∀ j, j < g.level → ct' j = encryptLWEPlaintext sk (mask j) ((M.int64 (.inf false)).setWidth w) (c <<< g.logBaseQ j) := by
  have key : ∀ (l : List ℕ) (ct : ℕ → Fin (n + 1) → BitVec w), l.Nodup → ∃ ct',
      (l.foldlM (fun ct j => do
        let row ← encryptLWE M σ sk (mask j) (c <<< g.logBaseQ j)
        pure (Function.update ct j row)) ct : Stream _) ((List.replicate l.length [0xFFFFFF00, 0, 0]).flatten ++ rest) = .ok ct' rest ∧
      (∀ j ∈ l, ct' j = encryptLWEPlaintext sk (mask j) ((M.int64 (.inf false)).setWidth w) (c <<< g.logBaseQ j)) ∧
      ∀ j, j ∉ l → ct' j = ct j := by
    intro l
    induction l with
    | nil => intro ct _; exact ⟨ct, rfl, by simp, fun _ _ => rfl⟩
    | cons j l ih =>
      intro ct hn
      obtain ⟨hj, hn⟩ := List.nodup_cons.mp hn
      obtain ⟨ct', h1, h2, h3⟩ := ih (Function.update ct j (encryptLWEPlaintext sk (mask j) ((M.int64 (.inf false)).setWidth w)
        (c <<< g.logBaseQ j))) hn
      refine ⟨ct', ?_, ?_, ?_⟩
      · rw [List.foldlM_cons]
        have hs := C60_inf (w := w) hM hσ 0 0 (by decide) (by decide) ((List.replicate l.length [0xFFFFFF00, 0, 0]).flatten ++ rest)
        have e1 : encryptLWE M σ sk (mask j) (c <<< g.logBaseQ j)
            (0xFFFFFF00 :: 0 :: 0 :: ((List.replicate l.length [0xFFFFFF00, 0, 0]).flatten ++ rest)) =
            .ok (encryptLWEPlaintext sk (mask j) ((M.int64 (.inf false)).setWidth w) (c <<< g.logBaseQ j))
              ((List.replicate l.length [0xFFFFFF00, 0, 0]).flatten ++ rest) := bind_ok' hs rfl
        refine bind_ok' (bind_ok' e1 rfl) h1
      · intro i hi
        rcases List.mem_cons.mp hi with rfl | hi
        · rw [h3 i hj, Function.update_self]
        · exact h2 i hi
      · intro i hi
        rw [h3 i fun h => hi (List.mem_cons_of_mem _ h), Function.update_of_ne fun h : i = j => hi (h ▸ List.mem_cons_self)]
  obtain ⟨ct', h1, h2, -⟩ := key (List.range g.level) ct List.nodup_range
  rw [List.length_range] at h1
  exact ⟨ct', h1, fun j hj => h2 j (List.mem_range.mpr hj)⟩

/-! ## Polynomials -/

variable {K : Machine} (hK : Ieee K) {l w : ℕ} {N : BitVec 64} (hN : N.toInt = 2 ^ (l + 4)) {e : Eval ℝ}
  (he : newEvaluatorFl K.arith K.cis N = some e) (hw : 0 < w) (hw64 : w ≤ 64) (hl : l + 4 ≤ 27) (signed : Bool)
include hK hN he hw hw64 hl

theorem mulShort_eq (old old' : ℕ → ℝ) (out p s : Poly (2 ^ (l + 4)) (BitVec w)) (hs : ∀ i, |(s i).toInt| ≤ 2 ^ 8) :
    mulShort K signed e old out p (fwdFFTFl K.arith e old' (arr s)) = some (p * s) := by
  have h := C56_short hK.toAccurate hN he hw hw64 hl signed old old' out p s hs
  have h' : shortMulToFl K.arith signed e old (Poly.toList out) (arr p) (fwdFFTFl K.arith e old' (arr s)) =
    some (Poly.toList (p * s)) := h
  rw [mulShort, h', Option.map_some, ofCoeffs_toList]

variable {M : Libm} (hM : GoodLibm M) {σ : ℝ} (h0 : 1 / 16 ≤ σ) (hσ : 8.074 * σ + 1 / 2 < 2 ^ 63) {k B : ℕ}
  (hB : ∀ n : Poly (2 ^ (l + 4)) (BitVec w), (∀ i, IsNoise σ (n i)) → pabs n ≤ B)
  (sk : Fin k → Poly (2 ^ (l + 4)) (BitVec w)) (hs : ∀ i t, |(sk i t).toInt| ≤ 2 ^ 8) (g : GadgetParams w)
include hM h0 hσ hB hs

theorem mostly_row (old : Fin k → ℕ → ℝ) (old' : Fin k → ℕ → ℝ) (mask : Fin k → Poly (2 ^ (l + 4)) (BitVec w))
    (p : Poly (2 ^ (l + 4)) (BitVec w)) :
    Mostly (encryptGLWEBody K.toFloat64 M signed e σ old (fwdFFTKey K.toFloat64 e old' sk) mask p)
      fun ct => ∃ n, pabs n ≤ B ∧ phase sk ct = p + n := by
  refine (mostly_encryptGLWEBody hK.toAccurate hN he hw hw64 hl signed hM h0 hσ old old' sk mask hs p).mono ?_
  rintro _ ⟨n, h1, rfl⟩
  have := (C07_fresh sk mask 0 n p).1
  simp only [Pi.zero_apply, Finset.sum_const_zero, sub_zero] at this
  exact ⟨n, hB n h1, this⟩

theorem mostly_encryptGLevPoly (old : ℕ → Fin k → ℕ → ℝ) (old' : Fin k → ℕ → ℝ) (mask : ℕ → Fin k → Poly (2 ^ (l + 4)) (BitVec w))
    (ct : ℕ → Fin (k + 1) → Poly (2 ^ (l + 4)) (BitVec w)) (p : Poly (2 ^ (l + 4)) (BitVec w)) :
    Mostly (encryptGLevPoly K M signed e g σ old (fwdFFTKey K.toFloat64 e old' sk) mask ct p) fun ct => LevUpTo g sk p ct B := by
  refine (On.loopAt mild_suffix id Function.injective_id _ (fun j c => ∃ n, pabs n ≤ B ∧
    phase sk c = p * Poly.C _ (g.baseQ j) + n) _ List.nodup_range (fun s j _ => ?_) ct).mono ?_
  · refine On.bind mild_suffix
      (mostly_row hK hN he hw hw64 hl signed hM h0 hσ hB sk hs (old j) old' (mask j) _) ?_
    rintro row ⟨n, h1, h2⟩
    exact On.ret ⟨row, ⟨n, h1, by rw [h2]; ring⟩, rfl⟩
  · intro s h
    have hj : ∀ j, j < g.level → ∃ n, pabs n ≤ B ∧ phase sk (s j) = p * Poly.C _ (g.baseQ j) + n :=
      fun j hj => h.1 j (List.mem_range.mpr hj)
    choose! n h1 h2 using hj
    exact ⟨n, h2, h1⟩

theorem mostly_encryptGGSWPoly (oldG : Fin k → ℕ → ℝ) (old : Fin (k + 1) → ℕ → Fin k → ℕ → ℝ) (old' : Fin k → ℕ → ℝ)
    (mask : Fin (k + 1) → ℕ → Fin k → Poly (2 ^ (l + 4)) (BitVec w)) (ptGGSW : Fin k → Poly (2 ^ (l + 4)) (BitVec w))
    (ct : Fin (k + 1) → ℕ → Fin (k + 1) → Poly (2 ^ (l + 4)) (BitVec w)) (p : Poly (2 ^ (l + 4)) (BitVec w)) :
    Mostly (encryptGGSWPoly K M signed e g σ oldG old (fwdFFTKey K.toFloat64 e old' sk) mask ptGGSW ct p)
      fun ct => GSWUpTo g sk p ct B := by
  refine On.bind mild_suffix (mostly_encryptGLevPoly hK hN he hw hw64 hl signed hM h0 hσ hB sk hs g (old 0) old' (mask 0) (ct 0) p) ?_
  intro lev hlev
  refine (On.loopAt mild_suffix Fin.succ (Fin.succ_injective k) _ (fun (i : Fin k) c => LevUpTo g sk (p * sk i) c B) _
    (List.nodup_finRange k) (fun s i _ => ?_) _).mono ?_
  · refine On.bind mild_suffix (Q := fun q => q = p * sk i)
      (On.ofPanic (mulShort_eq hK hN he hw hw64 hl signed (oldG i) (old' i) (ptGGSW i) p (sk i) (hs i)) rfl) ?_
    rintro _ rfl
    refine On.bind mild_suffix (mostly_encryptGLevPoly hK hN he hw hw64 hl signed hM h0 hσ hB sk hs g _ old' _ _ _) ?_
    exact fun c hc => On.ret ⟨c, hc, rfl⟩
  · rintro s ⟨h1, h2⟩
    refine gswUpTo ?_ fun i => h1 i (List.mem_finRange i)
    rw [h2 0 fun i _ => Fin.succ_ne_zero i, Function.update_self]
    exact hlev

omit hs
variable (hsb : ∀ i t, sk i t = 0 ∨ sk i t = 1)
include hsb

theorem mostly_encryptFFTGLevPoly (old : ℕ → Fin k → ℕ → ℝ) (old' : Fin k → ℕ → ℝ)
    (mask : ℕ → Fin k → Poly (2 ^ (l + 4)) (BitVec w)) (ct : ℕ → Fin (k + 1) → FPoly) (p : Poly (2 ^ (l + 4)) (BitVec w)) :
    Mostly (encryptFFTGLevPoly K M signed e g σ old (fwdFFTKey K.toFloat64 e old' sk) mask ct p)
      fun ct => LevUpTo g sk p (fun j => invFFTCt K e (ct j)) (B + (1 + k * 2 ^ (l + 4)) * rtErr l w) := by
  have hs : ∀ i t, |(sk i t).toInt| ≤ 2 ^ 8 := fun i t => bit_le _ (hsb i t)
  refine (On.loopAt mild_suffix id Function.injective_id _ (fun j c => ∃ n : Poly (2 ^ (l + 4)) (BitVec w),
    pabs n ≤ B + (1 + k * 2 ^ (l + 4)) * rtErr l w ∧ phase sk (invFFTCt K e c) = p * Poly.C _ (g.baseQ j) + n) _ List.nodup_range
    (fun s j _ => ?_) ct).mono ?_
  · refine On.bind mild_suffix
      (mostly_row hK hN he hw hw64 hl signed hM h0 hσ hB sk hs (old j) old' (mask j) _) ?_
    rintro row ⟨n, h1, h2⟩
    obtain ⟨err, g1, g2⟩ := roundtrip_ct hK hN he hw hw64 hl (s j) row
    refine On.ret ⟨_, ⟨n + phase sk err, (pabs_add_le _ _).trans (Nat.add_le_add h1 (phase_small sk hsb _ err g1)), ?_⟩, rfl⟩
    rw [g2]
    have : phase sk (row + err) = phase sk row + phase sk err := phase_add sk row err
    rw [this, h2]
    ring
  · intro s h
    have hj : ∀ j, j < g.level → ∃ n : Poly (2 ^ (l + 4)) (BitVec w), pabs n ≤ B + (1 + k * 2 ^ (l + 4)) * rtErr l w ∧
        phase sk (invFFTCt K e (s j)) = p * Poly.C _ (g.baseQ j) + n := fun j hj => h.1 j (List.mem_range.mpr hj)
    choose! n h1 h2 using hj
    exact ⟨n, h2, h1⟩

theorem mostly_encryptFFTGGSWPoly (oldG : Fin k → ℕ → ℝ) (old : Fin (k + 1) → ℕ → Fin k → ℕ → ℝ) (old' : Fin k → ℕ → ℝ)
    (mask : Fin (k + 1) → ℕ → Fin k → Poly (2 ^ (l + 4)) (BitVec w)) (ptGGSW : Fin k → Poly (2 ^ (l + 4)) (BitVec w))
    (ct : Fin (k + 1) → ℕ → Fin (k + 1) → FPoly) (p : Poly (2 ^ (l + 4)) (BitVec w)) :
    Mostly (encryptFFTGGSWPoly K M signed e g σ oldG old (fwdFFTKey K.toFloat64 e old' sk) mask ptGGSW ct p)
      fun ct => GSWUpTo g sk p (fun i j => invFFTCt K e (ct i j)) (B + (1 + k * 2 ^ (l + 4)) * rtErr l w) := by
  have hs : ∀ i t, |(sk i t).toInt| ≤ 2 ^ 8 := fun i t => bit_le _ (hsb i t)
  refine On.bind mild_suffix
    (mostly_encryptFFTGLevPoly hK hN he hw hw64 hl signed hM h0 hσ hB sk g hsb (old 0) old' (mask 0) (ct 0) p) ?_
  intro lev hlev
  refine (On.loopAt mild_suffix Fin.succ (Fin.succ_injective k) _
    (fun (i : Fin k) c => LevUpTo g sk (p * sk i) (fun j => invFFTCt K e (c j)) (B + (1 + k * 2 ^ (l + 4)) * rtErr l w)) _
    (List.nodup_finRange k) (fun s i _ => ?_) _).mono ?_
  · refine On.bind mild_suffix (Q := fun q => q = p * sk i)
      (On.ofPanic (mulShort_eq hK hN he hw hw64 hl signed (oldG i) (old' i) (ptGGSW i) p (sk i) (hs i)) rfl) ?_
    rintro _ rfl
    refine On.bind mild_suffix (mostly_encryptFFTGLevPoly hK hN he hw hw64 hl signed hM h0 hσ hB sk g hsb _ old' _ _ _) ?_
    exact fun c hc => On.ret ⟨c, hc, rfl⟩
  · rintro s ⟨h1, h2⟩
    refine gswUpTo ?_ fun i => h1 i (List.mem_finRange i)
    rw [h2 0 fun i _ => Fin.succ_ne_zero i, Function.update_self]
    exact hlev
end Tfhe.Enc
