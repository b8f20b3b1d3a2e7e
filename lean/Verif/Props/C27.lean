import Verif.Props.C24
import Verif.Props.C25
import Verif.Props.C70

/-!
# C27: reading never panics on arbitrary bytes

False: the header fields are used for allocation and passed to constructors and `Compile` without
being validated, so `ReadFrom` panics on malformed headers (`C27_…_false`).  What holds
(`C27_…_partial`): `LWEPlaintext.ReadFrom` never panics; the other methods panic only on account of
the header, that is, never if its fields, as far as they are present, are dimensions of a possible
object, whatever the remaining bytes and however few of them there are.
-/
namespace Tfhe.Ser

variable {w v mem : ℕ} {α β : Type}

/-! ## The specification -/

/-- The `i`-th 8-byte field of the stream, as a Go `int` (missing bytes are ignored; then the read
fails before the field is used). -/
def field (s : Bytes) (i : ℕ) : BitVec 64 := BitVec.ofNat 64 (getBE ((s.drop (8 * i)).take 8))

/-- `ReadFrom` does not panic on `s`. -/
def NoPanic (r : Reader α) (s : Bytes) : Prop := r s ≠ .panic

/-! ## Counterexamples -/

/-- `LWESecretKey`: a negative dimension. -/
theorem C27_lweSecretKey_false (mem : ℕ) :
    lweSKReadFrom (v := v) mem (putU64 (-1)) = .panic := by
  have h : readU64 (putU64 (-1)) = .ok 8 (-1) [] := by
    simpa [putU64_length] using (Rt.readU64 (-1)).ok []
  simp only [lweSKReadFrom, lweSKHeaderRead, Reader.bindUncounted, Reader.bind, h,
    newLWESecretKey, mkSlice]
  rw [if_pos (.inl (by decide))]
  rfl

/-- `LWECiphertext`: a dimension below `-1`. -/
theorem C27_lweCiphertext_false (mem : ℕ) :
    lweCTReadFrom (v := v) mem (putU64 (-2)) = .panic := by
  have h : readU64 (putU64 (-2)) = .ok 8 (-2) [] := by
    simpa [putU64_length] using (Rt.readU64 (-2)).ok []
  simp only [lweCTReadFrom, Reader.bind, h, newLWECiphertext, mkSlice]
  rw [if_pos (.inl (by decide))]
  rfl

/-- `GLWEPlaintext`: eight zero bytes, for the rank 0 is rejected by `NewPoly` with a panic. -/
theorem C27_glwePlaintext_false (mem : ℕ) :
    glwePTReadFrom (v := v) mem (putU64 0) = .panic := by
  have h : readU64 (putU64 0) = .ok 8 0 [] := by
    simpa [putU64_length] using (Rt.readU64 0).ok []
  simp only [glwePTReadFrom, Reader.bind, h]
  rfl

/-- `GLWESecretKey`, `GLWECiphertext` and their transforms: sixteen zero bytes. -/
theorem C27_glwe_false (mem : ℕ) :
    glweSKReadFrom (v := v) mem (putU64 0 ++ putU64 0) = .panic ∧
    glweCTReadFrom (v := v) mem (putU64 0 ++ putU64 0) = .panic ∧
    fftGLWESKReadFrom mem (putU64 0 ++ putU64 0) = .panic ∧
    fftGLWECTReadFrom mem (putU64 0 ++ putU64 0) = .panic := by
  have h : ∀ t, readU64 (putU64 0 ++ t) = .ok 8 0 t := by
    simpa [putU64_length] using (Rt.readU64 0).ok
  have h' : readU64 (putU64 0) = .ok 8 0 [] := by simpa using h []
  have hs : makeEach mem 0 (newPoly mem 0 : Option (List (BitVec v))) = some [] := by
    rw [makeEach, mkSlice, if_neg (by simp)]
    rfl
  have hs' : makeEach mem 0 (newPoly mem 0 : Option (List (BitVec 64))) = some [] := by
    rw [makeEach, mkSlice, if_neg (by simp)]
    rfl
  have hc : ∀ u, makeEach mem (0 + 1) (newPoly mem 0 : Option (List (BitVec u))) = none := by
    intro u
    rw [makeEach, mkSlice]
    split
    · rfl
    · rfl
  refine ⟨?_, ?_, ?_, ?_⟩
  · simp only [glweSKReadFrom, Reader.bind, h, h', newGLWESecretKey, hs]
    rfl
  · simp only [glweCTReadFrom, Reader.bind, h, h', newGLWECiphertext, hc]
    rfl
  · simp only [fftGLWESKReadFrom, Reader.bind, Reader.bindForget, h, h', newGLWESecretKey, hs']
    rfl
  · simp only [fftGLWECTReadFrom, Reader.bind, Reader.bindForget, h, h', newGLWECiphertext, hc]
    rfl

/-- Gadget parameters: sixteen zero bytes, for `Compile` panics on base 0. -/
theorem C27_gadget_false : gadgetReadFrom (w := w) (putU64 0 ++ putU64 0) = .panic := by
  have h : ∀ t, readU64 (putU64 0 ++ t) = .ok 8 0 t := by
    simpa [putU64_length] using (Rt.readU64 0).ok
  have h' : readU64 (putU64 0) = .ok 8 0 [] := by simpa using h []
  simp only [gadgetReadFrom, readGadget, Reader.bind, h, h', GadgetLit.compile]
  rw [if_pos (by simp)]
  rfl

/-- So every object with a gadget panics likewise: Lev and GSW (24 zero bytes), GLev, GGSW and
LWE key-switching keys (32), uni-encryptions (24), GLWE key-switching keys and blind rotation keys
(40). -/
theorem C27_gadgets_false (mem : ℕ) :
    levReadFrom (w := w) mem (putU64 0 ++ (putU64 0 ++ putU64 0)) = .panic ∧
    gswReadFrom (w := w) mem (putU64 0 ++ (putU64 0 ++ putU64 0)) = .panic ∧
    uniReadFrom (w := w) (v := v) mem (putU64 0 ++ (putU64 0 ++ putU64 0)) = .panic ∧
    glevReadFrom (w := w) (v := v) mem (putU64 0 ++ (putU64 0 ++ (putU64 0 ++ putU64 0))) = .panic ∧
    ggswReadFrom (w := w) (v := v) mem (putU64 0 ++ (putU64 0 ++ (putU64 0 ++ putU64 0))) = .panic ∧
    lweKSKReadFrom (w := w) mem (putU64 0 ++ (putU64 0 ++ (putU64 0 ++ putU64 0))) = .panic ∧
    glweKSKReadFrom (w := w) mem
      (putU64 0 ++ (putU64 0 ++ (putU64 0 ++ (putU64 0 ++ putU64 0)))) = .panic ∧
    brkReadFrom (w := w) mem
      (putU64 0 ++ (putU64 0 ++ (putU64 0 ++ (putU64 0 ++ putU64 0)))) = .panic := by
  have h : ∀ t, readU64 (putU64 0 ++ t) = .ok 8 0 t := by
    simpa [putU64_length] using (Rt.readU64 0).ok
  have h' : readU64 (putU64 0) = .ok 8 0 [] := by simpa using h []
  have hg : GadgetLit.compile { base := (0 : BitVec 64).setWidth w, level := 0 } = none := by
    rw [GadgetLit.compile, if_pos (by simp)]
  refine ⟨?_, ?_, ?_, ?_, ?_, ?_, ?_, ?_⟩
  · simp only [levReadFrom, levHeaderRead, Reader.bind, h, h', hg]; rfl
  · simp only [gswReadFrom, gswHeaderRead, Reader.bind, h, h', hg]; rfl
  · simp only [uniReadFrom, uniHeaderRead, Reader.bind, h, h', hg]; rfl
  · simp only [glevReadFrom, glevHeaderRead, Reader.bind, h, h', hg]; rfl
  · simp only [ggswReadFrom, ggswHeaderRead, Reader.bind, h, h', hg]; rfl
  · simp only [lweKSKReadFrom, lweKSKHeaderRead, Reader.bind, h, h', hg]; rfl
  · simp only [glweKSKReadFrom, glweKSKHeaderRead, Reader.bind, h, h', hg]; rfl
  · simp only [brkReadFrom, brkHeaderRead, Reader.bind, h, h', hg]; rfl

/-- Parameters: 97 zero bytes. -/
theorem C27_parameters_false (impl : BitVec 32) :
    paramsReadFrom impl (List.replicate 97 0) = .panic := by
  have hz : ∀ t : Bytes, readU64 (List.replicate 8 0 ++ t) = .ok 8 0 t := by
    have : (List.replicate 8 0 : Bytes) = putU64 0 := by decide +kernel
    rw [this]
    simpa [putU64_length] using (Rt.readU64 0).ok
  have hs : (List.replicate 97 0 : Bytes) = List.replicate 8 0 ++ (List.replicate 8 0 ++
      (List.replicate 8 0 ++ (List.replicate 8 0 ++ (List.replicate 8 0 ++ (List.replicate 8 0 ++
      (List.replicate 8 0 ++ (List.replicate 8 0 ++ (List.replicate 8 0 ++ (List.replicate 8 0 ++
      List.replicate 17 0))))))))) := by rfl
  have hg : GadgetLit.compile { base := (0 : BitVec 64).setWidth 32, level := 0 } = none := by
    decide +kernel
  rw [hs]
  simp only [paramsReadFrom, gadgetReadFrom, readGadget, Reader.bind, hz, hg]
  rfl

/-! ## What never panics -/

/-- `r` does not panic on `s`, and if it succeeds, it yields `a`. -/
def Yields (r : Reader α) (s : Bytes) (a : α) : Prop :=
  NoPanic r s ∧ ∀ n b rest, r s = .ok n b rest → b = a

theorem Yields.bind {r : Reader α} {f : α → Reader β} {s : Bytes} {a : α}
    (h : Yields r s a) (h' : ∀ t, NoPanic (f a) t) : NoPanic (r.bind f) s := by
  obtain ⟨h1, h2⟩ := h
  unfold NoPanic at *
  unfold Reader.bind
  cases hr : r s with
  | ok n b rest =>
    have := h2 n b rest hr
    subst this
    have := h' rest
    cases hf : f b rest <;> simp_all
  | err n => simp
  | panic => exact absurd hr h1

theorem Yields.bindUncounted {r : Reader α} {f : α → Reader β} {s : Bytes} {a : α}
    (h : Yields r s a) (h' : ∀ t, NoPanic (f a) t) : NoPanic (r.bindUncounted f) s := by
  obtain ⟨h1, h2⟩ := h
  unfold NoPanic at *
  unfold Reader.bindUncounted
  cases hr : r s with
  | ok n b rest =>
    have := h2 n b rest hr
    subst this
    have := h' rest
    cases hf : f b rest <;> simp_all
  | err n => simp
  | panic => exact absurd hr h1

theorem readU64_cases (s : Bytes) :
    readU64 s = .ok 8 (field s 0) (s.drop 8) ∨ ∃ n, readU64 s = .err n := by
  unfold readU64 Reader.map Reader.bind readFull
  by_cases h : 8 ≤ s.length
  · left; simp [h, Reader.pure, field]
  · right; simp [h]

theorem Yields.u64 {f : BitVec 64 → Reader α} {s : Bytes} {a : α}
    (h : Yields (f (field s 0)) (s.drop 8) a) : Yields (readU64.bind f) s a := by
  obtain ⟨h1, h2⟩ := h
  unfold Yields NoPanic at *
  unfold Reader.bind
  rcases readU64_cases s with hr | ⟨n, hr⟩
  · rw [hr]
    dsimp only
    cases hf : f (field s 0) (s.drop 8) with
    | ok n b rest => simpa using h2 n b rest hf
    | err n => simp
    | panic => exact absurd hf h1
  · rw [hr]; simp

theorem Yields.u64Forget {f : BitVec 64 → Reader α} {s : Bytes} {a : α}
    (h : Yields (f (field s 0)) (s.drop 8) a) : Yields (readU64.bindForget f) s a := by
  obtain ⟨h1, h2⟩ := h
  unfold Yields NoPanic at *
  unfold Reader.bindForget
  rcases readU64_cases s with hr | ⟨n, hr⟩
  · rw [hr]
    dsimp only
    cases hf : f (field s 0) (s.drop 8) with
    | ok n b rest => simpa using h2 n b rest hf
    | err n => simp
    | panic => exact absurd hf h1
  · rw [hr]; simp

theorem Yields.lift {o : Option α} {a : α} (h : o = some a) (s : Bytes) :
    Yields (Reader.lift o) s a := by
  subst h
  exact ⟨by simp [NoPanic, Reader.lift], fun n b rest hb => by
    simp only [Reader.lift, Rd.ok.injEq] at hb; exact hb.2.1.symm⟩

theorem field_drop (s : Bytes) (i : ℕ) : field (s.drop 8) i = field s (i + 1) := by
  unfold field
  rw [List.drop_drop, show 8 + 8 * i = 8 * (i + 1) by ring]

theorem noPanic_bind {r : Reader α} {f : α → Reader β} (h : ∀ s, NoPanic r s)
    (h' : ∀ a s, NoPanic (f a) s) (s : Bytes) : NoPanic (r.bind f) s := by
  have h1 := h s
  unfold NoPanic Reader.bind at *
  cases hr : r s with
  | ok n b rest =>
    have := h' b rest
    cases hf : f b rest <;> simp_all
  | err n => simp
  | panic => exact absurd hr h1

theorem noPanic_readFull (k : ℕ) (s : Bytes) : NoPanic (readFull k) s := by
  unfold NoPanic readFull; split <;> simp

theorem noPanic_pure (a : α) (s : Bytes) : NoPanic (Reader.pure a) s := by
  simp [NoPanic, Reader.pure]

theorem noPanic_lift {o : Option α} {a : α} (h : o = some a) (s : Bytes) :
    NoPanic (Reader.lift o) s := (Yields.lift h s).1

theorem noPanic_lift_bind {o : Option α} {f : α → Reader β} {a : α} (h : o = some a)
    (hf : ∀ s, NoPanic (f a) s) (s : Bytes) : NoPanic ((Reader.lift o).bind f) s :=
  Yields.bind (Yields.lift h s) hf

theorem noPanic_map {r : Reader α} (f : α → β) (h : ∀ s, NoPanic r s) (s : Bytes) :
    NoPanic (r.map f) s := noPanic_bind h (fun _ => noPanic_pure _) s

theorem noPanic_readEach {f : α → Reader β} {l : List α} (h : ∀ a ∈ l, ∀ s, NoPanic (f a) s)
    (s : Bytes) : NoPanic (readEach f l) s := by
  induction l generalizing s with
  | nil => exact noPanic_pure _ _
  | cons a l ih =>
    exact noPanic_bind (h a (by simp))
      (fun b => noPanic_map _ (ih fun a ha => h a (by simp [ha]))) s

theorem noPanic_vec (x : List (BitVec v)) (s : Bytes) : NoPanic (vecReadFrom x) s :=
  noPanic_readEach (fun _ _ => noPanic_map _ (noPanic_readFull _)) s

theorem noPanic_vecBuf {len : ℕ} {x : List (BitVec v)} (h : x.length * (v / 8) ≤ len) (s : Bytes) :
    NoPanic (vecReadFromBuf len x) s :=
  noPanic_bind (noPanic_readFull _) (fun _ => noPanic_lift (if_pos h)) s

theorem noPanic_polys {k N : ℕ} {x : List (List (BitVec v))} (h : Polys k N x) (hk : 0 < k)
    (s : Bytes) : NoPanic (polysValueRead x) s :=
  noPanic_lift_bind (rank0_polys h hk)
    (noPanic_readEach fun p hp => noPanic_vecBuf (h.rank p hp ▸ le_refl _)) s

theorem noPanic_readGLevs {g : GadgetParams w} {m k N : ℕ} {x : GGSW w v} (h : IsGLevs g m k N x)
    (s : Bytes) : NoPanic (readGLevs (N * (v / 8)) x) s :=
  noPanic_map _ (noPanic_readEach fun row hr => noPanic_map _ (noPanic_readEach fun ct hct =>
    noPanic_readEach fun p hp =>
      noPanic_vecBuf (((h.entry row hr).entry ct hct).rank p hp ▸ le_refl _))) s

theorem noPanic_readLevs {g : GadgetParams w} {m n : ℕ} {x : GSW w} (h : IsLevs g m n x)
    (s : Bytes) : NoPanic (readLevs (n * (w / 8)) x) s :=
  noPanic_map _ (noPanic_readEach fun row hr => noPanic_map _ (noPanic_readEach fun ct hct =>
    noPanic_vecBuf ((h.entry row hr).entry ct hct ▸ le_refl _))) s

theorem noPanic_ggswValue {g : GadgetParams w} {m k N : ℕ} {x : GGSW w v} (h : IsGLevs g m k N x)
    (hm : 0 < m) (hl : 0 < g.level) (hk : 0 < k) (s : Bytes) : NoPanic (ggswValueRead x) s :=
  noPanic_lift_bind (GGSW.rank_eq h hm hl hk) (noPanic_readGLevs h) s

/-- No byte string makes `LWEPlaintext.ReadFrom` panic. -/
theorem C27_lwePlaintext_partial (s : Bytes) : NoPanic (lwePTReadFrom (v := v)) s := by
  unfold lwePTReadFrom vecReadFrom readEach readEach NoPanic Reader.bind Reader.map Reader.bind
    readFull Reader.pure Reader.lift
  by_cases h : v / 8 ≤ s.length <;> simp [h]

theorem C27_lweSecretKey_partial (hm : mem < 2 ^ 63) (s : Bytes) (n : ℕ) (hn : n ≤ mem)
    (h : field s 0 = BitVec.ofNat 64 n) : NoPanic (lweSKReadFrom (v := v) mem) s := by
  refine Yields.bindUncounted (Yields.u64 (a := List.replicate n 0) ?_) (noPanic_vec _)
  rw [h]
  exact Yields.lift (mkSlice_ofNat hm hn _) _

theorem C27_lweCiphertext_partial (hm : mem < 2 ^ 63) (s : Bytes) (n : ℕ) (hn : n ≤ mem)
    (h : field s 0 = BitVec.ofNat 64 n - 1) : NoPanic (lweCTReadFrom (v := v) mem) s := by
  refine Yields.bind (Yields.u64 (a := List.replicate n 0) ?_) (noPanic_vec _)
  rw [h, newLWECiphertext, pred_succ]
  exact Yields.lift (mkSlice_ofNat hm hn _) _

theorem C27_glwePlaintext_partial (hm : mem < 2 ^ 63) (s : Bytes) (N : ℕ) (hN : RankOK mem N)
    (h : field s 0 = BitVec.ofNat 64 N) : NoPanic (glwePTReadFrom (v := v) mem) s := by
  refine Yields.bind (Yields.u64 (a := List.replicate N 0) ?_) (noPanic_vec _)
  rw [h]
  exact Yields.lift (newPoly_ofNat hm hN) _

theorem polys_replicate (k N : ℕ) :
    Polys k N (List.replicate k (List.replicate N (0 : BitVec v))) :=
  ⟨by simp, fun p hp => by simp [List.eq_of_mem_replicate hp]⟩

theorem C27_glweSecretKey_partial (hm : mem < 2 ^ 63) (s : Bytes) (k N : ℕ) (hk : 0 < k)
    (hkm : k ≤ mem) (hN : RankOK mem N) (h0 : field s 0 = BitVec.ofNat 64 k)
    (h1 : field s 1 = BitVec.ofNat 64 N) : NoPanic (glweSKReadFrom (v := v) mem) s := by
  refine Yields.bind (Yields.u64 (Yields.u64 ?_)) (noPanic_polys (polys_replicate k N) hk)
  rw [field_drop, h0, h1]
  exact Yields.lift (makeEach_ofNat hm hkm (newPoly_ofNat hm hN)) _

theorem C27_fftGLWESecretKey_partial (hm : mem < 2 ^ 63) (s : Bytes) (k N : ℕ) (hk : 0 < k)
    (hkm : k ≤ mem) (hN : RankOK mem N) (h0 : field s 0 = BitVec.ofNat 64 k)
    (h1 : field s 1 = BitVec.ofNat 64 N) : NoPanic (fftGLWESKReadFrom mem) s := by
  refine Yields.bind (Yields.u64Forget (Yields.u64 ?_)) (noPanic_polys (polys_replicate k N) hk)
  rw [field_drop, h0, h1]
  exact Yields.lift (makeEach_ofNat hm hkm (newPoly_ofNat hm hN)) _

theorem C27_glweCiphertext_partial (hm : mem < 2 ^ 63) (s : Bytes) (k N : ℕ) (hk : 0 < k)
    (hkm : k ≤ mem) (hN : RankOK mem N) (h0 : field s 0 = BitVec.ofNat 64 k - 1)
    (h1 : field s 1 = BitVec.ofNat 64 N) : NoPanic (glweCTReadFrom (v := v) mem) s := by
  refine Yields.bind (Yields.u64 (Yields.u64 ?_)) (noPanic_polys (polys_replicate k N) hk)
  rw [field_drop, h0, h1]
  exact Yields.lift (newGLWECiphertext_ofNat hm hkm hN) _

theorem C27_fftGLWECiphertext_partial (hm : mem < 2 ^ 63) (s : Bytes) (k N : ℕ) (hk : 0 < k)
    (hkm : k ≤ mem) (hN : RankOK mem N) (h0 : field s 0 = BitVec.ofNat 64 k - 1)
    (h1 : field s 1 = BitVec.ofNat 64 N) : NoPanic (fftGLWECTReadFrom mem) s := by
  refine Yields.bind (Yields.u64Forget (Yields.u64 ?_)) (noPanic_polys (polys_replicate k N) hk)
  rw [field_drop, h0, h1]
  exact Yields.lift (newGLWECiphertext_ofNat hm hkm hN) _

theorem C27_gadget_partial (s : Bytes)
    (hg : (GadgetLit.compile { base := (field s 0).setWidth w, level := field s 1 }).isSome) :
    NoPanic (gadgetReadFrom (w := w)) s := by
  obtain ⟨g, hg⟩ := Option.isSome_iff_exists.1 hg
  refine (Yields.u64 (Yields.u64 (a := g) ?_)).1
  rw [field_drop]
  exact Yields.lift hg _

theorem C27_lev_partial (hm : mem < 2 ^ 63) (s : Bytes) (g : GadgetParams w) (n : ℕ) (hn : n ≤ mem)
    (hg : GadgetLit.compile { base := (field s 0).setWidth w, level := field s 1 } = some g)
    (hl : g.level ≤ mem) (h2 : field s 2 = BitVec.ofNat 64 n - 1) :
    NoPanic (levReadFrom (w := w) mem) s := by
  have hc : Compiled mem g := ⟨⟨_, hg⟩, hl⟩
  refine Yields.bind (Yields.u64 (Yields.u64 (Yields.u64
    (a := (⟨g, List.replicate g.level (List.replicate n 0)⟩ : Lev w)) ?_))) ?_
  · rw [field_drop, field_drop, field_drop, h2, hg, Option.bind_some]
    exact Yields.lift (newLev_ofNat hm hn hc) _
  · exact noPanic_lift_bind (rank0_replicate hc.pos) (noPanic_map _ (noPanic_readEach fun p hp =>
      noPanic_vecBuf (by rw [List.eq_of_mem_replicate hp, List.length_replicate])))

theorem C27_gsw_partial (hm : mem < 2 ^ 63) (s : Bytes) (g : GadgetParams w) (n : ℕ) (hn : n ≤ mem)
    (hg : GadgetLit.compile { base := (field s 0).setWidth w, level := field s 1 } = some g)
    (hl : g.level ≤ mem) (h2 : field s 2 = BitVec.ofNat 64 n - 1) :
    NoPanic (gswReadFrom (w := w) mem) s := by
  have hc : Compiled mem g := ⟨⟨_, hg⟩, hl⟩
  refine Yields.bind (Yields.u64 (Yields.u64 (Yields.u64 (a := zeroLevs g n n) ?_))) ?_
  · rw [field_drop, field_drop, field_drop, h2, hg, Option.bind_some]
    refine Yields.lift ?_ _
    rw [newGSW, pred_succ, makeEach_ofNat hm hn (newLev_ofNat hm hn hc)]
    rfl
  · intro t
    have := noPanic_readLevs (zeroLevs_shape g n n) t
    unfold gswValueRead
    rwa [(zeroLevs_shape g n n).length]

theorem C27_glev_partial (hm : mem < 2 ^ 63) (s : Bytes) (g : GadgetParams w) (k N : ℕ)
    (hk : 0 < k) (hkm : k ≤ mem) (hN : RankOK mem N)
    (hg : GadgetLit.compile { base := (field s 0).setWidth w, level := field s 1 } = some g)
    (hl : g.level ≤ mem) (h2 : field s 2 = BitVec.ofNat 64 k - 1)
    (h3 : field s 3 = BitVec.ofNat 64 N) : NoPanic (glevReadFrom (w := w) (v := v) mem) s := by
  have hc : Compiled mem g := ⟨⟨_, hg⟩, hl⟩
  refine Yields.bind (Yields.u64 (Yields.u64 (Yields.u64 (Yields.u64 (a := (⟨g, List.replicate
    g.level (List.replicate k (List.replicate N (0 : BitVec v)))⟩ : GLev w v)) ?_)))) ?_
  · rw [field_drop, field_drop, field_drop, field_drop, field_drop, field_drop, h2, h3, hg,
      Option.bind_some]
    exact Yields.lift (newGLev_ofNat hm hkm hN hc) _
  · have hs : IsGLevShape g k N (⟨g, List.replicate g.level (List.replicate k
        (List.replicate N (0 : BitVec v)))⟩ : GLev w v) :=
      ⟨rfl, by simp, fun ct hct => List.eq_of_mem_replicate hct ▸ polys_replicate k N⟩
    exact noPanic_lift_bind (GLev.rank_eq hs hc.pos hk) (noPanic_map _ (noPanic_readEach
      fun ct hct => noPanic_readEach fun p hp =>
        noPanic_vecBuf ((hs.entry ct hct).rank p hp ▸ le_refl _)))

theorem C27_ggsw_partial (hm : mem < 2 ^ 63) (s : Bytes) (g : GadgetParams w) (k N : ℕ)
    (hk : 0 < k) (hkm : k ≤ mem) (hN : RankOK mem N)
    (hg : GadgetLit.compile { base := (field s 0).setWidth w, level := field s 1 } = some g)
    (hl : g.level ≤ mem) (h2 : field s 2 = BitVec.ofNat 64 k - 1)
    (h3 : field s 3 = BitVec.ofNat 64 N) : NoPanic (ggswReadFrom (w := w) (v := v) mem) s := by
  have hc : Compiled mem g := ⟨⟨_, hg⟩, hl⟩
  refine Yields.bind (Yields.u64 (Yields.u64 (Yields.u64 (Yields.u64
    (a := zeroGLevs v g k k N) ?_)))) (noPanic_ggswValue (zeroGLevs_shape g k k N) hk hc.pos hk)
  rw [field_drop, field_drop, field_drop, field_drop, field_drop, field_drop, h2, h3, hg,
    Option.bind_some]
  refine Yields.lift ?_ _
  rw [newGGSW, pred_succ, makeEach_ofNat hm hkm (newGLev_ofNat hm hkm hN hc)]
  rfl

theorem C27_lweKeySwitchKey_partial (hm : mem < 2 ^ 63) (s : Bytes) (g : GadgetParams w) (m n : ℕ)
    (hm0 : 0 < m) (hmm : m ≤ mem) (hn : n ≤ mem)
    (hg : GadgetLit.compile { base := (field s 0).setWidth w, level := field s 1 } = some g)
    (hl : g.level ≤ mem) (h2 : field s 2 = BitVec.ofNat 64 m)
    (h3 : field s 3 = BitVec.ofNat 64 n - 1) : NoPanic (lweKSKReadFrom (w := w) mem) s := by
  have hc : Compiled mem g := ⟨⟨_, hg⟩, hl⟩
  refine Yields.bind (Yields.u64 (Yields.u64 (Yields.u64 (Yields.u64
    (a := zeroLevs g m n) ?_)))) ?_
  · rw [field_drop, field_drop, field_drop, field_drop, field_drop, field_drop, h2, h3, hg,
      Option.bind_some]
    refine Yields.lift ?_ _
    rw [newLWEKSK, makeEach_ofNat hm hmm (newLev_ofNat hm hn hc)]
    rfl
  · have hr : ((zeroLevs g m n).value.head?.bind fun row => rank0 row.value) = some n := by
      obtain ⟨m, rfl⟩ := Nat.exists_eq_succ_of_ne_zero (by omega : m ≠ 0)
      have := rank0_replicate (v := w) (N := n) hc.pos
      simpa [zeroLevs, List.replicate_succ] using this
    exact noPanic_lift_bind hr (noPanic_readLevs (zeroLevs_shape g m n))

theorem C27_glweKeySwitchKey_partial (hm : mem < 2 ^ 63) (s : Bytes) (g : GadgetParams w)
    (m k N : ℕ) (hm0 : 0 < m) (hmm : m ≤ mem) (hk : 0 < k) (hkm : k ≤ mem) (hN : RankOK mem N)
    (hg : GadgetLit.compile { base := (field s 0).setWidth w, level := field s 1 } = some g)
    (hl : g.level ≤ mem) (h2 : field s 2 = BitVec.ofNat 64 m)
    (h3 : field s 3 = BitVec.ofNat 64 k - 1) (h4 : field s 4 = BitVec.ofNat 64 N) :
    NoPanic (glweKSKReadFrom (w := w) mem) s := by
  have hc : Compiled mem g := ⟨⟨_, hg⟩, hl⟩
  refine Yields.bind (Yields.u64 (Yields.u64 (Yields.u64 (Yields.u64 (Yields.u64
    (a := zeroGLevs 64 g m k N) ?_))))) (noPanic_ggswValue (zeroGLevs_shape g m k N) hm0 hc.pos hk)
  simp only [field_drop]
  rw [h2, h3, h4, hg, Option.bind_some]
  refine Yields.lift ?_ _
  rw [newGLWEKSK, makeEach_ofNat hm hmm (newGLev_ofNat hm hkm hN hc)]
  rfl

theorem C27_blindRotateKey_partial (hm : mem < 2 ^ 63) (s : Bytes) (g : GadgetParams w)
    (n k N : ℕ) (hn0 : 0 < n) (hn : n ≤ mem) (hk : 0 < k) (hkm : k ≤ mem) (hN : RankOK mem N)
    (hg : GadgetLit.compile { base := (field s 0).setWidth w, level := field s 1 } = some g)
    (hl : g.level ≤ mem) (h2 : field s 2 = BitVec.ofNat 64 n)
    (h3 : field s 3 = BitVec.ofNat 64 k - 1) (h4 : field s 4 = BitVec.ofNat 64 N) :
    NoPanic (brkReadFrom (w := w) mem) s := by
  have hc : Compiled mem g := ⟨⟨_, hg⟩, hl⟩
  refine Yields.bind (Yields.u64 (Yields.u64 (Yields.u64 (Yields.u64 (Yields.u64
    (a := (⟨g, List.replicate n (zeroGLevs 64 g k k N)⟩ : BRK w)) ?_))))) ?_
  · simp only [field_drop]
    rw [h2, h3, h4, hg, Option.bind_some]
    refine Yields.lift ?_ _
    have h1 : newGGSW mem (BitVec.ofNat 64 k - 1) (BitVec.ofNat 64 N) g
        = some (zeroGLevs 64 g k k N) := by
      rw [newGGSW, pred_succ, makeEach_ofNat hm hkm (newGLev_ofNat hm hkm hN hc)]
      rfl
    rw [newBRK, makeEach_ofNat hm hn h1]
    rfl
  · have hs : IsBRKShape g n k N (⟨g, List.replicate n (zeroGLevs 64 g k k N)⟩ : BRK w) :=
      ⟨rfl, by simp, fun gg hgg => List.eq_of_mem_replicate hgg ▸ zeroGLevs_shape g k k N⟩
    exact noPanic_lift_bind (BRK.rank_eq hs hn0 hc.pos hk) (noPanic_map _ (noPanic_readEach
      fun gg hgg => noPanic_readGLevs (v := 64) (hs.entry gg hgg)))

theorem C27_uniEncryption_partial (hm : mem < 2 ^ 63) (h2m : 2 ≤ mem) (s : Bytes)
    (g : GadgetParams w) (N : ℕ) (hN : RankOK mem N)
    (hg : GadgetLit.compile { base := (field s 0).setWidth w, level := field s 1 } = some g)
    (hl : g.level ≤ mem) (h2 : field s 2 = BitVec.ofNat 64 N) :
    NoPanic (uniReadFrom (w := w) (v := v) mem) s := by
  have hc : Compiled mem g := ⟨⟨_, hg⟩, hl⟩
  refine Yields.bind (Yields.u64 (Yields.u64 (Yields.u64
    (a := zeroGLevs v g 2 2 N) ?_)))
    (noPanic_ggswValue (zeroGLevs_shape g 2 2 N) (by norm_num) hc.pos (by norm_num))
  simp only [field_drop]
  rw [h2, hg, Option.bind_some]
  refine Yields.lift ?_ _
  rw [newUni, show (1 : BitVec 64) = BitVec.ofNat 64 2 - 1 by rfl, newGLev_ofNat hm h2m hN hc,
    fill_some]
  rfl

theorem C27_lweGLWEPublicKey_partial (hm : mem < 2 ^ 63) (s : Bytes) (k N : ℕ) (hk : 0 < k)
    (hkm : k + 1 ≤ mem) (hN : RankOK mem N) (h0 : field s 0 = BitVec.ofNat 64 k)
    (h1 : field s 1 = BitVec.ofNat 64 N) : NoPanic (pkReadFrom (v := v) mem) s := by
  refine Yields.bind (Yields.u64 (Yields.u64 (a := List.replicate k (List.replicate (k + 1)
    (List.replicate N (0 : BitVec v)))) ?_)) ?_
  · rw [field_drop, h0, h1]
    refine Yields.lift ?_ _
    have hct := newGLWECiphertext_ofNat (v := v) (k := k + 1) hm hkm hN
    have e : BitVec.ofNat 64 (k + 1) - 1 = BitVec.ofNat 64 k := by
      rw [BitVec.ofNat_add]; exact BitVec.add_sub_cancel _ _
    rw [e] at hct
    rw [newPublicKey, makeEach_ofNat hm (by omega) hct]
  · have hr : ((List.replicate k (List.replicate (k + 1) (List.replicate N (0 : BitVec v)))).head?.bind
        rank0) = some N := by
      obtain ⟨k, rfl⟩ := Nat.exists_eq_succ_of_ne_zero (by omega : k ≠ 0)
      have := rank0_replicate (v := v) (N := N) (show 0 < k.succ + 1 by omega)
      simpa [List.replicate_succ] using this
    exact noPanic_lift_bind hr (noPanic_readEach fun ct hct => noPanic_readEach fun p hp =>
      noPanic_vecBuf (by
        rw [List.eq_of_mem_replicate hct] at hp
        rw [List.eq_of_mem_replicate hp, List.length_replicate]))

theorem C27_secretKey_partial (hm : mem < 2 ^ 63) (s : Bytes) (n k N : ℕ) (hk : 0 < k)
    (hle : k * N ≤ mem) (hn : n ≤ k * N) (hN : RankOK mem N)
    (h0 : field s 0 = BitVec.ofNat 64 n) (h1 : field s 1 = BitVec.ofNat 64 k)
    (h2 : field s 2 = BitVec.ofNat 64 N) : NoPanic (skReadFrom (w := w) mem) s := by
  refine Yields.bind (Yields.u64 (Yields.u64 (Yields.u64 (a := (⟨n, k, N, List.replicate (k * N) 0,
    List.replicate k (List.replicate N 0)⟩ : SecKey w)) ?_))) ?_
  · simp only [field_drop]
    rw [h0, h1, h2]
    exact Yields.lift (newSecretKey_ofNat hm hN hle hn) _
  · exact noPanic_bind (noPanic_vec _)
      (fun _ => noPanic_map _ (noPanic_polys (polys_replicate k N) hk))

/-! ## Keys with several headers

The second header begins where reading the first part ended, that is, after as many bytes as the first
`ReadFrom` reports. -/

theorem noPanic_then {r : Reader α} {f : α → Reader β} {s : Bytes} (hr : NoPanic r s)
    (hc : ReadsCounted r) (hf : ∀ n x rest, r s = .ok n x rest → NoPanic (f x) (s.drop n)) :
    NoPanic (r.bind f) s := by
  have h := hc s
  unfold NoPanic Reader.bind at *
  cases e : r s with
  | ok n x rest =>
    rw [e] at h
    obtain ⟨-, rfl⟩ := h
    have := hf n x _ e
    cases e' : f x (s.drop n) <;> simp_all
  | err n => simp
  | panic => exact absurd e hr

theorem noPanic_map_at {r : Reader α} (f : α → β) {s : Bytes} (h : NoPanic r s) :
    NoPanic (r.map f) s := by
  unfold NoPanic Reader.map Reader.bind Reader.pure at *
  cases e : r s <;> simp_all

/-- The bytes begin with dimensions of a possible `LWEPublicKey` or `GLWEPublicKey`. -/
def PKHeader (mem : ℕ) (s : Bytes) : Prop :=
  ∃ k N : ℕ, 0 < k ∧ k + 1 ≤ mem ∧ RankOK mem N ∧ field s 0 = BitVec.ofNat 64 k ∧
    field s 1 = BitVec.ofNat 64 N

/-- The bytes begin with gadget parameters and dimensions of a possible `BlindRotateKey`. -/
def BRKHeader (w mem : ℕ) (s : Bytes) : Prop :=
  ∃ (g : GadgetParams w) (n k N : ℕ), 0 < n ∧ n ≤ mem ∧ 0 < k ∧ k ≤ mem ∧ RankOK mem N ∧
    GadgetLit.compile { base := (field s 0).setWidth w, level := field s 1 } = some g ∧
    g.level ≤ mem ∧ field s 2 = BitVec.ofNat 64 n ∧ field s 3 = BitVec.ofNat 64 k - 1 ∧
    field s 4 = BitVec.ofNat 64 N

/-- The bytes begin with gadget parameters and dimensions of a possible `LWEKeySwitchKey`. -/
def KSKHeader (w mem : ℕ) (s : Bytes) : Prop :=
  ∃ (g : GadgetParams w) (m n : ℕ), 0 < m ∧ m ≤ mem ∧ n ≤ mem ∧
    GadgetLit.compile { base := (field s 0).setWidth w, level := field s 1 } = some g ∧
    g.level ≤ mem ∧ field s 2 = BitVec.ofNat 64 m ∧ field s 3 = BitVec.ofNat 64 n - 1

/-- The bytes begin with gadget parameters that can be compiled. -/
def GadgetHeader (w : ℕ) (s : Bytes) : Prop :=
  (GadgetLit.compile { base := (field s 0).setWidth w, level := field s 1 }).isSome

theorem PKHeader.noPanic (hm : mem < 2 ^ 63) {s : Bytes} (h : PKHeader mem s) :
    NoPanic (pkReadFrom (v := v) mem) s := by
  obtain ⟨k, N, h1, h2, h3, h4, h5⟩ := h
  exact C27_lweGLWEPublicKey_partial hm s k N h1 h2 h3 h4 h5

/-- `PublicKey`: the two headers are those of possible keys. -/
theorem C27_publicKey_partial (hm : mem < 2 ^ 63) (s : Bytes) (h1 : PKHeader mem s)
    (h2 : ∀ n x rest, pkReadFrom (v := w) mem s = .ok n x rest → PKHeader mem (s.drop n)) :
    NoPanic (pubKeyReadFrom (w := w) mem) s :=
  noPanic_then (h1.noPanic hm) C70_read_publicKeys fun n x rest e =>
    noPanic_map_at _ ((h2 n x rest e).noPanic hm)

/-- `EvaluationKey`: after the flag comes the header of a possible blind rotation key, and after that
key, if the flag is not zero, the header of a possible key-switching key, otherwise gadget parameters
that can be compiled. -/
theorem C27_evaluationKey_partial (hm : mem < 2 ^ 63) (flag : BitVec 8) (s : Bytes)
    (h1 : BRKHeader w mem s)
    (h2 : ∀ n x rest, brkReadFrom (w := w) mem s = .ok n x rest →
      if flag = 0 then GadgetHeader w (s.drop n) else KSKHeader w mem (s.drop n)) :
    NoPanic (evkReadFrom (w := w) mem) (flag :: s) := by
  have hb : NoPanic (brkReadFrom (w := w) mem) s := by
    obtain ⟨g, n, k, N, a1, a2, a3, a4, a5, a6, a7, a8, a9, a10⟩ := h1
    exact C27_blindRotateKey_partial hm s g n k N a1 a2 a3 a4 a5 a6 a7 a8 a9 a10
  have hfirst : readFull 1 (flag :: s) = .ok 1 [flag] s := by simp [readFull]
  have key : NoPanic ((brkReadFrom (w := w) mem).bind fun brk =>
      if flag = 0 then gadgetReadFrom.bind fun g =>
        (Reader.lift (newLWEKSK mem 0 0 g)).map fun ksk => (⟨brk, ksk⟩ : EvalKey w)
      else (lweKSKReadFrom mem).map fun ksk => ⟨brk, ksk⟩) s := by
    refine noPanic_then hb C70_read_blindRotateKey fun n x rest e => ?_
    have := h2 n x rest e
    by_cases h0 : flag = 0
    · simp only [h0, if_true] at this ⊢
      refine noPanic_then (C27_gadget_partial _ this) C70_read_gadgetParameters fun _ g _ _ => ?_
      refine noPanic_map_at _ (noPanic_lift (a := (⟨g, []⟩ : GSW w)) ?_ _)
      have hn : ¬ ((mem : ℤ) < 0) := by omega
      simp [newLWEKSK, makeEach, mkSlice, hn, fill]
    · simp only [h0, if_false] at this ⊢
      obtain ⟨g, m, n', a1, a2, a3, a4, a5, a6, a7⟩ := this
      exact noPanic_map_at _ (C27_lweKeySwitchKey_partial hm _ g m n' a1 a2 a3 a4 a5 a6 a7)
  unfold NoPanic at *
  simp only [evkReadFrom]
  unfold Reader.bind at key ⊢
  simp only [hfirst, Reader.lift, List.head?_cons]
  revert key
  cases e : brkReadFrom (w := w) mem s <;> simp
  intro h
  revert h
  split <;> simp_all

/-! ## The hypotheses can be met, on streams that are not serialized objects -/

/-- Garbage after a header that announces 100 entries. -/
example : NoPanic (lweCTReadFrom (v := 32) (2 ^ 40)) (putLen 100 ++ [1, 2, 3]) :=
  C27_lweCiphertext_partial (by norm_num) _ 101 (by norm_num) (by decide +kernel)

example : NoPanic (glweCTReadFrom (v := 32) (2 ^ 40)) (putLen 1 ++ putLen 16 ++ [1, 2, 3]) :=
  C27_glweCiphertext_partial (by norm_num) _ 2 16 (by norm_num) (by norm_num) exRank
    (by decide +kernel) (by decide +kernel)

example : NoPanic (brkReadFrom (w := 32) (2 ^ 40))
    (putLen 512 ++ putLen 3 ++ putLen 7 ++ putLen 1 ++ putLen 16 ++ [1, 2, 3]) :=
  C27_blindRotateKey_partial (by norm_num) _ exGadget 7 2 16 (by norm_num) (by norm_num)
    (by norm_num) (by norm_num) exRank (by decide +kernel) (by decide +kernel) (by decide +kernel)
    (by decide +kernel) (by decide +kernel)

example : NoPanic (skReadFrom (w := 32) (2 ^ 40)) (putLen 20 ++ putLen 2 ++ putLen 16 ++ [1, 2, 3]) :=
  C27_secretKey_partial (by norm_num) _ 20 2 16 (by norm_num) (by norm_num) (by norm_num) exRank
    (by decide +kernel) (by decide +kernel) (by decide +kernel)

/-- A public key whose second half is cut off after 3 bytes. -/
example : NoPanic (pubKeyReadFrom (w := 32) (2 ^ 40)) (putLen 1 ++ putLen 16 ++ [1, 2, 3]) :=
  C27_publicKey_partial (by norm_num) _
    ⟨1, 16, by norm_num, by norm_num, exRank, by decide +kernel, by decide +kernel⟩
    (fun n x rest h => absurd h (by
      have : pkReadFrom (v := 32) (2 ^ 40) (putLen 1 ++ putLen 16 ++ [1, 2, 3]) = .err 19 := by
        decide +kernel
      rw [this]; simp))

/-- A public key whose first half is complete, followed by the header of the second. -/
example : NoPanic (pubKeyReadFrom (w := 32) (2 ^ 40))
    (putLen 1 ++ putLen 16 ++ List.replicate 128 5 ++ putLen 1 ++ putLen 16 ++ [7]) := by
  have e : ∃ x, pkReadFrom (v := 32) (2 ^ 40)
      (putLen 1 ++ putLen 16 ++ List.replicate 128 5 ++ putLen 1 ++ putLen 16 ++ [7]) =
        .ok 144 x (putLen 1 ++ putLen 16 ++ [7]) :=
    ⟨[List.replicate 2 (List.replicate 16 0x05050505)], by decide +kernel⟩
  obtain ⟨x, e⟩ := e
  refine C27_publicKey_partial (by norm_num) _
    ⟨1, 16, by norm_num, by norm_num, exRank, by decide +kernel, by decide +kernel⟩ ?_
  intro n y rest h
  rw [e] at h
  cases h
  exact ⟨1, 16, by norm_num, by norm_num, exRank, by decide +kernel, by decide +kernel⟩

example : NoPanic (evkReadFrom (w := 32) (2 ^ 40))
    (1 :: (putLen 512 ++ putLen 3 ++ putLen 7 ++ putLen 1 ++ putLen 16 ++ [1, 2, 3])) :=
  C27_evaluationKey_partial (by norm_num) 1 _
    ⟨exGadget, 7, 2, 16, by norm_num, by norm_num, by norm_num, by norm_num, exRank,
      by decide +kernel, by decide +kernel, by decide +kernel, by decide +kernel, by decide +kernel⟩
    (fun n x rest h => absurd h (by
      have : brkReadFrom (w := 32) (2 ^ 40)
          (putLen 512 ++ putLen 3 ++ putLen 7 ++ putLen 1 ++ putLen 16 ++ [1, 2, 3]) = .err 43 := by
        decide +kernel
      rw [this]; simp))

end Tfhe.Ser
