import Verif.Lemma.Consumes
import Verif.Props.C27


/-!
# C73: what was read is written back as it was

If `ReadFrom` succeeds, on any byte string whatever, then `WriteTo` of the object it returns succeeds and writes as
many bytes as were consumed; `ByteSize` of the object is this number.  The bytes are the same as those consumed, with
two exceptions: a gadget base is written modulo the size of the torus type (`fixBase`, `C73_base_fits`,
`C73_base_false`), and a flag of an evaluation key that is neither 0 nor 1 is written as 1 (`C73_flag_false`).  For
`Parameters` the defaults of `Compile` are a third (`RawParams.fix`).
-/
namespace Tfhe.Ser

variable {w v mem : ℕ} {α β : Type}

/-! ## The specification -/

/-- If `read` succeeds on `s` then its result `x` is written with as many bytes as were counted, which is the size
`ByteSize` tells; the bytes are `f` of the first `n` bytes of `s`, and `rest` is what comes after them. -/
def WritesBack (f : Bytes → Bytes) (write : α → Option Wr) (size : α → Option ℕ) (read : Reader α) : Prop :=
  ∀ s n x rest, read s = .ok n x rest →
    ∃ b, write x = some ⟨b, false⟩ ∧ b.length = n ∧ size x = some n ∧ n ≤ s.length ∧ rest = s.drop n ∧
      b = f (s.take n)

/-- The number in the first eight bytes, a gadget base, reduced modulo `2 ^ w`; the other bytes as they are. -/
def fixBase (w : ℕ) (b : Bytes) : Bytes := putU64 (BitVec.ofNat 64 (getBE (b.take 8) % 2 ^ w)) ++ b.drop 8

/-- A base that fits is left alone; on 64-bit words every base fits. -/
theorem C73_base_fits {b : Bytes} (hb : 8 ≤ b.length) (h : w = 64 ∨ getBE (b.take 8) < 2 ^ w) : fixBase w b = b := by
  have h8 : (b.take 8).length = 8 := by rw [List.length_take]; omega
  have hlt : getBE (b.take 8) < 2 ^ w := by
    rcases h with rfl | h
    · have := getBE_lt (b.take 8)
      rw [h8] at this
      norm_num at this ⊢
      exact this
    · exact h
  rw [fixBase, Nat.mod_eq_of_lt hlt, putU64_getBE h8, List.take_append_drop]

/-! ## From what was consumed to what is written -/

/-- The object determines the number of bytes, and the bytes that are written for it are `f` of any others. -/
def Uniq (f : Bytes → Bytes) (write : α → Option Wr) (P : Bytes → α → Prop) : Prop :=
  ∀ b b' x, P b x → P b' x → b.length = b'.length ∧ (write x = some ⟨b, false⟩ → b = f b')

theorem writesBack_of {f : Bytes → Bytes} {write : α → Option Wr} {size : α → Option ℕ} {read : Reader α}
    {P : Bytes → α → Prop} (hc : Consumes read P) (hu : Uniq f write P)
    (hr : ∀ b x, P b x → RoundTrips (write x) (size x) read x) : WritesBack f write size read := by
  intro s n x rest e
  obtain ⟨b0, rfl, rfl, hb0⟩ := hc _ _ _ _ e
  obtain ⟨b, h1, h2, h3⟩ := hr b0 x hb0
  obtain ⟨b1, h4, -, hb1⟩ := hc _ _ _ _ (h3 [])
  simp only [List.append_nil] at h4
  subst h4
  obtain ⟨h5, h6⟩ := hu _ _ _ hb1 hb0
  exact ⟨b, h1, h5, by rw [h2, h5], by simp, by simp, by simpa using h6 h1⟩

theorem Polys.unique {k N k' N' : ℕ} {x : List (List (BitVec v))} (h : Polys k N x) (h' : Polys k' N' x)
    (hk : 0 < k) : k = k' ∧ N = N' := by
  have h1 : k = k' := h.length.symm.trans h'.length
  have := (rank0_polys h hk).symm.trans (rank0_polys h' (h1 ▸ hk))
  exact ⟨h1, by simpa using this⟩

/-! ## Plaintexts, vectors, polynomials -/

theorem C73_lwePlaintext (hv : 8 ∣ v) :
    WritesBack id (lwePTWriteTo (v := v)) (fun _ => some (v / 8)) lwePTReadFrom := by
  refine writesBack_of (P := fun b x => b = vecWriteTo [x]) ?_ ?_ fun _ x _ => C24_lwePlaintext hv x
  · refine (Consumes.vecReadFrom 1 (0 : BitVec v)).bind ?_
    rintro b l ⟨h1, rfl⟩
    refine (Consumes.lift _).mono ?_
    rintro b' x ⟨rfl, h2⟩
    obtain ⟨y, rfl⟩ := List.length_eq_one_iff.1 h1
    cases h2
    simp
  · rintro b b' x rfl rfl
    exact ⟨rfl, fun _ => rfl⟩

theorem C73_lweCiphertext (hv : 8 ∣ v) (hm : mem < 2 ^ 63) :
    WritesBack id (lweCTWriteTo (v := v)) lweCTByteSize (lweCTReadFrom mem) := by
  refine writesBack_of (P := fun b x => x.length ≤ mem ∧ b = putLenPred x.length ++ vecWriteTo x) ?_ ?_
    fun _ x h => C24_lweCiphertext hv hm h.1
  · refine Consumes.bind (P := fun b x => ∃ m ≤ mem, b = putLenPred m ∧ x = List.replicate m 0)
      (Consumes.readU64.bind fun b n hb => (Consumes.lift _).mono ?_) ?_
    · rintro b' x ⟨rfl, hx⟩
      obtain ⟨m, hmm, hn, rfl⟩ := mkSlice_inv hx
      refine ⟨m, hmm, ?_, rfl⟩
      rw [hb, List.append_nil, putLenPred, ← hn]
      exact congrArg putU64 (BitVec.add_sub_cancel _ _).symm
    · rintro b x ⟨m, hmm, rfl, rfl⟩
      refine (Consumes.vecReadFrom m 0).mono ?_
      rintro b y ⟨rfl, rfl⟩
      exact ⟨hmm, rfl⟩
  · rintro b b' x ⟨-, rfl⟩ ⟨-, rfl⟩
    exact ⟨rfl, fun _ => rfl⟩

/-- The bytes of a secret key are read back, but the count does not include them (`C24_lweSK_count_false`). -/
theorem C73_lweSecretKey_partial (hv : 8 ∣ v) (hm : mem < 2 ^ 63) (s : Bytes) (n : ℕ) (x : List (BitVec v))
    (rest : Bytes) (e : lweSKReadFrom mem s = .ok n x rest) :
    ∃ b, lweSKWriteTo x = some ⟨b, false⟩ ∧ lweSKByteSize x = some b.length ∧ s = b ++ rest := by
  have hc : Consumes ((lweSKHeaderRead (v := v) mem).bind vecReadFrom)
      fun b x => x.length ≤ mem ∧ b = putLen x.length ++ vecWriteTo x := by
    refine Consumes.bind (P := fun b x => ∃ m ≤ mem, b = putLen m ∧ x = List.replicate m 0)
      (Consumes.readU64.bind fun b n hb => (Consumes.lift _).mono ?_) ?_
    · rintro b' x ⟨rfl, hx⟩
      obtain ⟨m, hmm, hn, rfl⟩ := mkSlice_inv hx
      exact ⟨m, hmm, by rw [hb, List.append_nil, putLen, ← hn], rfl⟩
    · rintro b x ⟨m, hmm, rfl, rfl⟩
      refine (Consumes.vecReadFrom m 0).mono ?_
      rintro b y ⟨rfl, rfl⟩
      exact ⟨hmm, rfl⟩
  obtain ⟨m, e⟩ := bindUncounted_ok e
  obtain ⟨b, rfl, -, hx, rfl⟩ := hc _ _ _ _ e
  obtain ⟨b, h1, h2, -⟩ := C24_lweSK_partial hv hm hx
  have h3 : lweSKWriteTo x = some ⟨putLen x.length ++ vecWriteTo x, false⟩ :=
    finish_eq rfl rfl (by simp [lweSKByteSize, putLen_length, vecWriteTo_length])
  rw [h3] at h1
  cases h1
  exact ⟨_, h3, h2, rfl⟩

theorem C73_glwePlaintext (hv : 8 ∣ v) (hm : mem < 2 ^ 63) :
    WritesBack id (glwePTWriteTo (v := v)) (fun x => some (8 + x.length * (v / 8))) (glwePTReadFrom mem) := by
  refine writesBack_of (P := fun b x => RankOK mem x.length ∧ b = putLen x.length ++ vecWriteTo x) ?_ ?_
    fun _ x h => C24_glwePlaintext hv hm h.1
  · refine Consumes.bind (P := fun b x => ∃ m, RankOK mem m ∧ b = putLen m ∧ x = List.replicate m 0)
      (Consumes.readU64.bind fun b n hb => (Consumes.lift _).mono ?_) ?_
    · rintro b' x ⟨rfl, hx⟩
      obtain ⟨m, hmm, hn, rfl⟩ := newPoly_inv hx
      exact ⟨m, hmm, by rw [hb, List.append_nil, putLen, ← hn], rfl⟩
    · rintro b x ⟨m, hmm, rfl, rfl⟩
      refine (Consumes.vecReadFrom m 0).mono ?_
      rintro b y ⟨rfl, rfl⟩
      exact ⟨hmm, rfl⟩
  · rintro b b' x ⟨-, rfl⟩ ⟨-, rfl⟩
    exact ⟨rfl, fun _ => rfl⟩

/-- The bytes of polynomials after a header of two fields. -/
def PolysBytes (mem : ℕ) (hd : ℕ → Bytes) (b : Bytes) (x : List (List (BitVec v))) : Prop :=
  ∃ k N, 0 < k ∧ k ≤ mem ∧ RankOK mem N ∧ Polys k N x ∧ b = hd k ++ putLen N ++ encPolys x

theorem PolysBytes.uniq {write : List (List (BitVec v)) → Option Wr} (hd : ℕ → Bytes) :
    Uniq id write (PolysBytes (v := v) mem hd) := by
  rintro b b' x ⟨k, N, h0, -, -, h1, rfl⟩ ⟨k', N', -, -, -, h2, rfl⟩
  obtain ⟨rfl, rfl⟩ := h1.unique h2 h0
  exact ⟨rfl, fun _ => rfl⟩

theorem Consumes.polysValue (x0 : List (List (BitVec v))) {hd : ℕ → Bytes} {b0 : Bytes}
    (h : x0 ≠ [] → ∃ k N, 0 < k ∧ k ≤ mem ∧ RankOK mem N ∧ b0 = hd k ++ putLen N ∧
      x0 = List.replicate k (List.replicate N 0)) :
    Consumes (polysValueRead x0) fun b x => PolysBytes mem hd (b0 ++ b) x := by
  refine Consumes.lift_bind fun N' hN' => ?_
  have hne : x0 ≠ [] := by rintro rfl; cases hN'
  obtain ⟨k, N, h1, h2, h3, rfl, rfl⟩ := h hne
  rw [rank0_replicate h1] at hN'
  cases hN'
  refine (Consumes.polys rfl).mono ?_
  rintro b y ⟨hy, rfl⟩
  exact ⟨k, N', h1, h2, h3, hy, rfl⟩

theorem Consumes.glweSK : Consumes (glweSKReadFrom (v := v) mem) (PolysBytes mem putLen) := by
  refine Consumes.bind (P := fun b x => x ≠ [] → ∃ k N, 0 < k ∧ k ≤ mem ∧ RankOK mem N ∧
    b = putLen k ++ putLen N ∧ x = List.replicate k (List.replicate N 0)) ?_ fun b a h => Consumes.polysValue a h
  refine Consumes.readU64.bind fun b k hb => Consumes.readU64.bind fun b' N hb' => (Consumes.lift _).mono ?_
  rintro b'' x ⟨rfl, hx⟩ hne
  obtain ⟨m, hmm, hn, ⟨-, h⟩ | ⟨p, hp, h⟩⟩ := makeEach_inv hx
  · exact absurd h hne
  · obtain ⟨N', hN, hN', rfl⟩ := newPoly_inv hp
    refine ⟨m, N', ?_, hmm, hN, by rw [hb, hb', hn, hN', List.append_nil]; rfl, h⟩
    rcases Nat.eq_zero_or_pos m with rfl | h0
    · exact absurd h hne
    · exact h0

theorem Consumes.glweCT : Consumes (glweCTReadFrom (v := v) mem) (PolysBytes mem putLenPred) := by
  refine Consumes.bind (P := fun b x => x ≠ [] → ∃ k N, 0 < k ∧ k ≤ mem ∧ RankOK mem N ∧
    b = putLenPred k ++ putLen N ∧ x = List.replicate k (List.replicate N 0)) ?_ fun b a h => Consumes.polysValue a h
  refine Consumes.readU64.bind fun b k hb => Consumes.readU64.bind fun b' N hb' => (Consumes.lift _).mono ?_
  rintro b'' x ⟨rfl, hx⟩ hne
  obtain ⟨m, N', h1, h2, h3, h4, h5, h6⟩ := newGLWECiphertext_inv hx hne
  exact ⟨m, N', h1, h2, h3, by rw [hb, hb', h4, h5, List.append_nil]; rfl, h6⟩

theorem C73_glweSecretKey (hv : 8 ∣ v) (hm : mem < 2 ^ 63) :
    WritesBack id (glweSKWriteTo (v := v)) polysByteSize (glweSKReadFrom mem) :=
  writesBack_of Consumes.glweSK (PolysBytes.uniq _) fun _ _ ⟨_, _, h0, h1, h2, h3, _⟩ =>
    C24_glweSecretKey hv hm h0 h1 h2 h3

theorem C73_glweCiphertext (hv : 8 ∣ v) (hm : mem < 2 ^ 63) :
    WritesBack id (glweCTWriteTo (v := v)) polysByteSize (glweCTReadFrom mem) :=
  writesBack_of Consumes.glweCT (PolysBytes.uniq _) fun _ _ ⟨_, _, h0, h1, h2, h3, _⟩ =>
    C24_glweCiphertext hv hm h0 h1 h2 h3

theorem forget_inner {f : BitVec 64 → Reader α} {g : α → Reader β} {s rest : Bytes} {n : ℕ} {x : β}
    (h : ((readU64.bindForget f).bind g) s = .ok n x rest) : ((readU64.bind f).bind g) s = .ok n x rest := by
  unfold Reader.bind at h
  cases e : readU64.bindForget f s with
  | ok m a r =>
    rw [e] at h
    have e' := bindForget_ok e
    have key : ((readU64.bind f).bind g) s = match readU64.bind f s with
        | .ok n a rest =>
          match g a rest with
          | .ok m b rest' => .ok (n + m) b rest'
          | .err m => .err (n + m)
          | .panic => .panic
        | .err n => .err n
        | .panic => .panic := rfl
    rw [key, e']
    exact h
  | err m => rw [e] at h; cases h
  | panic => rw [e] at h; cases h

theorem C73_fftGLWESecretKey (hm : mem < 2 ^ 63) :
    WritesBack id glweSKWriteTo polysByteSize (fftGLWESKReadFrom mem) :=
  fun s n x rest e => C73_glweSecretKey (by norm_num) hm s n x rest (forget_inner e)

theorem C73_fftGLWECiphertext (hm : mem < 2 ^ 63) :
    WritesBack id glweCTWriteTo polysByteSize (fftGLWECTReadFrom mem) :=
  fun s n x rest e => C73_glweCiphertext (by norm_num) hm s n x rest (forget_inner e)

/-! ## Public keys -/

/-- The bytes of a public key. -/
def PKBytes (mem : ℕ) (b : Bytes) (x : List (List (List (BitVec v)))) : Prop :=
  ∃ k N, 0 < k ∧ k + 1 ≤ mem ∧ RankOK mem N ∧ IsPKShape k N x ∧ b = putLen k ++ putLen N ++ x.flatMap encPolys

theorem PKBytes.eq {b b' : Bytes} {x : List (List (List (BitVec v)))} (h : PKBytes mem b x) (h' : PKBytes mem b' x) :
    b = b' := by
  obtain ⟨k, N, h0, -, -, h1, rfl⟩ := h
  obtain ⟨k', N', h0', -, -, h2, rfl⟩ := h'
  have e1 : k = k' := h1.length.symm.trans h2.length
  have e2 : some N = some N' := (pk_rank h0 h1).symm.trans (pk_rank h0' h2)
  cases e2
  subst e1
  rfl

theorem PKBytes.uniq {write : List (List (List (BitVec v))) → Option Wr} : Uniq id write (PKBytes (v := v) mem) :=
  fun _ _ _ h h' => ⟨by rw [h.eq h'], fun _ => h.eq h'⟩

theorem Consumes.pk (hm : mem < 2 ^ 63) : Consumes (pkReadFrom (v := v) mem) (PKBytes mem) := by
  refine Consumes.bind (P := fun b x => (x.head?.bind rank0).isSome → ∃ k N, 0 < k ∧ k + 1 ≤ mem ∧ RankOK mem N ∧
    b = putLen k ++ putLen N ∧ x = List.replicate k (List.replicate (k + 1) (List.replicate N 0))) ?_ ?_
  · refine Consumes.readU64.bind fun b k hb => Consumes.readU64.bind fun b' N hb' => (Consumes.lift _).mono ?_
    rintro b'' x ⟨rfl, hx⟩ hne
    obtain ⟨m, hmm, hn, ⟨-, rfl⟩ | ⟨p, hp, rfl⟩⟩ := makeEach_inv hx
    · cases hne
    · have hm0 : 0 < m := by
        rcases Nat.eq_zero_or_pos m with rfl | h0
        · cases hne
        · exact h0
      have hpne : p ≠ [] := by
        rintro rfl
        obtain ⟨j, rfl⟩ : ∃ j, m = j + 1 := ⟨m - 1, by omega⟩
        simp [List.replicate_succ, rank0] at hne
      obtain ⟨k', N', h1, h2, h3, h4, h5, rfl⟩ := newGLWECiphertext_inv hp hpne
      have hk : k' = m + 1 := by
        refine ofNat_inj_of_lt (by omega) (by omega) ?_
        rw [BitVec.ofNat_add, ← hn, h4]
        exact (BitVec.sub_add_cancel _ _).symm
      subst hk
      exact ⟨m, N', hm0, h2, h3, by rw [hb, hb', hn, h5, List.append_nil]; rfl, rfl⟩
  · intro b x h
    refine Consumes.lift_bind fun N' hN' => ?_
    obtain ⟨k, N, h1, h2, h3, rfl, rfl⟩ := h (by rw [hN']; rfl)
    have hz : IsPKShape k N (List.replicate k (List.replicate (k + 1) (List.replicate N (0 : BitVec v)))) :=
      ⟨by simp, fun ct hct => by
        rw [List.eq_of_mem_replicate hct]; exact ⟨by simp, fun p hp => by simp [List.eq_of_mem_replicate hp]⟩⟩
    rw [pk_rank h1 hz] at hN'
    cases hN'
    refine (Consumes.readEach (Consumes.polys rfl) k).mono ?_
    rintro b y ⟨h4, h5, rfl⟩
    exact ⟨k, N', h1, h2, h3, ⟨h4, h5⟩, rfl⟩

/-- `LWEPublicKey` and `GLWEPublicKey`. -/
theorem C73_lweGLWEPublicKey (hv : 8 ∣ v) (hm : mem < 2 ^ 63) :
    WritesBack id (pkWriteTo (v := v)) pkByteSize (pkReadFrom mem) :=
  writesBack_of (Consumes.pk hm) PKBytes.uniq fun _ _ ⟨_, _, h0, h1, h2, h3, _⟩ =>
    C24_lweGLWEPublicKey hv hm h0 h1 h2 h3

theorem C73_publicKey (hw8 : 8 ∣ w) (hm : mem < 2 ^ 63) :
    WritesBack id (pubKeyWriteTo (w := w)) pubKeyByteSize (pubKeyReadFrom mem) := by
  have hc : Consumes (pubKeyReadFrom (w := w) mem) fun b x => ∃ b1 b2, b = b1 ++ b2 ∧ PKBytes mem b1 x.lweKey ∧
      PKBytes mem b2 x.glweKey := by
    refine (Consumes.pk hm).bind fun b1 x1 h1 => ((Consumes.pk hm).map _).mono ?_
    rintro b2 x ⟨x2, rfl, h2⟩
    exact ⟨b1, b2, rfl, h1, h2⟩
  refine writesBack_of hc ?_ ?_
  · rintro b b' x ⟨b1, b2, rfl, h1, h2⟩ ⟨b1', b2', rfl, h1', h2'⟩
    have e1 := h1.eq h1'
    have e2 := h2.eq h2'
    subst e1 e2
    exact ⟨rfl, fun _ => rfl⟩
  · rintro b ⟨x1, x2⟩ ⟨b1, b2, rfl, ⟨_, _, a0, a1, a2, a3, _⟩, ⟨_, _, c0, c1, c2, c3, _⟩⟩
    exact (((codec_pk hw8 hm a0 a1 a2 a3).andThen (rb := fun a => (pkReadFrom mem).map fun b => (⟨a, b⟩ : PubKey w))
      ((codec_pk hw8 hm c0 c1 c2 c3).map fun b => (⟨x1, b⟩ : PubKey w))).check rfl).roundTrips

/-! ## Gadget ciphertexts and keys -/

/-- The bytes of an object with gadget parameters: the base, then what the object determines. -/
def GadBytes (gadget : α → GadgetParams w) (S : α → Bytes → Prop) (b : Bytes) (x : α) : Prop :=
  ∃ (base : BitVec 64) (t : Bytes), (gadget x).base = base.setWidth w ∧ S x t ∧ b = putU64 base ++ t

/-- A writer that begins with the base of the gadget. -/
def BaseFirst (gadget : α → GadgetParams w) (write : α → Option Wr) : Prop :=
  ∀ x b, write x = some ⟨b, false⟩ → ∃ t, b = putU64 ((gadget x).base.setWidth 64) ++ t

theorem finish_starts {h v : Option Bytes} {sz : Option ℕ} {p b : Bytes} (hp : ∀ a, h = some a → ∃ t, a = p ++ t)
    (e : finish h v sz = some ⟨b, false⟩) : ∃ t, b = p ++ t := by
  obtain ⟨a, ha, e⟩ := Option.bind_eq_some_iff.1 e
  obtain ⟨c, -, e⟩ := Option.bind_eq_some_iff.1 e
  obtain ⟨_, -, e⟩ := Option.bind_eq_some_iff.1 e
  obtain ⟨t, rfl⟩ := hp a ha
  simp only [Option.some.injEq, Wr.mk.injEq] at e
  exact ⟨t ++ c, by rw [← e.1, List.append_assoc]⟩

theorem gadget_baseFirst : BaseFirst (fun g => g) (gadgetWriteTo (w := w)) := fun _ _ => finish_starts fun a h => by
  cases h
  exact ⟨[], by simp⟩

theorem lev_baseFirst : BaseFirst (·.gadget) (levWriteTo (w := w)) := fun _ _ => finish_starts fun a h => by
  obtain ⟨n, -, rfl⟩ := Option.map_eq_some_iff.1 h
  exact ⟨_, List.append_assoc _ _ _⟩

theorem gsw_baseFirst : BaseFirst (·.gadget) (gswWriteTo (w := w)) := fun _ _ => finish_starts fun a h => by
  obtain ⟨n, -, rfl⟩ := Option.map_eq_some_iff.1 h
  exact ⟨_, List.append_assoc _ _ _⟩

theorem lweKSK_baseFirst : BaseFirst (·.gadget) (lweKSKWriteTo (w := w)) := fun _ _ => finish_starts fun a h => by
  obtain ⟨_, -, h⟩ := Option.bind_eq_some_iff.1 h
  obtain ⟨n, -, rfl⟩ := Option.map_eq_some_iff.1 h
  exact ⟨_, by rw [List.append_assoc, List.append_assoc]⟩

theorem glev_baseFirst : BaseFirst (·.gadget) (glevWriteTo (w := w) (v := v)) := fun _ _ => finish_starts fun a h => by
  obtain ⟨_, -, h⟩ := Option.bind_eq_some_iff.1 h
  obtain ⟨n, -, rfl⟩ := Option.map_eq_some_iff.1 h
  exact ⟨_, by rw [List.append_assoc, List.append_assoc]⟩

theorem ggsw_baseFirst : BaseFirst (·.gadget) (ggswWriteTo (w := w) (v := v)) := fun _ _ => finish_starts fun a h => by
  obtain ⟨_, -, h⟩ := Option.bind_eq_some_iff.1 h
  obtain ⟨n, -, rfl⟩ := Option.map_eq_some_iff.1 h
  exact ⟨_, by rw [List.append_assoc, List.append_assoc]⟩

theorem uni_baseFirst : BaseFirst (·.gadget) (uniWriteTo (w := w) (v := v)) := fun _ _ => finish_starts fun a h => by
  obtain ⟨_, -, h⟩ := Option.bind_eq_some_iff.1 h
  obtain ⟨n, -, rfl⟩ := Option.map_eq_some_iff.1 h
  exact ⟨_, List.append_assoc _ _ _⟩

theorem glweKSK_baseFirst : BaseFirst (·.gadget) (glweKSKWriteTo (w := w)) := fun _ _ => finish_starts fun a h => by
  obtain ⟨_, -, h⟩ := Option.bind_eq_some_iff.1 h
  obtain ⟨_, -, h⟩ := Option.bind_eq_some_iff.1 h
  obtain ⟨n, -, rfl⟩ := Option.map_eq_some_iff.1 h
  exact ⟨_, by rw [List.append_assoc, List.append_assoc, List.append_assoc]⟩

theorem brk_baseFirst : BaseFirst (·.gadget) (brkWriteTo (w := w)) := fun _ _ => finish_starts fun a h => by
  obtain ⟨_, -, h⟩ := Option.bind_eq_some_iff.1 h
  obtain ⟨n, -, rfl⟩ := Option.map_eq_some_iff.1 h
  exact ⟨_, by rw [List.append_assoc, List.append_assoc, List.append_assoc]⟩

theorem getBE_putU64 (x : BitVec 64) : getBE (putU64 x) = x.toNat := by
  rw [putU64, getBE_putBE, Nat.mod_eq_of_lt]
  exact x.isLt

theorem fixBase_putU64 (hw : w ≤ 64) (base : BitVec 64) (t : Bytes) :
    fixBase w (putU64 base ++ t) = putU64 ((base.setWidth w).setWidth 64) ++ t := by
  have h8 := putU64_length base
  rw [fixBase, List.take_left' h8, List.drop_left' h8, getBE_putU64]
  congr 2
  apply BitVec.eq_of_toNat_eq
  have h1 : base.toNat % 2 ^ w < 2 ^ 64 :=
    lt_of_lt_of_le (Nat.mod_lt _ (by positivity)) (Nat.pow_le_pow_right (by norm_num) hw)
  rw [BitVec.toNat_ofNat, BitVec.toNat_setWidth, BitVec.toNat_setWidth]

theorem GadBytes.uniq (hw : w ≤ 64) {gadget : α → GadgetParams w} {write : α → Option Wr} (hW : BaseFirst gadget write)
    {S : α → Bytes → Prop} (hS : ∀ x t t', S x t → S x t' → t = t') :
    Uniq (fixBase w) write (GadBytes gadget S) := by
  rintro b b' x ⟨base, t, h1, h2, rfl⟩ ⟨base', t', h1', h2', rfl⟩
  have := hS x _ _ h2 h2'
  subst this
  refine ⟨by simp [putU64_length], fun h => ?_⟩
  obtain ⟨t', ht⟩ := hW _ _ h
  obtain ⟨e1, -⟩ := List.append_inj ht (by rw [putU64_length, putU64_length])
  rw [fixBase_putU64 hw, e1, h1']

theorem C73_gadgetParameters (hw : w ≤ 64) :
    WritesBack (fixBase w) (gadgetWriteTo (w := w)) (fun _ => some 16) gadgetReadFrom := by
  refine writesBack_of (P := fun b g => GadBytes (fun g => g) (fun g t => t = putLen g.level ∧ Compiled g.level g) b g)
    ?_ (GadBytes.uniq hw gadget_baseFirst ?_) ?_
  · refine Consumes.readU64.bind fun b base hb => Consumes.readU64.bind fun b' level hb' => (Consumes.lift _).mono ?_
    rintro b'' g ⟨rfl, hg⟩
    obtain ⟨h1, h2, -, -⟩ := compile_inv hg
    exact ⟨base, putLen g.level, h1, ⟨rfl, ⟨_, hg⟩, le_refl _⟩, by rw [hb, hb', h2, List.append_nil]; rfl⟩
  · rintro g t t' ⟨rfl, -⟩ ⟨rfl, -⟩; rfl
  · rintro b g ⟨base, t, -, ⟨-, hg⟩, -⟩
    exact (codec_gadget hw hg).roundTrips

/-- The bytes of a Lev ciphertext after the base. -/
def LevTail (mem : ℕ) (x : Lev w) (t : Bytes) : Prop :=
  ∃ n ≤ mem, Compiled mem x.gadget ∧ IsLevShape x.gadget n x ∧ t = putLen x.gadget.level ++ putLenPred n ++ encLev x

theorem C73_lev (hw8 : 8 ∣ w) (hw : w ≤ 64) (hm : mem < 2 ^ 63) :
    WritesBack (fixBase w) (levWriteTo (w := w)) levByteSize (levReadFrom mem) := by
  refine writesBack_of (P := GadBytes (·.gadget) (LevTail mem)) ?_ (GadBytes.uniq hw lev_baseFirst ?_) ?_
  · refine Consumes.bind (P := fun b x => ∃ (base : BitVec 64) (g : GadgetParams w) (n : ℕ), n ≤ mem ∧ Compiled mem g ∧
        g.base = base.setWidth w ∧ b = putU64 base ++ (putLen g.level ++ putLenPred n) ∧
        x = ⟨g, List.replicate g.level (List.replicate n 0)⟩) ?_ ?_
    · refine Consumes.readU64.bind fun b base hb => Consumes.readU64.bind fun b' level hb' =>
        Consumes.readU64.bind fun b'' n hb'' => (Consumes.lift _).mono ?_
      rintro b3 x ⟨rfl, hx⟩
      obtain ⟨g, hg, hx⟩ := Option.bind_eq_some_iff.1 hx
      obtain ⟨h1, h2, h3, h4⟩ := compile_inv hg
      obtain ⟨h5, m, h6, h7, rfl⟩ := newLev_inv hm h3 h4 hx
      exact ⟨base, g, m, h6, ⟨⟨_, hg⟩, h5⟩, h1, by rw [hb, hb', hb'', h7, h2, List.append_nil]; rfl, rfl⟩
    · rintro b x ⟨base, g, n, hn, hg, h1, rfl, rfl⟩
      refine Consumes.lift_bind fun n' hn' => ?_
      rw [rank0_replicate hg.pos] at hn'
      cases hn'
      refine (Consumes.lev g rfl).mono ?_
      rintro b y ⟨hy, rfl⟩
      obtain ⟨gd, y⟩ := y
      obtain rfl : gd = g := hy.gadget
      exact ⟨base, _, h1, ⟨n, hn, hg, hy, rfl⟩, by simp⟩
  · rintro x t t' ⟨n, -, hg, h1, rfl⟩ ⟨n', -, -, h2, rfl⟩
    have := (lev_rank hg h1).symm.trans (lev_rank hg h2)
    cases this
    rfl
  · rintro b x ⟨base, t, -, ⟨n, hn, hg, h1, -⟩, -⟩
    exact C24_lev hw8 hw hm hg hn h1

/-- The bytes of Lev ciphertexts after the base. -/
def LevsTail (hd : GadgetParams w → ℕ → ℕ → Bytes) (C : ℕ → ℕ → Prop) (mem : ℕ) (x : GSW w) (t : Bytes) : Prop :=
  ∃ m n, 0 < m ∧ m ≤ mem ∧ n ≤ mem ∧ C m n ∧ Compiled mem x.gadget ∧ IsLevs x.gadget m n x ∧
    t = hd x.gadget m n ++ encLevs x

theorem LevsTail.unique {hd : GadgetParams w → ℕ → ℕ → Bytes} {C : ℕ → ℕ → Prop} (x : GSW w) (t t' : Bytes)
    (h : LevsTail hd C mem x t) (h' : LevsTail hd C mem x t') : t = t' := by
  obtain ⟨m, n, h0, -, -, -, hg, h1, rfl⟩ := h
  obtain ⟨m', n', h0', -, -, -, -, h2, rfl⟩ := h'
  have e1 : m = m' := h1.length.symm.trans h2.length
  subst e1
  obtain ⟨row, hr, hs⟩ := levs_head h0 h1
  obtain ⟨row', hr', hs'⟩ := levs_head h0 h2
  rw [hr] at hr'
  cases hr'
  have := (lev_rank hg hs).symm.trans (lev_rank hg hs')
  cases this
  rfl

theorem Consumes.levsTail {hd : GadgetParams w → ℕ → ℕ → Bytes} {C : ℕ → ℕ → Prop} {base : BitVec 64}
    {g : GadgetParams w} {m n len : ℕ} (h0 : 0 < m) (hmm : m ≤ mem) (hn : n ≤ mem) (hC : C m n) (hg : Compiled mem g)
    (hb : g.base = base.setWidth w) (hlen : len = n * (w / 8)) :
    Consumes (readLevs len (zeroLevs g m n)) fun b y =>
      GadBytes (·.gadget) (LevsTail hd C mem) (putU64 base ++ hd g m n ++ b) y := by
  refine (Consumes.levs g hlen).mono ?_
  rintro b y ⟨hy, rfl⟩
  obtain ⟨gd, y⟩ := y
  obtain rfl : gd = g := hy.gadget
  exact ⟨base, _, hb, ⟨m, n, h0, hmm, hn, hC, hg, hy, rfl⟩, by simp⟩

/-- A slice of Lev ciphertexts. -/
theorem makeLevs_inv (hm : mem < 2 ^ 63) {g : GadgetParams w} (hl : 0 < g.level) (hl' : g.level < 2 ^ 64)
    {mf nf : BitVec 64} {l : List (Lev w)} (h : makeEach mem mf (newLev mem nf g) = some l) (hne : l ≠ []) :
    g.level ≤ mem ∧ ∃ m n, 0 < m ∧ m ≤ mem ∧ n ≤ mem ∧ mf = BitVec.ofNat 64 m ∧ nf = BitVec.ofNat 64 n - 1 ∧
      (⟨g, l⟩ : GSW w) = zeroLevs g m n := by
  obtain ⟨m, hmm, hn, ⟨-, rfl⟩ | ⟨p, hp, rfl⟩⟩ := makeEach_inv h
  · exact absurd rfl hne
  · obtain ⟨h5, n, h6, h7, rfl⟩ := newLev_inv hm hl hl' hp
    refine ⟨h5, m, n, ?_, hmm, h6, hn, h7, rfl⟩
    rcases Nat.eq_zero_or_pos m with rfl | h0
    · exact absurd rfl hne
    · exact h0

/-- `LWEKeySwitchKey`: the fields of the header after the base. -/
def kskHd (g : GadgetParams w) (m n : ℕ) : Bytes := putLen g.level ++ (putLen m ++ putLenPred n)

theorem Consumes.lweKSK (hm : mem < 2 ^ 63) :
    Consumes (lweKSKReadFrom (w := w) mem) (GadBytes (·.gadget) (LevsTail kskHd (fun _ _ => True) mem)) := by
  refine Consumes.bind (P := fun b x => x.value ≠ [] → ∃ (base : BitVec 64) (g : GadgetParams w) (m n : ℕ),
      0 < m ∧ m ≤ mem ∧ n ≤ mem ∧ Compiled mem g ∧ g.base = base.setWidth w ∧
      b = putU64 base ++ kskHd g m n ∧ x = zeroLevs g m n) ?_ ?_
  · refine Consumes.readU64.bind fun b base hb => Consumes.readU64.bind fun b' level hb' =>
      Consumes.readU64.bind fun b'' mf hb'' => Consumes.readU64.bind fun b3 nf hb3 => (Consumes.lift _).mono ?_
    rintro b4 x ⟨rfl, hx⟩ hne
    obtain ⟨g, hg, hx⟩ := Option.bind_eq_some_iff.1 hx
    obtain ⟨h1, h2, h3, h4⟩ := compile_inv hg
    obtain ⟨l, hl, rfl⟩ := Option.map_eq_some_iff.1 hx
    obtain ⟨h5, m, n, h6, h7, h8, rfl, rfl, h9⟩ := makeLevs_inv hm h3 h4 hl hne
    exact ⟨base, g, m, n, h6, h7, h8, ⟨⟨_, hg⟩, h5⟩, h1, by rw [hb, hb', hb'', hb3, h2, List.append_nil]; rfl, h9⟩
  · intro b x h
    refine Consumes.lift_bind fun n' hn' => ?_
    obtain ⟨base, g, m, n, h6, h7, h8, hg, h1, rfl, rfl⟩ := h (by intro hc; rw [hc] at hn'; cases hn')
    obtain ⟨row, hr, hs⟩ := levs_head h6 (zeroLevs_shape g m n)
    rw [hr, Option.bind_some, lev_rank hg hs] at hn'
    cases hn'
    exact Consumes.levsTail h6 h7 h8 trivial hg h1 rfl

theorem C73_lweKeySwitchKey (hw8 : 8 ∣ w) (hw : w ≤ 64) (hm : mem < 2 ^ 63) :
    WritesBack (fixBase w) (lweKSKWriteTo (w := w)) lweKSKByteSize (lweKSKReadFrom mem) :=
  writesBack_of (Consumes.lweKSK hm) (GadBytes.uniq hw lweKSK_baseFirst LevsTail.unique)
    fun _ _ ⟨_, _, _, ⟨_, _, h0, h1, h2, _, hg, h3, _⟩, _⟩ => C24_lweKeySwitchKey hw8 hw hm hg h0 h1 h2 h3

end Tfhe.Ser

namespace Tfhe.Ser

variable {w v mem : ℕ} {α β : Type}

/-- `GSWCiphertext`: the fields of the header after the base. -/
def gswHd (g : GadgetParams w) (_m n : ℕ) : Bytes := putLen g.level ++ putLenPred n

/-- Missing: a dimension of -1 is accepted and yields an object that cannot be written (`C73_gsw_false`). -/
theorem C73_gsw_partial (hw8 : 8 ∣ w) (hw : w ≤ 64) (hm : mem < 2 ^ 63) :
    ∀ s n x rest, gswReadFrom (w := w) mem s = .ok n x rest → x.value ≠ [] →
      ∃ b, gswWriteTo x = some ⟨b, false⟩ ∧ b.length = n ∧ gswByteSize x = some n ∧ n ≤ s.length ∧
        rest = s.drop n ∧ b = fixBase w (s.take n) := by
  have hc : Consumes (gswReadFrom (w := w) mem) fun b x => x.value ≠ [] →
      GadBytes (·.gadget) (LevsTail gswHd (fun m n => m = n) mem) b x := by
    refine Consumes.bind (P := fun b x => (x.value = [] ∨ ∃ (base : BitVec 64) (g : GadgetParams w) (n : ℕ),
        0 < n ∧ n ≤ mem ∧ Compiled mem g ∧ g.base = base.setWidth w ∧
        b = putU64 base ++ gswHd g n n ∧ x = zeroLevs g n n)) ?_ ?_
    · refine Consumes.readU64.bind fun b base hb => Consumes.readU64.bind fun b' level hb' =>
        Consumes.readU64.bind fun b'' nf hb'' => (Consumes.lift _).mono ?_
      rintro b4 x ⟨rfl, hx⟩
      rw [or_iff_not_imp_left]
      intro hne
      obtain ⟨g, hg, hx⟩ := Option.bind_eq_some_iff.1 hx
      obtain ⟨h1, h2, h3, h4⟩ := compile_inv hg
      obtain ⟨l, hl, rfl⟩ := Option.map_eq_some_iff.1 hx
      obtain ⟨h5, m, n, h6, h7, h8, e1, e2, h9⟩ := makeLevs_inv hm h3 h4 hl hne
      have hmn : m = n := by
        refine ofNat_inj_of_lt (by omega) (by omega) ?_
        rw [← e1, e2]
        exact BitVec.sub_add_cancel _ _
      subst hmn
      exact ⟨base, g, m, h6, h7, ⟨⟨_, hg⟩, h5⟩, h1, by rw [hb, hb', hb'', e2, h2, List.append_nil]; rfl, h9⟩
    · rintro b x (h | ⟨base, g, n, h6, h7, hg, h1, rfl, rfl⟩)
      · obtain ⟨gd, val⟩ := x
        obtain rfl : val = [] := h
        refine (Consumes.pure (⟨gd, []⟩ : GSW w)).mono ?_
        rintro b' y ⟨-, rfl⟩ hne
        exact absurd rfl hne
      · exact (Consumes.levsTail (hd := gswHd) (C := fun m n => m = n) h6 h7 h7 rfl hg h1
          (by simp [zeroLevs])).mono fun _ _ h _ => h
  intro s n x rest e hne
  obtain ⟨b0, rfl, rfl, hb0⟩ := hc _ _ _ _ e
  have hb := hb0 hne
  obtain ⟨_, _, _, ⟨m, n, h0, h1, h2, hmn, hg, h3, _⟩, _⟩ := id hb
  subst hmn
  obtain ⟨b, h4, h5, h6⟩ := C24_gsw hw8 hw hm hg h0 h1 h3
  obtain ⟨b1, h7, -, hb1⟩ := hc _ _ _ _ (h6 [])
  simp only [List.append_nil] at h7
  subst h7
  obtain ⟨h8, h9⟩ := GadBytes.uniq hw gsw_baseFirst LevsTail.unique _ _ _ (hb1 hne) hb
  exact ⟨b, h4, h8, by rw [h5, h8], by simp, by simp, by simpa using h9 h4⟩

/-! ## Objects made of polynomials -/

/-- The bytes of a GLev ciphertext after the base. -/
def GLevTail (mem : ℕ) (x : GLev w v) (t : Bytes) : Prop :=
  ∃ k N, 0 < k ∧ k ≤ mem ∧ RankOK mem N ∧ Compiled mem x.gadget ∧ IsGLevShape x.gadget k N x ∧
    t = putLen x.gadget.level ++ (putLenPred k ++ putLen N) ++ encGLev x

theorem GLevTail.unique (x : GLev w v) (t t' : Bytes) (h : GLevTail mem x t) (h' : GLevTail mem x t') : t = t' := by
  obtain ⟨k, N, h0, -, -, hg, h1, rfl⟩ := h
  obtain ⟨k', N', -, -, -, -, h2, rfl⟩ := h'
  obtain ⟨ct, e1, s1⟩ := glev_head hg.pos h1
  obtain ⟨ct', e2, s2⟩ := glev_head hg.pos h2
  rw [e1] at e2
  cases e2
  obtain ⟨rfl, rfl⟩ := s1.unique s2 h0
  rfl

theorem Consumes.glevReadFrom (hm : mem < 2 ^ 63) :
    Consumes (glevReadFrom (w := w) (v := v) mem) (GadBytes (·.gadget) (GLevTail mem)) := by
  refine Consumes.bind (P := fun b x => (GLev.rank x).isSome → ∃ (base : BitVec 64) (g : GadgetParams w) (k N : ℕ),
      0 < k ∧ k ≤ mem ∧ RankOK mem N ∧ Compiled mem g ∧ g.base = base.setWidth w ∧
      b = putU64 base ++ (putLen g.level ++ (putLenPred k ++ putLen N)) ∧
      x = ⟨g, List.replicate g.level (List.replicate k (List.replicate N 0))⟩) ?_ ?_
  · refine Consumes.readU64.bind fun b base hb => Consumes.readU64.bind fun b' level hb' =>
      Consumes.readU64.bind fun b'' kf hb'' => Consumes.readU64.bind fun b3 Nf hb3 => (Consumes.lift _).mono ?_
    rintro b4 x ⟨rfl, hx⟩ hr
    obtain ⟨g, hg, hx⟩ := Option.bind_eq_some_iff.1 hx
    obtain ⟨h1, h2, h3, h4⟩ := compile_inv hg
    obtain ⟨h5, k, N, h6, h7, h8, rfl, rfl, h9⟩ := newGLev_inv hm h3 h4 hx hr
    exact ⟨base, g, k, N, h6, h7, h8, ⟨⟨_, hg⟩, h5⟩, h1, by rw [hb, hb', hb'', hb3, h2, List.append_nil]; rfl, h9⟩
  · intro b x h
    refine Consumes.lift_bind fun N' hN' => ?_
    obtain ⟨base, g, k, N, h6, h7, h8, hg, h1, rfl, rfl⟩ := h (by rw [hN']; rfl)
    have hz := (zeroGLevs_shape (v := v) g 1 k N).entry _ (List.mem_replicate.2 ⟨by norm_num, rfl⟩)
    rw [GLev.rank_eq hz hg.pos h6] at hN'
    cases hN'
    refine (Consumes.glev g rfl).mono ?_
    rintro b y ⟨hy, rfl⟩
    obtain ⟨gd, y⟩ := y
    obtain rfl : gd = g := hy.gadget
    exact ⟨base, _, h1, ⟨k, _, h6, h7, h8, hg, hy, rfl⟩, by simp⟩

/-- `GLevCiphertext` at `v = w`, `FFTGLevCiphertext` at `v = 64`. -/
theorem C73_glev (hw : w ≤ 64) (hv : 8 ∣ v) (hm : mem < 2 ^ 63) :
    WritesBack (fixBase w) (glevWriteTo (w := w) (v := v)) glevByteSize (glevReadFrom mem) :=
  writesBack_of (Consumes.glevReadFrom hm) (GadBytes.uniq hw glev_baseFirst GLevTail.unique)
    fun _ _ ⟨_, _, _, ⟨_, _, h0, h1, h2, hg, h3, _⟩, _⟩ => C24_glev hw hv hm hg h0 h1 h2 h3

/-- The bytes of GLev ciphertexts after the base. -/
def GLevsTail (hd : GadgetParams w → ℕ → ℕ → ℕ → Bytes) (C : ℕ → ℕ → Prop) (mem : ℕ) (x : GGSW w v) (t : Bytes) :
    Prop :=
  ∃ m k N, 0 < m ∧ m ≤ mem ∧ 0 < k ∧ k ≤ mem ∧ RankOK mem N ∧ C m k ∧ Compiled mem x.gadget ∧
    IsGLevs x.gadget m k N x ∧ t = hd x.gadget m k N ++ encGGSW x

theorem GLevsTail.unique {hd : GadgetParams w → ℕ → ℕ → ℕ → Bytes} {C : ℕ → ℕ → Prop} (x : GGSW w v) (t t' : Bytes)
    (h : GLevsTail hd C mem x t) (h' : GLevsTail hd C mem x t') : t = t' := by
  obtain ⟨m, k, N, h0, -, hk, -, -, -, hg, h1, rfl⟩ := h
  obtain ⟨m', k', N', h0', -, -, -, -, -, -, h2, rfl⟩ := h'
  have e1 : m = m' := h1.length.symm.trans h2.length
  subst e1
  obtain ⟨row, hr, hs⟩ := glevs_head h0 h1
  obtain ⟨row', hr', hs'⟩ := glevs_head h0 h2
  rw [hr] at hr'
  cases hr'
  obtain ⟨ct, e1, s1⟩ := glev_head hg.pos hs
  obtain ⟨ct', e2, s2⟩ := glev_head hg.pos hs'
  rw [e1] at e2
  cases e2
  obtain ⟨rfl, rfl⟩ := s1.unique s2 hk
  rfl

/-- What the headers of these types lead to. -/
def GLevsHeader (hd : GadgetParams w → ℕ → ℕ → ℕ → Bytes) (C : ℕ → ℕ → Prop) (mem : ℕ) (b : Bytes) (x : GGSW w v) :
    Prop :=
  (GGSW.rank x).isSome → ∃ (base : BitVec 64) (g : GadgetParams w) (m k N : ℕ), 0 < m ∧ m ≤ mem ∧ 0 < k ∧ k ≤ mem ∧
    RankOK mem N ∧ C m k ∧ Compiled mem g ∧ g.base = base.setWidth w ∧ b = putU64 base ++ hd g m k N ∧
    x = zeroGLevs v g m k N

theorem Consumes.ggswValue {hd : GadgetParams w → ℕ → ℕ → ℕ → Bytes} {C : ℕ → ℕ → Prop} {b : Bytes} {x : GGSW w v}
    (h : GLevsHeader hd C mem b x) :
    Consumes (ggswValueRead x) fun b' y => GadBytes (·.gadget) (GLevsTail hd C mem) (b ++ b') y := by
  refine Consumes.lift_bind fun N' hN' => ?_
  obtain ⟨base, g, m, k, N, h0, h1, h2, h3, h4, h5, hg, hb, rfl, rfl⟩ := h (by rw [hN']; rfl)
  rw [GGSW.rank_eq (zeroGLevs_shape g m k N) h0 hg.pos h2] at hN'
  cases hN'
  refine (Consumes.glevs g rfl).mono ?_
  rintro b y ⟨hy, rfl⟩
  obtain ⟨gd, y⟩ := y
  obtain rfl : gd = g := hy.gadget
  exact ⟨base, _, hb, ⟨m, k, _, h0, h1, h2, h3, h4, h5, hg, hy, rfl⟩, by simp⟩

/-- A slice of GLev ciphertexts. -/
theorem fillGLevs_inv (hm : mem < 2 ^ 63) {g : GadgetParams w} (hl : 0 < g.level) (hl' : g.level < 2 ^ 64)
    {m : ℕ} {kf Nf : BitVec 64} {l : List (GLev w v)} (h : fill m (newGLev mem kf Nf g) = some l)
    (hne : (GGSW.rank (⟨g, l⟩ : GGSW w v)).isSome) :
    0 < m ∧ g.level ≤ mem ∧ ∃ k N, 0 < k ∧ k ≤ mem ∧ RankOK mem N ∧ kf = BitVec.ofNat 64 k - 1 ∧
      Nf = BitVec.ofNat 64 N ∧ (⟨g, l⟩ : GGSW w v) = zeroGLevs v g m k N := by
  obtain ⟨-, rfl⟩ | ⟨p, hp, rfl⟩ := fill_inv h
  · cases hne
  · have hm0 : 0 < m := by
      rcases Nat.eq_zero_or_pos m with rfl | h0
      · cases hne
      · exact h0
    have hr : (GLev.rank p).isSome := by
      obtain ⟨j, rfl⟩ : ∃ j, m = j + 1 := ⟨m - 1, by omega⟩
      simpa [GGSW.rank, List.replicate_succ] using hne
    obtain ⟨h5, k, N, h6, h7, h8, h9, h10, rfl⟩ := newGLev_inv hm hl hl' hp hr
    exact ⟨hm0, h5, k, N, h6, h7, h8, h9, h10, rfl⟩

theorem makeGLevs_inv (hm : mem < 2 ^ 63) {g : GadgetParams w} (hl : 0 < g.level) (hl' : g.level < 2 ^ 64)
    {mf kf Nf : BitVec 64} {l : List (GLev w v)} (h : makeEach mem mf (newGLev mem kf Nf g) = some l)
    (hne : (GGSW.rank (⟨g, l⟩ : GGSW w v)).isSome) :
    g.level ≤ mem ∧ ∃ m k N, 0 < m ∧ m ≤ mem ∧ 0 < k ∧ k ≤ mem ∧ RankOK mem N ∧ mf = BitVec.ofNat 64 m ∧
      kf = BitVec.ofNat 64 k - 1 ∧ Nf = BitVec.ofNat 64 N ∧ (⟨g, l⟩ : GGSW w v) = zeroGLevs v g m k N := by
  unfold makeEach at h
  obtain ⟨u, hu, h⟩ := Option.bind_eq_some_iff.1 h
  obtain ⟨m, hmm, hn, rfl⟩ := mkSlice_inv hu
  rw [List.length_replicate] at h
  obtain ⟨h0, h5, k, N, h6, h7, h8, h9, h10, h11⟩ := fillGLevs_inv hm hl hl' h hne
  exact ⟨h5, m, k, N, h0, hmm, h6, h7, h8, hn, h9, h10, h11⟩

/-- `GGSWCiphertext`: the fields of the header after the base. -/
def ggswHd (g : GadgetParams w) (_m k N : ℕ) : Bytes := putLen g.level ++ (putLenPred k ++ putLen N)
/-- `GLWEKeySwitchKey`: the fields of the header after the base. -/
def glweKSKHd (g : GadgetParams w) (m k N : ℕ) : Bytes := putLen g.level ++ (putLen m ++ (putLenPred k ++ putLen N))
/-- `UniEncryption`: the fields of the header after the base. -/
def uniHd (g : GadgetParams w) (_m _k N : ℕ) : Bytes := putLen g.level ++ putLen N

theorem newGGSW_inv (hm : mem < 2 ^ 63) {g : GadgetParams w} (hl : 0 < g.level) (hl' : g.level < 2 ^ 64)
    {kf Nf : BitVec 64} {x : GGSW w v} (h : newGGSW mem kf Nf g = some x) (hne : (GGSW.rank x).isSome) :
    g.level ≤ mem ∧ ∃ k N, 0 < k ∧ k ≤ mem ∧ RankOK mem N ∧
      kf = BitVec.ofNat 64 k - 1 ∧ Nf = BitVec.ofNat 64 N ∧ x = zeroGLevs v g k k N := by
  obtain ⟨l, hl1, rfl⟩ := Option.map_eq_some_iff.1 h
  obtain ⟨h5, m, k, N, h6, h7, h8, h9, h10, e1, e2, e3, h11⟩ := makeGLevs_inv hm hl hl' hl1 hne
  have hmk : m = k := by
    refine ofNat_inj_of_lt (by omega) (by omega) ?_
    rw [← e1, e2]
    exact BitVec.sub_add_cancel _ _
  subst hmk
  exact ⟨h5, m, N, h6, h7, h10, e2, e3, h11⟩

theorem Consumes.ggswHeader (hm : mem < 2 ^ 63) :
    Consumes (ggswHeaderRead (w := w) (v := v) mem) (GLevsHeader ggswHd (fun m k => m = k) mem) := by
  refine Consumes.readU64.bind fun b base hb => Consumes.readU64.bind fun b' level hb' =>
    Consumes.readU64.bind fun b'' kf hb'' => Consumes.readU64.bind fun b3 Nf hb3 => (Consumes.lift _).mono ?_
  rintro b4 x ⟨rfl, hx⟩ hr
  obtain ⟨g, hg, hx⟩ := Option.bind_eq_some_iff.1 hx
  obtain ⟨h1, h2, h3, h4⟩ := compile_inv hg
  obtain ⟨h5, k, N, h6, h7, h8, rfl, rfl, h9⟩ := newGGSW_inv hm h3 h4 hx hr
  exact ⟨base, g, k, k, N, h6, h7, h6, h7, h8, rfl, ⟨⟨_, hg⟩, h5⟩, h1,
    by rw [hb, hb', hb'', hb3, h2, List.append_nil]; rfl, h9⟩

/-- `GGSWCiphertext` at `v = w`, `FFTGGSWCiphertext` at `v = 64`. -/
theorem C73_ggsw (hw : w ≤ 64) (hv : 8 ∣ v) (hm : mem < 2 ^ 63) :
    WritesBack (fixBase w) (ggswWriteTo (w := w) (v := v)) ggswByteSize (ggswReadFrom mem) := by
  refine writesBack_of (Consumes.bind (Consumes.ggswHeader hm) fun _ _ h => Consumes.ggswValue h)
    (GadBytes.uniq hw ggsw_baseFirst GLevsTail.unique) ?_
  rintro _ x ⟨_, _, _, ⟨m, k, _, h0, h1, _, _, h2, hmk, hg, h3, _⟩, _⟩
  subst hmk
  exact C24_ggsw hw hv hm hg h0 h1 h2 h3

theorem C73_glweKeySwitchKey (hw : w ≤ 64) (hm : mem < 2 ^ 63) :
    WritesBack (fixBase w) (glweKSKWriteTo (w := w)) glweKSKByteSize (glweKSKReadFrom mem) := by
  have hc : Consumes (glweKSKHeaderRead (w := w) mem) (GLevsHeader glweKSKHd (fun _ _ => True) mem) := by
    refine Consumes.readU64.bind fun b base hb => Consumes.readU64.bind fun b' level hb' =>
      Consumes.readU64.bind fun b'' mf hb'' => Consumes.readU64.bind fun b3 kf hb3 =>
      Consumes.readU64.bind fun b4 Nf hb4 => (Consumes.lift _).mono ?_
    rintro b5 x ⟨rfl, hx⟩ hr
    obtain ⟨g, hg, hx⟩ := Option.bind_eq_some_iff.1 hx
    obtain ⟨h1, h2, h3, h4⟩ := compile_inv hg
    obtain ⟨l, hl1, rfl⟩ := Option.map_eq_some_iff.1 hx
    obtain ⟨h5, m, k, N, h6, h7, h8, h9, h10, rfl, rfl, rfl, h11⟩ := makeGLevs_inv hm h3 h4 hl1 hr
    exact ⟨base, g, m, k, N, h6, h7, h8, h9, h10, trivial, ⟨⟨_, hg⟩, h5⟩, h1,
      by rw [hb, hb', hb'', hb3, hb4, h2, List.append_nil]; rfl, h11⟩
  refine writesBack_of (Consumes.bind hc fun _ _ h => Consumes.ggswValue h) (GadBytes.uniq hw glweKSK_baseFirst GLevsTail.unique) ?_
  rintro _ x ⟨_, _, _, ⟨m, k, _, h0, h1, h4, h5, h2, -, hg, h3, _⟩, _⟩
  exact C24_glweKeySwitchKey hw hm hg h0 h1 h4 h5 h2 h3

theorem Consumes.uni (hm : mem < 2 ^ 63) : Consumes (uniReadFrom (w := w) (v := v) mem)
    (GadBytes (·.gadget) (GLevsTail uniHd (fun m k => m = 2 ∧ k = 2) mem)) := by
  have hc : Consumes (uniHeaderRead (w := w) (v := v) mem) (GLevsHeader uniHd (fun m k => m = 2 ∧ k = 2) mem) := by
    refine Consumes.readU64.bind fun b base hb => Consumes.readU64.bind fun b' level hb' =>
      Consumes.readU64.bind fun b'' Nf hb'' => (Consumes.lift _).mono ?_
    rintro b5 x ⟨rfl, hx⟩ hr
    obtain ⟨g, hg, hx⟩ := Option.bind_eq_some_iff.1 hx
    obtain ⟨h1, h2, h3, h4⟩ := compile_inv hg
    obtain ⟨l, hl1, rfl⟩ := Option.map_eq_some_iff.1 hx
    obtain ⟨-, h5, k, N, h8, h9, h10, e, rfl, h11⟩ := fillGLevs_inv hm h3 h4 hl1 hr
    have hk : k = 2 := by
      refine ofNat_inj_of_lt (by omega) (by omega) ?_
      have : BitVec.ofNat 64 k - 1 + 1 = (1 : BitVec 64) + 1 := by rw [← e]
      rw [BitVec.sub_add_cancel] at this
      rw [this]
      decide
    subst hk
    exact ⟨base, g, 2, 2, N, by norm_num, h9, by norm_num, h9, h10, ⟨rfl, rfl⟩, ⟨⟨_, hg⟩, h5⟩, h1,
      by rw [hb, hb', hb'', h2, List.append_nil]; rfl, h11⟩
  exact Consumes.bind hc fun _ _ h => Consumes.ggswValue h

/-- `UniEncryption` at `v = w`, `FFTUniEncryption` at `v = 64`. -/
theorem C73_uniEncryption (hw : w ≤ 64) (hv : 8 ∣ v) (hm : mem < 2 ^ 63) :
    WritesBack (fixBase w) (uniWriteTo (w := w) (v := v)) uniByteSize (uniReadFrom mem) := by
  refine writesBack_of (Consumes.uni hm) (GadBytes.uniq hw uni_baseFirst GLevsTail.unique) ?_
  rintro _ x ⟨_, _, _, ⟨m, k, _, h0, h1, h4, h5, h2, ⟨rfl, rfl⟩, hg, h3, _⟩, _⟩
  exact C24_uniEncryption hw hv hm h5 hg h2 h3

/-- The bytes of a blind rotation key after the base. -/
def BRKTail (mem : ℕ) (x : BRK w) (t : Bytes) : Prop :=
  ∃ n k N, 0 < n ∧ n ≤ mem ∧ 0 < k ∧ k ≤ mem ∧ RankOK mem N ∧ Compiled mem x.gadget ∧ IsBRKShape x.gadget n k N x ∧
    t = glweKSKHd x.gadget n k N ++ encBRK x

theorem BRKTail.unique (x : BRK w) (t t' : Bytes) (h : BRKTail mem x t) (h' : BRKTail mem x t') : t = t' := by
  obtain ⟨m, k, N, h0, -, hk, -, -, hg, h1, rfl⟩ := h
  obtain ⟨m', k', N', h0', -, hk', -, -, -, h2, rfl⟩ := h'
  have e1 : m = m' := h1.length.symm.trans h2.length
  subst e1
  obtain ⟨gg, hr, hs⟩ := brk_head h0 h1
  obtain ⟨gg', hr', hs'⟩ := brk_head h0 h2
  rw [hr] at hr'
  cases hr'
  have e2 : k = k' := hs.length.symm.trans hs'.length
  subst e2
  have := (GGSW.rank_eq hs hk hg.pos hk).symm.trans (GGSW.rank_eq hs' hk hg.pos hk)
  cases this
  rfl

theorem Consumes.brk (hm : mem < 2 ^ 63) :
    Consumes (brkReadFrom (w := w) mem) (GadBytes (·.gadget) (BRKTail mem)) := by
  refine Consumes.bind (P := fun b x => (BRK.rank x).isSome → ∃ (base : BitVec 64) (g : GadgetParams w) (n k N : ℕ),
      0 < n ∧ n ≤ mem ∧ 0 < k ∧ k ≤ mem ∧ RankOK mem N ∧ Compiled mem g ∧ g.base = base.setWidth w ∧
      b = putU64 base ++ glweKSKHd g n k N ∧ x = ⟨g, List.replicate n (zeroGLevs 64 g k k N)⟩) ?_ ?_
  · refine Consumes.readU64.bind fun b base hb => Consumes.readU64.bind fun b' level hb' =>
      Consumes.readU64.bind fun b'' nf hb'' => Consumes.readU64.bind fun b3 kf hb3 =>
      Consumes.readU64.bind fun b4 Nf hb4 => (Consumes.lift _).mono ?_
    rintro b5 x ⟨rfl, hx⟩ hr
    obtain ⟨g, hg, hx⟩ := Option.bind_eq_some_iff.1 hx
    obtain ⟨h1, h2, h3, h4⟩ := compile_inv hg
    obtain ⟨l, hl1, rfl⟩ := Option.map_eq_some_iff.1 hx
    obtain ⟨n, hn, rfl, ⟨-, rfl⟩ | ⟨p, hp, rfl⟩⟩ := makeEach_inv hl1
    · cases hr
    · have hn0 : 0 < n := by
        rcases Nat.eq_zero_or_pos n with rfl | h0
        · cases hr
        · exact h0
      have hr' : (GGSW.rank p).isSome := by
        obtain ⟨j, rfl⟩ : ∃ j, n = j + 1 := ⟨n - 1, by omega⟩
        simpa [BRK.rank, List.replicate_succ] using hr
      obtain ⟨h5, k, N, h6, h7, h8, rfl, rfl, rfl⟩ := newGGSW_inv hm h3 h4 hp hr'
      exact ⟨base, g, n, k, N, hn0, hn, h6, h7, h8, ⟨⟨_, hg⟩, h5⟩, h1,
        by rw [hb, hb', hb'', hb3, hb4, h2, List.append_nil]; rfl, rfl⟩
  · intro b x h
    refine Consumes.lift_bind fun N' hN' => ?_
    obtain ⟨base, g, n, k, N, h0, h1, h2, h3, h4, hg, hb, rfl, rfl⟩ := h (by rw [hN']; rfl)
    have hz : BRK.rank (⟨g, List.replicate n (zeroGLevs 64 g k k N)⟩ : BRK w) = some N :=
      BRK.rank_eq (g := g) (n := n) (k := k) ⟨rfl, by simp, fun y hy => by
        rw [List.eq_of_mem_replicate hy]; exact zeroGLevs_shape g k k N⟩ h0 hg.pos h2
    rw [hz] at hN'
    cases hN'
    refine ((Consumes.readEach (Consumes.glevs g (by simp)) n).map _).mono ?_
    rintro b x ⟨y, rfl, h5, h6, rfl⟩
    exact ⟨base, _, hb, ⟨n, k, _, h0, h1, h2, h3, h4, hg, ⟨rfl, h5, h6⟩, rfl⟩, by simp [encBRK]⟩

theorem C73_blindRotateKey (hw : w ≤ 64) (hm : mem < 2 ^ 63) :
    WritesBack (fixBase w) (brkWriteTo (w := w)) brkByteSize (brkReadFrom mem) :=
  writesBack_of (Consumes.brk hm) (GadBytes.uniq hw brk_baseFirst BRKTail.unique)
    fun _ _ ⟨_, _, _, ⟨_, _, _, h0, h1, h2, h3, h4, hg, h5, _⟩, _⟩ => C24_blindRotateKey hw hm hg h0 h1 h2 h3 h4 h5

end Tfhe.Ser

namespace Tfhe.Ser

variable {w v mem : ℕ} {α β : Type}

/-! ## Secret keys -/

theorem ofNat_toInt_nonneg {a : ℕ} (ha : a < 2 ^ 64) (h : 0 ≤ (BitVec.ofNat 64 a).toInt) :
    (BitVec.ofNat 64 a).toInt = a := by
  rw [BitVec.toInt_eq_toNat_cond, BitVec.toNat_ofNat, Nat.mod_eq_of_lt ha] at h ⊢
  split_ifs at h ⊢ <;> omega

theorem newSecretKey_inv (hm : mem < 2 ^ 63) {nf kf Nf : BitVec 64} {x : SecKey w}
    (h : newSecretKey mem nf kf Nf = some x) (hne : x.fft ≠ []) :
    ∃ n k N, 0 < k ∧ RankOK mem N ∧ k * N ≤ mem ∧ n ≤ k * N ∧ nf = BitVec.ofNat 64 n ∧ kf = BitVec.ofNat 64 k ∧
      Nf = BitVec.ofNat 64 N ∧
      x = ⟨n, k, N, List.replicate (k * N) 0, List.replicate k (List.replicate N 0)⟩ := by
  unfold newSecretKey at h
  obtain ⟨large, hlarge, h⟩ := Option.bind_eq_some_iff.1 h
  obtain ⟨polys, hpolys, h⟩ := Option.bind_eq_some_iff.1 h
  obtain ⟨L, hL, hkN, rfl⟩ := mkSlice_inv hlarge
  obtain ⟨k, hk, rfl, rfl⟩ := mkSlice_inv hpolys
  split at h
  · rename_i hall
    obtain ⟨fft, hfft, h⟩ := Option.bind_eq_some_iff.1 h
    split at h
    · cases h
    · rename_i hn
      cases h
      obtain ⟨k', hk', e, ⟨-, rfl⟩ | ⟨p, hp, rfl⟩⟩ := makeEach_inv hfft
      · exact absurd rfl hne
      · have ek : k = k' := ofNat_inj_of_lt (by omega) (by omega) e
        subst ek
        have hk0 : 0 < k := by
          rcases Nat.eq_zero_or_pos k with rfl | h0
          · exact absurd rfl hne
          · exact h0
        obtain ⟨N, hN, rfl, rfl⟩ := newPoly_inv hp
        have hNm := hN.le
        have hmul : ∀ a, BitVec.ofNat 64 a * BitVec.ofNat 64 N = BitVec.ofNat 64 (a * N) := fun a =>
          (BitVec.ofNat_mul _ _).symm
        have hsucc : ∀ a, BitVec.ofNat 64 a + 1 = BitVec.ofNat 64 (a + 1) := fun a => by
          rw [BitVec.ofNat_add]; rfl
        rw [List.all_eq_true] at hall
        have hle : ∀ i ≤ k, i * N ≤ L := by
          intro i
          induction i with
          | zero => simp
          | succ i ih =>
            intro hi
            have h1 := ih (by omega)
            have h2 := hall i (by simp; omega)
            rw [hsucc, hmul, hmul] at h2
            simp only [Bool.and_eq_true, decide_eq_true_eq, List.length_replicate] at h2
            have h3 : (i + 1) * N = i * N + N := by ring
            have h4 := ofNat_toInt_nonneg (a := (i + 1) * N) (by omega) (by omega)
            omega
        have hkL := hle k le_rfl
        rw [hmul] at hkN
        have hL' : k * N = L := ofNat_inj_of_lt (by omega) (by omega) hkN
        subst hL'
        rw [List.length_replicate] at hn
        push Not at hn
        have h5 : nf.toInt = nf.toNat := by
          have := nf.isLt
          rw [BitVec.toInt_eq_toNat_cond] at hn ⊢
          split_ifs at hn ⊢ <;> omega
        refine ⟨nf.toNat, k, N, hk0, hN, hL, by omega, by simp, rfl, rfl, ?_⟩
        rw [List.length_replicate, BitVec.toNat_ofNat, Nat.mod_eq_of_lt (by omega)]
  · cases h

theorem C73_secretKey (hw8 : 8 ∣ w) (hm : mem < 2 ^ 63) :
    WritesBack id (skWriteTo (w := w)) skByteSize (skReadFrom mem) := by
  refine writesBack_of (P := fun b x => ∃ n k N, IsSKShape mem n k N x ∧
    b = putLen n ++ (putLen k ++ putLen N) ++ (vecWriteTo x.large ++ encPolys x.fft)) ?_ ?_
    fun _ _ ⟨_, _, _, h, _⟩ => C24_secretKey hw8 hm h
  · refine Consumes.bind (P := fun b x => x.fft ≠ [] → ∃ n k N, 0 < k ∧ RankOK mem N ∧ k * N ≤ mem ∧ n ≤ k * N ∧
      b = putLen n ++ (putLen k ++ putLen N) ∧
      x = ⟨n, k, N, List.replicate (k * N) 0, List.replicate k (List.replicate N 0)⟩) ?_ ?_
    · refine Consumes.readU64.bind fun b nf hb => Consumes.readU64.bind fun b' kf hb' =>
        Consumes.readU64.bind fun b'' Nf hb'' => (Consumes.lift _).mono ?_
      rintro b3 x ⟨rfl, hx⟩ hne
      obtain ⟨n, k, N, h1, h2, h3, h4, rfl, rfl, rfl, rfl⟩ := newSecretKey_inv hm hx hne
      exact ⟨n, k, N, h1, h2, h3, h4, by rw [hb, hb', hb'', List.append_nil]; rfl, rfl⟩
    · intro b x h
      by_cases hx : x.fft = []
      · have : ∀ (s : Bytes) (l : List (BitVec w)),
            ((polysValueRead x.fft).map fun fft => ({ x with large := l, fft := fft } : SecKey w)) s = .panic := by
          intro s l
          rw [hx]
          rfl
        intro s n y rest e
        exfalso
        unfold Reader.bind at e
        cases e1 : vecReadFrom x.large s with
        | ok m a r => rw [e1] at e; simp only [this] at e; cases e
        | err m => rw [e1] at e; cases e
        | panic => rw [e1] at e; cases e
      · obtain ⟨n, k, N, h1, h2, h3, h4, rfl, rfl⟩ := h hx
        refine (Consumes.vecReadFrom (k * N) 0).bind ?_
        rintro b large ⟨h5, rfl⟩
        have hp : Consumes (polysValueRead (List.replicate k (List.replicate N (0 : BitVec 64))))
            fun b y => Polys k N y ∧ b = encPolys y := by
          refine Consumes.lift_bind fun N' hN' => ?_
          rw [rank0_replicate h1] at hN'
          cases hN'
          exact Consumes.polys rfl
        refine (hp.map _).mono ?_
        rintro b y ⟨fft, rfl, h6, rfl⟩
        exact ⟨n, k, N, ⟨rfl, rfl, rfl, h5, h6, h1, h2, h3, h4⟩, by simp⟩
  · rintro b b' x ⟨n, k, N, h, rfl⟩ ⟨n', k', N', h', rfl⟩
    have e1 : n = n' := h.dim.symm.trans h'.dim
    have e2 : k = k' := h.rank.symm.trans h'.rank
    have e3 : N = N' := h.poly.symm.trans h'.poly
    subst e1 e2 e3
    exact ⟨rfl, fun _ => rfl⟩

/-! ## Evaluation keys -/

theorem bind_ok {r : Reader α} {f : α → Reader β} {s rest : Bytes} {n : ℕ} {c : β} (h : r.bind f s = .ok n c rest) :
    ∃ n1 a r1 n2, r s = .ok n1 a r1 ∧ f a r1 = .ok n2 c rest ∧ n = n1 + n2 := by
  unfold Reader.bind at h
  cases e1 : r s with
  | ok n1 a r1 =>
    rw [e1] at h
    simp only at h
    cases e2 : f a r1 with
    | ok n2 c2 r2 =>
      rw [e2] at h
      cases h
      exact ⟨n1, a, r1, n2, rfl, e2, rfl⟩
    | err m => rw [e2] at h; cases h
    | panic => rw [e2] at h; cases h
  | err m => rw [e1] at h; cases h
  | panic => rw [e1] at h; cases h

theorem map_ok {r : Reader α} {f : α → β} {s rest : Bytes} {n : ℕ} {c : β} (h : r.map f s = .ok n c rest) :
    ∃ a, r s = .ok n a rest ∧ c = f a := by
  obtain ⟨n1, a, r1, n2, h1, h2, rfl⟩ := bind_ok h
  cases h2
  exact ⟨a, h1, rfl⟩

/-- The key-switching key, or the gadget parameters in its place. -/
theorem evkRest_back (hw8 : 8 ∣ w) (hw : w ≤ 64) (hm : mem < 2 ^ 63) (flag : BitVec 8) (brk : BRK w) (s : Bytes)
    (n : ℕ) (x : EvalKey w) (rest : Bytes)
    (e : (if flag = 0 then gadgetReadFrom.bind fun g => (Reader.lift (newLWEKSK mem 0 0 g)).map fun ksk =>
        (⟨brk, ksk⟩ : EvalKey w) else (lweKSKReadFrom mem).map fun ksk => ⟨brk, ksk⟩) s = .ok n x rest) :
    x.brk = brk ∧ (0 < x.ksk.value.length ↔ flag ≠ 0) ∧ ∃ b, b.length = n ∧ n ≤ s.length ∧ rest = s.drop n ∧
      b = fixBase w (s.take n) ∧
      (if flag = 0 then gadgetWriteTo x.ksk.gadget = some ⟨b, false⟩ ∧ n = 16
        else lweKSKWriteTo x.ksk = some ⟨b, false⟩ ∧ lweKSKByteSize x.ksk = some n) := by
  by_cases h0 : flag = 0
  · rw [if_pos h0] at e
    obtain ⟨n1, g, r1, n2, e1, e2, rfl⟩ := bind_ok e
    obtain ⟨ksk, e3, rfl⟩ := map_ok e2
    obtain ⟨b, h1, h2, h3, h4, rfl, h6⟩ := C73_gadgetParameters hw _ _ _ _ e1
    have hz : newLWEKSK mem 0 0 g = some ⟨g, []⟩ := by
      rw [newLWEKSK, show (0 : BitVec 64) = BitVec.ofNat 64 0 by rfl, makeEach,
        mkSlice_ofNat hm (Nat.zero_le _)]
      rfl
    rw [hz] at e3
    cases e3
    cases h3
    refine ⟨rfl, by simp [h0], b, h2, h4, rfl, h6, ?_⟩
    rw [if_pos h0]
    exact ⟨h1, rfl⟩
  · rw [if_neg h0] at e
    obtain ⟨ksk, e3, rfl⟩ := map_ok e
    obtain ⟨b, h1, h2, h3, h4, rfl, h6⟩ := C73_lweKeySwitchKey hw8 hw hm _ _ _ _ e3
    obtain ⟨_, -, -, _, _, -, ⟨m, _, hm0, -, -, -, -, hs, -⟩, -⟩ := Consumes.lweKSK hm _ _ _ _ e3
    refine ⟨rfl, ⟨fun _ => h0, fun _ => hs.length ▸ hm0⟩, b, h2, h4, rfl, h6, ?_⟩
    rw [if_neg h0]
    exact ⟨h1, h3⟩

/-- The first byte is a flag, `p` the blind rotation key and `q` the key-switching key or gadget parameters.
Missing: a flag other than 0 is written as 1 (`C73_flag_false`). -/
theorem C73_evaluationKey_partial (hw8 : 8 ∣ w) (hw : w ≤ 64) (hm : mem < 2 ^ 63) (s : Bytes) (n : ℕ) (x : EvalKey w)
    (rest : Bytes) (e : evkReadFrom mem s = .ok n x rest) :
    ∃ flag p q b, s = flag :: (p ++ q) ++ rest ∧ n = (flag :: (p ++ q)).length ∧ evkByteSize x = some n ∧
      evkWriteTo x = some ⟨b, false⟩ ∧ b = (if flag = 0 then 0 else 1) :: (fixBase w p ++ fixBase w q) ∧
      b.length = n ∧ brkWriteTo x.brk = some ⟨fixBase w p, false⟩ := by
  obtain ⟨n1, l, r1, n2, e1, e2, rfl⟩ := bind_ok e
  obtain ⟨n3, flag, r2, n4, e3, e4, rfl⟩ := bind_ok e2
  obtain ⟨n5, brk, r3, n6, e5, e6, rfl⟩ := bind_ok e4
  obtain ⟨b1, h1, h2, h3, h4, h5, h6⟩ := C73_blindRotateKey hw hm _ _ _ _ e5
  obtain ⟨rfl, hpos, b2, k1, k2, k3, k4, k5⟩ := evkRest_back hw8 hw hm flag brk _ _ _ _ e6
  have hs : ∃ t, s = flag :: t ∧ r2 = t ∧ n1 = 1 ∧ n3 = 0 := by
    unfold readFull at e1
    split at e1
    · cases e1
      cases s with
      | nil => simp at *
      | cons a t =>
        simp only [List.take_succ_cons, List.take_zero, List.head?_cons] at e3
        cases e3
        exact ⟨t, rfl, rfl, rfl, rfl⟩
    · cases e1
  obtain ⟨t, rfl, rfl, rfl, rfl⟩ := hs
  subst h5
  have hq : n6 ≤ (r2.drop n5).length := k2
  have hp : (r2.take n5).length = n5 := by rw [List.length_take]; omega
  have hq' : ((r2.drop n5).take n6).length = n6 := by rw [List.length_take]; omega
  refine ⟨flag, r2.take n5, (r2.drop n5).take n6, (if flag = 0 then 0 else 1) :: (b1 ++ b2), ?_, ?_, ?_, ?_,
    by rw [h6, k4], ?_, h6 ▸ h1⟩
  · rw [k3, List.cons_append, List.append_assoc, List.take_append_drop, List.take_append_drop]
  · rw [List.length_cons, List.length_append, hp, hq']; omega
  all_goals by_cases h0 : flag = 0
  · have hv : ¬ 0 < x.ksk.value.length := fun h => hpos.1 h h0
    rw [if_pos h0] at k5
    rw [evkByteSize, h3, Option.bind_some, if_neg hv, k5.2]
    simp only [Option.some.injEq]
    omega
  · have hv : 0 < x.ksk.value.length := hpos.2 h0
    rw [if_neg h0] at k5
    rw [evkByteSize, h3, Option.bind_some, if_pos hv, k5.2]
    simp only [Option.some.injEq, Option.map_some]
    omega
  · have hv : ¬ 0 < x.ksk.value.length := fun h => hpos.1 h h0
    rw [if_pos h0] at k5 ⊢
    obtain ⟨k5, rfl⟩ := k5
    have hsz : evkByteSize x = some ([0] ++ (b1 ++ b2) : Bytes).length := by
      rw [evkByteSize, h3, Option.bind_some, if_neg hv]
      simp [h2, k1]
      omega
    unfold evkWriteTo
    rw [if_neg hv]
    exact check_eq (andThen_eq rfl (andThen_eq h1 (by rw [if_pos rfl]; exact k5))) hsz
  · have hv : 0 < x.ksk.value.length := hpos.2 h0
    rw [if_neg h0] at k5 ⊢
    obtain ⟨k5, k6⟩ := k5
    have hsz : evkByteSize x = some ([1] ++ (b1 ++ b2) : Bytes).length := by
      rw [evkByteSize, h3, Option.bind_some, if_pos hv, k6]
      simp [h2, k1]
      omega
    unfold evkWriteTo
    rw [if_pos hv]
    exact check_eq (andThen_eq rfl (andThen_eq h1 (by rw [if_neg (by decide)]; exact k5))) hsz
  all_goals
    rw [List.length_cons, List.length_append, h2, k1]; omega

/-- The three parts of a multi-key evaluation key, one after another. -/
def mkEvkParts (mem : ℕ) : Reader (MKEvalKey w) :=
  (evkReadFrom mem).bind fun a => (glevReadFrom mem).bind fun b => (uniReadFrom mem).map fun c => ⟨a, b, c⟩

/-- What is written for a multi-key evaluation key that was read from `s`. -/
def MkEvkBack (s : Bytes) (n : ℕ) (x : MKEvalKey w) (rest : Bytes) : Prop :=
  ∃ flag p q c r b, s = flag :: (p ++ q ++ c ++ r) ++ rest ∧ n = (flag :: (p ++ q ++ c ++ r)).length ∧
    mkEvkByteSize x = some n ∧ mkEvkWriteTo x = some ⟨b, false⟩ ∧
    b = (if flag = 0 then 0 else 1) :: (fixBase w p ++ fixBase w q ++ fixBase w c ++ fixBase w r) ∧ b.length = n ∧
    brkWriteTo x.evk.brk = some ⟨fixBase w p, false⟩ ∧ glevWriteTo x.crs = some ⟨fixBase w c, false⟩ ∧
    uniWriteTo x.relin = some ⟨fixBase w r, false⟩

theorem mkEvkParts_back (hw8 : 8 ∣ w) (hw : w ≤ 64) (hm : mem < 2 ^ 63) (s : Bytes) (n : ℕ) (x : MKEvalKey w)
    (rest : Bytes) (e : mkEvkParts mem s = .ok n x rest) : MkEvkBack s n x rest := by
  obtain ⟨n1, evk, r1, n2, e1, e2, rfl⟩ := bind_ok e
  obtain ⟨n3, crs, r2, n4, e3, e4, rfl⟩ := bind_ok e2
  obtain ⟨relin, e5, rfl⟩ := map_ok e4
  obtain ⟨flag, p, q, b1, rfl, a2, a3, a4, rfl, a6, a7⟩ := C73_evaluationKey_partial hw8 hw hm _ _ _ _ e1
  obtain ⟨b2, c1, c2, c3, c4, rfl, rfl⟩ := C73_glev hw (by norm_num) hm _ _ _ _ e3
  obtain ⟨b3, d1, d2, d3, d4, rfl, rfl⟩ := C73_uniEncryption hw (by norm_num) hm _ _ _ _ e5
  have hl1 : (r1.take n3).length = n3 := by rw [List.length_take]; omega
  have hl2 : ((r1.drop n3).take n4).length = n4 := by rw [List.length_take]; omega
  have hsz : mkEvkByteSize (⟨evk, crs, relin⟩ : MKEvalKey w) = some (n1 + (n3 + n4)) := by
    rw [mkEvkByteSize, a3, Option.bind_some, c3, Option.bind_some, d3]
    simp [add_assoc]
  have hb : ((if flag = 0 then 0 else 1) :: (fixBase w p ++ fixBase w q) ++ (fixBase w (r1.take n3) ++
      fixBase w ((r1.drop n3).take n4)) : Bytes).length = n1 + (n3 + n4) := by
    rw [List.length_append, List.length_append, a6, c2, d2]
  refine ⟨flag, p, q, r1.take n3, (r1.drop n3).take n4, _, ?_, ?_, hsz,
    check_eq (andThen_eq a4 (andThen_eq c1 d1)) (hsz.trans (congrArg some hb.symm)), by simp, hb, a7, c1, d1⟩
  · simp
  · rw [a2]
    simp only [List.length_cons, List.length_append, hl1, hl2]
    omega

/-- The comparison of the count with `ByteSize` at the end of `mktfhe.EvaluationKey.ReadFrom` never fails. -/
theorem mkEvkReadFrom_eq (hw8 : 8 ∣ w) (hw : w ≤ 64) (hm : mem < 2 ^ 63) :
    mkEvkReadFrom (w := w) mem = mkEvkParts mem := by
  funext s
  have key : mkEvkReadFrom (w := w) mem s = match mkEvkParts mem s with
    | .ok n x rest =>
      match mkEvkByteSize x with
      | some sz => if n < sz then .err n else .ok n x rest
      | none => .panic
    | .err n => .err n
    | .panic => .panic := rfl
  rw [key]
  cases e : mkEvkParts (w := w) mem s with
  | ok n x rest =>
    obtain ⟨_, _, _, _, _, _, -, -, h, -⟩ := mkEvkParts_back hw8 hw hm _ _ _ _ e
    simp [h]
  | err n => rfl
  | panic => rfl

/-- Missing: as for `EvaluationKey`. -/
theorem C73_mkEvaluationKey_partial (hw8 : 8 ∣ w) (hw : w ≤ 64) (hm : mem < 2 ^ 63) (s : Bytes) (n : ℕ)
    (x : MKEvalKey w) (rest : Bytes) (e : mkEvkReadFrom mem s = .ok n x rest) : MkEvkBack s n x rest := by
  rw [mkEvkReadFrom_eq hw8 hw hm] at e
  exact mkEvkParts_back hw8 hw hm s n x rest e

/-- The count and what is left in the stream, as for the other types. -/
theorem C70_read_mkEvaluationKey (hw8 : 8 ∣ w) (hw : w ≤ 64) (hm : mem < 2 ^ 63) :
    ReadsCounted (mkEvkReadFrom (w := w) mem) := by
  rw [mkEvkReadFrom_eq hw8 hw hm]
  exact C70_read_evaluationKey.bind fun _ => C70_read_glev.bind fun _ => C70_read_uniEncryption.map _

/-- The bytes begin with gadget parameters and dimensions of a possible `FFTGLevCiphertext`. -/
def GLevHeader (w mem : ℕ) (s : Bytes) : Prop :=
  ∃ (g : GadgetParams w) (k N : ℕ), 0 < k ∧ k ≤ mem ∧ RankOK mem N ∧
    GadgetLit.compile { base := (field s 0).setWidth w, level := field s 1 } = some g ∧
    g.level ≤ mem ∧ field s 2 = BitVec.ofNat 64 k - 1 ∧ field s 3 = BitVec.ofNat 64 N

/-- The bytes begin with gadget parameters and the rank of a possible `FFTUniEncryption`. -/
def UniHeader (w mem : ℕ) (s : Bytes) : Prop :=
  ∃ (g : GadgetParams w) (N : ℕ), RankOK mem N ∧
    GadgetLit.compile { base := (field s 0).setWidth w, level := field s 1 } = some g ∧
    g.level ≤ mem ∧ field s 2 = BitVec.ofNat 64 N

/-- `mktfhe.EvaluationKey`: the headers are those of possible keys, each where reading the part before it ended. -/
theorem C27_mkEvaluationKey_partial (hw8 : 8 ∣ w) (hw : w ≤ 64) (hm : mem < 2 ^ 63) (h2m : 2 ≤ mem) (flag : BitVec 8)
    (s : Bytes) (h1 : BRKHeader w mem s)
    (h2 : ∀ n x rest, brkReadFrom (w := w) mem s = .ok n x rest →
      if flag = 0 then GadgetHeader w (s.drop n) else KSKHeader w mem (s.drop n))
    (h3 : ∀ n x rest, evkReadFrom (w := w) mem (flag :: s) = .ok n x rest → GLevHeader w mem ((flag :: s).drop n) ∧
      ∀ n' x' rest', glevReadFrom (w := w) (v := 64) mem ((flag :: s).drop n) = .ok n' x' rest' →
        UniHeader w mem (((flag :: s).drop n).drop n')) :
    NoPanic (mkEvkReadFrom (w := w) mem) (flag :: s) := by
  rw [mkEvkReadFrom_eq hw8 hw hm]
  refine noPanic_then (C27_evaluationKey_partial hm flag s h1 h2) C70_read_evaluationKey fun n x rest e => ?_
  obtain ⟨⟨g, k, N, a1, a2, a3, a4, a5, a6, a7⟩, h4⟩ := h3 n x rest e
  refine noPanic_then (C27_glev_partial hm _ g k N a1 a2 a3 a4 a5 a6 a7) C70_read_glev fun n' x' rest' e' => ?_
  obtain ⟨g', N', c1, c2, c3, c4⟩ := h4 n' x' rest' e'
  exact noPanic_map_at _ (C27_uniEncryption_partial hm h2m _ g' N' c1 c2 c3 c4)

/-- A complete evaluation key and the header of a common reference string, then the end. -/
example : NoPanic (mkEvkReadFrom (w := 64) 100) (0 :: (putLen 4 ++ putLen 1 ++ putLen 1 ++ putLen 0 ++ putLen 16 ++
    List.replicate 128 9 ++ putLen 8 ++ putLen 3 ++ (putLen 4 ++ putLen 1 ++ putLen 1 ++ putLen 16 ++ [5]))) := by
  have e : evkReadFrom (w := 64) 100 (0 :: (putLen 4 ++ putLen 1 ++ putLen 1 ++ putLen 0 ++ putLen 16 ++
      List.replicate 128 9 ++ putLen 8 ++ putLen 3 ++ (putLen 4 ++ putLen 1 ++ putLen 1 ++ putLen 16 ++ [5]))) =
      .ok 185 ⟨⟨⟨4, 2, 1⟩, [⟨⟨4, 2, 1⟩, [⟨⟨4, 2, 1⟩, [[List.replicate 16 0x0909090909090909]]⟩]⟩]⟩, ⟨⟨8, 3, 3⟩, []⟩⟩
        (putLen 4 ++ putLen 1 ++ putLen 1 ++ putLen 16 ++ [5]) := by decide +kernel
  have e1 : brkReadFrom (w := 64) 100 (putLen 4 ++ putLen 1 ++ putLen 1 ++ putLen 0 ++ putLen 16 ++
      List.replicate 128 9 ++ putLen 8 ++ putLen 3 ++ (putLen 4 ++ putLen 1 ++ putLen 1 ++ putLen 16 ++ [5])) =
      .ok 168 ⟨⟨4, 2, 1⟩, [⟨⟨4, 2, 1⟩, [⟨⟨4, 2, 1⟩, [[List.replicate 16 0x0909090909090909]]⟩]⟩]⟩
        (putLen 8 ++ putLen 3 ++ (putLen 4 ++ putLen 1 ++ putLen 1 ++ putLen 16 ++ [5])) := by decide +kernel
  refine C27_mkEvaluationKey_partial (by norm_num) (by norm_num) (by norm_num) (by norm_num) 0 _
    ⟨⟨4, 2, 1⟩, 1, 1, 16, by norm_num, by norm_num, by norm_num, by norm_num, ⟨⟨4, rfl⟩, by norm_num, by norm_num⟩,
      by decide +kernel, by decide +kernel, by decide +kernel, by decide +kernel, by decide +kernel⟩ ?_ ?_
  · intro n x rest h
    rw [e1] at h
    cases h
    simp only [if_true]
    unfold GadgetHeader
    decide +kernel
  · intro n x rest h
    rw [e] at h
    cases h
    refine ⟨⟨⟨4, 2, 1⟩, 2, 16, by norm_num, by norm_num, ⟨⟨4, rfl⟩, by norm_num, by norm_num⟩,
      by decide +kernel, by decide +kernel, by decide +kernel, by decide +kernel⟩, ?_⟩
    intro n' x' rest' h'
    exfalso
    have : glevReadFrom (w := 64) (v := 64) 100 (putLen 4 ++ putLen 1 ++ putLen 1 ++ putLen 16 ++ [5]) = .err 33 := by
      decide +kernel
    rw [show (List.drop 185 (0 :: (putLen 4 ++ putLen 1 ++ putLen 1 ++ putLen 0 ++ putLen 16 ++
      List.replicate 128 9 ++ putLen 8 ++ putLen 3 ++ (putLen 4 ++ putLen 1 ++ putLen 1 ++ putLen 16 ++ [5]))) : Bytes) =
        putLen 4 ++ putLen 1 ++ putLen 1 ++ putLen 16 ++ [5] by decide +kernel, this] at h'
    cases h'

/-! ## Parameters -/

/-- The twelve fields and the last byte of the encoding of `Parameters`. -/
structure RawParams where
  lweDimension : BitVec 64
  glweRank : BitVec 64
  polyRank : BitVec 64
  lutSize : BitVec 64
  lweStdDev : BitVec 64
  glweStdDev : BitVec 64
  blockSize : BitVec 64
  messageModulus : BitVec 64
  brBase : BitVec 64
  brLevel : BitVec 64
  ksBase : BitVec 64
  ksLevel : BitVec 64
  order : BitVec 8

/-- The encoding of the fields. -/
def RawParams.bytes (r : RawParams) : Bytes :=
  ([r.lweDimension, r.glweRank, r.polyRank, r.lutSize, r.lweStdDev, r.glweStdDev, r.blockSize, r.messageModulus,
    r.brBase, r.brLevel, r.ksBase, r.ksLevel].flatMap putU64) ++ [r.order]

/-- A number modulo `2 ^ w`. -/
def trunc (w : ℕ) (x : BitVec 64) : BitVec 64 := BitVec.ofNat 64 (x.toNat % 2 ^ w)

/-- The defaults of `Compile` in place of zeros; message modulus and bases modulo `2 ^ w`. -/
def RawParams.fix (w : ℕ) (r : RawParams) : RawParams :=
  { r with
    lutSize := if r.lutSize = 0 then r.polyRank else r.lutSize
    blockSize := if r.blockSize = 0 then 1 else r.blockSize
    messageModulus := trunc w r.messageModulus
    brBase := trunc w r.brBase
    ksBase := trunc w r.ksBase }

theorem trunc_eq (x : BitVec 64) : (x.setWidth w).setWidth 64 = trunc w x := by
  apply BitVec.eq_of_toNat_eq
  rw [trunc, BitVec.toNat_ofNat, BitVec.toNat_setWidth, BitVec.toNat_setWidth]

theorem Consumes.gadget : Consumes (gadgetReadFrom (w := w)) fun b g => ∃ base level : BitVec 64,
    b = putU64 base ++ putU64 level ∧ GadgetLit.compile { base := base.setWidth w, level := level } = some g := by
  refine Consumes.readU64.bind fun b base hb => Consumes.readU64.bind fun b' level hb' => (Consumes.lift _).mono ?_
  rintro b'' g ⟨rfl, hg⟩
  exact ⟨base, level, by rw [hb, hb', List.append_nil], hg⟩

theorem compile_literal_fields {g h : GadgetParams w} (e : g.literal.compile = some h) :
    h.base = g.base ∧ BitVec.ofNat 64 h.level = BitVec.ofNat 64 g.level := by
  unfold GadgetLit.compile at e
  split at e
  · cases e
  split at e
  · cases e
  split at e
  · cases e
  obtain ⟨_, -, e⟩ := Option.bind_eq_some_iff.1 e
  split at e
  · cases e
  cases e
  exact ⟨rfl, by rw [BitVec.ofNat_toNat, BitVec.setWidth_eq]; rfl⟩

theorem paramsWriteTo_eq (p : Params w) : paramsWriteTo p = some
    ⟨([p.lweDimension, p.glweRank, p.polyRank, p.lutSize, p.lweStdDev, p.glweStdDev, p.blockSize,
      p.messageModulus.setWidth 64, p.blindRotateParams.base.setWidth 64, BitVec.ofNat 64 p.blindRotateParams.level,
      p.keySwitchParams.base.setWidth 64, BitVec.ofNat 64 p.keySwitchParams.level].flatMap putU64) ++
      [p.bootstrapOrder.setWidth 8], false⟩ := by
  have hg : ∀ g : GadgetParams w, gadgetWriteTo g =
      some ⟨putU64 (g.base.setWidth 64) ++ putU64 (BitVec.ofNat 64 g.level), false⟩ := fun g => by
    simp [gadgetWriteTo, finish, putLen, putU64_length]
  unfold paramsWriteTo
  rw [hg, hg]
  simp [Wr.andThen, Wr.check, putU64_length]

/-- The fields of what `Parameters.ReadFrom` returns. -/
theorem Consumes.params (impl : BitVec w) :
    Consumes (paramsReadFrom impl) fun b p => ∃ r : RawParams, b = r.bytes ∧
      paramsWriteTo p = some ⟨(r.fix w).bytes, false⟩ ∧ ∃ lit : ParamsLit w, lit.compile impl = some p := by
  refine Consumes.readU64.bind fun b0 f0 h0 => Consumes.readU64.bind fun b1 f1 h1 =>
    Consumes.readU64.bind fun b2 f2 h2 => Consumes.readU64.bind fun b3 f3 h3 =>
    Consumes.readU64.bind fun b4 f4 h4 => Consumes.readU64.bind fun b5 f5 h5 =>
    Consumes.readU64.bind fun b6 f6 h6 => Consumes.readU64.bind fun b7 f7 h7 =>
    Consumes.gadget.bind fun b8 br h8 => Consumes.gadget.bind fun b9 ks h9 =>
    (Consumes.readFull 1).bind fun b10 l h10 => Consumes.lift_bind fun o ho => (Consumes.lift _).mono ?_
  rintro b11 p ⟨rfl, hp⟩
  obtain ⟨f8, f9, rfl, hbr⟩ := h8
  obtain ⟨f10, f11, rfl, hks⟩ := h9
  obtain ⟨rfl, hl⟩ := h10
  obtain ⟨a, rfl⟩ := List.length_eq_one_iff.1 hl
  cases ho
  subst h0 h1 h2 h3 h4 h5 h6 h7
  obtain ⟨e1, e2, -, -⟩ := compile_inv hbr
  obtain ⟨e3, e4, -, -⟩ := compile_inv hks
  refine ⟨⟨f0, f1, f2, f3, f4, f5, f6, f7, f8, f9, f10, f11, o⟩, by simp [RawParams.bytes], ?_, _, hp⟩
  rw [paramsWriteTo_eq]
  unfold ParamsLit.compile at hp
  simp only at hp
  split at hp
  · cases hp
  · obtain ⟨_, -, hp⟩ := Option.bind_eq_some_iff.1 hp
    obtain ⟨br', hbr', hp⟩ := Option.bind_eq_some_iff.1 hp
    obtain ⟨ks', hks', hp⟩ := Option.bind_eq_some_iff.1 hp
    obtain ⟨c1, c2⟩ := compile_literal_fields hbr'
    obtain ⟨c3, c4⟩ := compile_literal_fields hks'
    cases hp
    have ho : (BitVec.setWidth 8 (BitVec.setWidth 64 o)) = o := by
      apply BitVec.eq_of_toNat_eq
      have := o.isLt
      rw [BitVec.toNat_setWidth, BitVec.toNat_setWidth]
      omega
    simp only [RawParams.bytes, RawParams.fix, ParamsLit.defaults, c1, c2, c3, c4, e1, e3, ← e2, ← e4, trunc_eq, ho]

/-- `Parameters`: the bytes written are those read, with defaults for a zero `LUTSize` or `BlockSize` and the numbers
that do not fit into the torus type reduced. -/
theorem C73_parameters_partial (impl : BitVec w) (s : Bytes) (n : ℕ) (p : Params w) (rest : Bytes)
    (e : paramsReadFrom impl s = .ok n p rest) :
    ∃ r : RawParams, s = r.bytes ++ rest ∧ n = r.bytes.length ∧ n = 97 ∧
      paramsWriteTo p = some ⟨(r.fix w).bytes, false⟩ := by
  obtain ⟨b, h1, h2, r, rfl, h3, -⟩ := Consumes.params impl _ _ _ _ e
  exact ⟨r, h1, h2, by rw [h2]; simp [RawParams.bytes, putU64_length], h3⟩

/-- `mktfhe.Parameters`: the same for the part of `Parameters`; after it the number of parties and two gadgets, whose
bases are reduced as well. -/
theorem C73_mkParameters_partial (impl : BitVec w) (s : Bytes) (n : ℕ) (p : MKParams w) (rest : Bytes)
    (e : mkParamsReadFrom impl s = .ok n p rest) :
    ∃ (r : RawParams) (pc b1 l1 b2 l2 : BitVec 64),
      s = r.bytes ++ [pc, b1, l1, b2, l2].flatMap putU64 ++ rest ∧ n = 137 ∧
      mkParamsWriteTo p =
        some ⟨(r.fix w).bytes ++ [pc, trunc w b1, l1, trunc w b2, l2].flatMap putU64, false⟩ := by
  have hc : Consumes (mkParamsReadFrom impl) fun b p => ∃ (r : RawParams) (pc b1 l1 b2 l2 : BitVec 64),
      b = r.bytes ++ [pc, b1, l1, b2, l2].flatMap putU64 ∧ mkParamsWriteTo p =
        some ⟨(r.fix w).bytes ++ [pc, trunc w b1, l1, trunc w b2, l2].flatMap putU64, false⟩ := by
    refine (Consumes.params impl).bind fun b0 sub h0 => Consumes.readU64.bind fun b1 pc h1 =>
      Consumes.gadget.bind fun b2 acc h2 => Consumes.gadget.bind fun b3 relin h3 => (Consumes.lift _).mono ?_
    rintro b4 p ⟨rfl, hp⟩
    obtain ⟨r, rfl, hw, lit, hlit⟩ := h0
    obtain ⟨f1, f2, rfl, hacc⟩ := h2
    obtain ⟨f3, f4, rfl, hrel⟩ := h3
    subst h1
    obtain ⟨e1, e2, -, -⟩ := compile_inv hacc
    obtain ⟨e3, e4, -, -⟩ := compile_inv hrel
    refine ⟨r, pc, f1, f2, f3, f4, by simp, ?_⟩
    unfold MKParamsLit.compile at hp
    obtain ⟨sub', hsub, hp⟩ := Option.bind_eq_some_iff.1 hp
    rw [C23_literal _ _ _ hlit] at hsub
    cases hsub
    split at hp
    · cases hp
    split at hp
    · cases hp
    split at hp
    · cases hp
    obtain ⟨acc', hacc', hp⟩ := Option.bind_eq_some_iff.1 hp
    obtain ⟨rel', hrel', hp⟩ := Option.bind_eq_some_iff.1 hp
    obtain ⟨c1, c2⟩ := compile_literal_fields hacc'
    obtain ⟨c3, c4⟩ := compile_literal_fields hrel'
    cases hp
    have hg : ∀ g : GadgetParams w, gadgetWriteTo g =
        some ⟨putU64 (g.base.setWidth 64) ++ putU64 (BitVec.ofNat 64 g.level), false⟩ := fun g => by
      simp [gadgetWriteTo, finish, putLen, putU64_length]
    unfold mkParamsWriteTo
    simp only [hw, hg, c1, c2, c3, c4, e1, e3, ← e2, ← e4, trunc_eq]
    simp [Wr.andThen, Wr.check, putU64_length, RawParams.bytes]
  obtain ⟨b, h1, h2, r, pc, b1, l1, b2, l2, rfl, h3⟩ := hc _ _ _ _ e
  exact ⟨r, pc, b1, l1, b2, l2, h1, by rw [h2]; simp [RawParams.bytes, putU64_length], h3⟩

/-- A zero `LUTSize` is read; what is written has the rank in its place. -/
theorem C73_parameters_false :
    let r : RawParams := ⟨687, 3, 512, 0, 0x3EE0C6F7A0B5ED8D, 0x3E4A36E2EB1C432D, 3, 4, 0x40000, 1, 0x10, 3, 1⟩
    ∃ p : Params 32, paramsReadFrom 0 r.bytes = .ok 97 p [] ∧ paramsWriteTo p ≠ some ⟨r.bytes, false⟩ :=
  ⟨(exLit.compile 0).get (by decide +kernel), by decide +kernel, by decide +kernel⟩

/-- If the sizes are given, the modulus and the bases fit, nothing changes. -/
example : RawParams.fix 32
    ⟨687, 3, 512, 512, 0x3EE0C6F7A0B5ED8D, 0x3E4A36E2EB1C432D, 3, 4, 0x40000, 1, 0x10, 3, 1⟩ =
    ⟨687, 3, 512, 512, 0x3EE0C6F7A0B5ED8D, 0x3E4A36E2EB1C432D, 3, 4, 0x40000, 1, 0x10, 3, 1⟩ := rfl

/-! ## Where the bytes differ -/

/-- 32-bit torus: the base 2^32 + 4 is read as 4, and 4 is written. -/
theorem C73_base_false :
    ∃ g : GadgetParams 32, gadgetReadFrom (putU64 (2 ^ 32 + 4) ++ putLen 1) = .ok 16 g [] ∧
      gadgetWriteTo g = some ⟨putU64 4 ++ putLen 1, false⟩ ∧
      (putU64 4 ++ putLen 1 : Bytes) ≠ putU64 (2 ^ 32 + 4) ++ putLen 1 :=
  ⟨⟨4, 2, 1⟩, by decide +kernel, by decide +kernel, by decide +kernel⟩

/-- All flags other than 0 mean the same. -/
theorem C73_flag_false (flag : BitVec 8) (h : flag ≠ 0) (t : Bytes) :
    evkReadFrom (w := w) mem (flag :: t) = evkReadFrom mem (1 :: t) := by
  have h1 : ∀ f : BitVec 8, readFull 1 (f :: t) = .ok 1 [f] t := fun f => by simp [readFull]
  simp only [evkReadFrom]
  unfold Reader.bind
  have h' : ¬ flag = 0#8 := h
  simp [h1, Reader.lift, h']

/-- A GSW ciphertext of dimension -1 is read without error; writing it panics, and so does `ByteSize`. -/
theorem C73_gsw_false : ∃ x : GSW 32, gswReadFrom 100 (putU64 4 ++ putLen 1 ++ putU64 (-1)) = .ok 24 x [] ∧
    gswByteSize x = none ∧ gswWriteTo x = none :=
  ⟨⟨⟨4, 2, 1⟩, []⟩, by decide +kernel, by decide +kernel, by decide +kernel⟩

/-! ## Concrete cases -/

/-- A stream that no `WriteTo` produced, followed by more. -/
example : ∃ x : List (List (BitVec 32)), ∃ b, glweCTReadFrom 100 (putLen 0 ++ putLen 16 ++ List.replicate 70 7) =
      .ok 80 x (List.replicate 6 7) ∧ glweCTWriteTo x = some ⟨b, false⟩ ∧
      b = putLen 0 ++ putLen 16 ++ List.replicate 64 7 := by
  have e : glweCTReadFrom (v := 32) 100 (putLen 0 ++ putLen 16 ++ List.replicate 70 7) =
      .ok 80 [List.replicate 16 0x07070707] (List.replicate 6 7) := by decide +kernel
  obtain ⟨b, h1, -, -, -, -, h2⟩ := C73_glweCiphertext (by norm_num) (by norm_num) _ _ _ _ e
  exact ⟨_, b, e, h1, by rw [h2]; decide +kernel⟩

/-- A secret key. -/
example : ∃ x : SecKey 32, ∃ b, skReadFrom 100 (putLen 5 ++ putLen 1 ++ putLen 16 ++ List.replicate 192 9) =
      .ok 216 x [] ∧ skWriteTo x = some ⟨b, false⟩ ∧ skByteSize x = some 216 := by
  have e : skReadFrom (w := 32) 100 (putLen 5 ++ putLen 1 ++ putLen 16 ++ List.replicate 192 9) =
      .ok 216 ⟨5, 1, 16, List.replicate 16 0x09090909, [List.replicate 16 0x0909090909090909]⟩ [] := by decide +kernel
  obtain ⟨b, h1, -, h2, -⟩ := C73_secretKey (by norm_num) (by norm_num) _ _ _ _ e
  exact ⟨_, b, e, h1, h2⟩

/-- A blind rotation key of one ciphertext, 32-bit torus. -/
example : ∃ x : BRK 32, ∃ b, brkReadFrom 100 (putLen 4 ++ putLen 1 ++ putLen 1 ++ putLen 0 ++ putLen 16 ++
      List.replicate 130 9) = .ok 168 x [9, 9] ∧ brkWriteTo x = some ⟨b, false⟩ ∧
      b = putLen 4 ++ putLen 1 ++ putLen 1 ++ putLen 0 ++ putLen 16 ++ List.replicate 128 9 := by
  have e : brkReadFrom (w := 32) 100 (putLen 4 ++ putLen 1 ++ putLen 1 ++ putLen 0 ++ putLen 16 ++
      List.replicate 130 9) = .ok 168 ⟨⟨4, 2, 1⟩, [⟨⟨4, 2, 1⟩, [⟨⟨4, 2, 1⟩, [[List.replicate 16 0x0909090909090909]]⟩]⟩]⟩
        [9, 9] := by decide +kernel
  obtain ⟨b, h1, -, -, -, -, h2⟩ := C73_blindRotateKey (by norm_num) (by norm_num) _ _ _ _ e
  exact ⟨_, b, e, h1, by rw [h2]; decide +kernel⟩

/-- An evaluation key without a key-switching key, whose flag is 0. -/
example : ∃ x : EvalKey 64, ∃ b, evkReadFrom 100 (0 :: (putLen 4 ++ putLen 1 ++ putLen 1 ++ putLen 0 ++ putLen 16 ++
      List.replicate 128 9 ++ putLen 8 ++ putLen 3)) = .ok 185 x [] ∧ evkWriteTo x = some ⟨b, false⟩ ∧
      evkByteSize x = some 185 := by
  have e : evkReadFrom (w := 64) 100 (0 :: (putLen 4 ++ putLen 1 ++ putLen 1 ++ putLen 0 ++ putLen 16 ++
      List.replicate 128 9 ++ putLen 8 ++ putLen 3)) =
      .ok 185 ⟨⟨⟨4, 2, 1⟩, [⟨⟨4, 2, 1⟩, [⟨⟨4, 2, 1⟩, [[List.replicate 16 0x0909090909090909]]⟩]⟩]⟩, ⟨⟨8, 3, 3⟩, []⟩⟩
        [] := by decide +kernel
  obtain ⟨_, _, _, b, -, -, h2, h1, -⟩ := C73_evaluationKey_partial (by norm_num) (by norm_num) (by norm_num) _ _ _ _ e
  exact ⟨_, b, e, h1, h2⟩

end Tfhe.Ser
