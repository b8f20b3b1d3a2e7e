import Verif.Lemma.Codec

/-!
# C24: serialization round-trips

For every ciphertext and key type: `WriteTo` succeeds on every well-formed object and writes
`ByteSize` bytes; `ReadFrom` on these bytes followed by anything gives the object back, reports the
count and leaves what follows.  `LWESecretKey.ReadFrom` reports the wrong count
(`C24_lweSK_count_false`); the rest of the statement is proved for it (`C24_lweSK_partial`).

`w` is the width of the torus type (32 or 64 in the code, any multiple of 8 up to 64 here); entries
of transformed ciphertexts are bit patterns of `float64`.
-/
namespace Tfhe.Ser

variable {w v mem : ℕ}

/-! ## Plaintexts and ciphertexts -/

theorem C24_lwePlaintext (hv : 8 ∣ v) (x : BitVec v) :
    RoundTrips (lwePTWriteTo x) (some (v / 8)) lwePTReadFrom x := (codec_lwePT hv x).roundTrips

theorem C24_lweCiphertext (hv : 8 ∣ v) (hm : mem < 2 ^ 63) {x : List (BitVec v)}
    (hx : x.length ≤ mem) :
    RoundTrips (lweCTWriteTo x) (lweCTByteSize x) (lweCTReadFrom mem) x :=
  (codec_lweCT hv hm hx).roundTrips

theorem C24_glwePlaintext (hv : 8 ∣ v) (hm : mem < 2 ^ 63) {x : List (BitVec v)}
    (hx : RankOK mem x.length) :
    RoundTrips (glwePTWriteTo x) (some (8 + x.length * (v / 8))) (glwePTReadFrom mem) x :=
  (codec_glwePT hv hm hx).roundTrips

theorem C24_glweCiphertext (hv : 8 ∣ v) (hm : mem < 2 ^ 63) {k N : ℕ} (hk : 0 < k) (hkm : k ≤ mem)
    (hN : RankOK mem N) {x : List (List (BitVec v))} (h : Polys k N x) :
    RoundTrips (glweCTWriteTo x) (polysByteSize x) (glweCTReadFrom mem) x :=
  (codec_glweCT hv hm hk hkm hN h).roundTrips

theorem C24_fftGLWECiphertext (hm : mem < 2 ^ 63) {k N : ℕ} (hk : 0 < k) (hkm : k ≤ mem)
    (hN : RankOK mem N) {x : List (List (BitVec 64))} (h : Polys k N x) :
    RoundTrips (glweCTWriteTo x) (polysByteSize x) (fftGLWECTReadFrom mem) x :=
  (codec_fftGLWECT hm hk hkm hN h).roundTrips

theorem C24_lev (hw8 : 8 ∣ w) (hw : w ≤ 64) (hm : mem < 2 ^ 63) {g : GadgetParams w}
    (hg : Compiled mem g) {n : ℕ} (hn : n ≤ mem) {x : Lev w} (h : IsLevShape g n x) :
    RoundTrips (levWriteTo x) (levByteSize x) (levReadFrom mem) x :=
  (codec_lev hw8 hw hm hg hn h).roundTrips

theorem C24_gsw (hw8 : 8 ∣ w) (hw : w ≤ 64) (hm : mem < 2 ^ 63) {g : GadgetParams w}
    (hg : Compiled mem g) {n : ℕ} (hn0 : 0 < n) (hn : n ≤ mem) {x : GSW w} (h : IsLevs g n n x) :
    RoundTrips (gswWriteTo x) (gswByteSize x) (gswReadFrom mem) x :=
  (codec_gsw hw8 hw hm hg hn0 hn h).roundTrips

/-- `GLevCiphertext` at `v = w`, `FFTGLevCiphertext` at `v = 64`. -/
theorem C24_glev (hw : w ≤ 64) (hv : 8 ∣ v) (hm : mem < 2 ^ 63) {g : GadgetParams w}
    (hg : Compiled mem g) {k N : ℕ} (hk0 : 0 < k) (hk : k ≤ mem) (hN : RankOK mem N)
    {x : GLev w v} (h : IsGLevShape g k N x) :
    RoundTrips (glevWriteTo x) (glevByteSize x) (glevReadFrom mem) x :=
  (codec_glev hw hv hm hg hk0 hk hN h).roundTrips

/-- `GGSWCiphertext` at `v = w`, `FFTGGSWCiphertext` at `v = 64`. -/
theorem C24_ggsw (hw : w ≤ 64) (hv : 8 ∣ v) (hm : mem < 2 ^ 63) {g : GadgetParams w}
    (hg : Compiled mem g) {k N : ℕ} (hk0 : 0 < k) (hk : k ≤ mem) (hN : RankOK mem N)
    {x : GGSW w v} (h : IsGLevs g k k N x) :
    RoundTrips (ggswWriteTo x) (ggswByteSize x) (ggswReadFrom mem) x :=
  (codec_ggsw hw hv hm hg hk0 hk hN h).roundTrips

/-- `UniEncryption` at `v = w`, `FFTUniEncryption` at `v = 64`. -/
theorem C24_uniEncryption (hw : w ≤ 64) (hv : 8 ∣ v) (hm : mem < 2 ^ 63) (h2 : 2 ≤ mem)
    {g : GadgetParams w} (hg : Compiled mem g) {N : ℕ} (hN : RankOK mem N)
    {x : GGSW w v} (h : IsGLevs g 2 2 N x) :
    RoundTrips (uniWriteTo x) (uniByteSize x) (uniReadFrom mem) x :=
  (codec_uni hw hv hm h2 hg hN h).roundTrips

/-! ## Keys -/

theorem C24_glweSecretKey (hv : 8 ∣ v) (hm : mem < 2 ^ 63) {k N : ℕ} (hk : 0 < k) (hkm : k ≤ mem)
    (hN : RankOK mem N) {x : List (List (BitVec v))} (h : Polys k N x) :
    RoundTrips (glweSKWriteTo x) (polysByteSize x) (glweSKReadFrom mem) x :=
  (codec_glweSK hv hm hk hkm hN h).roundTrips

theorem C24_fftGLWESecretKey (hm : mem < 2 ^ 63) {k N : ℕ} (hk : 0 < k) (hkm : k ≤ mem)
    (hN : RankOK mem N) {x : List (List (BitVec 64))} (h : Polys k N x) :
    RoundTrips (glweSKWriteTo x) (polysByteSize x) (fftGLWESKReadFrom mem) x :=
  (codec_fftGLWESK hm hk hkm hN h).roundTrips

/-- `LWEPublicKey` and `GLWEPublicKey`. -/
theorem C24_lweGLWEPublicKey (hv : 8 ∣ v) (hm : mem < 2 ^ 63) {k N : ℕ} (hk : 0 < k)
    (hkm : k + 1 ≤ mem) (hN : RankOK mem N) {x : List (List (List (BitVec v)))}
    (h : IsPKShape k N x) : RoundTrips (pkWriteTo x) (pkByteSize x) (pkReadFrom mem) x :=
  (codec_pk hv hm hk hkm hN h).roundTrips

theorem C24_lweKeySwitchKey (hw8 : 8 ∣ w) (hw : w ≤ 64) (hm : mem < 2 ^ 63) {g : GadgetParams w}
    (hg : Compiled mem g) {m n : ℕ} (hm0 : 0 < m) (hmm : m ≤ mem) (hn : n ≤ mem) {x : GSW w}
    (h : IsLevs g m n x) :
    RoundTrips (lweKSKWriteTo x) (lweKSKByteSize x) (lweKSKReadFrom mem) x :=
  (codec_lweKSK hw8 hw hm hg hm0 hmm hn h).roundTrips

theorem C24_glweKeySwitchKey (hw : w ≤ 64) (hm : mem < 2 ^ 63) {g : GadgetParams w}
    (hg : Compiled mem g) {m k N : ℕ} (hm0 : 0 < m) (hmm : m ≤ mem) (hk0 : 0 < k) (hk : k ≤ mem)
    (hN : RankOK mem N) {x : GGSW w 64} (h : IsGLevs g m k N x) :
    RoundTrips (glweKSKWriteTo x) (glweKSKByteSize x) (glweKSKReadFrom mem) x :=
  (codec_glweKSK hw hm hg hm0 hmm hk0 hk hN h).roundTrips

theorem C24_blindRotateKey (hw : w ≤ 64) (hm : mem < 2 ^ 63) {g : GadgetParams w}
    (hg : Compiled mem g) {n k N : ℕ} (hn0 : 0 < n) (hn : n ≤ mem) (hk0 : 0 < k) (hk : k ≤ mem)
    (hN : RankOK mem N) {x : BRK w} (h : IsBRKShape g n k N x) :
    RoundTrips (brkWriteTo x) (brkByteSize x) (brkReadFrom mem) x :=
  (codec_brk hw hm hg hn0 hn hk0 hk hN h).roundTrips

/-- With a key-switching key (`m > 0`) and without one (`m = 0`). -/
theorem C24_evaluationKey (hw8 : 8 ∣ w) (hw : w ≤ 64) (hm : mem < 2 ^ 63) {gb gk : GadgetParams w}
    {n k N m d : ℕ} {x : EvalKey w} (h : IsEvkShape mem gb gk n k N m d x) :
    RoundTrips (evkWriteTo x) (evkByteSize x) (evkReadFrom mem) x :=
  (codec_evk hw8 hw hm h).roundTrips

theorem C24_secretKey (hw8 : 8 ∣ w) (hm : mem < 2 ^ 63) {n k N : ℕ} {x : SecKey w}
    (h : IsSKShape mem n k N x) : RoundTrips (skWriteTo x) (skByteSize x) (skReadFrom mem) x :=
  (codec_sk hw8 hm h).roundTrips

theorem C24_publicKey (hw8 : 8 ∣ w) (hm : mem < 2 ^ 63) {k N : ℕ} (hk : 0 < k) (hkm : k + 1 ≤ mem)
    (hN : RankOK mem N) {x : PubKey w} (h1 : IsPKShape k N x.lweKey)
    (h2 : IsPKShape k N x.glweKey) :
    RoundTrips (pubKeyWriteTo x) (pubKeyByteSize x) (pubKeyReadFrom mem) x :=
  (codec_pubKey hw8 hm hk hkm hN h1 h2).roundTrips

theorem C24_mkEvaluationKey (hw8 : 8 ∣ w) (hw : w ≤ 64) (hm : mem < 2 ^ 63) (h2 : 2 ≤ mem)
    {gb gk gc gr : GadgetParams w} {n k N m d : ℕ} {x : MKEvalKey w}
    (h : IsEvkShape mem gb gk n k N m d x.evk) (hgc : Compiled mem gc) (hgr : Compiled mem gr)
    (hc : IsGLevShape gc 2 N x.crs) (hr : IsGLevs gr 2 2 N x.relin) :
    RoundTrips (mkEvkWriteTo x) (mkEvkByteSize x) (mkEvkReadFrom mem) x :=
  (codec_mkEvk hw8 hw hm h2 h hgc hgr hc hr).roundTrips

/-! ## `LWESecretKey` -/

theorem reads_lweSK (hv : 8 ∣ v) (hm : mem < 2 ^ 63) {x : List (BitVec v)} (hx : x.length ≤ mem) :
    Reads (lweSKReadFrom mem) (putLen x.length ++ vecWriteTo x) 8 x := by
  have h1 : Rt (lweSKHeaderRead mem) (putLen x.length) (List.replicate x.length (0 : BitVec v)) :=
    Rt.bind_lift (Rt.readU64 _) (mkSlice_ofNat hm hx _)
  have h2 := Reads.bindUncounted h1 (Rt.vecReadFrom hv rfl)
  rwa [putLen_length] at h2

/-- Everything but the count: the object read is the object written, exactly its bytes are consumed,
`WriteTo` writes and reports `ByteSize` bytes.  `ReadFrom` reports 8. -/
theorem C24_lweSK_partial (hv : 8 ∣ v) (hm : mem < 2 ^ 63) {x : List (BitVec v)}
    (hx : x.length ≤ mem) :
    RoundTripsCount 8 (lweSKWriteTo x) (lweSKByteSize x) (lweSKReadFrom mem) x := by
  have hs : lweSKByteSize x = some (putLen x.length ++ vecWriteTo x).length := by
    simp [lweSKByteSize, putLen_length, vecWriteTo_length]
  exact ⟨_, finish_eq rfl rfl hs, hs, (reads_lweSK hv hm hx).ok⟩

/-- The count `LWESecretKey.ReadFrom` reports is wrong for every non-empty key. -/
theorem C24_lweSK_count_false (hv : 8 ∣ v) (hv0 : 0 < v) (hm : mem < 2 ^ 63) {x : List (BitVec v)}
    (hx : x.length ≤ mem) (h0 : x ≠ []) :
    ¬ RoundTrips (lweSKWriteTo x) (lweSKByteSize x) (lweSKReadFrom mem) x := by
  rintro ⟨b, h1, h2, h3⟩
  obtain ⟨b', h1', h2', h3'⟩ := C24_lweSK_partial hv hm hx
  rw [h1', Option.some.injEq, Wr.mk.injEq] at h1
  obtain ⟨rfl, -⟩ := h1
  have h4 := h3 []
  rw [h3' [], Rd.ok.injEq] at h4
  have h5 : b'.length = 8 + x.length * (v / 8) := by
    rw [lweSKByteSize, Option.some.injEq] at h2'
    exact h2'.symm
  have h6 : 0 < x.length := List.length_pos_iff.2 h0
  have h7 : 0 < v / 8 := Nat.div_pos (Nat.le_of_dvd hv0 hv) (by norm_num)
  have := Nat.mul_pos h6 h7
  omega

/-! ## Consequences for all types -/

/-- Two objects written one after the other are read back one after the other. -/
theorem C24_concat {α β : Type} {wa wb : Option Wr} {sa sb : Option ℕ} {ra : Reader α}
    {rb : Reader β} {x : α} {y : β} (hx : RoundTrips wa sa ra x) (hy : RoundTrips wb sb rb y) :
    ∃ b, Wr.andThen wa wb = some ⟨b, false⟩ ∧
      ∀ rest, (ra.bind fun a => rb.map fun c => (a, c)) (b ++ rest) = .ok b.length (x, y) rest := by
  obtain ⟨a, a1, -, a3⟩ := hx
  obtain ⟨b, b1, -, b3⟩ := hy
  refine ⟨a ++ b, andThen_eq a1 b1, fun rest => ?_⟩
  simp [Reader.bind, Reader.map, Reader.pure, List.append_assoc, a3, b3]

/-- `UnmarshalBinary` undoes `MarshalBinary`. -/
theorem C24_binary {α : Type} {write : Option Wr} {size : Option ℕ} {read : Reader α} {x : α}
    (h : RoundTrips write size read x) :
    ∃ b, marshalBinary write = some (.ok b) ∧ size = some b.length ∧
      unmarshalBinary read b = some (.ok x) := by
  obtain ⟨b, h1, h2, h3⟩ := h
  refine ⟨b, by simp [marshalBinary, h1], h2, ?_⟩
  have := h3 []
  rw [List.append_nil] at this
  simp [unmarshalBinary, this]

/-- The same for `LWESecretKey`, whose `UnmarshalBinary` drops the count. -/
theorem C24_lweSK_binary (hv : 8 ∣ v) (hm : mem < 2 ^ 63) {x : List (BitVec v)}
    (hx : x.length ≤ mem) :
    ∃ b, marshalBinary (lweSKWriteTo x) = some (.ok b) ∧ lweSKByteSize x = some b.length ∧
      unmarshalBinary (lweSKReadFrom mem) b = some (.ok x) := by
  obtain ⟨b, h1, h2, h3⟩ := C24_lweSK_partial hv hm hx
  refine ⟨b, by simp [marshalBinary, h1], h2, ?_⟩
  have := h3 []
  rw [List.append_nil] at this
  simp [unmarshalBinary, this]

/-- An `LWEKeySwitchKey` without entries (which `EvaluationKey` allows) cannot be written:
`WriteTo` panics. -/
theorem C24_empty_ksk_false (g : GadgetParams w) :
    lweKSKWriteTo (⟨g, []⟩ : GSW w) = none ∧ lweKSKByteSize (⟨g, []⟩ : GSW w) = none := ⟨rfl, rfl⟩

/-! ## Objects that meet the hypotheses -/

/-- Base `2^9`, level 3, on 32 bits. -/
def exGadget : GadgetParams 32 := ⟨0x200, 9, 3⟩

theorem exGadget_ok : Compiled (2 ^ 40) exGadget :=
  ⟨⟨⟨0x200, 3⟩, by decide +kernel⟩, by decide +kernel⟩

/-- Two polynomials of rank 16 with entries that are not zero. -/
def exPolys (v : ℕ) : List (List (BitVec v)) :=
  [List.replicate 16 3, List.replicate 16 (-5)]

theorem exPolys_ok : Polys 2 16 (exPolys v) := ⟨rfl, by simp [exPolys]⟩

theorem exRank : RankOK (2 ^ 40) 16 := ⟨⟨4, rfl⟩, le_refl _, by norm_num⟩

def exGLev (v : ℕ) : GLev 32 v := ⟨exGadget, List.replicate 3 (exPolys v)⟩

theorem exGLev_ok : IsGLevShape exGadget 2 16 (exGLev v) :=
  ⟨rfl, rfl, fun _ h => List.eq_of_mem_replicate h ▸ exPolys_ok⟩

def exGGSW (v : ℕ) : GGSW 32 v := ⟨exGadget, List.replicate 2 (exGLev v)⟩

theorem exGGSW_ok : IsGLevs exGadget 2 2 16 (exGGSW v) :=
  ⟨rfl, rfl, fun _ h => List.eq_of_mem_replicate h ▸ exGLev_ok⟩

def exLev : Lev 32 := ⟨exGadget, List.replicate 3 [1, 2, 3, 0xffffffff]⟩

theorem exLev_ok : IsLevShape exGadget 4 exLev :=
  ⟨rfl, rfl, fun _ h => List.eq_of_mem_replicate h ▸ rfl⟩

def exKSK : GSW 32 := ⟨exGadget, List.replicate 32 exLev⟩

theorem exKSK_ok : IsLevs exGadget 32 4 exKSK :=
  ⟨rfl, rfl, fun _ h => List.eq_of_mem_replicate h ▸ exLev_ok⟩

def exBRK : BRK 32 := ⟨exGadget, List.replicate 3 (exGGSW 64)⟩

theorem exBRK_ok : IsBRKShape exGadget 3 2 16 exBRK :=
  ⟨rfl, rfl, fun _ h => List.eq_of_mem_replicate h ▸ exGGSW_ok⟩

/-- An evaluation key with a key-switching key. -/
theorem exEvk_ok : IsEvkShape (2 ^ 40) exGadget exGadget 3 2 16 32 4 ⟨exBRK, exKSK⟩ :=
  ⟨exBRK_ok, exKSK_ok, exGadget_ok, exGadget_ok, by norm_num, by norm_num, by norm_num,
    by norm_num, exRank, by norm_num, by norm_num⟩

/-- And one without. -/
theorem exEvk_ok' : IsEvkShape (2 ^ 40) exGadget exGadget 3 2 16 0 0 ⟨exBRK, ⟨exGadget, []⟩⟩ :=
  ⟨exBRK_ok, ⟨rfl, rfl, by simp⟩, exGadget_ok, exGadget_ok, by norm_num, by norm_num, by norm_num,
    by norm_num, exRank, by norm_num, by norm_num⟩

def exSK : SecKey 32 :=
  { lweDimension := 20, glweRank := 2, polyRank := 16, large := List.replicate 32 1,
    fft := exPolys 64 }

theorem exSK_ok : IsSKShape (2 ^ 40) 20 2 16 exSK :=
  ⟨rfl, rfl, rfl, rfl, exPolys_ok, by norm_num, exRank, by norm_num, by norm_num⟩

def exPK : List (List (List (BitVec 32))) := [exPolys 32]

theorem exPK_ok : IsPKShape 1 16 exPK := ⟨rfl, by simp [exPK, exPolys_ok]⟩

example : RoundTrips (lwePTWriteTo (0xdeadbeef : BitVec 32)) (some 4) lwePTReadFrom
    (0xdeadbeef : BitVec 32) :=
  C24_lwePlaintext (by norm_num) _

example : RoundTrips (lweCTWriteTo [(7 : BitVec 32), 8, 9]) (lweCTByteSize [(7 : BitVec 32), 8, 9])
    (lweCTReadFrom (2 ^ 40)) [(7 : BitVec 32), 8, 9] :=
  C24_lweCiphertext (by norm_num) (by norm_num) (by norm_num)

example : RoundTrips (glwePTWriteTo (List.replicate 16 (5 : BitVec 64))) (some 136)
    (glwePTReadFrom (2 ^ 40)) (List.replicate 16 (5 : BitVec 64)) :=
  C24_glwePlaintext (by norm_num) (by norm_num) (by simpa using exRank)

example : RoundTrips (glweCTWriteTo (exPolys 32)) (polysByteSize (exPolys 32))
    (glweCTReadFrom (2 ^ 40)) (exPolys 32) :=
  C24_glweCiphertext (by norm_num) (by norm_num) (by norm_num) (by norm_num) exRank exPolys_ok

example : RoundTrips (glweCTWriteTo (exPolys 64)) (polysByteSize (exPolys 64))
    (fftGLWECTReadFrom (2 ^ 40)) (exPolys 64) :=
  C24_fftGLWECiphertext (by norm_num) (by norm_num) (by norm_num) exRank exPolys_ok

example : RoundTrips (levWriteTo exLev) (levByteSize exLev) (levReadFrom (2 ^ 40)) exLev :=
  C24_lev (by norm_num) (by norm_num) (by norm_num) exGadget_ok (by norm_num) exLev_ok

example : RoundTrips (gswWriteTo ⟨exGadget, List.replicate 4 exLev⟩)
    (gswByteSize ⟨exGadget, List.replicate 4 exLev⟩) (gswReadFrom (2 ^ 40))
    ⟨exGadget, List.replicate 4 exLev⟩ :=
  C24_gsw (by norm_num) (by norm_num) (by norm_num) exGadget_ok (by norm_num) (by norm_num)
    ⟨rfl, rfl, fun _ h => List.eq_of_mem_replicate h ▸ exLev_ok⟩

example : RoundTrips (glevWriteTo (exGLev 64)) (glevByteSize (exGLev 64)) (glevReadFrom (2 ^ 40))
    (exGLev 64) :=
  C24_glev (by norm_num) (by norm_num) (by norm_num) exGadget_ok (by norm_num) (by norm_num)
    exRank exGLev_ok

example : RoundTrips (ggswWriteTo (exGGSW 32)) (ggswByteSize (exGGSW 32)) (ggswReadFrom (2 ^ 40))
    (exGGSW 32) :=
  C24_ggsw (by norm_num) (by norm_num) (by norm_num) exGadget_ok (by norm_num) (by norm_num)
    exRank exGGSW_ok

example : RoundTrips (uniWriteTo (exGGSW 32)) (uniByteSize (exGGSW 32)) (uniReadFrom (2 ^ 40))
    (exGGSW 32) :=
  C24_uniEncryption (by norm_num) (by norm_num) (by norm_num) (by norm_num) exGadget_ok exRank
    exGGSW_ok

example : RoundTrips (glweSKWriteTo (exPolys 32)) (polysByteSize (exPolys 32))
    (glweSKReadFrom (2 ^ 40)) (exPolys 32) :=
  C24_glweSecretKey (by norm_num) (by norm_num) (by norm_num) (by norm_num) exRank exPolys_ok

example : RoundTrips (pkWriteTo exPK) (pkByteSize exPK) (pkReadFrom (2 ^ 40)) exPK :=
  C24_lweGLWEPublicKey (by norm_num) (by norm_num) (by norm_num) (by norm_num) exRank exPK_ok

example : RoundTrips (lweKSKWriteTo exKSK) (lweKSKByteSize exKSK) (lweKSKReadFrom (2 ^ 40)) exKSK :=
  C24_lweKeySwitchKey (by norm_num) (by norm_num) (by norm_num) exGadget_ok (by norm_num)
    (by norm_num) (by norm_num) exKSK_ok

example : RoundTrips (glweKSKWriteTo (exGGSW 64)) (glweKSKByteSize (exGGSW 64))
    (glweKSKReadFrom (2 ^ 40)) (exGGSW 64) :=
  C24_glweKeySwitchKey (by norm_num) (by norm_num) exGadget_ok (by norm_num) (by norm_num)
    (by norm_num) (by norm_num) exRank exGGSW_ok

example : RoundTrips (brkWriteTo exBRK) (brkByteSize exBRK) (brkReadFrom (2 ^ 40)) exBRK :=
  C24_blindRotateKey (by norm_num) (by norm_num) exGadget_ok (by norm_num) (by norm_num)
    (by norm_num) (by norm_num) exRank exBRK_ok

example : RoundTrips (evkWriteTo ⟨exBRK, exKSK⟩) (evkByteSize ⟨exBRK, exKSK⟩)
    (evkReadFrom (2 ^ 40)) ⟨exBRK, exKSK⟩ :=
  C24_evaluationKey (by norm_num) (by norm_num) (by norm_num) exEvk_ok

example : RoundTrips (evkWriteTo ⟨exBRK, ⟨exGadget, []⟩⟩) (evkByteSize ⟨exBRK, ⟨exGadget, []⟩⟩)
    (evkReadFrom (2 ^ 40)) ⟨exBRK, ⟨exGadget, []⟩⟩ :=
  C24_evaluationKey (by norm_num) (by norm_num) (by norm_num) exEvk_ok'

example : RoundTrips (skWriteTo exSK) (skByteSize exSK) (skReadFrom (2 ^ 40)) exSK :=
  C24_secretKey (by norm_num) (by norm_num) exSK_ok

example : RoundTrips (pubKeyWriteTo ⟨exPK, exPK⟩) (pubKeyByteSize ⟨exPK, exPK⟩)
    (pubKeyReadFrom (2 ^ 40)) ⟨exPK, exPK⟩ :=
  C24_publicKey (by norm_num) (by norm_num) (by norm_num) (by norm_num) exRank exPK_ok exPK_ok

example : RoundTrips (mkEvkWriteTo ⟨⟨exBRK, exKSK⟩, exGLev 64, exGGSW 64⟩)
    (mkEvkByteSize ⟨⟨exBRK, exKSK⟩, exGLev 64, exGGSW 64⟩)
    (mkEvkReadFrom (2 ^ 40)) ⟨⟨exBRK, exKSK⟩, exGLev 64, exGGSW 64⟩ :=
  C24_mkEvaluationKey (by norm_num) (by norm_num) (by norm_num) (by norm_num) exEvk_ok exGadget_ok
    exGadget_ok exGLev_ok exGGSW_ok

example : ¬ RoundTrips (lweSKWriteTo [(1 : BitVec 32), 0, 1]) (lweSKByteSize [(1 : BitVec 32), 0, 1])
    (lweSKReadFrom (2 ^ 40)) [(1 : BitVec 32), 0, 1] :=
  C24_lweSK_count_false (by norm_num) (by norm_num) (by norm_num) (by norm_num) (by simp)

end Tfhe.Ser
