import Verif.Props.C24
import Verif.Props.C25

/-!
# C26: truncated input is reported as an error

Reading any proper prefix of what `WriteTo` wrote returns an error (and neither panics nor reports
success), for every type and every truncation point.
-/
namespace Tfhe.Ser

variable {w v mem : ℕ}

theorem C26_lweCiphertext (hv : 8 ∣ v) (hm : mem < 2 ^ 63) {x : List (BitVec v)}
    (hx : x.length ≤ mem) :
    DetectsTruncation (lweCTWriteTo x) (lweCTReadFrom mem : Reader (List (BitVec v))) :=
  (codec_lweCT hv hm hx).detects

theorem C26_glwePlaintext (hv : 8 ∣ v) (hm : mem < 2 ^ 63) {x : List (BitVec v)}
    (hx : RankOK mem x.length) :
    DetectsTruncation (glwePTWriteTo x) (glwePTReadFrom mem : Reader (List (BitVec v))) :=
  (codec_glwePT hv hm hx).detects

theorem C26_glweCiphertext (hv : 8 ∣ v) (hm : mem < 2 ^ 63) {k N : ℕ} (hk : 0 < k) (hkm : k ≤ mem)
    (hN : RankOK mem N) {x : List (List (BitVec v))} (h : Polys k N x) :
    DetectsTruncation (glweCTWriteTo x) (glweCTReadFrom mem : Reader (List (List (BitVec v)))) :=
  (codec_glweCT hv hm hk hkm hN h).detects

theorem C26_fftGLWECiphertext (hm : mem < 2 ^ 63) {k N : ℕ} (hk : 0 < k) (hkm : k ≤ mem)
    (hN : RankOK mem N) {x : List (List (BitVec 64))} (h : Polys k N x) :
    DetectsTruncation (glweCTWriteTo x) (fftGLWECTReadFrom mem : Reader (List (List (BitVec 64)))) :=
  (codec_fftGLWECT hm hk hkm hN h).detects

theorem C26_lev (hw8 : 8 ∣ w) (hw : w ≤ 64) (hm : mem < 2 ^ 63) {g : GadgetParams w}
    (hg : Compiled mem g) {n : ℕ} (hn : n ≤ mem) {x : Lev w} (h : IsLevShape g n x) :
    DetectsTruncation (levWriteTo x) (levReadFrom mem : Reader (Lev w)) :=
  (codec_lev hw8 hw hm hg hn h).detects

theorem C26_gsw (hw8 : 8 ∣ w) (hw : w ≤ 64) (hm : mem < 2 ^ 63) {g : GadgetParams w}
    (hg : Compiled mem g) {n : ℕ} (hn0 : 0 < n) (hn : n ≤ mem) {x : GSW w} (h : IsLevs g n n x) :
    DetectsTruncation (gswWriteTo x) (gswReadFrom mem : Reader (GSW w)) :=
  (codec_gsw hw8 hw hm hg hn0 hn h).detects

theorem C26_glev (hw : w ≤ 64) (hv : 8 ∣ v) (hm : mem < 2 ^ 63) {g : GadgetParams w}
    (hg : Compiled mem g) {k N : ℕ} (hk0 : 0 < k) (hk : k ≤ mem) (hN : RankOK mem N)
    {x : GLev w v} (h : IsGLevShape g k N x) :
    DetectsTruncation (glevWriteTo x) (glevReadFrom mem : Reader (GLev w v)) :=
  (codec_glev hw hv hm hg hk0 hk hN h).detects

theorem C26_ggsw (hw : w ≤ 64) (hv : 8 ∣ v) (hm : mem < 2 ^ 63) {g : GadgetParams w}
    (hg : Compiled mem g) {k N : ℕ} (hk0 : 0 < k) (hk : k ≤ mem) (hN : RankOK mem N)
    {x : GGSW w v} (h : IsGLevs g k k N x) :
    DetectsTruncation (ggswWriteTo x) (ggswReadFrom mem : Reader (GGSW w v)) :=
  (codec_ggsw hw hv hm hg hk0 hk hN h).detects

theorem C26_uniEncryption (hw : w ≤ 64) (hv : 8 ∣ v) (hm : mem < 2 ^ 63) (h2 : 2 ≤ mem)
    {g : GadgetParams w} (hg : Compiled mem g) {N : ℕ} (hN : RankOK mem N)
    {x : GGSW w v} (h : IsGLevs g 2 2 N x) :
    DetectsTruncation (uniWriteTo x) (uniReadFrom mem : Reader (GGSW w v)) :=
  (codec_uni hw hv hm h2 hg hN h).detects

theorem C26_glweSecretKey (hv : 8 ∣ v) (hm : mem < 2 ^ 63) {k N : ℕ} (hk : 0 < k) (hkm : k ≤ mem)
    (hN : RankOK mem N) {x : List (List (BitVec v))} (h : Polys k N x) :
    DetectsTruncation (glweSKWriteTo x) (glweSKReadFrom mem : Reader (List (List (BitVec v)))) :=
  (codec_glweSK hv hm hk hkm hN h).detects

theorem C26_fftGLWESecretKey (hm : mem < 2 ^ 63) {k N : ℕ} (hk : 0 < k) (hkm : k ≤ mem)
    (hN : RankOK mem N) {x : List (List (BitVec 64))} (h : Polys k N x) :
    DetectsTruncation (glweSKWriteTo x) (fftGLWESKReadFrom mem : Reader (List (List (BitVec 64)))) :=
  (codec_fftGLWESK hm hk hkm hN h).detects

theorem C26_lweGLWEPublicKey (hv : 8 ∣ v) (hm : mem < 2 ^ 63) {k N : ℕ} (hk : 0 < k)
    (hkm : k + 1 ≤ mem) (hN : RankOK mem N) {x : List (List (List (BitVec v)))}
    (h : IsPKShape k N x) :
    DetectsTruncation (pkWriteTo x) (pkReadFrom mem : Reader (List (List (List (BitVec v))))) :=
  (codec_pk hv hm hk hkm hN h).detects

theorem C26_lweKeySwitchKey (hw8 : 8 ∣ w) (hw : w ≤ 64) (hm : mem < 2 ^ 63) {g : GadgetParams w}
    (hg : Compiled mem g) {m n : ℕ} (hm0 : 0 < m) (hmm : m ≤ mem) (hn : n ≤ mem) {x : GSW w}
    (h : IsLevs g m n x) :
    DetectsTruncation (lweKSKWriteTo x) (lweKSKReadFrom mem : Reader (GSW w)) :=
  (codec_lweKSK hw8 hw hm hg hm0 hmm hn h).detects

theorem C26_glweKeySwitchKey (hw : w ≤ 64) (hm : mem < 2 ^ 63) {g : GadgetParams w}
    (hg : Compiled mem g) {m k N : ℕ} (hm0 : 0 < m) (hmm : m ≤ mem) (hk0 : 0 < k) (hk : k ≤ mem)
    (hN : RankOK mem N) {x : GGSW w 64} (h : IsGLevs g m k N x) :
    DetectsTruncation (glweKSKWriteTo x) (glweKSKReadFrom mem : Reader (GGSW w 64)) :=
  (codec_glweKSK hw hm hg hm0 hmm hk0 hk hN h).detects

theorem C26_blindRotateKey (hw : w ≤ 64) (hm : mem < 2 ^ 63) {g : GadgetParams w}
    (hg : Compiled mem g) {n k N : ℕ} (hn0 : 0 < n) (hn : n ≤ mem) (hk0 : 0 < k) (hk : k ≤ mem)
    (hN : RankOK mem N) {x : BRK w} (h : IsBRKShape g n k N x) :
    DetectsTruncation (brkWriteTo x) (brkReadFrom mem : Reader (BRK w)) :=
  (codec_brk hw hm hg hn0 hn hk0 hk hN h).detects

theorem C26_evaluationKey (hw8 : 8 ∣ w) (hw : w ≤ 64) (hm : mem < 2 ^ 63) {gb gk : GadgetParams w}
    {n k N m d : ℕ} {x : EvalKey w} (h : IsEvkShape mem gb gk n k N m d x) :
    DetectsTruncation (evkWriteTo x) (evkReadFrom mem : Reader (EvalKey w)) :=
  (codec_evk hw8 hw hm h).detects

theorem C26_secretKey (hw8 : 8 ∣ w) (hm : mem < 2 ^ 63) {n k N : ℕ} {x : SecKey w}
    (h : IsSKShape mem n k N x) :
    DetectsTruncation (skWriteTo x) (skReadFrom mem : Reader (SecKey w)) :=
  (codec_sk hw8 hm h).detects

theorem C26_publicKey (hw8 : 8 ∣ w) (hm : mem < 2 ^ 63) {k N : ℕ} (hk : 0 < k) (hkm : k + 1 ≤ mem)
    (hN : RankOK mem N) {x : PubKey w} (h1 : IsPKShape k N x.lweKey)
    (h2 : IsPKShape k N x.glweKey) :
    DetectsTruncation (pubKeyWriteTo x) (pubKeyReadFrom mem : Reader (PubKey w)) :=
  (codec_pubKey hw8 hm hk hkm hN h1 h2).detects

theorem C26_mkEvaluationKey (hw8 : 8 ∣ w) (hw : w ≤ 64) (hm : mem < 2 ^ 63) (h2 : 2 ≤ mem)
    {gb gk gc gr : GadgetParams w} {n k N m d : ℕ} {x : MKEvalKey w}
    (h : IsEvkShape mem gb gk n k N m d x.evk) (hgc : Compiled mem gc) (hgr : Compiled mem gr)
    (hc : IsGLevShape gc 2 N x.crs) (hr : IsGLevs gr 2 2 N x.relin) :
    DetectsTruncation (mkEvkWriteTo x) (mkEvkReadFrom mem : Reader (MKEvalKey w)) :=
  (codec_mkEvk hw8 hw hm h2 h hgc hgr hc hr).detects

theorem C26_lwePlaintext (hv : 8 ∣ v) (x : BitVec v) :
    DetectsTruncation (lwePTWriteTo x) (lwePTReadFrom (v := v)) := (codec_lwePT hv x).detects

theorem C26_lweSecretKey (hv : 8 ∣ v) (hm : mem < 2 ^ 63) {x : List (BitVec v)}
    (hx : x.length ≤ mem) : DetectsTruncation (lweSKWriteTo x) (lweSKReadFrom (v := v) mem) :=
  ⟨_, finish_eq rfl rfl (by simp [lweSKByteSize, putLen_length, vecWriteTo_length]),
    (reads_lweSK hv hm hx).trunc⟩

theorem C26_parameters (hw : w ≤ 64) {impl : BitVec w} {lit : ParamsLit w} {p : Params w}
    (h : lit.compile impl = some p) : DetectsTruncation (paramsWriteTo p) (paramsReadFrom impl) :=
  (codec_params hw h).detects

theorem C26_mkParameters (hw : w ≤ 64) {impl : BitVec w} {lit : MKParamsLit w} {p : MKParams w}
    (h : lit.compile impl = some p) :
    DetectsTruncation (mkParamsWriteTo p) (mkParamsReadFrom impl) :=
  (codec_mkParams hw h).detects

/-- `UnmarshalBinary` of truncated data returns an error. -/
theorem C26_binary {α : Type} {write : Option Wr} {read : Reader α}
    (h : DetectsTruncation write read) :
    ∃ b, marshalBinary write = some (.ok b) ∧
      ∀ p, p <+: b → p ≠ b → unmarshalBinary read p = some (.error ()) := by
  obtain ⟨b, h1, h2⟩ := h
  refine ⟨b, by simp [marshalBinary, h1], fun p hp hne => ?_⟩
  obtain ⟨n, hn⟩ := h2 p hp hne
  simp [unmarshalBinary, hn]

/-! The hypotheses are those of C24; a few cases. -/

example : DetectsTruncation (evkWriteTo ⟨exBRK, exKSK⟩) (evkReadFrom (w := 32) (2 ^ 40)) :=
  C26_evaluationKey (by norm_num) (by norm_num) (by norm_num) exEvk_ok

example : DetectsTruncation (skWriteTo exSK) (skReadFrom (w := 32) (2 ^ 40)) :=
  C26_secretKey (by norm_num) (by norm_num) exSK_ok

example : DetectsTruncation (lweCTWriteTo [(7 : BitVec 32), 8]) (lweCTReadFrom (v := 32) (2 ^ 40)) :=
  C26_lweCiphertext (by norm_num) (by norm_num) (by norm_num)

/-- All but the last byte of a ciphertext: the error reports what was read before. -/
example : lweCTReadFrom (v := 32) (2 ^ 40) (putLenPred 2 ++ [0, 0, 0, 7, 0, 0, 0]) = .err 15 := by
  decide +kernel

end Tfhe.Ser
