import Verif.Model.Marshal
import Verif.Spec.Sink

/-!
# `WriteTo` of every serializable type on an arbitrary writer

`Model/Marshal.lean` has the bytes a `WriteTo` method writes when the writer takes everything.  Here
the same methods are sequences of `Write` calls on a writer that may fail, with the early returns and
the counting of the code.  Slice expressions that panic do so at the point where the code evaluates
them.  Nested loops over rows are one loop over all vectors, as in `Model/Marshal.lean`; `ByteSize`
is taken from there.
-/
namespace Tfhe.Ser

variable {w v : ℕ} {σ : Type}

/-! ## Combinators -/

/-- Return with `n = 0` and no error. -/
def Prog.skip : Prog σ := fun _ st => some ⟨st, [], 0, false⟩

/-- `w.Write(b)`. -/
def Prog.put (b : Bytes) : Prog σ := fun S st =>
  let a := S.write st b
  some ⟨a.1, [⟨b, a.2.1, a.2.2⟩], a.2.1, a.2.2⟩

/-- One step after another, in the pattern
`if nWrite, err = ...; err != nil { return n + nWrite, err }; n += nWrite`, for instance
tfhe/lwe_marshal.go:162-170. -/
def Prog.seq (p q : Prog σ) : Prog σ := fun S st =>
  (p S st).bind fun a =>
    if a.err then some a
    else (q S a.st).map fun b => ⟨b.st, a.log ++ b.log, a.n + b.n, b.err⟩

/-- The same, where an error of the second step returns its own count only
(`return int64(nWrite), err`), for instance tfhe/fft_glwe_marshal.go:198-209. -/
def Prog.seqForget (p q : Prog σ) : Prog σ := fun S st =>
  (p S st).bind fun a =>
    if a.err then some a
    else (q S a.st).map fun b => ⟨b.st, a.log ++ b.log, if b.err then b.n else a.n + b.n, b.err⟩

/-- An expression that may panic. -/
def Prog.eval {α : Type} (x : Option α) (p : α → Prog σ) : Prog σ := fun S st =>
  x.bind fun a => p a S st

/-- `if n < int64(x.ByteSize()) { return n, io.ErrShortWrite }` at the end of a method, for instance
tfhe/lwe_marshal.go:172-176. -/
def Prog.check (p : Prog σ) (size : Option ℕ) : Prog σ := fun S st =>
  (p S st).bind fun a =>
    if a.err then some a
    else size.map fun sz => { a with err := decide (a.n < sz) }

/-- `vecWriteTo`: one `Write` per entry. tfhe/lwe_marshal.go:12-37; the copy in
mktfhe/lwe_marshal.go:13-38. -/
def vecW : List (BitVec v) → Prog σ
  | [] => .skip
  | x :: l => .seq (.put (putWord x)) (vecW l)

/-- A loop of `vecWriteToBuf` or `floatVecWriteToBuf` over vectors with one buffer: one `Write` of the
whole buffer per vector. tfhe/lwe_marshal.go:41-65, tfhe/fft_glwe_marshal.go:12-21; the copies in
mktfhe/lwe_marshal.go:42-66, mktfhe/fft_glwe_marshal.go:14-23. -/
def vecsW : List (List (BitVec v)) → Bytes → Prog σ
  | [], _ => .skip
  | x :: l, buf => .eval (vecWriteToBuf x buf) fun buf' => .seq (.put buf') (vecsW l buf')

/-- The common body of the `WriteTo` methods. tfhe/lwe_marshal.go:159-177. -/
def finishW (header value : Prog σ) (size : Option ℕ) : Prog σ := (header.seq value).check size

/-! ## Gadget parameters -/

/-- `GadgetParameters.WriteTo`. tfhe/params.go:139-163. -/
def gadgetW (g : GadgetParams w) : Prog σ :=
  ((Prog.put (putU64 (g.base.setWidth 64))).seq (.put (putLen g.level))).check (some 16)

/-! ## LWE types -/

/-- `LWESecretKey.WriteTo`. tfhe/lwe_marshal.go:134-177. -/
def lweSKW (x : List (BitVec v)) : Prog σ :=
  finishW (.put (putLen x.length)) (vecW x) (lweSKByteSize x)

/-- `LWEPlaintext.WriteTo`. tfhe/lwe_marshal.go:387-400. -/
def lwePTW (x : BitVec v) : Prog σ := (vecW [x]).check (some (v / 8))

/-- `LWECiphertext.WriteTo`. tfhe/lwe_marshal.go:437-480, mktfhe/lwe_marshal.go:135-178. -/
def lweCTW (x : List (BitVec v)) : Prog σ :=
  finishW (.put (putLenPred x.length)) (vecW x) (lweCTByteSize x)

/-- `headerWriteTo` of the public keys. tfhe/lwe_marshal.go:238-257, tfhe/glwe_marshal.go:164-183. -/
def pkHeaderW (x : List (List (List (BitVec v)))) : Prog σ :=
  (Prog.put (putLen x.length)).seq (.eval (x.head?.bind rank0) fun N => .put (putLen N))

/-- `valueWriteTo` of the public keys. tfhe/lwe_marshal.go:260-276, tfhe/glwe_marshal.go:186-202. -/
def pkValueW (x : List (List (List (BitVec v)))) : Prog σ :=
  .eval (x.head?.bind rank0) fun N => vecsW (x.flatMap id) (zeroBuf (N * (v / 8)))

/-- `WriteTo` of the public keys. tfhe/lwe_marshal.go:285-303, tfhe/glwe_marshal.go:211-229. -/
def pkW (x : List (List (List (BitVec v)))) : Prog σ :=
  finishW (pkHeaderW x) (pkValueW x) (pkByteSize x)

/-- `LevCiphertext.headerWriteTo`. tfhe/lwe_marshal.go:543-569. -/
def levHeaderW (x : Lev w) : Prog σ :=
  (Prog.put (putU64 (x.gadget.base.setWidth 64))).seq ((Prog.put (putLen x.value.length)).seq
    (.eval (rank0 x.value) fun n => .put (putLenPred n)))

/-- `LevCiphertext.valueWriteTo`. tfhe/lwe_marshal.go:572-586. -/
def levValueW (x : Lev w) : Prog σ :=
  .eval (rank0 x.value) fun n => vecsW x.value (zeroBuf (n * (w / 8)))

/-- `LevCiphertext.WriteTo`. tfhe/lwe_marshal.go:596-614. -/
def levW (x : Lev w) : Prog σ := finishW (levHeaderW x) (levValueW x) (levByteSize x)

/-- `GSWCiphertext.headerWriteTo`. tfhe/lwe_marshal.go:701-727. -/
def gswHeaderW (x : GSW w) : Prog σ :=
  (Prog.put (putU64 (x.gadget.base.setWidth 64))).seq (.eval x.value.head? fun row =>
    (Prog.put (putLen row.value.length)).seq (.put (putLenPred x.value.length)))

/-- `GSWCiphertext.valueWriteTo`. tfhe/lwe_marshal.go:730-746. -/
def gswValueW (x : GSW w) : Prog σ :=
  vecsW (x.value.flatMap (·.value)) (zeroBuf (x.value.length * (w / 8)))

/-- `GSWCiphertext.WriteTo`. tfhe/lwe_marshal.go:756-774. -/
def gswW (x : GSW w) : Prog σ := finishW (gswHeaderW x) (gswValueW x) (gswByteSize x)

/-! ## GLWE types -/

/-- `GLWEPlaintext.WriteTo`. tfhe/glwe_marshal.go:311-361. -/
def glwePTW (x : List (BitVec v)) : Prog σ :=
  finishW (.put (putLen x.length)) (vecW x) (some (8 + x.length * (v / 8)))

/-- `valueWriteTo` of the secret keys and ciphertexts. tfhe/glwe_marshal.go:42-56,
tfhe/glwe_marshal.go:446-460, tfhe/fft_glwe_marshal.go:71-85, tfhe/fft_glwe_marshal.go:215-229,
mktfhe/glwe_marshal.go:43-57, mktfhe/fft_glwe_marshal.go:73-87. -/
def polysValueW (x : List (List (BitVec v))) : Prog σ :=
  .eval (rank0 x) fun N => vecsW x (zeroBuf (N * (v / 8)))

/-- `GLWESecretKey.headerWriteTo`. tfhe/glwe_marshal.go:20-39. -/
def glweSKHeaderW (x : List (List (BitVec v))) : Prog σ :=
  (Prog.put (putLen x.length)).seq (.eval (rank0 x) fun N => .put (putLen N))

/-- `GLWESecretKey.WriteTo`. tfhe/glwe_marshal.go:65-83. -/
def glweSKW (x : List (List (BitVec v))) : Prog σ :=
  finishW (glweSKHeaderW x) (polysValueW x) (polysByteSize x)

/-- `FFTGLWESecretKey.headerWriteTo`; an error in the second field forgets the count of the first.
tfhe/fft_glwe_marshal.go:49-68. -/
def fftGLWESKHeaderW (x : List (List (BitVec 64))) : Prog σ :=
  (Prog.put (putLen x.length)).seqForget (.eval (rank0 x) fun N => .put (putLen N))

/-- `FFTGLWESecretKey.WriteTo`. tfhe/fft_glwe_marshal.go:94-112. -/
def fftGLWESKW (x : List (List (BitVec 64))) : Prog σ :=
  finishW (fftGLWESKHeaderW x) (polysValueW x) (polysByteSize x)

/-- `GLWECiphertext.headerWriteTo`. tfhe/glwe_marshal.go:424-443, mktfhe/glwe_marshal.go:21-40. -/
def glweCTHeaderW (x : List (List (BitVec v))) : Prog σ :=
  (Prog.put (putLenPred x.length)).seq (.eval (rank0 x) fun N => .put (putLen N))

/-- `GLWECiphertext.WriteTo`. tfhe/glwe_marshal.go:469-487, mktfhe/glwe_marshal.go:66-84. -/
def glweCTW (x : List (List (BitVec v))) : Prog σ :=
  finishW (glweCTHeaderW x) (polysValueW x) (polysByteSize x)

/-- `FFTGLWECiphertext.headerWriteTo`; an error in the second field forgets the count of the first.
tfhe/fft_glwe_marshal.go:193-212, mktfhe/fft_glwe_marshal.go:51-70. -/
def fftGLWECTHeaderW (x : List (List (BitVec 64))) : Prog σ :=
  (Prog.put (putLenPred x.length)).seqForget (.eval (rank0 x) fun N => .put (putLen N))

/-- `FFTGLWECiphertext.WriteTo`. tfhe/fft_glwe_marshal.go:238-256,
mktfhe/fft_glwe_marshal.go:96-114. -/
def fftGLWECTW (x : List (List (BitVec 64))) : Prog σ :=
  finishW (fftGLWECTHeaderW x) (polysValueW x) (polysByteSize x)

/-- `GLevCiphertext.headerWriteTo`. tfhe/glwe_marshal.go:569-602. -/
def glevHeaderW (x : GLev w v) : Prog σ :=
  (Prog.put (putU64 (x.gadget.base.setWidth 64))).seq ((Prog.put (putLen x.value.length)).seq
    (.eval x.value.head? fun ct => (Prog.put (putLenPred ct.length)).seq
      (.eval (GLev.rank x) fun N => .put (putLen N))))

/-- `FFTGLevCiphertext.headerWriteTo`; an error in a field forgets the counts of the fields before it.
tfhe/fft_glwe_marshal.go:338-371. -/
def fftGLevHeaderW (x : GLev w 64) : Prog σ :=
  (Prog.put (putU64 (x.gadget.base.setWidth 64))).seqForget
    ((Prog.put (putLen x.value.length)).seqForget
      (.eval x.value.head? fun ct => (Prog.put (putLenPred ct.length)).seqForget
        (.eval (GLev.rank x) fun N => .put (putLen N))))

/-- `valueWriteTo`. tfhe/glwe_marshal.go:605-621, tfhe/fft_glwe_marshal.go:374-390. -/
def glevValueW (x : GLev w v) : Prog σ :=
  .eval (GLev.rank x) fun N => vecsW (x.value.flatMap id) (zeroBuf (N * (v / 8)))

/-- `GLevCiphertext.WriteTo`. tfhe/glwe_marshal.go:632-650. -/
def glevW (x : GLev w v) : Prog σ := finishW (glevHeaderW x) (glevValueW x) (glevByteSize x)

/-- `FFTGLevCiphertext.WriteTo`. tfhe/fft_glwe_marshal.go:401-419. -/
def fftGLevW (x : GLev w 64) : Prog σ :=
  finishW (fftGLevHeaderW x) (glevValueW x) (glevByteSize x)

/-- `headerWriteTo` of `GGSWCiphertext` and `FFTGGSWCiphertext`. tfhe/glwe_marshal.go:746-779,
tfhe/fft_glwe_marshal.go:515-548. -/
def ggswHeaderW (x : GGSW w v) : Prog σ :=
  (Prog.put (putU64 (x.gadget.base.setWidth 64))).seq (.eval x.value.head? fun row =>
    (Prog.put (putLen row.value.length)).seq ((Prog.put (putLenPred x.value.length)).seq
      (.eval (GGSW.rank x) fun N => .put (putLen N))))

/-- `valueWriteTo`. tfhe/glwe_marshal.go:782-800, tfhe/fft_glwe_marshal.go:551-569; for the
key-switching keys tfhe/keyswitch_key_marshal.go:242-260; for the uni-encryptions
mktfhe/glwe_marshal.go:194-212, mktfhe/fft_glwe_marshal.go:224-242. -/
def ggswValueW (x : GGSW w v) : Prog σ :=
  .eval (GGSW.rank x) fun N =>
    vecsW (x.value.flatMap fun row => row.value.flatMap id) (zeroBuf (N * (v / 8)))

/-- `WriteTo`. tfhe/glwe_marshal.go:811-829, tfhe/fft_glwe_marshal.go:580-598. -/
def ggswW (x : GGSW w v) : Prog σ := finishW (ggswHeaderW x) (ggswValueW x) (ggswByteSize x)

/-- `headerWriteTo` of the uni-encryptions. mktfhe/glwe_marshal.go:165-191,
mktfhe/fft_glwe_marshal.go:195-221. -/
def uniHeaderW (x : GGSW w v) : Prog σ :=
  (Prog.put (putU64 (x.gadget.base.setWidth 64))).seq (.eval x.value.head? fun row =>
    (Prog.put (putLen row.value.length)).seq (.eval (GGSW.rank x) fun N => .put (putLen N)))

/-- `WriteTo` of the uni-encryptions. mktfhe/glwe_marshal.go:222-240,
mktfhe/fft_glwe_marshal.go:252-270. -/
def uniW (x : GGSW w v) : Prog σ := finishW (uniHeaderW x) (ggswValueW x) (uniByteSize x)

/-! ## Keys -/

/-- `LWEKeySwitchKey.headerWriteTo`. tfhe/keyswitch_key_marshal.go:21-54. -/
def lweKSKHeaderW (x : GSW w) : Prog σ :=
  (Prog.put (putU64 (x.gadget.base.setWidth 64))).seq ((Prog.put (putLen x.gadget.level)).seq
    ((Prog.put (putLen x.value.length)).seq
      (.eval (x.value.head?.bind fun row => rank0 row.value) fun n => .put (putLenPred n))))

/-- `LWEKeySwitchKey.valueWriteTo`. tfhe/keyswitch_key_marshal.go:57-73. -/
def lweKSKValueW (x : GSW w) : Prog σ :=
  .eval (x.value.head?.bind fun row => rank0 row.value) fun n =>
    vecsW (x.value.flatMap (·.value)) (zeroBuf (n * (w / 8)))

/-- `LWEKeySwitchKey.WriteTo`. tfhe/keyswitch_key_marshal.go:84-102. -/
def lweKSKW (x : GSW w) : Prog σ := finishW (lweKSKHeaderW x) (lweKSKValueW x) (lweKSKByteSize x)

/-- `GLWEKeySwitchKey.headerWriteTo`. tfhe/keyswitch_key_marshal.go:199-239. -/
def glweKSKHeaderW (x : GGSW w 64) : Prog σ :=
  (Prog.put (putU64 (x.gadget.base.setWidth 64))).seq ((Prog.put (putLen x.gadget.level)).seq
    ((Prog.put (putLen x.value.length)).seq
      (.eval (x.value.head?.bind fun row => row.value.head?) fun ct =>
        (Prog.put (putLenPred ct.length)).seq (.eval (GGSW.rank x) fun N => .put (putLen N)))))

/-- `GLWEKeySwitchKey.WriteTo`. tfhe/keyswitch_key_marshal.go:272-290. -/
def glweKSKW (x : GGSW w 64) : Prog σ :=
  finishW (glweKSKHeaderW x) (ggswValueW x) (glweKSKByteSize x)

/-- `BlindRotateKey.headerWriteTo`. tfhe/bootstrap_key_marshal.go:125-165. -/
def brkHeaderW (x : BRK w) : Prog σ :=
  (Prog.put (putU64 (x.gadget.base.setWidth 64))).seq ((Prog.put (putLen x.gadget.level)).seq
    ((Prog.put (putLen x.value.length)).seq (.eval x.value.head? fun gg =>
      (Prog.put (putLenPred gg.value.length)).seq (.eval (BRK.rank x) fun N => .put (putLen N)))))

/-- `BlindRotateKey.valueWriteTo`. tfhe/bootstrap_key_marshal.go:168-188. -/
def brkValueW (x : BRK w) : Prog σ :=
  .eval (BRK.rank x) fun N =>
    vecsW (x.value.flatMap fun gg => gg.value.flatMap fun row => row.value.flatMap id)
      (zeroBuf (N * 8))

/-- `BlindRotateKey.WriteTo`. tfhe/bootstrap_key_marshal.go:200-218. -/
def brkW (x : BRK w) : Prog σ := finishW (brkHeaderW x) (brkValueW x) (brkByteSize x)

/-- `EvaluationKey.WriteTo`. tfhe/bootstrap_key_marshal.go:27-63. -/
def evkW (x : EvalKey w) : Prog σ :=
  let present : BitVec 8 := if 0 < x.ksk.value.length then 1 else 0
  ((Prog.put [present]).seq ((brkW x.brk).seq
    (if present = 0 then gadgetW x.ksk.gadget else lweKSKW x.ksk))).check (evkByteSize x)

/-- `SecretKey.headerWriteTo`. tfhe/encryptor_key_marshal.go:20-46. -/
def skHeaderW (x : SecKey w) : Prog σ :=
  (Prog.put (putLen x.lweDimension)).seq ((Prog.put (putLen x.glweRank)).seq
    (.eval (if x.glweRank = 0 then none else some x.polyRank) fun N => .put (putLen N)))

/-- `SecretKey.WriteTo`. tfhe/encryptor_key_marshal.go:57-80. -/
def skW (x : SecKey w) : Prog σ :=
  ((skHeaderW x).seq ((vecW x.large).seq (polysValueW x.fft))).check (skByteSize x)

/-- `PublicKey.WriteTo`. tfhe/encryptor_key_marshal.go:157-175. -/
def pubKeyW (x : PubKey w) : Prog σ := ((pkW x.lweKey).seq (pkW x.glweKey)).check (pubKeyByteSize x)

/-- `mktfhe.EvaluationKey.WriteTo`. mktfhe/bootstrap_key_marshal.go:20-43. -/
def mkEvkW (x : MKEvalKey w) : Prog σ :=
  ((evkW x.evk).seq ((fftGLevW x.crs).seq (uniW x.relin))).check (mkEvkByteSize x)

/-! ## Parameters -/

/-- `Parameters.WriteTo`. tfhe/params.go:736-818. -/
def paramsW (p : Params w) : Prog σ :=
  ((Prog.put (putU64 p.lweDimension)).seq ((Prog.put (putU64 p.glweRank)).seq
  ((Prog.put (putU64 p.polyRank)).seq ((Prog.put (putU64 p.lutSize)).seq
  ((Prog.put (putU64 p.lweStdDev)).seq ((Prog.put (putU64 p.glweStdDev)).seq
  ((Prog.put (putU64 p.blockSize)).seq ((Prog.put (putU64 (p.messageModulus.setWidth 64))).seq
  ((gadgetW p.blindRotateParams).seq ((gadgetW p.keySwitchParams).seq
    (.put [p.bootstrapOrder.setWidth 8]))))))))))).check (some (8 * 8 + 16 + 16 + 1))

/-- `mktfhe.Parameters.WriteTo`. mktfhe/params.go:313-345. -/
def mkParamsW (p : MKParams w) : Prog σ :=
  ((paramsW p.subParams).seq ((Prog.put (putU64 p.partyCount)).seq
    ((gadgetW p.accumulatorParams).seq (gadgetW p.relinKeyParams)))).check
      (some ((8 * 8 + 16 + 16 + 1) + 8 + 16 + 16))

end Tfhe.Ser
