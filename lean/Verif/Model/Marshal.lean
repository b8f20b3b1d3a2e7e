import Verif.Model.Bytes

/-!
# `WriteTo` and `ReadFrom` of every serializable type

A vector or polynomial is the list of its entries (`float64` entries as bit patterns, width 64), a
ciphertext is a list of vectors or polynomials, and so on, as in the Go structs.  Each type has
`ByteSize`, header, value, `WriteTo` and `ReadFrom`.  `MarshalBinary` is `WriteTo` into an empty
buffer and `UnmarshalBinary` is `ReadFrom`; their bodies are the same for all types
(tfhe/lwe_marshal.go:217-228).  `none` is a panic; `mem` is the longest slice that can be made.
Lengths in `ByteSize` and of byte buffers are natural numbers, not `int`s that can overflow.
The torus types and the `float64` types have the same code up to the entry width, and share the
definitions here where they do.
-/
namespace Tfhe.Ser

variable {w v : ℕ}

/-- `Rank` of the first polynomial; a panic if there is none. -/
def rank0 (x : List (List (BitVec v))) : Option ℕ := x.head?.map List.length

/-! ## Constructors -/

/-- `poly.NewPoly`, `poly.NewFFTPoly`. math/poly/poly.go:19-28, math/poly/poly.go:84-93. -/
def newPoly (mem : ℕ) (N : BitVec 64) : Option (List (BitVec v)) :=
  (newPolyRank N).bind fun n => if n ≤ mem then some (List.replicate n 0) else none

/-- `NewLWESecretKeyCustom`. tfhe/lwe.go:19-21. -/
def newLWESecretKey (mem : ℕ) (n : BitVec 64) : Option (List (BitVec v)) := mkSlice mem n 0

/-- `NewLWECiphertextCustom`. tfhe/lwe.go:136-138, mktfhe/lwe.go:20-22. -/
def newLWECiphertext (mem : ℕ) (n : BitVec 64) : Option (List (BitVec v)) := mkSlice mem (n + 1) 0

/-- `NewGLWESecretKeyCustom`, `NewFFTGLWESecretKeyCustom`. tfhe/glwe.go:23-29,
tfhe/fft_glwe.go:21-27. -/
def newGLWESecretKey (mem : ℕ) (k N : BitVec 64) : Option (List (List (BitVec v))) :=
  makeEach mem k (newPoly mem N)

/-- `NewGLWECiphertextCustom`, `NewFFTGLWECiphertextCustom`. tfhe/glwe.go:169-175,
tfhe/fft_glwe.go:70-76, mktfhe/glwe.go:26-32, mktfhe/fft_glwe.go:24-30. -/
def newGLWECiphertext (mem : ℕ) (k N : BitVec 64) : Option (List (List (BitVec v))) :=
  makeEach mem (k + 1) (newPoly mem N)

/-- `NewLWEPublicKeyCustom`, `NewGLWEPublicKeyCustom`. tfhe/lwe.go:63-69, tfhe/glwe.go:89-95. -/
def newPublicKey (mem : ℕ) (k N : BitVec 64) : Option (List (List (List (BitVec v)))) :=
  makeEach mem k (newGLWECiphertext mem k N)

/-- A struct with fields `GadgetParams` and `Value`: Lev, GSW, GLev, GGSW and their transforms, the
key-switching keys, the blind rotation key and the uni-encryptions. -/
structure Gad (w : ℕ) (α : Type) where
  gadget : GadgetParams w
  value : List α
deriving DecidableEq

/-- `LevCiphertext`. -/
abbrev Lev (w : ℕ) := Gad w (List (BitVec w))
/-- `GSWCiphertext`; `LWEKeySwitchKey` has the same fields. -/
abbrev GSW (w : ℕ) := Gad w (Lev w)
/-- `GLevCiphertext` at `v = w`, `FFTGLevCiphertext` at `v = 64`. -/
abbrev GLev (w v : ℕ) := Gad w (List (List (BitVec v)))
/-- `GGSWCiphertext`, `FFTGGSWCiphertext`; `GLWEKeySwitchKey`, `UniEncryption` and
`FFTUniEncryption` have the same fields. -/
abbrev GGSW (w v : ℕ) := Gad w (GLev w v)
/-- `BlindRotateKey`. -/
abbrev BRK (w : ℕ) := Gad w (GGSW w 64)

/-- `NewLevCiphertextCustom`. tfhe/lwe.go:173-179. -/
def newLev (mem : ℕ) (n : BitVec 64) (g : GadgetParams w) : Option (Lev w) :=
  (makeEach mem (BitVec.ofNat 64 g.level) (newLWECiphertext mem n)).map (⟨g, ·⟩)

/-- `NewGSWCiphertextCustom`. tfhe/lwe.go:225-231. -/
def newGSW (mem : ℕ) (n : BitVec 64) (g : GadgetParams w) : Option (GSW w) :=
  (makeEach mem (n + 1) (newLev mem n g)).map (⟨g, ·⟩)

/-- `NewGLevCiphertextCustom`, `NewFFTGLevCiphertextCustom`. tfhe/glwe.go:243-249,
tfhe/fft_glwe.go:119-125. -/
def newGLev (mem : ℕ) (k N : BitVec 64) (g : GadgetParams w) : Option (GLev w v) :=
  (makeEach mem (BitVec.ofNat 64 g.level) (newGLWECiphertext mem k N)).map (⟨g, ·⟩)

/-- `NewGGSWCiphertextCustom`, `NewFFTGGSWCiphertextCustom`. tfhe/glwe.go:294-300,
tfhe/fft_glwe.go:169-175. -/
def newGGSW (mem : ℕ) (k N : BitVec 64) (g : GadgetParams w) : Option (GGSW w v) :=
  (makeEach mem (k + 1) (newGLev mem k N g)).map (⟨g, ·⟩)

/-- `NewLWEKeySwitchKeyCustom`. tfhe/keyswitch_key.go:21-27. -/
def newLWEKSK (mem : ℕ) (nIn nOut : BitVec 64) (g : GadgetParams w) : Option (GSW w) :=
  (makeEach mem nIn (newLev mem nOut g)).map (⟨g, ·⟩)

/-- `NewGLWEKeySwitchKeyCustom`. tfhe/keyswitch_key.go:86-92. -/
def newGLWEKSK (mem : ℕ) (kIn kOut N : BitVec 64) (g : GadgetParams w) : Option (GGSW w 64) :=
  (makeEach mem kIn (newGLev mem kOut N g)).map (⟨g, ·⟩)

/-- `NewBlindRotateKeyCustom`. tfhe/bootstrap_key.go:70-76. -/
def newBRK (mem : ℕ) (n k N : BitVec 64) (g : GadgetParams w) : Option (BRK w) :=
  (makeEach mem n (newGGSW mem k N g)).map (⟨g, ·⟩)

/-- `NewUniEncryptionCustom`, `NewFFTUniEncryptionCustom`. mktfhe/glwe.go:116-124,
mktfhe/fft_glwe.go:89-97. -/
def newUni (mem : ℕ) (N : BitVec 64) (g : GadgetParams w) : Option (GGSW w v) :=
  (fill 2 (newGLev mem 1 N g)).map (⟨g, ·⟩)

/-! ## Gadget parameters -/

/-- `GadgetParameters.WriteTo`; `ByteSize` is 16. tfhe/params.go:129-163. -/
def gadgetWriteTo (g : GadgetParams w) : Option Wr :=
  finish (some (putU64 (g.base.setWidth 64))) (some (putLen g.level)) (some 16)

/-- Two header fields and `Compile`, which may panic. -/
def readGadget : Reader (GadgetParams w) :=
  readU64.bind fun base => readU64.bind fun level =>
    .lift (GadgetLit.compile { base := base.setWidth w, level := level })

/-- `GadgetParameters.ReadFrom`. tfhe/params.go:166-188. -/
def gadgetReadFrom : Reader (GadgetParams w) := readGadget

/-! ## LWE types -/

/-- `LWESecretKey.ByteSize`. tfhe/lwe_marshal.go:129-131. -/
def lweSKByteSize (x : List (BitVec v)) : Option ℕ := some (8 + x.length * (v / 8))

/-- `LWESecretKey.WriteTo`. tfhe/lwe_marshal.go:134-177. -/
def lweSKWriteTo (x : List (BitVec v)) : Option Wr :=
  finish (some (putLen x.length)) (some (vecWriteTo x)) (lweSKByteSize x)

/-- `LWESecretKey.headerReadFrom`. tfhe/lwe_marshal.go:180-193. -/
def lweSKHeaderRead (mem : ℕ) : Reader (List (BitVec v)) :=
  readU64.bind fun n => .lift (newLWESecretKey mem n)

/-- `LWESecretKey.ReadFrom`; the count of the value is not added. tfhe/lwe_marshal.go:201-214. -/
def lweSKReadFrom (mem : ℕ) : Reader (List (BitVec v)) :=
  (lweSKHeaderRead mem).bindUncounted vecReadFrom

/-- `LWEPlaintext.WriteTo`; `ByteSize` is the size of an entry. tfhe/lwe_marshal.go:378-400. -/
def lwePTWriteTo (x : BitVec v) : Option Wr :=
  finish (some []) (some (vecWriteTo [x])) (some (v / 8))

/-- `LWEPlaintext.ReadFrom`. tfhe/lwe_marshal.go:403-415. -/
def lwePTReadFrom : Reader (BitVec v) :=
  (vecReadFrom [0]).bind fun l => .lift l.head?

/-- `LWECiphertext.ByteSize`. tfhe/lwe_marshal.go:432-434, mktfhe/lwe_marshal.go:130-132. -/
def lweCTByteSize (x : List (BitVec v)) : Option ℕ := some (8 + x.length * (v / 8))

/-- `LWECiphertext.WriteTo`. tfhe/lwe_marshal.go:437-480, mktfhe/lwe_marshal.go:135-178. -/
def lweCTWriteTo (x : List (BitVec v)) : Option Wr :=
  finish (some (putLenPred x.length)) (some (vecWriteTo x)) (lweCTByteSize x)

/-- `LWECiphertext.ReadFrom`. tfhe/lwe_marshal.go:483-518, mktfhe/lwe_marshal.go:181-216. -/
def lweCTReadFrom (mem : ℕ) : Reader (List (BitVec v)) :=
  (readU64.bind fun n => .lift (newLWECiphertext mem n)).bind vecReadFrom

/-- `LWEPublicKey.ByteSize`, `GLWEPublicKey.ByteSize`. tfhe/lwe_marshal.go:231-235,
tfhe/glwe_marshal.go:156-161. -/
def pkByteSize (x : List (List (List (BitVec v)))) : Option ℕ :=
  (x.head?.bind rank0).map fun N => 16 + x.length * (x.length + 1) * N * (v / 8)

/-- `headerWriteTo` of the public keys. tfhe/lwe_marshal.go:238-257, tfhe/glwe_marshal.go:164-183. -/
def pkHeader (x : List (List (List (BitVec v)))) : Option Bytes :=
  (x.head?.bind rank0).map fun N => putLen x.length ++ putLen N

/-- `valueWriteTo` of the public keys. tfhe/lwe_marshal.go:260-276, tfhe/glwe_marshal.go:186-202. -/
def pkValue (x : List (List (List (BitVec v)))) : Option Bytes :=
  (x.head?.bind rank0).bind fun N => writeVecs (x.flatMap id) (zeroBuf (N * (v / 8)))

/-- `WriteTo` of the public keys. tfhe/lwe_marshal.go:285-303, tfhe/glwe_marshal.go:211-229. -/
def pkWriteTo (x : List (List (List (BitVec v)))) : Option Wr :=
  finish (pkHeader x) (pkValue x) (pkByteSize x)

/-- `headerReadFrom` of the public keys. tfhe/lwe_marshal.go:306-325,
tfhe/glwe_marshal.go:232-251. -/
def pkHeaderRead (mem : ℕ) : Reader (List (List (List (BitVec v)))) :=
  readU64.bind fun k => readU64.bind fun N => .lift (newPublicKey mem k N)

/-- `valueReadFrom` of the public keys. tfhe/lwe_marshal.go:328-344, tfhe/glwe_marshal.go:254-270. -/
def pkValueRead (x : List (List (List (BitVec v)))) : Reader (List (List (List (BitVec v)))) :=
  (Reader.lift (x.head?.bind rank0)).bind fun N =>
    readEach (readEach (vecReadFromBuf (N * (v / 8)))) x

/-- `ReadFrom` of the public keys. tfhe/lwe_marshal.go:347-361, tfhe/glwe_marshal.go:273-287. -/
def pkReadFrom (mem : ℕ) : Reader (List (List (List (BitVec v)))) :=
  (pkHeaderRead mem).bind pkValueRead

/-- `LevCiphertext.ByteSize`. tfhe/lwe_marshal.go:535-540. -/
def levByteSize (x : Lev w) : Option ℕ :=
  (rank0 x.value).map fun n => 24 + x.value.length * n * (w / 8)

/-- `LevCiphertext.headerWriteTo`. tfhe/lwe_marshal.go:543-569. -/
def levHeader (x : Lev w) : Option Bytes :=
  (rank0 x.value).map fun n =>
    putU64 (x.gadget.base.setWidth 64) ++ putLen x.value.length ++ putLenPred n

/-- `LevCiphertext.valueWriteTo`. tfhe/lwe_marshal.go:572-586. -/
def levValue (x : Lev w) : Option Bytes :=
  (rank0 x.value).bind fun n => writeVecs x.value (zeroBuf (n * (w / 8)))

/-- `LevCiphertext.WriteTo`. tfhe/lwe_marshal.go:596-614. -/
def levWriteTo (x : Lev w) : Option Wr := finish (levHeader x) (levValue x) (levByteSize x)

/-- `LevCiphertext.headerReadFrom`. tfhe/lwe_marshal.go:617-642. -/
def levHeaderRead (mem : ℕ) : Reader (Lev w) :=
  readU64.bind fun base => readU64.bind fun level => readU64.bind fun n =>
    .lift ((GadgetLit.compile { base := base.setWidth w, level := level }).bind (newLev mem n))

/-- `LevCiphertext.valueReadFrom`. tfhe/lwe_marshal.go:645-659. -/
def levValueRead (x : Lev w) : Reader (Lev w) :=
  (Reader.lift (rank0 x.value)).bind fun n =>
    (readEach (vecReadFromBuf (n * (w / 8))) x.value).map (⟨x.gadget, ·⟩)

/-- `LevCiphertext.ReadFrom`. tfhe/lwe_marshal.go:662-676. -/
def levReadFrom (mem : ℕ) : Reader (Lev w) := (levHeaderRead mem).bind levValueRead

/-- `GSWCiphertext.ByteSize`. tfhe/lwe_marshal.go:693-698. -/
def gswByteSize (x : GSW w) : Option ℕ :=
  x.value.head?.map fun row => 24 + x.value.length * row.value.length * x.value.length * (w / 8)

/-- `GSWCiphertext.headerWriteTo`. tfhe/lwe_marshal.go:701-727. -/
def gswHeader (x : GSW w) : Option Bytes :=
  x.value.head?.map fun row =>
    putU64 (x.gadget.base.setWidth 64) ++ putLen row.value.length ++ putLenPred x.value.length

/-- `GSWCiphertext.valueWriteTo`. tfhe/lwe_marshal.go:730-746. -/
def gswValue (x : GSW w) : Option Bytes :=
  writeVecs (x.value.flatMap (·.value)) (zeroBuf (x.value.length * (w / 8)))

/-- `GSWCiphertext.WriteTo`. tfhe/lwe_marshal.go:756-774. -/
def gswWriteTo (x : GSW w) : Option Wr := finish (gswHeader x) (gswValue x) (gswByteSize x)

/-- `GSWCiphertext.headerReadFrom`. tfhe/lwe_marshal.go:777-802. -/
def gswHeaderRead (mem : ℕ) : Reader (GSW w) :=
  readU64.bind fun base => readU64.bind fun level => readU64.bind fun n =>
    .lift ((GadgetLit.compile { base := base.setWidth w, level := level }).bind (newGSW mem n))

/-- The loops over the rows of a GSW ciphertext or key-switching key. -/
def readLevs (len : ℕ) (x : GSW w) : Reader (GSW w) :=
  (readEach (fun (row : Lev w) =>
    (readEach (vecReadFromBuf len) row.value).map (⟨row.gadget, ·⟩)) x.value).map (⟨x.gadget, ·⟩)

/-- `GSWCiphertext.valueReadFrom`. tfhe/lwe_marshal.go:805-821. -/
def gswValueRead (x : GSW w) : Reader (GSW w) := readLevs (x.value.length * (w / 8)) x

/-- `GSWCiphertext.ReadFrom`. tfhe/lwe_marshal.go:824-838. -/
def gswReadFrom (mem : ℕ) : Reader (GSW w) := (gswHeaderRead mem).bind gswValueRead

/-! ## GLWE types -/

/-- `GLWEPlaintext.WriteTo`. tfhe/glwe_marshal.go:304-361. -/
def glwePTWriteTo (x : List (BitVec v)) : Option Wr :=
  finish (some (putLen x.length)) (some (vecWriteTo x)) (some (8 + x.length * (v / 8)))

/-- `GLWEPlaintext.ReadFrom`; the constructor is tfhe/glwe.go:132-134.
tfhe/glwe_marshal.go:364-399. -/
def glwePTReadFrom (mem : ℕ) : Reader (List (BitVec v)) :=
  (readU64.bind fun N => .lift (newPoly mem N)).bind vecReadFrom

/-- `ByteSize` of `GLWESecretKey`, `FFTGLWESecretKey`, `GLWECiphertext` and `FFTGLWECiphertext`.
tfhe/glwe_marshal.go:12-17, tfhe/glwe_marshal.go:416-421, tfhe/fft_glwe_marshal.go:41-46,
tfhe/fft_glwe_marshal.go:185-190, mktfhe/glwe_marshal.go:13-18, mktfhe/fft_glwe_marshal.go:43-48. -/
def polysByteSize (x : List (List (BitVec v))) : Option ℕ :=
  (rank0 x).map fun N => 16 + x.length * N * (v / 8)

/-- `valueWriteTo` of these types. tfhe/glwe_marshal.go:42-56, tfhe/glwe_marshal.go:446-460,
tfhe/fft_glwe_marshal.go:71-85, tfhe/fft_glwe_marshal.go:215-229, mktfhe/glwe_marshal.go:43-57,
mktfhe/fft_glwe_marshal.go:73-87. -/
def polysValue (x : List (List (BitVec v))) : Option Bytes :=
  (rank0 x).bind fun N => writeVecs x (zeroBuf (N * (v / 8)))

/-- `valueReadFrom` of these types. tfhe/glwe_marshal.go:108-122, tfhe/glwe_marshal.go:512-526,
tfhe/fft_glwe_marshal.go:137-151, tfhe/fft_glwe_marshal.go:281-295, mktfhe/glwe_marshal.go:109-123,
mktfhe/fft_glwe_marshal.go:139-153. -/
def polysValueRead (x : List (List (BitVec v))) : Reader (List (List (BitVec v))) :=
  (Reader.lift (rank0 x)).bind fun N => readEach (vecReadFromBuf (N * (v / 8))) x

/-- `headerWriteTo` of the secret keys. tfhe/glwe_marshal.go:20-39, tfhe/fft_glwe_marshal.go:49-68. -/
def glweSKHeader (x : List (List (BitVec v))) : Option Bytes :=
  (rank0 x).map fun N => putLen x.length ++ putLen N

/-- `WriteTo` of the secret keys. tfhe/glwe_marshal.go:65-83, tfhe/fft_glwe_marshal.go:94-112. -/
def glweSKWriteTo (x : List (List (BitVec v))) : Option Wr :=
  finish (glweSKHeader x) (polysValue x) (polysByteSize x)

/-- `GLWESecretKey.ReadFrom`. tfhe/glwe_marshal.go:86-105, tfhe/glwe_marshal.go:125-139. -/
def glweSKReadFrom (mem : ℕ) : Reader (List (List (BitVec v))) :=
  (readU64.bind fun k => readU64.bind fun N => .lift (newGLWESecretKey mem k N)).bind polysValueRead

/-- `FFTGLWESecretKey.ReadFrom`; an error in the second header field forgets the count of the first.
tfhe/fft_glwe_marshal.go:115-134, tfhe/fft_glwe_marshal.go:154-168. -/
def fftGLWESKReadFrom (mem : ℕ) : Reader (List (List (BitVec 64))) :=
  (readU64.bindForget fun k => readU64.bind fun N =>
    .lift (newGLWESecretKey mem k N)).bind polysValueRead

/-- `headerWriteTo` of the ciphertexts. tfhe/glwe_marshal.go:424-443,
tfhe/fft_glwe_marshal.go:193-212, mktfhe/glwe_marshal.go:21-40, mktfhe/fft_glwe_marshal.go:51-70. -/
def glweCTHeader (x : List (List (BitVec v))) : Option Bytes :=
  (rank0 x).map fun N => putLenPred x.length ++ putLen N

/-- `WriteTo` of the ciphertexts. tfhe/glwe_marshal.go:469-487, tfhe/fft_glwe_marshal.go:238-256,
mktfhe/glwe_marshal.go:66-84, mktfhe/fft_glwe_marshal.go:96-114. -/
def glweCTWriteTo (x : List (List (BitVec v))) : Option Wr :=
  finish (glweCTHeader x) (polysValue x) (polysByteSize x)

/-- `GLWECiphertext.ReadFrom`. tfhe/glwe_marshal.go:490-509, tfhe/glwe_marshal.go:529-543,
mktfhe/glwe_marshal.go:87-106, mktfhe/glwe_marshal.go:126-140. -/
def glweCTReadFrom (mem : ℕ) : Reader (List (List (BitVec v))) :=
  (readU64.bind fun k => readU64.bind fun N => .lift (newGLWECiphertext mem k N)).bind polysValueRead

/-- `FFTGLWECiphertext.ReadFrom`; an error in the second header field forgets the count of the first.
tfhe/fft_glwe_marshal.go:259-278, tfhe/fft_glwe_marshal.go:298-312,
mktfhe/fft_glwe_marshal.go:117-136, mktfhe/fft_glwe_marshal.go:156-170. -/
def fftGLWECTReadFrom (mem : ℕ) : Reader (List (List (BitVec 64))) :=
  (readU64.bindForget fun k => readU64.bind fun N =>
    .lift (newGLWECiphertext mem k N)).bind polysValueRead

/-- `Value[0].Value[0].Rank()` of a GLev ciphertext. -/
def GLev.rank (x : GLev w v) : Option ℕ := x.value.head?.bind rank0

/-- `Value[0].Value[0].Value[0].Rank()` of a GGSW ciphertext. -/
def GGSW.rank (x : GGSW w v) : Option ℕ := x.value.head?.bind GLev.rank

/-- `GLevCiphertext.ByteSize`, `FFTGLevCiphertext.ByteSize`. tfhe/glwe_marshal.go:560-566,
tfhe/fft_glwe_marshal.go:329-335. -/
def glevByteSize (x : GLev w v) : Option ℕ :=
  x.value.head?.bind fun ct => (GLev.rank x).map fun N =>
    32 + x.value.length * ct.length * N * (v / 8)

/-- `headerWriteTo`. tfhe/glwe_marshal.go:569-602, tfhe/fft_glwe_marshal.go:338-371. -/
def glevHeader (x : GLev w v) : Option Bytes :=
  x.value.head?.bind fun ct => (GLev.rank x).map fun N =>
    putU64 (x.gadget.base.setWidth 64) ++ putLen x.value.length ++ putLenPred ct.length ++ putLen N

/-- `valueWriteTo`. tfhe/glwe_marshal.go:605-621, tfhe/fft_glwe_marshal.go:374-390. -/
def glevValue (x : GLev w v) : Option Bytes :=
  (GLev.rank x).bind fun N => writeVecs (x.value.flatMap id) (zeroBuf (N * (v / 8)))

/-- `WriteTo`. tfhe/glwe_marshal.go:632-650, tfhe/fft_glwe_marshal.go:401-419. -/
def glevWriteTo (x : GLev w v) : Option Wr := finish (glevHeader x) (glevValue x) (glevByteSize x)

/-- `headerReadFrom`. tfhe/glwe_marshal.go:653-684, tfhe/fft_glwe_marshal.go:422-453. -/
def glevHeaderRead (mem : ℕ) : Reader (GLev w v) :=
  readU64.bind fun base => readU64.bind fun level => readU64.bind fun k => readU64.bind fun N =>
    .lift ((GadgetLit.compile { base := base.setWidth w, level := level }).bind (newGLev mem k N))

/-- `valueReadFrom`. tfhe/glwe_marshal.go:687-703, tfhe/fft_glwe_marshal.go:456-472. -/
def glevValueRead (x : GLev w v) : Reader (GLev w v) :=
  (Reader.lift (GLev.rank x)).bind fun N =>
    (readEach (readEach (vecReadFromBuf (N * (v / 8)))) x.value).map (⟨x.gadget, ·⟩)

/-- `ReadFrom`. tfhe/glwe_marshal.go:706-720, tfhe/fft_glwe_marshal.go:475-489. -/
def glevReadFrom (mem : ℕ) : Reader (GLev w v) := (glevHeaderRead mem).bind glevValueRead

/-- `GGSWCiphertext.ByteSize`, `FFTGGSWCiphertext.ByteSize`. tfhe/glwe_marshal.go:737-743,
tfhe/fft_glwe_marshal.go:506-512. -/
def ggswByteSize (x : GGSW w v) : Option ℕ :=
  x.value.head?.bind fun row => (GGSW.rank x).map fun N =>
    32 + x.value.length * row.value.length * x.value.length * N * (v / 8)

/-- `headerWriteTo`. tfhe/glwe_marshal.go:746-779, tfhe/fft_glwe_marshal.go:515-548. -/
def ggswHeader (x : GGSW w v) : Option Bytes :=
  x.value.head?.bind fun row => (GGSW.rank x).map fun N =>
    putU64 (x.gadget.base.setWidth 64) ++ putLen row.value.length ++ putLenPred x.value.length
      ++ putLen N

/-- `valueWriteTo`. tfhe/glwe_marshal.go:782-800, tfhe/fft_glwe_marshal.go:551-569; for the
key-switching keys tfhe/keyswitch_key_marshal.go:242-260; for the uni-encryptions
mktfhe/glwe_marshal.go:194-212, mktfhe/fft_glwe_marshal.go:224-242. -/
def ggswValue (x : GGSW w v) : Option Bytes :=
  (GGSW.rank x).bind fun N =>
    writeVecs (x.value.flatMap fun row => row.value.flatMap id) (zeroBuf (N * (v / 8)))

/-- `WriteTo`. tfhe/glwe_marshal.go:811-829, tfhe/fft_glwe_marshal.go:580-598. -/
def ggswWriteTo (x : GGSW w v) : Option Wr := finish (ggswHeader x) (ggswValue x) (ggswByteSize x)

/-- `headerReadFrom`. tfhe/glwe_marshal.go:832-863, tfhe/fft_glwe_marshal.go:601-632. -/
def ggswHeaderRead (mem : ℕ) : Reader (GGSW w v) :=
  readU64.bind fun base => readU64.bind fun level => readU64.bind fun k => readU64.bind fun N =>
    .lift ((GadgetLit.compile { base := base.setWidth w, level := level }).bind (newGGSW mem k N))

/-- The loops over the rows of a GGSW ciphertext. -/
def readGLevs (len : ℕ) (x : GGSW w v) : Reader (GGSW w v) :=
  (readEach (fun (row : GLev w v) =>
    (readEach (readEach (vecReadFromBuf len)) row.value).map (⟨row.gadget, ·⟩)) x.value).map
      (⟨x.gadget, ·⟩)

/-- `valueReadFrom`. tfhe/glwe_marshal.go:866-884, tfhe/fft_glwe_marshal.go:635-653; for the
key-switching keys tfhe/keyswitch_key_marshal.go:333-351; for the uni-encryptions
mktfhe/glwe_marshal.go:271-289, mktfhe/fft_glwe_marshal.go:301-319. -/
def ggswValueRead (x : GGSW w v) : Reader (GGSW w v) :=
  (Reader.lift (GGSW.rank x)).bind fun N => readGLevs (N * (v / 8)) x

/-- `ReadFrom`. tfhe/glwe_marshal.go:887-901, tfhe/fft_glwe_marshal.go:656-670. -/
def ggswReadFrom (mem : ℕ) : Reader (GGSW w v) := (ggswHeaderRead mem).bind ggswValueRead

/-! ## Keys -/

/-- `LWEKeySwitchKey.ByteSize`. tfhe/keyswitch_key_marshal.go:12-18. -/
def lweKSKByteSize (x : GSW w) : Option ℕ :=
  x.value.head?.bind fun row => (rank0 row.value).map fun n =>
    32 + x.value.length * row.value.length * n * (w / 8)

/-- `LWEKeySwitchKey.headerWriteTo`. tfhe/keyswitch_key_marshal.go:21-54. -/
def lweKSKHeader (x : GSW w) : Option Bytes :=
  x.value.head?.bind fun row => (rank0 row.value).map fun n =>
    putU64 (x.gadget.base.setWidth 64) ++ putLen x.gadget.level ++ putLen x.value.length
      ++ putLenPred n

/-- `LWEKeySwitchKey.valueWriteTo`. tfhe/keyswitch_key_marshal.go:57-73. -/
def lweKSKValue (x : GSW w) : Option Bytes :=
  x.value.head?.bind fun row => (rank0 row.value).bind fun n =>
    writeVecs (x.value.flatMap (·.value)) (zeroBuf (n * (w / 8)))

/-- `LWEKeySwitchKey.WriteTo`. tfhe/keyswitch_key_marshal.go:84-102. -/
def lweKSKWriteTo (x : GSW w) : Option Wr :=
  finish (lweKSKHeader x) (lweKSKValue x) (lweKSKByteSize x)

/-- `LWEKeySwitchKey.headerReadFrom`. tfhe/keyswitch_key_marshal.go:105-136. -/
def lweKSKHeaderRead (mem : ℕ) : Reader (GSW w) :=
  readU64.bind fun base => readU64.bind fun level => readU64.bind fun nIn =>
    readU64.bind fun nOut =>
    .lift ((GadgetLit.compile { base := base.setWidth w, level := level }).bind
      (newLWEKSK mem nIn nOut))

/-- `LWEKeySwitchKey.valueReadFrom`. tfhe/keyswitch_key_marshal.go:139-155. -/
def lweKSKValueRead (x : GSW w) : Reader (GSW w) :=
  (Reader.lift (x.value.head?.bind fun row => rank0 row.value)).bind fun n =>
    readLevs (n * (w / 8)) x

/-- `LWEKeySwitchKey.ReadFrom`. tfhe/keyswitch_key_marshal.go:158-172. -/
def lweKSKReadFrom (mem : ℕ) : Reader (GSW w) := (lweKSKHeaderRead mem).bind lweKSKValueRead

/-- `GLWEKeySwitchKey.ByteSize`. tfhe/keyswitch_key_marshal.go:189-196. -/
def glweKSKByteSize (x : GGSW w 64) : Option ℕ :=
  x.value.head?.bind fun row => row.value.head?.bind fun ct => (GGSW.rank x).map fun N =>
    40 + x.value.length * row.value.length * ct.length * N * 8

/-- `GLWEKeySwitchKey.headerWriteTo`. tfhe/keyswitch_key_marshal.go:199-239. -/
def glweKSKHeader (x : GGSW w 64) : Option Bytes :=
  x.value.head?.bind fun row => row.value.head?.bind fun ct => (GGSW.rank x).map fun N =>
    putU64 (x.gadget.base.setWidth 64) ++ putLen x.gadget.level ++ putLen x.value.length
      ++ putLenPred ct.length ++ putLen N

/-- `GLWEKeySwitchKey.WriteTo`. tfhe/keyswitch_key_marshal.go:272-290. -/
def glweKSKWriteTo (x : GGSW w 64) : Option Wr :=
  finish (glweKSKHeader x) (ggswValue x) (glweKSKByteSize x)

/-- `GLWEKeySwitchKey.headerReadFrom`. tfhe/keyswitch_key_marshal.go:293-330. -/
def glweKSKHeaderRead (mem : ℕ) : Reader (GGSW w 64) :=
  readU64.bind fun base => readU64.bind fun level => readU64.bind fun kIn =>
    readU64.bind fun kOut => readU64.bind fun N =>
    .lift ((GadgetLit.compile { base := base.setWidth w, level := level }).bind
      (newGLWEKSK mem kIn kOut N))

/-- `GLWEKeySwitchKey.ReadFrom`. tfhe/keyswitch_key_marshal.go:354-368. -/
def glweKSKReadFrom (mem : ℕ) : Reader (GGSW w 64) := (glweKSKHeaderRead mem).bind ggswValueRead

/-- `Value[0].Value[0].Value[0].Value[0].Rank()` of a blind rotation key. -/
def BRK.rank (x : BRK w) : Option ℕ := x.value.head?.bind GGSW.rank

/-- `BlindRotateKey.ByteSize`. tfhe/bootstrap_key_marshal.go:115-122. -/
def brkByteSize (x : BRK w) : Option ℕ :=
  x.value.head?.bind fun gg => gg.value.head?.bind fun row => (BRK.rank x).map fun N =>
    40 + x.value.length * gg.value.length * row.value.length * gg.value.length * N * 8

/-- `BlindRotateKey.headerWriteTo`. tfhe/bootstrap_key_marshal.go:125-165. -/
def brkHeader (x : BRK w) : Option Bytes :=
  x.value.head?.bind fun gg => (BRK.rank x).map fun N =>
    putU64 (x.gadget.base.setWidth 64) ++ putLen x.gadget.level ++ putLen x.value.length
      ++ putLenPred gg.value.length ++ putLen N

/-- `BlindRotateKey.valueWriteTo`. tfhe/bootstrap_key_marshal.go:168-188. -/
def brkValue (x : BRK w) : Option Bytes :=
  (BRK.rank x).bind fun N =>
    writeVecs (x.value.flatMap fun gg => gg.value.flatMap fun row => row.value.flatMap id)
      (zeroBuf (N * 8))

/-- `BlindRotateKey.WriteTo`. tfhe/bootstrap_key_marshal.go:200-218. -/
def brkWriteTo (x : BRK w) : Option Wr := finish (brkHeader x) (brkValue x) (brkByteSize x)

/-- `BlindRotateKey.headerReadFrom`. tfhe/bootstrap_key_marshal.go:221-258. -/
def brkHeaderRead (mem : ℕ) : Reader (BRK w) :=
  readU64.bind fun base => readU64.bind fun level => readU64.bind fun n =>
    readU64.bind fun k => readU64.bind fun N =>
    .lift ((GadgetLit.compile { base := base.setWidth w, level := level }).bind (newBRK mem n k N))

/-- `BlindRotateKey.valueReadFrom`. tfhe/bootstrap_key_marshal.go:261-281. -/
def brkValueRead (x : BRK w) : Reader (BRK w) :=
  (Reader.lift (BRK.rank x)).bind fun N =>
    (readEach (readGLevs (N * 8)) x.value).map (⟨x.gadget, ·⟩)

/-- `BlindRotateKey.ReadFrom`. tfhe/bootstrap_key_marshal.go:284-298. -/
def brkReadFrom (mem : ℕ) : Reader (BRK w) := (brkHeaderRead mem).bind brkValueRead

/-- `EvaluationKey`. tfhe/bootstrap_key.go:7-12. -/
structure EvalKey (w : ℕ) where
  brk : BRK w
  ksk : GSW w
deriving DecidableEq

/-- `EvaluationKey.ByteSize`. tfhe/bootstrap_key_marshal.go:10-16. -/
def evkByteSize (x : EvalKey w) : Option ℕ :=
  (brkByteSize x.brk).bind fun b =>
    if 0 < x.ksk.value.length then (lweKSKByteSize x.ksk).map fun k => 1 + b + k
    else some (1 + b + 16)

/-- `EvaluationKey.WriteTo`. tfhe/bootstrap_key_marshal.go:27-63. -/
def evkWriteTo (x : EvalKey w) : Option Wr :=
  let present : BitVec 8 := if 0 < x.ksk.value.length then 1 else 0
  Wr.check (Wr.andThen (some ⟨[present], false⟩) (Wr.andThen (brkWriteTo x.brk)
    (if present = 0 then gadgetWriteTo x.ksk.gadget else lweKSKWriteTo x.ksk))) (evkByteSize x)

/-- `EvaluationKey.ReadFrom`. tfhe/bootstrap_key_marshal.go:66-98. -/
def evkReadFrom (mem : ℕ) : Reader (EvalKey w) :=
  (readFull 1).bind fun b => (Reader.lift b.head?).bind fun present =>
  (brkReadFrom mem).bind fun brk =>
    if present = 0 then
      gadgetReadFrom.bind fun g => (Reader.lift (newLWEKSK mem 0 0 g)).map fun ksk => ⟨brk, ksk⟩
    else (lweKSKReadFrom mem).map fun ksk => ⟨brk, ksk⟩

/-- `SecretKey`.  `LWEKey` and `GLWEKey` are views of `LWELargeKey` (the prefix of length
`lweDimension`, and `glweRank` chunks of length `polyRank`), so only their lengths are kept.
tfhe/encryptor_key.go:14-27. -/
structure SecKey (w : ℕ) where
  lweDimension : ℕ
  glweRank : ℕ
  polyRank : ℕ
  large : List (BitVec w)
  fft : List (List (BitVec 64))
deriving DecidableEq

/-- `NewSecretKeyCustom`; the slice expressions panic when out of bounds.
tfhe/encryptor_key.go:52-69. -/
def newSecretKey (mem : ℕ) (n k N : BitVec 64) : Option (SecKey w) :=
  (mkSlice mem (k * N) 0).bind fun large =>
  (mkSlice mem k ()).bind fun polys =>
    if (List.range polys.length).all fun i =>
        decide (0 ≤ (BitVec.ofNat 64 i * N).toInt) &&
        decide ((BitVec.ofNat 64 i * N).toInt ≤ ((BitVec.ofNat 64 i + 1) * N).toInt) &&
        decide (((BitVec.ofNat 64 i + 1) * N).toInt ≤ large.length) then
      (newGLWESecretKey mem k N).bind fun fft =>
        if n.toInt < 0 ∨ (large.length : ℤ) < n.toInt then none
        else some ⟨n.toNat, polys.length, N.toNat, large, fft⟩
    else none

/-- `SecretKey.ByteSize`; `GLWEKey.Value[0]` panics if there is none.
tfhe/encryptor_key_marshal.go:12-17. -/
def skByteSize (x : SecKey w) : Option ℕ :=
  if x.glweRank = 0 then none
  else some (24 + x.glweRank * x.polyRank * (w / 8) + x.glweRank * x.polyRank * 8)

/-- `SecretKey.headerWriteTo`. tfhe/encryptor_key_marshal.go:20-46. -/
def skHeader (x : SecKey w) : Option Bytes :=
  if x.glweRank = 0 then none
  else some (putLen x.lweDimension ++ putLen x.glweRank ++ putLen x.polyRank)

/-- `SecretKey.WriteTo`. tfhe/encryptor_key_marshal.go:57-80. -/
def skWriteTo (x : SecKey w) : Option Wr :=
  finish (skHeader x) ((polysValue x.fft).map (vecWriteTo x.large ++ ·)) (skByteSize x)

/-- `SecretKey.headerReadFrom`. tfhe/encryptor_key_marshal.go:83-108. -/
def skHeaderRead (mem : ℕ) : Reader (SecKey w) :=
  readU64.bind fun n => readU64.bind fun k => readU64.bind fun N => .lift (newSecretKey mem n k N)

/-- `SecretKey.ReadFrom`. tfhe/encryptor_key_marshal.go:111-130. -/
def skReadFrom (mem : ℕ) : Reader (SecKey w) :=
  (skHeaderRead mem).bind fun x => (vecReadFrom x.large).bind fun large =>
    (polysValueRead x.fft).map fun fft => { x with large := large, fft := fft }

/-- `PublicKey`. tfhe/encryptor_key.go:110-119. -/
structure PubKey (w : ℕ) where
  lweKey : List (List (List (BitVec w)))
  glweKey : List (List (List (BitVec w)))
deriving DecidableEq

/-- `PublicKey.ByteSize`. tfhe/encryptor_key_marshal.go:147-149. -/
def pubKeyByteSize (x : PubKey w) : Option ℕ :=
  (pkByteSize x.lweKey).bind fun a => (pkByteSize x.glweKey).map (a + ·)

/-- `PublicKey.WriteTo`. tfhe/encryptor_key_marshal.go:157-175. -/
def pubKeyWriteTo (x : PubKey w) : Option Wr :=
  Wr.check (Wr.andThen (pkWriteTo x.lweKey) (pkWriteTo x.glweKey)) (pubKeyByteSize x)

/-- `PublicKey.ReadFrom`. tfhe/encryptor_key_marshal.go:178-192. -/
def pubKeyReadFrom (mem : ℕ) : Reader (PubKey w) :=
  (pkReadFrom mem).bind fun a => (pkReadFrom mem).map fun b => ⟨a, b⟩

/-! ## Multi-key types -/

/-- `UniEncryption.ByteSize`, `FFTUniEncryption.ByteSize`. mktfhe/glwe_marshal.go:157-162,
mktfhe/fft_glwe_marshal.go:187-192. -/
def uniByteSize (x : GGSW w v) : Option ℕ :=
  x.value.head?.bind fun row => (GGSW.rank x).map fun N =>
    24 + 2 * row.value.length * 2 * N * (v / 8)

/-- `headerWriteTo`. mktfhe/glwe_marshal.go:165-191, mktfhe/fft_glwe_marshal.go:195-221. -/
def uniHeader (x : GGSW w v) : Option Bytes :=
  x.value.head?.bind fun row => (GGSW.rank x).map fun N =>
    putU64 (x.gadget.base.setWidth 64) ++ putLen row.value.length ++ putLen N

/-- `WriteTo`. mktfhe/glwe_marshal.go:222-240, mktfhe/fft_glwe_marshal.go:252-270. -/
def uniWriteTo (x : GGSW w v) : Option Wr := finish (uniHeader x) (ggswValue x) (uniByteSize x)

/-- `headerReadFrom`. mktfhe/glwe_marshal.go:243-268, mktfhe/fft_glwe_marshal.go:273-298. -/
def uniHeaderRead (mem : ℕ) : Reader (GGSW w v) :=
  readU64.bind fun base => readU64.bind fun level => readU64.bind fun N =>
    .lift ((GadgetLit.compile { base := base.setWidth w, level := level }).bind (newUni mem N))

/-- `ReadFrom`. mktfhe/glwe_marshal.go:292-306, mktfhe/fft_glwe_marshal.go:322-336. -/
def uniReadFrom (mem : ℕ) : Reader (GGSW w v) := (uniHeaderRead mem).bind ggswValueRead

/-- `mktfhe.EvaluationKey`. mktfhe/bootstrap_key.go:6-13. -/
structure MKEvalKey (w : ℕ) where
  evk : EvalKey w
  crs : GLev w 64
  relin : GGSW w 64
deriving DecidableEq

/-- `mktfhe.EvaluationKey.ByteSize`. mktfhe/bootstrap_key_marshal.go:9-11. -/
def mkEvkByteSize (x : MKEvalKey w) : Option ℕ :=
  (evkByteSize x.evk).bind fun a => (glevByteSize x.crs).bind fun b =>
    (uniByteSize x.relin).map fun c => a + b + c

/-- `mktfhe.EvaluationKey.WriteTo`. mktfhe/bootstrap_key_marshal.go:20-43. -/
def mkEvkWriteTo (x : MKEvalKey w) : Option Wr :=
  Wr.check (Wr.andThen (evkWriteTo x.evk) (Wr.andThen (glevWriteTo x.crs) (uniWriteTo x.relin)))
    (mkEvkByteSize x)

/-- `mktfhe.EvaluationKey.ReadFrom`; at the end it compares the count with `ByteSize` of what it
read. mktfhe/bootstrap_key_marshal.go:46-69. -/
def mkEvkReadFrom (mem : ℕ) : Reader (MKEvalKey w) := fun s =>
  match ((evkReadFrom mem).bind fun a => (glevReadFrom mem).bind fun b =>
      (uniReadFrom mem).map fun c => (⟨a, b, c⟩ : MKEvalKey w)) s with
  | .ok n x rest =>
    match mkEvkByteSize x with
    | some sz => if n < sz then .err n else .ok n x rest
    | none => .panic
  | .err n => .err n
  | .panic => .panic

/-! ## Parameters -/

/-- `Parameters.WriteTo`; `ByteSize` is 97. tfhe/params.go:717-818. -/
def paramsWriteTo (p : Params w) : Option Wr :=
  Wr.check (Wr.andThen (some ⟨putU64 p.lweDimension ++ putU64 p.glweRank ++ putU64 p.polyRank
      ++ putU64 p.lutSize ++ putU64 p.lweStdDev ++ putU64 p.glweStdDev ++ putU64 p.blockSize
      ++ putU64 (p.messageModulus.setWidth 64), false⟩)
    (Wr.andThen (gadgetWriteTo p.blindRotateParams) (Wr.andThen (gadgetWriteTo p.keySwitchParams)
      (some ⟨[p.bootstrapOrder.setWidth 8], false⟩)))) (some (8 * 8 + 16 + 16 + 1))

/-- `Parameters.ReadFrom`. tfhe/params.go:821-912. -/
def paramsReadFrom (impl : BitVec w) : Reader (Params w) :=
  readU64.bind fun lweDimension => readU64.bind fun glweRank => readU64.bind fun polyRank =>
  readU64.bind fun lutSize => readU64.bind fun lweStdDev => readU64.bind fun glweStdDev =>
  readU64.bind fun blockSize => readU64.bind fun messageModulus =>
  gadgetReadFrom.bind fun br => gadgetReadFrom.bind fun ks =>
  (readFull 1).bind fun b => (Reader.lift b.head?).bind fun order =>
    .lift (ParamsLit.compile impl
      { lweDimension := lweDimension, glweRank := glweRank, polyRank := polyRank
        lutSize := lutSize, lweStdDev := lweStdDev, glweStdDev := glweStdDev
        blockSize := blockSize, messageModulus := messageModulus.setWidth w
        blindRotateParams := br.literal, keySwitchParams := ks.literal
        bootstrapOrder := order.setWidth 64 })

/-- `mktfhe.Parameters.WriteTo`. mktfhe/params.go:301-345. -/
def mkParamsWriteTo (p : MKParams w) : Option Wr :=
  Wr.check (Wr.andThen (paramsWriteTo p.subParams) (Wr.andThen (some ⟨putU64 p.partyCount, false⟩)
    (Wr.andThen (gadgetWriteTo p.accumulatorParams) (gadgetWriteTo p.relinKeyParams))))
    (some ((8 * 8 + 16 + 16 + 1) + 8 + 16 + 16))

/-- `mktfhe.Parameters.ReadFrom`. mktfhe/params.go:348-386. -/
def mkParamsReadFrom (impl : BitVec w) : Reader (MKParams w) :=
  (paramsReadFrom impl).bind fun sub => readU64.bind fun partyCount =>
  gadgetReadFrom.bind fun acc => gadgetReadFrom.bind fun relin =>
    .lift (MKParamsLit.compile impl
      { subParams := sub.literal, partyCount := partyCount, accumulatorParams := acc.literal
        relinKeyParams := relin.literal })

/-! ## `MarshalBinary` and `UnmarshalBinary` -/

/-- `MarshalBinary`: the bytes, or the error of `WriteTo`. The same for all types, for instance
tfhe/lwe_marshal.go:217-221. -/
def marshalBinary (write : Option Wr) : Option (Except Unit Bytes) :=
  write.map fun x => if x.short then .error () else .ok x.bytes

/-- `UnmarshalBinary`: the object read, or the error of `ReadFrom`; bytes left over are ignored. The
same for all types, for instance tfhe/lwe_marshal.go:224-228. -/
def unmarshalBinary {α : Type} (read : Reader α) (data : Bytes) : Option (Except Unit α) :=
  match read data with
  | .ok _ a _ => some (.ok a)
  | .err _ => some (.error ())
  | .panic => none

end Tfhe.Ser
