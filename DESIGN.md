# A Lean 4 model of tfhe-go

Subject: `sp301415/tfhe-go`, source in `/repo`, read as text.  The Lean project is
`/verif/lean`; properties are in `properties.jsonl`, the claim/theorem table is in
`MANIFEST.json`, and the mutation experiments are in `seeded/LOG.jsonl`.

On the log: `theorems_failed` names the declaration at the line of a build error.  Until entry 560 an error reported at a doc comment
was put down to the declaration above it, so names there can be off by one declaration.  Six edits did not typecheck and had been
logged as kills; they are marked with `correction` and were repeated with edits that typecheck.  A proof that stops compiling does
not by itself show that the edit makes the theorem false.

## 1. Layout

* `Verif/Model/*`  definitions that follow the Go code, each citing file and lines.
* `Verif/Spec/*`   small definitions used to *state* properties, independent of the model.
* `Verif/Lemma/*`  helper lemmas.
* `Verif/Props/*`  the property theorems (`C01_...`, `C02_...`) with, beside each, an
  `example` showing that a concrete case meets the hypotheses.

## 2. Modelling decisions

* **Torus words.** `T` is `uint32` or `uint64`.  The model uses `BitVec w` for every `w`
  (sometimes `0 < w`), so both instances are covered.  Wrap-around is exact.
* **Polynomials.** `Poly N R := Fin N → R`, with the negacyclic product of
  `R[X]/(X^N+1)`.  The Go code multiplies through a float64 FFT.  Exact-arithmetic FFT
  correctness is a separate property (C45).  In ciphertext-level theorems every place
  where the code leaves the FFT domain carries an *arbitrary additive error term* (one
  per output polynomial), so the theorems hold for every float rounding behaviour.  For the
  multiplications of `math/poly/poly_mul.go` the error is bounded and the products are exact (C56).
* **float64 in the transform** (`Model/FftFloat`): floats are reals, every operation is rounded with
  relative error at most `2^-53`, a product and a sum may be fused in any way the Go specification
  allows or as the AVX2 kernels do it (`Fuse.avx2`, the order of C67), and `math.Sincos` is assumed to be off by at most `2^-51` for arguments up to 4.  The exponent
  is unbounded: neither overflow nor subnormal numbers.  C69 shows that on amd64 forward transforms of integer polynomials
  have neither; for products and inverse transforms that is a hypothesis of C69.  The text of the loops is the same definition
  as for exact arithmetic (`fwdFFTWith`, `invFFTWith`, `mulPolyWith`, ...).
  For products, key switching and bootstrapping (`Model/ProductFloat`, C57) results do carry errors, so more is
  asked of the platform (`Spec/Ieee`): results have 53 bits, numbers with 53 bits are not changed, and
  `int64(x)` is `x` when it fits.  A reduced value can be exactly `2^63` for 64-bit words, where Go leaves the
  conversion to the implementation; both `-2^63` and `2^63 - 1` are allowed.  The bound of C57 is a worst case
  over all inputs and is too large for the published 64-bit parameters (relative error about `2^-16` for every
  coefficient, times rank and number of blocks); for these C57 gives the bound but not correct decryption.
* **float64.** `num.DivRound` and `ModSwitch` use float64 on integers below 2^64.  The
  model rounds rationals to 53 significant bits, nearest, ties to even, with unbounded
  exponent (no overflow or subnormals can occur for these operands).
* **float64 in the Gaussian sampler** (`Model/Gaussian`): reals with rounded operations, infinities and NaN.  `math.Log`
  is assumed to be off by at most `2^-50` of the logarithm on (0, 1]; nothing is assumed of `math.Exp`.
* **Randomness.** Every sampler call is a universally quantified argument (mask, noise,
  key): theorems hold for every outcome.  No probabilistic claims are made.
* **Panics** are an explicit result (`Option`/`Except`), where the property is about them.
* **Mutation.** A `...To` method becomes a function returning the new value of the
  destination.  Where the property is about aliasing or reused buffers, the model has
  an explicit store from names to ciphertexts.
* **Goroutines** are steps of a transition system; theorems range over all traces.
* **Buffers** of `tfhe.Evaluator` (`Model/Scratch`): a method is a tree of reads and writes of single cells.  Run
  from start to end it is a function on memories (C49); interleaved with others, step by step, it is a
  transition system (C50, `Model/Interleave`, `Model/ScratchDec`).  Interleaving is sequentially consistent,
  which the Go memory model grants to programs without data races; the disjointness hypotheses of C50
  exclude data races on the caller's memory.
* **Assembly**: the AVX2 programs listed in section 6 are transcribed line by line and run on a small-step machine
  (`Model/Asm`): general and vector registers, a partial map from addresses to 32-bit words as memory, faults for
  unmapped addresses, the flags of the last comparison.  The semantics of the instructions is trusted, as are the
  transcription and the layout of the stack frame; float64 instructions are an unspecified `Fpu` in this machine.
  C68 asks of it what IEEE 754 says (`IeeeFpu` in `Spec/Float64`, with subnormals and the range of the exponent).
  C69 (`IeeeFma` in `Spec/FpuReal`) connects the bit patterns left by the kernels with the real numbers of `Model/FftFloat`.
* **Not modelled**: `internal/asmgen`, which generates the assembly, Go's memory
  allocator and GC, `crypto/rand`, statistical quality of
  samplers, timing, security.

## 3. Plan per property

| id | model | proof |
|----|-------|-------|
| C01 | decomposition loop over `BitVec w` | induction over levels with a carry invariant |
| C02 | `divRoundBits` on `BitVec w` | bit/nat arithmetic |
| C03, C04 | encoder with float64 division over ℚ | rounding error lemma, wrap-around case split; C04 negation witness + partial |
| C05, C06, C07 | LWE/GLWE encrypt, decrypt, ops; store model for aliasing | ring algebra over arbitrary commutative rings |
| C08, C09, C10 | index loops of `poly_ops.go`, `glwe.go` | closed form of the loops, then algebra in `R[X]/(X^N+1)` |
| C11-C14 | key switch, gadget product, external product, CMux with a store | sums over digits, C01 for the error bound; C14 alias negation + partial |
| C15 | LUT generation with rounded windows | position arithmetic |
| C16 | `ModSwitch` over the float model | rounding lemma |
| C17-C19 | three blind rotation loops | induction over the mask, block invariant; C19 negation + partial |
| C20, C21, C22 | composition of the above with noise bounds | norm inequalities |
| C23-C27 | Compile and byte-level readers and writers | parser/printer induction; negations with witnesses |
| C28 | public encryption with previous output contents as a parameter | algebra; negation + partial |
| C29, C30 | transition systems | invariants over all traces, progress measure |
| C31-C34 | multi-key model with party-indexed masks | algebra, list induction |
| C35-C40, C51 | xtfhe evaluators | algebra, Galois-trace lemma, exponent induction; negations where the code deviates |
| C41, C42, C52 | samplers as functions of the random stream | induction over the stream, counting |
| C43, C44 | `num.go`, `vec.go` helpers | induction; negations for `ModInverse`, `ModExp` |
| C45, C46 | FFT butterflies over a commutative ring with roots / over ℂ; split multiplication | induction over stages |
| C56 | the same loops with rounded operations (`Model/FftFloat`) | error analysis: ℓ2 norms through the forward stages, ℓ1 through products and inverse stages |
| C57 | Fourier-domain products and blind rotation with rounded operations (`Model/ProductFloat`) | error invariant `AP` (terms, operations) kept by every operation; existence of error polynomials for the exact models |
| C58 | Fourier-domain operations on vectors in memory, with rounded arithmetic (`Model/FftOps`) | error of one complex number per operation; frame of the loops; permutations as bijections of slots; integer and real polynomials related by ring homomorphisms |
| C59 | the loops of `mktfhe/lwe_ops.go` and `mktfhe/glwe_ops.go` on memory, multi-key decryptors with any keys (`Model/MkOps`) | C06 and C07 at the joint dimension; decryption is the phase under the joint key; bits reduce to the single-key C22 |
| C60 | the ziggurat loop over an arbitrary list of words, floats with infinities, the three tables (`Model/Gaussian`) | table entries bounded by computation, the tail by `log 2^-23`; negation with a stream of three words |
| C61 | all published literals with their constants as float64 patterns (`Model/Published`), encryption and decryption with rounded products and noise read from a stream (`Model/EncFloat`) | the room for noise computed by the kernel for each set; C56, the sampler bounds of C60 up to half the modulus (`Lemma/Half`), C05, C07 and C28 composed |
| C62 | `FHEWParametersLiteral.Compile` with `math.Log2` within 1/8 (`Model/Published`), `FHEWEncryptor.GenSecretKey` (`Model/FhewKey`) | the test of `Compile` bounds the logarithm of 12 standard deviations; the sampler delivers at most 8.074 |
| C63 | multi-key encryption and decryption with rounded products and noise read from a stream (`Model/MkEncFloat`) | the single-key C61 for the sub-encryptor; copy into the block of a party and the joint key of C31; rounded decryption equals exact decryption party by party |
| C64 | encryption to and decryption from the Fourier domain and leveled encryption, with rounded transforms and noise read from a stream (`Model/FftEncFloat`) | the way forth and back through the transform changes a coefficient by at most `rtErr`, from the l2 error bounds and Cauchy-Schwarz (`Lemma/RoundTrip`); loops of encryptions on streams without infinities (`Lemma/EncLev`); room computed by the kernel for each set; negation for an infinite sample |
| C65 | AVX2 machine (`Model/Asm`), the sixteen programs (`Model/AsmVec`), the Go functions that call them (`Model/AsmVecGo`) | symbolic execution line by line; loop invariants: the words written so far are the results, the rest of memory is the initial one (`Lemma/AsmVec`); negation for overlapping slices |
| C66 | the two programs on the same machine (`Model/AsmDecompose`) | nested loops; invariant: number of words written per output (`Lemma/AsmDecompose`); C01 for the digits; negation for other lengths of `dcmpOut` |
| C67 | the fourteen programs on the same machine (`Model/AsmCmplx`, `Model/AsmFft`), the Go functions that call them (`Model/AsmPolyGo`), the transforms with a butterfly of its own for neighbours (`Model/FftStages`) | loop invariant: memory is the initial one with the array replaced by a prefix of the Go loops (`Lemma/AsmInPlace`, `Lemma/AsmFft`, `Lemma/AsmFftMain`, `Lemma/AsmCmplx`) |
| C68 | the nine programs on the same machine (`Model/AsmFold`) with the Go functions that call them; values of bit patterns and what is asked of the processor (`Spec/Float64`) | loop invariant: memory is the initial one with the blocks done so far replaced (`Lemma/AsmFold`); the values of the conversions in exact rational arithmetic (`Lemma/AsmFoldVal`) |
| C69 | the same programs in the sequences of `math/poly/fft.go` (`Model/AsmFwd`), the floating-point model of C56 with `Fuse.avx2`; processor and platform with the same rounding (`Spec/FpuReal`) | a relation between two runs of the same network of butterflies, one on bit patterns, one on real numbers that carry the proposition that nothing has left the range (`Lemma/FpuReal`); in range because every number is a multiple of a power of two, which rounding preserves, and the factors are not small (`Lemma/TwiddleGrid`, Jordan's inequality) |
| C70 | `WriteTo` as sequences of `Write` calls on an arbitrary writer (`Model/Sink`); the readers of C24 | the specification is closed under running one step after another (`Lemma/Sink`); negation on a disk with room for 12 bytes |
| C71 | results of the parallel functions as relations over the runs of the machine of C30 (`Model/ForkBoot`) | C30 for the rotation, then the correctness of the sequential functions (C34) |
| C72 | public-key encryption of C28 under the binary encryptors (`Model/PubBinary`), the buffer of the multi-key encryptor threaded through the calls | C28 for the phase, C21 and C22 for decoding; negation with a second call |
| C73 | the readers and writers of C24 | what a successful read consumed, as a relation between bytes and object (`Lemma/Consumes`); that the object determines the bytes; C24 for the object, so that the writers are not looked at again |
| C74 | `NewEncryptor`, `GenSecretKey` and `GenEvalKey` of a party from its raw words and samples (`Model/MkSetup`), the stream of a seed arbitrary | the reference string as words of the stream (C42), key bits from C41; these give the hypotheses of C34 |
| C75 | programs of `Boot.gate`, `MBoot.gate`, `notTo` and `Boot.run`, one call after another, every call with its own buffers and transform errors | induction over the program with one noise bound, from C21, C34 and C20; the spec is a run on plain bits |
| C76 | the type switches and comparisons of `math/num/num.go` (`Model/NumTypes`); a type is its sign and its number of bits, arithmetic wraps | values of a type as the results of wrapping; bounds case by case |
| C77 | the conversions between complex slices and the float-4 layout and `Equals` of `math/vec/vec.go` (`Model/VecConv`), components arbitrary | the place of every component as the spec; the loops in blocks of four |
| C78 | the functions of `math/vec/vec.go` that allocate (`Model/VecAlloc`): slices with capacities, `&v[:1][0]` of the portable loops | `List.zipWith`, `map` and `reverse` as the spec; the loops by C06 and C44 |
| C79 | `poly.From` and `FFTPoly.Approx` (`Model/PolyBasic`); a float is NaN, infinite or rational, the difference an arbitrary function | induction over the loop; negations for NaN and different ranks |
| C80 | `ReadFrom` of parameters as a method that writes to its receiver (`Model/ParamsInto`), also after an error or a recovered panic | cases on the readers of `Model/Marshal`; negation with concrete bytes |
| C81 | loops of `fft_glwe_conv.go` in both packages (`Model/FftConvert`), with an arbitrary transform of one polynomial | induction on the loops over output, input and levels |
| C82 | the `With` functions as maps of literals, sequences of calls, gadget accessors in Go's `int` (`Model/Builders`) | one lemma on folds for all fields; `Compile` depends on the literal after its defaults only; negation with concrete literals |
| C83 | checks of the order and of the index, copies of single-key ciphertexts with an integer index (`Model/MkIndex`) | cases on the index; agreement with the copies of `Model/Public` for the indices of parties |
| C47 | Lev/GSW/GLev/GGSW encryption | algebra + C02 |
| C48, C49, C50 | heap with shared backing arrays; grow-only buffers; object graphs | invariants over histories |
| C55 | uni-encryption over `Poly N (BitVec w)` (`Model/Uni`) | rounding lemma of C47 without the final reduction |
| C54 | heap of arrays whose cells hold numbers or structs with a slice (`Model/Copies`) | frame lemmas by induction over the type; a key with several parts is a list of parts, with one theorem for all of them (`Props/C54Parts`) |

## 4. Disagreements between code and property

Each of these is a theorem about the model, named in the last column, and the property is claimed only in
the restricted form named `_partial` or with the hypothesis that excludes the case.

| Where | What happens | Theorem |
|---|---|---|
| math/num `ModInverse` on unsigned types | intermediate `T(-...)` wraps, result is not an inverse | `C43_modInverse_unsigned_false` |
| math/num `ModExp` | `y = 0, m = 1` gives 1; products overflow for large moduli | `C43_modExp_false` |
| math/vec `BitReverseInPlace` | does not terminate for lengths that are not powers of two | `C44_bitReverse_diverges` |
| tfhe `EncodeLWE` | negative messages are reduced modulo 2^w first, wrong when the modulus does not divide 2^w; large messages are truncated on 32-bit words | `C04_negative_false`, `C04_large_false` |
| tfhe `DecodeLWE` | noise just below half a scale can round the wrong way in float64 | `C03_half_scale_false` |
| tfhe `CMuxTo` | output over `ct1` returns `ct0` whatever the selector | `C14_out_is_ct1`, `C14_false` |
| tfhe `EncryptLev`/`DecryptLev` (also GSW, GLev, GGSW) | messages from the gadget base on are lost when the message modulus exceeds the base | `C47_large_modulus_false` |
| tfhe `blindRotateExtendedTo`, initial rotation | source and destination slots are exchanged; the table is read up to 2f - 2 positions away unless f divides the switched body | `C19_false`, bound `C19_near_partial` |
| tfhe `blindRotateExtendedTo`, one block | the single block is processed as first and again as last block | `C19_one_block_false` |
| tfhe `GadgetParametersLiteral.Compile` | `Log2(Base) * Level` overflows, so base 4 with level 2^62 is accepted | `C23_gadget_false` |
| tfhe `ParametersLiteral.Compile` | a NaN standard deviation is accepted; `GLWERank * PolyRank` overflows, so valid literals are rejected | `C23_compile_false` |
| tfhe `ParametersLiteral.Compile` | `PolyRank` below 16 is accepted though no polynomial of that rank can be made | `C23_rank_false` |
| `WriteTo` of `FFTGLWESecretKey`, `FFTGLWECiphertext`, `FFTGLevCiphertext`, `mktfhe.EvaluationKey` | when the writer fails in a header field, the count leaves out the fields written before | `C70_*_count_false` |
| `ReadFrom` of `FFTGLWESecretKey`, `FFTGLWECiphertext` | when the stream ends in the second header field, the count leaves out the first | `C70_read_fft_count_false` |
| tfhe `LWESecretKey.ReadFrom` | reports 8 bytes read whatever the size of the key | `C24_lweSK_count_false` |
| all `ReadFrom` with gadget parameters | a base that does not fit into a 32-bit torus type is truncated without an error | `C73_base_false` |
| `Parameters.ReadFrom` | a LUT size or block size of zero is accepted and replaced by the default, so `WriteTo` writes other bytes | `C73_parameters_false` |
| `num.Abs` | the smallest value of a signed type is its own `Abs`, which is negative | `C76_abs_false` |
| portable `vec.Add`, `Sub`, `Mul`, `ScalarMul` | panic on empty vectors (`&v[:1][0]` without capacity); the AVX2 path returns the empty vector | `C78_empty_false` |
| `poly.From` | coefficients beyond the rank are dropped without a panic | `C79_from_false` |
| `FFTPoly.Approx` | true if all differences are NaN, or if the argument only continues the receiver; panics if the argument is shorter | `C79_approx_nan_false`, `C79_approx_rank_false` |
| `mktfhe.Parameters.ReadFrom` | an error after the sub-parameters leaves the new sub-parameters in the receiver beside the old number of parties and gadgets; the mixture can be one that `Compile` refuses | `C80_false` |
| `Parameters.Literal`, `WithPolyRank` | `Literal()` writes the default table size out, so a larger degree for compiled parameters panics in `Compile` although the original literal accepts it; in `mktfhe`, without `WithLUTSize`, every other degree does | `C82_recompile_false`, `C82_mk_degree_false` |
| tfhe `EvaluationKey.ReadFrom` | every flag other than 0 means that a key-switching key follows; it is written back as 1 | `C73_flag_false` |
| tfhe `GSWCiphertext.ReadFrom` | accepts the dimension -1; `ByteSize` and `WriteTo` of the result panic | `C73_gsw_false` |
| tfhe `LWEKeySwitchKey.WriteTo`, `ByteSize` | panic on a key without entries | `C24_empty_ksk_false` |
| all `ReadFrom` methods with a header | panic on malformed headers instead of returning an error | `C27_*_false` |
| tfhe `PublicEncryptor.EncryptLWEBody`, `EncryptGLWEBody` | add into the mask of the output without clearing it: wrong on an output that was used before | `C28_lwe_reuse_false`, `C28_glwe_reuse_false` |
| tfhe `PublicEncryptor.EncryptFFTGLWEPlaintextTo`, mktfhe `PublicEncryptor.EncryptLWEBody`, `EncryptGLWEBody` | encrypt into a buffer of the encryptor, never cleared: every call after the first is wrong, also for fresh outputs | `C28_fft_second_call_false`, `C28_mk_second_call_false` |
| tfhe `BinaryPublicEncryptor.EncryptLWEBoolTo`; mktfhe `BinaryPublicEncryptor.EncryptLWEBits` and all calls after the first | inherit the two defects above: encrypted bits decrypt to other bits | `C72_reuse_false`, `C72_mk_bits_false` |
| mktfhe `NewDecryptor`, `AddSecretKey` | slices have the length of the key map, not the number of parties: panics unless the indices are `0..len-1` | `C32_not_acceptsAll`, `C32_not_addAcceptsAll` |
| mktfhe `NewEncryptor` | accepts `idx = PartyCount`, for which every encryption panics | `C32_encryptor_index` |
| mktfhe `NewEncryptor`, `NewPublicEncryptor` | accept negative indices; with -1 GLWE encryption writes the mask over the body without a panic, so the message is lost | `C83_minus_one_false` |
| mktfhe `ExternalProdSubGLWETo` | the bodies of the gadget products are added instead of subtracted | `C33_externalSub_false` |
| mktfhe `XORTo`, `XNORTo` (and parallel forms) | add an eighth of the circle where package tfhe adds a quarter: half the noise margin | `C34_xor_margin_tfhe`, `C34_xor_margin_false` |
| xtfhe BFV `Tensor`, `TensorTo` | the product is written to a private buffer, never to the output: `Tensor` returns zero | `C35_tensor_zero`, `C35_tensor_false` |
| xtfhe BFV `Relinearize`, `RelinearizeTo` | reads the private buffer of the last tensor product instead of its argument | `C35_relinearize_ignores`, `C35_relinearize_false` |
| xtfhe many-LUT `GenLUTCustomFullTo`, `ManyLUTParametersLiteral.Compile` | windows and half window need not be multiples of the number of functions; then outputs are the values of other functions | `C40_misaligned`, `C40_misaligned_accepted` |
| xtfhe circuit bootstrapping | uses the many-LUT tables above, so it inherits the alignment condition | hypotheses of `C38_*` |
| math/csprng `GaussianSampler` | `uniformFloat` can be 0; two zeros in the tail loop give `+Inf`, which is accepted, and the sample is `int64(+Inf)` | `C60_inf`, `C60_bounded_false` |
| tfhe `EncryptLevScalarTo` and the other leveled encryptions | with such an infinite sample the decryption of a leveled ciphertext is off by half the base of the gadget | `C64_infinity` |
| xtfhe `FHEWParametersLiteral.Compile` | a NaN `SecretKeyStdDev` passes both comparisons and is accepted | `C62_nan` |
| xtfhe `NewCDTSampler` | the table covers the tails around the center and the integral part of the center is added again: all samples are off for centers outside [-1, 1) | `C53_far_center`, `C53_near_partial` |
| tfhe `SecretKey.CopyFrom` | between keys of different shape: panics, or leaves a transformed key that is not that of the key | `C48_copyFrom_shape` |
| tfhe `DecomposePolyTo`, and so `FourierDecomposePolyTo`, `GadgetProd*GLWETo`, `ExternalProd*GLWETo`, `KeySwitchGLWETo` | the rank of the argument is not checked: a polynomial that is too short is completed with coefficients that an earlier call left in the buffer | `C49_shortPoly_false` |
| tfhe `DecomposePolyTo` on amd64 | the kernel takes the number of digits from `len(dcmpOut)`, the Go loop from the gadget: a longer `dcmpOut` gives other digits than without AVX2, a shorter one no panic | `C66_longer_differs`, `C66_shorter_differs` |
| math/vec `AddTo` and the others on amd64 | with an output that overlaps an input with an offset, results differ from those of the pure Go loops | `C65_overlap_differs` |
| math/poly `negCmplxTo` on amd64 | computes `0 - v`: zero is negated to `+0`, to `-0` without AVX (no effect on values) | `C67_neg_zero` |
| math/poly `floatModQInPlace` on amd64 | rounds halves to even, away from zero without AVX: an exact half becomes a different integer (products of integers never have halves before rounding errors) | `C68_tie` |
| mktfhe `Decryptor.SafeCopy`, and so `BinaryDecryptor.SafeCopy` | the copy keeps the scratch ciphertext of the original: concurrent decryptions can be wrong | `C50_decryptor_false`, `C50_decryptor_partial` |
| mktfhe `UniEncryption.CopyFrom`, `FFTUniEncryption.CopyFrom` | do not copy the gadget parameters, so a receiver made with other parameters decrypts with the wrong scale | `C54_uniCopyFrom_false`, `C54_uniCopyFrom_partial` |
| mktfhe `EvaluationKey.CopyFrom` | the relinearization key of the receiver keeps its old gadget parameters, since its `CopyFrom` is the one above | `C54_mkEvkCopyFrom_false`, `C54_mkEvkCopyFrom_partial` |
| mktfhe `UniDecryptPolyTo`, `FFTUniDecryptPolyTo` | no reduction modulo the gadget base (single-key `DecryptGLevPolyTo` has it): 0 with negative noise gives the base, which is a wrong message unless the message modulus divides the base | `C55_zero_false`, `C55_poly_zero_false` |
| mktfhe `UniEncryptPolyTo`, `FFTUniEncryptPolyTo` | index panic for gadgets with more levels than the relinearization key | `C55_level_panics` |

## 5. Trusted base

Lean 4.33.0 kernel; axioms `propext`, `Classical.choice`, `Quot.sound` only (checked with
`#print axioms`); the faithfulness of the hand-written model to the cited lines.

## 6. What is modelled

Generated from the citations in `Verif/Model`.  A function counts as modelled when a definition cites lines inside it.  The last
column lists the functions that no definition cites.  Many of these are the allocating variant of a modelled `...To` method, a getter,
or a constructor that only allocates; they are not modelled as separate definitions and no claim is made about them.

| file | cited | modules | not modelled |
|---|---|---|---|
| math/csprng/binary_sampler.go | 2/7 | Sampler | NewBinarySampler, NewBinarySamplerWithSeed, Sample, SamplePolyTo, SampleBlockPolyTo |
| math/csprng/gaussian_sampler.go | 7/9 | EncFloat, Gaussian | NewGaussianSampler, NewGaussianSamplerWithSeed |
| math/csprng/uniform_sampler.go | 4/6 | Sampler | NewUniformSampler, SamplePolyTo |
| math/num/num.go | 17/17 | Bootstrap, Bytes, Float, Num, NumTypes, Params, Sampler |  |
| math/poly/asm_fft.go | 4/4 | Fft, FftFloat, FftStages |  |
| math/poly/asm_fft_amd64.go | 2/4 | AsmPolyGo | fwdButterfly, invButterfly |
| math/poly/asm_fold.go | 5/5 | Bfv, Fft, FftFloat, ProductFloat |  |
| math/poly/asm_fold_amd64.go | 5/5 | AsmFold |  |
| math/poly/asm_vec_cmplx.go | 12/12 | Fft, FftFloat, FftOps |  |
| math/poly/asm_vec_cmplx_amd64.go | 12/12 | AsmPolyGo |  |
| math/poly/fft.go | 9/15 | AsmFwd, Bfv, Bootstrap, Fft, FftEncFloat, FftFloat, FftOps, ProductFloat, Scratch | FwdFFT, MonomialFwdFFT, MonomialSubOneFwdFFT, InvFFT, InvFFTAddTo, InvFFTSubTo |
| math/poly/fft_ops.go | 19/27 | Fft, FftOps, ProductFloat, Scratch | AddFFTPoly, SubFFTPoly, NegFFTPoly, FloatMulFFTPoly, CmplxMulFFTPoly, MulFFTPoly, PolyMulFFTPoly, PermuteFFTPoly |
| math/poly/poly.go | 13/15 | Copies, Marshal, Params, PolyBasic, Scratch, VecConv | Rank, Rank |
| math/poly/poly_evaluator.go | 5/9 | Fft, FftFloat, FftOps, SplitMul | SafeCopy, Rank, NewPoly, NewFFTPoly |
| math/poly/poly_mul.go | 6/8 | EncFloat, FftEncFloat, FftFloat, ScratchDec, SplitMul | MulPoly, ShortFFTPolyMulPoly |
| math/poly/poly_ops.go | 7/24 | Bfv, Poly, Scratch | AddPoly, AddPolyTo, SubPoly, SubPolyTo, NegPoly, NegPolyTo, ScalarMulPoly, ScalarMulPolyTo, ScalarMulAddPolyTo, ScalarMulSubPolyTo, FFTPolyMulPoly, FFTPolyMulPolyTo, FFTPolyMulAddPolyTo, FFTPolyMulSubPolyTo, MonomialMulPoly, PermutePoly, PermutePolyInPlace |
| math/vec/asm_vec.go | 8/8 | AsmVecGo, Scratch, Vec, VecAlloc, VecMul |  |
| math/vec/asm_vec_amd64.go | 8/8 | AsmVecGo, VecAlloc |  |
| math/vec/vec.go | 24/24 | Copies, Lwe, Public, Scratch, Vec, VecAlloc, VecConv, VecMul |  |
| mktfhe/binary_decryptor.go | 2/4 | MkOps | NewBinaryDecryptor, SafeCopy |
| mktfhe/binary_encryptor.go | 4/11 | MkOps | NewBinaryEncryptor, NewBinaryEncryptorWithKey, SafeCopy, GenEvalKey, GenEvalKeyParallel, GenPublicKey, PublicEncryptor |
| mktfhe/binary_encryptor_public.go | 4/6 | PubBinary | NewBinaryPublicEncryptor, SafeCopy |
| mktfhe/binary_evaluator.go | 14/28 | ForkBoot, MultiKey | SafeCopy, NOT, AND, ANDParallel, NAND, NANDParallel, OR, ORParallel, NOR, NORParallel, XOR, XORParallel, XNOR, XNORParallel |
| mktfhe/bootstrap.go | 7/14 | Fork, ForkBoot, MultiKey | BootstrapFunc, BootstrapLUT, BootstrapFuncParallel, BootstrapLUTParallel, BlindRotate, BlindRotateParallel, DefaultKeySwitch |
| mktfhe/bootstrap_key.go | 3/5 | Copies | NewEvaluationKey, NewEvaluationKeyCustom |
| mktfhe/bootstrap_key_marshal.go | 3/5 | Marshal, Sink | MarshalBinary, UnmarshalBinary |
| mktfhe/bootstrap_keygen.go | 3/6 | MkSetup, MultiKey | GenEvalKeyParallel, GenDefaultKeySwitchKey, GenDefaultKeySwitchKeyParallel |
| mktfhe/decryptor.go | 6/14 | FftEncFloat, MkEncFloat, MultiKey, ScratchDec | newDecryptorBuffer, DecryptLWE, DecryptGLWE, DecryptGLWETo, DecryptGLWEPhase, DecryptFFTGLWE, DecryptFFTGLWETo, DecryptFFTGLWEPhase |
| mktfhe/encryptor.go | 8/19 | FftEncFloat, MkEncFloat, MkIndex, MkSetup, MultiKey | newEncryptorBuffer, SafeCopy, EncryptLWE, EncryptLWETo, EncryptLWEPlaintext, EncryptGLWE, EncryptGLWETo, EncryptGLWEPlaintext, EncryptFFTGLWE, EncryptFFTGLWETo, EncryptFFTGLWEPlaintext |
| mktfhe/encryptor_public.go | 5/17 | MkIndex, PubBinary, Public | newPublicEncryptorBuffer, SafeCopy, EncryptLWE, EncryptLWETo, EncryptGLWE, EncryptGLWETo, EncryptGLWEPlaintext, EncryptGLWEPlaintextTo, EncryptFFTGLWE, EncryptFFTGLWETo, EncryptFFTGLWEPlaintext, EncryptFFTGLWEPlaintextTo |
| mktfhe/evaluator.go | 3/4 | Fork, MkSetup, MultiKey | newEvaluatorBuffer |
| mktfhe/fft_glwe.go | 9/11 | Copies, FftConvert, Marshal, MkIndex | NewFFTGLWECiphertext, NewFFTUniEncryption |
| mktfhe/fft_glwe_conv.go | 12/14 | FftConvert, FftOps | NewGLWETransformer, SafeCopy |
| mktfhe/fft_glwe_enc.go | 3/8 | MultiKey, Uni | FFTUniEncrypt, FFTUniEncryptTo, FFTUniEncryptPoly, FFTUniDecrypt, FFTUniDecryptPoly |
| mktfhe/fft_glwe_marshal.go | 16/20 | Bytes, Marshal, Sink | MarshalBinary, UnmarshalBinary, MarshalBinary, UnmarshalBinary |
| mktfhe/fft_glwe_ops.go | 25/26 | FftOps | AddFFTGLWE |
| mktfhe/glwe.go | 11/13 | Copies, FftConvert, Glwe, Marshal, MkIndex, Public, Uni | NewGLWECiphertext, AsLWECiphertext |
| mktfhe/glwe_enc.go | 6/8 | MultiKey, Uni | UniDecrypt, UniDecryptPoly |
| mktfhe/glwe_marshal.go | 14/18 | Marshal, Sink | MarshalBinary, UnmarshalBinary, MarshalBinary, UnmarshalBinary |
| mktfhe/glwe_ops.go | 22/31 | MkOps | AddGLWE, AddPlainGLWE, SubGLWE, SubPlainGLWE, NegGLWE, ScalarMulGLWE, PolyMulGLWE, FFTPolyMulGLWE, MonomialMulGLWE |
| mktfhe/lwe.go | 5/6 | Copies, Marshal, MkIndex, Public | NewLWECiphertext |
| mktfhe/lwe_marshal.go | 11/13 | Bytes, Marshal, Sink | MarshalBinary, UnmarshalBinary |
| mktfhe/lwe_ops.go | 8/14 | MkOps | AddLWE, AddPlainLWE, SubLWE, SubPlainLWE, NegLWE, ScalarMulLWE |
| mktfhe/params.go | 20/43 | Builders, Marshal, MkOps, Params, ParamsInto, ScratchDec, Sink | PartyCount, LWEDimension, GLWEDimension, PolyRank, LogPolyRank, DefaultLWEStdDev, DefaultLWEStdDevQ, LWEStdDev, LWEStdDevQ, GLWEStdDev, GLWEStdDevQ, BlockSize, BlockCount, Scale, MessageModulus, LogQ, BlindRotateParams, KeySwitchParams, AccumulatorParameters, RelinKeyParameters, BootstrapOrder, SubParams, MarshalBinary |
| mktfhe/product.go | 6/8 | MultiKey | HybridProdGLWE, ExternalProdGLWE |
| tfhe/asm_decompose.go | 1/1 | AsmDecompose, Gadget, Product, Scratch |  |
| tfhe/asm_decompose_amd64.go | 1/1 | AsmDecompose |  |
| tfhe/binary_encoder.go | 2/3 | Binary | NewBinaryEncoder |
| tfhe/binary_encryptor.go | 4/13 | Binary | NewBinaryEncryptor, NewBinaryEncryptorWithKey, SafeCopy, EncryptLWEBoolTo, EncryptLWEBits, GenPublicKey, PublicEncryptor, GenEvalKey, GenEvalKeyParallel |
| tfhe/binary_encryptor_public.go | 4/6 | PubBinary | NewBinaryPublicEncryptor, SafeCopy |
| tfhe/binary_evaluator.go | 8/16 | Binary | SafeCopy, NOT, AND, NAND, OR, NOR, XOR, XNOR |
| tfhe/bootstrap.go | 9/12 | Bootstrap, ProductFloat, Scratch | BootstrapLUT, BlindRotate, DefaultKeySwitch |
| tfhe/bootstrap_key.go | 7/10 | Copies, Marshal | NewEvaluationKey, NewEvaluationKeyCustom, NewBlindRotateKey |
| tfhe/bootstrap_key_marshal.go | 10/14 | Marshal, Sink | MarshalBinary, UnmarshalBinary, MarshalBinary, UnmarshalBinary |
| tfhe/bootstrap_keygen.go | 5/6 | MkSetup, Parallel, Product | GenEvalKeyParallel |
| tfhe/bootstrap_lut.go | 6/13 | Bootstrap, Copies, Scratch | NewLUT, NewLUTCustom, GenLUT, GenLUTFull, GenLUTFullTo, GenLUTCustom, GenLUTCustomFull |
| tfhe/decomposer.go | 8/14 | Gadget, Interleave, Product, Scratch | NewDecomposer, DecomposeScalar, DecomposePoly, FourierDecomposePoly, RecomposePoly, RecomposePolyTo |
| tfhe/encoder.go | 4/13 | Encoder | NewEncoder, EncodeLWE, DecodeLWE, EncodeGLWE, EncodeGLWETo, EncodeGLWECustom, DecodeGLWE, DecodeGLWETo, DecodeGLWECustom |
| tfhe/encryptor.go | 2/7 | EncFloat, KeyViews, MkIndex, Public, Sampler | NewEncryptor, NewEncryptorWithKey, newEncryptorBuffer, SafeCopy, DefaultLWESecretKey |
| tfhe/encryptor_key.go | 9/10 | Copies, FhewKey, KeyViews, Marshal, MkIndex, MkSetup | NewPublicKeyCustom |
| tfhe/encryptor_key_marshal.go | 8/12 | KeyViews, Marshal, Sink | MarshalBinary, UnmarshalBinary, MarshalBinary, UnmarshalBinary |
| tfhe/encryptor_public.go | 1/3 | MkIndex | newPublicEncryptorBuffer, SafeCopy |
| tfhe/evaluator.go | 3/3 | Bootstrap, Interleave, Scratch |  |
| tfhe/fft_glwe.go | 16/20 | Copies, KeyViews, Marshal | NewFFTGLWESecretKey, NewFFTGLWECiphertext, NewFFTGLevCiphertext, NewFFTGGSWCiphertext |
| tfhe/fft_glwe_conv.go | 16/18 | EncFloat, FftConvert, FftEncFloat, FftOps, KeyViews, ProductFloat | NewGLWETransformer, SafeCopy |
| tfhe/fft_glwe_enc.go | 7/24 | FftEncFloat, Product | EncryptFFTGLWE, EncryptFFTGLWETo, EncryptFFTGLWEPlaintext, DecryptFFTGLWE, DecryptFFTGLWETo, DecryptFFTGLWEPhase, EncryptFFTGLev, EncryptFFTGLevTo, EncryptFFTGLevPoly, DecryptFFTGLev, DecryptFFTGLevPoly, EncryptFFTGGSW, EncryptFFTGGSWTo, EncryptFFTGGSWPoly, DecryptFFTGGSW, DecryptFFTGGSWTo, DecryptFFTGGSWPoly |
| tfhe/fft_glwe_enc_public.go | 1/4 | Public | EncryptFFTGLWE, EncryptFFTGLWETo, EncryptFFTGLWEPlaintext |
| tfhe/fft_glwe_marshal.go | 30/38 | Bytes, Marshal, Sink | MarshalBinary, UnmarshalBinary, MarshalBinary, UnmarshalBinary, MarshalBinary, UnmarshalBinary, MarshalBinary, UnmarshalBinary |
| tfhe/fft_glwe_ops.go | 19/27 | FftOps, Product, ProductFloat, Scratch | AddFFTGLWE, SubFFTGLWE, NegFFTGLWE, FloatMulFFTGLWE, CmplxMulFFTGLWE, PolyMulFFTGLWE, FFTPolyMulFFTGLWE, PermuteFFTGLWE |
| tfhe/glwe.go | 23/34 | Copies, FftConvert, Glwe, Marshal, Scratch, Uni | NewGLWESecretKey, AsLWEKey, NewGLWEPublicKey, NewGLWEPlaintext, Copy, CopyFrom, Clear, NewGLWECiphertext, AsLWECiphertext, NewGLevCiphertext, NewGGSWCiphertext |
| tfhe/glwe_enc.go | 11/25 | EncFloat, FftEncFloat, Glwe, Product, ScratchDec | EncryptGLWE, EncryptGLWETo, EncryptGLWEPlaintext, DecryptGLWE, DecryptGLWETo, DecryptGLWEPhase, EncryptGLev, EncryptGLevPoly, DecryptGLev, DecryptGLevPoly, EncryptGGSW, EncryptGGSWPoly, DecryptGGSW, DecryptGGSWPoly |
| tfhe/glwe_enc_public.go | 2/5 | EncFloat, Public | EncryptGLWE, EncryptGLWETo, EncryptGLWEPlaintext |
| tfhe/glwe_marshal.go | 42/54 | Marshal, Sink | MarshalBinary, UnmarshalBinary, MarshalBinary, UnmarshalBinary, MarshalBinary, UnmarshalBinary, MarshalBinary, UnmarshalBinary, MarshalBinary, UnmarshalBinary, MarshalBinary, UnmarshalBinary |
| tfhe/glwe_ops.go | 22/32 | Glwe, Scratch | AddGLWE, AddPlainGLWE, SubGLWE, SubPlainGLWE, NegGLWE, ScalarMulGLWE, PolyMulGLWE, FFTPolyMulGLWE, MonomialMulGLWE, PermuteGLWE |
| tfhe/keyswitch.go | 2/4 | Product, ProductFloat, Scratch | KeySwitchLWE, KeySwitchGLWE |
| tfhe/keyswitch_key.go | 8/14 | Copies, Marshal | NewLWEKeySwitchKey, NewKeySwitchKeyForBootstrap, NewKeySwitchKeyForBootstrapCustom, InputLWEDimension, NewGLWEKeySwitchKey, InputGLWERank |
| tfhe/keyswitch_key_marshal.go | 14/16 | Marshal, Sink | MarshalBinary, UnmarshalBinary |
| tfhe/keyswitch_keygen.go | 2/2 | Product |  |
| tfhe/lwe.go | 21/29 | Copies, Lwe, Marshal, MkIndex | NewLWESecretKey, NewLWEPlaintext, Copy, CopyFrom, Clear, NewLWECiphertext, NewLevCiphertext, NewGSWCiphertext |
| tfhe/lwe_enc.go | 11/19 | EncFloat, FftEncFloat, Lwe, Product | EncryptLWE, EncryptLWETo, EncryptLWEPlaintext, DecryptLWE, EncryptLevTo, EncryptLevScalar, EncryptGSWTo, EncryptGSWScalar |
| tfhe/lwe_enc_public.go | 3/5 | EncFloat, PubBinary, Public | EncryptLWE, EncryptLWETo |
| tfhe/lwe_marshal.go | 43/54 | Bytes, Marshal, Sink | valueReadFrom, MarshalBinary, UnmarshalBinary, MarshalBinary, UnmarshalBinary, MarshalBinary, UnmarshalBinary, MarshalBinary, UnmarshalBinary, MarshalBinary, UnmarshalBinary |
| tfhe/lwe_ops.go | 8/14 | Lwe | AddLWE, AddPlainLWE, SubLWE, SubPlainLWE, NegLWE, ScalarMulLWE |
| tfhe/params.go | 35/65 | Binary, Builders, Encoder, Gadget, Marshal, MkIndex, Params, ParamsInto, Product, Published, Sink | Base, LogBase, Level, MarshalBinary, UnmarshalBinary, String, LWEDimension, GLWEDimension, GLWERank, PolyRank, LogPolyRank, LUTSize, LUTExtendFactor, LWEStdDev, GLWEStdDev, BlockSize, BlockCount, Scale, MessageModulus, LogQ, BlindRotateParams, KeySwitchParams, BootstrapOrder, EstimateModSwitchStdDev, EstimateBlindRotateStdDev, EstimateDefaultKeySwitchStdDev, EstimateMaxErrorStdDev, EstimateFailureProbability, MarshalBinary, UnmarshalBinary |
| tfhe/product.go | 19/24 | Bfv, Product, ProductFloat, Scratch | GadgetProdLWE, GadgetProdGLWE, ExternalProdLWE, ExternalProdGLWE, CMux |
| xtfhe/bfv_evaluator.go | 8/13 | Bfv | NewBFVEvaluator, SafeCopy, Mul, Permute, Pack |
| xtfhe/bfv_keygen.go | 5/8 | Bfv | NewBFVKeyGenerator, SafeCopy, GenEvalKey |
| xtfhe/circuit_bootstrap.go | 1/5 | Circuit | NewCircuitBootstrapper, newCircuitBootstrapBuffer, SafeCopy, CircuitBootstrap |
| xtfhe/circuit_bootstrap_key.go | 1/3 | Circuit | NewCircuitBootstrapKeyGenerator, SafeCopy |
| xtfhe/circuit_bootstrap_params.go | 1/6 | Published | ManyLUTParams, BaseParams, SchemeSwitchParams, TraceKeySwitchParams, OutputParams |
| xtfhe/fhew_bootstrap.go | 4/7 | Fhew | BootstrapFunc, BootstrapLUT, BlindRotate |
| xtfhe/fhew_bootstrap_keygen.go | 3/5 | Fhew, Parallel | GenEvalKey, GenEvalKeyParallel |
| xtfhe/fhew_enc.go | 1/5 | FhewKey | NewFHEWEncryptor, NewFHEWEncryptorWithKey, newFHEWEncryptorBuffer, SafeCopy |
| xtfhe/fhew_evaluator.go | 1/3 | Fhew | newFHEWEvaluatorBuffer, SafeCopy |
| xtfhe/fhew_params.go | 2/5 | Published | BaseParams, SecretKeyStdDev, WindowSize |
| xtfhe/manylut_bootstrap.go | 9/17 | ManyLut | GenLUT, GenLUTFull, GenLUTFullTo, GenLUTCustom, GenLUTCustomFull, BootstrapFunc, BootstrapLUT, BlindRotate |
| xtfhe/manylut_evaluator.go | 0/3 |  | NewManyLUTEvaluator, newManyLUTEvaluatorBuffer, SafeCopy |
| xtfhe/manylut_params.go | 1/4 | Params | BaseParams, LUTCount, LogLUTCount |
| xtfhe/sanitization.go | 5/9 | Sanitize | NewSanitizer, newSanitizerBuffer, SafeCopy, SanitizeLUT |
| xtfhe/sanitization_params.go | 1/10 | Params, Sanitize | BaseParams, RandSigma, RandSigmaQ, RandTau, RandTauQ, LinEvalSigma, LinEvalSigmaQ, LinEvalTau, LinEvalTauQ |
| xtfhe/sanitization_sampler.go | 6/8 | Cdt, CdtVec | Center, StdDev |

Files of constants, transcribed in `Model/Published`: mktfhe/params_list.go, tfhe/params_list.go, xtfhe/bfv_params_list.go, xtfhe/circuit_bootstrap_params_list.go, xtfhe/fhew_params_list.go, xtfhe/manylut_params_list.go, xtfhe/sanitization_params_list.go.

Assembly, transcribed line by line:

| file | functions | modules |
|---|---|---|
| math/poly/asm_fft_amd64.s | 2/2 | AsmFft |
| math/poly/asm_fold_amd64.s | 12/9 | AsmFold |
| math/poly/asm_vec_cmplx_amd64.s | 12/12 | AsmCmplx |
| math/vec/asm_vec_amd64.s | 16/16 | AsmVec |
| tfhe/asm_decompose_amd64.s | 2/2 | AsmDecompose |

Not modelled at all: the generators of the assembly, Go files that only call assembly that is not modelled or only declare it, and files without functions: internal/asmgen/asmgen.go, internal/asmgen/decompose.go, internal/asmgen/fft.go, internal/asmgen/fft_butterfly.go, internal/asmgen/fold.go, internal/asmgen/vec.go, internal/asmgen/vec_cmplx.go, math/csprng/csprng.go, math/poly/asm_fft_stub_amd64.go, math/poly/asm_fold_stub_amd64.go, math/poly/asm_vec_cmplx_stub_amd64.go, math/vec/asm_vec_stub_amd64.go, mktfhe/mktfhe.go, tfhe/asm_decompose_stub_amd64.go, tfhe/tfhe.go, xtfhe/xtfhe.go.
