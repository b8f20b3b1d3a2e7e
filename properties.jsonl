{"id": "C01", "title": "Gadget decomposition is a bounded, balanced expansion", "statement": "For compiled gadget parameters (base a power of two, level*log2(base) <= word size), decomposing any torus word yields exactly `level` digits, each (read as a signed word) in [-base/2, base/2), and recomposing those digits gives back the input up to an error of at most half of the smallest gadget scale, modulo Q.", "quantifier": "for all words x, all word sizes, all bases and levels accepted by Compile", "why_tests_cant": "2^64 inputs times all (base, level) pairs; the carry chain and the wrap at the top digit only misbehave on rare bit patterns.", "anchors": ["tfhe/decomposer.go: DecomposeScalarTo, RecomposeScalar", "tfhe/asm_decompose.go: decomposePolyTo", "tfhe/params.go: GadgetParameters.BaseQ"]}
{"id": "C02", "title": "DivRoundBits rounds to nearest", "statement": "DivRoundBits(x, bits) is the nearest integer to x / 2^bits, with ties rounded up, for every unsigned word and every shift smaller than the word size; in particular it never differs from the true quotient by more than one half.", "quantifier": "for all words x, all widths w, all 0 <= bits < w", "why_tests_cant": "the word space is 2^64 per shift amount and the operator precedence/overflow of x<<1 only matters at extremes.", "anchors": ["math/num/num.go: DivRoundBits"]}
{"id": "C03", "title": "LWE message encoding survives noise", "statement": "Encoding a message with a modulus p and scale and decoding the plaintext plus any noise strictly inside the decoding radius returns the message modulo p, including when the noisy plaintext wraps around Q. The decode uses float64 division, so the radius must account for float64 rounding.", "quantifier": "for all messages, all moduli and scales with modulus*scale close to Q, all noise values inside the radius", "why_tests_cant": "2^64 plaintexts; float64 rounding errors show up only close to boundaries.", "anchors": ["tfhe/encoder.go: EncodeLWECustom, DecodeLWECustom, EncodeLWE, DecodeLWE", "math/num/num.go: DivRound"]}
{"id": "C04", "title": "Encoding reduces any integer message modulo the modulus", "statement": "EncodeLWE(message) represents message mod p for every int message, negative ones included, for every message modulus p.", "quantifier": "for all int messages and all moduli", "why_tests_cant": "a negative message is converted to an unsigned word before the reduction; whether that is right depends on the residue of 2^w mod p, and tests use small non-negative messages and power-of-two moduli.", "anchors": ["tfhe/encoder.go: EncodeLWECustom"]}
{"id": "C05", "title": "LWE encryption and decryption are inverse", "statement": "Decrypting the ciphertext produced by EncryptLWE under the same key gives back the message modulo p, whatever mask and key were drawn, when the drawn noise is inside the decoding radius; the phase of the ciphertext is exactly plaintext + noise.", "quantifier": "for all keys, masks, noise values in the radius, messages, dimensions", "why_tests_cant": "the masks, keys and noise are random; tests sample a handful.", "anchors": ["tfhe/lwe_enc.go: EncryptLWEBody, DecryptLWEPhase, DecryptLWE", "tfhe/encryptor.go"]}
{"id": "C06", "title": "LWE arithmetic is homomorphic, with any aliasing", "statement": "Add/Sub/Neg/ScalarMul/ScalarMulAdd/ScalarMulSub on LWE ciphertexts (and adding/subtracting a plaintext) change the phase exactly by the corresponding arithmetic on phases, also when the output ciphertext is one of the inputs.", "quantifier": "for all ciphertexts, scalars, keys, dimensions and all aliasings of output with inputs", "why_tests_cant": "aliasing combinations times all ciphertexts; unrolled loops with tails depend on the length modulo 8.", "anchors": ["tfhe/lwe_ops.go", "math/vec/vec.go", "math/vec/asm_vec.go"]}
{"id": "C07", "title": "GLWE encryption, decryption and arithmetic", "statement": "The phase of a fresh GLWE ciphertext is plaintext + noise for every key and mask; DecryptGLWE returns the encrypted message slots; Add/Sub/Neg/PolyMul/ScalarMul/MonomialMul act on phases as in the ring Z_Q[X]/(X^N+1).", "quantifier": "for all keys, masks, noise in radius, message vectors (shorter or longer than N), ranks", "why_tests_cant": "random masks and keys, all message vectors.", "anchors": ["tfhe/glwe_enc.go", "tfhe/glwe_ops.go", "tfhe/encoder.go: EncodeGLWECustomTo, DecodeGLWECustomTo"]}
{"id": "C08", "title": "Monomial multiplication is multiplication by X^d", "statement": "MonomialMulPoly(p, d), in its out-of-place, in-place, accumulate-add and accumulate-sub forms, equals p * X^d in Z_Q[X]/(X^N+1) for every int d including negative ones and ones larger than 2N; exponents add under composition.", "quantifier": "for all polynomials, all ranks N (power of two), all d", "why_tests_cant": "the index arithmetic has four regimes in d mod 2N and an in-place rotation variant; tests use one d.", "anchors": ["math/poly/poly_ops.go: MonomialMulPolyTo, MonomialMulPolyInPlace, MonomialMulAddPolyTo, MonomialMulSubPolyTo"]}
{"id": "C09", "title": "Polynomial permutation is the Galois automorphism X -> X^d", "statement": "PermutePoly(p, d) panics exactly for even d, and for odd d equals p(X^d) in Z_Q[X]/(X^N+1); it is a ring homomorphism, and permuting by d then d' is permuting by d*d'.", "quantifier": "for all polynomials, ranks and odd d (also negative)", "why_tests_cant": "all d and all N; sign and index wrap-around.", "anchors": ["math/poly/poly_ops.go: PermutePolyTo, PermuteAddPolyTo, PermuteSubPolyTo"]}
{"id": "C10", "title": "Sample extraction reads one coefficient", "statement": "The LWE ciphertext extracted from a GLWE ciphertext at index idx has, under the LWE key obtained from the GLWE key, a phase equal to coefficient idx of the GLWE phase.", "quantifier": "for all GLWE ciphertexts, keys, ranks, N, and every idx < N", "why_tests_cant": "every index has a different sign pattern; the identity is over all keys.", "anchors": ["tfhe/glwe.go: AsLWECiphertextTo, AsLWEKeyTo", "mktfhe/glwe.go: AsLWECiphertextTo"]}
{"id": "C11", "title": "LWE key switching preserves the phase up to explicit noise", "statement": "KeySwitchLWE turns a ciphertext under the input key into one under the output key whose phase differs from the original phase by exactly the decomposition error weighted with the input key plus the key-switching-key noise weighted with the digits (so it is bounded).", "quantifier": "for all ciphertexts, keys, key-switching keys generated by the key generator, gadget parameters", "why_tests_cant": "holds for all masks, keys and noise.", "anchors": ["tfhe/keyswitch.go: KeySwitchLWETo", "tfhe/keyswitch_keygen.go: GenLWEKeySwitchKey"]}
{"id": "C12", "title": "GLWE key switching preserves the phase up to explicit noise", "statement": "KeySwitchGLWE turns a ciphertext under the input key into one under the evaluator key with the same phase up to the explicit decomposition and key-switching-key noise, also when output and input are the same ciphertext.", "quantifier": "for all ciphertexts, keys, key-switching keys, gadget parameters and ranks", "why_tests_cant": "holds for all masks, keys and noise; aliasing.", "anchors": ["tfhe/keyswitch.go: KeySwitchGLWETo", "tfhe/keyswitch_keygen.go: GenGLWEKeySwitchKey"]}
{"id": "C13", "title": "External product multiplies phases", "statement": "The external product of a GGSW encryption of m with a GLWE ciphertext has phase m * phase(ct) up to the explicit decomposition and GGSW noise; the gadget product of a GLev encryption of m with a polynomial p has phase m * p up to explicit noise.", "quantifier": "for all messages, ciphertexts, keys, noise, gadget parameters", "why_tests_cant": "universally quantified algebra over random ciphertexts.", "anchors": ["tfhe/product.go: GadgetProdFFTGLWETo, ExternalProdFFTGLWETo"]}
{"id": "C14", "title": "CMux selects one of its inputs", "statement": "CMux(sel, ct0, ct1) has the phase of ct0 when sel encrypts 0 and of ct1 when sel encrypts 1, up to explicit noise, wherever the result is written (fresh output or over one of the inputs).", "quantifier": "for all ciphertexts, selector encryptions, keys, and all aliasings of the output with inputs", "why_tests_cant": "aliasing of the output with an input is a legal call of the To-form that tests do not make.", "anchors": ["tfhe/product.go: CMuxTo"]}
{"id": "C15", "title": "LUT generation places f(x) on the window of x", "statement": "The look-up table generated from a function f with message modulus p contains, at every position within half a window of the encoding of x (taken negacyclically), exactly the encoding of f(x), for every x < p; so rotating by any phase in the window and reading the constant coefficient gives f(x).", "quantifier": "for all functions f, all moduli p <= LUT size (also not powers of two), all LUT sizes and ranks, all positions", "why_tests_cant": "all functions and positions; windows are delimited with rounded division and a negacyclic shift.", "anchors": ["tfhe/bootstrap_lut.go: GenLUTCustomFullTo, GenLUTTo, GenLUTFullTo"]}
{"id": "C16", "title": "Modulus switching rounds to nearest and stays in range", "statement": "ModSwitch maps every torus word to an integer in [0, 2*LUTSize) that is a nearest multiple up to half a step (modulo 2*LUTSize), so the phase error introduced is at most (1 + number of nonzero key bits)/2 steps plus float64 rounding.", "quantifier": "for all words, all LUT sizes", "why_tests_cant": "2^64 words and float64 arithmetic.", "anchors": ["tfhe/bootstrap.go: ModSwitch", "tfhe/evaluator.go: NewEvaluator"]}
{"id": "C17", "title": "Blind rotation rotates the table by the mod-switched phase (original algorithm)", "statement": "Blind rotation of a LUT by an LWE ciphertext yields a GLWE ciphertext whose phase is LUT * X^(-(b' + sum a'_i s_i)) plus the explicit external-product noise, where primes denote mod-switched values.", "quantifier": "for all LUTs, ciphertexts, binary keys, bootstrapping keys generated by the key generator", "why_tests_cant": "loop over all mask elements, all keys and ciphertexts.", "anchors": ["tfhe/bootstrap.go: blindRotateOriginalTo", "tfhe/bootstrap_keygen.go"]}
{"id": "C18", "title": "Blind rotation with block binary keys computes the same rotation", "statement": "With a block size larger than 1 and a key with at most one 1 per block, the block algorithm yields the same phase LUT * X^(-(b' + sum a'_i s_i)) up to noise as the original algorithm.", "quantifier": "for all LUTs, ciphertexts, block binary keys, block sizes and block counts", "why_tests_cant": "all keys and ciphertexts; the correctness rests on the at-most-one-per-block invariant.", "anchors": ["tfhe/bootstrap.go: blindRotateBlockTo", "math/csprng/binary_sampler.go: SampleBlockVecTo"]}
{"id": "C19", "title": "Blind rotation with an extended LUT computes the same rotation", "statement": "With LUTSize = f * PolyRank, the extended algorithm returns the GLWE ciphertext of the degree-N slice needed so that its constant coefficient is the extended LUT (negacyclic of length f*N) read at the mod-switched phase.", "quantifier": "for all LUTs, ciphertexts, block binary keys, extension factors and block counts", "why_tests_cant": "index arithmetic over f interleaved accumulators; tests use piecewise-constant LUTs that hide offset errors.", "anchors": ["tfhe/bootstrap.go: blindRotateExtendedTo"]}
{"id": "C20", "title": "Programmable bootstrapping evaluates the function", "statement": "BootstrapFunc(ct, f) decrypts to f(m) when ct encrypts m with noise inside the (mod-switch corrected) window and the accumulated noise of key switching and blind rotation stays inside the decoding radius, for both bootstrap orders.", "quantifier": "for all functions f, messages m, keys, ciphertexts and noise inside the stated bounds", "why_tests_cant": "composition over all functions, keys, noise and both orders.", "anchors": ["tfhe/bootstrap.go: BootstrapFuncTo, BootstrapLUTTo, DefaultKeySwitchTo"]}
{"id": "C21", "title": "Binary gates compute their truth tables", "statement": "NOT/AND/NAND/OR/NOR/XOR/XNOR on ciphertexts whose phase error is below the gate's margin return ciphertexts that decrypt to the Boolean gate of the decrypted inputs.", "quantifier": "for all input phases within the margin, both word sizes, all keys", "why_tests_cant": "a continuum of noise values; tests use fresh ciphertexts only.", "anchors": ["tfhe/binary_evaluator.go", "tfhe/binary_encoder.go", "mktfhe/binary_evaluator.go"]}
{"id": "C22", "title": "Bit-wise encryption of integers round-trips", "statement": "EncryptLWEBits(m, k) followed by DecryptLWEBits returns m modulo 2^k (little-endian), for fresh ciphertexts with noise in the decoding radius.", "quantifier": "for all integers m and bit counts k", "why_tests_cant": "all integers and bit counts.", "anchors": ["tfhe/binary_encryptor.go", "tfhe/binary_encryptor_public.go", "mktfhe/binary_encryptor.go"]}
{"id": "C23", "title": "Parameter compilation accepts exactly the valid literals", "statement": "Compile accepts a literal iff all documented constraints hold (and panics otherwise); compiled parameters satisfy every constraint the rest of the library relies on (gadget precision fits in the word, block size divides the dimension, LUT size is a multiple of the rank, rank a power of two); Literal() of compiled parameters compiles to the same parameters.", "quantifier": "for all parameter literals", "why_tests_cant": "unbounded parameter space, including literals that overflow the checks.", "anchors": ["tfhe/params.go: GadgetParametersLiteral.Compile, ParametersLiteral.Compile, Literal", "mktfhe/params.go: Compile"]}
{"id": "C24", "title": "Serialization round-trips for ciphertexts and keys", "statement": "For every ciphertext and key type, the bytes written by WriteTo/MarshalBinary, read by ReadFrom/UnmarshalBinary, give back the same object; the byte count equals ByteSize and is what both calls report; reading consumes exactly these bytes and leaves the following ones in the stream, so objects can be concatenated.", "quantifier": "for all objects of all shapes, all streams, any bytes following", "why_tests_cant": "all shapes and values; concatenation histories.", "anchors": ["tfhe/lwe_marshal.go", "tfhe/glwe_marshal.go", "tfhe/fft_glwe_marshal.go", "tfhe/keyswitch_key_marshal.go", "tfhe/encryptor_key_marshal.go", "tfhe/bootstrap_key_marshal.go"]}
{"id": "C25", "title": "Parameters serialize and reload unchanged", "statement": "Compiled parameters (also multi-key parameters) written and read back are equal to the original; the byte count equals ByteSize.", "quantifier": "for all compiled parameters", "why_tests_cant": "all parameter values.", "anchors": ["tfhe/params.go: WriteTo, ReadFrom", "mktfhe/params.go: WriteTo, ReadFrom"]}
{"id": "C26", "title": "Truncated input is reported as an error", "statement": "Reading any proper prefix of a serialized object returns an error rather than a partially filled object reported as success.", "quantifier": "for all objects and all truncation points", "why_tests_cant": "every truncation point of every object.", "anchors": ["tfhe/lwe_marshal.go: ReadFrom", "tfhe/glwe_marshal.go: ReadFrom"]}
{"id": "C27", "title": "Reading never panics on arbitrary bytes", "statement": "ReadFrom/UnmarshalBinary on an arbitrary byte string returns an object or an error and does not panic.", "quantifier": "for all byte strings", "why_tests_cant": "all byte strings.", "anchors": ["tfhe/params.go: ReadFrom", "tfhe/glwe_marshal.go: ReadFrom", "tfhe/keyswitch_key_marshal.go: ReadFrom"]}
{"id": "C28", "title": "Public-key encryption decrypts correctly", "statement": "A ciphertext produced by a PublicEncryptor decrypts under the matching secret key to the encrypted message when the noise is in the radius: the phase is plaintext plus an explicit noise expression, for LWE and GLWE, also when the output ciphertext was used before and also on the second and later calls.", "quantifier": "for all keys, randomness, messages, and all previous contents of the output ciphertext and internal buffers", "why_tests_cant": "depends on call history; tests always write into fresh outputs.", "anchors": ["tfhe/lwe_enc_public.go: EncryptLWEBody", "tfhe/glwe_enc_public.go: EncryptGLWEBody", "tfhe/encryptor_public.go", "mktfhe/encryptor_public.go"]}
{"id": "C29", "title": "Parallel key generation fills every slot exactly once and terminates", "statement": "GenEvalKeyParallel (blind rotation key and default key-switching key) writes every slot of the key exactly once, with no two goroutines writing the same slot, never deadlocks, and returns only after all slots are written, for every schedule of the goroutines; the result is the same function of the slot as in the sequential generator.", "quantifier": "for all schedules, all key sizes, all numbers of CPUs", "why_tests_cant": "all interleavings of producer and workers.", "anchors": ["tfhe/bootstrap_keygen.go: GenBlindRotateKeyParallel", "tfhe/bootstrap_keygen.go: GenDefaultKeySwitchKeyParallel", "xtfhe/fhew_bootstrap_keygen.go: GenBlindRotateKeyParallel"]}
{"id": "C30", "title": "Parallel multi-key blind rotation equals the sequential one", "statement": "BlindRotateParallel returns the same ciphertext as BlindRotate for every interleaving of the per-party goroutines, and the goroutines never touch each other's memory.", "quantifier": "for all schedules, party sets, ciphertexts", "why_tests_cant": "all interleavings.", "anchors": ["mktfhe/bootstrap.go: BlindRotateParallelTo, BlindRotateTo"]}
{"id": "C31", "title": "Multi-key encryption and decryption", "statement": "A ciphertext encrypted by party idx decrypts under a decryptor holding that party's key to the message; ciphertexts of several parties added together decrypt to the sum under a decryptor holding all keys involved; a party's key not involved in the ciphertext does not matter.", "quantifier": "for all party counts, parties, keys, masks, noise in the radius", "why_tests_cant": "all party subsets and keys.", "anchors": ["mktfhe/encryptor.go", "mktfhe/decryptor.go", "mktfhe/lwe.go: CopyFromSubKey"]}
{"id": "C32", "title": "A multi-key decryptor accepts every set of party keys", "statement": "NewDecryptor with any map from valid party indices (below PartyCount) to keys succeeds, and AddSecretKey accepts any valid party index afterwards.", "quantifier": "for all party counts and subsets of indices", "why_tests_cant": "all subsets; tests always pass the complete set.", "anchors": ["mktfhe/decryptor.go: NewDecryptor, AddSecretKey"]}
{"id": "C33", "title": "Multi-key hybrid and external products multiply phases", "statement": "HybridProd(uni-encryption of p by party idx, ct) has joint phase p * phase(ct) up to explicit noise; the external product with a GLev of m has joint phase m * phase(ct); the Add and Sub forms add to and subtract from the output exactly that product.", "quantifier": "for all party sets, ciphertexts, keys, common reference strings, noise", "why_tests_cant": "universally quantified algebra; Sub forms are not tested.", "anchors": ["mktfhe/product.go: HybridProdGLWETo, ExternalProdGLWETo, ExternalProdAddGLWETo, ExternalProdSubGLWETo"]}
{"id": "C34", "title": "Multi-key bootstrapping rotates by the joint phase", "statement": "Multi-key blind rotation yields joint phase LUT * X^(-(b' + sum over parties sum a'_ij s_ij)) up to explicit noise, and multi-key key switching preserves the joint phase up to noise; so gates and LUT evaluation on ciphertexts of several parties decrypt correctly.", "quantifier": "for all party subsets, ciphertexts, keys", "why_tests_cant": "all party subsets and keys.", "anchors": ["mktfhe/bootstrap.go: BlindRotateTo, DefaultKeySwitchTo"]}
{"id": "C35", "title": "BFV multiplication, tensoring and relinearization", "statement": "Tensor(ct0, ct1) returns a ciphertext whose phase under (1, s_i, s_i s_j) is the scaled product of phases; Relinearize maps any such ciphertext to an ordinary GLWE ciphertext with the same phase up to noise; Mul is their composition.", "quantifier": "for all ciphertexts, keys, ranks, and all call histories of the evaluator", "why_tests_cant": "the observable result of Tensor/Relinearize depends on evaluator history.", "anchors": ["xtfhe/bfv_evaluator.go: TensorTo, RelinearizeTo, MulTo", "xtfhe/bfv_keygen.go: GenRelinKey"]}
{"id": "C36", "title": "BFV permutation applies the automorphism to the message", "statement": "Permute(ct, d) with a Galois key for d has phase phase(ct)(X^d) up to explicit key-switching noise.", "quantifier": "for all odd d with a key, ciphertexts, keys, ranks", "why_tests_cant": "all d, keys and ciphertexts.", "anchors": ["xtfhe/bfv_evaluator.go: PermuteTo", "xtfhe/bfv_keygen.go: GenGaloisKeys"]}
{"id": "C37", "title": "Packing an LWE ciphertext into GLWE", "statement": "Pack(ct) returns a GLWE ciphertext whose phase is the constant polynomial phase(ct) up to explicit rounding and key-switching noise, although each step halves residues modulo a power of two.", "quantifier": "for all LWE ciphertexts, keys, N", "why_tests_cant": "the halving errors Q/2*k cancel only through the order of the automorphisms; needs all wrap-around polynomials k.", "anchors": ["xtfhe/bfv_evaluator.go: PackTo", "xtfhe/bfv_keygen.go: GenGaloisKeysForPack"]}
{"id": "C38", "title": "Circuit bootstrapping yields a GGSW ciphertext", "statement": "CircuitBootstrap(ct) returns a GGSW ciphertext of the message: row 0 entry j has phase m*BaseQ(j) and row k+1 entry j has phase m*BaseQ(j)*s_k up to explicit noise.", "quantifier": "for all messages, keys, gadget levels and LUT counts", "why_tests_cant": "all levels, LUT counts (also not dividing the level), keys.", "anchors": ["xtfhe/circuit_bootstrap.go: CircuitBootstrapTo"]}
{"id": "C39", "title": "FHEW-style blind rotation rotates by the phase", "statement": "FHEW blind rotation with automorphism windows yields phase LUT * X^(-(b' + sum a'_i s_i)) up to noise for every window size, using only keys that exist.", "quantifier": "for all ciphertexts, keys, window sizes, N", "why_tests_cant": "the order of lazily applied automorphisms depends on the ciphertext; every window size and every distribution of exponents.", "anchors": ["xtfhe/fhew_bootstrap.go: BlindRotateTo", "xtfhe/fhew_evaluator.go"]}
{"id": "C40", "title": "Many-LUT bootstrapping evaluates all functions", "statement": "One many-LUT bootstrap of an encryption of m yields encryptions of f_0(m), ..., f_(k-1)(m) in this order, for every LUT count and message modulus accepted by the parameters.", "quantifier": "for all functions, moduli, LUT counts, messages and phases in the window", "why_tests_cant": "all function vectors and moduli; misalignment only for some moduli.", "anchors": ["xtfhe/manylut_bootstrap.go: GenLUTCustomFullTo, ModSwitch, BootstrapLUTTo", "xtfhe/manylut_params.go: Compile"]}
{"id": "C41", "title": "Block binary sampling respects the block structure", "statement": "Block binary sampling returns a vector of zeros and ones with at most one 1 in every block, for every random stream; the stated panic occurs exactly when the length is not a multiple of the block size.", "quantifier": "for all random streams, lengths, block sizes", "why_tests_cant": "all random streams.", "anchors": ["math/csprng/binary_sampler.go: SampleBlockVecTo"]}
{"id": "C42", "title": "Bounded uniform sampling is in range and unbiased", "statement": "UniformSampler.SampleN(N) returns a value below N, and each residue is produced by exactly the same number of accepted raw words, so it is unbiased.", "quantifier": "for all N >= 1 and all random streams", "why_tests_cant": "statistical bias cannot be excluded by sampling; the argument is over all raw words.", "anchors": ["math/csprng/uniform_sampler.go: SampleN"]}
{"id": "C43", "title": "Integer helpers compute what they name", "statement": "Log2 is the floor of the binary logarithm and panics exactly for non-positive inputs; Sqrt is the floor of the square root; IsPowerOfTwo recognizes exactly powers of two; ModExp(x,y,m) is x^y mod m; ModInverse(x,m) is an inverse of x modulo m when one exists.", "quantifier": "for all integers of the type", "why_tests_cant": "2^64 inputs.", "anchors": ["math/num/num.go: Log2, Sqrt, IsPowerOfTwo, ModExp, ModInverse"]}
{"id": "C44", "title": "Vector rotation and reversal in place agree with the specification", "statement": "RotateTo/RotateInPlace(v, l) move element i to (i+l) mod len for every int l (negative and larger than the length included) and agree with each other; Reverse and BitReverse are involutive permutations.", "quantifier": "for all vectors, lengths and l", "why_tests_cant": "all lengths and l.", "anchors": ["math/vec/vec.go: RotateTo, RotateInPlace, ReverseInPlace, BitReverseInPlace"]}
{"id": "C45", "title": "The transform-domain product is the negacyclic product", "statement": "Forward transform, element-wise product and inverse transform (in exact complex arithmetic) give the product in R[X]/(X^N+1); the inverse transform undoes the forward one; monomial and permutation operations in the transform domain agree with their coefficient versions.", "quantifier": "for all polynomials, all N a power of two", "why_tests_cant": "all polynomials and N; a twiddle index error for one N or a sign error is invisible to sampling of other N.", "anchors": ["math/poly/fft.go", "math/poly/asm_fft.go", "math/poly/poly_evaluator.go", "math/poly/fft_ops.go"]}
{"id": "C46", "title": "Split multiplication is exact modulo Q", "statement": "The multi-limb multiplication (splitting one operand into limbs, multiplying in the transform domain, recombining by shifts) equals the product modulo Q when each limb product is exact.", "quantifier": "for all polynomials and ranks", "why_tests_cant": "dropped cross terms and shift overflow matter only for large coefficients.", "anchors": ["math/poly/poly_mul.go"]}
{"id": "C47", "title": "Lev/GSW/GLev/GGSW encryption round-trips", "statement": "Decrypting a fresh Lev, GSW, GLev or GGSW encryption of a message below the gadget base returns that message for noise below half of the largest gadget scale.", "quantifier": "for all messages in range, keys, masks, noise in radius", "why_tests_cant": "all keys, masks, noise.", "anchors": ["tfhe/lwe_enc.go: EncryptLevScalarTo, DecryptLevScalar, EncryptGSWScalarTo", "tfhe/glwe_enc.go"]}
{"id": "C48", "title": "All views of a secret key stay consistent", "statement": "In a secret key, the LWE key is the prefix of the large LWE key and the GLWE key polynomials are its consecutive chunks; writing through one view is seen through the others, and this stays true after key generation, copying, CopyFrom and reading from bytes.", "quantifier": "for all histories of these operations", "why_tests_cant": "histories of operations over shared backing memory.", "anchors": ["tfhe/encryptor_key.go: NewSecretKey, Copy, CopyFrom", "tfhe/encryptor_key_marshal.go: ReadFrom"]}
{"id": "C49", "title": "Scratch buffers never leak between calls", "statement": "The result of a decomposition or evaluator call depends only on its arguments, not on previous calls, although scratch buffers are grown lazily and reused with different gadget parameters.", "quantifier": "for all call histories", "why_tests_cant": "all histories of calls with different gadget parameters.", "anchors": ["tfhe/decomposer.go: ScalarBuffer, PolyBuffer, FFTPolyBuffer"]}
{"id": "C50", "title": "Safe copies are independent", "statement": "A SafeCopy of an encryptor, decryptor or evaluator can be used concurrently with the original: no operation on one changes the result of an operation on the other.", "quantifier": "for all interleavings of operations on original and copy", "why_tests_cant": "all interleavings.", "anchors": ["tfhe/encryptor.go: SafeCopy", "mktfhe/decryptor.go: SafeCopy", "mktfhe/evaluator.go: SafeCopy"]}
{"id": "C51", "title": "Sanitization preserves the message", "statement": "SanitizeFunc(ct, f) decrypts to f(m); re-randomizing a ciphertext keeps its phase up to explicit noise.", "quantifier": "for all messages, functions, keys, randomness in the bounds", "why_tests_cant": "all keys and randomness.", "anchors": ["xtfhe/sanitization.go: ReRandLWETo, SanitizeLUTTo"]}
{"id": "C52", "title": "Table-driven discrete Gaussian sampling inverts its table", "statement": "The CDT sampler returns, for a raw word r, offset + the number of table entries not exceeding r; so outcomes are monotone in r and always within the table range plus one. SampleVecTo, SamplePolyTo, SamplePolyAddTo and SamplePolySubTo take one word for each coefficient, in order, set, add or subtract the sample of that word, and leave the later words unread; over all choices of the words the coefficients are independent.", "quantifier": "for all tables (non-decreasing), raw words, and polynomials of any length", "why_tests_cant": "all raw words; that coefficients are independent is a count over all choices of the words, and no test calls the sampler.", "anchors": ["xtfhe/sanitization_sampler.go: Sample, SampleVecTo, SamplePolyTo, SamplePolyAddTo, SamplePolySubTo"]}
{"id": "C53", "title": "Discrete Gaussian samples lie around their center", "statement": "Every outcome of a CDT sampler built for a center c and standard deviation s lies within the tail cut of c: at distance at most 12*s from c, up to a small constant for rounding.", "quantifier": "for all centers, standard deviations and raw words", "why_tests_cant": "a statistical test of a few centers does not see the bounds of the table for all of them.", "anchors": ["xtfhe/sanitization_sampler.go: NewCDTSampler, Sample"]}
{"id": "C54", "title": "Copies are equal to the original and share no memory with it", "statement": "Copy of every ciphertext and key type returns a value that holds the same numbers and gadget parameters, and whatever is later written to the one does not change the other; CopyFrom makes the receiver hold what the argument holds and changes nothing else; Clear sets all numbers to zero and changes nothing else.", "quantifier": "for all types, values, memories and later writes", "why_tests_cant": "tests compare a copy with its original once; they do not see sharing between nested slices, nor fields that happen to be equal in the test.", "anchors": ["tfhe/glwe.go: Copy, CopyFrom, Clear", "tfhe/lwe.go: Copy, CopyFrom, Clear", "tfhe/fft_glwe.go: Copy, CopyFrom, Clear", "tfhe/bootstrap_key.go: Copy, CopyFrom, Clear", "tfhe/keyswitch_key.go: Copy, CopyFrom, Clear", "mktfhe/glwe.go: Copy, CopyFrom, Clear", "mktfhe/fft_glwe.go: Copy, CopyFrom, Clear", "mktfhe/bootstrap_key.go: Copy, CopyFrom, Clear"]}
{"id": "C55", "title": "Uni-encryption round-trips", "statement": "UniDecrypt(UniEncrypt(messages)) is the list of messages modulo the message modulus, padded with zero; the same for FFTUniEncrypt/FFTUniDecrypt, and UniDecryptPoly(UniEncryptPoly(p)) is p for polynomials below the gadget base.", "quantifier": "for all messages, keys, common reference strings, gadget parameters and noise in the decryption radius", "why_tests_cant": "the boundary between 0 and the gadget base shows only for some noise; unequal gadget levels are not tried.", "anchors": ["mktfhe/glwe_enc.go: UniEncryptTo, UniEncryptPolyTo, UniDecryptTo, UniDecryptPolyTo", "mktfhe/fft_glwe_enc.go: FFTUniEncryptPolyTo, FFTUniDecryptPolyTo"]}
{"id": "C56", "title": "Polynomial multiplication is exact in floating-point arithmetic", "statement": "MulPolyTo, MulAddPolyTo and MulSubPolyTo return p0*p1, out+p0*p1 and out-p0*p1 with the exact negacyclic product although they compute with float64: no rounding error in the tables, the transforms, the products or the inverse transforms ever reaches a result. The same for the ShortFFTPolyMul functions when the second factor is the transform of a polynomial with coefficients up to 2^ShortLogBound.", "quantifier": "for all input polynomials, signed and unsigned words up to 64 bits, all ranks 2^4..2^22 (2^27 for a short factor), all roundings with relative error 2^-53, all ways to fuse products and sums, and any Sincos within 2^-51", "why_tests_cant": "the error depends on all inputs at once; random inputs are far from the worst case, and the worst case over 2^(64N) inputs cannot be searched.", "anchors": ["math/poly/poly_mul.go: MulPolyTo, MulAddPolyTo, MulSubPolyTo, ShortFFTPolyMulPolyTo, ShortFFTPolyMulAddPolyTo, ShortFFTPolyMulSubPolyTo", "math/poly/fft.go: FwdFFTTo, InvFFTToUnsafe", "math/poly/asm_fft.go", "math/poly/asm_fold.go: floatModQInPlace", "math/poly/poly_evaluator.go: NewEvaluator, splitParameters, splitParamsShort"]}
{"id": "C57", "title": "Products, key switching and bootstrapping in floating-point arithmetic have bounded errors and decrypt correctly", "statement": "GadgetProdGLWETo, ExternalProdGLWETo (and their Add and Sub forms), CMuxTo, KeySwitchGLWETo, BlindRotateTo, BootstrapLUTTo and BootstrapFuncTo, which compute with float64 in the Fourier domain, return what exact arithmetic on the polynomials returns up to an error in every coefficient that is bounded by an explicit function of rank, word size, gadget and block size. BootstrapFuncTo therefore returns a ciphertext of F(m) whenever noise and this bound are within the decoding radius, with no assumption about Fourier errors.", "quantifier": "for all ciphertexts, keys, look-up tables, functions, ranks 2^(l+4), words up to 64 bits, gadgets, block sizes and both bootstrap orders (at least two blocks if the table is extended), all roundings of an IEEE 754 platform, all ways to fuse products and sums", "why_tests_cant": "the rounding error of a blind rotation depends on all keys and on the whole history of the accumulator; tests see typical errors of a few samples, never the worst case.", "anchors": ["tfhe/product.go: GadgetProdGLWETo, ExternalProdGLWETo, CMuxTo", "tfhe/keyswitch.go: KeySwitchGLWETo", "tfhe/bootstrap.go: BootstrapFuncTo, BootstrapLUTTo, BlindRotateTo, blindRotateOriginalTo, blindRotateBlockTo, blindRotateExtendedTo", "tfhe/fft_glwe_ops.go: FFTPolyMulFFTGLWETo, FFTPolyMulAddFFTGLWETo, SubFFTGLWETo", "math/poly/fft.go: MonomialFwdFFTTo, MonomialSubOneFwdFFTTo, InvFFTToUnsafe"]}
{"id": "C58", "title": "Operations in the Fourier domain act on polynomials and ciphertexts", "statement": "AddFFTPolyTo, SubFFTPolyTo, NegFFTPolyTo, the FloatMul, CmplxMul, Mul, PolyMul and Permute families, FwdFFTAddTo and FwdFFTSubTo compute the transform of the polynomial operation their name says (a complex constant a+bi acts as a + bX^(N/2)), up to an explicit rounding error; they change only the output, also when output and arguments are the same vector, and permutations by even exponents panic. The functions on FFT GLWE ciphertexts do this in every component. Words that go to the Fourier domain, through an operation, and back are the words of the operation up to an explicit error.", "quantifier": "for all vectors, memories, aliasings, constants, exponents, ranks 2^(l+4), ciphertext ranks and roundings", "why_tests_cant": "tests use distinct outputs, few exponents and a tolerance; they see neither overwritten arguments nor the worst rounding error.", "anchors": ["math/poly/fft_ops.go", "math/poly/fft.go: FwdFFTTo, FwdFFTAddTo, FwdFFTSubTo", "math/poly/asm_vec_cmplx.go", "tfhe/fft_glwe_ops.go", "tfhe/fft_glwe_conv.go: FwdFFTGLWECiphertextTo, InvFFTGLWECiphertextTo", "mktfhe/fft_glwe_ops.go", "mktfhe/fft_glwe_conv.go"]}
{"id": "C59", "title": "Multi-key arithmetic, booleans and integers under every decryptor", "statement": "If a multi-key decryptor, holding the keys of any parties, decrypts the operands of a multi-key LWE or GLWE operation (addition, subtraction, negation, plaintexts, scalars, polynomials, monomials, permutations), then it decrypts the result, to the value of the operation; only the output changes and it may be one of the operands where the documentation allows it. Booleans and integers that a party encrypts bit by bit decrypt with every decryptor that holds its key; an index out of range panics.", "quantifier": "for all memories, aliasings, numbers of parties, sets of known keys, dimensions, rings, messages, masks and noises below an eighth of the circle", "why_tests_cant": "tests use two parties that are both known, fresh outputs and few messages.", "anchors": ["mktfhe/lwe_ops.go", "mktfhe/glwe_ops.go", "mktfhe/decryptor.go: DecryptLWEPlaintext, DecryptGLWEPhaseTo", "mktfhe/binary_encryptor.go", "mktfhe/binary_decryptor.go"]}
{"id": "C60", "title": "Gaussian samples are bounded and symmetric", "statement": "Every value that GaussianSampler returns or adds for a standard deviation s is an integer of size at most 8.074 s + 1/2, whatever words the generator delivers; SamplePolyAddTo and SamplePolySubTo add and subtract what SamplePolyTo would write; flipping the lowest bit of every word of the stream negates the sample; a sample depends on the words it reads only; the functions panic exactly when the standard deviation is negative; the tables of the sampler are layers of equal area under the normal density.", "quantifier": "for all streams of words, standard deviations, word types, vectors, and all roundings of float64, math.Log and math.Exp within stated bounds", "why_tests_cant": "the extreme samples have probabilities around 2^-57; no test run meets them, and no test can exclude unbounded ones.", "anchors": ["math/csprng/gaussian_sampler.go"]}
{"id": "C61", "title": "Fresh encryptions under the published parameters always decrypt", "statement": "Every published parameter literal compiles on every platform; with the compiled parameters, everything EncryptLWE, EncryptGLWE and, where public keys are supported, GenPublicKey followed by the public EncryptLWE and EncryptGLWE return decrypts to the messages modulo the message modulus, whatever words the generators deliver: the noise of the sampler and the roundings of the floating-point products never reach the decoding radius, and nothing panics.", "quantifier": "for all published sets, keys, masks, messages, streams of random words, buffer contents, platforms that fuse or do not fuse products, and all roundings of float64, math.Log and math.Sincos within stated bounds", "why_tests_cant": "decryption failures at the tail of the noise have probabilities far below what tests can sample, and the constants were chosen for failure probabilities like 2^-64.", "anchors": ["tfhe/params_list.go", "tfhe/params.go", "tfhe/lwe_enc.go", "tfhe/glwe_enc.go", "tfhe/lwe_enc_public.go", "tfhe/glwe_enc_public.go", "tfhe/encryptor.go", "math/csprng/gaussian_sampler.go", "math/poly/poly_mul.go"]}
{"id": "C62", "title": "FHEW keys are short enough for exact products", "statement": "Under every set of FHEW parameters that Compile accepts, every coefficient of a secret key sampled with SecretKeyStdDevQ is at most 2^8 in absolute value, the bound up to which the floating-point products with keys are exact; GenSecretKey does not panic, and the LWE key, the large LWE key and the GLWE key it returns are the same elements; the published FHEW parameters compile.", "quantifier": "for all parameter literals, streams of random words, and all roundings of float64, math.Log and math.Log2 within stated bounds", "why_tests_cant": "a key coefficient beyond the bound appears with a probability far below what tests can sample, and literals with other constants are not tested.", "anchors": ["xtfhe/fhew_params.go", "xtfhe/fhew_enc.go: GenSecretKey", "xtfhe/fhew_params_list.go", "math/csprng/gaussian_sampler.go"]}
{"id": "C63", "title": "Fresh multi-key encryptions under the published parameters always decrypt", "statement": "Under every published multi-key parameter set, everything EncryptLWE and EncryptGLWE of any party below PartyCount return decrypts to the messages modulo the message modulus with every Decryptor that holds the key of that party, whatever other parties' keys it holds, whatever words the generators deliver; neither side panics.", "quantifier": "for all published multi-key sets, parties, keys, masks, messages, sets of keys held by the decryptor, streams of random words, buffer contents, and all roundings of float64 within stated bounds", "why_tests_cant": "the tails of the noise are far below what tests can sample, and tests hold all keys in one decryptor and do not vary the subset of parties.", "anchors": ["mktfhe/params_list.go", "mktfhe/encryptor.go", "mktfhe/decryptor.go", "mktfhe/lwe.go", "mktfhe/glwe.go", "tfhe/lwe_enc.go", "tfhe/glwe_enc.go"]}
{"id": "C64", "title": "Fourier-domain and leveled encryptions under the published parameters decrypt", "statement": "Under every published parameter set, what EncryptFFTGLWE returns decrypts with DecryptFFTGLWE to the messages, also in mktfhe for every party and every decryptor that holds its key; every row of what EncryptLev, EncryptGSW, EncryptGLev, EncryptGGSW, EncryptFFTGLev and EncryptFFTGGSW return encrypts its multiple of the message with an error up to a stated bound, and the decryptions return the message modulo the base of the gadget, for the gadgets of the set; whatever words the generators deliver, although transforms and products are computed in floating point; nothing panics.", "quantifier": "for all published sets, binary keys, masks, messages, streams of random words, buffer contents, parties and sets of keys held, platforms that fuse or do not fuse products, and all roundings of float64 within stated bounds", "why_tests_cant": "tests encrypt a few messages with one set per word size; neither the tail of the noise nor the worst rounding error of a transform of 64-bit words, which a float64 cannot hold exactly, is ever met.", "anchors": ["tfhe/fft_glwe_enc.go", "tfhe/fft_glwe_conv.go: FwdFFTGLWECiphertextTo, InvFFTGLWECiphertextTo", "tfhe/lwe_enc.go: EncryptLevScalarTo, EncryptGSWScalarTo, DecryptLevScalar", "tfhe/glwe_enc.go: EncryptGLevPolyTo, EncryptGGSWPolyTo, DecryptGLevPolyTo", "mktfhe/encryptor.go: EncryptFFTGLWEPlaintextTo", "mktfhe/decryptor.go: DecryptFFTGLWEPhaseTo", "tfhe/params_list.go", "mktfhe/params_list.go"]}
{"id": "C65", "title": "The AVX2 vector kernels compute the same as the Go loops", "statement": "On amd64 with AVX2, AddTo, SubTo, ScalarMulTo, ScalarMulAddTo, ScalarMulSubTo, MulTo, MulAddTo and MulSubTo of package vec on uint32 and uint64 slices of equal length return, write the element-wise result modulo 2^32 or 2^64 to vOut and change no other word of memory; an input may be vOut itself or be disjoint from it; the result is that of the pure Go loops; slices of different lengths panic.", "quantifier": "for all lengths below 2^60, contents, addresses, capacities, initial registers and aliasing of whole slices", "why_tests_cant": "the test runs one length (687) with random contents and distinct slices; a kernel that reads or writes past the end, fails in the leftover loop for another length, or loses a carry between 32-bit halves only for rare operands, would pass.", "anchors": ["math/vec/asm_vec_amd64.s", "math/vec/asm_vec_amd64.go", "math/vec/asm_vec.go", "math/vec/vec.go: checkLength"]}
{"id": "C66", "title": "The AVX2 kernels of DecomposePolyTo compute the gadget decomposition", "statement": "On amd64 with AVX2, DecomposePolyTo with as many outputs as the gadget has levels, of the rank of p, returns; coefficient i of output j is digit j of DecomposeScalar of coefficient i of p; digits lie in [-base/2, base/2) and recompose to p up to half of the last scale; no other word of memory changes; the result is that of the pure Go loop.", "quantifier": "for all valid gadgets of uint32 and uint64, ranks that are multiples of the vector length, contents, addresses and initial registers", "why_tests_cant": "no test compares the kernels with the Go loop; the decompositions of the tests are those of one parameter set per word size, with random coefficients.", "anchors": ["tfhe/asm_decompose_amd64.s", "tfhe/asm_decompose_amd64.go", "tfhe/asm_decompose.go", "tfhe/decomposer.go: DecomposePolyTo"]}
{"id": "C67", "title": "The AVX2 kernels of the transforms perform the operations of the Go transforms", "statement": "On amd64 with AVX2 and FMA, fwdFFTInPlace and invFFTInPlace return and run the same network of butterflies over the same twiddle factors as the Go functions, with products fused as stated; the twelve kernels for sums, differences, negations and products of transforms compute, for every complex number of vOut, the stated sums and products; they read the slices they are given and write coeffs or vOut only, which may be one of the inputs of the twelve kernels; with exact operations the results are those of the exact transforms.", "quantifier": "for all powers of two from 16, contents, twiddle tables, addresses, initial registers and floating-point units", "why_tests_cant": "the tests run one size (64 complex numbers for the transforms, 1024 for the vectors) with distinct slices and a tolerance of 1e-10 on numbers below one; an access past the end, another size, an aliased output or a wrong operand order in a stage that this size does not reach, would pass.", "anchors": ["math/poly/asm_fft_amd64.s", "math/poly/asm_fft_amd64.go", "math/poly/asm_fft.go", "math/poly/asm_vec_cmplx_amd64.s", "math/poly/asm_vec_cmplx_amd64.go"]}
{"id": "C68", "title": "The AVX2 kernels between words and floats convert correctly", "statement": "On amd64 with AVX2, foldPolyTo writes, for every j below N/2, the signed integers p[j] and p[j+N/2] as real and imaginary part of number j, exactly for uint32 and correctly rounded for uint64; floatModQInPlace for Q = 2^w replaces every number by the nearest integer modulo Q in [-Q/2, Q/2]; unfoldPolyTo, unfoldPolyAddTo and unfoldPolySubTo store, add or subtract the numbers converted to words; floatModQInPlace followed by one of these gives, stores, adds or subtracts the nearest integer modulo 2^32 or 2^64, for all numbers of the format, however large or small; no other word of memory changes. The decimal constants of the assembly denote the floats the computation needs.", "quantifier": "for all N that are multiples of 8 below 2^58, contents, addresses, initial registers, and floating-point units that round exact results monotonically and leave numbers of the format alone", "why_tests_cant": "the kernels convert with bit tricks (magic constants, shifts of the mantissa by the exponent) that the tests reach only through products of polynomials with random coefficients; boundary values such as 2^63, subnormals, halves or numbers above 2^64 do not occur there.", "anchors": ["math/poly/asm_fold_amd64.s", "math/poly/asm_fold_amd64.go", "math/poly/fft.go"]}
{"id": "C69", "title": "The AVX2 transforms and vector kernels give the numbers of the floating-point model", "statement": "On amd64 with AVX2 and FMA, after FwdFFTTo every coefficient of the output is a finite float64 whose value is exactly the one of the floating-point transform (each operation rounded once, in the evaluation order of the kernels), for every polynomial over uint32 or uint64 and every rank from 16 to 2^16: no intermediate result overflows or underflows. The inverse transform and the operations on vectors in the Fourier domain likewise leave finite numbers with the values of the floating-point model as long as no exact result overflows or underflows, and InvFFTToUnsafe then stores the nearest integers modulo 2^32 or 2^64. So the error bounds stated for the floating-point model hold for the kernels.", "quantifier": "for all ranks 16 to 2^16 (all powers of two below 2^58 for the conditional statements), polynomials, contents and addresses of the slices, initial registers, and all floating-point units with correctly rounded fused operations", "why_tests_cant": "the test transforms one random vector of 64 numbers and compares it with a textbook transform up to 1e-10; it cannot show that no intermediate value of any transform leaves the range of the format, nor that the evaluation order is the one the error analysis is about.", "anchors": ["math/poly/fft.go", "math/poly/asm_fft_amd64.s", "math/poly/asm_vec_cmplx_amd64.s", "math/poly/asm_fold_amd64.s", "math/poly/poly_evaluator.go"]}
{"id": "C70", "title": "Byte counts and errors of WriteTo and ReadFrom when the writer fails or the stream ends early", "statement": "On every writer that keeps the contract of io.Writer, WriteTo of every ciphertext, key and parameter type does not panic; the bytes that reach the writer are a beginning of the encoding; it returns an error exactly if a Write returned one, makes no call of Write after that one, and without an error the whole encoding has been written; the returned count is the number of bytes that reached the writer, error or not. ReadFrom of every type, on every byte string on which it does not panic, returns the number of bytes it took from the stream, error or not.", "quantifier": "for all objects that have an encoding, all writers as state machines (failing at any call, after any number of bytes), all streams", "why_tests_cant": "the tests write to a bytes.Buffer and read back what they wrote; no writer fails and no stream ends early.", "anchors": ["tfhe/lwe_marshal.go: WriteTo", "tfhe/glwe_marshal.go: WriteTo", "tfhe/fft_glwe_marshal.go: WriteTo, ReadFrom", "tfhe/keyswitch_key_marshal.go: WriteTo", "tfhe/encryptor_key_marshal.go: WriteTo", "tfhe/bootstrap_key_marshal.go: WriteTo", "tfhe/params.go: WriteTo", "mktfhe/bootstrap_key_marshal.go: WriteTo"]}
{"id": "C71", "title": "Parallel multi-key bootstrapping and gates return what the sequential ones return", "statement": "BootstrapLUTParallelTo and BootstrapFuncParallelTo, and ANDParallelTo, NANDParallelTo, ORParallelTo, NORParallelTo, XORParallelTo and XNORParallelTo of the multi-key package, whatever the schedule of the goroutines, leave the same ciphertext in the output as their sequential counterparts, for both bootstrap orders and for outputs that are also inputs; some run returns; and the result decrypts to the value of the function or of the gate whenever the noise fits.", "quantifier": "for all keys, ciphertexts, tables, functions, numbers of parties, old contents of the buffers, and schedules", "why_tests_cant": "the tests run each gate on four pairs of bits under the one schedule that happens, for one parameter set and one bootstrap order.", "anchors": ["mktfhe/bootstrap.go: BootstrapLUTParallelTo, BootstrapFuncParallelTo", "mktfhe/binary_evaluator.go: ANDParallelTo, NANDParallelTo, ORParallelTo, NORParallelTo, XORParallelTo, XNORParallelTo"]}
{"id": "C72", "title": "Booleans and integers encrypted with a public key decrypt with the secret key, and gates compute on them", "statement": "EncryptLWEBool, EncryptLWEBoolTo, EncryptLWEBits and EncryptLWEBitsTo of BinaryPublicEncryptor, in both packages, return ciphertexts that the decryptor for the secret key decrypts to the boolean, or to the integer modulo 2^bits, whenever the noise bound fits; and the gates on such ciphertexts decrypt to the gate of the booleans.", "quantifier": "for all secret keys, public keys made from them, samples and errors within the bounds, messages (negative ones too), numbers of bits, calls before this one, and gates", "why_tests_cant": "no test uses BinaryPublicEncryptor; the second and later calls of the multi-key encryptor are wrong, which one encryption does not show.", "anchors": ["tfhe/binary_encryptor_public.go", "mktfhe/binary_encryptor_public.go", "mktfhe/encryptor_public.go: EncryptLWEBody"]}
{"id": "C73", "title": "What ReadFrom accepted, WriteTo writes back unchanged", "statement": "If ReadFrom of a ciphertext, key or parameter type succeeds, on any byte string, then WriteTo of the object succeeds and writes the bytes that were consumed; ByteSize of the object and the count of ReadFrom are their number, and the rest of the stream is untouched. So ReadFrom accepts no second encoding of an object.", "quantifier": "for all byte strings, of any origin, and all types", "why_tests_cant": "the tests read only bytes that WriteTo has written.", "anchors": ["tfhe/lwe_marshal.go: ReadFrom, WriteTo, ByteSize", "tfhe/glwe_marshal.go: ReadFrom, WriteTo, ByteSize", "tfhe/fft_glwe_marshal.go: ReadFrom", "tfhe/keyswitch_key_marshal.go: ReadFrom, WriteTo", "tfhe/encryptor_key_marshal.go: ReadFrom, WriteTo", "tfhe/bootstrap_key_marshal.go: ReadFrom, WriteTo", "mktfhe/bootstrap_key_marshal.go: ReadFrom, WriteTo", "tfhe/params.go: ReadFrom, WriteTo", "mktfhe/params.go: ReadFrom, WriteTo"]}
{"id": "C74", "title": "Parties that share only a seed make keys that work together", "statement": "If every party calls NewEncryptor (or NewEncryptorWithKey with a key made by GenSecretKey) of the multi-key package with the same crsSeed and its own index and randomness, and then GenEvalKey or GenEvalKeyParallel, nothing panics; the common reference strings are equal and depend on the seed, the degree and the number of levels only; and an evaluator that is given the evaluation keys of any subset of the parties bootstraps a ciphertext that their joint decryptor reads as m to one that it decrypts to f(m), and computes gates. With different seeds products are wrong, and nothing reports it.", "quantifier": "for all stream ciphers, seeds, numbers of parties, subsets, raw random words, masks, noises and Fourier errors within the bounds, and parameters that Compile accepts", "why_tests_cant": "the tests set up two parties with one seed and one parameter set, with all parties known to the evaluator.", "anchors": ["mktfhe/encryptor.go: NewEncryptor, NewEncryptorWithKey", "mktfhe/bootstrap_keygen.go: GenEvalKey, GenCRSPublicKey, GenRelinKey", "mktfhe/evaluator.go: NewEvaluator", "tfhe/encryptor.go: GenSecretKey"]}
{"id": "C75", "title": "Circuits of any size and depth, and chains of functions, decrypt to what they compute on plain data", "statement": "Take any program of calls of the bootstrapped gates and NOT on numbered ciphertexts, in any wiring, also overwriting its own inputs. If one noise bound covers the inputs and the output of a gate, and every gate is in its margin at that bound, then after the program every input and every written ciphertext decrypts to what the program computes on plain bits, and all other ciphertexts are unchanged, however long or deep the program is. The same holds for the multi-key gates, where no call panics, also with keys that parties made alone from one seed. In particular a ripple-carry adder of any width gives the sum and the carry, and the bitwise comparison of the package example, on numbers encrypted with EncryptLWEBits, tells whether they agree in these bits. In the packages tfhe, mktfhe and (for FHEW) xtfhe a chain of BootstrapFunc calls of any length decrypts to the composition of the functions modulo the message modulus.", "quantifier": "for all programs of any length, wirings, inputs, widths of the adder, keys, masks and noises in the bounds, transform errors in the bounds, old contents of all buffers and outputs, both bootstrap orders, all numbers of parties, lookup table lengths equal to the degree or block counts of at least two", "why_tests_cant": "the tests bootstrap fresh encryptions once, and one example runs a comparison of 16 bits on equal numbers; that noise does not build up needs an argument for all depths.", "anchors": ["tfhe/binary_evaluator.go: ANDTo, NANDTo, ORTo, NORTo, XORTo, XNORTo, NOTTo", "tfhe/bootstrap.go: BootstrapFunc", "mktfhe/bootstrap.go: BootstrapFunc", "xtfhe/fhew_bootstrap.go: BootstrapFunc", "mktfhe/binary_evaluator.go: ANDTo, NANDTo, ORTo, NORTo, XORTo, XNORTo, NOTTo"]}
{"id": "C76", "title": "Limits of the integer types, Abs, Min, Max, MinN and MaxN are right, but Abs of the smallest signed value is negative", "statement": "For every integer type MaxT and MinT are its largest and smallest value, SizeT and ByteSizeT its size in bits and bytes, and IsSigned tells whether it has negative values, so the uniform sampler reduces from the true range of the type. Min and Max give the smaller and the larger of two integers; MaxN and MinN the largest and smallest argument, and zero without arguments. Abs is the absolute value.", "quantifier": "for all integer types of the package constraint, all their values, and argument lists of any length", "why_tests_cant": "the package has no tests; the one value of a signed type where negation wraps is rarely sampled.", "anchors": ["math/num/num.go: Abs, MaxT, SizeT, ByteSizeT, MinT, IsSigned, Min, Max, MaxN, MinN", "math/csprng/uniform_sampler.go: NewUniformSamplerWithSeed"]}
{"id": "C77", "title": "The float-4 layout keeps every number, and Equals decides equality", "statement": "CmplxToFloat4To returns exactly if the length of the input is a multiple of 4 and the output is twice as long, and Float4ToCmplxTo exactly if the length of the input is a multiple of 8 and the output is half as long; otherwise they panic. Number i of the complex slice has its real part at place 8(i/4)+i%4 and its imaginary part four places further. The two conversions undo each other in both orders, whatever the output held before, and so do the variants that allocate. Equals does not panic and is true exactly for slices with the same elements in the same order.", "quantifier": "for all slices of any length and contents, and all old contents of the outputs; Equals for all element types whose == is equality, so not for floats", "why_tests_cant": "the conversions are used in one test of the assembly on random vectors of length 1024, always forth and back around the operation, where a wrong layout that is undone goes unseen; no test calls Equals.", "anchors": ["math/vec/vec.go: CmplxToFloat4, CmplxToFloat4To, Float4ToCmplx, Float4ToCmplxTo, Equals", "math/poly/poly.go: Equals"]}
{"id": "C78", "title": "Vector functions that allocate their result compute it element by element, but some panic on empty vectors in the portable code only", "statement": "Add, Sub, Mul, ScalarMul, Neg, Reverse and Rotate return a new vector of the length of the argument that holds the sums, differences, products, multiples, negatives, or the elements in the other order, and two vectors of different length are refused with a panic. Cast between integer types keeps every element that the target type has and reduces the others modulo its size. None of them panics on vectors of equal length, and the result does not depend on whether the assembly is used.", "quantifier": "for all vectors of any length and capacity, element types, scalars, rotations but the smallest integer, and both builds", "why_tests_cant": "the tests of the package compare the assembly with loops on long random vectors; two tests of other packages use Reverse and ScalarMul to write down expected values; none uses an empty vector or checks these variants.", "anchors": ["math/vec/vec.go: Add, Sub, Mul, ScalarMul, Neg, Reverse, Rotate, Cast, CastTo", "math/vec/asm_vec.go: AddTo, SubTo, MulTo, ScalarMulTo", "math/vec/asm_vec_amd64.go: AddTo, SubTo, MulTo, ScalarMulTo"]}
{"id": "C79", "title": "Polynomials made from coefficients, and comparison of transformed polynomials up to an error", "statement": "From returns exactly if the rank is a power of two and at least 16; the result has the given coefficients followed by zeros, so different coefficient lists without trailing zeros give different polynomials. Approx does not panic, and is true exactly if the polynomials have the same rank and no two coefficients at one place differ by more than eps.", "quantifier": "for all coefficient slices and ranks; for all transformed polynomials of any ranks, with NaN and infinities, all eps, and any rounding of the differences", "why_tests_cant": "no test calls From or Approx.", "anchors": ["math/poly/poly.go: From, NewPoly, Approx"]}
{"id": "C80", "title": "A failed read of parameters leaves the receiver as it was, but for multi-key parameters it can leave an invalid mixture", "statement": "ReadFrom and UnmarshalBinary of single-key and multi-key parameters store the parameters that were read if they return no error. If they return an error, the receiver is what it was before the call, so a program that goes on with the old parameters after a failed read goes on with valid ones.", "quantifier": "for all receivers, byte streams of any length, and both kinds of parameters", "why_tests_cant": "the tests read complete and valid data into a zero receiver, and never look at a receiver after an error.", "anchors": ["tfhe/params.go: Parameters.ReadFrom", "mktfhe/params.go: Parameters.ReadFrom, UnmarshalBinary"]}
{"id": "C81", "title": "Conversion of keys and ciphertexts to the Fourier domain transforms every polynomial, and back returns the same", "statement": "The functions of GLWETransformer that convert secret keys, GLWE, GLev and GGSW ciphertexts, and in the multi-key package uni-encryptions, put the transform of every polynomial of the argument at the same place of the result and keep the gadget level, whatever the output held before; the variants that allocate return the same and do not panic. If the inverse transform undoes the transform on the polynomials of an argument, the two conversions return it unchanged.", "quantifier": "for all transforms, ranks, levels, numbers of parties, contents of the argument, and old contents of outputs of the same shape; the two loop forms also for all other lengths", "why_tests_cant": "no test calls these functions; the library itself uses the conversions of GLWE keys and ciphertexts and one of GGSW ciphertexts, on the shapes of the parameters of the test, and never those of GLev ciphertexts and uni-encryptions.", "anchors": ["tfhe/fft_glwe_conv.go: FwdFFTGLWESecretKeyTo, InvFFTGLWESecretKeyTo, FwdFFTGLWECiphertextTo, InvFFTGLWECiphertextTo, FwdFFTGLevCiphertext, FwdFFTGLevCiphertextTo, InvFFTGLevCiphertextTo, FwdFFTGGSWCiphertext, FwdFFTGGSWCiphertextTo, InvFFTGGSWCiphertextTo", "mktfhe/fft_glwe_conv.go: FwdFFTGLWECiphertextTo, InvGLWECiphertextTo, FwdFFTUniEncryption, FwdFFTUniEncryptionTo, InvFFTUniEncryptionTo"]}
{"id": "C82", "title": "Changing single fields of parameters, but a new degree for compiled parameters is refused where the literal accepts it", "statement": "The With functions of parameter literals change the named field only and leave the receiver as it is, so after any sequence of calls every field has the value of the last call for it, or its old value. Calls on Literal() of compiled parameters compile to the same parameters as the same calls on the literal they were compiled from, and panic exactly if those do. For a valid gadget BaseQ(i) is Q / Base^(i+1) exactly, LogBaseQ(i) its logarithm, and FirstBaseQ and LastBaseQ its first and last value; none of them panics.", "quantifier": "for all literals, compiled parameters, values, sequences of calls of any length, gadgets that Compile accepts without overflow, and levels", "why_tests_cant": "the tests change the block size and the table size of compiled parameters, and never the degree or two fields that depend on each other.", "anchors": ["tfhe/params.go: WithBase, WithLevel, WithLWEDimension, WithGLWERank, WithPolyRank, WithLUTSize, WithLWEStdDev, WithGLWEStdDev, WithBlockSize, WithMessageModulus, WithBlindRotateParams, WithKeySwitchParams, WithBootstrapOrder, Literal, Compile, BaseQ, FirstBaseQ, LastBaseQ, LogBaseQ", "mktfhe/params.go: WithPartyCount, WithSingleKeyLWEDimension, WithPolyRank, WithBlockSize, WithAccumulatorParams, WithRelinKeyParams, Literal, Compile"]}
{"id": "C83", "title": "Public keys exist for one bootstrap order only, and an encryptor is made for parties that exist, but a negative index is accepted", "statement": "For compiled parameters NewLWEPublicKey, NewPublicKey, GenPublicKey and NewPublicEncryptor return exactly if the order is OrderKeySwitchBlindRotate, and then ciphertexts under the default key have the dimension of public-key ciphertexts; otherwise they panic. NewEncryptor and NewPublicEncryptor of the multi-key package return exactly for the index of a party, and then encryption does not panic and puts the mask at the place of that party.", "quantifier": "for all compiled parameters of both kinds, keys, numbers of parties, dimensions, indices of the party of any sign, masks, noises, messages, and old contents of buffers", "why_tests_cant": "the tests make multi-key encryptors for the indices 0 and 1 only and no multi-key public encryptor, and make public keys only with parameters that support them.", "anchors": ["tfhe/params.go: IsPublicKeyEncryptable", "tfhe/lwe.go: NewLWEPublicKey", "tfhe/encryptor_key.go: NewPublicKey", "tfhe/encryptor.go: GenPublicKey", "tfhe/encryptor_public.go: NewPublicEncryptor", "mktfhe/encryptor_public.go: NewPublicEncryptor, EncryptGLWEBody", "mktfhe/encryptor.go: NewEncryptor, EncryptGLWEBody, GenPublicKey", "mktfhe/glwe.go: CopyFromSubKey", "mktfhe/lwe.go: CopyFromSubKey"]}
