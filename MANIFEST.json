{
 "claims": [
  {
   "property": "C01",
   "status": "proved",
   "theorems": [
    "Tfhe.C01_length",
    "Tfhe.C01_digit_range",
    "Tfhe.C01_recompose"
   ],
   "note": "Scalar decomposition, all gadget parameters satisfying GadgetParams.Valid."
  },
  {
   "property": "C02",
   "status": "proved",
   "theorems": [
    "Tfhe.C02_divRoundBits_nearest",
    "Tfhe.C02_nearest_unique"
   ],
   "note": ""
  },
  {
   "property": "C03",
   "status": "proved",
   "theorems": [
    "Tfhe.C03_encode_decode",
    "Tfhe.C03_compileScale",
    "Tfhe.C03_default",
    "Tfhe.C03_modulus_zero",
    "Tfhe.C03_exact32",
    "Tfhe.C03_half_scale_false",
    "Tfhe.C03_glwe"
   ],
   "note": "Decoding inverts encoding for every noise below the stated radius, with float64 rounding modelled; at the exact half-scale edge rounding can fail (C03_half_scale_false)."
  },
  {
   "property": "C04",
   "status": "partial",
   "theorems": [
    "Tfhe.C04_encode_partial",
    "Tfhe.C04_negative_false",
    "Tfhe.C04_large_false",
    "Tfhe.C04_round_trip_partial"
   ],
   "note": "Proved where the modulus divides 2^w or the message is non-negative and fits; the full statement is false for negative messages with other moduli (C04_negative_false) and for large messages on 32-bit words (C04_large_false)."
  },
  {
   "property": "C05",
   "status": "proved",
   "theorems": [
    "Tfhe.C05_fresh",
    "Tfhe.C05_decryptPhase",
    "Tfhe.C05_round_trip",
    "Tfhe.C05_decrypt_of_phase"
   ],
   "note": "All keys, masks, dimensions and noise in the radius of C03."
  },
  {
   "property": "C06",
   "status": "proved",
   "theorems": [
    "Tfhe.C06_add",
    "Tfhe.C06_sub",
    "Tfhe.C06_neg",
    "Tfhe.C06_scalarMul",
    "Tfhe.C06_scalarMulAdd",
    "Tfhe.C06_scalarMulSub",
    "Tfhe.C06_addPlain",
    "Tfhe.C06_subPlain"
   ],
   "note": "Any aliasing of output and inputs, any dimension."
  },
  {
   "property": "C07",
   "status": "proved",
   "theorems": [
    "Tfhe.C07_add",
    "Tfhe.C07_sub",
    "Tfhe.C07_neg",
    "Tfhe.C07_mul",
    "Tfhe.C07_mulAdd",
    "Tfhe.C07_mulSub",
    "Tfhe.C07_addPlain",
    "Tfhe.C07_subPlain",
    "Tfhe.C07_permute",
    "Tfhe.C07_permuteInPlace",
    "Tfhe.C07_permuteAdd",
    "Tfhe.C07_permuteSub",
    "Tfhe.C07_monomial",
    "Tfhe.C07_monomialInPlace",
    "Tfhe.C07_coeffs",
    "Tfhe.C07_fresh",
    "Tfhe.C07_decryptPhase",
    "Tfhe.C07_round_trip"
   ],
   "note": "Ciphertext-level operations with any aliasing the source allows; products computed with the FFT carry an arbitrary additive error, which appears in the phase. The in-place and To forms of monomial products and permutations rest on C08 and C09."
  },
  {
   "property": "C08",
   "status": "proved",
   "theorems": [
    "Tfhe.C08_monomialMulTo",
    "Tfhe.C08_monomialMulAddTo",
    "Tfhe.C08_monomialMulSubTo",
    "Tfhe.C08_monomialMulInPlace",
    "Tfhe.C08_length_panics",
    "Tfhe.C08_compose"
   ],
   "note": "All ranks 2^n with n <= 62, all 64-bit exponents, all coefficient rings; checkLength panic included."
  },
  {
   "property": "C09",
   "status": "proved",
   "theorems": [
    "Tfhe.C09_permuteTo",
    "Tfhe.C09_permuteAddTo",
    "Tfhe.C09_permuteSubTo",
    "Tfhe.C09_permute_hom",
    "Tfhe.C09_permute_compose",
    "Tfhe.C09_even_panics"
   ],
   "note": "All ranks 2^n with n <= 62, all odd 64-bit exponents; even exponents panic."
  },
  {
   "property": "C10",
   "status": "proved",
   "theorems": [
    "Tfhe.C10_extract",
    "Tfhe.C10_frame",
    "Tfhe.C10_multi"
   ],
   "note": ""
  },
  {
   "property": "C11",
   "status": "proved",
   "theorems": [
    "Tfhe.C11_keyswitch",
    "Tfhe.C11_bound",
    "Tfhe.C11_decrypts"
   ],
   "note": "Exact phase equation, explicit bound for binary keys, and message-level corollary; any aliasing of output and input."
  },
  {
   "property": "C12",
   "status": "proved",
   "theorems": [
    "Tfhe.C12_keyswitch",
    "Tfhe.C12_bound"
   ],
   "note": "Exact phase equation and bound. The Fourier-domain accumulation is exact in the model; all floating-point error of the result is one arbitrary polynomial per component, and key-generation errors are part of the key noise."
  },
  {
   "property": "C13",
   "status": "proved",
   "theorems": [
    "Tfhe.C13_gadgetProd",
    "Tfhe.C13_gadgetProdAdd",
    "Tfhe.C13_gadgetProdSub",
    "Tfhe.C13_gadgetProdAddLWE",
    "Tfhe.C13_gadgetProdSubLWE",
    "Tfhe.C13_externalProd",
    "Tfhe.C13_externalProdAdd",
    "Tfhe.C13_externalProdSub",
    "Tfhe.C13_externalProdAddFFT",
    "Tfhe.C13_externalProdSubFFT",
    "Tfhe.C13_noise_le",
    "Tfhe.C13_encrypted"
   ],
   "note": "All variants (assign, add, subtract; LWE, GLWE, Fourier), for GSW/GGSW produced by the encryptor; FFT error as in C12."
  },
  {
   "property": "C14",
   "status": "partial",
   "theorems": [
    "Tfhe.C14_cmux_partial",
    "Tfhe.C14_frame",
    "Tfhe.C14_bound_partial",
    "Tfhe.C14_out_is_ct1",
    "Tfhe.C14_false"
   ],
   "note": "Proved for every placement of the output except over ct1, where the property is false: CMuxTo(ct1, sel, ct0, ct1) returns ct0 (C14_out_is_ct1, C14_false)."
  },
  {
   "property": "C15",
   "status": "proved",
   "theorems": [
    "Tfhe.C15_windows",
    "Tfhe.C15_genLUT",
    "Tfhe.C15_exact_windows",
    "Tfhe.C15_genLUT_encoded"
   ],
   "note": "Windows of the generated table for GenLUT, GenLUTFull and GenLUTCustom, with the extension factor; the float64 rounding of divisions is proved exact under p*f*N <= 2^51."
  },
  {
   "property": "C16",
   "status": "proved",
   "theorems": [
    "Tfhe.C16_modSwitch",
    "Tfhe.C16_exact",
    "Tfhe.C16_phase"
   ],
   "note": "Includes float64 rounding; the error 1/2 + 2L/2^51 per coefficient is exact nearest (ties up) when L is a power of two and x <= 2^53."
  },
  {
   "property": "C17",
   "status": "proved",
   "theorems": [
    "Tfhe.C17_blindRotateOriginal",
    "Tfhe.C17_generated"
   ],
   "note": "For every key, ciphertext, table and Fourier error; floating-point error enters as one arbitrary bounded polynomial per key element."
  },
  {
   "property": "C18",
   "status": "proved",
   "theorems": [
    "Tfhe.C18_blindRotateBlock",
    "Tfhe.C18_generated"
   ],
   "note": "For block binary keys; same error treatment as C17."
  },
  {
   "property": "C19",
   "status": "partial",
   "theorems": [
    "Tfhe.C19_rotate_partial",
    "Tfhe.C19_aligned_partial",
    "Tfhe.C19_near_partial",
    "Tfhe.C19_false",
    "Tfhe.C19_one_block_false"
   ],
   "note": "Proved when there are at least two blocks and the extension factor divides the switched body (C19_aligned_partial); in general the value read is less than 2f positions away from the right one (C19_near_partial). False without these conditions: the initial rotation exchanges source and destination slots (C19_false) and a single block is processed twice (C19_one_block_false)."
  },
  {
   "property": "C20",
   "status": "partial",
   "theorems": [
    "Tfhe.C20_phase_partial",
    "Tfhe.C20_lut_partial",
    "Tfhe.C20_decrypts_partial",
    "Tfhe.C20_decrypts"
   ],
   "note": "C20_decrypts is the full statement when LUTSize = PolyRank, both orders, all functions, keys and noise in the stated window. For extended tables C20_decrypts_partial needs at least two blocks and a window smaller by 2f-1 positions, because the code rotates extended tables wrongly (C19_false, C19_one_block_false). C20_lut_partial covers arbitrary tables."
  },
  {
   "property": "C21",
   "status": "partial",
   "theorems": [
    "Tfhe.C21_decode",
    "Tfhe.C21_fresh",
    "Tfhe.C21_gate_partial",
    "Tfhe.C21_not",
    "Tfhe.C21_decrypts"
   ],
   "note": "Full for LUTSize = PolyRank (C21_decrypts: all gates, both orders, any aliasing, any noise in the margin) and NOT. For extended tables C21_gate_partial needs at least two blocks, since a single block is rotated twice (C19_one_block_false). The multi-key gates are C34_gate."
  },
  {
   "property": "C22",
   "status": "proved",
   "theorems": [
    "Tfhe.C22_decryptBits",
    "Tfhe.C22_encryptBits",
    "Tfhe.C22_round_trip",
    "Tfhe.C22_full",
    "Tfhe.C22_small"
   ],
   "note": "All integers and bit counts, 64 and more included; secret-key encryption."
  },
  {
   "property": "C23",
   "status": "partial",
   "theorems": [
    "Tfhe.C23_gadget_partial",
    "Tfhe.C23_gadget_sound_partial",
    "Tfhe.C23_gadget_false",
    "Tfhe.C23_compile_partial",
    "Tfhe.C23_sound",
    "Tfhe.C23_sound_partial",
    "Tfhe.C23_literal",
    "Tfhe.C23_compile_false",
    "Tfhe.C23_rank_false",
    "Tfhe.C23_mk_partial",
    "Tfhe.C23_mk_literal",
    "Tfhe.C23_manyLUT_partial",
    "Tfhe.C23_sanitization_partial"
   ],
   "note": "Accepts-iff-valid proved for the tfhe, mktfhe, many-LUT and sanitization literals when Log2(Base)*Level and GLWERank*PolyRank fit in an int and no standard deviation is NaN; consistency of compiled parameters and Literal() recompiling to the same parameters proved for all literals. The full statement is false: C23_gadget_false (Base 4, Level 2^62 accepted), C23_compile_false (NaN accepted, overflowing valid literal rejected), C23_rank_false (rank below 16 compiles although no polynomial of that rank can be created). MessageModulus is not checked at all."
  },
  {
   "property": "C24",
   "status": "partial",
   "theorems": [
    "Tfhe.C24_lwePlaintext",
    "Tfhe.C24_lweCiphertext",
    "Tfhe.C24_glwePlaintext",
    "Tfhe.C24_glweCiphertext",
    "Tfhe.C24_fftGLWECiphertext",
    "Tfhe.C24_lev",
    "Tfhe.C24_gsw",
    "Tfhe.C24_glev",
    "Tfhe.C24_ggsw",
    "Tfhe.C24_uniEncryption",
    "Tfhe.C24_glweSecretKey",
    "Tfhe.C24_fftGLWESecretKey",
    "Tfhe.C24_lweGLWEPublicKey",
    "Tfhe.C24_lweKeySwitchKey",
    "Tfhe.C24_glweKeySwitchKey",
    "Tfhe.C24_blindRotateKey",
    "Tfhe.C24_evaluationKey",
    "Tfhe.C24_secretKey",
    "Tfhe.C24_publicKey",
    "Tfhe.C24_mkEvaluationKey",
    "Tfhe.C24_lweSK_partial",
    "Tfhe.C24_lweSK_count_false",
    "Tfhe.C24_concat",
    "Tfhe.C24_binary",
    "Tfhe.C24_lweSK_binary",
    "Tfhe.C24_empty_ksk_false"
   ],
   "note": "Round trip (object, byte count = ByteSize, nothing beyond consumed) proved for every ciphertext and key type in tfhe and mktfhe and for MarshalBinary/UnmarshalBinary, for all well-formed objects. The statement fails for the count reported by LWESecretKey.ReadFrom (C24_lweSK_count_false: always 8); everything else is proved for that type (C24_lweSK_partial). Failing writers and short streams: C70, C26."
  },
  {
   "property": "C25",
   "status": "proved",
   "theorems": [
    "Tfhe.C25_gadgetParameters",
    "Tfhe.C25_parameters",
    "Tfhe.C25_mkParameters"
   ],
   "note": "GadgetParameters, tfhe.Parameters and mktfhe.Parameters, for all results of Compile."
  },
  {
   "property": "C26",
   "status": "proved",
   "theorems": [
    "Tfhe.C26_lweCiphertext",
    "Tfhe.C26_glwePlaintext",
    "Tfhe.C26_glweCiphertext",
    "Tfhe.C26_fftGLWECiphertext",
    "Tfhe.C26_lev",
    "Tfhe.C26_gsw",
    "Tfhe.C26_glev",
    "Tfhe.C26_ggsw",
    "Tfhe.C26_uniEncryption",
    "Tfhe.C26_glweSecretKey",
    "Tfhe.C26_fftGLWESecretKey",
    "Tfhe.C26_lweGLWEPublicKey",
    "Tfhe.C26_lweKeySwitchKey",
    "Tfhe.C26_glweKeySwitchKey",
    "Tfhe.C26_blindRotateKey",
    "Tfhe.C26_evaluationKey",
    "Tfhe.C26_secretKey",
    "Tfhe.C26_publicKey",
    "Tfhe.C26_mkEvaluationKey",
    "Tfhe.C26_lwePlaintext",
    "Tfhe.C26_lweSecretKey",
    "Tfhe.C26_parameters",
    "Tfhe.C26_mkParameters",
    "Tfhe.C26_binary"
   ],
   "note": "Every type, every proper prefix."
  },
  {
   "property": "C27",
   "status": "partial",
   "theorems": [
    "Tfhe.C27_lweSecretKey_false",
    "Tfhe.C27_lweCiphertext_false",
    "Tfhe.C27_glwePlaintext_false",
    "Tfhe.C27_glwe_false",
    "Tfhe.C27_gadget_false",
    "Tfhe.C27_gadgets_false",
    "Tfhe.C27_parameters_false",
    "Tfhe.C27_lwePlaintext_partial",
    "Tfhe.C27_lweSecretKey_partial",
    "Tfhe.C27_lweCiphertext_partial",
    "Tfhe.C27_glwePlaintext_partial",
    "Tfhe.C27_glweSecretKey_partial",
    "Tfhe.C27_fftGLWESecretKey_partial",
    "Tfhe.C27_glweCiphertext_partial",
    "Tfhe.C27_fftGLWECiphertext_partial",
    "Tfhe.C27_gadget_partial",
    "Tfhe.C27_lev_partial",
    "Tfhe.C27_gsw_partial",
    "Tfhe.C27_glev_partial",
    "Tfhe.C27_ggsw_partial",
    "Tfhe.C27_lweKeySwitchKey_partial",
    "Tfhe.C27_glweKeySwitchKey_partial",
    "Tfhe.C27_blindRotateKey_partial",
    "Tfhe.C27_uniEncryption_partial",
    "Tfhe.C27_lweGLWEPublicKey_partial",
    "Tfhe.C27_secretKey_partial",
    "Tfhe.C27_publicKey_partial",
    "Tfhe.C27_evaluationKey_partial",
    "Tfhe.C27_mkEvaluationKey_partial"
   ],
   "note": "False as stated: C27_*_false give byte strings on which ReadFrom panics, for every type with a header. Proved instead: LWEPlaintext never panics; every single-header type does not panic if its header fields are dimensions of a possible object, whatever follows. PublicKey, EvaluationKey and mktfhe.EvaluationKey do not panic if each of their headers is that of a possible object, each beginning where reading the part before it ended."
  },
  {
   "property": "C28",
   "status": "partial",
   "theorems": [
    "Tfhe.C28_lwe_phase",
    "Tfhe.C28_lwe_partial",
    "Tfhe.C28_lwe_noise",
    "Tfhe.C28_lwe_decrypts_partial",
    "Tfhe.C28_glwe_phase",
    "Tfhe.C28_glwe_partial",
    "Tfhe.C28_glwe_noise",
    "Tfhe.C28_fft_phase",
    "Tfhe.C28_fft_first_call_partial",
    "Tfhe.C28_mk_lwe_phase",
    "Tfhe.C28_mk_lwe_first_call_partial",
    "Tfhe.C28_mk_glwe_phase",
    "Tfhe.C28_glwe_decrypts_partial",
    "Tfhe.C28_lwe_reuse_false",
    "Tfhe.C28_glwe_reuse_false",
    "Tfhe.C28_fft_second_call_false",
    "Tfhe.C28_mk_second_call_false"
   ],
   "note": "The exact phase is proved for every previous content of the output and of the buffers, LWE, GLWE, FFT GLWE and multi-key; with a zero mask before the call it is plaintext plus explicit noise, bounded, and messages decrypt. For reused outputs and for second calls through an internal buffer the claim is false: the code adds into the old mask and never clears it (witnesses C28_lwe_reuse_false, C28_glwe_reuse_false, C28_fft_second_call_false, C28_mk_second_call_false)."
  },
  {
   "property": "C29",
   "status": "proved",
   "theorems": [
    "Tfhe.C29_exclusive",
    "Tfhe.C29_returned",
    "Tfhe.C29_no_deadlock",
    "Tfhe.C29_terminates",
    "Tfhe.C29_completes",
    "Tfhe.C29_stuck_is_finished",
    "Tfhe.C29_no_panic",
    "Tfhe.C29_chunkCount",
    "Tfhe.C29_ksk",
    "Tfhe.C29_brk",
    "Tfhe.C29_brk_valid",
    "Tfhe.C29_sequential"
   ],
   "note": "The worker pool (producer loop, unbuffered job channel, worker goroutines, WaitGroup) is a transition system with one atomic step per channel operation and per loop body; the theorems hold for every reachable state and hence every schedule, every job list and every positive worker count. Instances: GenBlindRotateKeyParallel (tfhe) and GenDefaultKeySwitchKeyParallel. The FHEW generator uses the same pool with a different plaintext per slot. Go scheduler fairness and the memory model's happens-before of channels/WaitGroup are assumed as in the Go specification."
  },
  {
   "property": "C30",
   "status": "proved",
   "theorems": [
    "Tfhe.C30_footprint",
    "Tfhe.C30_no_race",
    "Tfhe.C30_sequential_isSome",
    "Tfhe.C30_equal",
    "Tfhe.C30_no_panic",
    "Tfhe.C30_no_deadlock",
    "Tfhe.C30_terminates",
    "Tfhe.C30_completes",
    "Tfhe.C30_bootstrap_ksBr",
    "Tfhe.C30_bootstrap_brKs"
   ],
   "note": "One shared store, one goroutine per known party, every interleaving at statement granularity (the machine theorems hold for any finer cut with the same footprints): footprints proved sound and disjoint, no race, no deadlock, termination, no WaitGroup or index panic, result equal to BlindRotateTo; BootstrapLUTParallel follows. Float64 errors are a function of the inputs of each rotation."
  },
  {
   "property": "C31",
   "status": "proved",
   "theorems": [
    "Tfhe.C31_lwe",
    "Tfhe.C31_glwe",
    "Tfhe.C31_irrelevant",
    "Tfhe.C31_irrelevant_glwe",
    "Tfhe.C31_sum"
   ],
   "note": "LWE and GLWE encryption by any party; the decryptor is any one that holds the keys (`Holds`), see C32 for which can be constructed. Sums use the modelled AddLWETo. Float rounding of decoding is included; errors of the Fourier products appear in the GLWE statements."
  },
  {
   "property": "C32",
   "status": "partial",
   "theorems": [
    "Tfhe.C32_newDecryptor_iff",
    "Tfhe.C32_addSecretKey_iff",
    "Tfhe.C32_not_acceptsAll",
    "Tfhe.C32_not_addAcceptsAll",
    "Tfhe.C32_safeCopy_add",
    "Tfhe.C32_prefix_partial",
    "Tfhe.C32_replace_partial",
    "Tfhe.C32_encryptor_index"
   ],
   "note": "False as stated: NewDecryptor makes slices of length len(sk), so it panics unless the indices are 0..len(sk)-1, and AddSecretKey panics for any index at or above len(sk). Exact acceptance conditions, negations with witnesses, and the positive part (prefix maps, replacement) are proved."
  },
  {
   "property": "C33",
   "status": "partial",
   "theorems": [
    "Tfhe.C33_hybrid",
    "Tfhe.C33_hybridAdd",
    "Tfhe.C33_hybridSub",
    "Tfhe.C33_external",
    "Tfhe.C33_externalAdd",
    "Tfhe.C33_externalSub_partial",
    "Tfhe.C33_externalSub_false",
    "Tfhe.C33_crs_valid",
    "Tfhe.C33_uni_valid",
    "Tfhe.C33_keys_valid",
    "Tfhe.C33_hybrid_bound",
    "Tfhe.C33_ext_bound"
   ],
   "note": "Hybrid products (plain, Add, Sub) and external products (plain, Add) are proved for all party sets, with exact noise terms and bounds, in place, for all buffer contents. ExternalProdSubGLWETo does not have the property (the bodies of the gadget products are added): negation and exact value proved."
  },
  {
   "property": "C34",
   "status": "proved",
   "theorems": [
    "Tfhe.C34_blindRotate",
    "Tfhe.C34_keySwitch",
    "Tfhe.C34_lut",
    "Tfhe.C34_phase",
    "Tfhe.C34_decrypts",
    "Tfhe.C34_gate",
    "Tfhe.C34_gate_decrypts",
    "Tfhe.C34_not",
    "Tfhe.C34_xor_margin_tfhe",
    "Tfhe.C34_xor_margin_false"
   ],
   "note": "Blind rotation, key switch, LUT bootstrap and all gates for every party set, key, ciphertext and buffer content, with explicit noise bounds, both bootstrap orders, gates in place, decrypted by every decryptor that holds the keys. XOR/XNOR add an eighth of the circle where package tfhe adds a quarter: still correct within half the noise margin (C34_gate uses the true margin; C34_xor_margin_false shows the loss)."
  },
  {
   "property": "C35",
   "status": "partial",
   "theorems": [
    "Tfhe.C35_relinearize_buffer",
    "Tfhe.C35_relinKey",
    "Tfhe.C35_tensor_buffer",
    "Tfhe.C35_tensor_frame",
    "Tfhe.C35_mul",
    "Tfhe.C35_mul_frame",
    "Tfhe.C35_relinNoise_le",
    "Tfhe.C35_mul_bound",
    "Tfhe.C35_tensor_zero",
    "Tfhe.C35_relinearize_ignores",
    "Tfhe.C35_tensor_false",
    "Tfhe.C35_relinearize_false"
   ],
   "note": "Mul is proved for all inputs (exact phase and bound). The claims about Tensor and Relinearize as separate API functions are false of the code and their negations are proved: Tensor leaves its output at zero, Relinearize reads the private buffer instead of its argument."
  },
  {
   "property": "C36",
   "status": "proved",
   "theorems": [
    "Tfhe.C36_permute",
    "Tfhe.C36_permute_panics",
    "Tfhe.C36_genGaloisKeysTo",
    "Tfhe.C36_genGaloisKeys",
    "Tfhe.C36_genGaloisKeysTo_even",
    "Tfhe.C36_permNoise_le",
    "Tfhe.C36_bound"
   ],
   "note": "PermuteTo with generated Galois keys, for every list of odd degrees, key, ciphertext and buffer content: exact phase with explicit noise, bound for binary keys, frame. Panics exactly for even degrees and degrees without a key."
  },
  {
   "property": "C37",
   "status": "proved",
   "theorems": [
    "Tfhe.C37_degrees",
    "Tfhe.C37_embed",
    "Tfhe.C37_pack"
   ],
   "note": "PackTo with the keys of GenGaloisKeysForPack, for every LWE ciphertext, binary key, N = 2^logN, gadget, samples and buffer content: succeeds, phase is the constant LWE phase up to logN (1 + kN + permutation noise). Word size at least 2 bits, logN at most 62."
  },
  {
   "property": "C38",
   "status": "partial",
   "theorems": [
    "Tfhe.C38_partial",
    "Tfhe.C38_externalProd_partial"
   ],
   "note": "C38_partial: CircuitBootstrapTo with keys from GenCircuitBootstrapKey leaves a GGSW ciphertext of the message (IsGSW with explicit noise bounds for row 0 and the other rows), for all messages, binary block keys, masks, noises, both orders, every number of levels and of functions (also not dividing the levels) and every old content of the function buffer, the table and the ciphertext buffers; it never panics and leaves a state fit for the next call. C38_externalProd_partial: external products with the result multiply phases by the message. Missing: parameters whose message windows are not multiples of the number of functions (MlAligned); there the table itself is wrong (C40_misaligned)."
  },
  {
   "property": "C39",
   "status": "proved",
   "theorems": [
    "Tfhe.C39_autIdxMap",
    "Tfhe.C39_blindRotate",
    "Tfhe.C39_exponent",
    "Tfhe.C39_lut",
    "Tfhe.C39_phase",
    "Tfhe.C39_decrypts"
   ],
   "note": "For the sequential key generation (GenBlindRotateKey, GenGaloisKey, GenDefaultKeySwitchKey), every power-of-two rank up to 2^30, every window size, dimension, secret key, ciphertext and table. Fourier errors are arbitrary within a bound. The parallel key generation is not modelled for FHEW."
  },
  {
   "property": "C40",
   "status": "partial",
   "theorems": [
    "Tfhe.C40_modSwitch",
    "Tfhe.C40_rotate",
    "Tfhe.C40_genLUT_partial",
    "Tfhe.C40_too_many",
    "Tfhe.C40_lut",
    "Tfhe.C40_short_output",
    "Tfhe.C40_phase_partial",
    "Tfhe.C40_decrypts_partial",
    "Tfhe.C40_misaligned_accepted",
    "Tfhe.C40_misaligned"
   ],
   "note": "For any table, any keys and both orders every output is the table entry that the switched phase points to plus its index (C40_lut), and table generation and decryption are proved whenever the windows and the half window are multiples of the number of functions (in particular when 2*modulus*count divides the rank). The statement for all accepted parameters is false: Compile does not check this, and C40_misaligned is a case in which every output is the value of another function."
  },
  {
   "property": "C41",
   "status": "proved",
   "theorems": [
    "Tfhe.C41_bits",
    "Tfhe.C41_blocks",
    "Tfhe.C41_atMostOne",
    "Tfhe.C41_panic",
    "Tfhe.C41_panic_nonpos",
    "Tfhe.C41_genSecretKey",
    "Tfhe.C41_genSecretKey_source"
   ],
   "note": "Random words are an arbitrary list; a call that is still reading when the list ends is a separate outcome. C41_blocks: block k holds a single one at the k-th result of SampleN(blockSize+1), or nothing when that result is blockSize. C41_panic covers positive block sizes, C41_panic_nonpos the others (a negative block size with an empty slice does not panic; zero always does). C41_bits describes SampleVecTo, C41_genSecretKey shows that GenSecretKey meets the hypothesis on keys used by the bootstrapping theorems."
  },
  {
   "property": "C42",
   "status": "proved",
   "theorems": [
    "Tfhe.C42_accept",
    "Tfhe.C42_sampleN",
    "Tfhe.C42_returns",
    "Tfhe.C42_panic",
    "Tfhe.C42_unbiased",
    "Tfhe.C42_words",
    "Tfhe.C42_stream",
    "Tfhe.C42_prefix"
   ],
   "note": "Signed and unsigned types. C42_unbiased counts the raw words; C42_words and C42_stream trace raw words to the key stream: re-using the buffer as cipher input is a bijection of byte streams, on every prefix (C42_prefix). That AES-CTR output is indistinguishable from uniform is assumed, not modelled."
  },
  {
   "property": "C43",
   "status": "partial",
   "theorems": [
    "Tfhe.C43_log2",
    "Tfhe.C43_isPowerOfTwo",
    "Tfhe.C43_sqrt",
    "Tfhe.C43_modInverse_signed",
    "Tfhe.C43_modInverse_unsigned_false",
    "Tfhe.C43_modInverse_unsigned_partial",
    "Tfhe.C43_modExp_partial",
    "Tfhe.C43_modExp_neg_partial",
    "Tfhe.C43_modExp_false"
   ],
   "note": "Log2, IsPowerOfTwo, Sqrt proved. ModInverse is proved for signed types; for unsigned types the statement is false (C43_modInverse_unsigned_false) and only a restricted form holds. ModExp is false for y=0,m=1 and when products overflow (C43_modExp_false)."
  },
  {
   "property": "C44",
   "status": "proved",
   "theorems": [
    "Tfhe.C44_reverseInPlace",
    "Tfhe.C44_reverseTo",
    "Tfhe.C44_reverse_involutive",
    "Tfhe.C44_rotateTo",
    "Tfhe.C44_rotateInPlace_eq",
    "Tfhe.C44_rotateInPlace",
    "Tfhe.C44_rotate_empty",
    "Tfhe.C44_bitReverse",
    "Tfhe.C44_bitReverse_involutive",
    "Tfhe.C44_bitReverse_diverges"
   ],
   "note": "Rotation, reversal, bit reversal; BitReverseInPlace does not terminate for other lengths (C44_bitReverse_diverges)."
  },
  {
   "property": "C45",
   "status": "proved",
   "theorems": [
    "Tfhe.C45_point_root",
    "Tfhe.C45_points_distinct",
    "Tfhe.C45_newEvaluator",
    "Tfhe.C45_fwdFFT",
    "Tfhe.C45_inv_fwd",
    "Tfhe.C45_invFFT",
    "Tfhe.C45_mul",
    "Tfhe.C45_mulAdd",
    "Tfhe.C45_mulSub",
    "Tfhe.C45_monomial",
    "Tfhe.C45_monomialSubOne",
    "Tfhe.C45_permute_even",
    "Tfhe.C45_permute",
    "Tfhe.C45_permuteAdd",
    "Tfhe.C45_permuteSub"
   ],
   "note": "Exact real arithmetic: the twiddle tables, the loops of fwdFFTInPlace and invFFTInPlace with their block layout, foldPolyTo, the element-wise products with any aliasing, monomials for every integer exponent, and permutations for every odd exponent, for every rank 2^n >= 16. The portable code is modelled, not the assembly; floating-point rounding is the subject of C46 and C56."
  },
  {
   "property": "C46",
   "status": "proved",
   "theorems": [
    "Tfhe.C46_mul",
    "Tfhe.C46_mulAdd",
    "Tfhe.C46_mulSub",
    "Tfhe.C46_short",
    "Tfhe.C46_shortAdd",
    "Tfhe.C46_shortSub"
   ],
   "note": "MulPolyTo, MulAddPolyTo, MulSubPolyTo and the three ShortFFTPolyMul functions, for signed and unsigned words of up to 64 bits, all inputs and all ranks up to 2^44 (2^30 for the short versions), from the limbs through the transforms, the double loop, the inverse transforms with rounding, reduction and conversion to int64, to the recombination by shifts. The floating-point error of each inverse transform is any function below 1/2, which is the exactness the statement assumes; C56 derives it for float64."
  },
  {
   "property": "C47",
   "status": "proved",
   "theorems": [
    "Tfhe.C47_lev",
    "Tfhe.C47_gsw",
    "Tfhe.C47_message",
    "Tfhe.C47_large_modulus_false",
    "Tfhe.C47_glev",
    "Tfhe.C47_ggsw",
    "Tfhe.C47_glev_messages"
   ],
   "note": "Scalars come back modulo the base, messages modulo the message modulus when that is at most the base; with a larger modulus messages are lost (C47_large_modulus_false)."
  },
  {
   "property": "C48",
   "status": "proved",
   "theorems": [
    "Tfhe.C48_views",
    "Tfhe.C48_write_glwe",
    "Tfhe.C48_write_lwe",
    "Tfhe.C48_independent",
    "Tfhe.C48_copy",
    "Tfhe.C48_copyFrom",
    "Tfhe.C48_clear",
    "Tfhe.C48_made",
    "Tfhe.C48_fft",
    "Tfhe.C48_copyFrom_shape"
   ],
   "note": "Keys are views of numbered arrays; histories are arbitrary lists of New, Gen, Copy, struct assignment, CopyFrom, Clear, ReadFrom and element writes through each view. C48_independent is for histories without struct assignment (which shares memory by design). C48_fft adds the transformed key: in step with the GLWE key when nobody writes through the views, CopyFrom is between equal shapes and read bytes are consistent; C48_copyFrom_shape shows the shape condition is needed. Reader errors in the middle of ReadFrom are covered by C27."
  },
  {
   "property": "C49",
   "status": "partial",
   "theorems": [
    "Tfhe.C49_call",
    "Tfhe.C49_new",
    "Tfhe.C49_sized",
    "Tfhe.C49_history",
    "Tfhe.C49_decomposeScalar",
    "Tfhe.C49_shortPoly_false"
   ],
   "note": "Every read and write of every buffer of tfhe.Evaluator and its Decomposer is a step of the model; transforms and pointwise operations on transformed polynomials are arbitrary functions, so any floating-point rounding is covered. C49_call: two evaluators with the same caller memory and ARBITRARY buffer contents give the same outcome (same panic behaviour, same caller memory) for all decompositions, key switches, gadget and external products, CMux, blind rotations (three variants), default key switch, LUT generation and bootstraps, with any overlap of the arguments. C49_history: hence after every history of calls (any gadget parameters, well-formed or not) and changes of caller memory. C49_decomposeScalar gives the value. Partial because C49_shortPoly_false shows the statement fails for polynomials shorter than the rank, which decomposePolyTo does not reject; CallOk excludes them, and LUTs whose message modulus does not fit. Buffers of mktfhe and xtfhe evaluators and of poly.Evaluator are not in this model."
  },
  {
   "property": "C50",
   "status": "partial",
   "theorems": [
    "Tfhe.C50_interleave",
    "Tfhe.C50_progress",
    "Tfhe.C50_terminates",
    "Tfhe.C50_decryptor_partial",
    "Tfhe.C50_sameEvaluator_false",
    "Tfhe.C50_decryptor_false"
   ],
   "note": "Any number of goroutines, each with its own tfhe.Evaluator (new, with any past, or a safe copy) and a list of calls, share the keys and the caller's memory; every read and write of a cell or buffer is a step and the steps are interleaved in any order (sequential consistency, which Go grants to programs without data races). C50_interleave: if no goroutine writes what another touches, every goroutine that is done has the outcome of its calls made alone on a new evaluator, at every point of every execution, and nothing but outputs changes. C50_progress and C50_terminates: no goroutine gets stuck, no infinite executions. C50_sameEvaluator_false: fails if two goroutines share an evaluator. C50_decryptor_false: mktfhe Decryptor.SafeCopy shares the scratch ciphertext, and an interleaving of two decryptions with a wrong result is exhibited; C50_decryptor_partial: right in all executions if the buffers were different. Partial because of that disagreement, and because the safe copies of encryptors and of the mktfhe and xtfhe evaluators are not modelled step by step."
  },
  {
   "property": "C51",
   "status": "proved",
   "theorems": [
    "Tfhe.C51_reRandGLWE",
    "Tfhe.C51_reRandLWE",
    "Tfhe.C51_reRandNoise_le",
    "Tfhe.C51_publicKey",
    "Tfhe.C51_phase",
    "Tfhe.C51_decrypts"
   ],
   "note": "Re-randomization adds exactly the noise of an encryption of zero (GLWE and LWE), with a bound; sanitization of an encryption of m with F decrypts to F(m), for all keys, samples in the bounds, buffers and Fourier errors. The noise is worst case and accounts for message moduli that are not powers of two. That the output distribution hides the input is not claimed."
  },
  {
   "property": "C52",
   "status": "proved",
   "theorems": [
    "Tfhe.C52_search",
    "Tfhe.C52_sample",
    "Tfhe.C52_range",
    "Tfhe.C52_cumulative",
    "Tfhe.C52_table",
    "Tfhe.C52_distribution",
    "Tfhe.C52_vec",
    "Tfhe.C52_add_sub",
    "Tfhe.C52_joint"
   ],
   "note": "sort.Search is modelled as its binary search. C52_distribution counts raw words: outcome offset+i has probability table[i]-table[i-1] over 2^64. The weights in the table are an abstract non-negative function (math.Exp is not modelled)."
  },
  {
   "property": "C53",
   "status": "partial",
   "theorems": [
    "Tfhe.C53_range",
    "Tfhe.C53_far_center",
    "Tfhe.C53_near_partial"
   ],
   "note": "C53_near_partial: holds for -1 <= center < 1, which are the centers the library itself uses (0 and -1/(2p)). C53_far_center: fails for other centers; with center 100 and standard deviation 1 every sample is at least 188, because the table covers the tails around the center and the integral part of the center is added again in the offset."
  },
  {
   "property": "C54",
   "status": "partial",
   "theorems": [
    "Tfhe.C54_copy",
    "Tfhe.C54_copyFrom_partial",
    "Tfhe.C54_uniCopyFrom_partial",
    "Tfhe.C54_clear",
    "Tfhe.C54_uniCopyFrom_false",
    "Tfhe.C54_evkCopy",
    "Tfhe.C54_pkCopy",
    "Tfhe.C54_mkEvkCopy",
    "Tfhe.C54_evkCopyFrom",
    "Tfhe.C54_pkCopyFrom",
    "Tfhe.C54_evkClear",
    "Tfhe.C54_pkClear",
    "Tfhe.C54_mkEvkCopyFrom_partial",
    "Tfhe.C54_evkCopyFrom_frame",
    "Tfhe.C54_pkCopyFrom_frame",
    "Tfhe.C54_mkEvkClear",
    "Tfhe.C54_evkClear_frame",
    "Tfhe.C54_pkClear_frame",
    "Tfhe.C54_mkEvkCopyFrom_false"
   ],
   "note": "All 25 types with one slice, and the keys with several parts. CopyFrom of mktfhe.UniEncryption and FFTUniEncryption leaves GadgetParams as it was: negation proved (C54_uniCopyFrom_false) together with what does hold (C54_uniCopyFrom_partial). The same for mktfhe.EvaluationKey.CopyFrom, whose relinearization key keeps its old GadgetParams (C54_mkEvkCopyFrom_false, C54_mkEvkCopyFrom_partial). CopyFrom is stated for receivers of the same shape that share no cell with the argument."
  },
  {
   "property": "C55",
   "status": "partial",
   "theorems": [
    "Tfhe.C55_poly_partial",
    "Tfhe.C55_messages_partial",
    "Tfhe.C55_plain_messages_partial",
    "Tfhe.C55_zero_false",
    "Tfhe.C55_poly_zero_false",
    "Tfhe.C55_large_modulus_false",
    "Tfhe.C55_level_panics",
    "Tfhe.C55_copyFrom_false"
   ],
   "note": "Proved when the message modulus divides the gadget base and the gadget has no more levels than the common reference string. Otherwise: 0 with negative noise decrypts to the base (C55_zero_false, C55_poly_zero_false), messages from the base on are lost (C55_large_modulus_false), encryption panics (C55_level_panics); after CopyFrom between different gadget parameters decryption is wrong (C55_copyFrom_false)."
  },
  {
   "property": "C56",
   "status": "proved",
   "theorems": [
    "Tfhe.C56_mul",
    "Tfhe.C56_mulAdd",
    "Tfhe.C56_mulSub",
    "Tfhe.C56_short",
    "Tfhe.C56_shortAdd",
    "Tfhe.C56_shortSub",
    "Tfhe.C56_newEvaluator"
   ],
   "note": "Every operation is rounded: the generation of the twiddle tables, conversion of the limbs, butterflies, complex products and their accumulation, inverse butterflies, the division by N/2, and the reduction modulo 2^w before the conversion to int64. Ranks 2^4 to 2^22 (2^27 for a short factor), words up to 64 bits, signed and unsigned. Assumed: relative rounding error 2^-53 (no overflow or subnormals), any fusing of products with sums, Sincos within 2^-51 of the real functions. The ways to evaluate (Fuse) include those of the portable loops and, as Fuse.avx2, the order of the AVX2 kernels (C67): neighbours fused the other way, products added to the accumulator one after the other, ties to even."
  },
  {
   "property": "C57",
   "status": "proved",
   "theorems": [
    "Tfhe.C57_gadgetProd",
    "Tfhe.C57_gadgetProdAdd",
    "Tfhe.C57_gadgetProdSub",
    "Tfhe.C57_externalProd",
    "Tfhe.C57_externalProdAdd",
    "Tfhe.C57_externalProdSub",
    "Tfhe.C57_cmux",
    "Tfhe.C57_keySwitch",
    "Tfhe.C57_blindRotateOriginal",
    "Tfhe.C57_blindRotateBlock",
    "Tfhe.C57_blindRotateExtended",
    "Tfhe.C57_blindRotate",
    "Tfhe.C57_bootstrapLUT",
    "Tfhe.C57_bootstrapFunc",
    "Tfhe.C57_decrypts"
   ],
   "note": "Each floating-point function equals the exact model of the same function for some error polynomials within fftErr (rotErr for a block of blind rotation); keys are the transforms of arbitrary integer ciphertexts. C57_decrypts feeds this into C20: with rounding modelled, the only remaining conditions are inequalities between parameters. Assumed of the platform (Spec/Ieee): results are floats with relative error 2^-53 and floats are kept, Sincos within 2^-51, int64(x) is x when it fits and one of the two ends for 2^63. Unbounded exponent, portable code. The bound is a worst case over all inputs: it suffices for the 32-bit instance shown, not for the published 64-bit parameters, whose safety margin is statistical. Extended tables need two blocks, as in C20."
  },
  {
   "property": "C58",
   "status": "proved",
   "theorems": [
    "Tfhe.C58_op",
    "Tfhe.C58_exact",
    "Tfhe.C58_panic",
    "Tfhe.C58_glwe_panic",
    "Tfhe.C58_glwe",
    "Tfhe.C58_polyMulGLWE",
    "Tfhe.C58_fwdGLWE",
    "Tfhe.C58_fwd",
    "Tfhe.C58_inv",
    "Tfhe.C58_words",
    "Tfhe.C58_roundtrip"
   ],
   "note": "Every operation of fft_ops.go and fft_glwe_ops.go on vectors in memory, with any aliasing of output and arguments (permutations between two vectors need different ones, as documented), any old contents and any rounding with relative error u. C58_exact is the case without rounding, C58_words goes from words to words through the Fourier domain. Lengths are not checked in the model. Bounds are worst case, in terms of the sum of the absolute values of the coefficients."
  },
  {
   "property": "C59",
   "status": "proved",
   "theorems": [
    "Tfhe.C59_addLWE",
    "Tfhe.C59_subLWE",
    "Tfhe.C59_negLWE",
    "Tfhe.C59_addPlainLWE",
    "Tfhe.C59_subPlainLWE",
    "Tfhe.C59_scalarMulLWE",
    "Tfhe.C59_scalarMulAddLWE",
    "Tfhe.C59_scalarMulSubLWE",
    "Tfhe.C59_decryptGLWE",
    "Tfhe.C59_addGLWE",
    "Tfhe.C59_subGLWE",
    "Tfhe.C59_negGLWE",
    "Tfhe.C59_addPlainGLWE",
    "Tfhe.C59_subPlainGLWE",
    "Tfhe.C59_mulGLWE",
    "Tfhe.C59_mulAddGLWE",
    "Tfhe.C59_mulSubGLWE",
    "Tfhe.C59_monomialGLWE",
    "Tfhe.C59_monomialInPlace",
    "Tfhe.C59_permuteGLWE",
    "Tfhe.C59_permuteInPlace",
    "Tfhe.C59_bool",
    "Tfhe.C59_bits",
    "Tfhe.C59_index"
   ],
   "note": "Every function of mktfhe/lwe_ops.go and mktfhe/glwe_ops.go on ciphertexts in memory, stated with the decryption of mktfhe for any decryptor state. GLWE decryption is taken with exact products; C59_decryptGLWE says what errors in them add. The error of a polynomial product enters as what it decrypts to. Lengths are not checked in the model. Booleans and integers are those of the secret-key encryptor."
  },
  {
   "property": "C60",
   "status": "partial",
   "theorems": [
    "Tfhe.C60_bounded_partial",
    "Tfhe.C60_vec_partial",
    "Tfhe.C60_add_partial",
    "Tfhe.C60_sub_partial",
    "Tfhe.C60_reads",
    "Tfhe.C60_symmetric_partial",
    "Tfhe.C60_panic",
    "Tfhe.C60_inf",
    "Tfhe.C60_density",
    "Tfhe.C60_layers",
    "Tfhe.C60_bounded_false"
   ],
   "note": "C60_bounded_partial, C60_vec_partial, C60_add_partial, C60_sub_partial, C60_symmetric_partial: for streams without two neighbouring words below 2^9. C60_inf, C60_bounded_false: with such a pair where the tail is sampled, both logarithms are -Inf, the loop accepts +Inf and the sample is whatever the platform makes of int64(+Inf), 2^63 on amd64, for every positive standard deviation. The stdDev argument of NewGaussianSamplerWithSeed is not used by the code. Standard deviations are finite. C60_density, C60_layers: the tables kn, wn, fn are the layers of the normal density exp(-x^2/2): fn within 10^-13 of it, all layers of the same area within 2*10^-11, kn the boundary of immediate acceptance."
  },
  {
   "property": "C61",
   "status": "proved",
   "theorems": [
    "Tfhe.C61_constant",
    "Tfhe.C61_compile",
    "Tfhe.C61_lwe",
    "Tfhe.C61_secretKey",
    "Tfhe.C61_glwe",
    "Tfhe.C61_publicLWE",
    "Tfhe.C61_publicGLWE",
    "Tfhe.C61_compile_others",
    "Tfhe.C61_stdDev",
    "Tfhe.C61_circuit"
   ],
   "note": "For all streams on platforms whose conversion of an infinity to int64 is the smallest or largest integer (Saturates; the Go specification leaves it open, amd64 and arm64 do this), and on any platform for streams without two neighbouring words below 2^9 (C60_inf). An infinite sample is then half the modulus, which the decoding does not see. The uniform and binary samplers deliver arguments; public-key randomness and keys are binary (C61_secretKey), other keys have coefficients up to 2^8. C61_compile_others: the literals of mktfhe and xtfhe. Assumed: GoodLibm (C60), Accurate (C56). C61_constant: the constants as float64 are right up to 2^-53; C61_stdDev, C61_circuit: the fields belong together. That the transcribed decimals are those of the source is not a theorem."
  },
  {
   "property": "C62",
   "status": "partial",
   "theorems": [
    "Tfhe.C62_compile",
    "Tfhe.C62_short_partial",
    "Tfhe.C62_nan",
    "Tfhe.C62_short_false",
    "Tfhe.C62_key_partial"
   ],
   "note": "C62_short_partial: for streams without two neighbouring words below 2^9, and a standard deviation that is not NaN. C62_key_partial: the same for all elements of the key that GenSecretKey returns. C62_short_false: otherwise the coefficient can be 2^63. C62_nan: Compile accepts a NaN. Assumed: math.Log2 within 1/8, GoodLibm (C60)."
  },
  {
   "property": "C63",
   "status": "proved",
   "theorems": [
    "Tfhe.C63_lwe",
    "Tfhe.C63_decryptGLWE",
    "Tfhe.C63_glwe"
   ],
   "note": "Composes C61 with the joint key of C31. Streams as in C61 (Fair). The decryptor is any state with Holds (mktfhe/decryptor.go; NewDecryptor reaches it only for indices 0..len-1, C32). Keys held have coefficients up to 2^8 (generated ones are bits, C61_secretKey). Public-key encryption is not covered: the published multi-key sets do not support it. Assumed: GoodLibm (C60), Accurate (C56)."
  },
  {
   "property": "C64",
   "status": "partial",
   "theorems": [
    "Tfhe.C64_room",
    "Tfhe.C64_lev_partial",
    "Tfhe.C64_glwe",
    "Tfhe.C64_glev_partial",
    "Tfhe.C64_fourier_partial",
    "Tfhe.C64_messages",
    "Tfhe.C64_infinity",
    "Tfhe.C64_mk"
   ],
   "note": "C64_glwe, C64_mk: every stream (Fair, as in C61). C64_lev_partial, C64_glev_partial, C64_fourier_partial: the leveled encryptions, for streams without two neighbouring words below 2^9; C64_infinity: on a platform that converts an infinity to 2^63 there is for every gadget, key and scalar a stream on which DecryptLevScalar returns the scalar plus half the base. C64_room: the bounds hold for all published sets and for both gadgets of each set, checked by the kernel; the error of the way through the Fourier domain is (1 + k N) rtErr, proved from the l2 bounds of the transforms (Lemma/RoundTrip). C64_messages: the reduction of the messages before and after, if the message modulus does not exceed the base (C47_large_modulus_false). Public-key encryption to the Fourier domain is wrong after the first call (C28). Assumed: GoodLibm (C60), Ieee (C57)."
  },
  {
   "property": "C65",
   "status": "partial",
   "theorems": [
    "Tfhe.C65_addTo32",
    "Tfhe.C65_subTo32",
    "Tfhe.C65_scalarMulTo32",
    "Tfhe.C65_scalarMulAddTo32",
    "Tfhe.C65_scalarMulSubTo32",
    "Tfhe.C65_mulTo32",
    "Tfhe.C65_mulAddTo32",
    "Tfhe.C65_mulSubTo32",
    "Tfhe.C65_addTo64",
    "Tfhe.C65_subTo64",
    "Tfhe.C65_scalarMulTo64",
    "Tfhe.C65_scalarMulAddTo64",
    "Tfhe.C65_scalarMulSubTo64",
    "Tfhe.C65_mulTo64",
    "Tfhe.C65_mulAddTo64",
    "Tfhe.C65_mulSubTo64",
    "Tfhe.C65_panics",
    "Tfhe.C65_deterministic",
    "Tfhe.C65_sim_addTo32",
    "Tfhe.C65_sim_subTo32",
    "Tfhe.C65_sim_scalarMulTo32",
    "Tfhe.C65_sim_scalarMulAddTo32",
    "Tfhe.C65_sim_scalarMulSubTo32",
    "Tfhe.C65_sim_mulTo32",
    "Tfhe.C65_sim_mulAddTo32",
    "Tfhe.C65_sim_mulSubTo32",
    "Tfhe.C65_sim_addTo64",
    "Tfhe.C65_sim_subTo64",
    "Tfhe.C65_sim_scalarMulTo64",
    "Tfhe.C65_sim_scalarMulAddTo64",
    "Tfhe.C65_sim_scalarMulSubTo64",
    "Tfhe.C65_sim_mulTo64",
    "Tfhe.C65_sim_mulAddTo64",
    "Tfhe.C65_sim_mulSubTo64",
    "Tfhe.C65_overlap_differs"
   ],
   "note": "All sixteen kernels, every length below 2^60, inputs equal to the output or disjoint from it (C65_addTo32 ... C65_mulSubTo64), and a simulation of the pure Go model (C65_sim_*). C65_overlap_differs: for an output that overlaps an input with an offset the kernels and the Go loops give different results, so the property is false for such slices; the C65_* theorems exclude them through Alias. The machine is a model of the instructions used (Model/Asm)."
  },
  {
   "property": "C66",
   "status": "partial",
   "theorems": [
    "Tfhe.C66_decompose32",
    "Tfhe.C66_recompose32",
    "Tfhe.C66_decompose64",
    "Tfhe.C66_recompose64",
    "Tfhe.C66_longer_differs",
    "Tfhe.C66_shorter_differs",
    "Tfhe.C66_agrees"
   ],
   "note": "C66_decompose32/64, C66_recompose32/64: as many outputs as levels, ranks that are multiples of 8 (uint32) or 4 (uint64), which NewPoly guarantees. C66_longer_differs, C66_shorter_differs: the number of digits is len(dcmpOut) in the kernel and the level in Go, so other lengths give different results, or a panic in Go only."
  },
  {
   "property": "C67",
   "status": "proved",
   "theorems": [
    "Tfhe.C67_addCmplxTo",
    "Tfhe.C67_subCmplxTo",
    "Tfhe.C67_negCmplxTo",
    "Tfhe.C67_floatMulCmplxTo",
    "Tfhe.C67_floatMulAddCmplxTo",
    "Tfhe.C67_floatMulSubCmplxTo",
    "Tfhe.C67_cmplxMulCmplxTo",
    "Tfhe.C67_cmplxMulAddCmplxTo",
    "Tfhe.C67_cmplxMulSubCmplxTo",
    "Tfhe.C67_mulCmplxTo",
    "Tfhe.C67_mulAddCmplxTo",
    "Tfhe.C67_mulSubCmplxTo",
    "Tfhe.C67_fwdFFTInPlace",
    "Tfhe.C67_invFFTInPlace",
    "Tfhe.C67_exact_fwd",
    "Tfhe.C67_exact_inv",
    "Tfhe.C67_deterministic",
    "Tfhe.C67_neg_zero"
   ],
   "note": "The twelve kernels on vectors (C67_addCmplxTo ... C67_mulSubCmplxTo) for lengths that are multiples of 8, the transforms (C67_fwdFFTInPlace, C67_invFFTInPlace) for powers of two from 16, which is what NewEvaluator allows. The operations on bit patterns (Fpu) are arbitrary: what is proved is which operations are performed on which operands. C67_exact_fwd, C67_exact_inv: with exact operations this is the exact transform. C67_neg_zero: negCmplxTo leaves +0 where Go gives -0. The machine is a model of the instructions used (Model/Asm)."
  },
  {
   "property": "C68",
   "status": "proved",
   "theorems": [
    "Tfhe.C68_foldPolyTo32",
    "Tfhe.C68_foldPolyTo64",
    "Tfhe.C68_floatModQ",
    "Tfhe.C68_unfoldPolyTo32",
    "Tfhe.C68_unfoldPolyAddTo32",
    "Tfhe.C68_unfoldPolySubTo32",
    "Tfhe.C68_unfoldPolyTo64",
    "Tfhe.C68_unfoldPolyAddTo64",
    "Tfhe.C68_unfoldPolySubTo64",
    "Tfhe.C68_reduceTo32",
    "Tfhe.C68_reduceAddTo32",
    "Tfhe.C68_reduceSubTo32",
    "Tfhe.C68_reduceTo64",
    "Tfhe.C68_reduceAddTo64",
    "Tfhe.C68_reduceSubTo64",
    "Tfhe.C68_constants",
    "Tfhe.C68_tie"
   ],
   "note": "C68_foldPolyTo32/64, C68_floatModQ (1 <= w <= 64), C68_unfoldPolyTo/AddTo/SubTo32/64 for single kernels, C68_reduceTo/AddTo/SubTo32/64 for floatModQInPlace followed by an unfold kernel. The processor is only asked to round exact results with a monotone function that fixes the numbers of the format, to round to integers to nearest even, and to convert 32-bit integers (IeeeFpu); exists_ieee shows that this can be met. C68_constants: the decimal literals in the file. C68_tie: on exact halves the kernel (to even) and the Go loop (away from zero) differ by one. floatModQInPlace is called with 1/q computed in Go, which is exact for powers of two."
  },
  {
   "property": "C69",
   "status": "proved",
   "theorems": [
    "Tfhe.C69_fwdFFTInPlace",
    "Tfhe.C69_invFFTInPlace",
    "Tfhe.C69_invFFTToUnsafe32",
    "Tfhe.C69_invFFTToUnsafe64",
    "Tfhe.C69_fwd_inRange",
    "Tfhe.C69_inv_inRange",
    "Tfhe.C69_fwdFFTTo32",
    "Tfhe.C69_fwdFFTTo64",
    "Tfhe.C69_addCmplxTo",
    "Tfhe.C69_subCmplxTo",
    "Tfhe.C69_negCmplxTo",
    "Tfhe.C69_floatMulCmplxTo",
    "Tfhe.C69_floatMulAddCmplxTo",
    "Tfhe.C69_floatMulSubCmplxTo",
    "Tfhe.C69_cmplxMulCmplxTo",
    "Tfhe.C69_cmplxMulAddCmplxTo",
    "Tfhe.C69_cmplxMulSubCmplxTo",
    "Tfhe.C69_mulCmplxTo",
    "Tfhe.C69_mulAddCmplxTo",
    "Tfhe.C69_mulSubCmplxTo"
   ],
   "note": "C69_fwdFFTTo32/64: unconditional for ranks 16 to 2^16 with the table of NewEvaluator (any platform that is Ieee and rounds as the processor does). C69_fwdFFTInPlace, C69_invFFTInPlace, C69_invFFTToUnsafe32/64 and the twelve C69_*CmplxTo have the hypothesis that exact results are in range (at most 2^1023, and at least 2^-1022 unless a multiple of 2^-1074); C69_fwd_inRange and C69_inv_inRange give conditions on the inputs under which this holds. For products of transforms no such condition is proved: two numbers can be so small that their product underflows. floatModQInPlace is related to exact rounding (C68), not to the rounded division of the model. exists_platform: a processor and a platform with all the properties asked for exist."
  },
  {
   "property": "C70",
   "status": "partial",
   "theorems": [
    "Tfhe.C70_gadgetParameters",
    "Tfhe.C70_lweSecretKey",
    "Tfhe.C70_lwePlaintext",
    "Tfhe.C70_lweCiphertext",
    "Tfhe.C70_glwePlaintext",
    "Tfhe.C70_publicKeys",
    "Tfhe.C70_lev",
    "Tfhe.C70_gsw",
    "Tfhe.C70_glweSecretKey",
    "Tfhe.C70_fftGLWESecretKey_partial",
    "Tfhe.C70_glweCiphertext",
    "Tfhe.C70_fftGLWECiphertext_partial",
    "Tfhe.C70_glev",
    "Tfhe.C70_fftGLev_partial",
    "Tfhe.C70_ggsw",
    "Tfhe.C70_uniEncryption",
    "Tfhe.C70_lweKeySwitchKey",
    "Tfhe.C70_glweKeySwitchKey",
    "Tfhe.C70_blindRotateKey",
    "Tfhe.C70_evaluationKey",
    "Tfhe.C70_secretKey",
    "Tfhe.C70_publicKey",
    "Tfhe.C70_mkEvaluationKey_partial",
    "Tfhe.C70_parameters",
    "Tfhe.C70_mkParameters",
    "Tfhe.C70_fftGLWESecretKey_count_false",
    "Tfhe.C70_fftGLWECiphertext_count_false",
    "Tfhe.C70_fftGLev_count_false",
    "Tfhe.C70_mkEvaluationKey_count_false",
    "Tfhe.C70_read_gadgetParameters",
    "Tfhe.C70_read_lwePlaintext",
    "Tfhe.C70_read_lweCiphertext",
    "Tfhe.C70_read_glwePlaintext",
    "Tfhe.C70_read_publicKeys",
    "Tfhe.C70_read_lev",
    "Tfhe.C70_read_gsw",
    "Tfhe.C70_read_glweSecretKey",
    "Tfhe.C70_read_glweCiphertext",
    "Tfhe.C70_read_glev",
    "Tfhe.C70_read_ggsw",
    "Tfhe.C70_read_uniEncryption",
    "Tfhe.C70_read_lweKeySwitchKey",
    "Tfhe.C70_read_glweKeySwitchKey",
    "Tfhe.C70_read_blindRotateKey",
    "Tfhe.C70_read_evaluationKey",
    "Tfhe.C70_read_secretKey",
    "Tfhe.C70_read_publicKey",
    "Tfhe.C70_read_parameters",
    "Tfhe.C70_read_mkParameters",
    "Tfhe.C70_read_lweSecretKey_partial",
    "Tfhe.C70_read_fftGLWESecretKey_partial",
    "Tfhe.C70_read_fftGLWECiphertext_partial",
    "Tfhe.C70_read_fft_count_false",
    "Tfhe.C70_read_mkEvaluationKey"
   ],
   "note": "Writers are arbitrary state machines that keep the contract of io.Writer. Proved in full for GadgetParameters, Parameters (both packages), LWE and GLWE plaintexts, ciphertexts, secret keys and public keys, Lev, GSW, GLev, GGSW, FFTGGSW, both uni-encryptions, all key-switching keys, BlindRotateKey, EvaluationKey, SecretKey, PublicKey. The count is wrong after an error in FFTGLWESecretKey, FFTGLWECiphertext, FFTGLevCiphertext and mktfhe.EvaluationKey (C70_*_count_false: 12 bytes on the disk, 4 reported); everything else holds for them (C70_*_partial). Reading: counts proved for all byte strings and all types but FFTGLWESecretKey and FFTGLWECiphertext (wrong when the stream ends in the second header field, C70_read_fft_count_false) and LWESecretKey (C24). The final comparison with ByteSize in mktfhe.EvaluationKey.ReadFrom never fails (C70_read_mkEvaluationKey, in Props/C73)."
  },
  {
   "property": "C71",
   "status": "proved",
   "theorems": [
    "Tfhe.C71_lut",
    "Tfhe.C71_lut_returns",
    "Tfhe.C71_func",
    "Tfhe.C71_func_returns",
    "Tfhe.C71_gate",
    "Tfhe.C71_gate_returns",
    "Tfhe.C71_decrypts",
    "Tfhe.C71_gate_correct"
   ],
   "note": "The blind rotation runs on the goroutine machine of C30; every schedule that returns leaves the sequential result (C71_lut, C71_func, C71_gate), a returning schedule exists (C71_*_returns), and the result decrypts (C71_decrypts, C71_gate_correct, with the noise bounds of C34)."
  },
  {
   "property": "C72",
   "status": "partial",
   "theorems": [
    "Tfhe.C72_bool",
    "Tfhe.C72_boolTo_partial",
    "Tfhe.C72_encryptBits",
    "Tfhe.C72_bits",
    "Tfhe.C72_gate",
    "Tfhe.C72_mk_first_partial",
    "Tfhe.C72_mk_next",
    "Tfhe.C72_mk_bits_false",
    "Tfhe.C72_reuse_false"
   ],
   "note": "Package tfhe: proved in full for EncryptLWEBool, EncryptLWEBits and EncryptLWEBitsTo, and for EncryptLWEBoolTo into outputs whose mask is zero; false for outputs used before (C72_reuse_false). Package mktfhe: proved for the first call of a new encryptor; false from the second call on, hence for EncryptLWEBits with two bits (C72_mk_bits_false), because the mask of the buffer of the encryptor is never cleared; C72_mk_next gives the exact phase of the next call."
  },
  {
   "property": "C73",
   "status": "partial",
   "theorems": [
    "Tfhe.C73_base_fits",
    "Tfhe.C73_lwePlaintext",
    "Tfhe.C73_lweCiphertext",
    "Tfhe.C73_lweSecretKey_partial",
    "Tfhe.C73_glwePlaintext",
    "Tfhe.C73_glweSecretKey",
    "Tfhe.C73_glweCiphertext",
    "Tfhe.C73_fftGLWESecretKey",
    "Tfhe.C73_fftGLWECiphertext",
    "Tfhe.C73_lweGLWEPublicKey",
    "Tfhe.C73_publicKey",
    "Tfhe.C73_gadgetParameters",
    "Tfhe.C73_lev",
    "Tfhe.C73_lweKeySwitchKey",
    "Tfhe.C73_gsw_partial",
    "Tfhe.C73_glev",
    "Tfhe.C73_ggsw",
    "Tfhe.C73_glweKeySwitchKey",
    "Tfhe.C73_uniEncryption",
    "Tfhe.C73_blindRotateKey",
    "Tfhe.C73_secretKey",
    "Tfhe.C73_evaluationKey_partial",
    "Tfhe.C73_mkEvaluationKey_partial",
    "Tfhe.C73_parameters_partial",
    "Tfhe.C73_mkParameters_partial",
    "Tfhe.C73_parameters_false",
    "Tfhe.C73_base_false",
    "Tfhe.C73_flag_false",
    "Tfhe.C73_gsw_false"
   ],
   "note": "Proved for every ciphertext, key and gadget type of both packages, for all byte strings and word sizes. The bytes written are exactly those consumed except: a gadget base is reduced modulo the size of the torus type (fixBase; C73_base_fits says when that changes nothing, C73_base_false that it can); a flag of an evaluation key above 1 is written as 1 (C73_flag_false, C73_evaluationKey_partial); a GSW ciphertext of dimension -1 is read but cannot be written (C73_gsw_false, C73_gsw_partial); the count of LWESecretKey.ReadFrom is wrong (C24). For Parameters and mktfhe.Parameters the bytes written are given exactly as well (RawParams.fix): a zero LUTSize or BlockSize is replaced by its default, so they can differ (C73_parameters_false)."
  },
  {
   "property": "C74",
   "status": "proved",
   "theorems": [
    "Tfhe.C74_crs",
    "Tfhe.C74_crs_withKey",
    "Tfhe.C74_no_panic",
    "Tfhe.C74_compatible",
    "Tfhe.C74_decrypts",
    "Tfhe.C74_gate",
    "Tfhe.C74_seed_needed",
    "Tfhe.C74_masks",
    "Tfhe.C74_masks_agree"
   ],
   "note": "SHA-384 and AES-CTR together are an arbitrary function from seeds to streams. The noise conditions are those of C34. GenEvalKeyParallel stores the values of GenEvalKey by C29. C74_seed_needed computes a product with equal and with different seeds. C74_masks fixes the masks of the keys level by level."
  },
  {
   "property": "C75",
   "status": "proved",
   "theorems": [
    "Tfhe.C75_circuit",
    "Tfhe.C75_circuit_fresh",
    "Tfhe.C75_adder",
    "Tfhe.C75_comparison",
    "Tfhe.C75_functions",
    "Tfhe.C75_mk_circuit",
    "Tfhe.C75_mk_circuit_seed",
    "Tfhe.C75_mk_functions",
    "Tfhe.C75_fhew_functions"
   ],
   "note": "The noise conditions are those of C21, C20 and C34 at one bound. Tables longer than the degree with one block are excluded, see C19_one_block_false. C75_adder is a ripple-carry adder of any width."
  },
  {
   "property": "C76",
   "status": "partial",
   "theorems": [
    "Tfhe.C76_limits",
    "Tfhe.C76_sizes",
    "Tfhe.C76_sampler",
    "Tfhe.C76_signed",
    "Tfhe.C76_abs_partial",
    "Tfhe.C76_abs_false",
    "Tfhe.C76_min_max",
    "Tfhe.C76_maxN_minN"
   ],
   "note": "Abs of the smallest value of a signed type is that negative value (C76_abs_false); C76_abs_partial covers all other values. Floating-point arguments are not modelled; int and uint have 64 bits."
  },
  {
   "property": "C77",
   "status": "proved",
   "theorems": [
    "Tfhe.C77_to_float4",
    "Tfhe.C77_to_cmplx",
    "Tfhe.C77_round_trips",
    "Tfhe.C77_equals"
   ],
   "note": "Components are arbitrary values, as the functions only move them. C77_equals needs an element type whose == is equality, so it says nothing about FFTPoly.Equals on NaN or signed zeros."
  },
  {
   "property": "C78",
   "status": "partial",
   "theorems": [
    "Tfhe.C78_add_sub_mul_partial",
    "Tfhe.C78_scalarMul_partial",
    "Tfhe.C78_neg_reverse",
    "Tfhe.C78_rotate_partial",
    "Tfhe.C78_cast",
    "Tfhe.C78_empty_false"
   ],
   "note": "C78_empty_false: the portable Add, Sub, Mul and ScalarMul evaluate &v[:1][0] and panic on empty vectors, where the assembly path returns; Rotate divides by zero there. The _partial theorems cover everything else and say exactly when a call returns. That the assembly computes the values of the loop is C65. Cast from or to floats is not modelled."
  },
  {
   "property": "C79",
   "status": "partial",
   "theorems": [
    "Tfhe.C79_from_partial",
    "Tfhe.C79_from_false",
    "Tfhe.C79_approx_partial",
    "Tfhe.C79_approx_nan_false",
    "Tfhe.C79_approx_rank_false"
   ],
   "note": "C79_from_false: From drops coefficients beyond the rank without a panic. C79_approx_nan_false: Approx is true if the differences or eps are NaN. C79_approx_rank_false: it ignores further coefficients of a longer argument and panics on a shorter one. The _partial theorems cover the rest."
  },
  {
   "property": "C80",
   "status": "partial",
   "theorems": [
    "Tfhe.C80_single",
    "Tfhe.C80_several_partial",
    "Tfhe.C80_false"
   ],
   "note": "C80_single is the full property for single-key parameters. C80_false: mktfhe.Parameters.ReadFrom reads the sub-parameters into the receiver itself, so an error after them leaves them there with the old number of parties and gadgets; the result can be one that Compile refuses. C80_several_partial says what holds."
  },
  {
   "property": "C81",
   "status": "proved",
   "theorems": [
    "Tfhe.C81_polys",
    "Tfhe.C81_lengths",
    "Tfhe.C81_glev",
    "Tfhe.C81_glev_new",
    "Tfhe.C81_ggsw",
    "Tfhe.C81_ggsw_new",
    "Tfhe.C81_uni",
    "Tfhe.C81_uni_new",
    "Tfhe.C81_roundtrip"
   ],
   "note": "For arbitrary transforms of one polynomial; C45 is about the transform itself. C81_lengths says what happens when shapes differ: a loop over the output takes a prefix or panics, a loop over the input leaves old components or panics."
  },
  {
   "property": "C82",
   "status": "partial",
   "theorems": [
    "Tfhe.C82_calls",
    "Tfhe.C82_mk_calls",
    "Tfhe.C82_gadget_calls",
    "Tfhe.C82_recompile_partial",
    "Tfhe.C82_larger_degree",
    "Tfhe.C82_mk_degree_false",
    "Tfhe.C82_baseQ",
    "Tfhe.C82_recompile_false"
   ],
   "note": "The calls and the accessors are fully proved. C82_recompile_false: Literal() writes the default table size out, so WithPolyRank with a larger degree on Literal() of compiled parameters panics in Compile where the original literal is accepted; C82_recompile_partial covers all other sequences of calls. C82_mk_degree_false: in mktfhe, which has no WithLUTSize, every other degree is refused whatever else is called."
  },
  {
   "property": "C83",
   "status": "partial",
   "theorems": [
    "Tfhe.C83_order",
    "Tfhe.C83_index_partial",
    "Tfhe.C83_minus_one_false",
    "Tfhe.C83_panics"
   ],
   "note": "C83_order is the full statement about the order. C83_minus_one_false: the index -1 is accepted, and GLWE encryption then writes the mask over the body without a panic, so the ciphertext is the same for all messages. C83_panics: with the other accepted indices that name no party, every encryption panics. C83_index_partial says what holds. Wrap-around of the index at the ends of int is not modelled."
  }
 ]
}