{"claims": [
  {"property": "C01", "status": "proved", "theorems": ["Tachyon.Props.C01_add", "Tachyon.Props.C01_sub", "Tachyon.Props.C01_portable_borrow_inverted"], "note": "Any word width and limb count. The clang/x86 intrinsic paths are modelled by the same portable word formula; C01_portable_borrow_inverted records that the portable 64-bit SubWithBorrow (not compiled on supported platforms) returns the inverted borrow."},
  {"property": "C02", "status": "proved", "theorems": ["Tachyon.Props.C02_mulBy2", "Tachyon.Props.C02_divBy2", "Tachyon.Props.C02_shiftLeft", "Tachyon.Props.C02_shiftRight"], "note": "MulBy2, DivBy2, << and >> for every amount."},
  {"property": "C03", "status": "proved", "theorems": ["Tachyon.Props.C03_multiply"], "note": ""},
  {"property": "C04", "status": "proved", "theorems": ["Tachyon.Props.C04_divide", "Tachyon.Props.C04_divide_fails_iff", "Tachyon.Props.C04_div_mod"], "note": ""},
  {"property": "C05", "status": "proved", "theorems": ["Tachyon.Props.C05_compare", "Tachyon.Props.C05_tests"], "note": ""},
  {"property": "C06", "status": "proved", "theorems": ["Tachyon.Props.C06_fromBytesLE", "Tachyon.Props.C06_fromBytesBE", "Tachyon.Props.C06_fromBytes_overflow", "Tachyon.Props.C06_toBytes", "Tachyon.Props.C06_bytes_roundtrip", "Tachyon.Props.C06_fromBits", "Tachyon.Props.C06_toBits", "Tachyon.Props.C06_bits_roundtrip", "Tachyon.Props.C06_extractBits", "Tachyon.Props.C06_extractBits_undefined", "Tachyon.Props.C06_bit_access", "Tachyon.Props.C06_bitwise"], "note": "Little-endian host. Inputs longer than the capacity are shown to be out-of-bounds writes (none)."},
  {"property": "C07", "status": "proved", "theorems": ["Tachyon.Props.C07_inverse_constant", "Tachyon.Props.C07_montgomeryReduce", "Tachyon.Props.C07_montgomeryReduce32"], "note": "64-bit and 32-bit entry points; modulus inverse constant proved from Modulus::Inverse."},
  {"property": "C08", "status": "proved", "theorems": ["Tachyon.Props.C08_mul", "Tachyon.Props.C08_square", "Tachyon.Props.C08_fast_eq_slow"], "note": "Both multiplication paths and the dedicated squaring."},
  {"property": "C09", "status": "proved", "theorems": ["Tachyon.Props.C09_roundtrip", "Tachyon.Props.C09_injective", "Tachyon.Props.C09_homomorphism", "Tachyon.Props.C09_constants", "Tachyon.Props.C09_fromMontgomery32"], "note": ""},
  {"property": "C10", "status": "proved", "theorems": ["Tachyon.Props.C10_additive"], "note": ""},
  {"property": "C11", "status": "proved", "theorems": ["Tachyon.Props.C11_by", "Tachyon.Props.C11_inverse", "Tachyon.Props.C11_inverse_zero", "Tachyon.Props.C11_bea_inverse", "Tachyon.Props.C11_bea_zero", "Tachyon.Props.C11_bea_diverges"], "note": "BYInverter (used by PrimeField::Inverse) and BigInt::MontgomeryInverse. The left shift of negative int64_t in Jump is multiplication (undefined before C++20). The bound on the number of iterations is proved here by a quadratic form, not taken from the literature."},
  {"property": "C12", "status": "proved", "theorems": ["Tachyon.Props.C12_add", "Tachyon.Props.C12_sub", "Tachyon.Props.C12_negate", "Tachyon.Props.C12_mul_mersenne31", "Tachyon.Props.C12_mul_m31Scalar", "Tachyon.Props.C12_mul_gf7", "Tachyon.Props.C12_default_reduce64_wrong", "Tachyon.Props.C12_inverse", "Tachyon.Props.C12_inverse_none", "Tachyon.Props.C12_mont_roundtrip", "Tachyon.Props.C12_mont_of_uint64", "Tachyon.Props.C12_mont_injective", "Tachyon.Props.C12_mont_ops", "Tachyon.Props.C12_mont_inverse", "Tachyon.Props.C12_moduli"], "note": "BabyBear, KoalaBear (32-bit Montgomery), Mersenne31 and the default 32-bit prime field; Goldilocks not modelled. The default Reduce64 is proved wrong for products above 2p (only reachable for tiny test fields, see DESIGN.md)."},
  {"property": "C13", "status": "proved", "theorems": ["Tachyon.Props.C13_add", "Tachyon.Props.C13_sub", "Tachyon.Props.C13_negate_avx2", "Tachyon.Props.C13_negate_avx512", "Tachyon.Props.C13_mul_avx2", "Tachyon.Props.C13_mul_avx512", "Tachyon.Props.C13_exp_avx2", "Tachyon.Props.C13_add_sub_negate_neon", "Tachyon.Props.C13_mul_neon", "Tachyon.Props.C13_mul_mersenne31", "Tachyon.Props.C13_mul_mersenne31_neon"], "note": ""},
  {"property": "C14", "status": "proved", "theorems": ["Tachyon.Props.C14_base_mont", "Tachyon.Props.C14_base_mersenne31", "Tachyon.Props.C14_base_gf7", "Tachyon.Props.C14_base_limbs", "Tachyon.Props.C14_quadratic", "Tachyon.Props.C14_mulBase", "Tachyon.Props.C14_norm", "Tachyon.Props.C14_inverse_none", "Tachyon.Props.C14_aliased_mul_wrong", "Tachyon.Props.C14_norm_fp2"], "note": "Over any correct base field implementation; instances for 32-bit Montgomery fields, Mersenne31, GF7 and generic limb fields. C14_aliased_mul_wrong: x *= x through MulInPlace with an aliased operand computes a wrong product."},
  {"property": "C15", "status": "proved", "theorems": ["Tachyon.Props.C15_cubic", "Tachyon.Props.C15_mulBase", "Tachyon.Props.C15_inverse_none", "Tachyon.Props.C15_norm_fp3", "Tachyon.Props.C15_norm_fp6"], "note": "All multiplication/squaring/inversion formulas, norm = x^(1+p+p^2)."},
  {"property": "C16", "status": "proved", "theorems": ["Tachyon.Props.C16_init", "Tachyon.Props.C16_quartic", "Tachyon.Props.C16_inverse_none", "Tachyon.Props.C16_norm", "Tachyon.Props.C16_babyBear"], "note": "Quartic extension with Toom-Cook multiplication and Frobenius based inversion; BabyBear4 instantiated completely."},
  {"property": "C17", "status": "proved", "theorems": ["Tachyon.Props.C17_fp6_cubic", "Tachyon.Props.C17_fp6_quadratic", "Tachyon.Props.C17_fp12", "Tachyon.Props.C17_mulByNonResidue"], "note": ""},
  {"property": "C18", "status": "proved", "theorems": ["Tachyon.Props.C18_cyclotomicSquare", "Tachyon.Props.C18_cyclotomicSquare_generic", "Tachyon.Props.C18_cyclotomicInverse", "Tachyon.Props.C18_outside"], "note": "Under the exact subgroup hypothesis x^(p^4) * x = x^(p^2); C18_outside shows the hypothesis is needed."},
  {"property": "C19", "status": "proved", "theorems": ["Tachyon.Props.C19_pow_represented", "Tachyon.Props.C19_pow", "Tachyon.Props.C19_constPow", "Tachyon.Props.C19_powWithTable", "Tachyon.Props.C19_powWithTable_short", "Tachyon.Props.C19_expPowOfTwo", "Tachyon.Props.C19_cyclotomicPow", "Tachyon.Props.C19_cyclotomicPow_all_ones", "Tachyon.Props.C19_cyclotomicPow_bits", "Tachyon.Props.C19_cyclotomicPow_zero"], "note": ""},
  {"property": "C20", "status": "proved", "theorems": ["Tachyon.Props.C20_scalarMul_represented", "Tachyon.Props.C20_scalarMul", "Tachyon.Props.C20_leading_zeros", "Tachyon.Props.C20_constScalarMul", "Tachyon.Props.C20_multiScalarMul"], "note": ""},
  {"property": "C21", "status": "proved", "theorems": ["Tachyon.Props.C21_naf", "Tachyon.Props.C21_naf_all_ones"], "note": "All values except 2^(64N)-1; C21_naf_all_ones shows that the all-ones value is recoded as -1 (carry lost)."},
  {"property": "C22", "status": "proved", "theorems": ["Tachyon.Props.C22_batchInverse", "Tachyon.Props.C22_serial", "Tachyon.Props.C22_mismatch", "Tachyon.Props.C22_threads_undefined"], "note": "Any thread count below 128; C22_threads_undefined: from 128 threads on the size test shifts by the word size."},
  {"property": "C23", "status": "proved", "theorems": ["Tachyon.Props.C23_powers", "Tachyon.Props.C23_scalarMuls", "Tachyon.Props.C23_bitRev", "Tachyon.Props.C23_bitRevSerial", "Tachyon.Props.C23_bitRev_small"], "note": "Bit-reversed variants for sizes 2^k, k >= 1, chunks in any order; sizes 0 and 1 fail (C23_bitRev_small)."},
  {"property": "C24", "status": "proved", "theorems": ["Tachyon.Props.C24_shanks", "Tachyon.Props.C24_tonelliShanks"], "note": "Shanks and Tonelli-Shanks over every finite field satisfying the stated constants; termination included."},
  {"property": "C25", "status": "proved", "theorems": ["Tachyon.Props.C25_add", "Tachyon.Props.C25_addAffine", "Tachyon.Props.C25_sub", "Tachyon.Props.C25_double", "Tachyon.Props.C25_neg", "Tachyon.Props.C25_zero", "Tachyon.Props.C25_scalarMul", "Tachyon.Props.C25_double_wrong"], "note": "Doubling for a = 0 (all shipped curves); addition of distinct points for every a. C25_double_wrong: doubling is wrong for a != 0. Characteristic other than two."},
  {"property": "C26", "status": "proved", "theorems": ["Tachyon.Props.C26_add", "Tachyon.Props.C26_addAffine", "Tachyon.Props.C26_sub", "Tachyon.Props.C26_double", "Tachyon.Props.C26_neg", "Tachyon.Props.C26_zero", "Tachyon.Props.C26_scalarMul"], "note": "Every curve."},
  {"property": "C27", "status": "proved", "theorems": ["Tachyon.Props.C27_add", "Tachyon.Props.C27_addAffine", "Tachyon.Props.C27_sub", "Tachyon.Props.C27_double", "Tachyon.Props.C27_neg", "Tachyon.Props.C27_zero", "Tachyon.Props.C27_scalarMul"], "note": "Every curve; zz^3 = zzz^2 is preserved."},
  {"property": "C28", "status": "proved", "theorems": ["Tachyon.Props.C28_add", "Tachyon.Props.C28_double", "Tachyon.Props.C28_neg", "Tachyon.Props.C28_scalarMul", "Tachyon.Props.C28_batchMap"], "note": "Including ScalarMul and BatchMapScalarFieldToPoint with any thread count."},
  {"property": "C29", "status": "proved", "theorems": ["Tachyon.Props.C29_convert", "Tachyon.Props.C29_convert_xyzz", "Tachyon.Props.C29_batchNormalize", "Tachyon.Props.C29_batchNormalize_points", "Tachyon.Props.C29_batchNormalize_reject", "Tachyon.Props.C29_convertPoints", "Tachyon.Props.C29_xyzz_shortcut_wrong", "Tachyon.Props.C29_origin_wrong"], "note": "C29_xyzz_shortcut_wrong: XYZZ conversions are wrong when zz = 1 and zzz = -1. C29_origin_wrong: b != 0 is needed."},
  {"property": "C30", "status": "proved", "theorems": ["Tachyon.Props.C30_eq"], "note": "All four coordinate systems."},
  {"property": "C31", "status": "proved", "theorems": ["Tachyon.Props.C31_pippenger", "Tachyon.Props.C31_mismatch", "Tachyon.Props.C31_strategies", "Tachyon.Props.C31_variableBase", "Tachyon.Props.C31_threads_not_restored"], "note": "Any implementation of an abelian group; LnWithoutFloats (floating point) is an arbitrary function with values at most 60. Instance for affine points with XYZZ buckets on any curve. C31_threads_not_restored is a finding. GPU (icicle) paths not modelled."},
  {"property": "C32", "status": "proved", "theorems": ["Tachyon.Props.C32_fillDigits", "Tachyon.Props.C32_wide_undefined"], "note": "C32_wide_undefined shows that the bound on the width is needed."},
  {"property": "C33", "status": "proved", "theorems": ["Tachyon.Props.C33_fixedBase", "Tachyon.Props.C33_mismatch", "Tachyon.Props.C33_affine"], "note": "Same parameterisation as C31; instance for affine points (Jacobian results, a = 0)."},
  {"property": "C34", "status": "proved", "theorems": ["Tachyon.Props.C34_decompose", "Tachyon.Props.C34_decompose_short", "Tachyon.Props.C34_constants", "Tachyon.Props.C34_decompose_groups", "Tachyon.Props.C34_mul", "Tachyon.Props.C34_mul_groups", "Tachyon.Props.C34_mul_wrong", "Tachyon.Props.C34_endomorphism_hom", "Tachyon.Props.C34_endomorphism", "Tachyon.Props.C34_endomorphism_subgroup", "Tachyon.Props.C34_mul_affine"], "note": "GMP integers are mathematical integers; GetNumBits is 64 times the number of limbs as in gmp_util.cc. C34_mul_wrong shows that the condition on the limb counts is needed."},
  {"property": "C35", "status": "proved", "theorems": ["Tachyon.Props.C35_unique", "Tachyon.Props.C35_access", "Tachyon.Props.C35_dense", "Tachyon.Props.C35_dense_inPlace", "Tachyon.Props.C35_scalar", "Tachyon.Props.C35_divScalar", "Tachyon.Props.C35_sparse", "Tachyon.Props.C35_mixed", "Tachyon.Props.C35_mixed_inPlace", "Tachyon.Props.C35_convert"], "note": "Over any field. The MaxDegree checks of the constructors are left out. Sorting of the terms of a product is modelled by insertion sort (the degrees are distinct)."},
  {"property": "C36", "status": "proved", "theorems": ["Tachyon.Props.C36_divide", "Tachyon.Props.C36_sparse", "Tachyon.Props.C36_zero_divisor", "Tachyon.Props.C36_zero_dividend_wrong"], "note": "C36_zero_dividend_wrong is a finding: 0 divided by g has remainder g."},
  {"property": "C37", "status": "proved", "theorems": ["Tachyon.Props.C37_dense", "Tachyon.Props.C37_sparse", "Tachyon.Props.C37_sparse_undefined"], "note": "C37_sparse_undefined shows that the condition on the degrees is needed."},
  {"property": "C38", "status": "proved", "theorems": ["Tachyon.Props.C38_fft", "Tachyon.Props.C38_fft_too_long", "Tachyon.Props.C38_ifft", "Tachyon.Props.C38_ifft_fft", "Tachyon.Props.C38_fft_ifft", "Tachyon.Props.C38_end_to_end"], "note": "Parallel loops run in an arbitrary order. The CUDA parts are not modelled."},
  {"property": "C39", "status": "proved", "theorems": ["Tachyon.Props.C39_vanishing", "Tachyon.Props.C39_partial", "Tachyon.Props.C39_partial_too_long", "Tachyon.Props.C39_all", "Tachyon.Props.C39_sum"], "note": "At most 127 threads, as for BatchInverse (C22)."},
  {"property": "C40", "status": "proved", "theorems": ["Tachyon.Props.C40_interpolate", "Tachyon.Props.C40_mismatch", "Tachyon.Props.C40_duplicate_wrong", "Tachyon.Props.C40_empty_undefined"], "note": "C40_duplicate_wrong and C40_empty_undefined show that the conditions on the points are needed."},
  {"property": "C41", "status": "proved", "theorems": ["Tachyon.Props.C41_commit", "Tachyon.Props.C41_deterministic", "Tachyon.Props.C41_rejects", "Tachyon.Props.C41_open", "Tachyon.Props.C41_bind", "Tachyon.Props.C41_bind_leaf", "Tachyon.Props.C41_bind_root", "Tachyon.Props.C41_inner_node", "Tachyon.Props.C41_single_leaf", "Tachyon.Props.C41_threshold_one"], "note": "Sizes below 2^63. C41_inner_node, C41_single_leaf and C41_threshold_one are findings."},
  {"property": "C42", "status": "proved", "theorems": ["Tachyon.Props.C42_combine", "Tachyon.Props.C42_evaluate", "Tachyon.Props.C42_evaluate_checks", "Tachyon.Props.C42_interpolate", "Tachyon.Props.C42_complete", "Tachyon.Props.C42_sound", "Tachyon.Props.C42_constant_dropped", "Tachyon.Props.C42_addTerm_check", "Tachyon.Props.C42_no_terms", "Tachyon.Props.C42_message_check", "Tachyon.Props.C42_rounds_check", "Tachyon.Props.C42_key_eq", "Tachyon.Props.C42_missing_one"], "note": "n <= 62 variables; ToBigInt is a parameter with its defining property; F::Random() is universally quantified. C42_constant_dropped, C42_no_terms, C42_key_eq and C42_missing_one are findings."},
  {"property": "C43", "status": "proved", "theorems": ["Tachyon.Props.C43_evaluate", "Tachyon.Props.C43_vertex", "Tachyon.Props.C43_unique", "Tachyon.Props.C43_fix", "Tachyon.Props.C43_split", "Tachyon.Props.C43_empty", "Tachyon.Props.C43_checks", "Tachyon.Props.C43_not_power", "Tachyon.Props.C43_linear", "Tachyon.Props.C43_ops", "Tachyon.Props.C43_mul", "Tachyon.Props.C43_one", "Tachyon.Props.C43_hash", "Tachyon.Props.C43_eq_not_transitive", "Tachyon.Props.C43_mul_not_product"], "note": "C43_not_power, C43_eq_not_transitive and C43_mul_not_product are findings."},
  {"property": "C44", "status": "proved", "theorems": ["Tachyon.Props.C44_write", "Tachyon.Props.C44_write_fails", "Tachyon.Props.C44_read", "Tachyon.Props.C44_roundtrip", "Tachyon.Props.C44_prefix_free", "Tachyon.Props.C44_read_safe", "Tachyon.Props.C44_write_safe", "Tachyon.Props.C44_write_gap", "Tachyon.Props.C44_readPtr", "Tachyon.Props.C44_readPtr_overflow", "Tachyon.Props.C44_float_wrong", "Tachyon.Props.C44_wide_string_wrong", "Tachyon.Props.C44_writeManyAt", "Tachyon.Props.C44_resize", "Tachyon.Props.C44_estimate", "Tachyon.Props.C44_estimate_array", "Tachyon.Props.C44_estimate_overflow", "Tachyon.Props.C44_cstring"], "note": "Round trip, failure and memory safety for all types; the exceptions in the code are proved with witnesses."},
  {"property": "C45", "status": "proved", "theorems": ["Tachyon.Props.C45_partition", "Tachyon.Props.C45_threads", "Tachyon.Props.C45_interleaving", "Tachyon.Props.C45_parallelize_mapIdx", "Tachyon.Props.C45_fill", "Tachyon.Props.C45_mapReduce", "Tachyon.Props.C45_resize", "Tachyon.Props.C45_resizeWith", "Tachyon.Props.C45_resizeWith_shrink", "Tachyon.Props.C45_threshold_ignored"], "note": "Chunk arithmetic with size_t wrap-around; C45_interleaving covers every interleaving of the element writes. C45_threshold_ignored: GetNumElementsPerThread does not use its threshold. C45_resizeWith_shrink: the initialising resize underflows when shrinking."},
  {"property": "C46", "status": "proved", "theorems": ["Tachyon.Props.C46_sound", "Tachyon.Props.C46_permute", "Tachyon.Props.C46_absent", "Tachyon.Props.C46_underflow", "Tachyon.Props.C46_check"], "note": "C46_underflow is a finding."},
  {"property": "C47", "status": "proved", "theorems": ["Tachyon.Props.C47_cycles", "Tachyon.Props.C47_merge", "Tachyon.Props.C47_values", "Tachyon.Props.C47_all", "Tachyon.Props.C47_copy", "Tachyon.Props.C47_copy_unknown", "Tachyon.Props.C47_copy_row_bound", "Tachyon.Props.C47_unpermuted", "Tachyon.Props.C47_generate", "Tachyon.Props.C47_labels_distinct", "Tachyon.Props.C47_delta"], "note": "C47_all and C47_copy_row_bound are findings; the hard-coded delta of bn254 is a parameter."},
  {"property": "C48", "status": "proved", "theorems": ["Tachyon.Props.C48_buffers", "Tachyon.Props.C48_rate_above_width", "Tachyon.Props.C48_duplex", "Tachyon.Props.C48_init", "Tachyon.Props.C48_agree", "Tachyon.Props.C48_duplex_first", "Tachyon.Props.C48_phase", "Tachyon.Props.C48_exposes_state", "Tachyon.Props.C48_absorbed", "Tachyon.Props.C48_padding_wrong", "Tachyon.Props.C48_observe2D", "Tachyon.Props.C48_multi", "Tachyon.Props.C48_reduce_check", "Tachyon.Props.C48_multi_buffers", "Tachyon.Props.C48_pack_injective", "Tachyon.Props.C48_pack_zero", "Tachyon.Props.C48_hash", "Tachyon.Props.C48_sampleBits", "Tachyon.Props.C48_checkWitness", "Tachyon.Props.C48_grind", "Tachyon.Props.C48_grind_given", "Tachyon.Props.C48_spongeHash", "Tachyon.Props.C48_spongeHash_wrong", "Tachyon.Props.C48_compress"], "note": "Closed form of the challenges for all histories, buffer bounds, grinding for all schedules; absence of padding and exposure of the capacity proved."},
  {"property": "C49", "status": "proved", "theorems": ["Tachyon.Props.C49_values", "Tachyon.Props.C49_tower", "Tachyon.Props.C49_add", "Tachyon.Props.C49_mul", "Tachyon.Props.C49_square", "Tachyon.Props.C49_mulByAlpha", "Tachyon.Props.C49_inverse", "Tachyon.Props.C49_twoInv_wrong"], "note": "All heights by induction; tables checked completely (the 8-bit product through the generator of its group)."},
  {"property": "C50", "status": "proved", "theorems": ["Tachyon.Props.C50_operations", "Tachyon.Props.C50_constants", "Tachyon.Props.C50_eq", "Tachyon.Props.C50_inverse", "Tachyon.Props.C50_evaluate", "Tachyon.Props.C50_batchEvaluate", "Tachyon.Props.C50_batchEvaluate_mismatch", "Tachyon.Props.C50_isOne", "Tachyon.Props.C50_isOne_wrong", "Tachyon.Props.C50_order", "Tachyon.Props.C50_order_wrong", "Tachyon.Props.C50_coeff_ignored"], "note": "IsOne, IsMinusOne, the order and the factor of BatchEvaluate are wrong in the code; proved with witnesses."},
  {"property": "C51", "status": "proved", "theorems": ["Tachyon.Props.C51_linearCombination", "Tachyon.Props.C51_inPlace"], "note": ""},
  {"property": "C52", "status": "proved", "theorems": ["Tachyon.Props.C52_fp2", "Tachyon.Props.C52_fp3", "Tachyon.Props.C52_fp4_quartic", "Tachyon.Props.C52_fp4", "Tachyon.Props.C52_fp6", "Tachyon.Props.C52_fp6_cubic", "Tachyon.Props.C52_fp12", "Tachyon.Props.C52_m31_fq4_wrong"], "note": "All tower configurations, every exponent; C52_m31_fq4_wrong shows the table of m31::Fq4 is wrong."},
  {"property": "C53", "status": "proved", "theorems": ["Tachyon.Props.C53_isPowerOfTwo", "Tachyon.Props.C53_align", "Tachyon.Props.C53_log2Floor", "Tachyon.Props.C53_log2Ceiling", "Tachyon.Props.C53_checkedLog2", "Tachyon.Props.C53_count", "Tachyon.Props.C53_reverseBitsLen"], "note": "ReverseBitsLen is undefined for length 0, which callers reach with a domain of size one."},
  {"property": "C54", "status": "proved", "theorems": ["Tachyon.Props.C54_sumOfProducts"], "note": ""},
  {"property": "C55", "status": "proved", "theorems": ["Tachyon.Props.C55_isOnCurve", "Tachyon.Props.C55_xyzz_unchecked"], "note": "C55_xyzz_unchecked: the XYZZ test does not read zz when a = 0."},
  {"property": "C56", "status": "proved", "theorems": ["Tachyon.Props.C56_createFromX", "Tachyon.Props.C56_parity", "Tachyon.Props.C56_createFromX_shanks"], "note": "Instantiated with Shanks' square root for primes 3 mod 4."},
  {"property": "C57", "status": "proved", "theorems": ["Tachyon.Props.C57_fromRoots", "Tachyon.Props.C57_vanishing"], "note": ""},
  {"property": "C58", "status": "proved", "theorems": ["Tachyon.Props.C58_dense", "Tachyon.Props.C58_dense_odd", "Tachyon.Props.C58_sparse"], "note": "C58_dense_odd is a finding: dense polynomials of even degree are read out of bounds."},
  {"property": "C59", "status": "proved", "theorems": ["Tachyon.Props.C59_root_two", "Tachyon.Props.C59_root_large", "Tachyon.Props.C59_root_undefined", "Tachyon.Props.C59_create", "Tachyon.Props.C59_coset", "Tachyon.Props.C59_elements"], "note": "std::pow on doubles is modelled by integer powers."},
  {"property": "C60", "status": "proved", "theorems": ["Tachyon.Props.C60_item", "Tachyon.Props.C60_getItem", "Tachyon.Props.C60_size_one", "Tachyon.Props.C60_stale"], "note": "C60_stale and C60_size_one are findings."},
  {"property": "C61", "status": "proved", "theorems": ["Tachyon.Props.C61_filter", "Tachyon.Props.C61_filterAt", "Tachyon.Props.C61_coset_wrong"], "note": "C61_coset_wrong is a finding."},
  {"property": "C62", "status": "proved", "theorems": ["Tachyon.Props.C62_item", "Tachyon.Props.C62_fftBatch", "Tachyon.Props.C62_ifftBatch", "Tachyon.Props.C62_cosetLDE", "Tachyon.Props.C62_naiveFFT", "Tachyon.Props.C62_naiveCosetLDE", "Tachyon.Props.C62_agree", "Tachyon.Props.C62_single_row", "Tachyon.Props.C62_reverse_dropped"], "note": "Packed fields are modelled as lanes of columns. C62_single_row and C62_reverse_dropped are findings."},
  {"property": "C63", "status": "proved", "theorems": ["Tachyon.Props.C63_best_size", "Tachyon.Props.C63_no_subgroup", "Tachyon.Props.C63_create", "Tachyon.Props.C63_fft", "Tachyon.Props.C63_ifft", "Tachyon.Props.C63_agree", "Tachyon.Props.C63_wrong_three", "Tachyon.Props.C63_wrong_six", "Tachyon.Props.C63_max_degree", "Tachyon.Props.C63_truncated"], "note": "std::pow on doubles is modelled by integer powers. C63_wrong_three, C63_wrong_six, C63_max_degree and C63_truncated are findings."},
  {"property": "C64", "status": "proved", "theorems": ["Tachyon.Props.C64_add", "Tachyon.Props.C64_negate", "Tachyon.Props.C64_sub", "Tachyon.Props.C64_mul", "Tachyon.Props.C64_in_place", "Tachyon.Props.C64_isZero", "Tachyon.Props.C64_isOne", "Tachyon.Props.C64_eq", "Tachyon.Props.C64_scalar", "Tachyon.Props.C64_div", "Tachyon.Props.C64_div_zero", "Tachyon.Props.C64_div_scalar", "Tachyon.Props.C64_hash", "Tachyon.Props.C64_not_transitive", "Tachyon.Props.C64_div_modifies", "Tachyon.Props.C64_fft_mul"], "note": "C64_not_transitive and C64_div_modifies are findings."},
  {"property": "C65", "status": "proved", "theorems": ["Tachyon.Props.C65_commit", "Tachyon.Props.C65_open", "Tachyon.Props.C65_bind", "Tachyon.Props.C65_bind_rows", "Tachyon.Props.C65_verify_lengths", "Tachyon.Props.C65_dcheck", "Tachyon.Props.C65_widths_unchecked", "Tachyon.Props.C65_length_unchecked", "Tachyon.Props.C65_open_out_of_bounds", "Tachyon.Props.C65_release_ignores"], "note": "base::StableSort is represented by insertion sort. C65_widths_unchecked, C65_length_unchecked, C65_open_out_of_bounds and C65_release_ignores are findings."},
  {"property": "C66", "status": "proved", "theorems": ["Tachyon.Props.C66_create", "Tachyon.Props.C66_complete", "Tachyon.Props.C66_sound", "Tachyon.Props.C66_lvalues", "Tachyon.Props.C66_lvalues_row", "Tachyon.Props.C66_lvalues_fail"], "note": "Rows of the table instead of polynomials: that a polynomial identity on the domain is checked at a random point is the vanishing argument."},
  {"property": "C67", "status": "proved", "theorems": ["Tachyon.Props.C67_complete", "Tachyon.Props.C67_sound", "Tachyon.Props.C67_compress"], "note": "As C66; with no usable row the first constraint compares two random values, hence the hypothesis 0 < u."},
  {"property": "C68", "status": "proved", "theorems": ["Tachyon.Props.C68_create", "Tachyon.Props.C68_complete", "Tachyon.Props.C68_sound"], "note": "As C66."},
  {"property": "C69", "status": "proved", "theorems": ["Tachyon.Props.C69_counts", "Tachyon.Props.C69_create", "Tachyon.Props.C69_create_no_inputs", "Tachyon.Props.C69_verifier", "Tachyon.Props.C69_verifier_null", "Tachyon.Props.C69_complete", "Tachyon.Props.C69_sound", "Tachyon.Props.C69_sound_char", "Tachyon.Props.C69_verifier_zero", "Tachyon.Props.C69_absent"], "note": "Rows of the table instead of polynomials, as C66."},
  {"property": "C70", "status": "proved", "theorems": ["Tachyon.Props.C70_rotation", "Tachyon.Props.C70_rotation_overflow", "Tachyon.Props.C70_proving", "Tachyon.Props.C70_selector", "Tachyon.Props.C70_polynomial", "Tachyon.Props.C70_verifying", "Tachyon.Props.C70_degree", "Tachyon.Props.C70_degree_exact", "Tachyon.Props.C70_satisfied", "Tachyon.Props.C70_gates", "Tachyon.Props.C70_gates_chunk", "Tachyon.Props.C70_lookup", "Tachyon.Props.C70_shift", "Tachyon.Props.C70_once"], "note": "Expressions as an inductive type; AIR expressions excluded."},
  {"property": "C71", "status": "proved", "theorems": ["Tachyon.Props.C71_absorb", "Tachyon.Props.C71_absorb_empty", "Tachyon.Props.C71_squeeze", "Tachyon.Props.C71_squeeze_none", "Tachyon.Props.C71_squeeze_repeats", "Tachyon.Props.C71_history"], "note": "The permutation is a parameter; serialisation to field elements and bytes/bits excluded."},
  {"property": "C72", "status": "proved", "theorems": ["Tachyon.Props.C72_products", "Tachyon.Props.C72_mds", "Tachyon.Props.C72_sparse", "Tachyon.Props.C72_permute", "Tachyon.Props.C72_bijective", "Tachyon.Props.C72_odd"], "note": "Eigen's inverse is an oracle with the law inv(M) M = 1 for invertible M; elements drawn by the generator are universally quantified."},
  {"property": "C73", "status": "proved", "theorems": ["Tachyon.Props.C73_external", "Tachyon.Props.C73_external_none", "Tachyon.Props.C73_external_injective", "Tachyon.Props.C73_internal", "Tachyon.Props.C73_internal_injective", "Tachyon.Props.C73_permute", "Tachyon.Props.C73_injective", "Tachyon.Props.C73_surjective", "Tachyon.Props.C73_babybear24", "Tachyon.Props.C73_mersenne31", "Tachyon.Props.C73_shift_matrix", "Tachyon.Props.C73_shift_arrays", "Tachyon.Props.C73_shifts", "Tachyon.Props.C73_shifts_mersenne31", "Tachyon.Props.C73_packed", "Tachyon.Props.C73_packed_mersenne31", "Tachyon.Props.C73_fromU62", "Tachyon.Props.C73_debug_stops"], "note": "The rounds are modelled over a field; the internal layer of unpacked 31-bit fields also on words. Diagonals of Goldilocks, bls12_381 and pallas given as hexadecimal constants are not evaluated."},
  {"property": "C74", "status": "proved", "theorems": ["Tachyon.Props.C74_stream", "Tachyon.Props.C74_update", "Tachyon.Props.C74_live", "Tachyon.Props.C74_bits", "Tachyon.Props.C74_bits_append", "Tachyon.Props.C74_modP", "Tachyon.Props.C74_reject", "Tachyon.Props.C74_ark2", "Tachyon.Props.C74_ark", "Tachyon.Props.C74_check", "Tachyon.Props.C74_truncated", "Tachyon.Props.C74_truncated_witness", "Tachyon.Props.C74_capacity", "Tachyon.Props.C74_mds", "Tachyon.Props.C74_mds_minors", "Tachyon.Props.C74_mds_repeated", "Tachyon.Props.C74_compute"], "note": "The loops of rejection sampling have fuel; that there are enough candidates below the modulus is a hypothesis. FromBigInt is C09."},
  {"property": "C75", "status": "proved", "theorems": ["Tachyon.Props.C75_new", "Tachyon.Props.C75_natural", "Tachyon.Props.C75_next", "Tachyon.Props.C75_zp", "Tachyon.Props.C75_disjoint", "Tachyon.Props.C75_split", "Tachyon.Props.C75_split_partition", "Tachyon.Props.C75_split_fails", "Tachyon.Props.C75_selectorsAt", "Tachyon.Props.C75_onCoset", "Tachyon.Props.C75_onCoset_member", "Tachyon.Props.C75_onCoset_sizes", "Tachyon.Props.C75_onCoset_checks"], "note": "Points of an extension field and elements of the base field are in one field; kSubgroupGenerator is a parameter."},
  {"property": "C76", "status": "proved", "theorems": ["Tachyon.Props.C76_foldMatrix", "Tachyon.Props.C76_foldRow", "Tachyon.Props.C76_one_row", "Tachyon.Props.C76_honest", "Tachyon.Props.C76_complete", "Tachyon.Props.C76_constant_input", "Tachyon.Props.C76_accepted", "Tachyon.Props.C76_accept", "Tachyon.Props.C76_count", "Tachyon.Props.C76_sound", "Tachyon.Props.C76_cancel", "Tachyon.Props.C76_roots", "Tachyon.Props.C76_merkle", "Tachyon.Props.C76_merkle_binding", "Tachyon.Props.C76_merkle_not_binding"], "note": "Challenger and commitment scheme are records with laws (C48, C65). Soundness counts challenges with all places queried; the proximity gap for few queries is not proved."},
  {"property": "C77", "status": "proved", "theorems": ["Tachyon.Props.C77_interpolate", "Tachyon.Props.C77_interpolate_in_coset", "Tachyon.Props.C77_dot", "Tachyon.Props.C77_dot_no_columns", "Tachyon.Props.C77_denominators", "Tachyon.Props.C77_one_row", "Tachyon.Props.C77_commit", "Tachyon.Props.C77_commit_ok", "Tachyon.Props.C77_complete", "Tachyon.Props.C77_verifier", "Tachyon.Props.C77_combination", "Tachyon.Props.C77_values_combined", "Tachyon.Props.C77_forge", "Tachyon.Props.C77_merkle"], "note": "Everything is in the extension field (base field elements by their images). Commitment scheme and challenger are records with laws (C48, C65). The bound on challenges is about the combination; it is not composed with the FRI soundness of C76."},
  {"property": "C78", "status": "proved", "theorems": ["Tachyon.Props.C78_setup", "Tachyon.Props.C78_setup_size", "Tachyon.Props.C78_scheme", "Tachyon.Props.C78_new", "Tachyon.Props.C78_commit", "Tachyon.Props.C78_commitLagrange", "Tachyon.Props.C78_downsize", "Tachyon.Props.C78_downsize_lagrange", "Tachyon.Props.C78_batch", "Tachyon.Props.C78_batch_store", "Tachyon.Props.C78_batch_stuck", "Tachyon.Props.C78_groups", "Tachyon.Props.C78_gwc_equation", "Tachyon.Props.C78_gwc_complete", "Tachyon.Props.C78_gwc_sound", "Tachyon.Props.C78_reloaded", "Tachyon.Props.C78_reloaded_rejects"], "note": "Groups and pairing are abstract (modules over the scalar field, a bilinear map that is not degenerate). Soundness is for proofs whose commitments are to known polynomials, and counts challenges and secrets; the transcript is not a random oracle here."},
  {"property": "C79", "status": "proved", "theorems": ["Tachyon.Props.C79_groups", "Tachyon.Props.C79_equation", "Tachyon.Props.C79_empty", "Tachyon.Props.C79_complete", "Tachyon.Props.C79_sound", "Tachyon.Props.C79_first_only", "Tachyon.Props.C79_conflict", "Tachyon.Props.C79_pointers", "Tachyon.Props.C79_reloaded_rejects"], "note": "As for C78: abstract groups and pairing, proofs whose commitments are to known polynomials, challenges and secrets counted."},
  {"property": "C80", "status": "proved", "theorems": ["Tachyon.Props.C80_new", "Tachyon.Props.C80_complete", "Tachyon.Props.C80_value", "Tachyon.Props.C80_full", "Tachyon.Props.C80_zero_odd", "Tachyon.Props.C80_equation", "Tachyon.Props.C80_unbound", "Tachyon.Props.C80_leaf", "Tachyon.Props.C80_coset"], "note": "The transcript is abstract; soundness is the exact acceptance condition, and a finding shows why the index is not bound."},
  {"property": "C81", "status": "proved", "theorems": ["Tachyon.Props.C81_order", "Tachyon.Props.C81_deduplicate", "Tachyon.Props.C81_search", "Tachyon.Props.C81_term", "Tachyon.Props.C81_values", "Tachyon.Props.C81_merge", "Tachyon.Props.C81_isSorted"], "note": ""},
  {"property": "C82", "status": "proved", "theorems": ["Tachyon.Props.C82_build", "Tachyon.Props.C82_create", "Tachyon.Props.C82_enforce", "Tachyon.Props.C82_goal", "Tachyon.Props.C82_assign", "Tachyon.Props.C82_value", "Tachyon.Props.C82_satisfied", "Tachyon.Props.C82_satisfied_final", "Tachyon.Props.C82_inline", "Tachyon.Props.C82_outline", "Tachyon.Props.C82_finalize", "Tachyon.Props.C82_matrices", "Tachyon.Props.C82_matrices_none", "Tachyon.Props.C82_used", "Tachyon.Props.C82_zero", "Tachyon.Props.C82_finalize_twice", "Tachyon.Props.C82_forged", "Tachyon.Props.C82_value_setup"], "note": "The size_t arithmetic of the cost in OutlineLCs is not wrapped; CountNonZero's int accumulator is not modelled."},
  {"property": "C83", "status": "proved", "theorems": ["Tachyon.Props.C83_instance", "Tachyon.Props.C83_interp", "Tachyon.Props.C83_combine", "Tachyon.Props.C83_witness", "Tachyon.Props.C83_sound", "Tachyon.Props.C83_hQuery", "Tachyon.Props.C83_small"], "note": "Radix-2 domains only."},
  {"property": "C84", "status": "proved", "theorems": ["Tachyon.Props.C84_run", "Tachyon.Props.C84_same", "Tachyon.Props.C84_setting", "Tachyon.Props.C84_keys", "Tachyon.Props.C84_no_point", "Tachyon.Props.C84_equation", "Tachyon.Props.C84_verify", "Tachyon.Props.C84_prove", "Tachyon.Props.C84_complete", "Tachyon.Props.C84_sound", "Tachyon.Props.C84_zero_knowledge", "Tachyon.Props.C84_rerandomize", "Tachyon.Props.C84_rerandomize_abort", "Tachyon.Props.C84_gamma"], "note": "Soundness is for provers that follow CreateProofWithAssignment with any values; knowledge soundness against arbitrary provers is a cryptographic assumption and not stated."},
  {"property": "C85", "status": "proved", "theorems": ["Tachyon.Props.C85_tower", "Tachyon.Props.C85_line", "Tachyon.Props.C85_bn", "Tachyon.Props.C85_bls", "Tachyon.Props.C85_bn_append", "Tachyon.Props.C85_bls_append", "Tachyon.Props.C85_zero", "Tachyon.Props.C85_bn_neg", "Tachyon.Props.C85_bls_neg", "Tachyon.Props.C85_length", "Tachyon.Props.C85_ateLoopCount", "Tachyon.Props.C85_ateLoopCount_negative", "Tachyon.Props.C85_negative_not_bilinear", "Tachyon.Props.C85_top_bit_needed"], "note": "Bilinearity and non-degeneracy of the ate pairing (divisor theory) are not proved; the theorem says which function is evaluated. For BN curves, that Frobenius acts as p on the second subgroup is a hypothesis on the points. For BLS12 the top bit of kX must be set."},
  {"property": "C86", "status": "proved", "theorems": ["Tachyon.Props.C86_bn", "Tachyon.Props.C86_bls", "Tachyon.Props.C86_zero"], "note": ""},
  {"property": "C87", "status": "proved", "theorems": ["Tachyon.Props.C87_zeta", "Tachyon.Props.C87_denominators", "Tachyon.Props.C87_extended", "Tachyon.Props.C87_coeff", "Tachyon.Props.C87_round_trip", "Tachyon.Props.C87_quotient", "Tachyon.Props.C87_exact", "Tachyon.Props.C87_parts", "Tachyon.Props.C87_parts_fail", "Tachyon.Props.C87_pieces", "Tachyon.Props.C87_expected", "Tachyon.Props.C87_complete", "Tachyon.Props.C87_sound", "Tachyon.Props.C87_instance"], "note": ""},
  {"property": "C88", "status": "proved", "theorems": ["Tachyon.Props.C88_select", "Tachyon.Props.C88_column", "Tachyon.Props.C88_shuffles_fail", "Tachyon.Props.C88_expected", "Tachyon.Props.C88_degree", "Tachyon.Props.C88_complete", "Tachyon.Props.C88_challenge", "Tachyon.Props.C88_rows", "Tachyon.Props.C88_sound"], "note": ""},
  {"property": "C89", "status": "proved", "theorems": ["Tachyon.Props.C89_exclusive", "Tachyon.Props.C89_compress", "Tachyon.Props.C89_map", "Tachyon.Props.C89_gates", "Tachyon.Props.C89_lookups", "Tachyon.Props.C89_degree", "Tachyon.Props.C89_degree_fails"], "note": ""},
  {"property": "C90", "status": "proved", "theorems": ["Tachyon.Props.C90_identifier", "Tachyon.Props.C90_simple", "Tachyon.Props.C90_map", "Tachyon.Props.C90_inputs", "Tachyon.Props.C90_chunk", "Tachyon.Props.C90_map_meaning", "Tachyon.Props.C90_lookups", "Tachyon.Props.C90_tables_fails", "Tachyon.Props.C90_width_fails", "Tachyon.Props.C90_scaled_fails", "Tachyon.Props.C90_constants_fails", "Tachyon.Props.C90_degree_fails"], "note": ""},
  {"property": "C91", "status": "proved", "theorems": ["Tachyon.Props.C91_plan", "Tachyon.Props.C91_order", "Tachyon.Props.C91_bound", "Tachyon.Props.C91_v1", "Tachyon.Props.C91_v1_cells", "Tachyon.Props.C91_simple", "Tachyon.Props.C91_simple_cells"], "note": ""},
  {"property": "C92", "status": "proved", "theorems": ["Tachyon.Props.C92_calls", "Tachyon.Props.C92_assembly", "Tachyon.Props.C92_cells", "Tachyon.Props.C92_table", "Tachyon.Props.C92_table_rows", "Tachyon.Props.C92_table_full", "Tachyon.Props.C92_table_twice", "Tachyon.Props.C92_advice", "Tachyon.Props.C92_export", "Tachyon.Props.C92_unusable"], "note": ""},
  {"property": "C93", "status": "proved", "theorems": ["Tachyon.Props.C93_transcript", "Tachyon.Props.C93_instances", "Tachyon.Props.C93_challenges", "Tachyon.Props.C93_openings", "Tachyon.Props.C93_shapes", "Tachyon.Props.C93_gwc", "Tachyon.Props.C93_shplonk", "Tachyon.Props.C93_order"], "note": ""},
  {"property": "C94", "status": "proved", "theorems": ["Tachyon.Props.C94_evaluate", "Tachyon.Props.C94_compact", "Tachyon.Props.C94_sum", "Tachyon.Props.C94_normal", "Tachyon.Props.C94_uninitialised", "Tachyon.Props.C94_sub_self", "Tachyon.Props.C94_conflict", "Tachyon.Props.C94_negate", "Tachyon.Props.C94_eq", "Tachyon.Props.C94_index", "Tachyon.Props.C94_degree"], "note": ""},
  {"property": "C95", "status": "proved", "theorems": ["Tachyon.Props.C95_group", "Tachyon.Props.C95_number", "Tachyon.Props.C95_double", "Tachyon.Props.C95_checks", "Tachyon.Props.C95_antipode", "Tachyon.Props.C95_scalarMul", "Tachyon.Props.C95_g1_generates", "Tachyon.Props.C95_g1_scalars", "Tachyon.Props.C95_g4_generates", "Tachyon.Props.C95_montConstant", "Tachyon.Props.C95_even_modulus", "Tachyon.Props.C95_fr4"], "note": ""},
  {"property": "C96", "status": "proved", "theorems": ["Tachyon.Props.C96_toEll_iff", "Tachyon.Props.C96_toCsr", "Tachyon.Props.C96_toEll", "Tachyon.Props.C96_toEll_shift", "Tachyon.Props.C96_ell_sort", "Tachyon.Props.C96_csr_sort_defined", "Tachyon.Props.C96_csr_sort", "Tachyon.Props.C96_csr_isSorted_ptrs", "Tachyon.Props.C96_csr_isSorted_true", "Tachyon.Props.C96_ell_maxCols_none", "Tachyon.Props.C96_ell_maxCols", "Tachyon.Props.C96_csr_maxCols", "Tachyon.Props.C96_maxCols_eq", "Tachyon.Props.C96_nonZeros", "Tachyon.Props.C96_toEigen", "Tachyon.Props.C96_toEigen_empty", "Tachyon.Props.C96_eigen_entries", "Tachyon.Props.C96_eigen_roundtrip"], "note": ""},
  {"property": "C97", "status": "proved", "theorems": ["Tachyon.Props.C97_ab", "Tachyon.Props.C97_domain", "Tachyon.Props.C97_largest", "Tachyon.Props.C97_witness", "Tachyon.Props.C97_witness_zero", "Tachyon.Props.C97_quotient", "Tachyon.Props.C97_lagrange", "Tachyon.Props.C97_check", "Tachyon.Props.C97_complete", "Tachyon.Props.C97_sound", "Tachyon.Props.C97_circuit", "Tachyon.Props.C97_circuit_same"], "note": ""},
  {"property": "C98", "status": "proved", "theorems": ["Tachyon.Props.C98_wtns", "Tachyon.Props.C98_r1cs", "Tachyon.Props.C98_zkey", "Tachyon.Props.C98_nullptr", "Tachyon.Props.C98_safe", "Tachyon.Props.C98_file", "Tachyon.Props.C98_wtns_file", "Tachyon.Props.C98_r1cs_file", "Tachyon.Props.C98_zkey_file", "Tachyon.Props.C98_prover", "Tachyon.Props.C98_size_ignored", "Tachyon.Props.C98_size_wraps", "Tachyon.Props.C98_instance"], "note": ""},
  {"property": "C99", "status": "proved", "theorems": ["Tachyon.Props.C99_fromUint512", "Tachyon.Props.C99_zmod", "Tachyon.Props.C99_read_point", "Tachyon.Props.C99_stands", "Tachyon.Props.C99_compressed", "Tachyon.Props.C99_uncompressed", "Tachyon.Props.C99_legacy_zero", "Tachyon.Props.C99_checkBits", "Tachyon.Props.C99_checkBits_exact", "Tachyon.Props.C99_malleable", "Tachyon.Props.C99_bn254_noncanonical", "Tachyon.Props.C99_sync", "Tachyon.Props.C99_writer_fails", "Tachyon.Props.C99_blake2b", "Tachyon.Props.C99_blake2b_zero", "Tachyon.Props.C99_sha256", "Tachyon.Props.C99_poseidon", "Tachyon.Props.C99_poseidon_ambiguous", "Tachyon.Props.C99_simple", "Tachyon.Props.C99_example_serializes"], "note": ""},
  {"property": "C100", "status": "proved", "theorems": ["Tachyon.Props.C100_expected", "Tachyon.Props.C100_gwc", "Tachyon.Props.C100_shplonk", "Tachyon.Props.C100_honest", "Tachyon.Props.C100_complete"], "note": ""},
  {"property": "C101", "status": "proved", "theorems": ["Tachyon.Props.C101_xor_stream", "Tachyon.Props.C101_xor_refuse", "Tachyon.Props.C101_xor_cycle", "Tachyon.Props.C101_xor_nonzero", "Tachyon.Props.C101_xor_zeros", "Tachyon.Props.C101_xor_buffer", "Tachyon.Props.C101_chacha_stream", "Tachyon.Props.C101_chacha_refuse", "Tachyon.Props.C101_chacha_blocks", "Tachyon.Props.C101_chacha_reseed", "Tachyon.Props.C101_chacha_buffer", "Tachyon.Props.C101_chacha_index", "Tachyon.Props.C101_uint64", "Tachyon.Props.C101_field", "Tachyon.Props.C101_uniform"], "note": ""},
  {"property": "C102", "status": "proved", "theorems": ["Tachyon.Props.C102_commit", "Tachyon.Props.C102_refuse", "Tachyon.Props.C102_linear", "Tachyon.Props.C102_hiding", "Tachyon.Props.C102_binding", "Tachyon.Props.C102_binding_log", "Tachyon.Props.C102_batch", "Tachyon.Props.C102_unblinded", "Tachyon.Props.C102_batch_checks", "Tachyon.Props.C102_batch_zero", "Tachyon.Props.C102_setup", "Tachyon.Props.C102_copy"], "note": ""},
  {"property": "C103", "status": "proved", "theorems": ["Tachyon.Props.C103_satisfied", "Tachyon.Props.C103_sizes", "Tachyon.Props.C103_one_row", "Tachyon.Props.C103_last_row_free", "Tachyon.Props.C103_challenge", "Tachyon.Props.C103_degree"], "note": ""},
  {"property": "C104", "status": "proved", "theorems": ["Tachyon.Props.C104_query", "Tachyon.Props.C104_nodup", "Tachyon.Props.C104_foreign", "Tachyon.Props.C104_counts", "Tachyon.Props.C104_indices", "Tachyon.Props.C104_phases", "Tachyon.Props.C104_phase_order", "Tachyon.Props.C104_equality", "Tachyon.Props.C104_enable", "Tachyon.Props.C104_blinding", "Tachyon.Props.C104_stale", "Tachyon.Props.C104_order", "Tachyon.Props.C104_order_index"], "note": ""},
  {"property": "C105", "status": "proved", "theorems": ["Tachyon.Props.C105_elements", "Tachyon.Props.C105_isEmpty", "Tachyon.Props.C105_intersect", "Tachyon.Props.C105_open_not_empty", "Tachyon.Props.C105_reversed", "Tachyon.Props.C105_largest", "Tachyon.Props.C105_limits"], "note": ""},
  {"property": "C106", "status": "proved", "theorems": ["Tachyon.Props.C106_fib1_sound", "Tachyon.Props.C106_fib1_complete", "Tachyon.Props.C106_fib1", "Tachyon.Props.C106_fib2", "Tachyon.Props.C106_isZero", "Tachyon.Props.C106_fib3", "Tachyon.Props.C106_fib3_equal", "Tachyon.Props.C106_simple"], "note": ""},
  {"property": "C107", "status": "proved", "theorems": ["Tachyon.Props.C107_complete", "Tachyon.Props.C107_sound", "Tachyon.Props.C107_reserved", "Tachyon.Props.C107_vanishing"], "note": ""},
  {"property": "C108", "status": "proved", "theorems": ["Tachyon.Props.C108_lookup", "Tachyon.Props.C108_lookup_complete", "Tachyon.Props.C108_shuffle", "Tachyon.Props.C108_shuffle_same", "Tachyon.Props.C108_shuffle_assigned", "Tachyon.Props.C108_sizes", "Tachyon.Props.C108_multi", "Tachyon.Props.C108_multi_complete"], "note": ""},
  {"property": "C109", "status": "proved", "theorems": ["Tachyon.Props.C109_exact", "Tachyon.Props.C109_batch", "Tachyon.Props.C109_injective", "Tachyon.Props.C109_negative_refused", "Tachyon.Props.C109_negative_wide", "Tachyon.Props.C109_negative_big"], "note": ""},
  {"property": "C110", "status": "proved", "theorems": ["Tachyon.Props.C110_chunks", "Tachyon.Props.C110_join", "Tachyon.Props.C110_zero", "Tachyon.Props.C110_overflow", "Tachyon.Props.C110_distance", "Tachyon.Props.C110_distance_negative"], "note": ""},
  {"property": "C111", "status": "proved", "theorems": ["Tachyon.Props.C111_list"], "note": ""},
  {"property": "C112", "status": "proved", "theorems": ["Tachyon.Props.C112_add", "Tachyon.Props.C112_add_overflow", "Tachyon.Props.C112_sub", "Tachyon.Props.C112_negate", "Tachyon.Props.C112_negate_zero", "Tachyon.Props.C112_negate_zero_add", "Tachyon.Props.C112_inverse", "Tachyon.Props.C112_inverse_zero", "Tachyon.Props.C112_inverse_negate_zero"], "note": ""},
  {"property": "C113", "status": "proved", "theorems": ["Tachyon.Props.C113_mulLimbs", "Tachyon.Props.C113_mul", "Tachyon.Props.C113_mul_negate_zero", "Tachyon.Props.C113_mul_inverse"], "note": ""},
  {"property": "C114", "status": "proved", "theorems": ["Tachyon.Props.C114_known", "Tachyon.Props.C114_unknown", "Tachyon.Props.C114_unknown_run", "Tachyon.Props.C114_eq", "Tachyon.Props.C114_ne"], "note": ""},
  {"property": "C115", "status": "proved", "theorems": ["Tachyon.Props.C115_forEach", "Tachyon.Props.C115_distance"], "note": ""},
  {"property": "C116", "status": "proved", "theorems": ["Tachyon.Props.C116_maybe_owned", "Tachyon.Props.C116_maybe_owned_no_alias", "Tachyon.Props.C116_maybe_owned_self_move"], "note": ""}
]}
