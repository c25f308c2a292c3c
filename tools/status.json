{
 "C01": {
  "note": "Any word width and limb count. The clang/x86 intrinsic paths are modelled by the same portable word formula; C01_portable_borrow_inverted records that the portable 64-bit SubWithBorrow (not compiled on supported platforms) returns the inverted borrow."
 },
 "C02": {
  "note": "MulBy2, DivBy2, << and >> for every amount."
 },
 "C03": {
  "note": ""
 },
 "C04": {
  "note": ""
 },
 "C05": {
  "note": ""
 },
 "C07": {
  "note": "64-bit and 32-bit entry points; modulus inverse constant proved from Modulus::Inverse."
 },
 "C08": {
  "note": "Both multiplication paths and the dedicated squaring."
 },
 "C09": {
  "note": ""
 },
 "C10": {
  "note": ""
 },
 "C06": {
  "note": "Little-endian host. Inputs longer than the capacity are shown to be out-of-bounds writes (none)."
 },
 "C21": {
  "note": "All values except 2^(64N)-1; C21_naf_all_ones shows that the all-ones value is recoded as -1 (carry lost)."
 },
 "C11": {
  "note": "BYInverter (used by PrimeField::Inverse) and BigInt::MontgomeryInverse. The left shift of negative int64_t in Jump is multiplication (undefined before C++20). The bound on the number of iterations is proved here by a quadratic form, not taken from the literature."
 },
 "C12": {
  "note": "BabyBear, KoalaBear (32-bit Montgomery), Mersenne31 and the default 32-bit prime field; Goldilocks not modelled. The default Reduce64 is proved wrong for products above 2p (only reachable for tiny test fields, see DESIGN.md)."
 },
 "C14": {
  "note": "Over any correct base field implementation; instances for 32-bit Montgomery fields, Mersenne31, GF7 and generic limb fields. C14_aliased_mul_wrong: x *= x through MulInPlace with an aliased operand computes a wrong product."
 },
 "C15": {
  "note": "All multiplication/squaring/inversion formulas, norm = x^(1+p+p^2)."
 },
 "C16": {
  "note": "Quartic extension with Toom-Cook multiplication and Frobenius based inversion; BabyBear4 instantiated completely."
 },
 "C17": {
  "note": ""
 },
 "C18": {
  "note": "Under the exact subgroup hypothesis x^(p^4) * x = x^(p^2); C18_outside shows the hypothesis is needed."
 },
 "C52": {
  "note": "All tower configurations, every exponent; C52_m31_fq4_wrong shows the table of m31::Fq4 is wrong."
 },
 "C45": {
  "note": "Chunk arithmetic with size_t wrap-around; C45_interleaving covers every interleaving of the element writes. C45_threshold_ignored: GetNumElementsPerThread does not use its threshold. C45_resizeWith_shrink: the initialising resize underflows when shrinking."
 },
 "C53": {
  "note": "ReverseBitsLen is undefined for length 0, which callers reach with a domain of size one."
 },
 "C22": {
  "note": "Any thread count below 128; C22_threads_undefined: from 128 threads on the size test shifts by the word size."
 },
 "C23": {
  "note": "Bit-reversed variants for sizes 2^k, k >= 1, chunks in any order; sizes 0 and 1 fail (C23_bitRev_small)."
 },
 "C24": {
  "note": "Shanks and Tonelli-Shanks over every finite field satisfying the stated constants; termination included."
 },
 "C51": {
  "note": ""
 },
 "C54": {
  "note": ""
 },
 "C25": {
  "note": "Doubling for a = 0 (all shipped curves); addition of distinct points for every a. C25_double_wrong: doubling is wrong for a != 0. Characteristic other than two."
 },
 "C26": {
  "note": "Every curve."
 },
 "C27": {
  "note": "Every curve; zz^3 = zzz^2 is preserved."
 },
 "C28": {
  "note": "Including ScalarMul and BatchMapScalarFieldToPoint with any thread count."
 },
 "C29": {
  "note": "C29_xyzz_shortcut_wrong: XYZZ conversions are wrong when zz = 1 and zzz = -1. C29_origin_wrong: b != 0 is needed."
 },
 "C30": {
  "note": "All four coordinate systems."
 },
 "C55": {
  "note": "C55_xyzz_unchecked: the XYZZ test does not read zz when a = 0."
 },
 "C56": {
  "note": "Instantiated with Shanks' square root for primes 3 mod 4."
 },
 "C31": {
  "note": "Any implementation of an abelian group; LnWithoutFloats (floating point) is an arbitrary function with values at most 60. Instance for affine points with XYZZ buckets on any curve. C31_threads_not_restored is a finding. GPU (icicle) paths not modelled."
 },
 "C32": {
  "note": "C32_wide_undefined shows that the bound on the width is needed."
 },
 "C33": {
  "note": "Same parameterisation as C31; instance for affine points (Jacobian results, a = 0)."
 },
 "C34": {
  "note": "GMP integers are mathematical integers; GetNumBits is 64 times the number of limbs as in gmp_util.cc. C34_mul_wrong shows that the condition on the limb counts is needed."
 },
 "C35": {
  "note": "Over any field. The MaxDegree checks of the constructors are left out. Sorting of the terms of a product is modelled by insertion sort (the degrees are distinct)."
 },
 "C36": {
  "note": "C36_zero_dividend_wrong is a finding: 0 divided by g has remainder g."
 },
 "C37": {
  "note": "C37_sparse_undefined shows that the condition on the degrees is needed."
 },
 "C40": {
  "note": "C40_duplicate_wrong and C40_empty_undefined show that the conditions on the points are needed."
 },
 "C57": {
  "note": ""
 },
 "C58": {
  "note": "C58_dense_odd is a finding: dense polynomials of even degree are read out of bounds."
 },
 "C38": {
  "note": "Parallel loops run in an arbitrary order. The CUDA parts are not modelled."
 },
 "C39": {
  "note": "At most 127 threads, as for BatchInverse (C22)."
 },
 "C59": {
  "note": "std::pow on doubles is modelled by integer powers."
 },
 "C60": {
  "note": "C60_stale and C60_size_one are findings."
 },
 "C61": {
  "note": "C61_coset_wrong is a finding."
 },
 "C62": {
  "note": "Packed fields are modelled as lanes of columns. C62_single_row and C62_reverse_dropped are findings."
 },
 "C63": {
  "note": "std::pow on doubles is modelled by integer powers. C63_wrong_three, C63_wrong_six, C63_max_degree and C63_truncated are findings."
 },
 "C64": {
  "note": "C64_not_transitive and C64_div_modifies are findings."
 },
 "C41": {
  "note": "Sizes below 2^63. C41_inner_node, C41_single_leaf and C41_threshold_one are findings."
 },
 "C65": {
  "note": "base::StableSort is represented by insertion sort. C65_widths_unchecked, C65_length_unchecked, C65_open_out_of_bounds and C65_release_ignores are findings."
 },
 "C42": {
  "note": "n <= 62 variables; ToBigInt is a parameter with its defining property; F::Random() is universally quantified. C42_constant_dropped, C42_no_terms, C42_key_eq and C42_missing_one are findings."
 },
 "C43": {
  "note": "C43_not_power, C43_eq_not_transitive and C43_mul_not_product are findings."
 },
 "C46": {
  "note": "C46_underflow is a finding."
 },
 "C47": {
  "note": "C47_all and C47_copy_row_bound are findings; the hard-coded delta of bn254 is a parameter."
 },
 "C66": {
  "note": "Rows of the table instead of polynomials: that a polynomial identity on the domain is checked at a random point is the vanishing argument."
 },
 "C67": {
  "note": "As C66; with no usable row the first constraint compares two random values, hence the hypothesis 0 < u."
 },
 "C68": {
  "note": "As C66."
 },
 "C69": {
  "note": "Rows of the table instead of polynomials, as C66."
 },
 "C70": {
  "note": "Expressions as an inductive type; AIR expressions excluded."
 },
 "C50": {
  "note": "IsOne, IsMinusOne, the order and the factor of BatchEvaluate are wrong in the code; proved with witnesses."
 },
 "C44": {
  "note": "Round trip, failure and memory safety for all types; the exceptions in the code are proved with witnesses."
 },
 "C48": {
  "note": "Closed form of the challenges for all histories, buffer bounds, grinding for all schedules; absence of padding and exposure of the capacity proved."
 },
 "C49": {
  "note": "All heights by induction; tables checked completely (the 8-bit product through the generator of its group)."
 },
 "C71": {
  "note": "The permutation is a parameter; serialisation to field elements and bytes/bits excluded."
 },
 "C72": {
  "note": "Eigen's inverse is an oracle with the law inv(M) M = 1 for invertible M; elements drawn by the generator are universally quantified."
 },
 "C73": {
  "note": "The rounds are modelled over a field; the internal layer of unpacked 31-bit fields also on words. Diagonals of Goldilocks, bls12_381 and pallas given as hexadecimal constants are not evaluated."
 },
 "C74": {
  "note": "The loops of rejection sampling have fuel; that there are enough candidates below the modulus is a hypothesis. FromBigInt is C09."
 },
 "C75": {
  "note": "Points of an extension field and elements of the base field are in one field; kSubgroupGenerator is a parameter."
 },
 "C76": {
  "note": "Challenger and commitment scheme are records with laws (C48, C65). Soundness counts challenges with all places queried; the proximity gap for few queries is not proved."
 },
 "C77": {
  "note": "Everything is in the extension field (base field elements by their images). Commitment scheme and challenger are records with laws (C48, C65). The bound on challenges is about the combination; it is not composed with the FRI soundness of C76."
 },
 "C78": {
  "note": "Groups and pairing are abstract (modules over the scalar field, a bilinear map that is not degenerate). Soundness is for proofs whose commitments are to known polynomials, and counts challenges and secrets; the transcript is not a random oracle here."
 },
 "C79": {
  "note": "As for C78: abstract groups and pairing, proofs whose commitments are to known polynomials, challenges and secrets counted."
 },
 "C80": {
  "note": "The transcript is abstract; soundness is the exact acceptance condition, and a finding shows why the index is not bound."
 },
 "C81": {
  "note": ""
 },
 "C82": {
  "note": "The size_t arithmetic of the cost in OutlineLCs is not wrapped; CountNonZero's int accumulator is not modelled."
 },
 "C83": {
  "note": "Radix-2 domains only."
 },
 "C84": {
  "note": "Soundness is for provers that follow CreateProofWithAssignment with any values; knowledge soundness against arbitrary provers is a cryptographic assumption and not stated."
 },
 "C85": {
  "note": "Bilinearity and non-degeneracy of the ate pairing (divisor theory) are not proved; the theorem says which function is evaluated. For BN curves, that Frobenius acts as p on the second subgroup is a hypothesis on the points. For BLS12 the top bit of kX must be set."
 }
}