{"id": "C01", "title": "BigInt addition and subtraction are exact with the reported carry/borrow", "statement": "For two N-limb big integers a and b, a+b with its carry flag c satisfies value(sum)+c*2^(64N) = value(a)+value(b), and a-b with its borrow flag w satisfies value(diff)+value(b) = value(a)+w*2^(64N); the in-place forms return the same result.", "quantifier": "all limb counts N and all pairs of N-limb values", "why_tests_cant": "the carry chain has 2^(128N) inputs; long carry propagations across all limbs are a vanishing fraction of random samples", "anchors": ["tachyon/math/base/big_int.h: BigInt::Add, BigInt::AddInPlace, BigInt::Sub, BigInt::SubInPlace", "tachyon/math/base/arithmetics.h: AddWithCarry, SubWithBorrow"]}
{"id": "C02", "title": "BigInt shifts and doubling/halving are exact", "statement": "MulBy2 returns 2a mod 2^(64N) with the dropped top bit as carry; DivBy2 returns floor(a/2); left/right shift by n bits return a*2^n mod 2^(64N) and floor(a/2^n), and a shift by at least 64N bits gives 0.", "quantifier": "all limb counts, all values, all shift amounts", "why_tests_cant": "shift amounts that are multiples of the limb width or exceed the width are rarely sampled; the claim is for every amount", "anchors": ["tachyon/math/base/big_int.h: MulBy2InPlace, MulByNInPlace, DivBy2InPlace, DivByNInPlace, operator<<, operator>>"]}
{"id": "C03", "title": "BigInt full product is exact", "statement": "Multiply(a,b) returns lo and hi N-limb halves with value(lo)+2^(64N)*value(hi) = value(a)*value(b).", "quantifier": "all limb counts, all pairs of values", "why_tests_cant": "double-length carry interactions cannot be enumerated", "anchors": ["tachyon/math/base/big_int.h: BigInt::Multiply, BigInt::Mul", "tachyon/math/base/arithmetics.h: MulAddWithCarry"]}
{"id": "C04", "title": "BigInt division returns the Euclidean quotient and remainder", "statement": "For non-zero divisor b, Divide(a,b) yields q and r with value(a)=value(q)*value(b)+value(r) and value(r)<value(b); for b=0 it reports failure.", "quantifier": "all limb counts, all pairs of values", "why_tests_cant": "needs the loop invariant for every bit position", "anchors": ["tachyon/math/base/big_int.h: BigInt::Divide, operator/, operator%"]}
{"id": "C05", "title": "BigInt comparison is numeric order", "statement": "operator<, <=, >, >=, ==, != on big integers agree with the order of the represented naturals.", "quantifier": "all limb counts and pairs", "why_tests_cant": "lexicographic comparison bugs show only on particular limb patterns", "anchors": ["tachyon/math/base/big_int.h: operator==, operator<, operator>, operator<=, operator>="]}
{"id": "C06", "title": "BigInt byte and bit serialisations round-trip", "statement": "FromBytesLE(ToBytesLE(a))=a, FromBytesBE(ToBytesBE(a))=a, FromBitsLE/BE likewise; shorter inputs decode to the number they spell; byte i of ToBytesLE is floor(a/256^i) mod 256.", "quantifier": "all limb counts, all values, all input lengths up to the capacity", "why_tests_cant": "round trips must hold for every value and every short input length", "anchors": ["tachyon/math/base/big_int.h: ToBytesLE, ToBytesBE, FromBytesLE, FromBytesBE, ToBitsLE, FromBitsLE, FromBitsBE"]}
{"id": "C07", "title": "Montgomery reduction computes T*R^-1 mod M, canonical", "statement": "For an odd modulus M and every double-width T < M*R, MontgomeryReduce returns the unique r < M with r*R congruent to T modulo M (for moduli with and without a spare top bit).", "quantifier": "all limb counts, all odd moduli, all T < M*R", "why_tests_cant": "the off-by-one-modulus final subtraction is hit with probability ~2^-64 on real moduli", "anchors": ["tachyon/math/base/big_int.h: MontgomeryReduce, Clamp", "tachyon/math/finite_fields/modulus.h: Modulus::Inverse, MontgomeryR, MontgomeryR2"]}
{"id": "C08", "title": "Montgomery field multiplication and squaring implement multiplication mod p", "statement": "For field elements x,y stored in Montgomery form, x*y and x.Square() represent the product modulo p and the stored word stays below p; the no-carry fast path and the general path give the same stored value.", "quantifier": "all odd moduli with the stated spare-bit condition, all pairs of canonical elements", "why_tests_cant": "fast/slow divergence occurs only when intermediate carries line up", "anchors": ["tachyon/math/finite_fields/prime_field_fallback.h: DoMul, FastMulInPlace, SlowMulInPlace, SquareImpl"]}
{"id": "C09", "title": "Montgomery conversion round-trips and is a ring homomorphism", "statement": "ToBigInt(FromBigInt(v))=v for v<p, ToBigInt is injective on canonical elements, and ToBigInt(x op y)=(ToBigInt(x) op ToBigInt(y)) mod p for +,-,*; One and Zero convert to 1 and 0.", "quantifier": "all moduli, all values below p", "why_tests_cant": "must hold for every element", "anchors": ["tachyon/math/finite_fields/prime_field_fallback.h: FromBigInt, ToBigInt, One, Zero", "tachyon/math/base/big_int.h: FromMontgomery"]}
{"id": "C10", "title": "Field addition, subtraction, negation and doubling are canonical mod p", "statement": "For canonical stored a,b<p the results of +,-,unary -,Double are canonical and congruent to the exact integer result, in both the spare-bit and no-spare-bit configurations.", "quantifier": "all moduli p < 2^(64N), all canonical pairs", "why_tests_cant": "boundary sums equal to p, 2^(64N) carries", "anchors": ["tachyon/math/finite_fields/prime_field_fallback.h: Add, AddInPlace, DoubleImpl, Sub, Negate"]}
{"id": "C11", "title": "Field inversion returns the multiplicative inverse, and reports failure exactly on zero", "statement": "For every non-zero element a of the prime field, Inverse() returns the canonical b with a*b=1; for zero it returns nullopt. The inverter by division steps (BYInverter) ends on every input for every odd modulus M and adjusting parameter A < M, without signed overflow: it returns the number r < M with r*x = A mod M if the input x is coprime to M and false otherwise. The binary extended Euclid (MontgomeryInverse) ends for operands coprime to the modulus; for non-zero operands that are not, it never ends.", "quantifier": "all odd moduli of fewer than 2^50 limbs, all inputs (not only canonical ones), all adjusting parameters less than the modulus", "why_tests_cant": "termination and correctness of a data-dependent loop", "anchors": ["tachyon/math/base/byinverter.h", "tachyon/math/base/big_int.h: MontgomeryInverse", "tachyon/math/finite_fields/prime_field_fallback.h: Inverse, InverseInPlace"]}
{"id": "C12", "title": "Small prime field operations are exact and canonical", "statement": "For 32-bit primes (Montgomery: BabyBear, KoalaBear; plain: Mersenne31, generic small field) +,-,*,negation, inverse return canonical words representing the exact result mod p.", "quantifier": "all canonical words and all admissible primes below 2^31", "why_tests_cant": "2^62 operand pairs per operation per prime", "anchors": ["tachyon/math/finite_fields/small_prime_field_mont.h", "tachyon/math/finite_fields/small_prime_field.h", "tachyon/math/finite_fields/generator/prime_field_generator/small_prime_field_config.h.tpl"]}
{"id": "C13", "title": "Packed SIMD lanes agree with the scalar field", "statement": "Every lane of the packed Add/Sub/Neg/Mul for 31-bit primes returns the same canonical word as the scalar operation on that lane.", "quantifier": "all canonical lane words, all primes below 2^31", "why_tests_cant": "vector tricks (unsigned min, sign, signed high product) depend on wraparound edge cases", "anchors": ["tachyon/math/finite_fields/packed_prime_field32_avx2.h", "tachyon/math/finite_fields/mersenne31/internal/packed_mersenne31_avx2.cc"]}
{"id": "C14", "title": "Quadratic extension arithmetic is arithmetic in F[x]/(x^2-q)", "statement": "Multiplication (both paths), squaring (both paths), inversion, norm, conjugation and negation of quadratic-extension elements equal the corresponding operation on residue classes of polynomials mod x^2-q; inversion fails exactly when the norm is zero.", "quantifier": "all base fields, all non-residues q, all elements", "why_tests_cant": "polynomial identity over an infinite family of fields", "anchors": ["tachyon/math/finite_fields/quadratic_extension_field.h: DoMul, DoSquareImpl, DoInverse, Norm, ConjugateInPlace"]}
{"id": "C15", "title": "Cubic extension arithmetic is arithmetic in F[x]/(x^3-q)", "statement": "Karatsuba multiplication, CH-SQR2 squaring and inversion of cubic-extension elements agree with polynomial arithmetic mod x^3-q.", "quantifier": "all base fields, q, elements", "why_tests_cant": "polynomial identity over all fields", "anchors": ["tachyon/math/finite_fields/cubic_extension_field.h: DoMul, DoSquareImpl, DoInverse"]}
{"id": "C16", "title": "Quartic extension arithmetic is arithmetic in F[x]/(x^4-q)", "statement": "Toom-style multiplication and squaring of quartic-extension elements agree with polynomial arithmetic mod x^4-q whenever 120 is invertible.", "quantifier": "all base fields of characteristic not dividing 120, q, elements", "why_tests_cant": "identity involving seven evaluation points and eight inverse constants", "anchors": ["tachyon/math/finite_fields/quartic_extension_field.h: DoMul, DoSquareImpl"]}
{"id": "C17", "title": "Sparse tower multiplications equal the dense product", "statement": "Fp6 MulInPlaceBy1/By01 and Fp12 (and Fp6-over-Fp3) MulInPlaceBy034/By014 equal multiplication by the element with those coefficients and zeros elsewhere.", "quantifier": "all fields, non-residues, elements", "why_tests_cant": "used inside pairings where a wrong coefficient is not locally observable", "anchors": ["tachyon/math/finite_fields/fp6.h: MulInPlaceBy1, MulInPlaceBy01, MulInPlaceBy034, MulInPlaceBy014", "tachyon/math/finite_fields/fp12.h: MulInPlaceBy034, MulInPlaceBy014"]}
{"id": "C18", "title": "Fast cyclotomic squaring equals squaring on the cyclotomic subgroup", "statement": "For every Fp12 element a in the order-Phi12(p) cyclotomic subgroup, CyclotomicSquare(a)=a*a, and CyclotomicInverse (conjugation) is the inverse of any element of norm one.", "quantifier": "all towers Fp2/Fp6/Fp12, all cyclotomic elements", "why_tests_cant": "holds only on a subgroup, so random tests cannot tell the formula from a slightly wrong one outside", "anchors": ["tachyon/math/finite_fields/fp12.h: DoFastCyclotomicSquare", "tachyon/math/finite_fields/cyclotomic_multiplicative_subgroup.h"]}
{"id": "C19", "title": "Exponentiation by big integers is exact", "statement": "Pow(e) and the cyclotomic NAF exponentiation return x^e for every exponent that fits the exponent type; PowWithTable over successive squarings returns x^e or fails if the table is too short.", "quantifier": "all monoids, all elements, all exponents and widths", "why_tests_cant": "exponent bit patterns", "anchors": ["tachyon/math/base/semigroups.h: MultiplicativeSemigroup::Pow, PowWithTable", "tachyon/math/finite_fields/cyclotomic_multiplicative_subgroup.h: CyclotomicPow", "tachyon/math/base/big_int.h: ToNAF"]}
{"id": "C20", "title": "Scalar multiplication is exact", "statement": "ScalarMul(k) returns the k-fold sum for every scalar; the big-endian bit loop never depends on leading zero bits.", "quantifier": "all additive groups, all elements, all scalars", "why_tests_cant": "all bit patterns", "anchors": ["tachyon/math/base/semigroups.h: AdditiveSemigroup::ScalarMul, DoScalarMul"]}
{"id": "C21", "title": "NAF recoding is a signed binary representation", "statement": "ToNAF digits are in {-1,0,1}, no two consecutive digits are non-zero, and sum d_i 2^i is the represented value.", "quantifier": "all N, all values that leave room for the carry", "why_tests_cant": "carry into the top limb", "anchors": ["tachyon/math/base/big_int.h: ToNAF"]}
{"id": "C22", "title": "Batch inversion inverts every non-zero entry and leaves zeros", "statement": "BatchInverse(v)[i]=v[i]^-1 for non-zero v[i] and 0 for zero v[i], scaled by the optional coefficient, independent of how the input is split over threads.", "quantifier": "all fields, all input vectors, all chunkings", "why_tests_cant": "mixture of zeros and chunk boundaries", "anchors": ["tachyon/math/base/groups.h: BatchInverse, DoBatchInverse"]}
{"id": "C23", "title": "Successive powers and bit-reversed powers are exact for any thread count", "statement": "GetSuccessivePowers(n,g,c)[i]=c*g^i and GetBitRevIndexSuccessivePowers(n,g)[rev(i)]=g^i for any number of worker chunks.", "quantifier": "all n, g, c, chunk sizes", "why_tests_cant": "parallel chunk boundaries", "anchors": ["tachyon/math/base/semigroups.h: GetSuccessivePowers, GetBitRevIndexSuccessivePowers"]}
{"id": "C24", "title": "Square root returns a root exactly when one exists", "statement": "SquareRoot(a) returns r with r*r=a whenever a is a square (or zero) and nullopt otherwise, for both the p=3 mod 4 shortcut and the Tonelli-Shanks loop.", "quantifier": "all odd primes, all elements", "why_tests_cant": "depends on the 2-adic order of a; high orders are rare", "anchors": ["tachyon/math/finite_fields/square_root_algorithms/shanks.h", "tachyon/math/finite_fields/square_root_algorithms/tonelli_shanks.h"]}
{"id": "C25", "title": "Jacobian addition, mixed addition and doubling compute the group law", "statement": "For points on y^2=x^3+ax+b in Jacobian form, Add, AddInPlace, mixed add with an affine point, subtraction, negation and scalar multiplication denote the elliptic-curve group operations on the points they represent, including zero, equal and opposite operands; Double (and Add of equal points, ScalarMul) does so on curves with a=0. (On curves with a!=0 Double is wrong: a counterexample is proved.)", "quantifier": "all fields of odd characteristic, all curve coefficients, all representatives of all points", "why_tests_cant": "case splits (P=Q, P=-Q, zero) on projective representatives", "anchors": ["tachyon/math/elliptic_curves/short_weierstrass/jacobian_point_impl.h", "tachyon/math/elliptic_curves/short_weierstrass/jacobian_point.h"]}
{"id": "C26", "title": "Projective addition, mixed addition and doubling compute the group law", "statement": "Same as the Jacobian claim for homogeneous projective coordinates.", "quantifier": "all fields, curves, representatives", "why_tests_cant": "case splits on representatives", "anchors": ["tachyon/math/elliptic_curves/short_weierstrass/projective_point_impl.h"]}
{"id": "C27", "title": "XYZZ addition, mixed addition and doubling compute the group law", "statement": "Same as the Jacobian claim for extended-Jacobian (XYZZ) coordinates with zz^3=zzz^2 preserved.", "quantifier": "all fields, curves, representatives", "why_tests_cant": "case splits on representatives", "anchors": ["tachyon/math/elliptic_curves/short_weierstrass/point_xyzz_impl.h"]}
{"id": "C28", "title": "Affine addition and doubling compute the group law", "statement": "Affine + and Double return (as Jacobian points) the group law results on all affine inputs.", "quantifier": "all curves, affine points", "why_tests_cant": "case splits", "anchors": ["tachyon/math/elliptic_curves/short_weierstrass/affine_point.h", "tachyon/math/elliptic_curves/short_weierstrass/affine_point_impl.h"]}
{"id": "C29", "title": "Coordinate conversions preserve the represented point", "statement": "ToAffine/ToProjective/ToJacobian/ToXYZZ between any two coordinate systems denote the same point (to affine: on curves with b!=0), and BatchNormalize equals pointwise ToAffine, with zeros anywhere in the batch and for every thread count below 128. (XYZZ points with zz=1 and zzz=-1, reachable by the library's own additions, are converted to the opposite point: a counterexample is proved.)", "quantifier": "all representatives of all points, all batch sizes", "why_tests_cant": "special cases z=1, zz=1, z=0", "anchors": ["tachyon/math/geometry/point_conversions.h", "tachyon/math/elliptic_curves/short_weierstrass/jacobian_point.h: ToAffine, BatchNormalize", "tachyon/math/elliptic_curves/short_weierstrass/point_xyzz.h: ToAffine"]}
{"id": "C30", "title": "Point equality is equality of represented points", "statement": "operator== on Jacobian/Projective/XYZZ points holds iff the two represent the same curve point.", "quantifier": "all pairs of representatives", "why_tests_cant": "needs scaling-invariance", "anchors": ["tachyon/math/elliptic_curves/short_weierstrass/jacobian_point.h: operator==", "tachyon/math/elliptic_curves/short_weierstrass/projective_point.h: operator==", "tachyon/math/elliptic_curves/short_weierstrass/point_xyzz.h: operator=="]}
{"id": "C31", "title": "Pippenger MSM returns the multi-scalar sum", "statement": "Pippenger::Run on equal-length bases and scalars returns sum_i s_i*P_i, for both the signed-window (NAF) and unsigned-window variants, every window width up to 62 bits, and PippengerAdapter returns the same sum for every strategy and number of threads; bucket indices stay in range; inputs of different lengths are rejected. VariableBaseMSM on affine points returns a point representing the sum. After kParallelWindowAndTerm the number of OpenMP threads is not restored.", "quantifier": "all abelian groups, all lengths, all scalars below the modulus bit bound, all window widths", "why_tests_cant": "digit carries across windows, bucket boundary digits", "anchors": ["tachyon/math/elliptic_curves/msm/algorithms/pippenger/pippenger.h", "tachyon/math/elliptic_curves/msm/algorithms/pippenger/pippenger_base.h", "tachyon/math/elliptic_curves/msm/algorithms/pippenger/pippenger_adapter.h"]}
{"id": "C32", "title": "Signed-window digit decomposition is exact and in range", "statement": "The digits produced for a scalar satisfy sum d_j 2^(jw)=scalar with non-last digits in [-2^(w-1),2^(w-1)) and the last in [0,2^w], without overflow, for widths up to 62; width 63 overflows int64_t.", "quantifier": "all widths 1 <= w <= 62, all scalars below 2^(w*n)", "why_tests_cant": "carry chains", "anchors": ["tachyon/math/elliptic_curves/msm/algorithms/pippenger/pippenger.h: FillDigits"]}
{"id": "C33", "title": "Fixed-base MSM returns s_i*G for each scalar", "statement": "FixedBaseMSM built for base G returns [s_0 G, s_1 G, ...] for windows below 32 bits (window_size is an unsigned int); outputs of another size are rejected.", "quantifier": "all groups, scalar counts, scalars below the modulus bit bound", "why_tests_cant": "last partial window", "anchors": ["tachyon/math/elliptic_curves/msm/fixed_base_msm.h"]}
{"id": "C34", "title": "GLV decomposition and multiplication are exact", "statement": "Decompose(k) gives k1,k2 with k=k1+lambda*k2 mod r, of at most 128 bits for the shipped constants of bn254 and bls12-381; Endomorphism is the group endomorphism (x,y)->(beta x,y) in all coordinate systems; and GLV::Mul(P,k)=k*P when the endomorphism acts as lambda and k1, k2 have the same number of 64-bit limbs or k2=0. With different limb counts Mul is wrong (bn254 G1, k=lambda).", "quantifier": "all lattice bases, scalars, points", "why_tests_cant": "depends on relative bit lengths of k1 and k2", "anchors": ["tachyon/math/elliptic_curves/msm/glv.h: Decompose, Mul", "tachyon/math/base/bit_iterator.h", "tachyon/math/base/gmp/bit_traits.h"]}
{"id": "C35", "title": "Dense and sparse polynomial ring operations are exact and normalised", "statement": "Add, Sub, Negate, Mul, scalar Mul and Div, and conversions (all dense/sparse combinations, returning and in-place) return the mathematically correct polynomial with no leading zero coefficient (sparse: increasing degrees, no zero coefficient), whatever the order in which the parallel loops take the terms.", "quantifier": "all fields, all clean polynomials", "why_tests_cant": "cancellation of leading terms, sparse merging", "anchors": ["tachyon/math/polynomials/univariate/univariate_polynomial_ops.h"]}
{"id": "C36", "title": "Polynomial division returns quotient and remainder", "statement": "For f != 0 and g != 0, Div, Mod, DivMod (dense or sparse f and g) return the clean q=f/g, r=f%g with f=q*g+r and deg r<deg g; division by zero is reported for a dense dividend and for a non-zero sparse one. For f=0 the remainder returned is g, which is wrong.", "quantifier": "all fields, all clean f,g", "why_tests_cant": "zero dividend and degree edge cases", "anchors": ["tachyon/math/polynomials/univariate/univariate_polynomial_ops.h: Divide, DivMod, Mod, Div"]}
{"id": "C37", "title": "Polynomial evaluation is exact for any parallel split", "statement": "Evaluate(x) equals sum c_i x^i for dense polynomials (chunked Horner, any number of threads) and for sparse polynomials whose degrees are below the characteristic; for other sparse polynomials the exponent is not a field element and there is no defined result.", "quantifier": "all polynomials, points, chunkings", "why_tests_cant": "chunk offset exponents", "anchors": ["tachyon/math/polynomials/univariate/univariate_dense_coefficients.h: DoEvaluate", "tachyon/math/polynomials/univariate/univariate_sparse_coefficients.h: Evaluate"]}
{"id": "C38", "title": "FFT evaluates on the domain, IFFT interpolates", "statement": "FFT(f)[i]=f(h*g^i) for all i<n, IFFT(e) is the clean polynomial of degree < n with the values e, IFFT(FFT(f))=f and FFT(IFFT(e))=e (the empty vector if e is all zero), for radix-2 domains of any size 2^k, any coset offset, any order of the parallel iterations, including the degree-aware shortcut for short inputs; too many coefficients are rejected.", "quantifier": "all fields with a primitive 2^k-th root, all k<=63, all polynomials of degree < n, all offsets, all schedules", "why_tests_cant": "degree-aware shortcut skips rounds depending on the input length", "anchors": ["tachyon/math/polynomials/univariate/radix2_evaluation_domain.h: DegreeAwareFFTInPlace, InOrderIFFTInPlace, ApplyButterfly", "tachyon/math/polynomials/univariate/univariate_evaluation_domain.h: FFT, IFFT"]}
{"id": "C39", "title": "Lagrange coefficients of a domain are correct at every point", "statement": "EvaluatePartialLagrangeCoefficients(tau, range)[i]=L_{start+i}(tau), both for tau inside and outside the (coset) domain and ranges that wrap around; hence sum_i L_i(tau) e_i = IFFT(e)(tau). The vanishing polynomial is the product of X - x over the domain.", "quantifier": "all domains, offsets, tau", "why_tests_cant": "tau on the domain is a measure-zero case", "anchors": ["tachyon/math/polynomials/univariate/univariate_evaluation_domain.h: EvaluatePartialLagrangeCoefficients, GetElement, EvaluateVanishingPolynomial"]}
{"id": "C40", "title": "Interpolation through distinct points returns the interpolating polynomial", "statement": "LagrangeInterpolate(points,evals) with n>=1 distinct points returns the unique polynomial of degree < n through the points, for any number of threads, and fails if lengths differ. With repeated points it reports success with a wrong polynomial; with no points it reads out of bounds.", "quantifier": "all fields, all point sets with distinct abscissae", "why_tests_cant": "size and ordering dependence", "anchors": ["tachyon/math/polynomials/univariate/lagrange_interpolation.h"]}
{"id": "C41", "title": "Binary Merkle tree openings verify and bind", "statement": "Committing to 2^k leaves (k>=1) stores at the root the recursive hash; an opening created for index i verifies for leaf i; and two openings of equal length and direction verifying different leaf hashes against one root yield a hash collision. The result does not depend on the parallelisation threshold, as long as it is at least two. A single leaf or the threshold one make Commit read past its storage, and the verifier does not check the height.", "quantifier": "all k>=1, all leaves, all hash functions, all indices, all thresholds that are powers of two from two", "why_tests_cant": "binding is a for-all-proofs statement", "anchors": ["tachyon/crypto/commitments/merkle_tree/binary_merkle_tree/binary_merkle_tree.h: DoCommit, DoCreateOpeningProof, DoVerifyOpeningProof, BuildTreeFromLeaves"]}
{"id": "C42", "title": "Sumcheck: completeness, soundness and interpolation", "statement": "For a linear combination of products of multilinear tables, Combine is the sum over the hypercube and Evaluate the value at a point, for any number of threads; the honest prover's messages make the verifier accept for every choice of challenges and the subclaim is the value of the polynomial there; InterpolateUniPoly evaluates the interpolating polynomial; and against any prover strategy with a wrong sum the verifier accepts with a true subclaim for at most n*d*|F|^(n-1) challenge vectors. Terms without factors are dropped, a combination without terms makes the verifier read out of bounds, and proving keys with different tables compare equal.", "quantifier": "all prime fields, all n <= 62, all terms and tables, all challenges, all prover strategies, all thread counts from 1 to 127", "why_tests_cant": "soundness is a statement about every cheating strategy and a count over all challenges; completeness is for all polynomials", "anchors": ["tachyon/math/polynomials/multivariate/linear_combination.h: LinearCombination", "tachyon/math/polynomials/multivariate/linear_combination_term.h: LinearCombinationTerm", "tachyon/crypto/sumcheck/multilinear/sumcheck_prover.h: SumcheckProver", "tachyon/crypto/sumcheck/multilinear/sumcheck_verifier.h: SumcheckVerifier, InterpolateUniPoly", "tachyon/crypto/sumcheck/multilinear/multilinear_sumcheck.h: RunInteractiveProtocol", "tachyon/crypto/sumcheck/multilinear/sumcheck_proving_key.h: operator=="]}
{"id": "C43", "title": "Multilinear polynomials in evaluation form", "statement": "Evaluate is the multilinear extension of the table: it agrees with the table on the hypercube and with every function that is affine in each variable and has these values; FixVariables fixes the first variables; addition, subtraction and negation act on the polynomials, multiplication on the values. A table whose length is no power of two is read out of bounds when a variable is fixed; == is not transitive; products of tables are not products of polynomials.", "quantifier": "all fields, all n <= 63, all tables of length 2^n, all points", "why_tests_cant": "an identity of polynomials over all tables and all points", "anchors": ["tachyon/math/polynomials/multivariate/multilinear_dense_evaluations.h: MultilinearDenseEvaluations", "tachyon/math/polynomials/multivariate/multilinear_extension_ops.h: MultilinearExtensionOp"]}
{"id": "C44", "title": "Serialisation through Buffer round-trips", "statement": "Writing a value (integers, native floats, narrow strings, vectors, arrays, classes of these, nested) to a growable or fixed buffer puts exactly its bytes at the offset; a write that does not fit a fixed buffer is reported and changes only a prefix inside the buffer. Reading gives a value exactly when its bytes are at the offset, hence values round-trip and the encoding is prefix free. For all types, contents and offsets no read or write leaves the buffer. EstimateSize is the number of bytes below 2^31. Not so in the code, proved with witnesses: floats with a given byte order, strings of wide characters, WriteManyAt, the product in ReadPtr, lengths above the limit of resize, EstimateSize of large arrays.", "quantifier": "all value sequences and nested types, buffer sizes, contents, endiannesses, machine byte orders, offsets", "why_tests_cant": "composition and boundary sizes", "anchors": ["tachyon/base/buffer/buffer.h", "tachyon/base/buffer/buffer.cc", "tachyon/base/buffer/read_only_buffer.h", "tachyon/base/buffer/read_only_buffer.cc", "tachyon/base/buffer/copyable.h", "tachyon/base/buffer/vector_buffer.h", "tachyon/base/buffer/string_buffer.h"]}
{"id": "C45", "title": "Parallel chunking covers every element exactly once", "statement": "ParallelizeByChunkSize splits [0,n) into consecutive chunks (offset i*chunk, given length) that partition the range; ParallelizeMap returns results in chunk order; any execution order of the chunks gives the same final container.", "quantifier": "all n, all chunk sizes, all schedules", "why_tests_cant": "thread schedules and sizes", "anchors": ["tachyon/base/parallelize.h", "tachyon/base/openmp_util.h"]}
{"id": "C46", "title": "Lookup permutation arrangement satisfies the lookup constraints", "statement": "When it succeeds, PermuteExpressionPair returns A' a permutation of the usable inputs and S' a permutation of the usable table with A'[0]=S'[0] and for every row A'[i]=S'[i] or A'[i]=A'[i-1]; it fails exactly when an input value is absent from the table; and any two columns with these relations put every value of A' into S'. With more blinding rows than rows the number of usable rows wraps around and the columns are read out of bounds.", "quantifier": "all linearly ordered fields, all inputs and tables of any length below 2^32, all numbers of blinding rows, all random values", "why_tests_cant": "multiset argument", "anchors": ["tachyon/zk/lookup/halo2/permute_expression_pair.h: PermuteExpressionPair", "tachyon/zk/base/blinder.h: Blind", "tachyon/zk/base/entities/entity.h: GetUsableRows"]}
{"id": "C47", "title": "Copy-constraint cycles represent exactly the requested equalities", "statement": "After any sequence of merges the stored mapping is a permutation whose cycles are the equivalence classes generated by the merged pairs; CheckSameCycle, GetCycleSize and the representatives agree with the classes; values constant on cycles are exactly the assignments satisfying all copies; GeneratePermutations writes the label of the next cell into every cell, and the labels of different cells differ when the orders of omega and delta are coprime and large enough. GetAllLabels lists the representative twice, and the row bound of Copy is off by one.", "quantifier": "all table shapes, all sequences of copies, all fields, all thread counts", "why_tests_cant": "history-dependent union-find structure", "anchors": ["tachyon/zk/plonk/permutation/cycle_store.h", "tachyon/zk/plonk/permutation/cycle_store.cc", "tachyon/zk/plonk/permutation/permutation_assembly.h", "tachyon/zk/plonk/permutation/unpermuted_table.h"]}
{"id": "C48", "title": "Challengers are overwrite-mode sponges over the observed transcript", "statement": "For every permutation and every history of Observe/Sample calls the duplex and multi-field challengers stay within their buffers (input < rate, output ≤ width) and never abort; the challenges of a protocol are the elements of the state, last first, after absorbing all values observed since the last sample block by block, one permutation per width challenges; they do not depend on left-over output, so prover and verifier agree. HashChallenger likewise with a hash. For an injective permutation two blocks of equal length with equal challenges are equal. SampleBits is the canonical value mod 2^bits; Grind returns, for any thread count and any behaviour of the found flag, a witness in the range with the verifier's state, and fails exactly if there is none. PaddingFreeSponge and TruncatedPermutation are absorb resp. permute from zero, truncated. Not so in the code, proved: there is no padding (xs and xs ++ [old state element] collide, hash xs = hash (xs ++ [0])), and the challenges reveal the capacity.", "quantifier": "all permutations, hashes, widths, rates, call histories, thread counts, flag behaviours", "why_tests_cant": "history-dependent buffering", "anchors": ["tachyon/crypto/challenger/duplex_challenger.h", "tachyon/crypto/challenger/challenger.h", "tachyon/crypto/challenger/hash_challenger.h", "tachyon/crypto/challenger/multi_field32_challenger.h", "tachyon/crypto/challenger/multi_field32_conversions.h", "tachyon/crypto/hashes/sponge/padding_free_sponge.h", "tachyon/crypto/hashes/sponge/truncated_permutation.h"]}
{"id": "C49", "title": "Binary tower field operations form the field GF(2^(2^k))", "statement": "The machine values below 2^(2^n) stand one to one for the elements of the tower built over the field of two elements by X^2 = alpha X + 1, which is a field of characteristic two at every height; Add, Sub, Double, Negate, Mul, Square, MulByAlpha and Inverse (tables up to 8 bits, Karatsuba recursion above) read no table out of range, pass their checks and compute the operations of that field; Inverse refuses exactly zero. TwoInv is the inverse of the element with value 2, not of 1+1 = 0, and fails its check in the 1-bit field.", "quantifier": "all tower heights (the code has 1 to 128 bits), all elements", "why_tests_cant": "2^256 operand pairs at 128 bits", "anchors": ["tachyon/math/finite_fields/binary_fields/binary_tower_operations.h", "tachyon/math/finite_fields/binary_fields/binary_field.h"]}
{"id": "C50", "title": "Rational field arithmetic represents fractions", "statement": "RationalField +, -, *, negation, doubling, squaring, inverse and equality agree with the fractions num/den for non-zero denominators, which stay non-zero; the inverse is refused exactly for zero. Evaluate is the quotient and ends the program for denominator zero; BatchEvaluate gives the quotient of each (zero for denominator zero) for every number of threads and ignores its factor. IsOne and IsMinusOne find every one and minus one, but also take 1/2 for one and -1/2 for minus one; the order depends on the representation.", "quantifier": "all fields, all fractions, all numbers of threads", "why_tests_cant": "representation independence", "anchors": ["tachyon/math/base/rational_field.h"]}
{"id": "C51", "title": "LinearCombination evaluates the weighted sum", "statement": "LinearCombination returns sum_i values[i] * r^(n-1-i) (forward) or sum_i values[i] * r^i (backward) for every list and every r, zero on the empty list; LinearCombinationInPlace returns the same and fails its check on the empty list.", "quantifier": "all rings, all value lists, all r, both directions", "why_tests_cant": "unbounded list length and ring", "anchors": ["tachyon/math/base/semigroups.h:479-541"]}
{"id": "C52", "title": "FrobeniusMap is the p^e-th power", "statement": "For each tower configuration (Fp2, Fp3, quartic and quadratic Fp4, quadratic and cubic Fp6, Fp12) FrobeniusMapInPlace(e) with the table built by Init() maps x to x^(p^e).", "quantifier": "all primes with the required congruence, all non-residues, all exponents e, all elements", "why_tests_cant": "tests compare a handful of random elements and exponents below the degree", "anchors": ["tachyon/math/finite_fields/fp2.h", "tachyon/math/finite_fields/fp3.h", "tachyon/math/finite_fields/fp4.h", "tachyon/math/finite_fields/fp6.h", "tachyon/math/finite_fields/fp12.h", "tachyon/math/finite_fields/quadratic_extension_field.h", "tachyon/math/finite_fields/cubic_extension_field.h", "tachyon/math/finite_fields/quartic_extension_field.h"]}
{"id": "C53", "title": "Bit utilities compute powers of two, logarithms, alignment and bit reversal", "statement": "IsPowerOfTwo holds exactly for powers of two; AlignDown/AlignUp give the nearest multiple below/above unless it overflows; Log2Floor, Log2Ceiling, SafeLog2Ceiling and CheckedLog2 are the floor, ceiling and exact logarithm; leading/trailing zero counts are exact; ReverseBitsLen(x, len) reverses the low len bits for 1 <= len <= 64 and is undefined otherwise.", "quantifier": "all words, all alignments, all lengths", "why_tests_cant": "2^64 words and boundary lengths 0 and 64", "anchors": ["tachyon/base/bits.h", "tachyon/base/bits.cc"]}
{"id": "C54", "title": "SumOfProducts is the inner product", "statement": "SumOfProducts (parallel) and SumOfProductsSerial return sum_i a[i]*b[i] for containers of equal size, independently of the number of threads, and fail their check otherwise.", "quantifier": "all rings, all lists, all thread counts", "why_tests_cant": "unbounded list length, rings and thread counts", "anchors": ["tachyon/math/base/ring.h:33-75"]}
{"id": "C55", "title": "IsOnCurve accepts exactly the representatives of finite curve points", "statement": "On a curve with nonzero discriminant IsOnCurve returns true for a tuple in affine, projective or Jacobian form (or XYZZ form with zz^3=zzz^2) if and only if the tuple represents a point other than the point at infinity.", "quantifier": "all fields, all curves with nonzero discriminant, all tuples", "why_tests_cant": "iff over all tuples, including ones on no curve", "anchors": ["tachyon/math/elliptic_curves/short_weierstrass/sw_curve.h: IsOnCurve"]}
{"id": "C56", "title": "CreateFromX finds a point exactly when one exists", "statement": "CreateFromX(x, pick_odd) fails iff no curve point has abscissa x; otherwise it returns a point with abscissa x whose ordinate, unless zero, has the requested parity.", "quantifier": "all prime fields with a correct SquareRoot, all curves, all x", "why_tests_cant": "the failure claim ranges over all y", "anchors": ["tachyon/math/elliptic_curves/short_weierstrass/sw_curve.h: GetPointFromX, GetYsFromX", "tachyon/math/elliptic_curves/short_weierstrass/affine_point.h: CreateFromX"]}
{"id": "C57", "title": "Polynomial from roots", "statement": "FromRoots(roots) returns the monic polynomial prod (X - r_i), and EvaluateVanishingPolyByRoots(roots, x) its value at x for any number of threads.", "quantifier": "all fields, all lists of roots (repetitions allowed), all points", "why_tests_cant": "in-place descending update of the coefficients, any number of roots", "anchors": ["tachyon/math/polynomials/univariate/univariate_dense_coefficients.h: FromRoots", "tachyon/math/polynomials/univariate/univariate_polynomial.h: EvaluateVanishingPolyByRoots"]}
{"id": "C58", "title": "Folding a polynomial", "statement": "Fold(r) returns the clean polynomial with coefficients c_{2i} + r*c_{2i+1}, for dense polynomials with an even number of coefficients and for all sparse ones. With an odd number of dense coefficients the loop reads past the end.", "quantifier": "all fields, polynomials, r (including 0)", "why_tests_cant": "cancellation when even and odd terms meet, parity of the size", "anchors": ["tachyon/math/polynomials/univariate/univariate_dense_coefficients.h: Fold", "tachyon/math/polynomials/univariate/univariate_sparse_coefficients.h: Fold"]}
{"id": "C59", "title": "Roots of unity and creation of domains", "statement": "GetRootOfUnity(n) returns a primitive n-th root exactly when n=q^a*2^b lies within the adicities of the field and false otherwise; Create(n) makes the domain of the smallest power of two >= n, failing exactly when IsValidNumCoeffs is false; GetCoset, GetElement (also negative indices) and GetElements describe the coset h*<g>. GetRootOfUnity(0) is undefined without a large subgroup.", "quantifier": "all fields and configurations with roots of the stated orders, all n up to 2^63, all offsets and indices", "why_tests_cant": "orders and exponents over a 64-bit range", "anchors": ["tachyon/math/finite_fields/prime_field_base.h: Decompose, GetRootOfUnity", "tachyon/math/finite_fields/prime_field_util.cc: ComputeAdicity", "tachyon/math/polynomials/univariate/univariate_evaluation_domain.h: GetCoset, GetElement, GetElements", "tachyon/math/polynomials/univariate/radix2_evaluation_domain.h: Create, IsValidNumCoeffs"]}
{"id": "C60", "title": "Twiddle cache", "statement": "The cache item built for a domain holds the powers of the generator and of its inverse that each stage of the transforms needs, and GetItem returns such an item when the cache holds none, or a complete one, for the domain. After CosetLDEBatch has stored an item with packed vectors only, GetItem returns that item to later users, and FFT and IFFT then read out of bounds; a second GetItem for size one reads an uninitialised flag.", "quantifier": "all radix-2 domains, all cache contents, all schedules", "why_tests_cant": "depends on the history of a process-wide cache", "anchors": ["tachyon/math/polynomials/univariate/radix2_twiddle_cache.h: Item, GetItem"]}
{"id": "C61", "title": "Filter polynomials", "statement": "For a subdomain of a domain with offset h and size n, GetFilterPolynomial vanishes on the rest of the domain and takes the value h^n on the subdomain (so it is a filter polynomial only if h^n=1); EvaluateFilterPolynomial is 1 on the subdomain and elsewhere differs from its value by the factor offset^size of the subdomain.", "quantifier": "all domains and subdomains, all points", "why_tests_cant": "tests use domains without offset only", "anchors": ["tachyon/math/polynomials/univariate/univariate_evaluation_domain.h: GetFilterPolynomial, EvaluateFilterPolynomial"]}
{"id": "C62", "title": "Batch FFT and coset low degree extension", "statement": "FFTBatch replaces each column of a matrix with 2^k rows (k>0) by the values of its polynomial at g^i, IFFTBatch recovers the coefficients, and CosetLDEBatch evaluates the polynomials through the columns on the coset shift*<w> of the 2^a times larger subgroup, in order or in bit-reversed order as asked; the naive implementation computes the same. The overload of CosetLDEBatch for constant matrices ignores reverse_at_last, and a single row fails a CHECK.", "quantifier": "all fields with the roots, all k+a<=63, all matrices and numbers of columns and lanes, all shifts, all schedules", "why_tests_cant": "order of parallel layers, split of the layers in two halves, all sizes", "anchors": ["tachyon/math/polynomials/univariate/radix2_evaluation_domain.h: FFTBatch, CosetLDEBatch", "tachyon/math/polynomials/univariate/two_adic_subgroup.h: IFFTBatch, CosetLDEBatch", "tachyon/math/polynomials/univariate/naive_batch_fft.h: NaiveBatchFFT"]}
{"id": "C63", "title": "Mixed radix domains", "statement": "BestMixedDomainSize is the least q^i*2^j >= min_size within the adicities; Create makes a domain of that size exactly when it is at most MaxDegree+1. When the size is a power of two, FFT and IFFT are right for any number of threads and agree with the radix-2 domain. With a factor q in the size the transform is wrong, the default MaxDegree leaves out the powers of q, and polynomials that are too long are cut off.", "quantifier": "all fields and configurations, all sizes up to 2^63, all offsets, thread counts and schedules", "why_tests_cant": "the tests use sizes that are powers of two only", "anchors": ["tachyon/math/polynomials/univariate/mixed_radix_evaluation_domain.h: MixedRadixEvaluationDomain"]}
{"id": "C64", "title": "Polynomials in evaluation form", "statement": "Add, Sub, Negate, Mul, Div and the operations by a scalar act value by value, where the empty vector stands for zero; == is equality of the functions for vectors over the same domain, and equal values have equal hashes; the operations in place agree with the others; IFFT(FFT(p)*FFT(q))=p*q when the degree fits. == is not transitive across sizes, and a failing DivInPlace changes its operand.", "quantifier": "all fields, all sizes, all values in both representations of zero", "why_tests_cant": "all combinations of representations and sizes", "anchors": ["tachyon/math/polynomials/univariate/univariate_evaluations_ops.h: UnivariateEvaluationsOp", "tachyon/math/polynomials/univariate/univariate_evaluations.h: UnivariateEvaluations"]}
{"id": "C65", "title": "Merkle tree over matrices of different heights", "statement": "Commit builds the digest layers of the recursive definition (rows of equally high matrices hashed together, smaller matrices injected on the way up) for any packing; an opening of an index verifies against the root; two accepted openings of an index with the same widths and proofs of the same length covering the height are equal or give a collision. The verifier compares neither widths nor the length of the proof; openings can read past a matrix whose height is no power of two; without debug checks some matrices are left out of the commitment.", "quantifier": "all valid lists of matrices, all hash functions, all lane counts, all indices, all openings and proofs", "why_tests_cant": "binding is a for-all-proofs statement, and completeness concerns all shapes of matrices", "anchors": ["tachyon/crypto/commitments/merkle_tree/field_merkle_tree/field_merkle_tree.h: FieldMerkleTree", "tachyon/crypto/commitments/merkle_tree/field_merkle_tree/field_merkle_tree_mmcs.h: FieldMerkleTreeMMCS"]}
{"id": "C66", "title": "Permutation argument: completeness and soundness of the grand products", "statement": "BatchCreateGrandProductPolys fills row j of column t with the product of (v+beta*delta^i*omega^j+gamma)/(v+beta*s+gamma) over the earlier chunks and rows, for every number of threads. If the values respect all copies and no factor vanishes, all constraints of PermutationVerifier::Evaluate vanish in all rows. If a copy is violated, then for all but at most 2*c*u*|F| pairs (beta, gamma) no columns whatever satisfy the constraints. The Lagrange values used by the verifier are those of row 0, the blinding rows and the last row.", "quantifier": "all finite fields, all tables, all sequences of copies, all chunk sizes, thread counts, blinding rows and random values, all challenges, all columns of a cheating prover", "why_tests_cant": "soundness quantifies over all columns a cheating prover may commit to and counts challenges in a field of 2^254 elements", "anchors": ["tachyon/zk/plonk/permutation/grand_product_argument.h", "tachyon/zk/plonk/permutation/permutation_prover_impl.h: CreateGrandProductPolys", "tachyon/zk/plonk/permutation/permutation_verifier.h: Evaluate", "tachyon/zk/plonk/permutation/permutation_table_store.h", "tachyon/zk/plonk/halo2/verifier.h: ComputeAuxValues"]}
{"id": "C67", "title": "halo2 lookup argument: completeness and soundness", "statement": "If every usable input occurs in the usable table, the permuted columns and the grand product of the prover satisfy all constraints of the lookup verifier in all rows, provided no factor vanishes. If some usable input is absent, then for any permuted columns committed beforehand all but at most 4*u*|F| pairs (beta, gamma) admit no grand product satisfying the constraints. A tuple absent from a table of tuples is compressed to a value of the compressed table for at most (m-1) challenges theta per row.", "quantifier": "all finite fields, all inputs and tables, all columns of a cheating prover, all challenges, all random values", "why_tests_cant": "soundness quantifies over all columns of a cheating prover and all challenges", "anchors": ["tachyon/zk/lookup/halo2/prover_impl.h", "tachyon/zk/lookup/halo2/verifier.h: Evaluate", "tachyon/zk/lookup/halo2/permute_expression_pair.h", "tachyon/zk/plonk/permutation/grand_product_argument.h: CreatePolySerial"]}
{"id": "C68", "title": "Shuffle argument: completeness and soundness", "statement": "If the usable rows of the shuffle column are a permutation of the usable inputs, the grand product of the prover satisfies all constraints of the shuffle verifier, provided no factor vanishes; otherwise at most 2*u challenges gamma admit any grand product satisfying them.", "quantifier": "all finite fields, all columns, all challenges, all random values", "why_tests_cant": "soundness quantifies over all columns of a cheating prover and all challenges", "anchors": ["tachyon/zk/shuffle/prover_impl.h", "tachyon/zk/shuffle/verifier.h: Evaluate", "tachyon/zk/plonk/permutation/grand_product_argument.h: CreatePolySerial"]}
{"id": "C69", "title": "Logarithmic-derivative lookup argument: completeness and soundness", "statement": "ComputeMPoly counts, over the rows of the table with a given value, the usable inputs with this value, and silently drops inputs that are not in the table. CreateGrandSumPoly writes the running sums of sum 1/(f+beta) - m/(t+beta), the same with OpenMP (any number of threads) and without. If every usable input is in the table and no f+beta, t+beta vanishes, the constraints hold in all rows. If a usable input is absent and k*u is below the characteristic, then for every column m all but at most 2(k+1)u challenges beta admit no column of sums satisfying the constraints; the condition on the characteristic is needed. The verifier's constraint is the prover's when no factor vanishes; if t+beta = 0 it dereferences a null optional, and if some f+beta = 0 the two differ.", "quantifier": "all fields, all numbers and lengths of columns, all tables, thread counts and random values, all challenges, all columns of a cheating prover", "why_tests_cant": "soundness quantifies over all columns of a cheating prover and all challenges; the failing challenges are a negligible part of a large field", "anchors": ["tachyon/zk/lookup/log_derivative_halo2/prover_impl.h: ComputeMPoly", "tachyon/zk/lookup/log_derivative_halo2/prover_impl.h: CreateGrandSumPoly", "tachyon/zk/lookup/log_derivative_halo2/prover_impl.h: ComputeLogDerivatives", "tachyon/zk/lookup/log_derivative_halo2/verifier.h: Evaluate", "tachyon/zk/lookup/log_derivative_halo2/evaluator.h", "tachyon/base/containers/container_util.h: BinarySearchByKey"]}
{"id": "C70", "title": "Constraint expressions and the graph evaluator", "statement": "For every expression without selectors, the graph that GraphEvaluator builds (with constant folding, ordering of operands and sharing of equal calculations) gives in every row, whatever the intermediates held before, the value of the expression in this row with rotations taken modulo the number of rows: the gates give previous*y^k + sum v_i y^(k-1-i), a lookup (compressed input + beta)(compressed table + gamma), shuffles and log-derivative lookups the compressed value plus the challenge. No calculation is stored twice. The value in row i is the value of the expression's polynomial at the i-th point of the coset, the verifier's evaluator gives its value at x, Degree bounds its degree, and a constraint holds in all rows iff X^n-1 divides the polynomial. GetIndex ends the program when the row is not an int32.", "quantifier": "all fields, all expressions and lists of gates, all tables, challenges, rows, rotations, scales and initial intermediates", "why_tests_cant": "the expressions are trees of any shape and the sharing depends on all earlier expressions; a wrong fold or a wrongly shared calculation shows only for particular expressions", "anchors": ["tachyon/zk/plonk/vanishing/graph_evaluator.h", "tachyon/zk/plonk/vanishing/calculation.h", "tachyon/zk/plonk/vanishing/value_source.h", "tachyon/zk/plonk/vanishing/custom_gate_evaluator.h: Construct", "tachyon/zk/plonk/vanishing/custom_gate_evaluator.h: Evaluate", "tachyon/zk/base/rotation.h: GetIndex", "tachyon/zk/plonk/expressions/proving_evaluator.h", "tachyon/zk/plonk/expressions/verifying_evaluator.h"]}
{"id": "C71", "title": "Duplex sponge of Poseidon: absorb and squeeze", "statement": "For every permutation that keeps the width, every history of non-empty absorbs and squeezes of n elements with 1 <= n != rate gives the outputs of the sponge that works on one element at a time: how the elements are split into calls does not matter, and no access leaves the state. An empty absorb permutes a sponge that was squeezed or whose block is full. The claim without n != rate is false: a squeeze of exactly a block in the middle of a block does not permute and hands out elements again that were handed out before, for every permutation.", "quantifier": "all element types, rates > 0, capacities, permutations, histories of calls and states", "why_tests_cant": "the wrong case needs a squeeze of a particular length in the middle of a block, after another squeeze; tests squeeze once from a sponge that was absorbing", "anchors": ["tachyon/crypto/hashes/sponge/poseidon/poseidon_sponge_base.h: Absorb", "tachyon/crypto/hashes/sponge/poseidon/poseidon_sponge_base.h: SqueezeNativeFieldElements", "tachyon/crypto/hashes/sponge/poseidon/poseidon_sponge_base.h: AbsorbInternal", "tachyon/crypto/hashes/sponge/poseidon/poseidon_sponge_base.h: SqueezeInternal", "tachyon/crypto/hashes/sponge/duplex_sponge_mode.h", "tachyon/crypto/hashes/sponge/sponge_state.h"]}
{"id": "C72", "title": "Poseidon permutation: optimised constants and sparse matrices", "statement": "For every even number of full rounds > 0, every number of partial rounds, every exponent, width >= 2 and all constants, PoseidonConfig::Create succeeds and Permute with the optimised constants and the sparse matrices equals the Poseidon permutation of the paper with the constants and the matrix drawn, on every state and whatever memory optimized_ark started with; the permutation is a bijection when the exponent is prime to |F|-1. The matrix drawn is MDS (each square submatrix invertible) when the xs and the ys are different; Create fails exactly when a sum is zero. SparseMDSMatrix::Apply is the product with Construct(), FromMDSMatrix is its inverse and fails for other matrices; MulMatVec/MulMatMat are the products. For an odd number of full rounds, which is not rejected, the constants of the first partial round are memory that was never written.", "quantifier": "all fields, widths >= 2, numbers of rounds, exponents, constants, xs, ys and states", "why_tests_cant": "the equality of the optimised and the textbook permutation is an identity over all constants and states; tests compare a few hashes for fixed parameters", "anchors": ["tachyon/crypto/hashes/sponge/poseidon/poseidon.h: Permute", "tachyon/crypto/hashes/sponge/poseidon/poseidon_config.h: OptimizeARK", "tachyon/crypto/hashes/sponge/poseidon/poseidon_config.h: ComputeSparseMatrices", "tachyon/crypto/hashes/sponge/poseidon/poseidon_config.h: Factorize", "tachyon/crypto/hashes/sponge/poseidon/poseidon_config.h: FindPoseidonARKAndMDS", "tachyon/crypto/hashes/sponge/poseidon/sparse_mds_matrix.h", "tachyon/math/matrix/matrix_operations.h"]}
{"id": "C73", "title": "Poseidon2 permutation, its matrices and its parameters", "statement": "For widths 2, 3 and multiples of 4 up to 24 Poseidon2ExternalMatrix::Apply multiplies by the matrix Construct builds, for all others both stop; exact conditions for the external and the internal layer to be invertible; Permute equals the Poseidon2 of the paper and stops exactly when rows of constants or the matrix are missing; over a finite field with a partial round it is injective iff both layers are and alpha is prime to |F|-1. The word-level internal layer of unpacked fields (sums and shifts of words) has canonical results and is the matrix with diagonal -2, 2^s, ... on the numbers denoted (over 2^32 in Montgomery fields), and every array of shifts in the repository gives an invertible matrix. Findings: the diagonal of BabyBear for width 24 has 16 of 24 entries, so with Horizen's internal matrix Permute is not injective; for Mersenne31 alpha = 7 divides p-1, so Permute is not injective; FromU62 stops a debug build on allowed inputs.", "quantifier": "all fields, widths, numbers of rounds, exponents, constants, diagonals, shifts in range and states", "why_tests_cant": "invertibility and agreement with the matrix are claims about all states of 16 or 24 elements; the tests compare single vectors and the faulty parameter sets give plausible outputs", "anchors": ["tachyon/crypto/hashes/sponge/poseidon2/poseidon2.h: Permute", "tachyon/crypto/hashes/sponge/poseidon2/poseidon2_external_matrix.h", "tachyon/crypto/hashes/sponge/poseidon2/poseidon2_horizen_external_matrix.h", "tachyon/crypto/hashes/sponge/poseidon2/poseidon2_plonky3_external_matrix.h", "tachyon/crypto/hashes/sponge/poseidon2/poseidon2_horizen_internal_matrix.h", "tachyon/crypto/hashes/sponge/poseidon2/poseidon2_plonky3_internal_matrix.h", "tachyon/crypto/hashes/sponge/poseidon2/param_traits/"]}
{"id": "C74", "title": "Grain generator of Poseidon's round constants and MDS matrix", "statement": "For every configuration there is exactly one bit stream that starts with the 80 parameter bits and follows the recurrence; Update returns it bit by bit with head below 80. Of any 80 pairs of bits at least one gives an output, so GetBits always ends, and it returns the self-shrunken stream. GetFieldElementsModP returns the consecutive candidates reduced; GetFieldElementsRejectionSampling the candidates below the modulus in order, ending if there are enough. FindPoseidonARKAndMDS and FindPoseidon2ARK return those with the row lengths of the rounds, xs and ys follow after the skipped matrices. The matrix 1/(x_i+y_j) has only invertible square submatrices if xs and ys have no repetitions; a zero sum stops the program. Findings: repetitions are not rejected although the comment asks for it; parameters are truncated to 12 and 10 bits without a check; ToPoseidonGrainLFSRConfig assumes capacity 1.", "quantifier": "all configurations, moduli, numbers of bits and elements, points of the stream", "why_tests_cant": "that the inner loop ends is a claim about all states of an 80-bit register; the tests compare a few elements for one configuration", "anchors": ["tachyon/crypto/hashes/sponge/poseidon/poseidon_grain_lfsr.h", "tachyon/crypto/hashes/sponge/poseidon/poseidon_config.h: FindPoseidonARKAndMDS", "tachyon/crypto/hashes/sponge/poseidon2/poseidon2_config.h: FindPoseidon2ARK", "tachyon/crypto/hashes/sponge/poseidon/poseidon_config_entry_base.h: ToPoseidonGrainLFSRConfig"]}
{"id": "C75", "title": "Two-adic cosets and their selectors", "statement": "TwoAdicMultiplicativeCoset(log_n, shift) is shift*<w> with 2^log_n elements and fails for a zero shift or a size above the two-adicity; GetZpAtPoint is zero exactly on the coset; SplitDomains divides it into the residue classes of the index, every element in exactly one part; CreateDisjointDomain has at least the wanted size and is disjoint iff g^max(sizes) is not 1; GetSelectorsAtPoint fails on the coset and elsewhere gives the values of polynomials of degree below the size that are zero on the coset except at the first and at the last element, a linear one that is zero at the last element only, and the inverse of the vanishing polynomial; GetSelectorsOnCoset gives the same at every element of a disjoint coset of equal size, for every number of threads. Finding: its CHECK_GE is the wrong way round, so every coset of another size fails (a larger one stops, for a smaller one the shift is undefined).", "quantifier": "all fields with a valid root configuration, sizes, shifts, points, numbers of threads", "why_tests_cant": "the claims are about all points of the field and all cosets; the unit test of the selectors uses one size only, which hides that other sizes fail", "anchors": ["tachyon/crypto/commitments/fri/two_adic_multiplicative_coset.h", "tachyon/crypto/commitments/fri/lagrange_selectors.h", "tachyon/crypto/commitments/fri/two_adic_fri.h: GetNaturalDomainForDegree"]}
{"id": "C76", "title": "FRI: folding, completeness and soundness of the low-degree test", "statement": "FoldMatrix of the values of p on a coset in bit-reversed order gives the values of p_even + s*beta*p_odd on the coset of squares, and FoldRow computes its entries. An honest proof is accepted exactly if the last vector has one value at the queried places; so if every input of 2^h values is a codeword (polynomial with fewer than 2^h/blowup coefficients), Prove succeeds and Verify accepts. If all places are accepted, with any openings of binding commitments, folding the input with the challenges gives the constant vector; for a non-codeword at most k|K|^(k-1) of |K|^k sequences of challenges allow that. The Merkle tree scheme satisfies the law of an honest run and is binding if lengths of proofs are checked. Findings: inputs of smaller size are added without a random factor, so a taller input can cancel an arbitrary non-codeword and the honest prover is accepted; with the real verifier, which does not check the length of Merkle proofs, one commitment opens to two rows at one place; one row (log_blowup 0) cannot be folded; an input of exactly blowup values makes the verifier stop.", "quantifier": "all fields, sizes up to 2^32, numbers of queries and rounds, inputs, challenges, commitments, openings, schedules", "why_tests_cant": "completeness and the counting bound quantify over all polynomials and challenges; the tests only run the honest prover on random codewords, where neither cancellation nor a forged opening shows", "anchors": ["tachyon/crypto/commitments/fri/fri_config.h", "tachyon/crypto/commitments/fri/prove.h", "tachyon/crypto/commitments/fri/verify.h", "tachyon/crypto/commitments/fri/fri_proof.h", "tachyon/crypto/commitments/merkle_tree/field_merkle_tree/field_merkle_tree_mmcs.h: DoVerifyOpeningProof"]}
{"id": "C77", "title": "TwoAdicFRI: commitment, opening and verification", "statement": "Commit extends the values on a coset to the values of the polynomials through the columns on the larger coset of the generator. CreateOpeningProof opens the values of these polynomials at the given points (InterpolateCoset is evaluation of the interpolating polynomial, ComputeInverseDenominators the inverses for every row, DotExtPowers the combination of a row with the powers of the challenge), and VerifyOpeningProof accepts them, for any number of rounds, matrices of mixed heights, columns and points. The verifier hands to FRI, exactly if rows, points and values fit together and the rows belong to the commitments, the sum of the quotients of all claims of a height with successive powers of the challenge. If an opened value is false, fewer challenges than there are opened values make this combination a polynomial of low degree. The Merkle tree scheme satisfies the law for matrices of mixed heights. Findings: the challenge is drawn before the values are known and the values are never observed, so every accepted proof is also accepted for an arbitrary first value of a point (with another second value); a point of the coset opens to zeros; a matrix with one row, and one without columns, is undefined behaviour.", "quantifier": "all fields, heights up to 2^31, rounds, matrices, columns, points, values, challenges, lanes, threads", "why_tests_cant": "the test opens random matrices honestly; forged values, points in the coset and the counting of bad challenges are about all values and challenges", "anchors": ["tachyon/crypto/commitments/fri/two_adic_fri.h", "tachyon/math/matrix/matrix_utils.h: DotExtPowers, PackRowHorizontallyPadded", "tachyon/math/finite_fields/extension_field_base.h: GetExtendedPackedPowers", "tachyon/crypto/commitments/mixed_matrix_commitment_scheme.h: GetMaxRowSize"]}
{"id": "C78", "title": "KZG setup, commitments, batch mode and GWC opening proofs", "statement": "UnsafeSetup gives the multiples of the generator by the powers of the secret and by the Lagrange polynomials of the domain at the secret, exactly for the powers of two of the field; Commit and CommitLagrange both give the multiple by the value of the polynomial at the secret and reject more coefficients than there are bases. In batch mode any order of commitments gives what the single commitments give. GroupBySinglePoint gives a group for every point. DoVerifyOpeningProof of GWC accepts exactly if the combination of the claims by the challenges holds; the proofs of DoCreateOpeningProof for true claims are made and accepted; for a false claim, whatever polynomials the proof commits to, all but fewer values of each challenge than claims and at most D+1 secrets lead to rejection. Findings: a scheme made from its members, as ReadFrom does, swaps the points of G2: it rejects honest proofs and accepts proofs that P(x) = P(1/x); Downsize keeps a prefix of the Lagrange basis, which is not the basis of the smaller domain; after a failed commitment in batch mode the next SetBatchMode fails.", "quantifier": "all fields, groups, pairings, secrets, sizes up to 2^63, polynomials, claims, transcripts, threads", "why_tests_cant": "the tests open honest proofs of one size with the scheme that made them; the counting of bad challenges, the equation and the reloaded verifier are about all proofs and claims", "anchors": ["tachyon/crypto/commitments/kzg/kzg.h", "tachyon/crypto/commitments/kzg/kzg_family.h", "tachyon/crypto/commitments/kzg/gwc.h", "tachyon/crypto/commitments/polynomial_openings.h: GroupBySinglePoint, CreateLowDegreeExtensions, CombineLowDegreeExtensions", "tachyon/crypto/commitments/vector_commitment_scheme.h: SetBatchMode", "tachyon/math/base/semigroups.h: LinearCombinationInPlace"]}
{"id": "C79", "title": "SHPlonk opening proofs", "statement": "GroupByPolyOracleAndPoints gives one group for every set of points that some oracle is claimed at; an oracle is in the group of exactly its points. DoVerifyOpeningProof of SHPlonk, with S0 the points of the oracle of the first claim, fails a CHECK if the third challenge is a point outside S0, and otherwise accepts exactly if ((tau - u) Z_{T\\S0}(u)) q = sum_i v^i Z_{T\\Si}(u) sum_j y^j (C_ij - [r_ij(u)]) - Z_T(u) h, with r_ij the interpolations of the claims. DoCreateOpeningProof for true claims makes a proof that is accepted unless the transcript rejects a commitment or the third challenge is such a point; DCHECK never fires. For consistent claims of which one is false, all but fewer values of y and of v than claims, then for every first polynomial all but D + 2 * claims values of u, then for every second polynomial all but D + 1 secrets lead to no acceptance. Findings: of two claims about the same oracle and point only the first is checked; oracles are compared as pointers, so an honest proof is rejected if the verifier stores a commitment twice; no claims fail a CHECK; the reloaded scheme rejects honest proofs.", "quantifier": "all fields, groups, pairings, secrets, polynomials, claims, transcripts, threads (with the sizes below 2^63)", "why_tests_cant": "the tests open one honest proof; the equation, the counting of bad challenges and the failing challenges are about all claims and proofs", "anchors": ["tachyon/crypto/commitments/kzg/shplonk.h", "tachyon/crypto/commitments/polynomial_openings.h: GroupByPolyOracleAndPoints, CreateLowDegreeExtensions, CombineLowDegreeExtensions"]}
{"id": "C80", "title": "SimpleFRI", "statement": "The constructor fails for a domain of one element and otherwise makes the subgroups of sizes 2^(k-1), ..., 2, each with the square of the generator before. When the leaf hash is the identity and the domain is the subgroup of size 2^k, then for every polynomial that Commit takes, every transcript and every index, DoCreateOpeningProof makes a proof that DoVerifyOpeningProof accepts. Commit writes k roots and sum_j c_j prod_{bit i of j} beta_i. DoVerifyOpeningProof accepts exactly if all 2k paths lead to the roots read, and every next value is (e + e')/2 + beta (e - e')/(2 x) at x = w^(2^i index), the last one being the value read. Findings: Commit succeeds only for polynomials with exactly 2^k coefficients (others read out of bounds or are refused); the directions of the paths are not compared with the index, so one proof with a value that every table has somewhere is accepted at every index; honest proofs are rejected with a leaf hash other than the identity and on cosets.", "quantifier": "all fields with a subgroup of size 2^k, k < 63, polynomials, transcripts, indices, hashers, threads and orders", "why_tests_cant": "the tests open one polynomial of full length with an identity leaf hash; they cannot cover all indices and challenges nor dishonest paths", "anchors": ["tachyon/crypto/commitments/fri/simple_fri.h", "tachyon/crypto/commitments/fri/simple_fri_proof.h"]}
{"id": "C81", "title": "Linear combinations of R1CS", "statement": "Variables are strictly and totally ordered by type and then index, and the comparison operators agree. Deduplicate gives, whatever permutation the unstable sort leaves, one strictly sorted list, in which every variable that occurred has its total coefficient; values do not change. The linear search, the binary search and their selection by length agree on strictly sorted lists: they find a variable exactly if it is there, and otherwise its insertion point. Adding and subtracting a term, +, -, negation and multiplication by a scalar have the values they should for all assignments; on strictly sorted lists + and - are what deduplicating the joined lists gives, and all keep the order.", "quantifier": "all fields, lists of terms, variables, scalars, assignments and unstable sorts", "why_tests_cant": "the tests use lists of two to five terms; they cannot cover all interleavings of two lists nor all permutations an unstable sort may leave", "anchors": ["tachyon/zk/r1cs/constraint_system/linear_combination.h", "tachyon/zk/r1cs/constraint_system/variable.h", "tachyon/zk/r1cs/constraint_system/term.h"]}
{"id": "C82", "title": "R1CS constraint systems", "statement": "Every call of ConstraintSystem with variables it has returned leaves a well-formed system. All values of instance and witness variables extend in one way to the linear combinations. GetAssignedValue and IsSatisfied are right, whatever has been cached; EnforceConstraint adds exactly a * b = c. InlineAllLCs leaves the same variables and number of constraints and the same satisfying values. OutlineLCs adds witnesses and as many constraints; values satisfy the new system exactly if the old ones satisfy the old system and the new ones are determined values, which are those it assigns. After either no linear combination refers to another one, and for systems without terms in the variable Zero the matrices of ToMatrices say about the vector of all values what the system says, with cells in range and nonzero. ComputeLCNumTimesUsed counts references. Findings: a term in Zero makes MakeRow dereference nullopt; Finalize twice is out of bounds; referring to the linear combination of a constraint erases it; GetAssignedValue is out of bounds in setup mode.", "quantifier": "all fields, systems, instance and witness values, unstable sorts, goals and modes; fewer than 2^64 references to each linear combination", "why_tests_cant": "the tests finalise one system over GF7; they cannot compare the sets of satisfying values of all systems", "anchors": ["tachyon/zk/r1cs/constraint_system/constraint_system.h", "tachyon/zk/r1cs/constraint_system/matrix.h", "tachyon/zk/r1cs/constraint_system/constraint_matrices.h", "tachyon/zk/r1cs/constraint_system/synthesis_mode.h"]}
{"id": "C83", "title": "Quadratic arithmetic programs", "statement": "For finalized systems, InstanceMap gives, for every point and any number of threads, the values of the unique polynomials of degree below the domain size that interpolate the columns of the three matrices, with the rows for the public values below those of the first, and of the vanishing polynomial. WitnessMap returns a polynomial h with A B - C = h t exactly if the values satisfy the system, and then h has at most size - 1 coefficients. If they do not, then for every h at most 2 size - 2 points satisfy the equation. ComputeHQuery gives x^i t(x) / delta for i < size - 1. Finding: both maps only check that there is room for the constraints; without room for the public values too they access vectors out of bounds.", "quantifier": "all fields with radix-2 domains, finalized systems without terms in Zero, points, quotients, schedules and fewer than 128 threads", "why_tests_cant": "a test compares the maps for one circuit at one point; it cannot show that every unsatisfied system fails nor bound the points at which it passes", "anchors": ["tachyon/zk/r1cs/constraint_system/quadratic_arithmetic_program.h", "tachyon/zk/r1cs/constraint_system/qap_instance_map_result.h", "tachyon/zk/r1cs/constraint_system/qap_witness_map_result.h"]}
{"id": "C84", "title": "Groth16", "statement": "Synthesizing a circuit for the key and for a proof, with other values, gives the same matrices. The keys of ProvingKey::Load and VerifyingKey::Load are those of Groth16 for the first random point outside the domain. VerifyProof checks e(A, B) = e(alpha, beta) + e(L, gamma) + e(C, delta) and the number of public inputs. For values that satisfy the circuit the proof is accepted, for all secrets with gamma and delta not zero and all r and s. A prover who runs CreateProofWithAssignment with values that do not satisfy the circuit and any quotient is accepted for at most 2 size - 2 points. Two witnesses for the same public values lead to the same proofs up to a permutation of the pairs (r, s). ReRandomizeProof keeps acceptance. Findings: ReRandomizeProof aborts when the first random value is zero and the second is not; with gamma = 0, which ToxicWaste does not exclude, ProvingKey::Load succeeds with a key that does not bind the public inputs, while VerifyingKey::Load aborts.", "quantifier": "all fields with radix-2 domains, circuits that use only the constant one and the variables they create and do not look at the mode or values of the system, values, secrets, random values, pairings, schedules and fewer than 128 threads", "why_tests_cant": "the tests prove one circuit with random secrets; they cannot show completeness for all circuits and secrets, nor anything about all false statements or about hiding", "anchors": ["tachyon/zk/r1cs/groth16/prove.h", "tachyon/zk/r1cs/groth16/verify.h", "tachyon/zk/r1cs/groth16/key.h", "tachyon/zk/r1cs/groth16/proving_key.h", "tachyon/zk/r1cs/groth16/verifying_key.h", "tachyon/zk/r1cs/groth16/prepared_verifying_key.h", "tachyon/zk/r1cs/groth16/toxic_waste.h", "tachyon/zk/r1cs/constraint_system/circuit.h"]}
{"id": "C85", "title": "Pairings of the BN and BLS12 curves", "statement": "For pairs of points of the two subgroups, the pairing returns the power, by the exponent of C86, of the product of the Miller functions: the function of the optimal ate loop count (the parameter for BLS12) at the untwisted point, written with tangents and chords of the group law, and for BN the two lines at the Frobenius images. The line of each step is the line through the two points up to a factor that the final exponentiation removes. Hence the pairing of two lists of pairs is the product of the pairings, a pair with a point at infinity counts as 1, negating the first points inverts the value, the value is an r-th root of unity, and lists of different lengths abort. The loop count written by the generator is right for all positive parameters. Findings: for every negative parameter it is 4 too large, and then the result is not multiplicative; BLS12 G2Prepared runs over leading zeros of the parameter and the Miller loop skips them, so the two only agree when the top bit is set.", "quantifier": "all BN and BLS12 parameters and towers with a twist of either type, all lists of points of the two subgroups", "why_tests_cant": "a test checks bilinearity at a few random points of one curve; it cannot show which function is evaluated at all points, nor cover the points at which a line degenerates", "anchors": ["tachyon/math/elliptic_curves/pairing/pairing.h", "tachyon/math/elliptic_curves/pairing/pairing_friendly_curve.h", "tachyon/math/elliptic_curves/pairing/g2_projective.h", "tachyon/math/elliptic_curves/pairing/ell_coeff.h", "tachyon/math/elliptic_curves/bn/bn_curve.h", "tachyon/math/elliptic_curves/bn/g2_prepared.h", "tachyon/math/elliptic_curves/bls12/bls12_curve.h", "tachyon/math/elliptic_curves/bls12/g2_prepared.h", "tachyon/math/elliptic_curves/bn/generator/generator.cc"]}
{"id": "C86", "title": "Final exponentiations", "statement": "FinalExponentiation of a BN curve raises every unit f of Fp12 to an exponent e with e r = 2x(6x^2+3x+1)(p^12-1), that of a BLS12 curve with e r = 3(p^12-1). So the result is an r-th root of unity, a power of the reduced value f^((p^12-1)/r) with an exponent prime to r, and is 1 exactly if the reduced value is. On zero both abort.", "quantifier": "all parameters x (negative too) for which the curve exists, all towers that implement the fields and all elements of Fp12", "why_tests_cant": "a test compares with one known value; the chain of powers could be wrong for elements outside the sample or for a parameter of the other sign", "anchors": ["tachyon/math/elliptic_curves/bn/bn_curve.h", "tachyon/math/elliptic_curves/bls12/bls12_curve.h", "tachyon/math/elliptic_curves/pairing/pairing_friendly_curve.h", "tachyon/math/finite_fields/cyclotomic_multiplicative_subgroup.h", "tachyon/math/finite_fields/fp12.h"]}
{"id": "C87", "title": "Vanishing argument of plonk", "statement": "GetHalo2Zeta returns a primitive cube root of unity for both vendors (inverse to each other) when 3 divides the trace and aborts otherwise; the vanishing polynomial of the rows has no root on the coset of that root, so no division by zero occurs. CoeffToExtended returns the values at zeta*w^i, ExtendedToCoeff is its inverse, BuildExtendedColumnWithColumns puts the values on the small cosets into the order of the extended domain. CreateFinalHPoly returns the polynomial h whose product with X^n-1 has the given values on the coset; when these come from a polynomial N of degree below n plus the extended size, h(X^n-1)=N exactly if N vanishes on all rows. The pieces of h of degree below n, combined by powers of x^n, have at x the value h(x), and the verifier's combination of the commitments is the commitment to that combination. With the domain of ComputeExtendedK the verifier accepts, at every x outside the rows, every N of degree at most degree*(n-1) that vanishes on the rows (completeness); if N does not vanish on the rows, then for every h the expected value equals h(x) for at most max(deg N, deg h + n) points x (soundness). The values of instance columns that the verifier computes are those of the interpolating polynomial at the rotated points.", "quantifier": "all fields, all radix-2 row and extended domains, all columns, polynomials, challenges, linear commitments, numbers of threads and orders of iterations", "why_tests_cant": "a test proves and verifies one circuit at one random challenge; it can neither show that a wrong numerator is caught at all but few challenges, nor that a right one is accepted at all of them", "anchors": ["tachyon/zk/plonk/vanishing/vanishing_utils.h", "tachyon/zk/plonk/vanishing/vanishing_prover_impl.h", "tachyon/zk/plonk/vanishing/vanishing_verifier.h", "tachyon/zk/plonk/halo2/verifier.h", "tachyon/zk/plonk/constraint_system/constraint_system.h"]}
{"id": "C88", "title": "Circuit polynomial and expected quotient value of plonk", "statement": "The Lagrange polynomials of the proving key are one in the first row, one in the first unusable row, one in the usable rows, and zero elsewhere. For a constraint system with gates, a permutation argument, halo2 lookups and at most one shuffle, BuildExtendedCircuitColumn returns at every point of the extended coset the value of one polynomial: the constraints of all circuits (gates, permutation, lookups, shuffles) combined by powers of y. That polynomial has degree at most degree*(n-1) with the degree of ComputeDegree. EvaluateH returns, from the evaluations in the proof, the value of that polynomial at x divided by x^n-1. Hence if all constraints hold in all rows, the prover obtains quotient pieces whose combination has at every x outside the rows exactly the value the verifier expects; if a constraint fails in a row, the combination vanishes on the rows for fewer y than there are constraints, and then every committed quotient h is accepted at no more than max(degree*(n-1), deg h + n) points x. The constraints vanish in all rows exactly if the gates vanish on the table of values and the permutation, lookup and shuffle arguments hold there. With two or more shuffles the prover reads out of bounds (the statement that it works for any number of shuffles is false of the code).", "quantifier": "all fields, radix-2 row and extended domains, constraint systems, keys, circuits, challenges, numbers of threads and orders of iterations", "why_tests_cant": "a test compares prover and verifier on one circuit; agreement of the two independently written evaluators for every constraint system, and the false case of several shuffles, are statements over all circuits", "anchors": ["tachyon/zk/plonk/vanishing/circuit_polynomial_builder.h", "tachyon/zk/plonk/vanishing/vanishing_argument.h", "tachyon/zk/plonk/vanishing/custom_gate_evaluator.h", "tachyon/zk/plonk/permutation/permutation_evaluator.h", "tachyon/zk/lookup/halo2/evaluator.h", "tachyon/zk/shuffle/evaluator.h", "tachyon/zk/plonk/halo2/verifier.h", "tachyon/zk/plonk/keys/proving_key.h", "tachyon/zk/plonk/constraint_system/constraint_system.h"]}
{"id": "C89", "title": "Compression of selectors keeps the meaning of the constraints", "statement": "For a constraint system whose gates contain at most one simple selector each, whose lookups and shuffles contain none, and a field in which the numbers up to its degree are not zero, CompressSelectors succeeds. It adds at most as many fixed columns as there are selectors, leaves no selector in any expression, and in every row every expression has the value it had with the selectors worth a non-zero constant where they are active and zero elsewhere; the constant is one for selectors that are not simple. Hence a gate that has no simple selector or is a product with one holds in a row after the compression if and only if it held before, and the expressions of lookups and shuffles have the same values. The selector map names for every selector a column that has one non-zero value exactly in the rows where the selector is active. IsExclusive says of any two selectors whether some row has both active. If the degrees of the simple selectors do not grow with their indices, the degree of the constraint system does not change (without that condition the statement is false of the code).", "quantifier": "all fields, constraint systems, numbers of selectors and rows, activations, tables and rows", "why_tests_cant": "tests compress fixed examples; that any set of disjoint selectors can be told apart in one column, for every constraint system, and the order of selectors that raises the degree, are statements over all systems", "anchors": ["tachyon/zk/plonk/constraint_system/selector_compressor.h", "tachyon/zk/plonk/constraint_system/exclusion_matrix.h", "tachyon/zk/plonk/constraint_system/selector_description.h", "tachyon/zk/plonk/constraint_system/selector_assignment.h", "tachyon/zk/plonk/constraint_system/constraint_system.h", "tachyon/zk/plonk/expressions/evaluator/selector_replacer.h", "tachyon/zk/plonk/expressions/evaluator/simple_selector_extractor.h"]}
{"id": "C90", "title": "Collecting and chunking lookups keeps every input with its table", "statement": "LookupAny fails exactly if an input contains a simple selector. The identifiers of two tables without scaled expressions and without constants at the top are equal if and only if the tables are equal up to query indices; hence the map has every table once and every lookup once, and its entries hold in a table of values if and only if the lookups do. ChunkLookups puts every input into exactly one argument. If all lookups are into one table, or all are into different tables, the arguments hold if and only if the lookups do; the minimum degree becomes one more than the smallest power of two that the gates and every lookup on its own need, unless it was larger, and no argument exceeds it if no input is constant; inputs are placed first fit. (For scaled expressions, neighbouring constants, and several lookups into each of several tables the statements are false of the code.)", "quantifier": "all fields, constraint systems, lookups, tables of values, numbers of rows and minimum degrees", "why_tests_cant": "tests use a few fixed tables; that identifiers are unambiguous, and that no input changes its table for any number of lookups, are statements over all expressions and all constraint systems", "anchors": ["tachyon/zk/plonk/constraint_system/constraint_system.h", "tachyon/zk/plonk/constraint_system/lookup_tracker.h", "tachyon/zk/lookup/argument.h", "tachyon/zk/plonk/expressions/evaluator/identifier.h", "tachyon/zk/plonk/expressions/evaluator/simple_selector_finder.h"]}
{"id": "C91", "title": "Floor planners place regions and constants without overlap", "statement": "V1: planning never fails a CHECK; every region gets a start, the rectangles of different regions share no cell, and in some order of the regions with descending advice areas each start is the least row where the region overlaps with none before it, whatever the order of the columns; no region ends behind the sum of all heights. The positions for constants are, once each, the cells of the constant columns that are above the end of some region and in no rectangle; synthesis fails exactly if they are fewer than the constants, and else the calls are the writes of each region from its start on, copies between the places of the cells, and one fixed cell with a copy per constant. Simple: each region starts at the first row behind everything in its columns, its constants follow in the first constant column; it fails exactly if there is a constant and no such column. With both no cell is written by two regions or constants.", "quantifier": "all types of columns and values, lists of regions, orders of columns, results of the unstable sorts, lists of constant columns", "why_tests_cant": "tests place a few small circuits; that first fit with slack over several columns never overlaps and finds the least row is a statement over all shapes and orders of regions, and overlapping cells would overwrite witness values", "anchors": ["tachyon/zk/plonk/layout/region_shape.h", "tachyon/zk/plonk/layout/cell.h", "tachyon/zk/plonk/layout/floor_planner/allocated_region.h", "tachyon/zk/plonk/layout/floor_planner/allocations.h", "tachyon/zk/plonk/layout/floor_planner/plan_region.h", "tachyon/zk/plonk/layout/floor_planner/single_chip_layouter.h", "tachyon/zk/plonk/layout/floor_planner/simple_floor_planner.h", "tachyon/zk/plonk/layout/floor_planner/v1/v1_strategy.h", "tachyon/zk/plonk/layout/floor_planner/v1/v1_strategy.cc", "tachyon/zk/plonk/layout/floor_planner/v1/v1_floor_planner.h", "tachyon/zk/plonk/layout/floor_planner/v1/measurement_pass.h", "tachyon/zk/plonk/layout/floor_planner/v1/assignment_pass.h"]}
{"id": "C92", "title": "Fixed columns, selectors, copies, lookup tables and witnesses are those of the circuit", "statement": "Key generation fails exactly if a call of the circuit has a row that is not usable or an unknown column; else fixed cells hold the last value given and zero elsewhere, in particular in all rows that are not usable, a selector is on exactly where it was enabled, and a table of values respects the cycles of the cells exactly if it respects all copies. A lookup table whose columns are new and whose first cells are assigned once is accepted exactly if it has a column and all columns have the same rows from the first on without holes; afterwards every usable row of the table is one of the rows assigned, whatever the order of the hash map; with as many rows as are usable key generation fails; a first cell assigned twice gives rows that differ. The advice columns are made phase by phase from circuits that know the challenges of earlier phases only; all columns of all circuits of a phase precede its challenges in the transcript; each column holds the last values given, zeros elsewhere and a one in the last row; the exported challenges are all of them by index if the phases of the challenges have advice columns.", "quantifier": "all numbers of columns and rows, lists of calls, tables, orders of the hash map, circuits as functions of the known challenges, phases of columns and challenges, transcripts", "why_tests_cant": "tests synthesise a few circuits; that each cell has the value the circuit gave last, that copies and cycles agree and that no column of a phase depends on a later challenge are statements over all sequences of calls and all circuits", "anchors": ["tachyon/zk/plonk/keys/assembly.h", "tachyon/zk/plonk/keys/key.h", "tachyon/zk/plonk/layout/assignment.h", "tachyon/zk/plonk/layout/lookup_table.h", "tachyon/zk/plonk/layout/floor_planner/simple_lookup_table_layouter.h", "tachyon/zk/plonk/layout/floor_planner/lookup_table_assigner.h", "tachyon/zk/plonk/halo2/witness_collection.h", "tachyon/zk/plonk/halo2/synthesizer.h", "tachyon/zk/plonk/constraint_system/constraint_system.h"]}
{"id": "C93", "title": "The halo2 verifier reads what the prover wrote, with the same challenges and openings, and accepts honest proofs", "statement": "For every constraint system, number of circuits, lookup argument and commitment scheme (with or without batches, with or without committed instances) the halo2 prover makes a proof. It says the verifying key and the instances first, and commits to everything it makes after a challenge before it asks for the next; a challenge of the circuit is asked for when all advice columns of all circuits of its phase and of earlier phases are committed to. The verifier reads this proof to its end whatever follows it, its transcript is the prover's, and it has the prover's challenges theta, beta, gamma, y, x, the commitments to the prover's polynomials and their values at the points of all queries; instance values that it computes itself are those of the prover's polynomials. Its list of the challenges of the circuit is the prover's if later challenges are not of earlier phases, and is in another order otherwise. Prover and verifier open the same polynomials at the same points in the same order with true values, as many as announced, if the value the verifier expects of the quotient is its value at x; then the verifier accepts the proof with GWC, and with SHPlonk unless a challenge hits one of finitely many points, in which case the prover fails.", "quantifier": "all shapes of constraint systems, keys, instances, polynomials computed from the transcript, hash functions of the transcript, domains, proofs followed by anything, addresses, pairings, secrets", "why_tests_cant": "tests run a few fixed circuits with one transcript; that writer and reader agree for every number of columns, phases, lookups, shuffles and circuits, and that each challenge follows the commitments it must bind, are statements over all constraint systems", "anchors": ["tachyon/zk/plonk/halo2/prover.h", "tachyon/zk/plonk/halo2/verifier.h", "tachyon/zk/plonk/halo2/proof_reader.h", "tachyon/zk/plonk/halo2/proof.h", "tachyon/zk/plonk/halo2/synthesizer.h", "tachyon/zk/plonk/halo2/argument_data.h", "tachyon/zk/base/entities/prover_base.h", "tachyon/zk/plonk/vanishing/vanishing_prover_impl.h", "tachyon/zk/plonk/vanishing/vanishing_verifier.h", "tachyon/zk/plonk/permutation/permutation_prover_impl.h", "tachyon/zk/plonk/permutation/permutation_verifier.h", "tachyon/zk/lookup/halo2/prover_impl.h", "tachyon/zk/lookup/halo2/verifier.h", "tachyon/zk/lookup/log_derivative_halo2/prover_impl.h", "tachyon/zk/lookup/log_derivative_halo2/verifier.h", "tachyon/zk/shuffle/prover_impl.h", "tachyon/zk/shuffle/verifier.h", "tachyon/crypto/transcripts/transcript.h"]}
{"id": "C94", "title": "Multivariate sparse polynomials: evaluation, sums and differences, coefficients, equality, degree", "statement": "Evaluate of a multivariate polynomial in sparse form gives the value of the polynomial for every number of threads, and succeeds exactly if the number of variables is known, there are not more coordinates than variables, and each variable that occurs has a coordinate. Compact keeps the polynomial and removes zeros. AddInPlace and SubInPlace give the sum and the difference if literals that operator< does not tell apart stand for the same monomial, and on normal forms they give normal forms; they fail exactly if operands are not zero and the result is. Without that condition the sum is wrong: any two different literals that operator< does not tell apart, as x0*x1 and x0^2*x1, are added as if they were equal. Add and Sub give the same terms but leave the number of variables uninitialised, so that the result cannot be evaluated; a polynomial that is not zero cannot be subtracted from itself. Negation is exact, operator== decides equality of polynomials in normal form, operator[] gives the coefficient under the same condition, and Degree is not more than the degree and the degree in one variable.", "quantifier": "all fields, polynomials, literals, points, numbers of threads", "why_tests_cant": "tests add a few small polynomials whose literals the comparison tells apart, and compare terms only; the failing sums, the uninitialised number of variables and the undefined difference appear only in cases the tests do not have", "anchors": ["tachyon/math/polynomials/multivariate/multivariate_sparse_coefficients.h", "tachyon/math/polynomials/multivariate/multivariate_polynomial_ops.h", "tachyon/math/polynomials/multivariate/multivariate_polynomial.h"]}
{"id": "C95", "title": "The circle group: group laws, scalar multiplication, the generators of m31::G1 and m31::G4, and their scalars", "statement": "On the points of x^2 + y^2 = 1 over any commutative ring Add, Sub, Negate and Zero are a commutative group, closed on the circle; Double is Add of a point to itself on the circle and for no other point; ScalarMul by every BigInt gives the power of x + y*i. The generator of m31::G1 is on the circle, and each point of the circle over Mersenne31 is the generator times exactly one scalar of m31::Fr, whose arithmetic modulo 2^31 is that of the multiples of every point. The generator of m31::G4 is on the circle, and each point of the circle over m31::Fq4 is ScalarMul of it by exactly one number below the modulus of m31::Fr4. The constants the generator of Montgomery fields writes are what FromBigInt computes if the modulus is odd. But m31::Fr4 is a Montgomery field with an even modulus: One() and FromBigInt(1) are 0, so that a point times One() is the zero point; Mul is the quotient of the product by R, rounded down, and has no identity; ToBigInt is 0 for every element.", "quantifier": "all commutative rings and points; all scalars; all points of the two circles; all elements of Fr4", "why_tests_cant": "the tests take random points of two circles, a few of the 2^31 and about 2^124 points; they use the scalar field of G4 only to make random points, which any values do", "anchors": ["tachyon/math/circle/affine_point.h", "tachyon/math/circle/circle.h", "tachyon/math/circle/m31/BUILD.bazel", "tachyon/math/finite_fields/generator/generator_util.h"]}
{"id": "C96", "title": "Sparse matrices: conversion between ELL, CSR and Eigen, sorting, sizes", "statement": "ToCSR gives row pointers from zero to the number of elements that do not go down, and ToELL gives the matrix back; of such row pointers ToELL gives the rows that the pointers name, and ToCSR gives the matrix back. For other row pointers ToELL uses differences only: adding a number to all pointers changes nothing. Sort keeps the entries of the matrix and puts each row in order, IsSorted decides that, and both agree between ELL and CSR; Sort of a CSR matrix is defined exactly if the row pointers do not go down and stay within the elements, and never changes them; its IsSorted never returns false because of row pointers. MaxCols of CSR is one more than the largest column, defined if there are elements; MaxCols of ELL is defined exactly if there are rows and none is empty, and then agrees on sorted rows; so ToEigenSparseMatrix of ELL is undefined for a matrix with an empty row, as the one in the comment of the header. NonZeros of ELL adds up in an int and is right exactly below 2^31 elements. The entries are kept over Eigen and back, and a matrix without empty rows with strictly increasing columns comes back as it was.", "quantifier": "all matrices, row pointers and value types; all sorting algorithms; all orders of Eigen's iterators", "why_tests_cant": "the tests have one matrix of four rows, none of them empty, with row pointers that start from zero; the undefined cases and the int sum do not show in them", "anchors": ["tachyon/math/matrix/sparse/sparse_matrix.h"]}
{"id": "C97", "title": "circom: the quotient at odd powers, Groth16 with snarkjs keys, circuits from r1cs files", "statement": "The vectors of the first two matrices are the products of their rows with the wires in every order of the parallel loop; an index out of range is not checked. WitnessMapFromMatrices gives the values of A B - D at the odd powers of the root of unity of twice the order, where D has the products of the values of A and B on the domain; these values are -2 times those of the quotient, and with the points of a snarkjs key they combine to the value of A B - D at the secret point. So for all values of the wires the prover makes a proof, and it is accepted exactly if D and C agree at the secret point: always, if the values satisfy the constraints, for all secrets with gamma and delta not zero and all r and s; and otherwise for at most 2^k - 1 secret points. The circuit made from an r1cs file uses only its own variables, has the wires as values, and is satisfied exactly if the constraints hold; other wires give the same circuit. Findings: for the largest two-adic domain the check of GetRootOfUnity fails; if all products of rows of the first matrix are zero, the check of at(0) fails.", "quantifier": "all fields with radix-2 domains, constraint systems, coefficients, wires, secrets, random values, pairings, schedules and thread counts", "why_tests_cant": "the tests prove one multiplier circuit with one key; no acceptance for all circuits, nothing about false statements, and neither the largest domain nor a zero polynomial occur", "anchors": ["vendors/circom/circomlib/circuit/quadratic_arithmetic_program.h", "vendors/circom/circomlib/circuit/circuit.h", "vendors/circom/circomlib/zkey/zkey.h", "vendors/circom/circomlib/zkey/proving_key.h", "vendors/circom/prover_main.cc"]}
{"id": "C98", "title": "circom files: the parsers of wtns, r1cs and zkey files accept exactly the format", "statement": "For all bytes, ParseWtns, ParseR1CS and ParseZKey return a value exactly if the bytes are a file of the format with this value: word, version and number of sections, headers of sections that follow each other, and in the first section of each type the numbers, moduli, constraints, labels, coefficients and points in their order. Files made of sections, in any order and with others between them, are read back; so a file with the bytes of a key and one with the values of the variables give the prover just these. Null is returned exactly for a wrong word or version; no bytes behind them lead to undefined behaviour, whatever they are, but every other file not of the format ends the program. Findings: the comment promises null for every failure; the size of a section is used only to find the next one, so contents may run over its end, and it is added in 64 bits, so that one header may stand for many; the number of instance variables is that of the header exactly if the sum fits 32 bits; the modulus is not compared with that of the field.", "quantifier": "all byte strings below 2^64 bytes, all sizes of field elements and points below 2^32, all section orders, on a little-endian machine", "why_tests_cant": "the tests read three files made by circom; none has other orders, repeated or overlapping sections, sizes near 2^64 or truncated contents", "anchors": ["vendors/circom/circomlib/base/sections.h", "vendors/circom/circomlib/base/modulus.h", "vendors/circom/circomlib/wtns/wtns.h", "vendors/circom/circomlib/r1cs/r1cs.h", "vendors/circom/circomlib/zkey/zkey.h", "vendors/circom/circomlib/zkey/verifying_key.h"]}
{"id": "C99", "title": "halo2 transcripts: the verifier reads what was written and gets the same challenges, which depend on all that was sent", "statement": "For every sequence of messages (told or sent through the proof) and challenges and every transcript, the writer's proof is the bytes of the messages in their order, and a reader asking for the same at these bytes, whatever follows them, gets the same messages and challenges, ends in the same state and stands behind the proof; each challenge is that of the state after everything before it. This holds of the serializer of Blake2b and Poseidon for all points on the curve (in the legacy form not those with x = 0) if the coordinates leave the highest bit or two free, and of that of Sha256 for all pairs. For all bytes, a compressed point is accepted exactly if the bytes are a number that stands for it, so it is zero or on the curve. Two Blake2b transcripts hash the same bytes only if they saw the same; two of Sha256 only if so, or with a collision, or with a digest that starts with 31 zeros. Both Poseidon transcripts squeeze the same challenges, those of a sponge with a one behind its padded input, for every permutation. FromUint512 is the number modulo the modulus. Findings: CheckBits tests the bits of the modulus modulo 8, not the free ones, and accepts a modulus of 255 bits, for which points have no bytes; the legacy form reads a point with x = 0 as zero; numbers not below the modulus are read, so proofs are malleable; Sha256 reads points off the curve; Blake2b hashes zero like (0, 5); Poseidon cannot tell a point from two scalars; SimpleTranscript does not see the order of messages.", "quantifier": "all sequences of actions, hash functions, permutations, rates, fields with odd prime modulus, curves, byte strings, on a little-endian machine", "why_tests_cant": "the tests write and read one point and one scalar and compare a few digests; that different transcripts never hash the same bytes, that any interleaving stays in step and that the two sponges agree are statements over all sequences", "anchors": ["tachyon/crypto/transcripts/transcript.h", "tachyon/crypto/transcripts/simple_transcript.h", "tachyon/zk/plonk/halo2/blake2b_transcript.h", "tachyon/zk/plonk/halo2/sha256_transcript.h", "tachyon/zk/plonk/halo2/poseidon_transcript.h", "tachyon/zk/plonk/halo2/snark_verifier_poseidon_transcript.h", "tachyon/zk/plonk/halo2/proof_serializer.h", "tachyon/zk/plonk/halo2/prime_field_conversion.h"]}
{"id": "C100", "title": "halo2 from witness to verdict: a satisfied circuit gives a proof that the whole verifier accepts", "statement": "For every constraint system with lookups of halo2 and at most one shuffle, every number of circuits and every KZG setup, the halo2 prover makes a proof with GWC, and with SHPlonk unless a challenge hits one of finitely many points. If in the run the gates vanish in all rows of all circuits and the columns of the permutation, lookup and shuffle arguments satisfy their constraints, then CreateHEvals and CreateFinalHPoly compute a quotient for every number of threads and every order of the parallel loops; if this is what the prover commits to and the point x is not in the domain, then EvaluateH of the verifier, computed only from what it has read from the proof, is the value of that quotient at x, and VerifyProof, which reads the proof, evaluates the constraints and checks the openings, returns true, whatever bytes follow the proof. If the witness of a circuit satisfies the gates, the copies, the lookups (as tuples, before compression) and the shuffles, and the sigmas, permuted columns and grand products have in the rows the values that the code computes for the challenges of the run, then the constraints of the arguments hold unless a challenge hits the negative of a value; so the proof is accepted.", "quantifier": "all constraint systems with at most one shuffle, keys, witnesses, instances, hash functions of the transcript, domains of at most 2^30 rows, thread counts and schedules, pairings, secrets, trailing bytes", "why_tests_cant": "the end-to-end tests compare proofs of a few fixed circuits with recorded bytes; that the evaluations in the proof are those the constraints need, in the order the verifier takes them, is a statement over all constraint systems and witnesses", "anchors": ["tachyon/zk/plonk/halo2/prover.h", "tachyon/zk/plonk/halo2/verifier.h", "tachyon/zk/plonk/halo2/proof.h", "tachyon/zk/plonk/halo2/argument_data.h", "tachyon/zk/plonk/vanishing/vanishing_prover_impl.h", "tachyon/zk/plonk/vanishing/vanishing_verifier.h", "tachyon/zk/plonk/permutation/permutation_prover_impl.h", "tachyon/zk/lookup/halo2/prover_impl.h", "tachyon/zk/shuffle/prover_impl.h"]}
{"id": "C101", "title": "random generators: the streams are those of the seed, states are never lost, field elements are almost uniform", "statement": "For every seed of 16 bytes and however it was used before, XORShiftRNG gives for ever the xorshift sequence of Marsaglia that starts with the seed; its step is injective, so every state comes back, and zero is never reached from another state. For every core function with 64 bytes and every seed of 32 bytes, word n of a new ChaCha20RNG is for all n word n mod 16 of block n / 16 of the seed, and no two inputs of the first 2^64 blocks, or of blocks of two seeds, are the same. Seeds of other lengths are refused and change nothing; states are read as they were written. NextUint64 is two words, the first the lower one; RandomFieldGenerator gives for every odd modulus of four limbs the number of 16 words modulo it, so each element comes from floor(2^512/p) or one more of the choices of the words. Findings: XORShiftRNG accepts the seed of zeros and then gives only zeros; SetSeed of a used ChaCha20RNG keeps the rest of the block of the old seed and the counter; ReadFromBuffer accepts an index with which the next word is read out of bounds.", "quantifier": "all seeds, states, numbers of calls, core functions, odd moduli of four limbs", "why_tests_cant": "the tests compare a few words for one seed; the words behind an overflow of the 32-bit counter, the cycles of 2^128 states and the distribution over 2^512 choices cannot be run", "anchors": ["tachyon/crypto/random/rng.h", "tachyon/crypto/random/block_rng.h", "tachyon/crypto/random/xor_shift/xor_shift_rng.h", "tachyon/crypto/random/cha_cha20/cha_cha20_rng.h", "tachyon/zk/plonk/halo2/random_field_generator.h"]}
{"id": "C102", "title": "Pedersen commitments: right sums, perfect hiding, binding, and batches in any order", "statement": "For every group that is a module over the scalar field, all generators, vectors and blinding factors, Commit gives r h + v0 g0 + ... exactly for vectors as long as the generators and refuses all others. Commitments are linear in vector and blinding factor. If h is not zero and generates the group, every element of the group is for every vector its commitment with exactly one blinding factor. Two openings of one commitment give a nontrivial relation between h and the generators, with a generator in it if h is not zero; for one generator its discrete logarithm. After SetBatchMode, commitments made in any order are given by GetBatchCommitments at their indices, and the state is then as before; a batch within a batch, a commitment without a batch and an index outside fail. Parameters read from a buffer commit like those written. Findings: in batch mode the blinding factor is ignored, so the commitments hide nothing; Setup does not compare with MaxSize, and parameters above it cannot be read; a batch of no vectors is not started.", "quantifier": "all modules over fields, generators, vectors, blinding factors, orders of the commitments of a batch, sizes", "why_tests_cant": "the tests commit to a few random vectors and compare batches with the plain multi-scalar multiplications, without blinding factors; hiding and binding are statements over all openings of a commitment", "anchors": ["tachyon/crypto/commitments/pedersen/pedersen.h", "tachyon/crypto/commitments/vector_commitment_scheme.h", "tachyon/crypto/commitments/batch_commitment_state.h"]}
{"id": "C103", "title": "AIR constraint systems: IsSatisfied checks exactly the constraints at their rows", "statement": "For every field, system of arithmetic constraints with variables in range, public values, trace of at least two rows and preprocessed columns of the right sizes, IsSatisfied does not fail and returns true exactly if the constraints of the first row vanish in the rows 0 and 1, those of the last row in the last two rows, and those of transitions and all others in every two rows that follow each other; with other sizes it fails. Degree times the degree of the columns bounds the degree of the polynomial that a constraint becomes when its variables are polynomials, and that polynomial has the values of the constraint. Findings: a trace of one row satisfies every system; a constraint on single rows is not checked in the last row; variables of challenges and permutations are silently zero.", "quantifier": "all fields, systems, traces, public values and preprocessed columns, numbers of rows", "why_tests_cant": "the tests check two systems with traces of four and five rows that satisfy them; that nothing else is accepted is a statement over all traces", "anchors": ["tachyon/zk/air/constraint_system/constraint_system.h", "tachyon/zk/air/constraint_system/variable.h", "tachyon/zk/air/expressions/air_evaluator.h"]}
{"id": "C104", "title": "Configuring a plonk constraint system: queries, columns, phases, equality and blinding factors", "statement": "For every sequence of configuration calls on an empty constraint system: a query of a column at a rotation gets an index at which it stands from then on, there is no other, and asking again gives the same one; no query is there twice; a column of advice that was not created cannot be queried; columns, selectors (simple and complex together) and challenges are numbered from zero in the order of creation; with an advice column, GetPhases gives exactly the phases of the advice columns, and challenges come after used phases; a column with equality is once in the permutation argument and is queried at rotation zero, and columns of constants are among them; the blinding factors, computed for the first time, are at least five, at least two more than the queries of any advice column, and no more than that needs. Findings: the blinding factors are cached and stay too small when queries are added afterwards; the order of columns does not look at the index.", "quantifier": "all finite sequences of configuration calls, columns, rotations and phases", "why_tests_cant": "the tests configure a handful of circuits; that indices stay valid and unique is a statement over all sequences of calls", "anchors": ["tachyon/zk/plonk/constraint_system/constraint_system.h", "tachyon/zk/plonk/base/column_key.h", "tachyon/zk/plonk/permutation/permutation_argument.h"]}
{"id": "C105", "title": "Ranges of integers: what loops over them visit, their size, emptiness and intersection", "statement": "For every integer type of 32 to 64 bits, each of the four kinds of ranges and all bounds: a loop over a range whose start is not behind its end (for ranges that include neither: before it) and whose included end is not the largest value ends and visits exactly the values that the range contains, once each, in increasing order; GetSize is their number unless the difference overflows, which it cannot for unsigned types. If IsEmpty is true nothing is contained, and the converse holds for ranges that include an end. Intersect contains what both ranges contain. Findings: IsEmpty is false for a range that includes neither end and contains nothing; loops over reversed ranges do not stop at once, and overflow for signed types; an included end that is the largest value overflows: no loop for signed types, an empty loop and size zero for the unsigned range of all values; All and From of the default kind do not contain the largest value.", "quantifier": "all integer types of up to 64 bits, kinds of ranges, bounds and values", "why_tests_cant": "the tests look at small ranges with proper bounds; the findings are at bounds that no test uses, and the rest is a statement over all of them", "anchors": ["tachyon/base/range.h"]}
{"id": "C106", "title": "Example circuits: what their constraints imply, and that the assigned witnesses satisfy them", "statement": "For every field: whatever values satisfy the gates and copies of Fibonacci1Circuit with n rows after the first, or of Fibonacci2Circuit with at least four rows, the third public value is the Fibonacci sequence from the first two (21 x + 34 y for the circuits of the code), and for that public value the assigned advice satisfies the circuit. Where the gate of IsZeroChip vanishes, its expression is one exactly for the value zero, whatever inverse the prover chose. Values that satisfy Fibonacci3Circuit have the output c if a = b and else a - b, and the assigned advice satisfies it if a and b differ. Values that satisfy SimpleCircuit have the public value constant (a b)^2, and the assigned advice satisfies it for that value. Finding: for a = b, as in the default constructor of Fibonacci3Circuit, IsZeroChip::Assign writes through an empty optional.", "quantifier": "all fields, public values, witnesses (honest or not) and numbers of rows", "why_tests_cant": "the tests prove and verify honest witnesses; that no other values satisfy the constraints is a statement over all witnesses", "anchors": ["tachyon/zk/plonk/examples/simple_circuit.h", "tachyon/zk/plonk/examples/fibonacci/fibonacci1_circuit.h", "tachyon/zk/plonk/examples/fibonacci/fibonacci2_circuit.h", "tachyon/zk/plonk/examples/fibonacci/fibonacci3_circuit.h", "tachyon/zk/plonk/examples/fibonacci/is_zero_chip.h"]}
{"id": "C107", "title": "The shuffle circuit: satisfied exactly by reordered rows, but for few challenges", "statement": "For every field, width from one on, height and pair of tables of ShuffleCircuit: if the rows of the shuffled table are the rows of the original one in some order, the assigned advice satisfies the circuit for all challenges that make no row of the shuffled table vanish. If they are not, then over a finite field F at most 2 h (w - 1) |F| + 2 h |F| of the |F|^2 pairs of challenges let any values of z whatever satisfy the circuit with the two tables; such pairs do occur, namely where a row of the original table vanishes and not before it a row of the shuffled one. Finding: Synthesize assigns the elements of z by index in a vector that has memory reserved but is empty; where indices are checked, it fails for every circuit.", "quantifier": "all fields, widths, heights, tables, challenges and columns z, honest or not", "why_tests_cant": "the test proves one table with one honest witness; soundness is a count over all challenges and all columns z", "anchors": ["tachyon/zk/plonk/examples/shuffle_circuit.h"]}
{"id": "C108", "title": "Circuits with lookups and with the shuffle argument: what they prove", "statement": "For every field and all sizes: the lookup of SimpleLookupCircuit holds in all usable rows exactly if the advice in each of the 2^k rows of its region is one of 1, ..., 2^Bits, and the assigned advice satisfies it; the circuit fits exactly if its table and its region fit in the usable rows. Whatever the advice is, the shuffle of ShuffleAPICircuit holds exactly if the pairs in the region of inputs are the pairs in the region of shuffled values in some order, apart from pairs of zeros, and without that exception if the regions have one size. Whatever the advice is, the gates and copies of MultiLookupCircuit hold exactly if the first value is the public one and each product row holds a, b, a b and each row of sums holds a, a b, a + a b; the assigned advice satisfies it. Findings: the second factor b is not bound to a, though a^2 is meant; the constructor of ShuffleAPICircuit compares the sizes of vectors it has moved from and so accepts lists of different sizes, for which Synthesize reads past the end.", "quantifier": "all fields, bit numbers, numbers of rows, places of regions, and all advice, honest or not", "why_tests_cant": "the tests prove and verify one honest witness of one size; which other advice is accepted is a statement over all advice", "anchors": ["tachyon/zk/plonk/examples/simple_lookup_circuit.h", "tachyon/zk/plonk/examples/shuffle_api_circuit.h", "tachyon/zk/plonk/examples/multi_lookup_circuit.h"]}
{"id": "C109", "title": "Integers as elements of prime fields: exact, injective, and what negative ones become", "statement": "For every integral type of at most 64 bits and every modulus: PrimeFieldSerializable turns a value that is not negative into an element exactly if it is below the modulus, and that element is the value; a list is taken exactly if all its values are below the modulus, else the elements before the first that is not have been added; different lists give different elements. Negative values of at most 32 bits are refused by moduli of at most 31 bits. Findings: negative values of 64 bits are accepted for moduli of at most 32 bits, as what 32 bits leave of them, and for moduli above 2^64 every negative value becomes the element of an unsigned one, unless a DCHECK stops it.", "quantifier": "all integral types, moduli, values and lists, builds with and without DCHECK", "why_tests_cant": "the tests serialise a few small positive values; injectivity and the conversions of negative values concern all values and types", "anchors": ["tachyon/crypto/hashes/prime_field_serializable.h"]}
{"id": "C110", "title": "Chunked iteration: the pieces of a container in order, and when it ends", "statement": "A loop over the chunks of a container of n elements, for a size c of chunks of at least one and n + c below 2^64, ends and sees the pieces of c elements in their order, the last one possibly shorter; joined they are the container. With c = 0 and n > 0 it never ends. Where n + c overflows and n is at most c it dies. The difference of two iterators, the later first, is the number of chunks between them. Finding: the earlier first it is a number that is not negative for c of at least two.", "quantifier": "all containers, sizes of chunks and pairs of iterators", "why_tests_cant": "the tests iterate over two small vectors; termination and the overflow are about all sizes", "anchors": ["tachyon/base/containers/chunked_iterator.h", "tachyon/base/containers/adapters.h"]}
{"id": "C111", "title": "The circular deque is a list", "statement": "For every sequence of push_front, push_back, pop_front, pop_back, reserve, shrink_to_fit, clear and resize on a new circular_deque: it goes wrong (reads, moves or destroys what is not there, makes an object over another, or leaves its memory) exactly if the sequence takes from an empty deque; else size, empty, operator[], front and back are those of the list that the operations make, and the elements fit in the capacity.", "quantifier": "all sequences of operations and all elements", "why_tests_cant": "the tests run a few sequences; where the ring wraps, grows and shrinks depends on the whole sequence", "anchors": ["tachyon/base/containers/circular_deque.h", "tachyon/base/containers/vector_buffer.h", "tachyon/base/containers/stack.h"]}
{"id": "C112", "title": "The prime field of the GPU on the CPU: sums, differences, negatives and inverses", "statement": "For every odd modulus of which twice fits in the limbs, PrimeFieldGpuDebug adds and subtracts elements modulo the modulus, and the inversion of an element coprime to it ends and gives b with x*b = R^2 modulo the modulus, the Montgomery form of the inverse; differences need no bound on the modulus. The negative of an element other than zero is the modulus less it. Findings: the negative of zero is the modulus, which is not equal to zero, and its inversion never ends, though to add or subtract it changes nothing; for a modulus of which twice does not fit, -1 + -1 is wrong.", "quantifier": "all numbers and widths of limbs, moduli and elements", "why_tests_cant": "the class has no enabled test, and none would see that a loop never ends or all patterns of carries", "anchors": ["tachyon/math/finite_fields/prime_field_gpu_debug.h", "tachyon/math/finite_fields/carry_chain.h", "tachyon/math/finite_fields/prime_field_ops_internal.h"]}
{"id": "C113", "title": "The product of the prime field of the GPU on the CPU", "statement": "For every modulus of which twice fits in the words and kInverse32 its negative inverse modulo the word: MulLimbs of PrimeFieldGpuDebug, which keeps the even and the odd products of words in two accumulators and drops carries, fails no CHECK for a first factor of at most the modulus and any second factor, and its result is less than twice the modulus and the product over R modulo it; Mul of elements gives the element that times R is their product; an element coprime to an odd modulus times its Inverse is the one; a product with the negative of zero on the left is zero.", "quantifier": "all even numbers of words and widths of words, moduli, factors and contents of the memory of the result", "why_tests_cant": "the class has no enabled test; that no dropped carry is lost and no CHECK fails is about all factors and moduli", "anchors": ["tachyon/math/finite_fields/prime_field_gpu_debug.h", "tachyon/math/finite_fields/prime_field_ops_internal.h"]}
{"id": "C114", "title": "Values that may be unknown: terms in them, comparison, and the operator that never returns", "statement": "For every field and every term of sums, differences, products (of two values or of a value and an element), negatives, doubles, squares and inverses of zk::Value: if its variables are known, it is known and what the field says, unless something under an inverse is zero, when it fails; with a variable that is not known it never gives a known value. If everything under an inverse has a variable that is not known, the term does not fail. == is equality, two unknown values being equal; what is unknown is neither zero nor one. Finding: operator!= calls itself and never returns, whatever the values.", "quantifier": "all fields, terms and assignments of known and unknown values", "why_tests_cant": "the tests run single operations on a few values and never use !=; terms and assignments are unbounded", "anchors": ["tachyon/zk/base/value.h"]}
{"id": "C115", "title": "Loops over zipped vectors", "statement": "A for loop over Zipped(l, r) ends and sees the pairs of l and r in order if they have the same length; if not, it reads beyond the end of the shorter one rather than stopping. The difference of the iterators at the end and the beginning is the length of the first vector, so it is the number of pairs exactly if that is not longer than the second.", "quantifier": "all pairs of vectors", "why_tests_cant": "the tests zip vectors of the same small length; to read beyond an end is undefined and cannot be tested", "anchors": ["tachyon/base/containers/zipped_iterator.h", "tachyon/base/containers/adapters.h"]}
{"id": "C116", "title": "MaybeOwned is empty, holds a value or refers to memory outside, whatever is copied, moved, assigned and written", "statement": "For every sequence of copies, moves, assignments of values and of pointers to memory outside, and writes through the variables, that moves no variable to itself: the program fails exactly if it writes to a variable that is empty (never assigned, or moved from); otherwise each variable reads its own value, or the memory it refers to, as in a plain model of variables that are empty, a value or a reference; it owns a value exactly if it holds one, and no pointer is ever to the value inside another variable. Finding: a variable moved to itself has a null pointer and keeps its flag owned_.", "quantifier": "all sequences of operations, variables, values and memories", "why_tests_cant": "the tests run a few single operations; sequences in which copies and moves alias are unbounded", "anchors": ["tachyon/base/maybe_owned.h", "tachyon/base/maybe_owned_traits.h"]}
