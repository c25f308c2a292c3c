# Design of the formal model of kroma-network/tachyon

The code under study is the C++ in `/repo` at the pinned commit, read as text.
It was neither built nor run. The model is written by hand in Lean 4, function by
function; nothing is extracted automatically, so the correspondence between C++
and Lean is part of the trusted base. Every model definition cites the file and
lines it follows.

## Layout

* `lean/Verif/Spec/*`  – small independent specifications (value of a limb list,
  residues, polynomial quotient rings, group law on points, ...).
* `lean/Verif/Model/*` – the model of the C++ code.
* `lean/Verif/Proofs/*` – helper lemmas.
* `lean/Verif/Props/*` – the property theorems, each with an `example` showing
  that its hypotheses are satisfiable by a non-trivial case.

`MANIFEST.json` maps each property of `properties.jsonl` to theorem names.

## Trusted base

* Lean 4.33.0 kernel, Mathlib 4.33.0 definitions used in specifications
  (`ZMod`, `Polynomial`, `WeierstrassCurve.Affine.Point`, ...).
* Axioms: only `propext`, `Classical.choice`, `Quot.sound` (a subset for each
  theorem). No own axioms, no `sorry`, no `native_decide`, no `bv_decide`.
* The hand translation from C++ to Lean. Machine words are modelled with their
  wrap-around; C++ undefined behaviour is modelled as an explicit `none` where
  the property touches it, otherwise it is a stated precondition.

## General modelling decisions

* A `BigInt<N>` is the list of its `N` 64-bit limbs, least significant first.
* Field-generic code (extension fields, points, polynomials, MSM) is modelled
  over an arbitrary `Field`/`CommRing`/`AddCommGroup`; that the concrete fields
  satisfy the laws is the job of the prime-field properties.
* OpenMP loops are modelled as chunked computations quantified over the chunk
  size (the number of threads), and where the loop writes to memory over every
  order in which the iterations can run.
* `CHECK` failures (process abort) are modelled as `none`.

## Plan per property

| id | model | proof |
|----|-------|-------|
| C01 | limb-list carry/borrow loops of `AddInPlace`/`SubInPlace` | induction on limbs against `value` |
| C02 | `MulBy2`, `DivBy2`, shifts limb by limb | induction on limbs |
| C03 | schoolbook two-level loop with `MulAddWithCarry` | invariant of inner/outer loop |
| C04 | bit-by-bit long division | invariant after each bit |
| C05 | limb comparison loops | induction |
| C06 | byte/bit packing loops | induction, digit lemma |
| C07 | `MontgomeryReduce` limb loop + final conditional subtraction | loop invariant modulo 2^64, bound |
| C08 | CIOS fast path, slow path, squaring | invariant, uniqueness of canonical residue |
| C09 | conversions | from C07/C08 |
| C10 | add/sub/neg/double with carry flag | arithmetic |
| C11 | binary extended Euclid; inversion by division steps | invariants a*u = .. mod p, measure; the form (f-g)^2+3g^2 halves every two steps |
| C12 | 32-bit Montgomery reduction, Mersenne reduction | arithmetic on words |
| C13 | lane functions on 32/64-bit words | equality with C12 model |
| C14-C16 | formulas over a commutative ring/field | `ring`, against coefficients of polynomial quotient |
| C17-C18 | tower formulas | `ring`/`linear_combination` |
| C19-C21 | bit loops, NAF recoding | loop invariants |
| C22-C23 | chunked loops | induction, chunk independence |
| C24 | Shanks / Tonelli–Shanks loop | invariant on orders |
| C25-C30 | formulas case by case | against Mathlib's affine Weierstrass group law |
| C31-C34 | window digits, buckets, GLV joint double-and-add | sums in an arbitrary commutative group |
| C35-C37 | coefficient vectors / term lists | against `Polynomial` |
| C38-C39 | butterflies over arrays | recursion on the domain size, against polynomial evaluation |
| C40 | Lagrange interpolation loop | against `Polynomial` evaluation |
| C41 | array heap tree | invariant on heap indices; collision extraction |
| C42-C43 | round functions over tables | induction on the number of variables |
| C44 | byte buffer with offset and growth | round-trip by induction on writes |
| C45 | chunk arithmetic | partition lemma; permutation invariance |
| C46 | sort + count map + fill | multiset reasoning |
| C47 | mapping/aux/sizes tables | invariant over Copy sequences |
| C48 | challenger state machine | invariant over call histories |
| C49 | recursive tower, tables for <= 8 bits | recursion; complete enumeration of the finite tables |
| C50 | fractions | algebra |

Properties are appended to `properties.jsonl` as the model grows
(C51 `LinearCombination`, C52 Frobenius maps, C53 bit utilities,
C54 `SumOfProducts`, C55 `IsOnCurve`, C56 `CreateFromX`, C57 `FromRoots`,
C58 `Fold`, C59 domains, C60 twiddle cache, C61 filter polynomials, C62
batch FFT, C63 mixed radix, C64 evaluation form,
C65 field Merkle tree, C66 permutation argument, C67 lookup argument, C68 shuffle argument,
C69 log-derivative lookup,
C70 constraint expressions, C71 sponge, C72 Poseidon, C73 Poseidon2, C74 Grain generator, C75 two-adic cosets, C76 FRI, C77 TwoAdicFRI, C78 KZG and GWC, C79 SHPlonk, C80 SimpleFRI, C81 linear combinations, C82 constraint systems, C83 quadratic arithmetic programs, C84 Groth16, C85 pairings, C86 final exponentiations, C87 vanishing argument, C88 circuit polynomial, C89 selectors, C90 chunks of lookups, C91 floor planners, C92 key generation and witnesses, C93 the messages of halo2, C94 multivariate polynomials, C95 the circle group, C96 sparse matrices, C97 circom, C98 its files, C99 the transcripts, C100 the whole of halo2, C101 the random generators, C102 Pedersen commitments, C103 AIR, C104 configuration, C105 ranges, C106 example circuits, C107 the shuffle circuit, C108 circuits with lookups, C109 to C111 integers as elements, chunks and the deque, C112 and C113 the prime field of the GPU on the CPU, C114 values that may be unknown, C115 zipped vectors, C116 owned values or pointers were added this way).

## What is modelled

| area | model file | source |
|------|-----------|--------|
| limb arithmetic, shifts, division, comparison | `Model/Word`, `Model/BigInt` | `tachyon/math/base/arithmetics.h`, `big_int.h` |
| bytes, bits, NAF, bit windows | `Model/Serialize` | `big_int.h`, `bit_iterator.h` |
| Montgomery arithmetic | `Model/Montgomery`, `Model/PrimeField` | `big_int.h`, `prime_field_fallback.h`, `modulus.h` |
| binary extended Euclid inversion | `Model/Inverse` | `big_int.h` |
| exponentiation, scalar multiplication, linear combination | `Model/Pow` | `semigroups.h`, `cyclotomic_multiplicative_subgroup.h` |
| 31/32-bit prime fields | `Model/SmallField` | `small_prime_field*.h`, `mersenne31/` |
| packed AVX2/AVX512/NEON prime fields | `Model/Packed` | `packed_prime_field32_*.h` |
| quadratic, cubic, quartic extensions, towers, Frobenius tables | `Model/ExtField`, `Model/Frobenius`, `Model/FieldInst` | `finite_fields/*extension_field.h`, `fp*.h` |
| bit utilities | `Model/Bits` | `tachyon/base/bits.h`, `bits.cc` |
| chunked OpenMP loops, schedules | `Model/Parallel`, `Spec/Schedule` | `tachyon/base/openmp_util.h`, `parallelize.h` |
| batch inversion, successive powers, sums of products, square roots | `Model/Group` | `groups.h`, `semigroups.h`, `ring.h`, `square_root_algorithms/` |
| short Weierstrass points in four coordinate systems, conversions, batch normalisation, `IsOnCurve`, `CreateFromX` | `Model/Curve`, `Spec/Curve` | `elliptic_curves/short_weierstrass/*.h`, `geometry/point_conversions.h` |
| Pippenger, window digits, adapter strategies, fixed-base MSM, GLV | `Model/MSM`, `Model/MSMCurve`, `Spec/MSM`, `Spec/Endo` | `elliptic_curves/msm/**`, `bit_iterator.h`, `gmp_util.cc` |
| univariate dense and sparse polynomials, division, evaluation, folding, roots, Lagrange interpolation | `Model/Poly`, `Spec/Poly` | `polynomials/univariate/univariate_{dense,sparse}_coefficients.h`, `univariate_polynomial.h`, `univariate_polynomial_ops.h`, `lagrange_interpolation.h` |
| roots of unity, evaluation domains, Lagrange coefficients, vanishing and filter polynomials | `Model/Domain`, `Spec/FFT` | `finite_fields/prime_field_base.h`, `prime_field_util.cc`, `polynomials/univariate/univariate_evaluation_domain.h` |
| radix-2 FFT and IFFT, bit reversal, twiddle cache | `Model/FFT`, `Spec/FFT` | `polynomials/univariate/radix2_evaluation_domain.h`, `radix2_twiddle_cache.h`, `evaluations_utils.h` |
| batch FFT of the columns of a matrix, coset low degree extension | `Model/BatchFFT`, `Spec/BatchFFT` | `polynomials/univariate/radix2_evaluation_domain.h`, `two_adic_subgroup.h`, `naive_batch_fft.h`, `math/matrix/matrix_utils.h` |
| mixed radix FFT | `Model/MixedRadix` | `polynomials/univariate/mixed_radix_evaluation_domain.h` |
| polynomials in evaluation form | `Model/Evals` | `polynomials/univariate/univariate_evaluations.h`, `univariate_evaluations_ops.h` |
| binary Merkle tree | `Model/Merkle` | `crypto/commitments/merkle_tree/binary_merkle_tree/binary_merkle_tree.h` |
| field Merkle tree | `Model/MMCS` | `crypto/commitments/merkle_tree/field_merkle_tree/*.h` (without CUDA) |
| multilinear polynomials | `Model/Multilinear` | `math/polynomials/multivariate/{multilinear_dense_evaluations,multilinear_extension,multilinear_extension_ops}.h` |
| sumcheck | `Model/Sumcheck` | `math/polynomials/multivariate/linear_combination{,_term}.h`, `crypto/sumcheck/multilinear/*.h` (without serialisation) |
| lookup arrangement | `Model/Lookup` | `zk/lookup/halo2/permute_expression_pair.h`, `Blinder::Blind`, `GetUsableRows` (the `reserve` call is not modelled) |
| copy constraints | `Model/Cycle` | `zk/plonk/permutation/{cycle_store.h,cycle_store.cc,permutation_assembly.h,unpermuted_table.h}` (labels are passed by value: calls of `MergeCycle` with references into the tables of the store are not modelled) |
| grand products | `Model/GrandProduct` | `zk/plonk/permutation/{grand_product_argument,permutation_table_store,permutation_prover_impl,permutation_verifier}.h` (openings and commitments excluded), the callbacks and constraints of `zk/lookup/halo2/{prover_impl,verifier}.h` and `zk/shuffle/{prover_impl,verifier}.h`, the `l_*` values of `zk/plonk/halo2/verifier.h` |
| log-derivative lookup | `Model/LogDerivative` | `zk/lookup/log_derivative_halo2/{prover_impl,verifier,evaluator}.h` (commitments, openings and the extended domain excluded), the binary search it uses |
| constraint expressions | `Model/Graph` | `zk/expressions/*`, `zk/plonk/expressions/{proving,verifying}_evaluator.h`, `zk/base/rotation.h`, `zk/plonk/vanishing/{value_source,calculation,graph_evaluator,custom_gate_evaluator}.h`, construction of the graphs in the evaluators of lookups and shuffles (AIR expressions, printing and simplification excluded) |
| rational field | `Model/Rational` | `math/base/rational_field.h` (`Random`, `TwoInv`, `ToString` excluded) |
| byte buffers | `Model/Buffer` | `base/buffer/{buffer,read_only_buffer,vector_buffer,string_buffer,copyable}.{h,cc}`: one type universe for all `Copyable` types; `resize` throws above one bound; out parameters of failing reads, moves of buffers and `bool` values other than 0 and 1 excluded; absl's loads and stores of a byte order are trusted |
| challengers, permutation hashes | `Model/Challenger` | `crypto/challenger/*.h`, `hashes/sponge/{padding_free_sponge,truncated_permutation}.h`: permutation and hash are parameters; the flag of `Grind` is an oracle; `SampleExtElement` is `SampleArray` followed by the constructor; `Split` for Montgomery fields only |
| binary tower fields | `Model/Binary` | `finite_fields/binary_fields/{binary_field,binary_tower_operations}.h`: values are natural numbers, the two limbs of 128 bits are one number; string parsing and `Random` are left out |
| Poseidon sponge | `Model/Sponge` | `crypto/hashes/sponge/{duplex_sponge_mode,sponge_state}.h`, `poseidon/poseidon_sponge_base.h`: `Absorb`, `SqueezeNativeFieldElements`, `AbsorbInternal`, `SqueezeInternal` (overloads for other types, bytes and bits excluded) |
| Poseidon permutation | `Model/Poseidon` | `crypto/hashes/sponge/poseidon/{poseidon,poseidon_config,sparse_mds_matrix}.h`, `ApplyARK*`/`ApplySBox*` of `poseidon_sponge_base.h`, `math/matrix/matrix_operations.h` for matching sizes (Eigen's `inverse` is an oracle; serialisation of the config excluded) |
| Poseidon2 permutation | `Model/Poseidon2` | `crypto/hashes/sponge/poseidon2/{poseidon2,poseidon2_external_matrix,poseidon2_*_external_matrix,poseidon2_*_internal_matrix}.h`, `MakeCirculant` of `math/matrix/matrix_utils.h`, shift arrays and the BabyBear width-24 diagonal of `param_traits` (drawing the constants and serialisation of the config excluded) |
| Grain generator | `Model/Lfsr` | `crypto/hashes/sponge/poseidon/{poseidon_grain_lfsr,poseidon_config_entry_base}.h`, `FindPoseidonARKAndMDS` of `poseidon_config.h`, `FindPoseidon2ARK` of `poseidon2_config.h`, `IsValid` of `poseidon_config_base.h` |
| Two-adic cosets | `Model/Coset` | `crypto/commitments/fri/{two_adic_multiplicative_coset,lagrange_selectors}.h`, `GetNaturalDomainForDegree` of `two_adic_fri.h` |
| FRI | `Model/Fri` | `crypto/commitments/fri/{fri_config,prove,verify,fri_proof}.h`; challenger and commitment scheme as records |
| TwoAdicFRI | `Model/TwoAdicFri` | `crypto/commitments/fri/two_adic_fri.h`, `DotExtPowers`, `PackRowHorizontallyPadded` of `math/matrix/matrix_utils.h`, `GetExtendedPackedPowers` of `math/finite_fields/extension_field_base.h`, `GetMaxRowSize` |
| KZG, GWC and SHPlonk | `Model/Kzg` | `crypto/commitments/kzg/{kzg,kzg_family,gwc,shplonk}.h`, `crypto/commitments/polynomial_openings.h`, the parts of `univariate_polynomial_commitment_scheme.h`, `vector_commitment_scheme.h` and `crypto/transcripts/transcript.h` they use, `LinearCombinationInPlace<false>` of `math/base/semigroups.h` (GPU code and serialisation of the setup excluded; the reloaded object is modelled) |
| SimpleFRI | `Model/SimpleFri` | `crypto/commitments/fri/{simple_fri,simple_fri_proof}.h`; transcript as a record |
| Inversion by division steps | `Model/ByInverter` | `math/base/byinverter.h` (without the product of two `CInt` and `Save` to `int64_t`, which are not used), `prime_field_fallback.h` `Inverse` |
| R1CS | `Model/R1cs` | `zk/r1cs/constraint_system/{variable,term,linear_combination,constraint_system,matrix,constraint_matrices,synthesis_mode}.h`; the unstable sort as any sorted permutation, the B-tree map as a sorted list; `TransformLCMap` moves the terms out of the old map, which nobody reads before it is replaced |
| QAP | `Model/Qap` | `zk/r1cs/constraint_system/quadratic_arithmetic_program.h` and the two result classes; radix-2 domains; the loops over the three matrices are separate, the parallel loops are maps |
| Groth16 | `Model/Groth16` | `zk/r1cs/groth16/{key,proving_key,verifying_key,prepared_verifying_key,toxic_waste,proof,prove,verify}.h`, `constraint_system/circuit.h`; groups as modules, points as the group elements they stand for, both kinds of multi-scalar multiplication by C31 and C33, the pairing as a bilinear map written additively; circuits as programs that cannot look at the mode or the values |
| Pairings | `Model/Pairing` | `math/elliptic_curves/pairing/{pairing,pairing_friendly_curve,g2_projective,g2_prepared_base,ell_coeff}.h`, `bn/{bn_curve,g2_prepared}.h`, `bls12/{bls12_curve,g2_prepared}.h`, the loop count of `bn/generator/generator.cc`; parametric in the operations of `Fp`, `Fp2` and `Fp12`, with the tower of C14, C15 and C17 as an instance (`C85_tower`); `FinalExponentiation` on values, references to updated variables resolved by hand; the pairs advance their own index |
| Vanishing argument | `Model/Vanishing` | `zk/plonk/vanishing/{vanishing_utils,vanishing_prover_impl,vanishing_verifier}.h`, `ComputeExtendedK` of `zk/plonk/constraint_system/constraint_system.h`, the instance values of `zk/plonk/halo2/verifier.h`; the exponent of `GetZeta` is a natural number; the random polynomial and the opening queries are left out; commitments are an abstract map that is linear on polynomials of up to `n` coefficients |
| Circuit polynomial | `Model/CircuitPoly` | `zk/plonk/vanishing/{circuit_polynomial_builder,vanishing_argument,custom_gate_evaluator}.h`, `zk/plonk/permutation/permutation_evaluator.h`, `zk/lookup/halo2/evaluator.h`, `zk/shuffle/evaluator.h`, the Lagrange polynomials of `zk/plonk/keys/proving_key.h`, `ComputeDegree` of `zk/plonk/constraint_system/constraint_system.h` without its cache, `EvaluateH` of `zk/plonk/halo2/verifier.h`; the path of the vendor Scroll; lookups of halo2 with one vector of input expressions; all circuits have the same numbers of polynomials; phases left out |
| Selectors | `Model/Selector` | `zk/plonk/constraint_system/{selector_compressor,exclusion_matrix,selector_description,selector_assignment}.h`, `CompressSelectors` of `zk/plonk/constraint_system/constraint_system.h`, `zk/plonk/expressions/evaluator/{simple_selector_extractor,selector_replacer}.h`; whether a selector is simple is a function of its index; the cache of the degree and `LOG(DFATAL)` left out; the `DCHECK` on the lengths is a check |
| Lookups with several inputs | `Model/LookupChunk` | `LookupAny`, `UpdateLookupsMap`, `ChunkLookups` of `zk/plonk/constraint_system/constraint_system.h` for `kLogDerivativeHalo2`, `zk/plonk/constraint_system/lookup_tracker.h`, `zk/lookup/argument.h`, `zk/plonk/expressions/evaluator/{identifier,simple_selector_finder}.h`; strings are lists of characters, the map is a sorted list; names left out |
| Floor planners | `Model/FloorPlan` | `zk/plonk/layout/{region_shape,cell}.h`, `zk/plonk/layout/floor_planner/{allocated_region,allocations,plan_region,single_chip_layouter,simple_floor_planner}.h`, `.../v1/{v1_strategy.h,v1_strategy.cc,v1_floor_planner.h,measurement_pass.h,assignment_pass.h}`; a circuit is the list of what its regions do, the same in both passes; rows are unbounded (`C91_bound`); names, instances and lookup tables left out |
| Key generation and witnesses | `Model/Assembly` | `zk/plonk/keys/{assembly,key}.h` (`CreateAssembly`), `zk/plonk/layout/floor_planner/{simple_lookup_table_layouter,lookup_table_assigner}.h`, `zk/plonk/halo2/{witness_collection,synthesizer}.h`, `GetPhases`; a circuit is the list of its calls, for witnesses a function of the known challenges; the hash map is iterated in any order; batch commitment tells the transcript the same columns in the same order; fractions are C50 |
| The messages of halo2 | `Model/Halo2Protocol` | `zk/plonk/halo2/{prover,verifier,proof_reader,proof,synthesizer,argument_data}.h`, `zk/base/entities/prover_base.h`, `crypto/transcripts/transcript.h`, `Commit`/`Evaluate`/`Open` of the vanishing, permutation, lookup and shuffle arguments; a transcript is the list of what it saw, a challenge any function of it; a proof is a list of commitments and scalars, not of bytes; what the prover computes between messages is any function of the transcript (the computations are C84-C88, C92); addresses are any injective numbering; prover and verifier have the same one |
| Multivariate polynomials | `Model/Multivariate` | `math/polynomials/multivariate/{multivariate_sparse_coefficients,multivariate_polynomial_ops}.h`; `std::lower_bound` finds the first term that is not less if the terms are partitioned, otherwise it is not allowed; without `ToString`, `Random`, `GetLeadingCoefficient` and the non-`const` `at` (the last two do not compile when they are used) |
| Circle group | `Model/Circle` | `math/circle/{affine_point,circle}.h`, `math/circle/m31/BUILD.bazel`, `MpzClassToMontString` of `math/finite_fields/generator/generator_util.h`; the base field is a commutative ring, `Fq2` and `Fq4` are Mathlib's `QuadraticAlgebra`; without `ComplexConjugate`, strings and random points |
| Sparse matrices | `Model/SparseMatrix` | `math/matrix/sparse/sparse_matrix.h`; Eigen's `setFromTriplets` is the relation its documentation states; without strings, `GetData` and `GetColumnIndices` |
| circom | `Model/Circom` | `vendors/circom/circomlib/circuit/{quadratic_arithmetic_program,circuit}.h`, `zkey/{coefficient,proving_key,verifying_key}.h`, the calls of `prover_main.cc`; the key is taken as read, with the points for the quotient that snarkjs computes |
| circom files | `Model/CircomFile` | `vendors/circom/circomlib/base/{sections,modulus}.h`, `wtns/wtns.h`, `r1cs/r1cs.h`, `zkey/{zkey,verifying_key,coefficient}.h` on the buffers of `Model/Buffer`; field elements and points by their bytes (`Types`); the conversion in place is done on the values read, so overlapping sections are not seen changed; not the reading of the file from the disk |
| transcripts | `Model/Transcript` | `crypto/transcripts/{transcript,simple_transcript}.h`, `zk/plonk/halo2/{blake2b_transcript,sha256_transcript,poseidon_transcript,snark_verifier_poseidon_transcript,proof_serializer,prime_field_conversion}.h`; hash functions are functions of all bytes since their initialisation, the permutation is any function; `FromUint512` is proved on limbs and used as its result; not the state passed to Rust |
| halo2 as a whole | `Model/Halo2Complete` | `zk/plonk/halo2/{prover,verifier,proof,argument_data}.h`: what the prover gives to the circuit polynomial and what the verifier takes from the proof for it; lookups of halo2 only. The columns are any functions of the transcript; in `C100_honest` they have in the rows the values that the code computes (the inverse transform between is C38) |
| random generators | `Model/Random` | `crypto/random/{rng,block_rng}.h`, `crypto/random/xor_shift/xor_shift_rng.h`, `crypto/random/cha_cha20/cha_cha20_rng.h`, `zk/plonk/halo2/random_field_generator.h` on a little-endian machine; `chacha_core` of OpenSSL is any function from words to 64 bytes |
| Pedersen commitments | `Model/Pedersen` | `crypto/commitments/pedersen/pedersen.h`, `crypto/commitments/{vector_commitment_scheme,batch_commitment_state}.h`; the multi-scalar multiplication is its result (C31); not the code for GPUs |
| AIR | `Model/Air` | `zk/air/constraint_system/{constraint_system,variable}.h`, `zk/air/expressions`; a matrix is its size and its entries; not the text of expressions, their comparison and `Complexity` |
| Configuration of plonk | `Model/Config` | `zk/plonk/constraint_system/constraint_system.h` (creation of columns, selectors and challenges, queries, equality, constants, phases, blinding factors), `operator<` of `zk/plonk/base/column_key.h`; not names and annotations |
| Ranges | `Model/Range` | `base/range.h` for integers of at least the width of `int`; not floating point, `ToString` and jumps of iterators |
| Example circuits | `Model/ExampleCircuits` | `zk/plonk/examples/simple_circuit.h`, `zk/plonk/examples/fibonacci`; rows as regions and offsets, known values; not the circuits with lookups |
| Shuffle circuit | `Model/ExampleShuffle` | `zk/plonk/examples/shuffle_circuit.h`; challenges known; `BatchInverseInPlace` as the inverse that leaves zeros |
| Circuits with lookups | `Model/ExampleLookups` | `zk/plonk/examples/simple_lookup_circuit.h`, `zk/plonk/examples/shuffle_api_circuit.h`, `zk/plonk/examples/multi_lookup_circuit.h`; known values; rows of regions, not where they are placed; the lookup of selectors that are never enabled is left out |
| Integers as field elements | `Model/FieldSerial` | `crypto/hashes/prime_field_serializable.h`; an element is the number given to its constructor |
| Chunked iterator | `Model/Chunked` | `base/containers/chunked_iterator.h`; iterators as indices |
| Circular deque | `Model/Deque` | `base/containers/circular_deque.h`, `base/containers/vector_buffer.h`; not iterators, `insert`, `erase` and overflows of `size_t` |
| Prime field of the GPU, on the CPU | `Model/GpuDebug` | `math/finite_fields/prime_field_gpu_debug.h`, `math/finite_fields/carry_chain.h`; `MulLimbs` is in `Model/GpuMul` |
| Product of the prime field of the GPU, on the CPU | `Model/GpuMul` | `math/finite_fields/prime_field_gpu_debug.h` (`MulLimbs`, `Mul`); `Clamp` on the same words |
| Values that may be unknown | `Model/ZkValue` | `zk/base/value.h`; not quotients and powers |
| Zipped vectors | `Model/Zipped` | `base/containers/zipped_iterator.h`; iterators as indices |
| Owned values or pointers | `Model/MaybeOwned` | `base/maybe_owned.h` with the general traits; not the traits of vectors, nor pointers into other variables |

SIMD intrinsics used by the packed fields are given a lane-wise meaning in
`Model/Packed`; that meaning (from the vendor documentation) is trusted.

Not modelled: GPU kernels and the generated assembly (`kernels/`, `*_gpu.h`,
`ffiasm`), the code generators themselves (the generated functions are modelled
from the template text), logging, flags, device memory, Python/JS/C bindings,
randomness.

## Disagreements between code and property found while reading

Each one is either proved (theorem name given) or recorded here until its area
is modelled.

Proved:

* C01: the portable 64-bit `SubWithBorrow` returns the inverted borrow
  (`C01_portable_borrow_inverted`).
* C06: `ExtractBits` is undefined when the window equals the word width or the
  index is out of range (`C06_extractBits_undefined`).
* C12: the default `Reduce64` does a single conditional subtraction.
* C14: `x *= x` through the Karatsuba `MulInPlace` with an aliased operand is not
  a square (`C14_aliased_mul_wrong`).
* C18: `FastCyclotomicSquare` is only squaring inside the cyclotomic subgroup
  (`C18_outside`).
* C19/C21: NAF of the all-ones value loses the final carry (`C21_naf_all_ones`),
  hence `CyclotomicPow` of that exponent returns the inverse.
* C52: the Frobenius table of `m31::Fq4` is computed from the non-residue of the
  base extension with exponents rounded down (`p % 4 = 3`)
  (`C52_m31_fq4_wrong`). Nothing asserts the congruences `n | p - 1` that the
  tables need.
* C22: with 128 or more threads `BatchInverse` evaluates `size_t{1} << 64`
  (`C22_threads_undefined`).
* C23: the bit-reversed powers are undefined for size one (`C23_bitRev_small`).
* C45: `GetNumElementsPerThread` ignores its threshold (`C45_threshold_ignored`);
  the initialising resize underflows when shrinking (`C45_resizeWith_shrink`).
* C25: Jacobian doubling for curves with `a != 0` computes `Z3 = 2(Y1+Z1)`
  (`C25_double_wrong`). No shipped curve has `a != 0`.
* C29: the XYZZ conversions treat `zz = 1` as normalised although `zzz` may be
  `-1`; a mixed addition reaches such a point (`C29_xyzz_shortcut_wrong`). The
  affine zero `(0,0)` is ambiguous when `b = 0` (`C29_origin_wrong`).
* C55: `IsOnCurve(XYZZ)` does not check `zz^3 = zzz^2` (`C55_xyzz_unchecked`);
  `IsOnCurve` is false for the point at infinity in every system.
* C53: `ReverseBitsLen(x, 0)` shifts by 64 (`C53_reverseBitsLen`).
* C31: after `kParallelWindowAndTerm` the adapter calls
  `omp_set_num_threads(omp_get_max_threads())`, which keeps the reduced number
  (`C31_threads_not_restored`).
* C32: `FillDigits` with 63-bit windows overflows `int64_t` (`C32_wide_undefined`).
* C34: `GLV::Mul` walks the bits of `k1` and `k2` from the top of their limbs; when
  the numbers of limbs differ the result is wrong, e.g. for `k = lambda` in bn254
  (`C34_mul_wrong`).
* C36: the zero polynomial divided by `g` has remainder `g`
  (`C36_zero_dividend_wrong`); a sparse zero divided by zero is not reported
  (`C36_zero_divisor`).
* C37: sparse `Evaluate` turns the degree into a field element first
  (`C37_sparse_undefined`).
* C40: repeated points are accepted (`C40_duplicate_wrong`); no points is out of
  bounds (`C40_empty_undefined`).
* C58: dense `Fold` reads past the end when the degree is even (`C58_dense_odd`).
* C59: `GetRootOfUnity(0)` shifts by -1 (`C59_root_undefined`).
* C60: `GetItem` never replaces an item with packed vectors only, so that after
  `CosetLDEBatch` an FFT of the same size reads past an empty vector
  (`C60_stale`); the flag of an item of size one is not initialised
  (`C60_size_one`).
* C61: filter polynomials are wrong for cosets (`C61_coset_wrong`).
* C62: `FFTBatch` and `CosetLDEBatch` fail a `CHECK` on a single row
  (`C62_single_row`); the overload of `CosetLDEBatch` for constant matrices
  drops `reverse_at_last` (`C62_reverse_dropped`).
* C63: the mixed radix FFT is wrong whenever `q` divides the size
  (`C63_wrong_three`, `C63_wrong_six`); the default bound on the degree is too
  small (`C63_max_degree`); polynomials that are too long are cut off
  (`C63_truncated`).
* C64: `==` is not transitive (`C64_not_transitive`); a failing `DivInPlace`
  changes its operand (`C64_div_modifies`).
* C41: a single leaf and the threshold one make `Commit` read past its storage
  (`C41_single_leaf`, `C41_threshold_one`); the verifier takes an inner node for a
  leaf (`C41_inner_node`).
* C65: the verifier compares neither the widths (`C65_widths_unchecked`) nor the
  length of the proof (`C65_length_unchecked`); an opening can read past a matrix
  (`C65_open_out_of_bounds`); without debug checks matrices are left out
  (`C65_release_ignores`).
* C42: `AddTerm` drops terms without factors (`C42_constant_dropped`); without terms the
  verifier reads the second of one value (`C42_no_terms`); proving keys that differ in
  their tables are equal (`C42_key_eq`); `Combine` counts a missing value as one
  (`C42_missing_one`).
* C43: a table whose length is no power of two is accepted and then read out of bounds
  (`C43_not_power`); `==` is not transitive (`C43_eq_not_transitive`).
* C46: with more blinding rows than rows `GetUsableRows` wraps around and
  `PermuteExpressionPair` reads out of bounds (`C46_underflow`). With no usable rows the
  argument of `reserve` wraps around to 2^32-1 (read off, not modelled).
* C47: `GetAllLabels` lists the representative twice (`C47_all`); the row checks of `Copy`
  let one row too many pass (`C47_copy_row_bound`).
- Log-derivative lookup: `ComputeMPoly` ignores inputs that are not in the table, so the prover does not fail on a
  false statement but produces columns that violate the constraints (`C69_absent`). The verifier inverts `τ(x)` without
  a check: for `τ(x) = 0` it dereferences a null optional (`C69_verifier_null`); for `φ_i(x) = 0` its constraint is not
  the polynomial of the prover (`C69_verifier_zero`). Soundness needs `k u < char F` (`C69_sound_char`).
- Graph evaluator: no divergence found; `Graph::addExpr` accepts a selector below a factor zero, which the proving
  evaluator rejects (`C70_selector`).
- `RationalField::IsOne` is true for `1/2` and `IsMinusOne` for `-1/2` (`C50_isOne_wrong`); the order differs between
  representations of the same fraction (`C50_order_wrong`); `BatchEvaluate` ignores `coeff` (`C50_coeff_ignored`) and gives
  zero where `Evaluate` ends the program.
- `Buffer::WriteAt` of a `float`/`double` with `kBig` or `kLittle` converts the value to an integer, `ReadAt` takes the bits
  (`C44_float_wrong`); strings of wide characters lose their second part (`C44_wide_string_wrong`); `WriteManyAt` writes all
  values at one offset (`C44_writeManyAt`); `ReadPtrAt` multiplies without check (`C44_readPtr_overflow`); a length above the
  limit of `resize` ends the program (`C44_resize`); `EstimateSize` of an array is summed in an `int`
  (`C44_estimate_overflow`). By reading only: `ReadManyAt` cannot be instantiated (its base case has a parameter `N` that cannot
  be deduced), the move of a `StringBuffer` keeps a pointer into the old object for short strings, and moves lose `endian_`.
- The challengers and `PaddingFreeSponge` have no padding: a partial block and its extension by the state element it leaves in
  place collide (`C48_padding_wrong`, `C48_spongeHash_wrong`, `C48_pack_zero`). `DuplexChallenger` hands out all `kWidth`
  elements of the state, so `kWidth` samples reveal the capacity (`C48_exposes_state`). By reading only: `Split` for a small
  field that is not in Montgomery form (Mersenne31) passes a 64-bit digit to a constructor that takes a reduced `uint32_t`.
- `BinaryField::TwoInv` inverts the element with machine value 2 (the generator of the second level) instead of `1 + 1 = 0`; in the
  1-bit field the value 2 fails the `DCHECK` of the constructor (`C49_twoInv_wrong`).
- `SqueezeInternal` skips the permutation when exactly `kRate` elements are left *before* the block is handed out, so a
  squeeze of a block in the middle of a block repeats elements handed out before (`C71_squeeze_repeats`); an empty
  `Absorb` may permute (`C71_absorb_empty`).
- Poseidon: an odd `kFullRounds` is accepted and `OptimizeARK` then leaves the row of the first partial round
  unwritten (`C72_odd`). `FindPoseidonARKAndMDS` documents that the `x`s and `y`s must be different but does not
  check it; `C72_mds` and `C72_permute` need it.
- Poseidon2: `Poseidon2ParamsTraits<BabyBear, 23, 7>` initialises 16 of the 24 entries of the diagonal; the rest is
  zero, the internal matrix singular and `Permute` not injective with Horizen's internal matrix (`C73_babybear24`).
- Poseidon2: the traits of Mersenne31 use `alpha = 7`, which divides `p - 1`; `Permute` is not injective
  (`C73_mersenne31`).
- Poseidon2: `FromU62` constructs `F(lo)` with `lo = p` for allowed inputs, which fails a `DCHECK` in debug builds;
  release builds are right (`C73_fromU62`, `C73_debug_stops`).
- Poseidon2 (by reading): `Poseidon2ParamsTraits<bls12_381::Fr, 4, 5>` has 8 initialisers for an array of 5, and the
  serialisation of `Poseidon2Config` drops `internal_shifts`.
- Grain generator: the comment in `FindPoseidonARKAndMDS` asks for elements without repetitions, the code does not check;
  two rows of the matrix are then equal (`C74_mds_repeated`).
- Grain generator: widths and numbers of rounds are truncated to 12 and 10 bits without a check
  (`C74_truncated_witness`).
- Grain generator: `ToPoseidonGrainLFSRConfig` sets `state_len = rate + 1`; for another capacity what is generated fails
  `IsValid` (`C74_capacity`).
- Matrices (by reading): `MulMatVec` returns a vector of the size of its argument instead of the number of rows.
- Two-adic cosets: `GetSelectorsOnCoset` checks `domain >= coset` but computes `coset - domain`; only cosets of the size of the
  domain work (`C75_onCoset_sizes`), so quotients of constraints of degree above two cannot be computed with it.
- Two-adic cosets: `SplitDomains` with more parts than elements shifts by a wrapped difference (`C75_split_fails`).
- FRI: inputs of smaller size are added to the folded vector without a random factor, in the prover and in the verifier; a
  taller input can cancel any vector (`C76_cancel`), so an accepted proof says nothing about the smaller ones.
- FRI: since the length of Merkle proofs is not checked (`C65_length_unchecked`), one commitment opens to two different rows at
  one place (`C76_merkle_not_binding`).
- FRI: `log_blowup = 0` ends in an undefined shift (`C76_one_row`), and an input of exactly `blowup` values is proved but
  makes the verifier stop (`C76_constant_input`).
- TwoAdicFRI: the challenge that combines the opened values is drawn before the values are known, and they are never given to
  the challenger; an accepted proof is accepted for any first value of a point with another second one (`C77_forge`).
- TwoAdicFRI: a point of the coset opens to zeros without an error (`C77_interpolate_in_coset`).
- TwoAdicFRI: a matrix with one row before the extension ends in `ReverseBitsLen(…, 0)`, an undefined shift (`C77_one_row`); a
  matrix without columns in a loop bound that wraps around (`C77_dot_no_columns`).
- GWC and SHPlonk: the constructor that `ReadFrom` uses stores `{g2, -s_g2}` where the setup stores `{s_g2, -g2}`. A reloaded
  verifier rejects honest proofs (`C78_reloaded_rejects`) and accepts proofs that the value at `x` is the value at `1 / x`
  (`C78_reloaded`).
- KZG: `Downsize` keeps a prefix of the Lagrange basis; `CommitLagrange` is then wrong (`C78_downsize_lagrange`).
- KZG: after a commitment in batch mode fails, the next `SetBatchMode` fails a `CHECK` (`C78_batch_stuck`).
- SHPlonk: of two claims about the same oracle and point only the first is checked, so a false second claim is accepted
  (`C79_first_only`, `C79_conflict`); soundness is proved for consistent claims.
- SHPlonk: prover and verifier fail a `CHECK` if the third challenge is a point of the claims that the first oracle does not
  have (`C79_equation`, `C79_complete`), and without claims (`C79_empty`).
- SHPlonk: claims are grouped by the addresses of polynomials and commitments; an honest proof is rejected if the verifier
  keeps two copies of a commitment where the prover keeps one polynomial (`C79_pointers`).
- `SimpleFRI::Commit` succeeds only for polynomials with exactly as many coefficients as the domain has elements (`C80_full`): a
  constant or any shorter polynomial is folded at an odd length, which reads out of bounds, and the zero polynomial is
  refused (`C80_zero_odd`); a challenge that makes a leading coefficient vanish has the same effect.
- `SimpleFRI`: the verifier does not compare the directions of a path with the index; one proof is accepted at every index
  (`C80_unbound`).
- `SimpleFRI`: openings carry leaf hashes instead of leaves, so a leaf hash other than the identity makes honest proofs fail
  (`C80_leaf`); the sub-domains ignore the offset of the domain, so honest proofs fail on cosets (`C80_coset`).
- `MontgomeryInverse` never ends for a non-zero operand that has a common divisor with the modulus (`C11_bea_diverges`).
- R1CS: `CreateZero` hands out a variable that has no column, so `ToMatrices` dereferences `std::nullopt` for a term in it with
  a nonzero coefficient (`C82_zero`).
- R1CS: calling `Finalize` twice indexes `num_times_used` out of bounds (`C82_finalize_twice`), since inlining leaves gaps in the
  numbers of the linear combinations.
- R1CS: a linear combination that refers to one of a constraint, by a `SymbolicLinearCombination` the caller made up, makes
  `InlineAllLCs` erase that constraint's linear combination (`C82_forged`).
- R1CS: `GetAssignedValue` reads out of bounds in setup mode (`C82_value_setup`).
- QAP: `InstanceMap` and `WitnessMapFromMatrices` check `domain->size() >= num_constraints`, but use `num_constraints +
  num_instance_variables` elements of the domain (`C83_small`).
- Groth16: `ReRandomizeProof` draws again only when both random values are zero, and unwraps the inverse of the first one
  (`C84_rerandomize_abort`).
- Groth16: `ToxicWaste::RandomWithoutX` may draw `gamma = 0`; `ProvingKey::Load` then uses zero for its inverse and the
  verifying key inside ignores the public inputs (`C84_gamma`).
- BLS12: `G2Prepared::From` (bls12/g2_prepared.h:46-49) goes over all bits of the limbs of `kX` but the first, `MultiMillerLoop`
  (bls12/bls12_curve.h:36-40) skips leading zeros. They agree only when the top bit of the limbs is set, as for BLS12-381
  (`C85_top_bit_needed`, with a curve with `x = -5`).
- BN: the generator computes the loop count from `|x|` as `6|x| + 2` (bn/generator/generator.cc:77, 82). For negative `x` the
  optimal ate count is `|6x + 2| = 6|x| - 2` (`C85_ateLoopCount_negative`, `C85_negative_not_bilinear` with `x = -2`).
- BLS12: the comment at bls12/bls12_curve.h:143 says `+ 1`; the code computes `+ 3` (`C86_bls`).
- `CoeffToExtended` of the zero polynomial gives no values (like `FFT`), on which `ExtendedToCoeff` fails its check
  (`C87_round_trip`).
- The verifier's instance values need `max + rows + |min| <= n` for the rotations of the instance queries; otherwise
  `EvaluatePartialLagrangeCoefficients` fails its check (example below `C87_instance`).
- The shuffle evaluator uses the index of the graphs, which goes up by two, also for the grand products
  (`shuffle/evaluator.h:74-77`): with two or more shuffles it reads behind the end (`C88_shuffles_fail`).
- The selector compressor takes the degree of the first selector of a combination in the place of that of the new one
  (`selector_compressor.h:223`), so the compression can raise the degree of the constraint system, against the comment at
  `constraint_system.h:503`; the extended domain has been chosen before that (`keys/key.h:80-82`) (`C89_degree_fails`).
- `ChunkLookups` looks for a free place among the arguments of all tables (`constraint_system.h:319`), so from the second
  table on an input can be added to an argument with another table: a proof of the wrong statement, or no proof
  (`C90_tables_fails`); if the tables have different numbers of columns a `CHECK` fails (`C90_width_fails`).
- The identifier of a scaled expression leaves out the expression that is scaled (`identifier.h:52-55`), so lookups into
  `2·a` and `2·b` are merged (`C90_scaled_fails`). The identifiers of the expressions of a table are not separated
  (`constraint_system.h:793-795`), so the constants `1, 23` and `12, 3` are taken for the same (`C90_constants_fails`).
- `ComputeColumnDegree` counts constant inputs as degree zero and `RequiredDegree` as degree one, so an argument with
  constant inputs can exceed the minimum degree (`C90_degree_fails`).
- `V1FloorPlanner` only puts constants above the end of the lowest region, so it fails for a circuit with many constants
  and few rows even if the table has room (`C91_v1` says exactly when; same as halo2).
- A lookup table with exactly as many rows as are usable makes key generation fail (`C92_table_full`; same as halo2). If the
  first cell of a column is assigned twice, `AssignCell` logs an error but the table is made with the second value in the first row
  and the first value in the rows filled (`C92_table_twice`).
- The rows of an advice column that are not usable are zeros and a one at the end; nothing random hides the column
  (synthesizer.h:76-77, `C92_unusable`).
- A challenge of a phase above all phases of advice columns is never squeezed, and the exported list is then shorter
  (`C92_advice`, `C92_export`).
- The prover has the challenges of the circuit by index (`ExportChallenges`), the verifier by phase (proof_reader.h:74-81). If a
  challenge of a later phase is created before one of an earlier phase, which `CreateChallengeUsableAfter` allows, the verifier uses the
  wrong values and rejects honest proofs (`C93_order`; `C93_challenges` needs the phases in order).
- The random polynomial of the vanishing argument is the constant one (vanishing_prover_impl.h, `Schedule.random` in `C93_transcript`).
- `operator<` of a literal of a multivariate polynomial compares only the last elements and the numbers of elements
  (multivariate_sparse_coefficients.h:83-89). `DoAdd` takes literals of which neither is less for equal, so `x0*x1 + x0^2*x1` becomes
  `2*x0*x1` (`C94_conflict`), and `operator[]` may miss a term.
- `Add` and `Sub` of multivariate polynomials leave the number of variables uninitialised (multivariate_polynomial_ops.h:33, 58), which
  `Evaluate` reads (`C94_uninitialised`). If all terms cancel, `Compact` goes behind the end of an empty vector
  (multivariate_sparse_coefficients.h:304-306; `C94_normal`, `C94_sub_self`).
- `Degree` of a multivariate polynomial is the degree of the last term, so `x0^5 + x1` has degree one and passes the check against
  `MaxDegree` (example at `C94_degree`). The check in `Evaluate` is for at most as many coordinates as variables; with fewer the access is
  out of bounds (`C94_evaluate`).
- `m31::Fr4` (circle/m31/BUILD.bazel:64-72) is generated as a Montgomery field with the even modulus `(2^31-1)^4 - 1`. `Modulus::Inverse`
  then gives 0, and the field does not compute residues: `One()` is 0, `Mul(a, b)` is `a*b / R` rounded down, `ToBigInt` is always 0
  (`C95_even_modulus`, `C95_fr4`). `operator*` of a circle point takes the stored `value()` (circle/affine_point.h:133-135), so also with an
  odd modulus a Montgomery scalar `s` would multiply by `s*R`.
- `ComplexConjugate` of a circle point (circle/affine_point.h:81-83) calls a member function that no field has.
- `ELLSparseMatrix::MaxCols` (sparse_matrix.h:99-105) reads `back()` of every row, and `ToEigenSparseMatrix` calls it: undefined for any matrix
  with an empty row, as the example in the comment of the class (`C96_ell_maxCols_none`, `C96_toEigen_empty`). `NonZeros` (:108-111) adds up
  in an `int` (`C96_nonZeros`).
- `CSRSparseMatrix::ToELL` starts from the first element whatever the first row pointer is (`C96_toEll_shift`); `Sort` sorts the row pointers
  after use, where it can change nothing (`C96_csr_sort_defined`); `IsSorted` checks them too late (`C96_csr_isSorted_ptrs`).
- circom's `WitnessMapFromMatrices` takes the root of unity of twice the domain size and checks it, so the largest two-adic domain fails
  (`C97_largest`); and `at(0)` of an empty vector of values fails when all products of the rows of the first matrix are zero
  (`C97_witness_zero`), which the row for the constant one in a snarkjs key prevents. The indices of coefficients read from a zkey are never
  checked (`C97_ab`).
- The parsers of circom files return null only for a wrong word or version (`C98_nullptr`); all other failures are `CHECK`s. The size of a
  section only serves to find the next one (`C98_size_ignored`) and wraps in 64 bits (`C98_size_wraps`); the counts of points and of instance
  variables are 32-bit sums that can wrap (`C98_zkey`, `C98_instance`). The modulus in the file is never compared with that of the field.
- `CheckBits` of the proof serializer (`C99_checkBits`) compares the needed bits with the size of the modulus modulo eight, not with the bits
  that are free: 255 bits pass though one bit is free, and then there are points without bytes; 248 bits fail though eight are free.
- The legacy form of points in proofs loses points with the first coordinate zero (`C99_legacy_zero`); numbers at or above the modulus are
  read, so that a proof can be changed into another one (`C99_malleable`, `C99_bn254_noncanonical`).
- Blake2b hashes zero as the point (0, 5) (`C99_blake2b_zero`), Poseidon does not separate points from scalars (`C99_poseidon_ambiguous`), and
  `SimpleTranscript` does not see the order of messages (`C99_simple`).
- `XORShiftRNG` accepts a seed of zeros and then gives zeros for ever (`C101_xor_zeros`); `SetSeed` of a `ChaCha20RNG` that was used keeps the
  rest of the block of the old seed and the counter (`C101_chacha_reseed`), and reading its state from a buffer does not check the index
  (`C101_chacha_index`).
- Pedersen commitments of a batch are made without their blinding factors (`C102_unblinded`): `DoCommit` with an index does not use `r`.
  `Setup` accepts sizes above `MaxSize`, with which the parameters cannot be read back (`C102_setup`).
- `IsSatisfied` of AIR looks at windows of two rows: a trace of one row satisfies everything (`C103_one_row`), and a constraint on single rows is
  not checked in the last one (`C103_last_row_free`).
- `ComputeBlindingFactors` caches its result and no later query resets it: columns can then have more queries than there are blinding factors
  (`C104_stale`). `operator<` of column keys does not look at the index (`C104_order_index`).
- `Range`: `IsEmpty` is false for an exclusive range without values (`C105_open_not_empty`), loops over reversed ranges run on (`C105_reversed`),
  and an included end at the largest value overflows (`C105_largest`); `All()` and `From()` of the default kind miss the largest value
  (`C105_limits`).
- `IsZeroChip::Assign` assigns to `*value_inv` of an empty `optional` where the value is zero; `Fibonacci3Circuit` does so for equal inputs, which
  its default constructor has (`C106_fib3_equal`).
- `ShuffleCircuit::Synthesize` writes `z[i]` after `z.reserve(H + 1)`, without elements in `z`: undefined, and a failure where the standard library
  checks indices (`C107_reserved`).
- `ShuffleAPICircuit`'s constructor compares the sizes of its parameters after moving from them, so that `CHECK_EQ` never fails; with a shorter
  second list `Synthesize` reads past its end (`C108_sizes`).
- `MultiLookupCircuit` is meant to compute `a + a^2`, but no constraint makes the second factor `a` (`C108_multi`).
- `PrimeFieldSerializable` accepts negative values: of 64 bits for moduli of at most 32 bits (`C109_negative_wide`), and of any type for moduli above
  `2^64` (`C109_negative_big`); only a `DCHECK` is in the way.
- `ChunkedIterator::operator-` computes with `size_t`: a difference that should be negative is not (`C110_distance_negative`).
- `PrimeFieldGpuDebug::Negate` of zero is the modulus, which `IsZero` and `==` tell from zero, and whose `Inverse` never ends (`C112_negate_zero`,
  `C112_inverse_negate_zero`); its sums are wrong for moduli without a spare bit (`C112_add_overflow`). `PrimeFieldGpu::Negate` (prime_field_gpu.h:239-243) is written the same way.
- `zk::Value::operator!=` calls itself and never returns (`C114_ne`).
- `MaybeOwned` moved to itself by assignment has a null pointer and keeps `owned_` (`C116_maybe_owned_self_move`).

Recorded, not (yet) proved:

* C93: `VerifyProof` does not reject an empty vector of instances; `Open` then reads the first
  element of an empty vector (verifier.h:370), `none` in the model. The JSON conversion of
  `ProofBase` (proof.h:233-330) has no shuffle fields. That the verifier's expected value is
  that of the quotient is a hypothesis of C93; C87 and C88 show it of the computations.
* C92: `Value::operator!=` (zk/base/value.h:64-66) calls itself. With a `WitnessCollection`
  the callback of a fixed cell is not run, so the default value of a table column is an
  unknown `Value` that is read nevertheless (the call that gets it does nothing).
* C88: `BuildExtendedCircuitColumnPSE` (circuit_polynomial_builder.h:167-197) never
  fills `l_first_`, `l_last_`, `l_active_row_` and lets the evaluators use the
  generator and the size of the small domain; not modelled, read only.
* C88: the copy constructor of `ChunkedAdapter` leaves `chunk_size_` uninitialised
  (base/containers/adapters.h:46).
* C08: the all-ones test of `CanUseNoCarryMulOptimization` is unnecessary (the
  theorems hold with the spare bit alone).
* C16: `FromBasePrimeFields` of the quartic extension indexes wrongly for towers
  (quartic_extension_field.h:97-98; no instance uses it).
* C25: the curve generator derives `kAIsZero` from the first coefficient of `a`
  only (short_weierstrass/generator/generator.cc:87-90); an extension-field curve
  with `a = (0, a1)` would be treated as `a = 0`.
* C47: `PermutationAssembly::Copy` has an off-by-one bound check.
