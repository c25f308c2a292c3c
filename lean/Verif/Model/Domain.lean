import Verif.Model.Poly
/-! Roots of unity, evaluation domains, their elements, vanishing polynomial, Lagrange coefficients and
filter polynomials: `math/finite_fields/prime_field_base.h`, `math/finite_fields/prime_field_util.cc`,
`math/polynomials/univariate/univariate_evaluation_domain.h`,
`math/polynomials/univariate/radix2_evaluation_domain.h` (`Create`). The CUDA parts are not modelled. -/
universe u
namespace Tachyon.FFT
open Tachyon.Group Tachyon.Parallel

/-- The loop of `ComputeAdicity` (prime_field_util.cc:13-20); `n` shrinks in every iteration, so `n`
iterations suffice for `k ≥ 2`. -/
def adicityGo (k : Nat) : Nat → Nat → Nat → Option Nat
  | 0, n, adicity => if n ≤ 1 then some adicity else none
  | fuel + 1, n, adicity =>
    if n ≤ 1 then some adicity
    else if n % k = 0 then adicityGo k fuel (n / k) (adicity + 1) else some adicity

/-- `ComputeAdicity` (prime_field_util.cc:11-22). -/
def computeAdicity (k n : Nat) : Option Nat := adicityGo k n n 0

/-- The part of a prime field configuration that describes roots of unity: `kTwoAdicity`,
`kTwoAdicRootOfUnity` and, with `kHasLargeSubgroupRootOfUnity`, `kSmallSubgroupBase`,
`kSmallSubgroupAdicity`, `kLargeSubgroupRootOfUnity`. -/
structure RootConfig (F : Type u) where
  twoAdicity : Nat
  twoAdicRoot : F
  large : Option (Nat × Nat × F)

/-- `PrimeFieldBase::Decompose` (prime_field_base.h:61-78): `(q_adicity, two_adicity)`. Simplified:
`std::pow` computes with doubles, here with integers. The outer `none` is a division by zero or an
endless loop. -/
def decompose (q n : Nat) : Option (Option (Nat × Nat)) :=
  if q = 0 then none else
  match computeAdicity q n with
  | none => none
  | some qa =>
    match computeAdicity 2 n with
    | none => none
    | some ta => if n ≠ q ^ qa * 2 ^ ta then some none else some (some (qa, ta))

section
variable {F : Type u} [Field F] [DecidableEq F]

/-- `omega = omega.Pow(q)`, `n` times (prime_field_base.h:106-109). -/
def powTimes (q : Nat) : Nat → F → F
  | 0, x => x
  | n + 1, x => powTimes q n (powSize x q)

/-- `PrimeFieldBase::GetRootOfUnity` (prime_field_base.h:90-133). The outer `none` is undefined
behaviour (a shift by 64 or by `uint32_t{-1}`), the inner one the return value `false`. -/
def getRootOfUnity (cfg : RootConfig F) (n : Nat) : Option (Option F) :=
  match cfg.large with
  | some (q, qAdicity, root) =>
    match decompose q n with
    | none => none
    | some none => some none
    | some (some (qa, ta)) =>
      if cfg.twoAdicity < ta ∨ qAdicity < qa then some none
      else
        some (some (squareTimes (cfg.twoAdicity - ta) (powTimes q (qAdicity - qa) root)))
  | none =>
    let log := Bits.log2Ceiling (BitVec.ofNat 64 n)
    if log < 0 ∨ 63 < log then none
    else if n ≠ 2 ^ log.toNat ∨ cfg.twoAdicity < log.toNat then some none
    else some (some (squareTimes (cfg.twoAdicity - log.toNat) cfg.twoAdicRoot))

end

/-- The members of `UnivariateEvaluationDomain` (univariate_evaluation_domain.h:571-589). -/
structure Domain (F : Type u) where
  size : Nat
  logSize : Nat
  sizeF : F
  sizeInv : F
  gen : F
  genInv : F
  offset : F
  offsetInv : F
  offsetPow : F
deriving DecidableEq

variable {F : Type u} [Field F] [DecidableEq F]

/-- The constructor (univariate_evaluation_domain.h:55-69); a failing `CHECK` or `unwrap` is `none`. -/
def Domain.new (cfg : RootConfig F) (size logSize : Nat) : Option (Domain F) :=
  match inv? (size : F) with
  | none => none
  | some sizeInv =>
    match getRootOfUnity cfg size with
    | some (some gen) =>
      match inv? gen with
      | none => none
      | some genInv =>
        some ⟨size, logSize, (size : F), sizeInv, gen, genInv, 1, 1, 1⟩
    | _ => none

/-- `absl::bit_ceil` on `size_t`; undefined above `2^63`. -/
def bitCeil (n : Nat) : Option Nat :=
  if 2 ^ 63 < n then none else some (if n ≤ 1 then 1 else 2 ^ (Nat.log2 (n - 1) + 1))

/-- `Radix2EvaluationDomain::Create` (radix2_evaluation_domain.h:83-89) without the twiddle cache. -/
def Domain.create (cfg : RootConfig F) (numCoeffs : Nat) : Option (Domain F) :=
  match bitCeil numCoeffs with
  | none => none
  | some size => Domain.new cfg size (Bits.safeLog2Ceiling (BitVec.ofNat 64 numCoeffs)).toNat

/-- `Radix2EvaluationDomain::IsValidNumCoeffs` (radix2_evaluation_domain.h:95-97). -/
def isValidNumCoeffs (cfg : RootConfig F) (numCoeffs : Nat) : Bool :=
  (Bits.safeLog2Ceiling (BitVec.ofNat 64 numCoeffs)).toNat ≤ cfg.twoAdicity

/-- `GetCoset` (univariate_evaluation_domain.h:102-117). -/
def Domain.getCoset (d : Domain F) (offset : F) : Option (Domain F) :=
  match inv? offset with
  | none => none
  | some offsetInv =>
    some { d with offset := offset, offsetInv := offsetInv, offsetPow := powSize offset d.size }

/-- `GetElement` (univariate_evaluation_domain.h:436-447) for an `int64_t`; `-i` of the smallest
`int64_t` is undefined. -/
def Domain.getElement (d : Domain F) (i : Int) : Option F :=
  if i ≤ -2 ^ 63 then none
  else
    let result := if 0 < i then powSize d.gen i.toNat else powSize d.genInv (-i).toNat
    some (if d.offset = 1 then result else result * d.offset)

/-- `GetElements` (univariate_evaluation_domain.h:450-452). -/
def Domain.getElements (threads : Nat) (d : Domain F) : List F :=
  getSuccessivePowers threads d.size d.gen d.offset

/-- `EvaluateVanishingPolynomial` (univariate_evaluation_domain.h:385-391). -/
def Domain.vanishingAt (d : Domain F) (tau : F) : F := powSize tau d.size - d.offsetPow

/-- `GetVanishingPolynomial` (univariate_evaluation_domain.h:372-379). -/
def Domain.vanishing (d : Domain F) : List (Nat × F) := [(0, -d.offsetPow), (d.size, 1)]

/-- The loop that finds `tau` in the domain (univariate_evaluation_domain.h:314-322) for `n` more
values. -/
def findTau (gen tau : F) : Nat → F → List F
  | 0, _ => []
  | n + 1, omega => if omega = tau then 1 :: List.replicate n 0 else 0 :: findTau gen tau n (omega * gen)

/-- The loop over a chunk (univariate_evaluation_domain.h:352-361), `n + 1` values. -/
def lagLoop (gen genInv tau : F) : Nat → F → F → List F
  | 0, l, negOmega => [l * (tau + negOmega)]
  | n + 1, l, negOmega =>
    l * (tau + negOmega) :: lagLoop gen genInv tau n (l * genInv) (negOmega * gen)

/-- `EvaluatePartialLagrangeCoefficients` (univariate_evaluation_domain.h:288-369) for a range that
starts at `start` and has `n` elements; `start` is converted to `int64_t`. -/
def Domain.partialLagrange (threads : Nat) (d : Domain F) (tau : F) (start : Int) (n : Nat) :
    Option (List F) :=
  if d.size < n then none
  else if n = 0 then some []
  else
    match d.getElement start with
    | none => none
    | some omega =>
      let z := d.vanishingAt tau
      if z = 0 then some (findTau d.gen tau n omega)
      else
        match inv? (z * omega) with
        | none => none
        | some i =>
          let l := i * (d.sizeF * d.offsetPow)
          batchInverse threads
            (parallelize threads (List.replicate n (0 : F)) fun k cs span =>
              lagLoop d.gen d.genInv tau (span.length - 1) (l * powSize d.genInv (k * cs))
                (-omega * powSize d.gen (k * cs))) n 1

/-- `EvaluateAllLagrangeCoefficients` (univariate_evaluation_domain.h:279-282). -/
def Domain.allLagrange (threads : Nat) (d : Domain F) (tau : F) : Option (List F) :=
  d.partialLagrange threads tau 0 d.size

/-- `GetFilterPolynomial` (univariate_evaluation_domain.h:397-413). -/
def Domain.filterPoly (d sub : Domain F) : Option (List F) :=
  let a := Poly.Sparse.mul d.vanishing [(0, sub.sizeF * sub.offsetPow)]
  let b := Poly.Sparse.mul sub.vanishing [(0, d.sizeF)]
  match Poly.Sparse.divMod a (.sparse b) with
  | none => none
  | some (q, r) => if r.isEmpty then some q else none

/-- `EvaluateFilterPolynomial` (univariate_evaluation_domain.h:417-433). -/
def Domain.filterAt (d sub : Domain F) (tau : F) : Option F :=
  let v := sub.vanishingAt tau
  if v = 0 then some 1
  else
    match inv? (d.sizeF * v) with
    | none => none
    | some i => some (sub.sizeF * (d.vanishingAt tau * i))

/-- The loop of `DistributePowersAndMulByConst` over a chunk (univariate_evaluation_domain.h:483-486). -/
def distLoop (g : F) : List F → F → List F
  | [], _ => []
  | a :: l, pow => a * pow :: distLoop g l (pow * g)

/-- `DistributePowersAndMulByConst` (univariate_evaluation_domain.h:463-489). -/
def distribute (threads : Nat) (a : List F) (g c : F) : List F :=
  let cs := sizePerThread threads a.length (some (1024 * threads))
  byChunkSize a cs fun i span => distLoop g span (c * powSize g (i * cs))

end Tachyon.FFT
