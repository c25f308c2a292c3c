import Verif.Model.Parallel
import Verif.Model.Pow
/-!
# Model of multi-scalar multiplication: `tachyon/math/elliptic_curves/msm`

`msm_ctx.h`, `algorithms/pippenger/{pippenger_base,pippenger,pippenger_adapter}.h`,
`variable_base_msm.h`, `fixed_base_msm.h` and `glv.h`. The templates take a class `Point` and its
`Bucket`; here they take a record of the operations they call. A scalar is the `BigInt` that
`ToBigInt()` returns. `none` is a `false` return, a read or write out of bounds, or undefined
behaviour. An OpenMP loop whose iteration `i` only writes element `i` is a map (`C45_interleaving`).
-/
universe u v
namespace Tachyon.MSM
open Tachyon.BigInt Tachyon.Parallel

variable {α : Type u} {β : Type v}

/-- What the algorithms use of `Point` (`α`) and of `Bucket` or `AddResult` (`β`). The default
constructor of the latter is `Zero()` (jacobian_point.h:39-40, :74, point_xyzz.h:37-39, :78). -/
structure Ops (β : Type v) (α : Type u) where
  zero : β
  add : β → β → β
  addBase : β → α → β
  subBase : β → α → β
  double : β → β

/-- All results, or `none` as soon as one is `none`. -/
def sequence : List (Option β) → Option (List β)
  | [] => some []
  | x :: xs =>
    match x, sequence xs with
    | some y, some ys => some (y :: ys)
    | _, _ => none

/-- `MSMCtx::ComputeWindowsBits` (msm_ctx.h:37-43). `ln` is `LnWithoutFloats` (:32-35), the truncation
of the floating point value `std::log2(a) * 69 / 100`, which is not modelled. -/
def windowsBits (ln : Nat → Nat) (size : Nat) : Nat := if size < 32 then 3 else ln size + 2

/-- `MSMCtx::ComputeWindowsCount` (msm_ctx.h:45-48). -/
def windowsCount (modulusBits windowBits : Nat) : Nat := (modulusBits + windowBits - 1) / windowBits

/-- An `int64_t` result of signed arithmetic; overflow is undefined. -/
def int64? (z : Int) : Option Int := if -2 ^ 63 ≤ z ∧ z < 2 ^ 63 then some z else none

/-- The loop of `FillDigits` (pippenger.h:34-48): the remaining `n` digits, and the final carry. -/
def fillDigitsGo (scalar : Limbs 64) (windowBits : Nat) : Nat → BitVec 64 → Nat → Option (List Int × BitVec 64)
  | 0, carry, _ => some ([], carry)
  | n + 1, carry, bitOffset =>
    match extractBits scalar bitOffset windowBits with
    | none => none
    | some bits =>
      let coeff := carry + bits
      let radix := 1#64 <<< windowBits
      let carry := (coeff + radix / 2#64) >>> windowBits
      match int64? (coeff.toInt - (carry <<< windowBits).toInt),
          fillDigitsGo scalar windowBits n carry (bitOffset + windowBits) with
      | some d, some r => some (d :: r.1, r.2)
      | _, _ => none

/-- `FillDigits` (pippenger.h:27-51), `n` the size of `*digits`. -/
def fillDigits (scalar : Limbs 64) (windowBits n : Nat) : Option (List Int) :=
  if 64 ≤ windowBits then none
  else
    match fillDigitsGo scalar windowBits n 0#64 0 with
    | none => none
    | some (ds, carry) =>
      match ds.getLast? with
      | none => none
      | some d =>
        match int64? (d + (carry <<< windowBits).toInt) with
        | none => none
        | some d => some (ds.dropLast ++ [d])

/-- `PippengerBase::AccumulateBuckets` (pippenger_base.h:36-57). -/
def accumulateBuckets (o : Ops β α) (buckets : List β) (initialValue : β) : β :=
  (buckets.reverse.foldl (fun s bucket =>
    let runningSum := o.add s.1 bucket
    (runningSum, o.add s.2 runningSum)) (o.zero, initialValue)).2

/-- `window_bits` doublings (pippenger_base.h:72-74, fixed_base_msm.h:176-178). -/
def doubleTimes (o : Ops β α) : Nat → β → β
  | 0, x => x
  | n + 1, x => doubleTimes o n (o.double x)

/-- `PippengerBase::AccumulateWindowSums` (pippenger_base.h:59-77). -/
def accumulateWindowSums (o : Ops β α) (windowBits : Nat) : List β → Option β
  | [] => none
  | lowest :: rest =>
    some (o.add lowest
      (rest.reverse.foldl (fun total sum => doubleTimes o windowBits (o.add total sum)) o.zero))

/-- The bucket updates of `AccumulateSingleWindowNAFSum` (pippenger.h:125-133). -/
def nafBuckets (o : Ops β α) (i : Nat) : List α → List (List Int) → List β → Option (List β)
  | _, [], buckets => some buckets
  | [], _ :: _, _ => none
  | base :: bases, digits :: rest, buckets =>
    match digits[i]? with
    | none => none
    | some scalar =>
      if 0 < scalar then
        match buckets[(scalar - 1).toNat]? with
        | none => none
        | some b => nafBuckets o i bases rest (buckets.set (scalar - 1).toNat (o.addBase b base))
      else if scalar < 0 then
        match buckets[(-scalar - 1).toNat]? with
        | none => none
        | some b => nafBuckets o i bases rest (buckets.set (-scalar - 1).toNat (o.subBase b base))
      else nafBuckets o i bases rest buckets

/-- `AccumulateSingleWindowNAFSum` (pippenger.h:112-135). -/
def singleWindowNAFSum (o : Ops β α) (windowBits : Nat) (bases : List α) (digits : List (List Int))
    (i : Nat) (isLast : Bool) : Option β :=
  let bucketSize := if isLast then 2 ^ windowBits else 2 ^ (windowBits - 1)
  match nafBuckets o i bases digits (List.replicate bucketSize o.zero) with
  | none => none
  | some buckets => some (accumulateBuckets o buckets o.zero)

/-- `AccumulateWindowNAFSums` (pippenger.h:137-170). -/
def windowNAFSums (o : Ops β α) (windowBits windowCount : Nat) (bases : List α)
    (scalars : List (Limbs 64)) : Option (List β) :=
  match sequence (scalars.map fun s => fillDigits s windowBits windowCount) with
  | none => none
  | some digits =>
    sequence ((List.range windowCount).map fun i =>
      singleWindowNAFSum o windowBits bases digits i (i == windowCount - 1))

/-- The loop of `AccumulateSingleWindowSum` (pippenger.h:182-209): the buckets and `window_sum`. -/
def plainBuckets (o : Ops β α) (windowBits windowOffset : Nat) :
    List α → List (Limbs 64) → List β → β → Option (List β × β)
  | _, [], buckets, sum => some (buckets, sum)
  | [], _ :: _, _, _ => none
  | base :: bases, scalar :: scalars, buckets, sum =>
    if isZero scalar then plainBuckets o windowBits windowOffset bases scalars buckets sum
    else if isOne scalar then
      plainBuckets o windowBits windowOffset bases scalars buckets
        (if windowOffset = 0 then o.addBase sum base else sum)
    else
      match (divBy2Exp scalar windowOffset)[0]? with
      | none => none
      | some (limb : BitVec 64) =>
        let idx := (limb % (1#64 <<< windowBits)).toNat
        if idx ≠ 0 then
          match buckets[idx - 1]? with
          | none => none
          | some b =>
            plainBuckets o windowBits windowOffset bases scalars
              (buckets.set (idx - 1) (o.addBase b base)) sum
        else plainBuckets o windowBits windowOffset bases scalars buckets sum

/-- `AccumulateSingleWindowSum` (pippenger.h:172-211). -/
def singleWindowSum (o : Ops β α) (windowBits : Nat) (bases : List α) (scalars : List (Limbs 64))
    (windowOffset : Nat) : Option β :=
  if 64 ≤ windowBits then none
  else
    match plainBuckets o windowBits windowOffset bases scalars
        (List.replicate (2 ^ windowBits - 1) o.zero) o.zero with
    | none => none
    | some r => some (accumulateBuckets o r.1 r.2)

/-- `AccumulateWindowSums` (pippenger.h:213-231). -/
def windowSums (o : Ops β α) (windowBits windowCount : Nat) (bases : List α)
    (scalars : List (Limbs 64)) : Option (List β) :=
  sequence ((List.range windowCount).map fun i => singleWindowSum o windowBits bases scalars (windowBits * i))

/-- `Pippenger::Run` (pippenger.h:75-109). `useNAF` is `use_msm_window_naf_`; `parallel_windows_` only
chooses between two loops over the same iterations. -/
def pippenger (o : Ops β α) (ln : Nat → Nat) (modulusBits : Nat) (useNAF : Bool) (bases : List α)
    (scalars : List (Limbs 64)) : Option β :=
  if bases.length ≠ scalars.length then none
  else
    let windowBits := windowsBits ln scalars.length
    let windowCount := windowsCount modulusBits windowBits
    let sums :=
      if useNAF then windowNAFSums o windowBits windowCount bases scalars
      else windowSums o windowBits windowCount bases scalars
    match sums with
    | none => none
    | some sums => accumulateWindowSums o windowBits sums

/-- `PippengerParallelStrategy` (pippenger_adapter.h:14-19). -/
inductive Strategy where
  | none
  | parallelWindow
  | parallelTerm
  | parallelWindowAndTerm
  deriving DecidableEq

/-- The number of threads `RunWithStrategy` sets (pippenger_adapter.h:73-80). -/
def strategyThreads (ln : Nat → Nat) (modulusBits threads size : Nat) (strategy : Strategy) : Nat :=
  if strategy = .parallelWindowAndTerm then
    max (threads / windowsCount modulusBits (windowsBits ln size)) 2
  else threads

/-- `PippengerAdapter::RunWithStrategy` (pippenger_adapter.h:37-116): the value of `*ret`, and
`omp_get_max_threads()` afterwards. The call `omp_set_num_threads(omp_get_max_threads())` (:101) sets
the number to what it is. -/
def runWithStrategy (o : Ops β α) (ln : Nat → Nat) (modulusBits : Nat) (useNAF : Bool) (threads : Nat)
    (strategy : Strategy) (bases : List α) (scalars : List (Limbs 64)) : Option (β × Nat) :=
  if strategy = .none ∨ strategy = .parallelWindow then
    (pippenger o ln modulusBits useNAF bases scalars).map fun r => (r, threads)
  else if bases.length ≠ scalars.length then Option.none
  else if scalars.length = 0 then some (o.zero, threads)
  else
    let threads := strategyThreads ln modulusBits threads scalars.length strategy
    let cs := sizePerThread threads scalars.length Option.none
    match sequence ((invocations scalars.length cs).map fun c =>
        pippenger o ln modulusBits useNAF (chunkOf bases cs c) (chunkOf scalars cs c)) with
    | Option.none => Option.none
    | some results => some (results.foldl o.add o.zero, threads)

/-- `VariableBaseMSM::Run` (variable_base_msm.h:20-29) and `PippengerAdapter::Run`
(pippenger_adapter.h:27-35). -/
def variableBaseMSM (o : Ops β α) (ln : Nat → Nat) (modulusBits : Nat) (useNAF : Bool) (threads : Nat)
    (bases : List α) (scalars : List (Limbs 64)) : Option (β × Nat) :=
  runWithStrategy o ln modulusBits useNAF threads .parallelTerm bases scalars

/-! ### Fixed base -/

/-- The values `CreateVector` collects (fixed_base_msm.h:173-180). -/
def windowBases (o : Ops β α) (windowBits : Nat) : Nat → β → List β
  | 0, _ => []
  | n + 1, windowBase => windowBase :: windowBases o windowBits n (doubleTimes o windowBits windowBase)

/-- The inner loop of `UpdateWindowTable` (fixed_base_msm.h:211-214): `n` values. -/
def multiplesGo (o : Ops β α) (base : β) : Nat → β → List β
  | 0, _ => []
  | n + 1, x => x :: multiplesGo o base n (o.add x base)

/-- `UpdateWindowTable` (fixed_base_msm.h:147-216): row `i` of `base_multiples_`. The sizes are
converted to `unsigned int`; `none` is a write past the end of a row. -/
def windowTable (o : Ops β α) (modulusBits windowBits windowCount : Nat) (base : β) : Option (List (List β)) :=
  let windowSize := 2 ^ windowBits % 2 ^ 32
  let lastWindowSize := 2 ^ (modulusBits - (windowCount - 1) * windowBits) % 2 ^ 32
  sequence ((windowBases o windowBits windowCount base).mapIdx fun i b =>
    let cur := if i = windowCount - 1 then lastWindowSize else windowSize
    if cur ≤ windowSize then
      some (multiplesGo o b cur o.zero ++ List.replicate (windowSize - cur) o.zero)
    else none)

/-- The inner loop of `ScalarMul` (fixed_base_msm.h:56-61): `n` more bits from `bit_offset` on; the
iterator `it` only moves when the first operand of `&&` is true. Returns `j` and the iterator. -/
def windowIndex (scalar : Limbs 64) (modulusBits bitBase : Nat) : Nat → Nat → Nat → Nat → Nat × Nat
  | 0, _, it, j => (j, it)
  | n + 1, bitOffset, it, j =>
    if bitBase + bitOffset < modulusBits then
      windowIndex scalar modulusBits bitBase n (bitOffset + 1) (it + 1)
        (if testBit scalar it then j ||| 2 ^ bitOffset else j)
    else windowIndex scalar modulusBits bitBase n (bitOffset + 1) it j

/-- The outer loop of `ScalarMul` (fixed_base_msm.h:54-63): `n` more windows from `i` on. -/
def fixedMulGo (o : Ops β α) (table : List (List β)) (modulusBits windowBits : Nat) (scalar : Limbs 64) :
    Nat → Nat → Nat → β → Option β
  | 0, _, _, ret => some ret
  | n + 1, i, it, ret =>
    let r := windowIndex scalar modulusBits (i * windowBits) windowBits 0 it 0
    match table[i]? with
    | none => none
    | some row =>
      match row[r.1]? with
      | none => none
      | some x => fixedMulGo o table modulusBits windowBits scalar n (i + 1) r.2 (o.add ret x)

/-- `FixedBaseMSM`: its context and table. -/
structure FixedBase (β : Type v) where
  windowBits : Nat
  windowCount : Nat
  table : List (List β)

/-- `FixedBaseMSM::Reset` (fixed_base_msm.h:32-35); `base` is already converted to `AddResult`. -/
def FixedBase.reset (o : Ops β α) (ln : Nat → Nat) (modulusBits size : Nat) (base : β) :
    Option (FixedBase β) :=
  let windowBits := windowsBits ln size
  let windowCount := windowsCount modulusBits windowBits
  (windowTable o modulusBits windowBits windowCount base).map fun t => ⟨windowBits, windowCount, t⟩

/-- `FixedBaseMSM::ScalarMul` (fixed_base_msm.h:37-65). -/
def FixedBase.scalarMul (o : Ops β α) (m : FixedBase β) (modulusBits : Nat) (scalar : Limbs 64) : Option β :=
  fixedMulGo o m.table modulusBits m.windowBits scalar m.windowCount 0 0 o.zero

/-- `FixedBaseMSM::Run` and `RunSerial` (fixed_base_msm.h:67-145), `outLen` the number of outputs. -/
def FixedBase.run (o : Ops β α) (m : FixedBase β) (modulusBits : Nat) (scalars : List (Limbs 64))
    (outLen : Nat) : Option (List β) :=
  if scalars.length ≠ outLen then none else sequence (scalars.map (m.scalarMul o modulusBits))

/-! ### GLV -/

/-- `GLV::Decompose` (glv.h:33-70): `n` is the matrix `kGLVCoeffs` by rows, `r` the modulus; `/` of
`mpz_class` truncates towards zero. -/
def decompose (n11 n12 n21 n22 r k : Int) : Int × Int :=
  let beta1 := (k * n22).tdiv r
  let beta2 := (k * (-n12)).tdiv r
  (k - (beta1 * n11 + beta2 * n21), -(beta1 * n12 + beta2 * n22))

/-- `gmp::GetNumBits` (gmp_util.cc:74-76, :98-100): 64 times the number of limbs of a non-negative
integer. -/
def gmpNumBits (k : Nat) : Nat := if k = 0 then 0 else 64 * (k.log2 / 64 + 1)

/-- `BitIteratorBE<mpz_class>::begin(&k)` (bit_iterator.h:32-56): the index is a `size_t`, and the end
is `SIZE_MAX`. -/
def gmpBegin (k : Nat) : Nat := if gmpNumBits k = 0 then 2 ^ 64 - 1 else gmpNumBits k - 1

/-- `++` of `BitIteratorBE` (bit_iterator.h:77-84). -/
def gmpNext (i : Nat) : Nat := if i = 0 then 2 ^ 64 - 1 else i - 1

/-- What `GLV::Mul` uses of `Point` (`α`) and `RetPoint` (`β`). -/
structure GLVOps (β : Type v) (α : Type u) extends Ops β α where
  endomorphism : α → α
  neg : α → α
  addPoints : α → α → β

/-- The loop of `GLV::Mul` (glv.h:95-117). The first iteration may skip a doubling and an empty addition
(`skip_zeros`). `none` when the fuel does not suffice. -/
def glvLoop (o : Ops β α) (b1 b2 : α) (b1b2 : β) (k1 k2 : Nat) : Nat → Nat → Nat → Bool → β → Option β
  | 0, _, _, _, _ => none
  | n + 1, i1, i2, skip, ret =>
    if i1 = 2 ^ 64 - 1 then some ret
    else if skip && !k1.testBit i1 && !k2.testBit i2 then
      glvLoop o b1 b2 b1b2 k1 k2 n (gmpNext i1) (gmpNext i2) false ret
    else
      let ret := o.double ret
      let ret :=
        if k1.testBit i1 then
          if k2.testBit i2 then o.add ret b1b2 else o.addBase ret b1
        else if k2.testBit i2 then o.addBase ret b2 else ret
      glvLoop o b1 b2 b1b2 k1 k2 n (gmpNext i1) (gmpNext i2) false ret

/-- `GLV::Mul` (glv.h:72-119) after `Decompose`. -/
def glvMulWith (o : GLVOps β α) (p : α) (k : Int × Int) : Option β :=
  let b1 := if k.1 < 0 then o.neg p else p
  let b2 := if k.2 < 0 then o.neg (o.endomorphism p) else o.endomorphism p
  glvLoop o.toOps b1 b2 (o.addPoints b1 b2) k.1.natAbs k.2.natAbs (gmpNumBits k.1.natAbs + 1)
    (gmpBegin k.1.natAbs) (gmpBegin k.2.natAbs) true o.zero

/-- `GLV::Mul` (glv.h:72-119). -/
def glvMul (o : GLVOps β α) (n11 n12 n21 n22 r : Int) (p : α) (k : Int) : Option β :=
  glvMulWith o p (decompose n11 n12 n21 n22 r k)

end Tachyon.MSM
