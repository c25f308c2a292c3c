import Verif.Model.Parallel
import Verif.Model.Pow
import Mathlib.Algebra.Field.Defs
/-!
# Model of batch inversion, successive powers, sums of products and square roots

`tachyon/math/base/groups.h`, `semigroups.h`, `ring.h` and
`tachyon/math/finite_fields/square_root_algorithms`. The templates are modelled over an arbitrary field
(monoid, ring) standing for the class they are instantiated with; that the classes implement their
fields is the subject of C08-C16. Inside an OpenMP region chunk `i` writes only its own span
(`C45_interleaving`), so the loops are written chunk by chunk.
-/
universe u
namespace Tachyon.Group
open Tachyon.Parallel

section BatchInverse
variable {F : Type u} [Field F] [DecidableEq F]

/-- `Inverse()` of a field element. -/
def inv? (x : F) : Option F := if x = 0 then none else some x⁻¹

/-- First pass of `DoBatchInverse` (groups.h:134-143): the running product and the vector
`productions`, last element first. -/
def firstPass : List F → F → List F → F × List F
  | [], product, st => (product, st)
  | g :: gs, product, st =>
    if g ≠ 0 then firstPass gs (product * g) (product * g :: st) else firstPass gs product st

/-- Second pass of `DoBatchInverse` (groups.h:161-175): `gs` is reversed, `st` is the iterator
`prod_it`, `acc` the part of `inverses` already written. `none` is a dereference past the end. -/
def secondPass : List F → F → List F → List F → Option (List F)
  | [], _, _, acc => some acc
  | g :: gs, productInv, st, acc =>
    if g ≠ 0 then
      match st with
      | [] => none
      | p :: st => secondPass gs (productInv * g) st (productInv * p :: acc)
    else secondPass gs productInv st (0 :: acc)

/-- `DoBatchInverse` (groups.h:124-177). The reads of `groups[i]` precede the write of `inverses[i]`,
so the in-place call is the same function. -/
def doBatchInverse (groups : List F) (coeff : F) : Option (List F) :=
  let r := firstPass groups 1 [1]
  match inv? r.1 with
  | none => none
  | some productInv =>
    let productInv := if coeff = 1 then productInv else productInv * coeff
    secondPass groups.reverse productInv r.2.tail []

/-- `BatchInverse` (groups.h:77-110) with OpenMP: `outLen` is the size of `*inverses`, `none` is
`false` or the undefined shift `size_t{1} << (thread_nums / 2)` from 128 threads on. -/
def batchInverse (threads : Nat) (groups : List F) (outLen : Nat) (coeff : F) : Option (List F) :=
  if groups.length ≠ outLen then none
  else if 64 ≤ threads / 2 then none
  else if 2 ^ (threads / 2) ≤ groups.length then
    let cs := sizePerThread threads groups.length none
    let chunks := (invocations groups.length cs).map fun c => doBatchInverse (chunkOf groups cs c) coeff
    if chunks.all Option.isSome then some (chunks.flatMap fun c => c.getD []) else none
  else doBatchInverse groups coeff

/-- `BatchInverseSerial` (groups.h:112-121). -/
def batchInverseSerial (groups : List F) (outLen : Nat) (coeff : F) : Option (List F) :=
  if groups.length ≠ outLen then none else doBatchInverse groups coeff

end BatchInverse

section Powers
variable {M : Type u} [Monoid M] [DecidableEq M]

/-- `Pow` of a `size_t` exponent (semigroups.h:153-160). -/
def powSize (g : M) (e : Nat) : M := doPow ⟨1, (· * ·), fun x => x * x⟩ g [BitVec.ofNat 64 e]

/-- The inner loop of `GetSuccessivePowers`: `n + 1` values from `pow` on (semigroups.h:236-241). -/
def powLoop (generator : M) : Nat → M → List M
  | 0, pow => [pow]
  | n + 1, pow => pow :: powLoop generator n (pow * generator)

/-- The start value of a chunk (semigroups.h:233-234, :256-257). -/
def powStart (generator c : M) (start : Nat) : M :=
  let pow := powSize generator start
  if c = 1 then pow else pow * c

/-- `GetSuccessivePowers` (semigroups.h:227-244); a chunk is never empty. -/
def getSuccessivePowers (threads size : Nat) (generator c : M) : List M :=
  parallelize threads (List.replicate size (1 : M)) fun i cs span =>
    powLoop generator (span.length - 1) (powStart generator c (i * cs))

/-- The writes `ret[ReverseBitsLen(idx, log_size)] = pow` for `n + 1` indices from `idx` on
(semigroups.h:258-265, :277-281); `none` is an undefined shift or a write out of bounds. -/
def bitRevLoop (generator : M) (logSize : Nat) : Nat → Nat → M → List M → Option (List M)
  | 0, idx, pow, ret =>
    match Bits.reverseBitsLen (BitVec.ofNat 64 idx) logSize with
    | none => none
    | some r => if r.toNat < ret.length then some (ret.set r.toNat pow) else none
  | n + 1, idx, pow, ret =>
    match Bits.reverseBitsLen (BitVec.ofNat 64 idx) logSize with
    | none => none
    | some r =>
      if r.toNat < ret.length then
        bitRevLoop generator logSize n (idx + 1) (pow * generator) (ret.set r.toNat pow)
      else none

/-- `GetBitRevIndexSuccessivePowersSerial` (semigroups.h:272-283). -/
def getBitRevPowersSerial (size : Nat) (generator c : M) : Option (List M) :=
  match Bits.checkedLog2 (BitVec.ofNat 64 size) with
  | none => none
  | some logSize => bitRevLoop generator logSize (size - 1) 0 c (List.replicate size 1)

/-- The chunks of `GetBitRevIndexSuccessivePowers` in the order given by `order` (semigroups.h:
248-268): each chunk writes to bit-reversed positions all over `ret`. -/
def bitRevChunks (generator c : M) (logSize cs : Nat) : List (Nat × Nat) → List M → Option (List M)
  | [], ret => some ret
  | ch :: rest, ret =>
    match bitRevLoop generator logSize (ch.2 - 1) (ch.1 * cs) (powStart generator c (ch.1 * cs)) ret with
    | none => none
    | some ret => bitRevChunks generator c logSize cs rest ret

/-- `GetBitRevIndexSuccessivePowers` (semigroups.h:248-268), the chunks taken in an arbitrary order. -/
def getBitRevPowers (threads size : Nat) (generator c : M)
    (order : List (Nat × Nat) → List (Nat × Nat)) : Option (List M) :=
  match Bits.checkedLog2 (BitVec.ofNat 64 size) with
  | none => none
  | some logSize =>
    let cs := numElementsPerThread threads size none
    bitRevChunks generator c logSize cs (order (invocations size cs)) (List.replicate size 1)

end Powers

section Muls
variable {M : Type u} [AddMonoid M]

/-- `ScalarMul` of a `size_t` (semigroups.h:378-385). -/
def scalarMulSize (g : M) (e : Nat) : M :=
  doScalarMul ⟨0, (· + ·), fun x => x + x⟩ g [BitVec.ofNat 64 e]

/-- The inner loop of `GetSuccessiveScalarMuls` (semigroups.h:465-469). -/
def mulLoop (generator : M) : Nat → M → List M
  | 0, x => [x]
  | n + 1, x => x :: mulLoop generator n (x + generator)

/-- `GetSuccessiveScalarMuls` (semigroups.h:456-472). -/
def getSuccessiveScalarMuls (threads size : Nat) (generator : M) : List M :=
  parallelize threads (List.replicate size (0 : M)) fun i cs span =>
    mulLoop generator (span.length - 1) (scalarMulSize generator (i * cs))

end Muls

section Sums
variable {R : Type u} [Semiring R]

/-- The callback of `SumOfProducts` (ring.h:40-47): `none` is a read past the end of `b`. -/
def sumChunk (b : List R) (start : Nat) : List R → Nat → R → Option R
  | [], _, sum => some sum
  | x :: xs, j, sum =>
    match b[start + j]? with
    | none => none
    | some y => sumChunk b start xs (j + 1) (sum + x * y)

/-- `SumOfProducts` (ring.h:33-53); `none` is the failing `CHECK_EQ`. -/
def sumOfProducts (threads : Nat) (a b : List R) : Option R :=
  if a.length ≠ b.length then none
  else if a.length = 0 then some 0
  else
    let partials := parallelizeMap threads a fun i cs span => sumChunk b (i * cs) span 0 0
    if partials.all Option.isSome then some ((partials.map fun p => p.getD 0).foldl (· + ·) 0) else none

/-- `SumOfProductsSerial` (ring.h:56-75). -/
def sumOfProductsSerial (a b : List R) : Option R :=
  if a.length ≠ b.length then none
  else if a.length = 0 then some 0
  else sumChunk b 0 a 0 0

end Sums

section SquareRoot
variable {F : Type u} [Field F] [DecidableEq F]

/-- `ComputeShanksSquareRoot` (square_root_algorithms/shanks.h:13-28); `e` is
`kModulusPlusOneDivFour`, `none` is `false`. -/
def shanks {w : Nat} (e : BigInt.Limbs w) (a : F) : Option F :=
  let sqrt := doPow ⟨1, (· * ·), fun x => x * x⟩ a e
  if sqrt * sqrt = a then some sqrt else none

/-- The `while (!b2k.IsOne())` loop (tonelli_shanks.h:55-60): the number of squarings until one;
`none` when the fuel does not suffice. -/
def orderLoop : Nat → F → Nat → Option Nat
  | 0, b, k => if b = 1 then some k else none
  | n + 1, b, k => if b = 1 then some k else orderLoop n (b * b) (k + 1)

/-- The `for (i = 1; i < j; ++i)` loop (tonelli_shanks.h:71-73): `j - 1` squarings. -/
def squareTimes : Nat → F → F
  | 0, w => w
  | n + 1, w => squareTimes n (w * w)

/-- The `do ... while` loop (tonelli_shanks.h:51-101) with its state `x, b, z, v`. The result `none`
is an exhausted fuel (the loop does not end), `some none` is the `return false`. -/
def tonelliLoop (s : Nat) : Nat → F → F → F → Nat → Option (Option F)
  | 0, _, _, _, _ => none
  | n + 1, x, b, z, v =>
    match orderLoop (s + 1) b 0 with
    | none => none
    | some k =>
      if k = s then some none
      else
        let j := v - k
        let w := squareTimes (j - 1) z
        let z := w * w
        let b := b * z
        let x := x * w
        if b = 1 then some (some x) else tonelliLoop s n x b z k

/-- `ComputeTonelliShanksSquareRoot` (tonelli_shanks.h:13-109): `s` is `kTwoAdicity`, `e` is
`kTraceMinusOneDivTwo`, `qnr` the argument `quadratic_non_residue_to_trace`. The outer `none` is
non-termination. -/
def tonelliShanks {w : Nat} (s : Nat) (e : BigInt.Limbs w) (qnr a : F) : Option (Option F) :=
  if a = 0 then some (some 0)
  else
    let w := doPow ⟨1, (· * ·), fun x => x * x⟩ a e
    let x := w * a
    let b := x * w
    if b ≠ 1 then
      match tonelliLoop s (s + 1) x b qnr s with
      | none => none
      | some none => some none
      | some (some x) => some (if x * x = a then some x else none)
    else some (if x * x = a then some x else none)

end SquareRoot
end Tachyon.Group
