import Verif.Model.Serialize
/-!
# Model of the exponentiation and scalar multiplication loops of `tachyon/math/base/semigroups.h`
and `tachyon/math/finite_fields/cyclotomic_multiplicative_subgroup.h`

The C++ templates take a class `G`; here they take a record of the operations they call. The
operations are arbitrary functions, so that the same definitions run on mathematical elements and
on stored machine words. On-place and out-of-place operations are the same function.
-/
universe u v

namespace Tachyon
open Tachyon.BigInt

/-- What `MultiplicativeSemigroup<G>` uses of `G`: `One`, `Mul`, and `Square` (which `G` may
implement separately from `Mul`). -/
structure MulOps (α : Type u) where
  one : α
  mul : α → α → α
  square : α → α

/-- What `AdditiveSemigroup<G>` uses of `G` and of its `AddResult`: `Zero`, `Add` of an operand of
type `G` to the accumulator, `Double` of the accumulator. -/
structure AddOps (β : Type v) (α : Type u) where
  zero : β
  add : β → α → β
  double : β → β

variable {w : Nat} {α : Type u} {β : Type v}

/-- The `while (!(*ret))` loop of `BitIteratorBE::begin(value, true)` (math/base/bit_iterator.h:
45-53), from index `i - 1` downwards; `none` is the index `SIZE_MAX`, which is also `end`. -/
def skipZerosDown (a : Limbs w) : Nat → Option Nat
  | 0 => none
  | i + 1 => if testBit a i then some i else skipZerosDown a i

/-- `BitIteratorBE<BigInt<N>>::begin(&a, true)` (math/base/bit_iterator.h:32-56). -/
def beBegin (a : Limbs w) : Option Nat := skipZerosDown a (w * a.length)

/-- `BitIteratorLE<BigInt<N>>::end(&a, true)` (math/base/bit_iterator.h:134-155): starts one past
the last bit, where `TestBit` is false, moves down to the last set bit, then increments
(`SIZE_MAX + 1 = 0`). -/
def leEnd (a : Limbs w) : Nat :=
  match skipZerosDown a (w * a.length + 1) with
  | none => 0
  | some i => i + 1

/-- The loop of `DoPow` (math/base/semigroups.h:302-317) over indices `i - 1, ..., 0`. -/
def doPowGo (o : MulOps α) (g : α) (e : Limbs w) : Nat → α → α
  | 0, ret => ret
  | i + 1, ret =>
    let ret := o.square ret
    let ret := if testBit e i then o.mul ret g else ret
    doPowGo o g e i ret

/-- `DoPow` (math/base/semigroups.h:297-319), `Pow` (:148-160). -/
def doPow (o : MulOps α) (g : α) (e : Limbs w) : α :=
  match beBegin e with
  | none => o.one
  | some i => doPowGo o g e (i + 1) o.one

/-- `ConstPow<Power>` (math/base/semigroups.h:162-204) for a class without `Exp3`, `Exp5`,
`Exp7`. -/
def constPow (o : MulOps α) (power : BitVec 32) (g : α) : α :=
  match power.toNat with
  | 0 => o.one
  | 1 => g
  | 2 => o.square g
  | 3 => o.mul (o.square g) g
  | 4 => o.square (o.square g)
  | 5 => o.mul (o.square (o.square g)) g
  | 6 => let g2 := o.square g; o.mul (o.square g2) g2
  | 7 => let g2 := o.square g; o.mul (o.mul (o.square g2) g2) g
  | _ => doPow o g [power.setWidth 64]

/-- The loop of `PowWithTable` (math/base/semigroups.h:214-221): `n` remaining iterations from
index `i`; reading past the table is undefined behaviour (`none`). -/
def powWithTableGo (o : MulOps α) (table : List α) (e : Limbs w) : Nat → Nat → α → Option α
  | 0, _, g => some g
  | n + 1, i, g =>
    if testBit e i then
      match table[i]? with
      | none => none
      | some t => powWithTableGo o table e n (i + 1) (o.mul g t)
    else powWithTableGo o table e n (i + 1) g

/-- `PowWithTable` (math/base/semigroups.h:208-223). -/
def powWithTable (o : MulOps α) (table : List α) (e : Limbs w) : Option α :=
  powWithTableGo o table e (leEnd e) 0 o.one

/-- `ExpPowOfTwo` (math/base/semigroups.h:285-291). -/
def expPowOfTwo (o : MulOps α) : Nat → α → α
  | 0, v => v
  | n + 1, v => expPowOfTwo o n (o.square v)

/-- The loop of `DoScalarMul` (math/base/semigroups.h:552-567) over indices `i - 1, ..., 0`. -/
def doScalarMulGo (o : AddOps β α) (g : α) (e : Limbs w) : Nat → β → β
  | 0, ret => ret
  | i + 1, ret =>
    let ret := o.double ret
    let ret := if testBit e i then o.add ret g else ret
    doScalarMulGo o g e i ret

/-- `DoScalarMul` (math/base/semigroups.h:546-569), `ScalarMul` (:373-385). -/
def doScalarMul (o : AddOps β α) (g : α) (e : Limbs w) : β :=
  match beBegin e with
  | none => o.zero
  | some i => doScalarMulGo o g e (i + 1) o.zero

/-- `ConstScalarMul<Scalar>` (math/base/semigroups.h:387-417) for a class with `AddResult = G`. -/
def constScalarMul (o : AddOps α α) (scalar : BitVec 64) (g : α) : α :=
  match scalar.toNat with
  | 0 => o.zero
  | 1 => g
  | 2 => o.double g
  | 3 => o.add (o.double g) g
  | 4 => o.double (o.double g)
  | 5 => o.add (o.double (o.double g)) g
  | 6 => let g2 := o.double g; o.add (o.double g2) g2
  | 7 => let g2 := o.double g; o.add (o.add (o.double g2) g2) g
  | _ => doScalarMul o g [scalar]

/-- What `MultiScalarMul` returns: `none` is `false`. The OpenMP loop writes `outputs[i]` only
from iteration `i`, so the order of iterations is irrelevant. The three variants
(math/base/semigroups.h:574-588, :592-604, :608-621). -/
def multiScalarMulMSMB (o : AddOps β α) (scalars : List (Limbs w)) (bases : List α)
    (outLen : Nat) : Option (List β) :=
  if scalars.length ≠ bases.length then none
  else if scalars.length ≠ outLen then none
  else if scalars.length = 0 then none
  else some (List.zipWith (doScalarMul o) bases scalars)

@[inherit_doc multiScalarMulMSMB]
def multiScalarMulMSSB (o : AddOps β α) (scalars : List (Limbs w)) (base : α)
    (outLen : Nat) : Option (List β) :=
  if scalars.length ≠ outLen then none
  else if scalars.length = 0 then none
  else some (scalars.map (doScalarMul o base))

@[inherit_doc multiScalarMulMSMB]
def multiScalarMulSSMB (o : AddOps β α) (scalar : Limbs w) (bases : List α)
    (outLen : Nat) : Option (List β) :=
  if bases.length ≠ outLen then none
  else if bases.length = 0 then none
  else some (bases.map (fun b => doScalarMul o b scalar))

/-- `LinearCombination<Forward>` (math/base/semigroups.h:479-496); `mulR` is `*= r`. -/
def linearCombination (o : AddOps α α) (mulR : α → α) (forward : Bool) (values : List α) : α :=
  if forward then values.foldl (fun ret v => o.add (mulR ret) v) o.zero
  else values.reverse.foldl (fun ret v => o.add (mulR ret) v) o.zero

/-- `LinearCombinationInPlace<Forward>` (math/base/semigroups.h:515-541); an empty container fails
the `CHECK_GT` (`none`). -/
def linearCombinationInPlace (o : AddOps α α) (mulR : α → α) (forward : Bool) (values : List α) :
    Option α :=
  match (if forward then values else values.reverse) with
  | [] => none
  | v :: vs => some (vs.foldl (fun ret v => o.add (mulR ret) v) v)

/-- The loop of `DoCyclotomicPow` (cyclotomic_multiplicative_subgroup.h:107-127): digits most
significant first, `inverse = none` when `F` has no fast cyclotomic inverse (then a negative digit
is skipped). -/
def doCyclotomicPowGo (mul : α → α → α) (cycSquare : α → α) (f : α) (inverse : Option α) :
    List Int → Bool → α → α
  | [], _, ret => ret
  | v :: vs, found, ret =>
    let ret := if found then cycSquare ret else ret
    if v = 0 then doCyclotomicPowGo mul cycSquare f inverse vs found ret
    else if v > 0 then doCyclotomicPowGo mul cycSquare f inverse vs true (mul ret f)
    else
      doCyclotomicPowGo mul cycSquare f inverse vs true
        (match inverse with | some i => mul ret i | none => ret)

/-- The bits the iterator range `[begin(&e, true), end(&e))` yields. -/
def bitsBE (e : Limbs w) : List Bool :=
  match beBegin e with
  | none => []
  | some i => ((List.range (i + 1)).reverse).map (testBit e)

/-- `CyclotomicPow` for a class with `FastCyclotomicInverse`
(cyclotomic_multiplicative_subgroup.h:72-81). `none` when `ToNAF` does not return or the unwrapped
inverse is `nullopt`. -/
def cyclotomicPowNAF (zero one : α) (isZero : α → Bool) (mul : α → α → α) (cycSquare : α → α)
    (cycInverse : α → Option α) (f : α) (e : Limbs w) : Option α :=
  if isZero f then some zero
  else
    match toNAF e, cycInverse f with
    | some naf, some i => some (doCyclotomicPowGo mul cycSquare f (some i) naf.reverse false one)
    | _, _ => none

/-- `CyclotomicPow` for a class without `FastCyclotomicInverse`
(cyclotomic_multiplicative_subgroup.h:72-84). -/
def cyclotomicPowBits (zero one : α) (isZero : α → Bool) (mul : α → α → α) (cycSquare : α → α)
    (f : α) (e : Limbs w) : α :=
  if isZero f then zero
  else
    doCyclotomicPowGo mul cycSquare f none ((bitsBE e).map (fun b => if b then 1 else 0)) false one

end Tachyon
