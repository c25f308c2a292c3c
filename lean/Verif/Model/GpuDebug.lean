import Verif.Model.BigInt
/-! `PrimeFieldGpuDebug` (`math/finite_fields/prime_field_gpu_debug.h`): the prime field of the GPU, written for the CPU, and the carry chains
(`math/finite_fields/carry_chain.h`) it is made of. `MulLimbs` is in `Model/GpuMul`. A `BigInt` is the list of its limbs. -/
namespace Tachyon.GpuDebug

open Tachyon.BigInt

variable {w : Nat}

/-- `CarryChain<ops>::Add` (carry_chain.h:88-99) with the operations it calls (prime_field_ops_internal.h:108-127), `CarryIn` and `CarryOut` false, when
`index` has become `i`. -/
def chainAdd (ops i : Nat) (x y c : BitVec w) : AddResult w :=
  if i = 1 ∧ ops = 1 then { addWithCarry x y 0#w with carry := 0#w }
  else if i = 1 then addWithCarry x y 0#w
  else if i < ops then addWithCarry x y c
  else { addWithCarry x y c with carry := 0#w }

/-- `CarryChain<ops>::Sub` (carry_chain.h:101-112) with the operations it calls (prime_field_ops_internal.h:129-149). -/
def chainSub (ops i : Nat) (x y c : BitVec w) : SubResult w :=
  if i = 1 ∧ ops = 1 then { subWithBorrow x y 0#w with borrow := 0#w }
  else if i = 1 then subWithBorrow x y 0#w
  else if i < ops then subWithBorrow x y c
  else { subWithBorrow x y c with borrow := 0#w }

/-- The loop of `AddLimbs` (prime_field_gpu_debug.h:270-273): the limbs and the last carry; `i` operations have been done. -/
def addLoop (ops : Nat) : Nat → Limbs w → Limbs w → BitVec w → Limbs w × BitVec w
  | i, x :: xs, y :: ys, c =>
    let r := chainAdd ops (i + 1) x y c
    let t := addLoop ops (i + 1) xs ys r.carry
    (r.result :: t.1, t.2)
  | _, _, _, c => ([], c)

/-- `AddLimbs<false>` (prime_field_gpu_debug.h:262-276); what it returns is not used. -/
def addLimbs (x y : Limbs w) : Limbs w := (addLoop x.length 0 x y 0#w).1

/-- The loop of `SubLimbs` (prime_field_gpu_debug.h:286-289). -/
def subLoop (ops : Nat) : Nat → Limbs w → Limbs w → BitVec w → Limbs w × BitVec w
  | i, x :: xs, y :: ys, c =>
    let r := chainSub ops (i + 1) x y c
    let t := subLoop ops (i + 1) xs ys r.borrow
    (r.result :: t.1, t.2)
  | _, _, _, c => ([], c)

/-- `SubLimbs<false>` (prime_field_gpu_debug.h:278-292). -/
def subLimbs (x y : Limbs w) : Limbs w := (subLoop x.length 0 x y 0#w).1

/-- `SubLimbs<true>` (prime_field_gpu_debug.h:278-292): the limbs and what is returned. -/
def subLimbsCarry (x y : Limbs w) : Limbs w × BitVec w :=
  let t := subLoop (x.length + 1) 0 x y 0#w
  (t.1, (chainSub (x.length + 1) (x.length + 1) 0#w 0#w t.2).result)

/-- `Clamp` (prime_field_gpu_debug.h:395-400). -/
def clamp (m x : Limbs w) : Limbs w :=
  let t := subLimbsCarry x m
  if t.2 ≠ 0#w then x else t.1

/-- `Add` and `AddInPlace` (prime_field_gpu_debug.h:184-194). -/
def add (m x y : Limbs w) : Limbs w := clamp m (addLimbs x y)

/-- `Sub` and `SubInPlace` (prime_field_gpu_debug.h:197-210). -/
def sub (m x y : Limbs w) : Limbs w :=
  let t := subLimbsCarry x y
  if t.2 = 0#w then t.1 else addLimbs t.1 m

/-- `Negate` and `NegateInPlace` (prime_field_gpu_debug.h:212-223). -/
def negate (m x : Limbs w) : Limbs w := subLimbs m x

/-- The loops `while (u.IsEven())` and `while (v.IsEven())` of `DoInverse` (prime_field_gpu_debug.h:416-426), for at most `fuel` rounds. -/
def halve (m : Limbs w) : Nat → Limbs w → Limbs w → Option (Limbs w × Limbs w)
  | 0, u, c => if isEven u then none else some (u, c)
  | fuel + 1, u, c =>
    if isEven u then halve m fuel (divBy2 u) (divBy2 (if isOdd c then addLimbs c m else c)) else some (u, c)

/-- The outer loop of `DoInverse` and what follows it (prime_field_gpu_debug.h:415-439), for at most `fuel` rounds with at most `k` rounds of each inner
loop. -/
def inverseLoop (m : Limbs w) (k : Nat) : Nat → Limbs w → Limbs w → Limbs w → Limbs w → Option (Limbs w)
  | fuel, u, v, c, d =>
    if isOne u then some c
    else if isOne v then some d
    else
      match fuel with
      | 0 => none
      | fuel + 1 =>
        (halve m k u c).bind fun (u, c) =>
          (halve m k v d).bind fun (v, d) =>
            if lt v u then inverseLoop m k fuel (subLimbs u v) v (sub m c d) d
            else inverseLoop m k fuel u (subLimbs v u) c (sub m d c)

/-- `Inverse` and `InverseInPlace` (prime_field_gpu_debug.h:250-260, :402-441), with `r2` for `Config::kMontgomeryR2`: `none` if it has not ended after `fuel`
rounds, `some none` for `std::nullopt`. -/
def inverse (m r2 : Limbs w) (fuel : Nat) (a : Limbs w) : Option (Option (Limbs w)) :=
  if isZero a then some none
  else (inverseLoop m fuel fuel a m r2 (zero a.length)).map some

end Tachyon.GpuDebug
