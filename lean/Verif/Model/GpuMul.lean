import Verif.Model.GpuDebug
/-! The product of `PrimeFieldGpuDebug` (`math/finite_fields/prime_field_gpu_debug.h`): the Montgomery product on words of 32 bits with the even and the odd
products in two accumulators. The words have `w` bits, and `Clamp`, which works on words of twice the size, is taken on the same words. `odd` has one
word more than `even`, which is never read or written, and is left out. A failed `CHECK` is `none`. -/
namespace Tachyon.GpuDebug

open Tachyon.BigInt

variable {w : Nat}

/-- `MulLo` (prime_field_ops_internal.h:60-62). -/
def mulLo (x y : BitVec w) : BitVec w := (mulAddWithCarry 0#w x y 0#w).lo

/-- `MulHi` (prime_field_ops_internal.h:64-66). -/
def mulHi (x y : BitVec w) : BitVec w := (mulAddWithCarry 0#w x y 0#w).hi

/-- `MulN` (prime_field_gpu_debug.h:325-331): the products of every second word. -/
def mulN (bi : BitVec w) : Limbs w → Limbs w
  | [] => []
  | [x] => [mulLo x bi, mulHi x bi]
  | x :: _ :: as => mulLo x bi :: mulHi x bi :: mulN bi as

/-- `CMadN` (prime_field_gpu_debug.h:333-347), with a carry to begin with, which is 0 there. -/
def cMadN (bi : BitVec w) : Limbs w → Limbs w → BitVec w → Limbs w × BitVec w
  | x0 :: x1 :: acc, y :: as, c =>
    let r0 := addWithCarry (mulLo y bi) x0 c
    let r1 := addWithCarry (mulHi y bi) x1 r0.carry
    let t := cMadN bi acc (as.drop 1) r1.carry
    (r0.result :: r1.result :: t.1, t.2)
  | _, _, c => ([], c)

/-- `MadcNRshift` (prime_field_gpu_debug.h:349-365): the accumulator moves by two words; the last carry is dropped by `MadcHi`, so the `CHECK` holds. -/
def madcNRshift (bi : BitVec w) (odd a : Limbs w) (carry : BitVec w) : Limbs w := (cMadN bi (odd.drop 2 ++ [0#w, 0#w]) a carry).1

/-- `odd[n - 1] = Addc(odd[n - 1], 0, carry)` (prime_field_gpu_debug.h:380-382, :388-390), which drops the carry, so the `CHECK` holds. -/
def addLast : Limbs w → BitVec w → Limbs w
  | [], _ => []
  | [x], c => [(addWithCarry x 0#w c).result]
  | x :: y :: xs, c => x :: addLast (y :: xs) c

/-- The first half of `MadNRedc` (prime_field_gpu_debug.h:372-383): a word of the second factor times the first is added. -/
def madN (even odd a : Limbs w) (bi : BitVec w) (first : Bool) : Limbs w × Limbs w :=
  if first then (mulN bi a, mulN bi a.tail)
  else
    let r := addWithCarry (even.headD 0#w) (odd.getD 1 0#w) 0#w
    let o := madcNRshift bi odd a.tail r.carry
    let e := cMadN bi (r.result :: even.tail) a 0#w
    (e.1, addLast o e.2)

/-- The second half of `MadNRedc` (prime_field_gpu_debug.h:384-390), with `inv` for `Config::kInverse32`: a multiple of the modulus is added. -/
def redc (m : Limbs w) (inv : BitVec w) (even odd : Limbs w) : Option (Limbs w × Limbs w) :=
  let mi := even.headD 0#w * inv
  let o := cMadN mi odd m.tail 0#w
  if o.2 ≠ 0#w then none
  else
    let e := cMadN mi even m 0#w
    some (e.1, addLast o.1 e.2)

/-- `MadNRedc` (prime_field_gpu_debug.h:367-391). -/
def madNRedc (m : Limbs w) (inv : BitVec w) (even odd a : Limbs w) (bi : BitVec w) (first : Bool) : Option (Limbs w × Limbs w) :=
  let t := madN even odd a bi first
  redc m inv t.1 t.2

/-- The loop of `MulLimbs` (prime_field_gpu_debug.h:305-308): `even` and `odd`. -/
def mulLoop (m : Limbs w) (inv : BitVec w) (x : Limbs w) : Limbs w → Bool → Limbs w → Limbs w → Option (Limbs w × Limbs w)
  | y0 :: y1 :: ys, first, even, odd =>
    (madNRedc m inv even odd x y0 first).bind fun (even, odd) =>
      (madNRedc m inv odd even x y1 false).bind fun (odd, even) => mulLoop m inv x ys false even odd
  | _, _, even, odd => some (even, odd)

/-- `MulLimbs` (prime_field_gpu_debug.h:294-323); `even` is what `results` holds before. -/
def mulLimbs (m : Limbs w) (inv : BitVec w) (x y even : Limbs w) : Option (Limbs w) :=
  (mulLoop m inv x y true even (zero x.length)).map fun (even, odd) => (addGo even (odd.tail ++ [0#w]) 0#w).1

/-- `Mul` and `MulInPlace` (prime_field_gpu_debug.h:226-245). -/
def mul (m : Limbs w) (inv : BitVec w) (x y : Limbs w) : Option (Limbs w) := (mulLimbs m inv x y (zero x.length)).map (GpuDebug.clamp m)

end Tachyon.GpuDebug
