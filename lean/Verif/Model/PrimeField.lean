import Verif.Model.Montgomery
/-!
# Model of `tachyon/math/finite_fields/prime_field_fallback.h`

`PrimeField<Config>` with a Montgomery representation. The generated constants of `Config` are
computed from the modulus `m` by the functions of `modulus.h`, as the generator does
(generator/prime_field_generator/prime_field_generator.cc:52-76).
-/
namespace Tachyon.PrimeField
open Tachyon.BigInt

variable {w : Nat}

/-- `Config::kInverse64` (prime_field_generator.cc:73). -/
def kInverse (m : Limbs w) : BitVec w :=
  match m with
  | m0 :: _ => modulusInverse m0
  | [] => 0#w

/-- `Zero()` (prime_field_fallback.h:66). -/
def zeroElt (m : Limbs w) : Limbs w := zero m.length

/-- `One()` (prime_field_fallback.h:68-72) with `Config::kOne` the Montgomery form of 1, that is
`R mod m` (prime_field_generator.cc:221). -/
def one (m : Limbs w) : Limbs w := montgomeryRk 1 m

/-- `Add` / `AddInPlace` (prime_field_fallback.h:199-214). -/
def add (m a b : Limbs w) : Limbs w :=
  let t := BigInt.add a b
  clamp (hasSpareBit m) m t.1 (t.2 != 0#w)

/-- `DoubleImpl` / `DoubleImplInPlace` (prime_field_fallback.h:216-231). -/
def double (m a : Limbs w) : Limbs w :=
  let t := mulBy2 a 0#w
  clamp (hasSpareBit m) m t.1 (t.2 != 0#w)

/-- `Sub` / `SubInPlace` (prime_field_fallback.h:234-251). -/
def sub (m a b : Limbs w) : Limbs w :=
  if gt b a then (BigInt.sub (BigInt.add a m).1 b).1 else (BigInt.sub a b).1

/-- `Negate` / `NegateInPlace` (prime_field_fallback.h:253-269). -/
def negate (m a : Limbs w) : Limbs w :=
  if isZero a then zero m.length else (BigInt.sub m a).1

/-- `Mul` / `MulInPlace` (prime_field_fallback.h:273-290). -/
def mul (m a b : Limbs w) : Limbs w :=
  if canUseNoCarry m then fastMul (hasSpareBit m) m (kInverse m) a b
  else slowMul (hasSpareBit m) m (kInverse m) a b

/-- `SquareImpl` / `SquareImplInPlace` (prime_field_fallback.h:292-307). -/
def square (m a : Limbs w) : Limbs w :=
  if m.length = 1 then mul m a a else squareImpl (hasSpareBit m) m (kInverse m) a

/-- `PrimeField(const BigInt<N>&)` / `FromBigInt` (prime_field_fallback.h:55-60, :111-113). -/
def fromBigInt (m v : Limbs w) : Limbs w := mul m v (montgomeryRk 2 m)

/-- `ToBigInt` (prime_field_fallback.h:166-169). -/
def toBigInt (m a : Limbs w) : Limbs w := fromMontgomery m (kInverse m) a

end Tachyon.PrimeField
