import Mathlib.Data.List.Basic
import Mathlib.Data.Int.Basic
/-! `PrimeFieldSerializable` (`crypto/hashes/prime_field_serializable.h`): integers as elements of a prime field. An element is the number its constructor is
given. `none` is a failed `DCHECK`, which is there in debug builds only. -/
namespace Tachyon.FieldSerial

/-- An integral type: whether it is signed, and how many bits it has. -/
structure IntType where
  signed : Bool
  bits : ℕ

/-- The values of the type. -/
def IntType.Has (t : IntType) (v : ℤ) : Prop := if t.signed then -2 ^ (t.bits - 1) ≤ v ∧ v < 2 ^ (t.bits - 1) else 0 ≤ v ∧ v < 2 ^ t.bits

/-- Conversion to an unsigned type of `n` bits. -/
def wrap (n : ℕ) (v : ℤ) : ℕ := (v % 2 ^ n).toNat

/-- `value >= kModulus` for a modulus of type `uint32_t` (prime_field_serializable.h:31): types of at most 32 bits are converted to `uint32_t`, the
modulus is converted to a wider one. -/
def geModulus32 (t : IntType) (p : ℕ) (v : ℤ) : Bool := if t.bits ≤ 32 then decide (p ≤ wrap 32 v) else decide ((p : ℤ) ≤ v)

/-- `ToPrimeField` (prime_field_serializable.h:28-38), with the constructors `PrimeField(uint32_t)` (small_prime_field.h:45-47) and `BigInt(T)`
(big_int.h:61-69): what it returns, and the vector after it. `small` is `kModulusBits <= 32`. -/
def toPrimeField (debug small : Bool) (t : IntType) (p : ℕ) (v : ℤ) (fields : List ℕ) : Option (Bool × List ℕ) :=
  if small then
    if geModulus32 t p v then some (false, fields)
    else if debug ∧ ¬ wrap 32 v < p then none
    else some (true, fields ++ [wrap 32 v])
  else if debug ∧ v < 0 then none
  else if p ≤ wrap 64 v then some (false, fields)
  else some (true, fields ++ [wrap 64 v])

/-- `BatchToPrimeField` (prime_field_serializable.h:41-47), which the vectors, spans and arrays use (:69-107). -/
def batchToPrimeField (debug small : Bool) (t : IntType) (p : ℕ) : List ℤ → List ℕ → Option (Bool × List ℕ)
  | [], fields => some (true, fields)
  | v :: vs, fields => (toPrimeField debug small t p v fields).bind fun r => if r.1 then batchToPrimeField debug small t p vs r.2 else some r

end Tachyon.FieldSerial
