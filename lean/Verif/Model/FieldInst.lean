import Verif.Model.ExtField
import Verif.Model.SmallField
import Verif.Model.PrimeField
import Verif.Spec.Limbs
/-!
# The prime fields as base fields of the templates

The records of operations that the template code (extension fields, curves, polynomials) sees when its
base field is one of the prime field classes. `FrobeniusMapInPlace` of a prime field is the identity
(`finite_fields/prime_field_base.h:146-149`). `Double` and `Square` fall back to `a + a` and `a * a`
where the class does not define `DoubleImpl`, `SquareImpl` (math/base/semigroups.h:124-131, :346-353).
-/
namespace Tachyon

/-- `Config::kTwoInv` before the conversion to Montgomery form: `mpz_invert(2, m)` of an odd `m`
(generator/prime_field_generator/prime_field_generator.cc:219-230). -/
def twoInvNat (m : Nat) : Nat := (m + 1) / 2

/-- The plain 32-bit prime field (finite_fields/small_prime_field.h). The constructor from an integer
has the precondition `n < m` (`DCHECK_LT`, small_prime_field.h:46-48); here a larger `n` is reduced
first. An undefined operation inside `Inverse` is `none` as well; `C12_inverse` excludes it. -/
def SmallField.plainOps (c : SmallField.Config) : FieldOps (BitVec 32) where
  zero := 0#32
  one := 1#32
  twoInv := BitVec.ofNat 32 (twoInvNat c.modulus.toNat)
  ofNat n := BitVec.ofNat 32 (n % c.modulus.toNat)
  add := addMod c
  sub := subMod c
  mul := mul c
  neg := negate c
  double a := addMod c a a
  square a := mul c a a
  isZero a := a == 0#32
  isOne a := a == 1#32
  eq a b := a == b
  inverse a := (inverse c a).bind id
  frobenius _ a := a

/-- The 32-bit prime field in Montgomery form (finite_fields/small_prime_field_mont.h). -/
def SmallField.montOps (m : BitVec 32) : FieldOps (BitVec 32) where
  zero := 0#32
  one := montOne m
  twoInv := montOf m (BitVec.ofNat 32 (twoInvNat m.toNat))
  ofNat n := montOf m (BitVec.ofNat 32 (n % m.toNat))
  add := addMod (montConfig m)
  sub := subMod (montConfig m)
  mul := montMul m
  neg := negate (montConfig m)
  double a := addMod (montConfig m) a a
  square a := montMul m a a
  isZero a := a == 0#32
  isOne a := a == montOne m
  eq a b := a == b
  inverse := montInverse m
  frobenius _ a := a

/-- `BigInt<N>` of an integer below `2^(w N)`. -/
def ofNatLimbs {w : Nat} (len v : Nat) : BigInt.Limbs w :=
  (List.range len).map fun i => BitVec.ofNat w (v >>> (w * i))

/-- The limb prime field (finite_fields/prime_field_fallback.h) with its inversion as a parameter. -/
def PrimeField.ops {w : Nat} (m : BigInt.Limbs w) (inv : BigInt.Limbs w → Option (BigInt.Limbs w)) :
    FieldOps (BigInt.Limbs w) where
  zero := zeroElt m
  one := one m
  twoInv := fromBigInt m (ofNatLimbs m.length (twoInvNat (limbsVal m)))
  ofNat n := fromBigInt m (ofNatLimbs m.length (n % limbsVal m))
  add := add m
  sub := sub m
  mul := mul m
  neg := negate m
  double := double m
  square := square m
  isZero a := BigInt.isZero a
  isOne a := a == one m
  eq a b := a == b
  inverse := inv
  frobenius _ a := a

end Tachyon
