import Verif.Model.ExtField
import Verif.Model.Pow
/-!
# Model of the Frobenius coefficient tables

The `DoInit` functions of `fp2.h`, `fp3.h`, `fp4.h`, `fp6.h`, `fp12.h` (all in
`tachyon/math/finite_fields`). Each fills `Config::kFrobeniusCoeffs` (and `kFrobeniusCoeffs2`,
`kFrobeniusCoeffs3`) with powers of a non-residue whose exponents are computed with GMP; GMP integers
are modelled as natural numbers. The tables are modelled as functions of the index; an index is always
reduced modulo the table size before the access.
-/
universe u
namespace Tachyon
open Tachyon.BigInt

variable {α : Type u}

/-- What `Pow` uses of a field. -/
def FieldOps.toMulOps (o : FieldOps α) : MulOps α := ⟨o.one, o.mul, o.square⟩

/-- `gmp::CopyLimbs` into a zeroed `BigInt<len>` (math/base/gmp/gmp_util.cc:106-110). A value of more
than `len` limbs would be written out of bounds; here its high limbs are dropped, and the theorems
assume `P < 2^(64 N)`, for which it does not happen. -/
def copyLimbs (len v : Nat) : Limbs 64 := (List.range len).map fun i => BitVec.ofNat 64 (v >>> (64 * i))

/-- `kFrobeniusCoeffs[d] = q.Pow(k * ((P^d - 1) / n))`, `kFrobeniusCoeffs[0] = One()`
(e.g. fp3.h:65-104): `P` the modulus, `N` its number of limbs. -/
def frobCoeff (o : FieldOps α) (q : α) (P N n k d : Nat) : α :=
  if d = 0 then o.one else doPow o.toMulOps q (copyLimbs (d * N) (k * ((P ^ d - 1) / n)))

/-- `Fp2` (fp2.h:32, :40-52). -/
def fp2Config (o : FieldOps α) (mulByNonResidue : α → α) (nonResidueIsMinusOne : Bool) :
    Ext2Config α where
  mulByNonResidue
  nonResidueIsMinusOne
  baseIsPrime := true
  degree := 2
  frobMul a e := o.mul a (if e = 0 then o.one else o.neg o.one)

/-- `Fp3` (fp3.h:35, :43-107); `q` is `Config::kNonResidue`. -/
def fp3Config (o : FieldOps α) (mulByNonResidue : α → α) (q : α) (P N : Nat) : Ext3Config α where
  mulByNonResidue
  baseDegree := 1
  degree := 3
  frobMul a e := o.mul a (frobCoeff o q P N 3 1 e)
  frobMul2 a e := o.mul a (frobCoeff o q P N 3 2 e)

/-- The quartic `Fp4` (fp4.h:132-221); `q` is `Config::kNonResidue`. -/
def fp4QuarticConfig (o : FieldOps α) (mulByNonResidue : α → α) (q : α) (P N : Nat) :
    Ext4Config α where
  mulByNonResidue
  baseDegree := 1
  degree := 4
  frobMul a e := o.mul a (frobCoeff o q P N 4 1 e)
  frobMul2 a e := o.mul a (frobCoeff o q P N 4 2 e)
  frobMul3 a e := o.mul a (frobCoeff o q P N 4 3 e)

/-- The quadratic `Fp4` over `Fp2` (fp4.h:45-104); `q` is `BaseField::Config::kNonResidue`, an
element of the prime field, and the coefficients are elements of the prime field
(ext_field_generator.cc:121-125). -/
def fp4Config (o : FieldOps α) (mulByNonResidue : Ext2 α → Ext2 α) (nonResidueIsMinusOne : Bool)
    (q : α) (P N : Nat) : Ext2Config (Ext2 α) where
  mulByNonResidue
  nonResidueIsMinusOne
  baseIsPrime := false
  degree := 4
  frobMul a e := Ext2.mulBase o a (frobCoeff o q P N 4 1 e)

/-- The quadratic `Fp6` over `Fp3` (fp6.h:152-222); `q` is `BaseField::Config::kNonResidue`. -/
def fp6Config (o : FieldOps α) (mulByNonResidue : Ext3 α → Ext3 α) (nonResidueIsMinusOne : Bool)
    (q : α) (P N : Nat) : Ext2Config (Ext3 α) where
  mulByNonResidue
  nonResidueIsMinusOne
  baseIsPrime := false
  degree := 6
  frobMul a e := Ext3.mulBase o a (frobCoeff o q P N 6 1 e)

/-- The cubic `Fp6` over `Fp2` (fp6.h:315-403); `o` are the operations of `Fp2`, `q` is
`Config::kNonResidue`. -/
def fp6CubicConfig (o : FieldOps α) (mulByNonResidue : α → α) (q : α) (P N : Nat) :
    Ext3Config α where
  mulByNonResidue
  baseDegree := 2
  degree := 6
  frobMul a e := o.mul a (frobCoeff o q P N 3 1 e)
  frobMul2 a e := o.mul a (frobCoeff o q P N 3 2 e)

/-- `Fp12` over the cubic `Fp6` (fp12.h:266-371); `o` are the operations of `Fp2`, `q` is
`BaseField::Config::kNonResidue`. -/
def fp12Config (o : FieldOps α) (mulByNonResidue : Ext3 α → Ext3 α) (nonResidueIsMinusOne : Bool)
    (q : α) (P N : Nat) : Ext2Config (Ext3 α) where
  mulByNonResidue
  nonResidueIsMinusOne
  baseIsPrime := false
  degree := 12
  frobMul a e := Ext3.mulBase o a (frobCoeff o q P N 6 1 e)

end Tachyon
