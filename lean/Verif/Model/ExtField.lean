/-!
# Model of the extension fields

`quadratic_extension_field.h`, `cubic_extension_field.h`, `quartic_extension_field.h`, `fp2.h`,
`fp3.h`, `fp4.h`, `fp6.h`, `fp12.h`, all relative to `tachyon/math/finite_fields`.

The C++ classes are templates over the base field, so the model is written over a record of the
base field's operations. `InPlace` variants compute the same values as the plain ones (the two
functions share the `Do...` body); where a `Do...` body reads an operand after it has written the
result, the aliased call is modelled separately. Strings, JSON, hashing and random elements are
left out.
-/
universe u v
namespace Tachyon

/-- What the extension field templates use of their base field. `ofNat` is the constructor from an
integer, `frobenius e` is `FrobeniusMapInPlace(e)`. -/
structure FieldOps (α : Type u) where
  zero : α
  one : α
  twoInv : α
  ofNat : Nat → α
  add : α → α → α
  sub : α → α → α
  mul : α → α → α
  neg : α → α
  double : α → α
  square : α → α
  isZero : α → Bool
  isOne : α → Bool
  eq : α → α → Bool
  inverse : α → Option α
  frobenius : Nat → α → α

variable {α : Type u} {φ : Type v}

/-- `SumOfProductsSerial` of two arrays (math/base/ring.h:57-75). -/
def FieldOps.sumOfProducts (o : FieldOps α) (ps : List (α × α)) : α :=
  ps.foldl (fun s p => o.add s (o.mul p.1 p.2)) o.zero

/-! ## Multiplication by the non-residue -/

/-- The code emitted by `GenerateFastMultiplication` for the bits below the leading one, most
significant first (generator/generator_util.cc:98-104). -/
def fastMulBits (o : FieldOps α) (v : α) : List Bool → α → α
  | [], acc => acc
  | b :: bs, acc =>
    let acc := o.double acc
    fastMulBits o v bs (if b then o.add acc v else acc)

/-- Bits of `n` from the second most significant one down. -/
def bitsBelowTop (n : Nat) : List Bool := ((List.range n.log2).map n.testBit).reverse

/-- The function emitted by `GenerateFastMultiplication(value)` (generator/generator_util.cc:90-107,
ext_field_generator.cc:51-59): starts from `v`, doubles and adds along the bits of `|value|`, and
negates if `value < 0`. `value = 0` is rejected by a `CHECK`. -/
def fastMul (o : FieldOps α) (value : Int) (v : α) : Option α :=
  if value = 0 then none
  else
    let r := fastMulBits o v (bitsBelowTop value.natAbs) v
    some (if value < 0 then o.neg r else r)

/-! ## Quadratic extension -/

/-- `QuadraticExtensionField` (quadratic_extension_field.h:430-432): `c0 + c1 x`. -/
structure Ext2 (α : Type u) where
  c0 : α
  c1 : α
deriving DecidableEq, Repr

/-- The parts of the generated `Config` (generator/ext_field_generator/fp.h.tpl) and of the base
field type a quadratic extension depends on. `frobMul` multiplies a base field element by an entry
of `kFrobeniusCoeffs`, `degree` is `kDegreeOverBasePrimeField`, `baseIsPrime` says whether
`ExtensionDegree() == 2`. -/
structure Ext2Config (α : Type u) where
  mulByNonResidue : α → α
  nonResidueIsMinusOne : Bool
  baseIsPrime : Bool
  degree : Nat
  frobMul : α → Nat → α

namespace Ext2
variable (o : FieldOps α) (cfg : Ext2Config α)

/-- `Zero` (quadratic_extension_field.h:48-50). -/
def zero : Ext2 α := ⟨o.zero, o.zero⟩
/-- `One` (quadratic_extension_field.h:52-54). -/
def one : Ext2 α := ⟨o.one, o.zero⟩
/-- `TwoInv` (quadratic_extension_field.h:60-62). -/
def twoInv : Ext2 α := ⟨o.twoInv, o.zero⟩
/-- The constructor from an integer (quadratic_extension_field.h:37-38); `c1_` is
default-initialised. -/
def ofNat (n : Nat) : Ext2 α := ⟨o.ofNat n, o.zero⟩
/-- The constructor from a base field element (quadratic_extension_field.h:39-42). -/
def ofBase (x : α) : Ext2 α := ⟨x, o.zero⟩
/-- `IsZero` (quadratic_extension_field.h:86). -/
def isZero (a : Ext2 α) : Bool := o.isZero a.c0 && o.isZero a.c1
/-- `IsOne` (quadratic_extension_field.h:88). -/
def isOne (a : Ext2 α) : Bool := o.isOne a.c0 && o.isZero a.c1
/-- `operator==` (quadratic_extension_field.h:151-153). -/
def eq (a b : Ext2 α) : Bool := o.eq a.c0 b.c0 && o.eq a.c1 b.c1
/-- `Add` (quadratic_extension_field.h:178-189). -/
def add (a b : Ext2 α) : Ext2 α := ⟨o.add a.c0 b.c0, o.add a.c1 b.c1⟩
/-- `DoubleImpl` (quadratic_extension_field.h:191-202). -/
def double (a : Ext2 α) : Ext2 α := ⟨o.double a.c0, o.double a.c1⟩
/-- `Sub` (quadratic_extension_field.h:205-216). -/
def sub (a b : Ext2 α) : Ext2 α := ⟨o.sub a.c0 b.c0, o.sub a.c1 b.c1⟩
/-- `Negate` (quadratic_extension_field.h:218-229). -/
def neg (a : Ext2 α) : Ext2 α := ⟨o.neg a.c0, o.neg a.c1⟩
/-- `Mul` by a base field element (quadratic_extension_field.h:244-255). -/
def mulBase (a : Ext2 α) (e : α) : Ext2 α := ⟨o.mul a.c0 e, o.mul a.c1 e⟩
/-- `Conjugate` (quadratic_extension_field.h:96-106). -/
def conjugate (a : Ext2 α) : Ext2 α := ⟨a.c0, o.neg a.c1⟩

/-- `Norm` (quadratic_extension_field.h:112-114). -/
def norm (a : Ext2 α) : α := o.sub (o.square a.c0) (cfg.mulByNonResidue (o.square a.c1))

/-- `DoMul` when the base field is a prime field (quadratic_extension_field.h:325-337). -/
def mulSop (a b : Ext2 α) : Ext2 α :=
  ⟨o.sumOfProducts [(a.c0, b.c0), (cfg.mulByNonResidue a.c1, b.c1)],
   o.sumOfProducts [(a.c0, b.c1), (a.c1, b.c0)]⟩

/-- `DoMul` by Karatsuba (quadratic_extension_field.h:338-358). -/
def mulKaratsuba (a b : Ext2 α) : Ext2 α :=
  let v0 := o.mul a.c0 b.c0
  let v1 := o.mul a.c1 b.c1
  let c1 := o.add a.c0 a.c1
  let c1 := o.mul c1 (o.add b.c0 b.c1)
  let c1 := o.sub c1 v0
  let c1 := o.sub c1 v1
  ⟨o.add v0 (cfg.mulByNonResidue v1), c1⟩

/-- `DoMul` by Karatsuba when the second operand is the destination, as in `x *= x`
(quadratic_extension_field.h:338-358): `c.c1_` is assigned before `b.c1_` is read. -/
def mulKaratsubaAliased (a : Ext2 α) : Ext2 α :=
  let v0 := o.mul a.c0 a.c0
  let v1 := o.mul a.c1 a.c1
  let c1 := o.add a.c0 a.c1
  let c1 := o.mul c1 (o.add a.c0 c1)
  let c1 := o.sub c1 v0
  let c1 := o.sub c1 v1
  ⟨o.add v0 (cfg.mulByNonResidue v1), c1⟩

/-- `DoMul` (quadratic_extension_field.h:315-359). -/
def mul (a b : Ext2 α) : Ext2 α :=
  if cfg.baseIsPrime then mulSop o cfg a b else mulKaratsuba o cfg a b

/-- `DoSquareImpl` (quadratic_extension_field.h:361-405). -/
def square (a : Ext2 α) : Ext2 α :=
  let v0 := o.sub a.c0 a.c1
  let v1 := o.mul a.c0 a.c1
  if cfg.nonResidueIsMinusOne then
    let v0 := o.mul v0 (o.add a.c0 a.c1)
    ⟨v0, o.double v1⟩
  else
    let v2 := o.sub a.c0 (cfg.mulByNonResidue a.c1)
    let v0 := o.mul v0 v2
    ⟨o.add (o.add v0 v1) (cfg.mulByNonResidue v1), o.double v1⟩

/-- `DoInverse` (quadratic_extension_field.h:407-428). -/
def inverse (a : Ext2 α) : Option (Ext2 α) :=
  if isZero o a then none
  else
    let v1 := o.square a.c1
    let v0 := o.square a.c0
    let v0 := o.sub v0 (cfg.mulByNonResidue v1)
    match o.inverse v0 with
    | none => none
    | some v1 => some ⟨o.mul a.c0 v1, o.neg (o.mul a.c1 v1)⟩

/-- `FrobeniusMapInPlace` (quadratic_extension_field.h:116-122). -/
def frobenius (e : Nat) (a : Ext2 α) : Ext2 α :=
  ⟨o.frobenius e a.c0, cfg.frobMul (o.frobenius e a.c1) (e % cfg.degree)⟩

/-- `FastCyclotomicInverse` (quadratic_extension_field.h:289-312). -/
def fastCyclotomicInverse (a : Ext2 α) : Option (Ext2 α) :=
  if isZero o a then none else some (conjugate o a)

/-- The quadratic extension as the base field of a further extension. -/
def ops : FieldOps (Ext2 α) where
  zero := zero o
  one := one o
  twoInv := twoInv o
  ofNat := ofNat o
  add := add o
  sub := sub o
  mul := mul o cfg
  neg := neg o
  double := double o
  square := square o cfg
  isZero := isZero o
  isOne := isOne o
  eq := eq o
  inverse := inverse o cfg
  frobenius := frobenius o cfg

end Ext2

/-! ## Cubic extension -/

/-- `CubicExtensionField` (cubic_extension_field.h:476-479): `c0 + c1 x + c2 x²`. -/
structure Ext3 (α : Type u) where
  c0 : α
  c1 : α
  c2 : α
deriving DecidableEq, Repr

/-- The parts of the generated `Config` a cubic extension depends on; `frobMul`/`frobMul2` multiply
by an entry of `kFrobeniusCoeffs`/`kFrobeniusCoeffs2`. `baseDegree` is
`BaseField::ExtensionDegree()`. -/
structure Ext3Config (α : Type u) where
  mulByNonResidue : α → α
  baseDegree : Nat
  degree : Nat
  frobMul : α → Nat → α
  frobMul2 : α → Nat → α

namespace Ext3
variable (o : FieldOps α) (cfg : Ext3Config α)

/-- `Zero` (cubic_extension_field.h:48-50). -/
def zero : Ext3 α := ⟨o.zero, o.zero, o.zero⟩
/-- `One` (cubic_extension_field.h:52-54). -/
def one : Ext3 α := ⟨o.one, o.zero, o.zero⟩
/-- `TwoInv` (cubic_extension_field.h:60-62). -/
def twoInv : Ext3 α := ⟨o.twoInv, o.zero, o.zero⟩
/-- The constructor from an integer (cubic_extension_field.h:36-37). -/
def ofNat (n : Nat) : Ext3 α := ⟨o.ofNat n, o.zero, o.zero⟩
/-- The constructor from a base field element (cubic_extension_field.h:38-41). -/
def ofBase (x : α) : Ext3 α := ⟨x, o.zero, o.zero⟩
/-- `IsZero` (cubic_extension_field.h:92-94). -/
def isZero (a : Ext3 α) : Bool := o.isZero a.c0 && o.isZero a.c1 && o.isZero a.c2
/-- `IsOne` (cubic_extension_field.h:96-98). -/
def isOne (a : Ext3 α) : Bool := o.isOne a.c0 && o.isZero a.c1 && o.isZero a.c2
/-- `operator==` (cubic_extension_field.h:173-175). -/
def eq (a b : Ext3 α) : Bool := o.eq a.c0 b.c0 && o.eq a.c1 b.c1 && o.eq a.c2 b.c2
/-- `Add` (cubic_extension_field.h:206-219). -/
def add (a b : Ext3 α) : Ext3 α := ⟨o.add a.c0 b.c0, o.add a.c1 b.c1, o.add a.c2 b.c2⟩
/-- `DoubleImpl` (cubic_extension_field.h:221-234). -/
def double (a : Ext3 α) : Ext3 α := ⟨o.double a.c0, o.double a.c1, o.double a.c2⟩
/-- `Sub` (cubic_extension_field.h:237-250). -/
def sub (a b : Ext3 α) : Ext3 α := ⟨o.sub a.c0 b.c0, o.sub a.c1 b.c1, o.sub a.c2 b.c2⟩
/-- `Negate` (cubic_extension_field.h:252-265). -/
def neg (a : Ext3 α) : Ext3 α := ⟨o.neg a.c0, o.neg a.c1, o.neg a.c2⟩
/-- `Mul` by a base field element (cubic_extension_field.h:280-293). -/
def mulBase (a : Ext3 α) (e : α) : Ext3 α := ⟨o.mul a.c0 e, o.mul a.c1 e, o.mul a.c2 e⟩

/-- `DoMul` (cubic_extension_field.h:330-368). -/
def mul (a b : Ext3 α) : Ext3 α :=
  let v0 := o.mul a.c0 b.c0
  let v1 := o.mul a.c1 b.c1
  let v2 := o.mul a.c2 b.c2
  let x := o.sub (o.sub (o.mul (o.add a.c0 a.c1) (o.add b.c0 b.c1)) v0) v1
  let y := o.sub (o.sub (o.mul (o.add a.c0 a.c2) (o.add b.c0 b.c2)) v0) v2
  let z := o.sub (o.sub (o.mul (o.add a.c1 a.c2) (o.add b.c1 b.c2)) v1) v2
  ⟨o.add v0 (cfg.mulByNonResidue z), o.add x (cfg.mulByNonResidue v2), o.add y v1⟩

/-- `DoSquareImpl` (cubic_extension_field.h:370-408). -/
def square (a : Ext3 α) : Ext3 α :=
  let s0 := o.square a.c0
  let s1 := o.double (o.mul a.c0 a.c1)
  let s2 := o.square (o.add (o.sub a.c0 a.c1) a.c2)
  let s3 := o.double (o.mul a.c1 a.c2)
  let s4 := o.square a.c2
  ⟨o.add s0 (cfg.mulByNonResidue s3), o.add s1 (cfg.mulByNonResidue s4),
   o.sub (o.sub (o.add (o.add s1 s2) s3) s0) s4⟩

/-- `DoInverse` (cubic_extension_field.h:410-474). -/
def inverse (a : Ext3 α) : Option (Ext3 α) :=
  if isZero o a then none
  else
    let t0 := o.square a.c0
    let t1 := o.square a.c1
    let t2 := o.square a.c2
    let t3 := o.mul a.c0 a.c1
    let t4 := o.mul a.c0 a.c2
    let t5 := o.mul a.c1 a.c2
    let s0 := o.sub t0 (cfg.mulByNonResidue t5)
    let s1 := o.sub (cfg.mulByNonResidue t2) t3
    let s2 := o.sub t1 t4
    let a1 := o.mul a.c2 s1
    let a2 := o.mul a.c1 s2
    let a3 := cfg.mulByNonResidue (o.add a1 a2)
    match o.inverse (o.add (o.mul a.c0 s0) a3) with
    | none => none
    | some t6 => some ⟨o.mul s0 t6, o.mul s1 t6, o.mul s2 t6⟩

/-- `FrobeniusMapInPlace` (cubic_extension_field.h:130-139). -/
def frobenius (e : Nat) (a : Ext3 α) : Ext3 α :=
  ⟨o.frobenius e a.c0, cfg.frobMul (o.frobenius e a.c1) (e % cfg.degree),
   cfg.frobMul2 (o.frobenius e a.c2) (e % cfg.degree)⟩

/-- `Norm` (cubic_extension_field.h:111-128); `none` is the failing `CHECK`. -/
def norm (a : Ext3 α) : Option α :=
  let ap := frobenius o cfg cfg.baseDegree a
  let ap2 := frobenius o cfg (2 * cfg.baseDegree) a
  let n := mul o cfg ap (mul o cfg ap2 a)
  if o.isZero n.c1 && o.isZero n.c2 then some n.c0 else none

/-- The cubic extension as the base field of a further extension. -/
def ops : FieldOps (Ext3 α) where
  zero := zero o
  one := one o
  twoInv := twoInv o
  ofNat := ofNat o
  add := add o
  sub := sub o
  mul := mul o cfg
  neg := neg o
  double := double o
  square := square o cfg
  isZero := isZero o
  isOne := isOne o
  eq := eq o
  inverse := inverse o cfg
  frobenius := frobenius o cfg

end Ext3

/-! ## Quartic extension -/

/-- `QuarticExtensionField` (quartic_extension_field.h:598-602): `c0 + c1 x + c2 x² + c3 x³`. -/
structure Ext4 (α : Type u) where
  c0 : α
  c1 : α
  c2 : α
  c3 : α
deriving DecidableEq, Repr

/-- The static constants set by `QuarticExtensionField::Init` (quartic_extension_field.h:110-130). -/
structure Ext4Consts (α : Type u) where
  inv3 : α
  inv4 : α
  inv6 : α
  inv12 : α
  inv20 : α
  inv24 : α
  inv30 : α
  inv120 : α
  neg5 : α
  negInv2 : α
  negInv3 : α
  negInv4 : α
  negInv6 : α
  negInv12 : α
  negInv24 : α
  negInv120 : α

/-- The parts of the generated `Config` a quartic extension depends on. -/
structure Ext4Config (α : Type u) where
  mulByNonResidue : α → α
  baseDegree : Nat
  degree : Nat
  frobMul : α → Nat → α
  frobMul2 : α → Nat → α
  frobMul3 : α → Nat → α

namespace Ext4
variable (o : FieldOps α) (cfg : Ext4Config α) (k : Ext4Consts α)

/-- `QuarticExtensionField::Init` (quartic_extension_field.h:110-130); `none` is the dereference of
an empty `optional`. -/
def init : Option (Ext4Consts α) := do
  let inv3 ← o.inverse (o.ofNat 3)
  let inv4 ← o.inverse (o.ofNat 4)
  let inv6 ← o.inverse (o.ofNat 6)
  let inv12 ← o.inverse (o.ofNat 12)
  let inv20 ← o.inverse (o.ofNat 20)
  let inv24 ← o.inverse (o.ofNat 24)
  let inv30 ← o.inverse (o.ofNat 30)
  let inv120 ← o.inverse (o.ofNat 120)
  pure {
    inv3, inv4, inv6, inv12, inv20, inv24, inv30, inv120
    neg5 := o.neg (o.ofNat 5)
    negInv2 := o.neg o.twoInv
    negInv3 := o.neg inv3
    negInv4 := o.neg inv4
    negInv6 := o.neg inv6
    negInv12 := o.neg inv12
    negInv24 := o.neg inv24
    negInv120 := o.neg inv120 }

/-- `Zero` (quartic_extension_field.h:54-57). -/
def zero : Ext4 α := ⟨o.zero, o.zero, o.zero, o.zero⟩
/-- `One` (quartic_extension_field.h:59-62). -/
def one : Ext4 α := ⟨o.one, o.zero, o.zero, o.zero⟩
/-- `TwoInv` (quartic_extension_field.h:69-72). -/
def twoInv : Ext4 α := ⟨o.twoInv, o.zero, o.zero, o.zero⟩
/-- The constructor from an integer (quartic_extension_field.h:32-33). -/
def ofNat (n : Nat) : Ext4 α := ⟨o.ofNat n, o.zero, o.zero, o.zero⟩
/-- `IsZero` (quartic_extension_field.h:132-134). -/
def isZero (a : Ext4 α) : Bool :=
  o.isZero a.c0 && o.isZero a.c1 && o.isZero a.c2 && o.isZero a.c3
/-- `IsOne` (quartic_extension_field.h:136-138). -/
def isOne (a : Ext4 α) : Bool :=
  o.isOne a.c0 && o.isZero a.c1 && o.isZero a.c2 && o.isZero a.c3
/-- `operator==` (quartic_extension_field.h:223-226). -/
def eq (a b : Ext4 α) : Bool :=
  o.eq a.c0 b.c0 && o.eq a.c1 b.c1 && o.eq a.c2 b.c2 && o.eq a.c3 b.c3
/-- `Add` (quartic_extension_field.h:263-278). -/
def add (a b : Ext4 α) : Ext4 α :=
  ⟨o.add a.c0 b.c0, o.add a.c1 b.c1, o.add a.c2 b.c2, o.add a.c3 b.c3⟩
/-- `DoubleImpl` (quartic_extension_field.h:280-295). -/
def double (a : Ext4 α) : Ext4 α := ⟨o.double a.c0, o.double a.c1, o.double a.c2, o.double a.c3⟩
/-- `Sub` (quartic_extension_field.h:298-313). -/
def sub (a b : Ext4 α) : Ext4 α :=
  ⟨o.sub a.c0 b.c0, o.sub a.c1 b.c1, o.sub a.c2 b.c2, o.sub a.c3 b.c3⟩
/-- `Negate` (quartic_extension_field.h:315-330). -/
def neg (a : Ext4 α) : Ext4 α := ⟨o.neg a.c0, o.neg a.c1, o.neg a.c2, o.neg a.c3⟩
/-- `Mul` by a base field element (quartic_extension_field.h:345-360). -/
def mulBase (a : Ext4 α) (e : α) : Ext4 α :=
  ⟨o.mul a.c0 e, o.mul a.c1 e, o.mul a.c2 e, o.mul a.c3 e⟩

/-- The interpolation shared by `DoMul` (quartic_extension_field.h:470-492) and `DoSquareImpl`
(quartic_extension_field.h:540-562), from the values `v0..v6` of the product polynomial at
`0, 1, -1, 2, -2, 3, ∞`. -/
def interpolate (v0 v1 v2 v3 v4 v5 v6 : α) : Ext4 α :=
  let v05 := o.add (o.double (o.double v0)) v0
  let v63 := o.add (o.double v6) v6
  ⟨o.add v0 (cfg.mulByNonResidue
     (o.add (o.add (o.add (o.mul k.inv4 v0) (o.mul k.negInv6 (o.add v1 v2)))
       (o.mul k.inv24 (o.add v3 v4))) (o.mul k.neg5 v6))),
   o.add (o.sub (o.add (o.add (o.add (o.add (o.add (o.mul k.negInv3 v0) v1) (o.mul k.negInv2 v2))
       (o.mul k.negInv4 v3)) (o.mul k.inv20 v4)) (o.mul k.inv30 v5)) (o.double (o.double v63)))
     (cfg.mulByNonResidue
       (o.sub (o.add (o.add (o.mul k.negInv12 (o.sub v0 v1)) (o.mul k.inv24 (o.sub v2 v3)))
         (o.mul k.negInv120 (o.sub v4 v5))) v63)),
   o.add (o.add (o.add (o.add (o.mul k.negInv4 v05) (o.mul k.inv3 (o.double (o.add v1 v2))))
       (o.mul k.negInv24 (o.add v3 v4))) (o.double (o.double v6)))
     (cfg.mulByNonResidue v6),
   o.add (o.add (o.add
       (o.mul k.inv12 (o.add (o.sub v05 (o.double (o.double (o.double v1)))) v1))
       (o.mul k.negInv24 (o.add (o.add (o.add (o.sub v2 (o.double (o.double (o.double v3)))) v3) v4)
         v5)))
     (o.double (o.double v63))) v63⟩

/-- `DoMul` (quartic_extension_field.h:394-493). -/
def mul (a b : Ext4 α) : Ext4 α :=
  let h1 := o.double a.c1
  let h2 := o.double (o.double a.c2)
  let h3 := o.double (o.double (o.double a.c3))
  let h4 := o.double b.c1
  let h5 := o.double (o.double b.c2)
  let h6 := o.double (o.double (o.double b.c3))
  let v0 := o.mul a.c0 b.c0
  let v1 := o.mul (o.add (o.add (o.add a.c0 a.c1) a.c2) a.c3)
    (o.add (o.add (o.add b.c0 b.c1) b.c2) b.c3)
  let v2 := o.mul (o.sub (o.add (o.sub a.c0 a.c1) a.c2) a.c3)
    (o.sub (o.add (o.sub b.c0 b.c1) b.c2) b.c3)
  let v3 := o.mul (o.add (o.add (o.add a.c0 h1) h2) h3) (o.add (o.add (o.add b.c0 h4) h5) h6)
  let v4 := o.mul (o.sub (o.add (o.sub a.c0 h1) h2) h3) (o.sub (o.add (o.sub b.c0 h4) h5) h6)
  let h1 := o.add h1 a.c1
  let h2 := o.add (o.double h2) a.c2
  let h3 := o.add h3 a.c3
  let h3 := o.add h3 (o.double h3)
  let h4 := o.add h4 b.c1
  let h5 := o.add (o.double h5) b.c2
  let h6 := o.add h6 b.c3
  let h6 := o.add h6 (o.double h6)
  let v5 := o.mul (o.add (o.add (o.add a.c0 h1) h2) h3) (o.add (o.add (o.add b.c0 h4) h5) h6)
  let v6 := o.mul a.c3 b.c3
  interpolate o cfg k v0 v1 v2 v3 v4 v5 v6

/-- `DoSquareImpl` (quartic_extension_field.h:495-563). -/
def square (a : Ext4 α) : Ext4 α :=
  let h1 := o.double a.c1
  let h2 := o.double (o.double a.c2)
  let h3 := o.double (o.double (o.double a.c3))
  let v0 := o.square a.c0
  let v1 := o.square (o.add (o.add (o.add a.c0 a.c1) a.c2) a.c3)
  let v2 := o.square (o.sub (o.add (o.sub a.c0 a.c1) a.c2) a.c3)
  let v3 := o.square (o.add (o.add (o.add a.c0 h1) h2) h3)
  let v4 := o.square (o.sub (o.add (o.sub a.c0 h1) h2) h3)
  let h1 := o.add h1 a.c1
  let h2 := o.add (o.double h2) a.c2
  let h3 := o.add h3 a.c3
  let h3 := o.add h3 (o.double h3)
  let v5 := o.square (o.add (o.add (o.add a.c0 h1) h2) h3)
  let v6 := o.square a.c3
  interpolate o cfg k v0 v1 v2 v3 v4 v5 v6

/-- `FrobeniusMapInPlace` (quartic_extension_field.h:173-185). -/
def frobenius (e : Nat) (a : Ext4 α) : Ext4 α :=
  ⟨o.frobenius e a.c0, cfg.frobMul (o.frobenius e a.c1) (e % cfg.degree),
   cfg.frobMul2 (o.frobenius e a.c2) (e % cfg.degree),
   cfg.frobMul3 (o.frobenius e a.c3) (e % cfg.degree)⟩

/-- `Norm` (quartic_extension_field.h:151-171); `none` is the failing `CHECK`. -/
def norm (a : Ext4 α) : Option α :=
  let ap := frobenius o cfg cfg.baseDegree a
  let ap2 := frobenius o cfg (2 * cfg.baseDegree) a
  let ap3 := frobenius o cfg (3 * cfg.baseDegree) a
  let n := mul o cfg k ap (mul o cfg k (mul o cfg k ap2 ap3) a)
  if o.isZero n.c1 && o.isZero n.c2 && o.isZero n.c3 then some n.c0 else none

/-- `DoInverse` (quartic_extension_field.h:565-596). The `none` of the inner inversion is the
dereference of an empty `optional`. -/
def inverse (a : Ext4 α) : Option (Ext4 α) :=
  if isZero o a then none
  else
    let ar1 := frobenius o cfg cfg.baseDegree a
    let ap2 := frobenius o cfg (2 * cfg.baseDegree) a
    let ap3 := frobenius o cfg (3 * cfg.baseDegree) a
    let ar1 := mul o cfg k ar1 (mul o cfg k ap2 ap3)
    let ar := o.zero
    let ar := o.add ar (o.mul a.c1 ar1.c3)
    let ar := o.add ar (o.mul a.c2 ar1.c2)
    let ar := o.add ar (o.mul a.c3 ar1.c1)
    let ar := cfg.mulByNonResidue ar
    let ar := o.add ar (o.mul a.c0 ar1.c0)
    match o.inverse ar with
    | none => none
    | some i => some (mulBase o ar1 i)

/-- The quartic extension as a field. -/
def ops : FieldOps (Ext4 α) where
  zero := zero o
  one := one o
  twoInv := twoInv o
  ofNat := ofNat o
  add := add o
  sub := sub o
  mul := mul o cfg k
  neg := neg o
  double := double o
  square := square o cfg k
  isZero := isZero o
  isOne := isOne o
  eq := eq o
  inverse := inverse o cfg k
  frobenius := frobenius o cfg

end Ext4

/-! ## Sparse products in towers -/

namespace Fp6
variable (o : FieldOps α) (cfg : Ext3Config α)

/-- `MulInPlaceBy1` of the cubic `Fp6` (fp6.h:251-265). -/
def mulBy1 (a : Ext3 α) (b1 : α) : Ext3 α :=
  let t0 := o.mul a.c2 b1
  ⟨cfg.mulByNonResidue t0, o.mul a.c0 b1, o.mul a.c1 b1⟩

/-- `MulInPlaceBy01` of the cubic `Fp6` (fp6.h:268-312). -/
def mulBy01 (a : Ext3 α) (b0 b1 : α) : Ext3 α :=
  let t0 := o.add (cfg.mulByNonResidue (o.mul a.c2 b1)) (o.mul a.c0 b0)
  let t1 := o.add (o.mul a.c0 b1) (o.mul a.c1 b0)
  let t2 := o.add (o.mul a.c2 b0) (o.mul a.c1 b1)
  ⟨t0, t1, t2⟩

/-- `MulInPlaceBy034` of the quadratic `Fp6` over `Fp3` (fp6.h:49-97). -/
def mulBy034 (a : Ext2 (Ext3 α)) (b0 b3 b4 : α) : Ext2 (Ext3 α) :=
  let z0 := a.c0.c0
  let z1 := a.c0.c1
  let z2 := a.c0.c2
  let z3 := a.c1.c0
  let z4 := a.c1.c1
  let z5 := a.c1.c2
  let tmp1 := cfg.mulByNonResidue b3
  let tmp2 := cfg.mulByNonResidue b4
  ⟨⟨o.add (o.add (o.mul z0 b0) (o.mul z4 tmp2)) (o.mul z5 tmp1),
    o.add (o.add (o.mul z1 b0) (o.mul z3 b3)) (o.mul z5 tmp2),
    o.add (o.add (o.mul z2 b0) (o.mul z3 b4)) (o.mul z4 b3)⟩,
   ⟨o.add (o.add (o.mul z0 b3) (o.mul z2 tmp2)) (o.mul z3 b0),
    o.add (o.add (o.mul z0 b4) (o.mul z1 b3)) (o.mul z4 b0),
    o.add (o.add (o.mul z1 b4) (o.mul z2 b3)) (o.mul z5 b0)⟩⟩

/-- `MulInPlaceBy014` of the quadratic `Fp6` over `Fp3` (fp6.h:101-149). -/
def mulBy014 (a : Ext2 (Ext3 α)) (b0 b1 b4 : α) : Ext2 (Ext3 α) :=
  let z0 := a.c0.c0
  let z1 := a.c0.c1
  let z2 := a.c0.c2
  let z3 := a.c1.c0
  let z4 := a.c1.c1
  let z5 := a.c1.c2
  let tmp1 := cfg.mulByNonResidue b1
  let tmp2 := cfg.mulByNonResidue b4
  ⟨⟨o.add (o.add (o.mul z0 b0) (o.mul z2 tmp1)) (o.mul z4 tmp2),
    o.add (o.add (o.mul z0 b1) (o.mul z1 b0)) (o.mul z5 tmp2),
    o.add (o.add (o.mul z1 b1) (o.mul z2 b0)) (o.mul z3 b4)⟩,
   ⟨o.add (o.add (o.mul z2 tmp2) (o.mul z3 b0)) (o.mul z5 tmp1),
    o.add (o.add (o.mul z0 b4) (o.mul z3 b1)) (o.mul z4 b0),
    o.add (o.add (o.mul z1 b4) (o.mul z4 b1)) (o.mul z5 b0)⟩⟩

end Fp6

namespace Fp12
variable (o : FieldOps α) (cfg6 : Ext3Config α)

/-- `MulByNonResidue` generated for the non-residue `0 + 1 x` of a quadratic extension over a
quadratic one (ext_field_generator.cc:65-67). -/
def mulByX2 (cfg : Ext2Config α) (v : Ext2 α) : Ext2 α := ⟨cfg.mulByNonResidue v.c1, v.c0⟩

/-- `MulByNonResidue` generated for the non-residue `0 + 1 x + 0 x²` of `Fp12` over `Fp6`
(ext_field_generator.cc:68-70). -/
def mulByX3 (v : Ext3 α) : Ext3 α := ⟨cfg6.mulByNonResidue v.c2, v.c0, v.c1⟩

/-- `MulInPlaceBy034` (fp12.h:60-103). -/
def mulBy034 (nr : Ext3 α → Ext3 α) (x : Ext2 (Ext3 α)) (b0 b3 b4 : α) : Ext2 (Ext3 α) :=
  let a := Ext3.mulBase o x.c0 b0
  let b := Fp6.mulBy01 o cfg6 x.c1 b3 b4
  let c1 := Ext3.add o x.c1 x.c0
  let c1 := Fp6.mulBy01 o cfg6 c1 (o.add b0 b3) b4
  let c1 := Ext3.sub o c1 a
  let c1 := Ext3.sub o c1 b
  ⟨Ext3.add o (nr b) a, c1⟩

/-- `MulInPlaceBy014` (fp12.h:107-160). -/
def mulBy014 (nr : Ext3 α → Ext3 α) (x : Ext2 (Ext3 α)) (b0 b1 b4 : α) : Ext2 (Ext3 α) :=
  let a := Fp6.mulBy01 o cfg6 x.c0 b0 b1
  let b := Fp6.mulBy1 o cfg6 x.c1 b4
  let c1 := Ext3.add o x.c1 x.c0
  let c1 := Fp6.mulBy01 o cfg6 c1 b0 (o.add b1 b4)
  let c1 := Ext3.sub o c1 a
  let c1 := Ext3.sub o c1 b
  ⟨Ext3.add o (nr b) a, c1⟩

/-- `DoFastCyclotomicSquare` when `kModulusModSixIsOne` (fp12.h:162-255); otherwise the function is
`Square`. -/
def cyclotomicSquare (a : Ext2 (Ext3 α)) : Ext2 (Ext3 α) :=
  let nr := cfg6.mulByNonResidue
  let a0 := a.c0.c0
  let a1 := a.c0.c1
  let a2 := a.c0.c2
  let a3 := a.c1.c0
  let a4 := a.c1.c1
  let a5 := a.c1.c2
  let tmp := o.mul a0 a4
  let t0 := o.sub (o.sub (o.mul (o.add a0 a4) (o.add a0 (nr a4))) tmp) (nr tmp)
  let t1 := o.double tmp
  let tmp := o.mul a3 a2
  let t2 := o.sub (o.sub (o.mul (o.add a3 a2) (o.add a3 (nr a2))) tmp) (nr tmp)
  let t3 := o.double tmp
  let tmp := o.mul a1 a5
  let t4 := o.sub (o.sub (o.mul (o.add a1 a5) (o.add a1 (nr a5))) tmp) (nr tmp)
  let t5 := o.double tmp
  let z0 := a.c0.c0
  let z4 := a.c0.c1
  let z3 := a.c0.c2
  let z2 := a.c1.c0
  let z1 := a.c1.c1
  let z5 := a.c1.c2
  let z0 := o.sub t0 z0
  let z0 := o.double z0
  let z0 := o.add z0 t0
  let z1 := o.add t1 z1
  let z1 := o.double z1
  let z1 := o.add z1 t1
  let tmp := nr t5
  let z2 := o.add z2 tmp
  let z2 := o.double z2
  let z2 := o.add z2 tmp
  let z3 := o.sub t4 z3
  let z3 := o.double z3
  let z3 := o.add z3 t4
  let z4 := o.sub t2 z4
  let z4 := o.double z4
  let z4 := o.add z4 t2
  let z5 := o.add z5 t3
  let z5 := o.double z5
  let z5 := o.add z5 t3
  ⟨⟨z0, z4, z3⟩, ⟨z2, z1, z5⟩⟩

/-- `DoFastCyclotomicSquare` (fp12.h:162-263). -/
def fastCyclotomicSquare (modSixIsOne : Bool) (cfg12 : Ext2Config (Ext3 α)) (a : Ext2 (Ext3 α)) :
    Ext2 (Ext3 α) :=
  if modSixIsOne then cyclotomicSquare o cfg6 a else Ext2.square (Ext3.ops o cfg6) cfg12 a

end Fp12

/-- `MulByNonResidue` of the BN254 `Fq6` (elliptic_curves/bn/bn254/BUILD.bazel:80-95); `nr` is the
`MulByNonResidue` of `Fq2`. -/
def bn254MulByNonResidue (o : FieldOps α) (nr : α → α) (v : Ext2 α) : Ext2 α :=
  let f := Ext2.double o (Ext2.double o (Ext2.double o v))
  let c0 := nr v.c1
  let c0 := o.add c0 f.c0
  let c0 := o.add c0 v.c0
  let c1 := o.add (o.add f.c1 v.c1) v.c0
  ⟨c0, c1⟩

/-- `MulByNonResidue` of the BLS12-381 `Fq6` (elliptic_curves/bls12/bls12_381/BUILD.bazel:91-93). -/
def bls12MulByNonResidue (o : FieldOps α) (v : Ext2 α) : Ext2 α :=
  ⟨o.sub v.c0 v.c1, o.add v.c0 v.c1⟩

end Tachyon
