import Verif.Model.Group
/-!
# Model of the short Weierstrass points

`tachyon/math/elliptic_curves/short_weierstrass/*.h`, over an arbitrary field standing for `BaseField`.

The in-place members write their result into an operand. Every formula reads the operand's coordinates
before it overwrites them (or reads only coordinates not yet overwritten), so `Add` and `AddInPlace`,
`DoubleImpl` and `DoubleImplInPlace` are the same function; they are modelled once. `SumOfProductsSerial`
of two pairs is written out.
-/
universe u
namespace Tachyon.Curve
open Tachyon.Group Tachyon.Parallel

/-- The configuration of a curve `y² = x³ + a x + b` (short_weierstrass/generator/cpu.h.tpl:32-51):
`aIsZero` is `kAIsZero`, `mulByA` is `MulByA`, `lowDegree` says that `BaseField::ExtensionDegree()` is 1
or 2. -/
structure Config (F : Type u) where
  a : F
  b : F
  aIsZero : Bool
  mulByA : F → F
  lowDegree : Bool

/-- `AffinePoint` (affine_point.h:208-209). -/
structure Affine (F : Type u) where
  x : F
  y : F
deriving DecidableEq

/-- `JacobianPoint` (jacobian_point.h:269-271). -/
structure Jacobian (F : Type u) where
  x : F
  y : F
  z : F
deriving DecidableEq

/-- `ProjectivePoint` (projective_point.h:264-266). -/
structure Projective (F : Type u) where
  x : F
  y : F
  z : F
deriving DecidableEq

/-- `PointXYZZ` (point_xyzz.h:281-284). -/
structure XYZZ (F : Type u) where
  x : F
  y : F
  zz : F
  zzz : F
deriving DecidableEq

variable {F : Type u} [Field F] [DecidableEq F]

namespace Affine

/-- `Zero` (affine_point.h:39, :69). -/
def zero : Affine F := ⟨0, 0⟩

/-- `IsZero` (affine_point.h:125). -/
def isZero (p : Affine F) : Bool := decide (p.x = 0) && decide (p.y = 0)

/-- `operator==` (affine_point.h:109-119). -/
def eq (p q : Affine F) : Bool :=
  if p.isZero then q.isZero
  else if q.isZero then false
  else decide (p.x = q.x) && decide (p.y = q.y)

/-- `Negate` (affine_point.h:168-173). -/
def neg (p : Affine F) : Affine F := ⟨p.x, -p.y⟩

/-- `ToProjective` (affine_point.h:129-132). -/
def toProjective (p : Affine F) : Projective F := if p.isZero then ⟨1, 1, 0⟩ else ⟨p.x, p.y, 1⟩

/-- `ToJacobian` (affine_point.h:134-137). -/
def toJacobian (p : Affine F) : Jacobian F := if p.isZero then ⟨1, 1, 0⟩ else ⟨p.x, p.y, 1⟩

/-- `ToXYZZ` (affine_point.h:139-142). -/
def toXYZZ (p : Affine F) : XYZZ F := if p.isZero then ⟨1, 1, 0, 0⟩ else ⟨p.x, p.y, 1, 1⟩

/-- `DoubleProjective` (affine_point_impl.h:14-67). -/
def doubleProjective (cfg : Config F) (p : Affine F) : Projective F :=
  if p.isZero then ⟨1, 1, 0⟩
  else
    let xx := p.x * p.x
    let w := xx + (xx + xx)
    let w := if cfg.aIsZero then w else w + cfg.a
    let r := p.y * p.y
    let r := r + r
    let sss := p.y * r
    let sss := sss + sss
    let sss := sss + sss
    let rr := r * r
    let b := p.x + r
    let b := b * b
    let b := b - xx
    let b := b - rr
    let h := w * w
    let h := h - (b + b)
    let x := h * p.y
    let x := x + x
    let y := b - h
    let y := y * w
    let y := y - (rr + rr)
    ⟨x, y, sss⟩

/-- `DoubleXYZZ` (affine_point_impl.h:69-113). -/
def doubleXYZZ (cfg : Config F) (p : Affine F) : XYZZ F :=
  if p.isZero then ⟨1, 1, 0, 0⟩
  else
    let u := p.y + p.y
    let v := u * u
    let w := u * v
    let s := p.x * v
    let m := p.x * p.x
    let m := m + (m + m)
    let m := if cfg.aIsZero then m else m + cfg.a
    let x := m * m
    let x := x - (s + s)
    let y := m * (s - x) + (-w) * p.y
    ⟨x, y, v, w⟩

/-- `Endomorphism` (affine_point.h:94-97). -/
def endomorphism (coeff : F) (p : Affine F) : Affine F := ⟨p.x * coeff, p.y⟩

end Affine

namespace Jacobian

/-- `Zero` (jacobian_point.h:39-40, :74). -/
def zero : Jacobian F := ⟨1, 1, 0⟩

/-- `IsZero` (jacobian_point.h:195). -/
def isZero (p : Jacobian F) : Bool := decide (p.z = 0)

/-- `operator==` (jacobian_point.h:169-189). -/
def eq (p q : Jacobian F) : Bool :=
  if p.isZero then q.isZero
  else if q.isZero then false
  else
    let z1z1 := p.z * p.z
    let z2z2 := q.z * q.z
    if p.x * z2z2 ≠ q.x * z1z1 then false
    else decide (p.y * (z2z2 * q.z) = q.y * (z1z1 * p.z))

/-- `Negate` (jacobian_point.h:248-253). -/
def neg (p : Jacobian F) : Jacobian F := ⟨p.x, -p.y, p.z⟩

/-- `DoDoubleImpl` (jacobian_point_impl.h:220-309). -/
def doDouble (cfg : Config F) (p : Jacobian F) : Jacobian F :=
  if cfg.aIsZero then
    let xx := p.x * p.x
    let yy := p.y * p.y
    let yyyy := yy * yy
    let d :=
      if cfg.lowDegree then
        let d := p.x * yy
        let d := d + d
        d + d
      else
        let d := p.x + yy
        let d := d * d
        let d := d - xx
        let d := d - yyyy
        d + d
    let e := xx + xx
    let e := e + xx
    let z := p.y * p.z
    let z := z + z
    let x := e * e
    let x := x - (d + d)
    let y := d - x
    let y := y * e
    let yyyy := yyyy + yyyy
    let yyyy := yyyy + yyyy
    let yyyy := yyyy + yyyy
    ⟨x, y - yyyy, z⟩
  else
    let xx := p.x * p.x
    let yy := p.y * p.y
    let yyyy := yy * yy
    let zz := p.z * p.z
    let s := p.x + yy
    let s := s * s
    let s := s - xx
    let s := s - yyyy
    let s := s + s
    let m := xx + xx
    let m := m + xx
    let m := m + cfg.mulByA (zz * zz)
    let x := m * m
    let x := x - (s + s)
    let z := p.y + p.z
    let z := z + z
    let y := s - x
    let y := y * m
    let yyyy := yyyy + yyyy
    let yyyy := yyyy + yyyy
    let yyyy := yyyy + yyyy
    ⟨x, y - yyyy, z⟩

/-- `DoubleImpl` (jacobian_point_impl.h:199-218); in place a zero operand is left as it is instead of
becoming `Zero()`. -/
def double (cfg : Config F) (p : Jacobian F) : Jacobian F :=
  if p.isZero then zero else doDouble cfg p

/-- `DoAdd` of two Jacobian points (jacobian_point_impl.h:43-113). -/
def doAdd (cfg : Config F) (p q : Jacobian F) : Jacobian F :=
  let z1z1 := p.z * p.z
  let z2z2 := q.z * q.z
  let u1 := p.x * z2z2
  let u2 := q.x * z1z1
  let s1 := p.y * q.z
  let s1 := s1 * z2z2
  let s2 := q.y * p.z
  let s2 := s2 * z1z1
  if u1 = u2 ∧ s1 = s2 then double cfg p
  else
    let h := u2 - u1
    let i := h + h
    let i := i * i
    let j := h * i
    let j := -j
    let r := s2 - s1
    let r := r + r
    let v := u1 * i
    let x := r * r
    let x := x + j
    let x := x - (v + v)
    let y := r * (v - x) + (s1 + s1) * j
    let z := p.z * q.z
    let z := z + z
    let z := z * h
    ⟨x, y, z⟩

/-- `Add` of Jacobian points (jacobian_point_impl.h:14-41). -/
def add (cfg : Config F) (p q : Jacobian F) : Jacobian F :=
  if p.isZero then q else if q.isZero then p else doAdd cfg p q

/-- `DoAdd` with an affine point (jacobian_point_impl.h:138-197). -/
def doAddAffine (cfg : Config F) (p : Jacobian F) (q : Affine F) : Jacobian F :=
  let z1z1 := p.z * p.z
  let u2 := q.x * z1z1
  let s2 := q.y * p.z
  let s2 := s2 * z1z1
  if p.x = u2 ∧ p.y = s2 then double cfg p
  else
    let h := u2 - p.x
    let i := h * h
    let i := i + i
    let i := i + i
    let j := h * i
    let j := -j
    let r := s2 - p.y
    let r := r + r
    let v := p.x * i
    let x := r * r
    let x := x + j
    let x := x - (v + v)
    let y := r * (v - x) + (p.y + p.y) * j
    let z := p.z * h
    let z := z + z
    ⟨x, y, z⟩

/-- `Add` of an affine point (jacobian_point_impl.h:115-136). -/
def addAffine (cfg : Config F) (p : Jacobian F) (q : Affine F) : Jacobian F :=
  if q.isZero then p else if p.isZero then q.toJacobian else doAddAffine cfg p q

/-- `operator-` through `AdditiveGroup` (groups.h:198-205). -/
def sub (cfg : Config F) (p q : Jacobian F) : Jacobian F := add cfg p q.neg

/-- `operator-` of an affine point (groups.h:198-205). -/
def subAffine (cfg : Config F) (p : Jacobian F) (q : Affine F) : Jacobian F := addAffine cfg p q.neg

/-- `ToAffine` (jacobian_point.h:201-213). -/
def toAffine (p : Jacobian F) : Affine F :=
  if p.isZero then Affine.zero
  else if p.z = 1 then ⟨p.x, p.y⟩
  else
    let zInv := p.z⁻¹
    let zInvSquare := zInv * zInv
    ⟨p.x * zInvSquare, p.y * zInvSquare * zInv⟩

/-- `ToProjective` (jacobian_point.h:217-220). -/
def toProjective (p : Jacobian F) : Projective F :=
  let zz := p.z * p.z
  ⟨p.x * p.z, p.y, zz * p.z⟩

/-- `ToXYZZ` (jacobian_point.h:224-227). -/
def toXYZZ (p : Jacobian F) : XYZZ F :=
  let zz := p.z * p.z
  ⟨p.x, p.y, zz, zz * p.z⟩

/-- `Endomorphism` (jacobian_point.h:100-103). -/
def endomorphism (coeff : F) (p : Jacobian F) : Jacobian F := ⟨p.x * coeff, p.y, p.z⟩

/-- One iteration of the loop of `BatchNormalizeSerial` (jacobian_point.h:151-160). -/
def normalizeWith (zInv : F) (p : Jacobian F) : Affine F :=
  if zInv = 0 then Affine.zero
  else if zInv = 1 then ⟨p.x, p.y⟩
  else
    let zInvSquare := zInv * zInv
    ⟨p.x * zInvSquare, p.y * zInvSquare * zInv⟩

/-- `BatchNormalizeSerial` (jacobian_point.h:137-163); `none` is `false`. -/
def batchNormalizeSerial (ps : List (Jacobian F)) (outLen : Nat) : Option (List (Affine F)) :=
  if ps.length ≠ outLen then none
  else
    match batchInverseSerial (ps.map fun p => p.z) ps.length 1 with
    | none => none
    | some invs => some (List.zipWith normalizeWith invs ps)

end Jacobian

namespace Projective

/-- `Zero`: the default constructor gives `(1, 1, 0)` (projective_point.h:35-37, :71). -/
def zero : Projective F := ⟨1, 1, 0⟩

/-- `IsZero` (projective_point.h:190). -/
def isZero (p : Projective F) : Bool := decide (p.z = 0)

/-- `operator==` (projective_point.h:167-184). -/
def eq (p q : Projective F) : Bool :=
  if p.isZero then q.isZero
  else if q.isZero then false
  else if p.x * q.z ≠ q.x * p.z then false
  else decide (p.y * q.z = q.y * p.z)

/-- `Negate` (projective_point.h:242-247). -/
def neg (p : Projective F) : Projective F := ⟨p.x, -p.y, p.z⟩

/-- `DoDoubleImpl` (projective_point_impl.h:199-251). -/
def doDouble (cfg : Config F) (p : Projective F) : Projective F :=
  let xx := p.x * p.x
  let zz := p.z * p.z
  let w := xx + xx
  let w := w + xx
  let w := if cfg.aIsZero then w else w + cfg.mulByA zz
  let s := p.y * p.z
  let s := s + s
  let sss := s * s
  let sss := sss * s
  let r := p.y * s
  let rr := r * r
  let d := p.x + r
  let d := d * d
  let d := d - xx
  let d := d - rr
  let h := w * w
  let h := h - (d + d)
  let x := h * s
  let y := d - h
  let y := y * w
  let y := y - (rr + rr)
  ⟨x, y, sss⟩

/-- `DoubleImpl` (projective_point_impl.h:178-197). -/
def double (cfg : Config F) (p : Projective F) : Projective F :=
  if p.isZero then zero else doDouble cfg p

/-- `DoAdd` of two projective points (projective_point_impl.h:42-98). -/
def doAdd (cfg : Config F) (p q : Projective F) : Projective F :=
  let y1z2 := p.y * q.z
  let x1z2 := p.x * q.z
  let z1z2 := p.z * q.z
  let u := q.y * p.z
  let u := u - y1z2
  let v := q.x * p.z
  let v := v - x1z2
  if u = 0 ∧ v = 0 then double cfg p
  else
    let vv := v * v
    let vvv := v * vv
    let r := vv * x1z2
    let d := u * u
    let d := d * z1z2
    let d := d - vvv
    let d := d - (r + r)
    ⟨v * d, u * (r - d) + (-vvv) * y1z2, vvv * z1z2⟩

/-- `Add` of projective points (projective_point_impl.h:13-40). -/
def add (cfg : Config F) (p q : Projective F) : Projective F :=
  if p.isZero then q else if q.isZero then p else doAdd cfg p q

/-- `DoAdd` with an affine point (projective_point_impl.h:129-176). -/
def doAddAffine (cfg : Config F) (p : Projective F) (q : Affine F) : Projective F :=
  let u := q.y * p.z
  let u := u - p.y
  let v := q.x * p.z
  let v := v - p.x
  if u = 0 ∧ v = 0 then double cfg p
  else
    let vv := v * v
    let vvv := v * vv
    let r := vv * p.x
    let d := u * u
    let d := d * p.z
    let d := d - vvv
    let d := d - (r + r)
    ⟨v * d, u * (r - d) + (-vvv) * p.y, vvv * p.z⟩

/-- `Add` of an affine point (projective_point_impl.h:100-127). -/
def addAffine (cfg : Config F) (p : Projective F) (q : Affine F) : Projective F :=
  if p.isZero then q.toProjective else if q.isZero then p else doAddAffine cfg p q

/-- `operator-` through `AdditiveGroup` (groups.h:198-205). -/
def sub (cfg : Config F) (p q : Projective F) : Projective F := add cfg p q.neg

/-- `operator-` of an affine point (groups.h:198-205). -/
def subAffine (cfg : Config F) (p : Projective F) (q : Affine F) : Projective F :=
  addAffine cfg p q.neg

/-- `ToAffine` (projective_point.h:196-207). -/
def toAffine (p : Projective F) : Affine F :=
  if p.isZero then Affine.zero
  else if p.z = 1 then ⟨p.x, p.y⟩
  else
    let zInv := p.z⁻¹
    ⟨p.x * zInv, p.y * zInv⟩

/-- `ToJacobian` (projective_point.h:211-214). -/
def toJacobian (p : Projective F) : Jacobian F :=
  let zz := p.z * p.z
  ⟨p.x * p.z, p.y * zz, p.z⟩

/-- `ToXYZZ` (projective_point.h:218-221). -/
def toXYZZ (p : Projective F) : XYZZ F :=
  let zz := p.z * p.z
  ⟨p.x * p.z, p.y * zz, zz, p.z * zz⟩

/-- `Endomorphism` (projective_point.h:97-100). -/
def endomorphism (coeff : F) (p : Projective F) : Projective F := ⟨p.x * coeff, p.y, p.z⟩

/-- One iteration of the loop of `BatchNormalizeSerial` (projective_point.h:149-158). -/
def normalizeWith (zInv : F) (p : Projective F) : Affine F :=
  if zInv = 0 then Affine.zero
  else if zInv = 1 then ⟨p.x, p.y⟩
  else ⟨p.x * zInv, p.y * zInv⟩

/-- `BatchNormalizeSerial` (projective_point.h:134-161). -/
def batchNormalizeSerial (ps : List (Projective F)) (outLen : Nat) : Option (List (Affine F)) :=
  if ps.length ≠ outLen then none
  else
    match batchInverseSerial (ps.map fun p => p.z) ps.length 1 with
    | none => none
    | some invs => some (List.zipWith normalizeWith invs ps)

end Projective

namespace XYZZ

/-- `Zero` (point_xyzz.h:37-39, :78). -/
def zero : XYZZ F := ⟨1, 1, 0, 0⟩

/-- `IsZero` (point_xyzz.h:193). -/
def isZero (p : XYZZ F) : Bool := decide (p.zz = 0)

/-- `operator==` (point_xyzz.h:170-187). -/
def eq (p q : XYZZ F) : Bool :=
  if p.isZero then q.isZero
  else if q.isZero then false
  else if p.x * q.zz ≠ q.x * p.zz then false
  else decide (p.y * q.zzz = q.y * p.zzz)

/-- `Negate` (point_xyzz.h:259-264). -/
def neg (p : XYZZ F) : XYZZ F := ⟨p.x, -p.y, p.zz, p.zzz⟩

/-- `DoDoubleImpl` (point_xyzz_impl.h:199-236). -/
def doDouble (cfg : Config F) (p : XYZZ F) : XYZZ F :=
  let u := p.y + p.y
  let v := u * u
  let w := u * v
  let s := p.x * v
  let m := p.x * p.x
  let m := m + (m + m)
  let m := if cfg.aIsZero then m else m + cfg.mulByA (p.zz * p.zz)
  let x := m * m
  let x := x - (s + s)
  let y := m * (s - x) + (-w) * p.y
  ⟨x, y, v * p.zz, w * p.zzz⟩

/-- `DoubleImpl` (point_xyzz_impl.h:178-197). -/
def double (cfg : Config F) (p : XYZZ F) : XYZZ F :=
  if p.isZero then zero else doDouble cfg p

/-- `DoAdd` of two XYZZ points (point_xyzz_impl.h:43-97). -/
def doAdd (cfg : Config F) (a b : XYZZ F) : XYZZ F :=
  let u1 := a.x * b.zz
  let s1 := a.y * b.zzz
  let p := b.x * a.zz
  let p := p - u1
  let r := b.y * a.zzz
  let r := r - s1
  if p = 0 ∧ r = 0 then double cfg a
  else
    let pp := p * p
    let ppp := p * pp
    let q := u1 * pp
    let x := r * r
    let x := x - ppp
    let x := x - (q + q)
    let y := r * (q - x) + (-s1) * ppp
    ⟨x, y, a.zz * b.zz * pp, a.zzz * b.zzz * ppp⟩

/-- `Add` of XYZZ points (point_xyzz_impl.h:14-41). -/
def add (cfg : Config F) (p q : XYZZ F) : XYZZ F :=
  if p.isZero then q else if q.isZero then p else doAdd cfg p q

/-- `DoAdd` with an affine point (point_xyzz_impl.h:128-176). -/
def doAddAffine (cfg : Config F) (a : XYZZ F) (b : Affine F) : XYZZ F :=
  let p := b.x * a.zz
  let p := p - a.x
  let r := b.y * a.zzz
  let r := r - a.y
  if p = 0 ∧ r = 0 then double cfg a
  else
    let pp := p * p
    let ppp := p * pp
    let q := a.x * pp
    let x := r * r
    let x := x - ppp
    let x := x - (q + q)
    let y := r * (q - x) + (-a.y) * ppp
    ⟨x, y, a.zz * pp, a.zzz * ppp⟩

/-- `Add` of an affine point (point_xyzz_impl.h:99-126). -/
def addAffine (cfg : Config F) (p : XYZZ F) (q : Affine F) : XYZZ F :=
  if p.isZero then q.toXYZZ else if q.isZero then p else doAddAffine cfg p q

/-- `operator-` through `AdditiveGroup` (groups.h:198-205). -/
def sub (cfg : Config F) (p q : XYZZ F) : XYZZ F := add cfg p q.neg

/-- `operator-` of an affine point (groups.h:198-205). -/
def subAffine (cfg : Config F) (p : XYZZ F) (q : Affine F) : XYZZ F := addAffine cfg p q.neg

/-- `ToAffine` (point_xyzz.h:199-212). A tuple with `zz ≠ 0` and `zzz = 0` makes the C++ dereference an
empty optional; here the inverse of zero is zero. Such a tuple stands for no point. -/
def toAffine (p : XYZZ F) : Affine F :=
  if p.isZero then Affine.zero
  else if p.zz = 1 then ⟨p.x, p.y⟩
  else
    let zInvCubic := p.zzz⁻¹
    let zInvSquare := zInvCubic * p.zz
    let zInvSquare := zInvSquare * zInvSquare
    ⟨p.x * zInvSquare, p.y * zInvCubic⟩

/-- `ToProjective` (point_xyzz.h:216-224). -/
def toProjective (p : XYZZ F) : Projective F :=
  if p.isZero then ⟨1, 1, 0⟩
  else if p.zz = 1 then ⟨p.x, p.y, 1⟩
  else ⟨p.x * p.zzz, p.y * p.zz, p.zz * p.zzz⟩

/-- `ToJacobian` (point_xyzz.h:228-237). -/
def toJacobian (p : XYZZ F) : Jacobian F :=
  if p.isZero then ⟨1, 1, 0⟩
  else if p.zz = 1 then ⟨p.x, p.y, 1⟩
  else
    let z := p.zz * p.zzz
    ⟨p.x * p.zzz * z, p.y * p.zz * (z * z), z⟩

/-- `Endomorphism` (point_xyzz.h:104-107). -/
def endomorphism (coeff : F) (p : XYZZ F) : XYZZ F := ⟨p.x * coeff, p.y, p.zz, p.zzz⟩

/-- One iteration of the loop of `BatchNormalizeSerial` (point_xyzz.h:149-160). -/
def normalizeWith (zInvCubic : F) (p : XYZZ F) : Affine F :=
  if p.zz = 0 then Affine.zero
  else if p.zz = 1 then ⟨p.x, p.y⟩
  else
    let zInvSquare := zInvCubic * p.zz
    let zInvSquare := zInvSquare * zInvSquare
    ⟨p.x * zInvSquare, p.y * zInvCubic⟩

/-- `BatchNormalizeSerial` (point_xyzz.h:137-163). -/
def batchNormalizeSerial (ps : List (XYZZ F)) (outLen : Nat) : Option (List (Affine F)) :=
  if ps.length ≠ outLen then none
  else
    match batchInverseSerial (ps.map fun p => p.zzz) ps.length 1 with
    | none => none
    | some invs => some (List.zipWith normalizeWith invs ps)

end XYZZ

/-- `BatchNormalize` with OpenMP (jacobian_point.h:105-135, projective_point.h:102-132,
point_xyzz.h:109-135) for the given serial variant; `none` is `false`, a failing `CHECK` or the undefined
shift. -/
def batchNormalize {P : Type u} (serial : List P → Nat → Option (List (Affine F))) (threads : Nat)
    (ps : List P) (outLen : Nat) : Option (List (Affine F)) :=
  if ps.length ≠ outLen then none
  else if 64 ≤ threads / 2 then none
  else if 2 ^ (threads / 2) ≤ ps.length then
    let cs := sizePerThread threads ps.length none
    let chunks := (invocations ps.length cs).map fun c => serial (chunkOf ps cs c) c.2
    if chunks.all Option.isSome then some (chunks.flatMap fun c => c.getD []) else none
  else serial ps outLen

namespace Affine

/-- `Add` of affine points (affine_point.h:154-156). -/
def add (cfg : Config F) (p q : Affine F) : Jacobian F := p.toJacobian.add cfg q.toJacobian

/-- `Add` of a projective point (affine_point.h:157-160). -/
def addProjective (cfg : Config F) (p : Affine F) (q : Projective F) : Projective F :=
  p.toProjective.add cfg q

/-- `Add` of a Jacobian point (affine_point.h:161-163). -/
def addJacobian (cfg : Config F) (p : Affine F) (q : Jacobian F) : Jacobian F := p.toJacobian.add cfg q

/-- `Add` of an XYZZ point (affine_point.h:164-166). -/
def addXYZZ (cfg : Config F) (p : Affine F) (q : XYZZ F) : XYZZ F := p.toXYZZ.add cfg q

/-- `Double` falls back to `operator+` (semigroups.h:346-353). -/
def double (cfg : Config F) (p : Affine F) : Jacobian F := p.add cfg p

end Affine

/-- `ScalarMul` of an affine point: the accumulator is Jacobian (semigroups.h:546-569 with
`AddResult = JacobianPoint`). -/
def Affine.scalarMul {w : Nat} (cfg : Config F) (p : Affine F) (k : BigInt.Limbs w) : Jacobian F :=
  doScalarMul ⟨Jacobian.zero, Jacobian.addAffine cfg, Jacobian.double cfg⟩ p k

/-- `DoBatchMapScalarFieldToPoint` (affine_point.h:183-206); the scalars are given by `ToBigInt`; `none`
is `false` or a failing `CHECK`. -/
def batchMapScalarFieldToPoint {w : Nat} (cfg : Config F) (threads : Nat) (p : Affine F)
    (scalars : List (BigInt.Limbs w)) (outLen : Nat) : Option (List (Affine F)) :=
  if scalars.length ≠ outLen then none
  else
    let chunks := parallelizeMap threads scalars fun _ _ span =>
      Jacobian.batchNormalizeSerial (span.map (p.scalarMul cfg)) span.length
    if chunks.all Option.isSome then some (chunks.flatMap fun c => c.getD []) else none

/-- `ConvertPoints` (geometry/point_conversions.h:19-29); `convert` is the member function picked by
`PointConversions` (:31-125); `none` is `false`. -/
def convertPoints {P Q : Type u} (convert : P → Q) (ps : List P) (outLen : Nat) : Option (List Q) :=
  if ps.length ≠ outLen then none else some (ps.map convert)

/-- `SWCurve::IsOnCurve(AffinePoint)` (sw_curve.h:89-96). -/
def isOnCurveAffine (cfg : Config F) (p : Affine F) : Bool :=
  if p.isZero then false
  else
    let right := p.x * p.x * p.x + cfg.b
    let right := if cfg.aIsZero then right else right + cfg.a * p.x
    decide (p.y * p.y = right)

/-- `IsOnCurve(ProjectivePoint)` (sw_curve.h:98-107). -/
def isOnCurveProjective (cfg : Config F) (p : Projective F) : Bool :=
  if p.z = 0 then false
  else
    let z2 := p.z * p.z
    let z3 := z2 * p.z
    let right := p.x * p.x * p.x + cfg.b * z3
    let right := if cfg.aIsZero then right else right + cfg.a * p.x * z2
    decide (p.y * p.y * p.z = right)

/-- `IsOnCurve(JacobianPoint)` (sw_curve.h:109-117). -/
def isOnCurveJacobian (cfg : Config F) (p : Jacobian F) : Bool :=
  if p.z = 0 then false
  else
    let z3 := p.z * p.z * p.z
    let right := p.x * p.x * p.x + cfg.b * (z3 * z3)
    let right := if cfg.aIsZero then right else right + cfg.a * p.x * z3 * p.z
    decide (p.y * p.y = right)

/-- `IsOnCurve(PointXYZZ)` (sw_curve.h:119-127). -/
def isOnCurveXYZZ (cfg : Config F) (p : XYZZ F) : Bool :=
  if p.zzz = 0 then false
  else
    let right := p.x * p.x * p.x + cfg.b * (p.zzz * p.zzz)
    let right := if cfg.aIsZero then right else right + cfg.a * p.x * (p.zz * p.zz)
    decide (p.y * p.y = right)

/-- `GetYsFromX` (sw_curve.h:70-87): `sqrt` is `SquareRoot`, `isEven` is `ToBigInt().IsEven()`; the
result is `(even_y, odd_y)`. -/
def getYsFromX (cfg : Config F) (sqrt : F → Option F) (isEven : F → Bool) (x : F) : Option (F × F) :=
  let right := x * x * x + cfg.b
  let right := if cfg.aIsZero then right else right + cfg.a * x
  match sqrt right with
  | none => none
  | some y => if isEven y then some (y, -y) else some (-y, y)

/-- `GetPointFromX` / `CreateFromX` for affine points (sw_curve.h:52-65, affine_point.h:62-67). -/
def createFromX (cfg : Config F) (sqrt : F → Option F) (isEven : F → Bool) (x : F) (pickOdd : Bool) :
    Option (Affine F) :=
  match getYsFromX cfg sqrt isEven x with
  | none => none
  | some ys => some ⟨x, if pickOdd then ys.2 else ys.1⟩

end Tachyon.Curve
