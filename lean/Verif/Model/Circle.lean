import Verif.Model.Pow
import Verif.Model.PrimeField
import Verif.Model.SmallField
import Mathlib.Algebra.QuadraticAlgebra.Defs
import Mathlib.Data.ZMod.Basic
/-!
# Model of `tachyon/math/circle`

The points of the circle `x² + y² = 1` over a field (`affine_point.h`, `circle.h`), and the two
generated groups `m31::G1` and `m31::G4` (`m31/BUILD.bazel`). The arithmetic of the base field is
ring arithmetic (what the base fields compute is stated by other claims, C12 first); nothing here divides, so a
commutative ring is enough. `ComplexConjugate` (affine_point.h:81-83) is not modelled: no field of
the repository has the member function it calls, so it does not compile when used.
-/
namespace Tachyon.Circle
open Tachyon.BigInt

/-- `AffinePoint` of a circle (affine_point.h:137-139). -/
@[ext] structure Pt (F : Type) where
  x : F
  y : F
deriving DecidableEq

variable {F : Type} [CommRing F] [DecidableEq F]

/-- `AffinePoint()` / `Zero` (affine_point.h:30, :53). -/
def zero : Pt F := ⟨1, 0⟩

/-- `IsZero` (affine_point.h:75). -/
def isZero (p : Pt F) : Bool := decide (p.x = 1) && decide (p.y = 0)

/-- `Circle::IsOnCircle` (circle.h:35-37, affine_point.h:77). -/
def isOnCircle (p : Pt F) : Bool := decide (p.x ^ 2 + p.y ^ 2 = 1)

/-- `CreateChecked` (affine_point.h:40-51); a failed `CHECK` is `none`. -/
def createChecked (x y : F) : Option (Pt F) := if isOnCircle ⟨x, y⟩ then some ⟨x, y⟩ else none

omit [DecidableEq F]

/-- `Conjugate` (affine_point.h:79). -/
def conjugate (p : Pt F) : Pt F := ⟨p.x, -p.y⟩

/-- `Antipode` (affine_point.h:85). -/
def antipode (p : Pt F) : Pt F := ⟨-p.x, -p.y⟩

/-- `Add` / `AddInPlace` (affine_point.h:97-104). -/
def add (p q : Pt F) : Pt F := ⟨p.x * q.x - p.y * q.y, p.x * q.y + p.y * q.x⟩

/-- `DoubleImpl` (affine_point.h:106-108). -/
def double (p : Pt F) : Pt F := ⟨(p.x ^ 2 + p.x ^ 2) - 1, (p.x + p.x) * p.y⟩

/-- `DoubleImplInPlace` (affine_point.h:110-114): `y_` first, from the old `x_`. -/
def doubleInPlace (p : Pt F) : Pt F :=
  let p := { p with y := p.y * (p.x + p.x) }
  { p with x := (p.x ^ 2 + p.x ^ 2) - 1 }

/-- `Sub` / `SubInPlace` (affine_point.h:117-124). -/
def sub (p q : Pt F) : Pt F := ⟨p.x * q.x + p.y * q.y, -p.x * q.y + p.y * q.x⟩

/-- `Negate` / `NegateInPlace` (affine_point.h:126-131). -/
def negate (p : Pt F) : Pt F := ⟨p.x, -p.y⟩

/-- `ScalarMul(const BigInt<N>&)` (math/base/semigroups.h:373-376, :546-569): `Zero`, then
`DoubleInPlace` and `AddInPlace`. -/
def scalarMul {w : Nat} (p : Pt F) (e : Limbs w) : Pt F := doScalarMul ⟨zero, add, doubleInPlace⟩ p e

/-- `operator*(const ScalarField&)` (affine_point.h:133-135, geometry/affine_point.h:13-18) with a
32-bit scalar field: `value()` is a `uint32_t`, from which `ScalarMul` makes a `BigInt<1>`
(math/base/semigroups.h:378-381). -/
def mulSmall (p : Pt F) (s : BitVec 32) : Pt F := scalarMul p [s.setWidth 64]

/-- `operator*(const ScalarField&)` (affine_point.h:133-135) with a scalar field of `BigInt`s:
`value()` is the *stored* `BigInt`, in Montgomery form. -/
def mulBig (p : Pt F) (s : Limbs 64) : Pt F := scalarMul p s

/-! ## `m31/BUILD.bazel` -/

/-- The elements of Mersenne31. -/
abbrev Fq := ZMod 2147483647

/-- `m31::Fq2` (m31/BUILD.bazel:38-47): `Mersenne31[u] / (u² + 1)`. -/
abbrev Fq2 := QuadraticAlgebra Fq (-1) 0

/-- `m31::Fq4` (m31/BUILD.bazel:49-62): `Fq2[v] / (v² - (2 + u))`. -/
abbrev Fq4 := QuadraticAlgebra Fq2 ⟨2, 1⟩ 0

/-- The generator of `m31::G1` (m31/BUILD.bazel:11-24). -/
def g1 : Pt Fq := ⟨2, 1268011823⟩

/-- The generator of `m31::G4` (m31/BUILD.bazel:74-97). -/
def g4 : Pt Fq4 :=
  ⟨⟨⟨1, 0⟩, ⟨478637715, 513582971⟩⟩, ⟨⟨992285211, 649143431⟩, ⟨740191619, 1186584352⟩⟩⟩

/-- The modulus of `m31::Fr4` (m31/BUILD.bazel:64-72), `(2^31 - 1)^4 - 1` in 64-bit limbs: a
Montgomery field by default (`use_montgomery = True`,
finite_fields/generator/prime_field_generator/build_defs.bzl:370-379) with an even modulus. -/
def fr4 : Limbs 64 := [0x7ffffffe00000000#64, 0x0fffffff80000001#64]

/-- `MpzClassToMontString<N>` (finite_fields/generator/generator_util.h:19-47) for a modulus of at
least 32 bits: the constant the generator writes for `v`. -/
def montConstant {w : Nat} (m v : Limbs w) : Limbs w :=
  slowMul false m (PrimeField.kInverse m) v (montgomeryRk 2 m)

/-- `Fr4::One()` (prime_field_fallback.h:68-72) with the generated `kOne`
(prime_field_generator.cc:221). -/
def fr4One : Limbs 64 := montConstant fr4 [1#64, 0#64]

end Tachyon.Circle
