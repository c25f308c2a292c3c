import Verif.Model.MSM
import Verif.Model.Curve
/-! The instances of the multi-scalar multiplications for short Weierstrass curves: which point classes
play the roles of `Point`, `Bucket`, `AddResult`. -/
universe u
namespace Tachyon.Curve
open Tachyon.MSM

variable {F : Type u} [Field F] [DecidableEq F]

/-- `Pippenger<AffinePoint>`: the buckets are `PointXYZZ` (pippenger_base.h:24-28). -/
def affineXYZZOps (cfg : Config F) : Ops (XYZZ F) (Affine F) :=
  ⟨XYZZ.zero, XYZZ.add cfg, XYZZ.addAffine cfg, XYZZ.subAffine cfg, XYZZ.double cfg⟩

/-- `FixedBaseMSM<AffinePoint>`: the results are `JacobianPoint` (elliptic_curves/semigroups.h:11-16). -/
def affineJacobianOps (cfg : Config F) : Ops (Jacobian F) (Affine F) :=
  ⟨Jacobian.zero, Jacobian.add cfg, Jacobian.addAffine cfg, Jacobian.subAffine cfg, Jacobian.double cfg⟩

/-- `Pippenger<JacobianPoint>`, `FixedBaseMSM<JacobianPoint>`. -/
def jacobianOps (cfg : Config F) : Ops (Jacobian F) (Jacobian F) :=
  ⟨Jacobian.zero, Jacobian.add cfg, Jacobian.add cfg, Jacobian.sub cfg, Jacobian.double cfg⟩

/-- `Pippenger<ProjectivePoint>`, `FixedBaseMSM<ProjectivePoint>`. -/
def projectiveOps (cfg : Config F) : Ops (Projective F) (Projective F) :=
  ⟨Projective.zero, Projective.add cfg, Projective.add cfg, Projective.sub cfg, Projective.double cfg⟩

/-- `Pippenger<PointXYZZ>`, `FixedBaseMSM<PointXYZZ>`. -/
def xyzzOps (cfg : Config F) : Ops (XYZZ F) (XYZZ F) :=
  ⟨XYZZ.zero, XYZZ.add cfg, XYZZ.add cfg, XYZZ.sub cfg, XYZZ.double cfg⟩

/-- `GLV<AffinePoint>`; `coeff` is `kEndomorphismCoefficient`. -/
def affineGLVOps (cfg : Config F) (coeff : F) : GLVOps (Jacobian F) (Affine F) :=
  { affineJacobianOps cfg with
    endomorphism := Affine.endomorphism coeff, neg := Affine.neg, addPoints := Affine.add cfg }

/-- `GLV<JacobianPoint>`. -/
def jacobianGLVOps (cfg : Config F) (coeff : F) : GLVOps (Jacobian F) (Jacobian F) :=
  { jacobianOps cfg with
    endomorphism := Jacobian.endomorphism coeff, neg := Jacobian.neg, addPoints := Jacobian.add cfg }

/-- The integers of `GLV`: the coefficients of the lattice basis, `lambda`, and the order of the scalar
field. -/
structure GLVParams where
  n11 : Int
  n12 : Int
  n21 : Int
  n22 : Int
  lambda : Int
  r : Int

/-- bn254/BUILD.bazel:131-141; `r` is :55. -/
def bn254G1 : GLVParams where
  n11 := -147946756881789319000765030803803410728
  n12 := 9931322734385697763
  n21 := -9931322734385697763
  n22 := -147946756881789319010696353538189108491
  lambda := 21888242871839275217838484774961031246154997185409878258781734729429964517155
  r := 21888242871839275222246405745257275088548364400416034343698204186575808495617

/-- bn254/BUILD.bazel:173-183. -/
def bn254G2 : GLVParams where
  n11 := -147946756881789319010696353538189108491
  n12 := -9931322734385697763
  n21 := 9931322734385697763
  n22 := -147946756881789319000765030803803410728
  lambda := 4407920970296243842393367215006156084916469457145843978461
  r := 21888242871839275222246405745257275088548364400416034343698204186575808495617

/-- bls12_381/BUILD.bazel:131-142; `r` is :66. -/
def bls12381G1 : GLVParams where
  n11 := 228988810152649578064853576960394133504
  n12 := 1
  n21 := -1
  n22 := 228988810152649578064853576960394133503
  lambda := 52435875175126190479447740508185965837461563690374988244538805122978187051009
  r := 52435875175126190479447740508185965837690552500527637822603658699938581184513

/-- bls12_381/BUILD.bazel:173-182. -/
def bls12381G2 : GLVParams where
  n11 := -228988810152649578064853576960394133503
  n12 := 1
  n21 := -1
  n22 := -228988810152649578064853576960394133504
  lambda := 228988810152649578064853576960394133503
  r := 52435875175126190479447740508185965837690552500527637822603658699938581184513

end Tachyon.Curve
