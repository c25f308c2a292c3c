import Verif.Model.Curve
import Mathlib.AlgebraicGeometry.EllipticCurve.Affine.Point
/-! The curve `y² = x³ + a x + b` as a Mathlib Weierstrass curve, and what it means that a tuple of
coordinates stands for one of its points. -/
universe u
namespace Tachyon.Curve
open WeierstrassCurve.Affine

variable {F : Type u} [Field F]

/-- The configuration is consistent: `MulByA` multiplies by `a`, and `kAIsZero` is only set when `a` is
zero. -/
structure Config.Valid (cfg : Config F) : Prop where
  mulByA : ∀ v, cfg.mulByA v = cfg.a * v
  aIsZero : cfg.aIsZero = true → cfg.a = 0

/-- The curve `y² = x³ + a x + b`. -/
def Config.curve (cfg : Config F) : WeierstrassCurve.Affine F := ⟨0, 0, 0, cfg.a, cfg.b⟩

/-- The points of the curve, with the point at infinity; an abelian group in Mathlib. -/
abbrev Config.Pt (cfg : Config F) : Type u := cfg.curve.Point

/-- An affine pair stands for itself; `(0, 0)` is reserved for the point at infinity. -/
def Affine.Rep (cfg : Config F) (p : Affine F) : cfg.Pt → Prop
  | .zero => p.x = 0 ∧ p.y = 0
  | .some X Y _ => p.x = X ∧ p.y = Y ∧ ¬ (X = 0 ∧ Y = 0)

/-- `(X z², Y z³, z)` with `z ≠ 0` stands for `(X, Y)`, and `z = 0` for the point at infinity. -/
def Jacobian.Rep (cfg : Config F) (p : Jacobian F) : cfg.Pt → Prop
  | .zero => p.z = 0
  | .some X Y _ => p.z ≠ 0 ∧ p.x = X * p.z ^ 2 ∧ p.y = Y * p.z ^ 3

/-- `(X z, Y z, z)` with `z ≠ 0` stands for `(X, Y)`, and `z = 0` for the point at infinity. -/
def Projective.Rep (cfg : Config F) (p : Projective F) : cfg.Pt → Prop
  | .zero => p.z = 0
  | .some X Y _ => p.z ≠ 0 ∧ p.x = X * p.z ∧ p.y = Y * p.z

/-- `(X zz, Y zzz, zz, zzz)` with `zz³ = zzz²` and `zz ≠ 0` stands for `(X, Y)`, and `zz = zzz = 0` for
the point at infinity. -/
def XYZZ.Rep (cfg : Config F) (p : XYZZ F) : cfg.Pt → Prop
  | .zero => p.zz = 0 ∧ p.zzz = 0
  | .some X Y _ => p.zz ≠ 0 ∧ p.zz ^ 3 = p.zzz ^ 2 ∧ p.x = X * p.zz ∧ p.y = Y * p.zzz

end Tachyon.Curve
