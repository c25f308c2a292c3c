import Verif.Model.ExtField
import Mathlib.RingTheory.AdjoinRoot
/-! What it means that a record of operations on representations implements a commutative ring, and
the relation between the coefficients of an extension field element and the element of
`K[X] / (X^n - q)` they denote. -/
namespace Tachyon
open Polynomial

variable {α K : Type*}

/-- The operations `o` on representations implement those of the commutative ring `K` through `R`,
where `R a x` reads "the stored value `a` denotes `x`". The inverse exists exactly for the units;
over a field these are the non-zero elements. -/
structure FieldOps.Implements [CommRing K] (o : FieldOps α) (R : α → K → Prop) : Prop where
  zero : R o.zero 0
  one : R o.one 1
  twoInv : IsUnit (2 : K) → ∃ y, R o.twoInv y ∧ 2 * y = 1
  ofNat : ∀ n : ℕ, R (o.ofNat n) n
  add : ∀ {a b x y}, R a x → R b y → R (o.add a b) (x + y)
  sub : ∀ {a b x y}, R a x → R b y → R (o.sub a b) (x - y)
  mul : ∀ {a b x y}, R a x → R b y → R (o.mul a b) (x * y)
  neg : ∀ {a x}, R a x → R (o.neg a) (-x)
  double : ∀ {a x}, R a x → R (o.double a) (x + x)
  square : ∀ {a x}, R a x → R (o.square a) (x * x)
  isZero : ∀ {a x}, R a x → (o.isZero a = true ↔ x = 0)
  isOne : ∀ {a x}, R a x → (o.isOne a = true ↔ x = 1)
  eq : ∀ {a b x y}, R a x → R b y → (o.eq a b = true ↔ x = y)
  inverse : ∀ {a x}, R a x → IsUnit x → ∃ b y, o.inverse a = some b ∧ R b y ∧ x * y = 1
  inverse_none : ∀ {a x}, R a x → ¬ IsUnit x → o.inverse a = none

/-- `o.frobenius e` raises to the power `p^e`. -/
def FieldOps.ImplementsFrobenius [CommRing K] (o : FieldOps α) (R : α → K → Prop) (p : ℕ) : Prop :=
  ∀ e {a x}, R a x → R (o.frobenius e a) (x ^ p ^ e)

/-- The ring `K[X] / (X^n - q)`. -/
abbrev Ext [CommRing K] (n : ℕ) (q : K) : Type _ := AdjoinRoot (X ^ n - C q : K[X])

/-- The class of `X` in `K[X] / (X^n - q)`. -/
noncomputable abbrev Ext.x [CommRing K] (n : ℕ) (q : K) : Ext n q := AdjoinRoot.root _

/-- The embedding of `K` into `K[X] / (X^n - q)`. -/
noncomputable abbrev Ext.of [CommRing K] (n : ℕ) (q : K) : K →+* Ext n q := AdjoinRoot.of _

/-- `a` denotes `y` when its coefficients denote those of `y` in the basis `1, X`. -/
def Ext2.Rel [CommRing K] (R : α → K → Prop) (q : K) (a : Ext2 α) (y : Ext 2 q) : Prop :=
  ∃ y0 y1, R a.c0 y0 ∧ R a.c1 y1 ∧ y = Ext.of 2 q y0 + Ext.of 2 q y1 * Ext.x 2 q

/-- `a` denotes `y` when its coefficients denote those of `y` in the basis `1, X, X²`. -/
def Ext3.Rel [CommRing K] (R : α → K → Prop) (q : K) (a : Ext3 α) (y : Ext 3 q) : Prop :=
  ∃ y0 y1 y2, R a.c0 y0 ∧ R a.c1 y1 ∧ R a.c2 y2 ∧
    y = Ext.of 3 q y0 + Ext.of 3 q y1 * Ext.x 3 q + Ext.of 3 q y2 * Ext.x 3 q ^ 2

/-- `a` denotes `y` when its coefficients denote those of `y` in the basis `1, X, X², X³`. -/
def Ext4.Rel [CommRing K] (R : α → K → Prop) (q : K) (a : Ext4 α) (y : Ext 4 q) : Prop :=
  ∃ y0 y1 y2 y3, R a.c0 y0 ∧ R a.c1 y1 ∧ R a.c2 y2 ∧ R a.c3 y3 ∧
    y = Ext.of 4 q y0 + Ext.of 4 q y1 * Ext.x 4 q + Ext.of 4 q y2 * Ext.x 4 q ^ 2
      + Ext.of 4 q y3 * Ext.x 4 q ^ 3

end Tachyon
