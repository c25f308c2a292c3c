import Verif.Model.Pow
import Mathlib.Algebra.Group.Defs
/-! What it means that operations on representations implement a monoid: `R a x` reads "the stored
value `a` denotes `x`". -/
namespace Tachyon

variable {α β M : Type*}

/-- The operations `o` on representations implement those of the monoid `M` through `R`. -/
structure MulOps.Implements [Monoid M] (o : MulOps α) (R : α → M → Prop) : Prop where
  one : R o.one 1
  mul : ∀ {a b x y}, R a x → R b y → R (o.mul a b) (x * y)
  square : ∀ {a x}, R a x → R (o.square a) (x * x)

/-- The operations `o` on representations implement those of the additive monoid `M`: `S` relates
accumulators, `R` relates operands. -/
structure AddOps.Implements [AddMonoid M] (o : AddOps β α) (S : β → M → Prop) (R : α → M → Prop) : Prop where
  zero : S o.zero 0
  add : ∀ {a b x y}, S a x → R b y → S (o.add a b) (x + y)
  double : ∀ {a x}, S a x → S (o.double a) (x + x)

end Tachyon
