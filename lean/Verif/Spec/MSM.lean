import Verif.Model.MSM
import Mathlib.Algebra.Group.Defs
/-! What it means that the operations used by the multi-scalar multiplications implement an abelian
group: `S b x` reads "the bucket `b` denotes `x`", `R p x` reads "the point `p` denotes `x`". -/
namespace Tachyon.MSM

variable {α β M : Type*}

structure Ops.Implements [AddCommGroup M] (o : Ops β α) (S : β → M → Prop) (R : α → M → Prop) : Prop where
  zero : S o.zero 0
  add : ∀ {a b x y}, S a x → S b y → S (o.add a b) (x + y)
  addBase : ∀ {a p x y}, S a x → R p y → S (o.addBase a p) (x + y)
  subBase : ∀ {a p x y}, S a x → R p y → S (o.subBase a p) (x - y)
  double : ∀ {a x}, S a x → S (o.double a) (x + x)

/-- In addition, `φ` is what the endomorphism does. -/
structure GLVOps.Implements [AddCommGroup M] (o : GLVOps β α) (S : β → M → Prop) (R : α → M → Prop)
    (φ : M → M) : Prop extends o.toOps.Implements S R where
  endomorphism : ∀ {p x}, R p x → R (o.endomorphism p) (φ x)
  neg : ∀ {p x}, R p x → R (o.neg p) (-x)
  addPoints : ∀ {p q x y}, R p x → R q y → S (o.addPoints p q) (x + y)

/-- The operations of an abelian group itself. -/
def groupOps (M : Type*) [AddCommGroup M] : Ops M M :=
  ⟨0, (· + ·), (· + ·), (· - ·), fun x => x + x⟩

/-- The operations of an abelian group with an endomorphism. -/
def groupGLVOps {M : Type*} [AddCommGroup M] (φ : M → M) : GLVOps M M :=
  { groupOps M with endomorphism := φ, neg := fun x => -x, addPoints := (· + ·) }

end Tachyon.MSM
