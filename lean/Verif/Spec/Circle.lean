import Verif.Model.Circle
/-!
# What circle points mean

The point `(x, y)` is the number `x + y·i` in `F[i] = F[X] / (X² + 1)`, Mathlib's
`QuadraticAlgebra F (-1) 0`, and the points on the circle are the numbers of norm one.
-/
namespace Tachyon.Circle

/-- `x + y·i`. -/
def num {F : Type} [CommRing F] (p : Pt F) : QuadraticAlgebra F (-1) 0 := ⟨p.x, p.y⟩

/-- On the circle. -/
def On {F : Type} [CommRing F] (p : Pt F) : Prop := p.x ^ 2 + p.y ^ 2 = 1

end Tachyon.Circle
