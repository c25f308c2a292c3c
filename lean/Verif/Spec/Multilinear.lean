import Mathlib.Algebra.BigOperators.Ring.Finset
import Mathlib.Algebra.Field.Basic
/-! Multilinear extension of a table on the hypercube. -/
open Finset
namespace Tachyon.Spec

variable {F : Type*} [Field F]

/-- The Lagrange basis polynomial of the vertex whose coordinates are the bits of `i`. -/
def eqPoly (n : ℕ) (x : ℕ → F) (i : ℕ) : F :=
  ∏ j ∈ range n, if i.testBit j then x j else 1 - x j

/-- The multilinear polynomial with values `t i` on the hypercube. -/
def mle (n : ℕ) (t x : ℕ → F) : F := ∑ i ∈ range (2 ^ n), t i * eqPoly n x i

end Tachyon.Spec
