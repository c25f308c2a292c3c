import Mathlib.Algebra.Polynomial.Basic
import Mathlib.Algebra.Polynomial.Eval.Defs
/-! What lists of coefficients and lists of terms denote. -/
universe u
namespace Tachyon.Poly
open Polynomial

variable {F : Type u} [Field F]

/-- The polynomial with coefficients `l`, lowest first. -/
noncomputable def dpoly : List F → F[X]
  | [] => 0
  | a :: l => C a + X * dpoly l

/-- The sum of the terms. -/
noncomputable def spoly (ts : List (ℕ × F)) : F[X] := (ts.map fun t => monomial t.1 t.2).sum

/-- The highest coefficient is not zero. -/
def DClean (l : List F) : Prop := l.getLast? ≠ some 0

/-- The degrees increase and no coefficient is zero. -/
def SClean (ts : List (ℕ × F)) : Prop := ts.Pairwise (fun a b => a.1 < b.1) ∧ ∀ t ∈ ts, t.2 ≠ 0

end Tachyon.Poly
