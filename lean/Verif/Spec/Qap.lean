import Verif.Spec.R1cs
import Verif.Spec.FFT
import Verif.Model.Qap
import Mathlib.Algebra.Polynomial.Eval.Defs
import Mathlib.Algebra.Polynomial.Degree.Defs
import Mathlib.Algebra.BigOperators.Group.Finset.Basic
/-! What a quadratic arithmetic program is, independent of the code. -/
namespace Tachyon.R1cs
open Polynomial Tachyon.FFT

variable {F : Type} [Field F] [DecidableEq F]

/-- The entry of a row of a matrix in column `j`. -/
def entry (row : List (Cell F)) (j : ℕ) : F := ((row.filter fun c => c.index = j).map (·.coeff)).sum

/-- `p` is the polynomial of degree below the size of the domain that has the values `v` on it. -/
structure Interp (d : Domain F) (v : ℕ → F) (p : F[X]) : Prop where
  degree : p.degree < d.size
  eval : ∀ i < d.size, p.eval (d.offset * d.gen ^ i) = v i

/-- Column `j` of a matrix with `n` rows, on the domain. -/
def col (rows : List (List (Cell F))) (n j i : ℕ) : F := if i < n then entry (rows.getD i []) j else 0

/-- Column `j` of the first matrix: below its rows come those that single out the instance variables. -/
def colA (m : Matrices F) (j i : ℕ) : F :=
  if i = m.numCons + j ∧ j < m.numInst then 1 else col m.a m.numCons j i

/-- The products of a matrix with a vector, on the domain. -/
def val (rows : List (List (Cell F))) (n : ℕ) (z : List F) (i : ℕ) : F := if i < n then dot (rows.getD i []) z else 0

/-- The products of the first matrix with a vector. -/
def valA (m : Matrices F) (z : List F) (i : ℕ) : F :=
  if m.numCons ≤ i ∧ i < m.numCons + m.numInst then z.getD (i - m.numCons) 0 else val m.a m.numCons z i

/-- The polynomial that vanishes exactly on the domain. -/
noncomputable def vanish (d : Domain F) : F[X] := ∏ i ∈ Finset.range d.size, (X - C (d.offset * d.gen ^ i))

/-- The matrices have as many rows as they should, with cells in range. -/
structure MatOk (m : Matrices F) : Prop where
  a : m.a.length = m.numCons
  b : m.b.length = m.numCons
  c : m.c.length = m.numCons
  ca : CellsOk m.a (m.numInst + m.numWit)
  cb : CellsOk m.b (m.numInst + m.numWit)
  cc : CellsOk m.c (m.numInst + m.numWit)

end Tachyon.R1cs
