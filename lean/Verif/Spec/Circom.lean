import Verif.Spec.Groth16
import Verif.Model.Circom
import Mathlib.LinearAlgebra.Lagrange
/-! What the coefficients and the key of a circom circuit are, independent of the code. -/
namespace Tachyon.Circom
open Polynomial Tachyon.R1cs Tachyon.FFT Tachyon.Groth16

variable {F G1 G2 : Type} [Field F] [DecidableEq F] [AddCommGroup G1] [Module F G1] [AddCommGroup G2] [Module F G2]

/-- The coefficients of row `i` of the first matrix (`first`) or of the second one. -/
def rowOf (cs : List (Coeff F)) (first : Bool) (i : ℕ) : List (Coeff F) :=
  cs.filter fun c => decide (c.matrix = 0) = first ∧ c.constraint = i

/-- The product of row `i` with the values of the wires. -/
def rowSum (cs : List (Coeff F)) (full : List F) (first : Bool) (i : ℕ) : F :=
  ((rowOf cs first i).map fun c => c.value * full.getD c.signal 0).sum

/-- The entry of row `i` in column `j`: the sum of the coefficients there. -/
def cellOf (cs : List (Coeff F)) (first : Bool) (i j : ℕ) : F :=
  (((rowOf cs first i).filter fun c => c.signal = j).map (·.value)).sum

/-- The coefficients are the entries of the first two matrices, the first one with the rows for the instance
variables. -/
structure Represents (size : ℕ) (m : Matrices F) (cs : List (Coeff F)) : Prop where
  row : ∀ c ∈ cs, c.constraint < size
  col : ∀ c ∈ cs, c.signal < m.numInst + m.numWit
  a : ∀ i < size, ∀ j < m.numInst + m.numWit, cellOf cs true i j = colA m j i
  b : ∀ i < size, ∀ j < m.numInst + m.numWit, cellOf cs false i j = R1cs.col m.b m.numCons j i

/-- The polynomial of degree below `2 * n` that is one at `w ^ (2 * i + 1)` and zero at the other powers of
the root of unity `w` of order `2 * n`. -/
noncomputable def oddBasis (w : F) (n i : ℕ) : F[X] :=
  Lagrange.basis (Finset.range (2 * n)) (fun j => w ^ j) (2 * i + 1)

/-- The key for a circuit with `ni` instance and `nw` witness variables: `a`, `b`, `c` are the values of the column
polynomials at the secret point, `h i` those of `oddBasis w n i`. -/
def theZKey (tw : Toxic F G1 G2) (ni nw n : ℕ) (a b c h : ℕ → F) : ZProvingKey G1 G2 where
  alphaG1 := tw.alpha • tw.g1
  betaG1 := tw.beta • tw.g1
  betaG2 := tw.beta • tw.g2
  gammaG2 := tw.gamma • tw.g2
  deltaG1 := tw.delta • tw.g1
  deltaG2 := tw.delta • tw.g2
  ic := (List.range ni).map fun j => ((tw.beta * a j + tw.alpha * b j + c j) / tw.gamma) • tw.g1
  a := (List.range (ni + nw)).map fun j => a j • tw.g1
  b1 := (List.range (ni + nw)).map fun j => b j • tw.g1
  b2 := (List.range (ni + nw)).map fun j => b j • tw.g2
  c := (List.range nw).map fun j =>
    ((tw.beta * a (ni + j) + tw.alpha * b (ni + j) + c (ni + j)) / tw.delta) • tw.g1
  h := (List.range n).map fun i => (h i / tw.delta) • tw.g1

/-- The value of a linear combination of circom. -/
def valueOf (z : List F) (l : List (CTerm F)) : F := (l.map fun t => t.coeff * z.getD t.wire 0).sum

/-- All wires of the constraints are variables, and the constant one is an instance variable. -/
structure R1CS.Ok (r : R1CS F) : Prop where
  pos : 0 < r.numInst
  le : r.numInst ≤ r.numVars
  wires : ∀ c ∈ r.constraints, (∀ t ∈ c.a, t.wire < r.numVars) ∧ (∀ t ∈ c.b, t.wire < r.numVars) ∧
    ∀ t ∈ c.c, t.wire < r.numVars

/-- The values of the wires satisfy the constraints. -/
def R1CS.Holds (r : R1CS F) (z : List F) : Prop :=
  ∀ c ∈ r.constraints, valueOf z c.a * valueOf z c.b = valueOf z c.c

end Tachyon.Circom
