import Verif.Model.Graph
import Mathlib.Algebra.Polynomial.Eval.Defs
import Mathlib.Algebra.Polynomial.Eval.Coeff
/-! What a constraint expression means (C70): its value in any commutative ring, for any values of the queries. -/
universe u
namespace Tachyon.Plonk
open Polynomial

/-- The three kinds of columns. -/
inductive Kind where
  | fixed
  | advice
  | inst

section
variable {F : Type u}

/-- The meaning of an expression: `c` maps constants, `q` gives the values of queries and `ch` those of challenges. -/
def denote {R : Type u} [CommRing R] (c : F → R) (q : Kind → Query → R) (ch : ℕ → R) : Expr F → R
  | .constant v => c v
  | .selector _ => 0
  | .fixed x => q .fixed x
  | .advice x => q .advice x
  | .inst x => q .inst x
  | .challenge i => ch i
  | .neg e => -denote c q ch e
  | .sum a b => denote c q ch a + denote c q ch b
  | .prod a b => denote c q ch a * denote c q ch b
  | .scaled e s => denote c q ch e * c s

/-- All queries and challenges of an expression are allowed and there is no selector. -/
def Legal (q : Kind → Query → Prop) (ch : ℕ → Prop) : Expr F → Prop
  | .constant _ => True
  | .selector _ => False
  | .fixed x => q .fixed x
  | .advice x => q .advice x
  | .inst x => q .inst x
  | .challenge i => ch i
  | .neg e => Legal q ch e
  | .sum a b => Legal q ch a ∧ Legal q ch b
  | .prod a b => Legal q ch a ∧ Legal q ch b
  | .scaled e _ => Legal q ch e

/-- Expressions without selectors. -/
def NoSelector (e : Expr F) : Prop := Legal (fun _ _ => True) (fun _ => True) e

/-- The columns of a table. -/
def Table.columns (t : Table F) : Kind → List (List F)
  | .fixed => t.fixed
  | .advice => t.advice
  | .inst => t.inst

/-- The evaluations of the verifier. -/
def Evaluations.of (d : Evaluations F) : Kind → List F
  | .fixed => d.fixed
  | .advice => d.advice
  | .inst => d.inst

variable [Field F]

/-- The expression is about existing columns, and the rotated rows are `int32_t`. -/
def Fits (t : Table F) (idx scale : ℤ) (e : Expr F) : Prop :=
  Legal (fun k q => q.column < (t.columns k).length ∧ (-2 ^ 31 ≤ q.rotation * scale ∧ q.rotation * scale < 2 ^ 31) ∧
    (-2 ^ 31 ≤ idx + q.rotation * scale ∧ idx + q.rotation * scale < 2 ^ 31)) (fun i => i < t.challenges.length) e

/-- The value of an expression in a row: queries read the row `idx + rotation · scale` modulo the number of rows. -/
def rowValue (t : Table F) (idx scale : ℤ) (n : ℕ) (e : Expr F) : F :=
  denote id (fun k q => ((t.columns k).getD q.column []).getD ((idx + q.rotation * scale) % n).toNat 0)
    (fun i => t.challenges.getD i 0) e

/-- The polynomial of an expression: a query is the polynomial of its column at `ω^rotation · X`. -/
noncomputable def polyOf (cols : Kind → ℕ → F[X]) (challenges : ℕ → F) (ω : F) (e : Expr F) : F[X] :=
  denote C (fun k q => (cols k q.column).comp (C (ω ^ q.rotation) * X)) (fun i => C (challenges i)) e

end
end Tachyon.Plonk
