import Verif.Model.LookupChunk
import Verif.Spec.Selector
/-! What lookups with several inputs mean (C90). -/
universe u
namespace Tachyon.LookupChunk
open Plonk CircuitPoly

section
variable {F : Type u}

/-- An expression without the indices of its queries: only columns and rotations count for its values. -/
def forget : Expr F → Expr F
  | .fixed q => .fixed { q with index := none }
  | .advice q => .advice { q with index := none }
  | .inst q => .inst { q with index := none }
  | .neg e => .neg (forget e)
  | .sum a b => .sum (forget a) (forget b)
  | .prod a b => .prod (forget a) (forget b)
  | .scaled e s => .scaled (forget e) s
  | e => e

/-- There is no scaled expression in it. -/
def NoScaled : Expr F → Prop
  | .scaled _ _ => False
  | .neg e => NoScaled e
  | .sum a b => NoScaled a ∧ NoScaled b
  | .prod a b => NoScaled a ∧ NoScaled b
  | _ => True

/-- It is not a constant by itself. -/
def NotConstant : Expr F → Prop
  | .constant _ => False
  | _ => True

/-- A table whose identifier tells what it is. -/
def Plain (table : List (Expr F)) : Prop := ∀ e ∈ table, NoScaled e ∧ NotConstant e

/-- The largest degree of some expressions; zero if there are none. -/
def maxDegree (es : List (Expr F)) : ℕ := (es.map degree).foldr max 0

/-- The degree of the constraint `(1 - (l_last + l_blind)) · τ · Π φᵢ · (ϕ(ωX) - ϕ(X) - …)` of an argument: constants count
like expressions of degree one. -/
def argDegree (a : MultiArgument F) : ℕ :=
  2 + (a.inputs.map fun i => max 1 (maxDegree i)).sum + max 1 (maxDegree a.table)

variable [Field F]

/-- The lookup holds in a table of `n` rows: the values of the inputs in every row are the values of the table expressions
in some row. `sel` gives the values of the selectors. -/
def Holds (t : Table F) (sel : ℕ → ℕ → F) (n : ℕ) (input table : List (Expr F)) : Prop :=
  ∀ i : ℕ, i < n → ∃ j : ℕ, j < n ∧
    input.map (Selector.rowValueSel t (fun s => sel s i) (i : ℤ) 1 n) =
      table.map (Selector.rowValueSel t (fun s => sel s j) (j : ℤ) 1 n)

end
end Tachyon.LookupChunk
