import Verif.Model.Cycle
import Mathlib.Logic.Relation
universe u
namespace Tachyon.Cycle

/-- The label of a cell of a table with `c` columns and `r` rows. -/
def lab {c r : Nat} (x : Fin c × Fin r) : Label := (x.1.val, x.2.val)

/-- The equivalence relation generated by a list of pairs. -/
def Gen {T : Type u} (ps : List (T × T)) : T → T → Prop := Relation.EqvGen fun x y => (x, y) ∈ ps

end Tachyon.Cycle
