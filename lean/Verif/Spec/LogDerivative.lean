import Verif.Spec.GrandProduct
import Verif.Model.LogDerivative
/-! What it means that the constraints hold in every row of the table. -/
universe u
namespace Tachyon.LogDerivative
open GrandProduct

variable {F : Type u} [Field F] [DecidableEq F]

/-- All the constraints of the argument, as the prover puts them into the circuit polynomial, vanish in all the
rows. -/
def Holds (n u : Nat) (beta : F) (inputs : List (List F)) (table m z : List F) : Prop :=
  ∀ j < n, ∃ fs t mj zc zn, rowOf inputs j = some fs ∧ table[j]? = some t ∧ m[j]? = some mj ∧ z[j]? = some zc ∧
    z[(j + 1) % n]? = some zn ∧ ∀ e ∈ proverEvaluate (rowL u j) beta fs t mj zc zn, e = 0

end Tachyon.LogDerivative
