import Verif.Model.GrandProduct
/-! What it means that the constraints hold in every row of the table. -/
universe u
namespace Tachyon.GrandProduct

variable {F : Type u} [Field F] [DecidableEq F]

/-- The values of the Lagrange polynomials in row `j`: `u` is the number of usable rows, row `u` is the last one
before the rows for blinding. -/
def rowL (u j : Nat) : LValues F :=
  ⟨if j = 0 then 1 else 0, if u < j then 1 else 0, if j = u then 1 else 0⟩

/-- The values of some columns in row `j`. -/
def rowOf (cols : List (List F)) (j : Nat) : Option (List F) := cols.mapM (·[j]?)

/-- A table of `c` columns of length `n`. -/
def IsTable (c n : Nat) (t : List (List F)) : Prop := t.length = c ∧ ∀ col ∈ t, col.length = n

/-- All the constraints of the permutation argument vanish in all the rows. The point of row `j` is `ω^j`; the
rotations by `1` and by `ω^(last)` lead to the rows `j + 1` and `j + u`. -/
def PermHolds (n u len : Nat) (omega delta beta gamma : F) (values permuted zs : List (List F)) : Prop :=
  ∀ j < n, ∃ v s z zn zl es, rowOf values j = some v ∧ rowOf permuted j = some s ∧ rowOf zs j = some z ∧
    rowOf zs ((j + 1) % n) = some zn ∧ rowOf zs ((j + u) % n) = some zl ∧
    permEvaluate (rowL u j) (omega ^ j) beta gamma delta len v s z zn (zl.dropLast.map some ++ [none]) = some es ∧
    ∀ e ∈ es, e = 0

/-- The constraints of a lookup vanish in all the rows. -/
def LookupHolds (n u : Nat) (beta gamma : F) (input table pInput pTable z : List F) : Prop :=
  ∀ j < n, ∃ a s a' s' ap zc zn, input[j]? = some a ∧ table[j]? = some s ∧ pInput[j]? = some a' ∧
    pTable[j]? = some s' ∧ pInput[(j + n - 1) % n]? = some ap ∧ z[j]? = some zc ∧ z[(j + 1) % n]? = some zn ∧
    ∀ e ∈ lookupEvaluate (rowL u j) beta gamma a s a' s' ap zc zn, e = 0

/-- The constraints of a shuffle vanish in all the rows. -/
def ShuffleHolds (n u : Nat) (gamma : F) (input shuffle z : List F) : Prop :=
  ∀ j < n, ∃ a s zc zn, input[j]? = some a ∧ shuffle[j]? = some s ∧ z[j]? = some zc ∧
    z[(j + 1) % n]? = some zn ∧ ∀ e ∈ shuffleEvaluate (rowL u j) gamma a s zc zn, e = 0

end Tachyon.GrandProduct
