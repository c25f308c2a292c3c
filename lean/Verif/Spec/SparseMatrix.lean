import Verif.Model.SparseMatrix
/-! # What sparse matrices mean -/
namespace Tachyon.SparseMatrix

variable {T : Type}

/-- The sum of the values of a row in column `j`. -/
def rowEntry [AddCommMonoid T] (r : List (Elem T)) (j : Nat) : T :=
  ((r.filter fun e => decide (e.index = j)).map Elem.value).sum

/-- The entry of the matrix in row `i` and column `j`; elements with the same place add up. -/
def entry [AddCommMonoid T] (m : Ell T) (i j : Nat) : T := rowEntry (m.getD i []) j

/-- The sum of the triplets at one place. -/
def tripletEntry [AddCommMonoid T] (ts : List (Nat × Elem T)) (i j : Nat) : T :=
  ((ts.filter fun y => decide (y.1 = i ∧ y.2.index = j)).map fun y => y.2.value).sum

/-- The columns of each row do not go down. -/
def RowsSorted (m : Ell T) : Prop := ∀ r ∈ m, r.Pairwise fun a b => a.index ≤ b.index

/-- The columns of each row go up. -/
def RowsStrict (m : Ell T) : Prop := ∀ r ∈ m, r.Pairwise fun a b => a.index < b.index

/-- The differences of consecutive row pointers. -/
def gaps (ps : List Nat) : List Nat := List.zipWith gap ps ps.tail

/-- Row pointers as the comment above the class describes them (sparse_matrix.h:181-192): from zero to
the number of elements without going down. -/
structure Csr.WellFormed (c : Csr T) : Prop where
  head : c.rowPtrs.head? = some 0
  last : c.rowPtrs.getLast? = some c.elements.length
  sorted : c.rowPtrs.Pairwise (· ≤ ·)
  size : c.elements.length < 2 ^ 64

end Tachyon.SparseMatrix
