import Verif.Model.FloorPlan
import Mathlib.Algebra.BigOperators.Group.List.Defs
/-!
# Model of `tachyon/math/matrix/sparse/sparse_matrix.h`

`T` is the type of the values. Sizes of vectors are natural numbers; differences of row pointers wrap
around in 64 bits. Reading through an iterator behind the end, `back()` of an empty vector and an
invalid range given to an algorithm are `none`. The algorithms of `base::ranges` and of the standard
library are what the standard says of them; an unstable sort is any sorted permutation. Strings are
left out.
-/
namespace Tachyon.SparseMatrix
open Tachyon.FloorPlan (SortBy)

/-- `Element` of both classes (sparse_matrix.h:38-47, :196-205). -/
structure Elem (T : Type) where
  index : Nat
  value : T
deriving DecidableEq

/-- `ELLSparseMatrix` (sparse_matrix.h:178): the elements of each row. -/
abbrev Ell (T : Type) := List (List (Elem T))

/-- `CSRSparseMatrix` (sparse_matrix.h:339-340). -/
structure Csr (T : Type) where
  elements : List (Elem T)
  rowPtrs : List Nat
deriving DecidableEq

variable {T : Type}

/-- `std::is_sorted` (base/ranges/algorithm.h:2944-2965) by a number: no element is less than the one
before it. -/
def isSortedBy {α : Type} (key : α → Nat) : List α → Bool
  | a :: b :: l => !decide (key b < key a) && isSortedBy key (b :: l)
  | _ => true

/-! ## `ELLSparseMatrix` -/

/-- `MaxRows` (sparse_matrix.h:96). -/
def Ell.maxRows (m : Ell T) : Nat := m.length

/-- `elements.back().index`; `none` for an empty row. -/
def lastIndex (r : List (Elem T)) : Option Nat := r.getLast?.map Elem.index

/-- The rest of `std::max_element` in `MaxCols` (sparse_matrix.h:100-103): `best` is the largest row
so far; each comparison reads the last elements of both rows. -/
def maxRowGo (best : List (Elem T)) : List (List (Elem T)) → Option (List (Elem T))
  | [] => some best
  | r :: rs => (lastIndex best).bind fun a => (lastIndex r).bind fun b =>
    maxRowGo (if a < b then r else best) rs

/-- `MaxCols` (sparse_matrix.h:99-105). -/
def Ell.maxCols : Ell T → Option Nat
  | [] => none
  | r :: rs => (maxRowGo r rs).bind fun it => (lastIndex it).map (· + 1)

/-- One step of `std::accumulate` in `NonZeros` (sparse_matrix.h:108-111). The initial value `0` is an
`int`, so the sum of `size_t`s is stored in an `int` each time. -/
def nonZerosStep (total : BitVec 32) (size : Nat) : BitVec 32 :=
  (total.signExtend 64 + BitVec.ofNat 64 size).setWidth 32

/-- `NonZeros` (sparse_matrix.h:107-112). -/
def Ell.nonZeros (m : Ell T) : BitVec 64 :=
  (m.foldl (fun total r => nonZerosStep total r.length) 0#32).signExtend 64

/-- `Sort` (sparse_matrix.h:122-126). -/
def Ell.sort (s : SortBy (Elem.index (T := T))) (m : Ell T) : Ell T := m.map s.run

/-- `IsSorted` (sparse_matrix.h:128-134). -/
def Ell.isSorted (m : Ell T) : Bool := m.all (isSortedBy Elem.index)

/-- `operator==` (sparse_matrix.h:115-117). -/
def Ell.eq [DecidableEq T] (a b : Ell T) : Bool := decide (a = b)

/-- The loop of `ToCSR` (sparse_matrix.h:141-146): `last` is `row_ptrs_.back()`; the row pointers and
the elements that are pushed. -/
def toCsrGo : Ell T → Nat → List Nat × List (Elem T)
  | [], _ => ([], [])
  | r :: rs, last =>
    let t := toCsrGo rs (last + r.length)
    ((last + r.length) :: t.1, r ++ t.2)

/-- `ToCSR` (sparse_matrix.h:137-148), `FromELL` (:227-229). -/
def Ell.toCsr (m : Ell T) : Csr T := ⟨(toCsrGo m 0).2, 0 :: (toCsrGo m 0).1⟩

/-! ## `CSRSparseMatrix` -/

/-- `MaxRows` (sparse_matrix.h:243-246). -/
def Csr.maxRows (c : Csr T) : Nat := if c.rowPtrs = [] then 0 else c.rowPtrs.length - 1

/-- `std::max_element` of a vector that is not empty, by index (sparse_matrix.h:250-252). -/
def maxElemGo (best : Elem T) : List (Elem T) → Elem T
  | [] => best
  | e :: es => maxElemGo (if best.index < e.index then e else best) es

/-- `MaxCols` (sparse_matrix.h:249-254). -/
def Csr.maxCols (c : Csr T) : Option Nat :=
  match c.elements with
  | [] => none
  | e :: es => some ((maxElemGo e es).index + 1)

/-- `NonZeros` (sparse_matrix.h:256). -/
def Csr.nonZeros (c : Csr T) : Nat := c.elements.length

/-- `sort(elements_.begin() + a, elements_.begin() + b)` (sparse_matrix.h:269-270). -/
def sortRange (s : SortBy (Elem.index (T := T))) (es : List (Elem T)) (a b : Nat) :
    Option (List (Elem T)) :=
  if a ≤ b ∧ b ≤ es.length then some (es.take a ++ s.run ((es.drop a).take (b - a)) ++ es.drop b)
  else none

/-- The loop of `Sort` (sparse_matrix.h:267-272). -/
def csrSortGo (s : SortBy (Elem.index (T := T))) : List Nat → List (Elem T) → Option (List (Elem T))
  | a :: b :: ps, es => (sortRange s es a b).bind fun es => csrSortGo s (b :: ps) es
  | _, es => some es

/-- `Sort` (sparse_matrix.h:266-274): the elements, then the row pointers. -/
def Csr.sort (s : SortBy (Elem.index (T := T))) (sp : SortBy (id : Nat → Nat)) (c : Csr T) :
    Option (Csr T) :=
  (csrSortGo s c.rowPtrs c.elements).map fun es => ⟨es, sp.run c.rowPtrs⟩

/-- The loop of `IsSorted` (sparse_matrix.h:277-283); `rest` is what follows it. -/
def csrIsSortedGo (es : List (Elem T)) (rest : Bool) : List Nat → Option Bool
  | a :: b :: ps =>
    if a ≤ b ∧ b ≤ es.length then
      if isSortedBy Elem.index ((es.drop a).take (b - a)) then csrIsSortedGo es rest (b :: ps)
      else some false
    else none
  | _ => some rest

/-- `IsSorted` (sparse_matrix.h:276-285). -/
def Csr.isSorted (c : Csr T) : Option Bool :=
  csrIsSortedGo c.elements (isSortedBy id c.rowPtrs) c.rowPtrs

/-- `row_ptrs_[i + 1] - row_ptrs_[i]` (sparse_matrix.h:294, :312) in 64 bits. -/
def gap (a b : Nat) : Nat := (b + 2 ^ 64 - a) % 2 ^ 64

/-- The loop of `ToELL` (sparse_matrix.h:292-302): the iterator `it` starts at the first element, and
`es` is what it has not passed. -/
def toEllGo : List Nat → List (Elem T) → Option (Ell T)
  | a :: b :: ps, es =>
    let cols := gap a b
    if cols ≤ es.length then (toEllGo (b :: ps) (es.drop cols)).map (es.take cols :: ·) else none
  | _, _ => some []

/-- `ToELL` (sparse_matrix.h:288-304), `FromCSR` (:78-80). -/
def Csr.toEll (c : Csr T) : Option (Ell T) := toEllGo c.rowPtrs c.elements

/-! ## Eigen -/

/-- `static_cast<StorageIndex>(n)` (sparse_matrix.h:155-156) with `StorageIndex = int`. -/
def storageIndex (n : Nat) : Int := (BitVec.ofNat 32 n).toInt

/-- One `Eigen::Triplet` (sparse_matrix.h:155-157) as `setFromTriplets` takes it; indices out of
range are not allowed. -/
def triplet (rows cols i : Nat) (e : Elem T) : Option (Nat × Elem T) :=
  if 0 ≤ storageIndex i ∧ storageIndex i < rows ∧ 0 ≤ storageIndex e.index ∧ storageIndex e.index < cols then
    some ((storageIndex i).toNat, ⟨(storageIndex e.index).toNat, e.value⟩)
  else none

/-- The coefficients of `ELLSparseMatrix::ToEigenSparseMatrix` (sparse_matrix.h:152-159), from row `i`
on. -/
def coefficientsGo : Nat → Ell T → List (Nat × Elem T)
  | _, [] => []
  | i, r :: rs => r.map (fun e => (i, e)) ++ coefficientsGo (i + 1) rs

/-- `ELLSparseMatrix::ToEigenSparseMatrix` (sparse_matrix.h:150-163): rows, columns and the triplets
given to `setFromTriplets`. -/
def Ell.toEigen (m : Ell T) : Option (Nat × Nat × List (Nat × Elem T)) :=
  m.maxCols.bind fun cols =>
    ((coefficientsGo 0 m).mapM fun x => triplet m.maxRows cols x.1 x.2).map fun ts => (m.maxRows, cols, ts)

/-- The loop of `CSRSparseMatrix::ToEigenSparseMatrix` (sparse_matrix.h:309-319), from row `i` on. -/
def csrCoefficientsGo : Nat → List Nat → List (Elem T) → Option (List (Nat × Elem T))
  | i, a :: b :: ps, es =>
    let cols := gap a b
    if cols ≤ es.length then
      (csrCoefficientsGo (i + 1) (b :: ps) (es.drop cols)).map ((es.take cols).map (fun e => (i, e)) ++ ·)
    else none
  | _, _, _ => some []

/-- `CSRSparseMatrix::ToEigenSparseMatrix` (sparse_matrix.h:306-323). -/
def Csr.toEigen (c : Csr T) : Option (Nat × Nat × List (Nat × Elem T)) :=
  (csrCoefficientsGo 0 c.rowPtrs c.elements).bind fun xs => c.maxCols.bind fun cols =>
    (xs.mapM fun x => triplet c.maxRows cols x.1 x.2).map fun ts => (c.maxRows, cols, ts)

/-- What `setFromTriplets` (sparse_matrix.h:161, :321) leaves of triplets in range: `es`, in the order
of the inner iterators, has each position of the triplets once, with the sum of their values. -/
structure SetFromTriplets [AddCommMonoid T] (ts es : List (Nat × Elem T)) : Prop where
  nodup : (es.map fun x => (x.1, x.2.index)).Nodup
  positions : ∀ i j, (i, j) ∈ es.map (fun x => (x.1, x.2.index)) ↔ (i, j) ∈ ts.map fun x => (x.1, x.2.index)
  value : ∀ x ∈ es, x.2.value =
    ((ts.filter fun y => decide (y.1 = x.1 ∧ y.2.index = x.2.index)).map fun y => y.2.value).sum

/-- The loops of `FromEigenSparseMatrix` (sparse_matrix.h:68-73). -/
def pushAll (m : Ell T) (es : List (Nat × Elem T)) : Ell T :=
  es.foldl (fun m x => m.modify x.1 (· ++ [x.2])) m

/-- `ELLSparseMatrix::FromEigenSparseMatrix` (sparse_matrix.h:61-76). -/
def fromEigen (s : SortBy (Elem.index (T := T))) (rows : Nat) (es : List (Nat × Elem T)) : Ell T :=
  Ell.sort s (pushAll (List.replicate rows []) es)

end Tachyon.SparseMatrix
