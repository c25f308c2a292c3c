import Mathlib.Data.List.Sort
import Mathlib.Order.Defs.LinearOrder
/-! `PermuteExpressionPair` of the lookup argument: `zk/lookup/halo2/permute_expression_pair.h`, and
`zk/base/blinder.h`.

`none` is a failing `CHECK` or an access out of bounds, `some none` the result `false`. The order stands for
`operator<` of the field, of which only linearity matters; every sorting algorithm gives the same list then, so
`UnstableSort` is represented by insertion sort. An `absl::btree_map` is the list of its entries in ascending
order of the keys. The calls of `random_field_generator_->Generate()` return `rnd 0, rnd 1, …`.
`reserve` (permute_expression_pair.h:65) is left out. -/
universe u
namespace Tachyon.Lookup

variable {F : Type u} [LinearOrder F]

/-- `GetUsableRows` (zk/base/entities/prover_base.h:46-48, entity.h:98-100); `RowIndex` is `uint32_t`. -/
def usableRows (n blinding : Nat) : Nat := (n + (2 ^ 32 - (blinding + 1) % 2 ^ 32)) % 2 ^ 32

/-- `Blinder::Blind` (blinder.h:32-45); the result, the return value and the number of values generated. -/
def blind (rnd : Nat → F) (k blinding : Nat) (lastRow : Bool) (e : List F) : List F × Bool × Nat :=
  let rows := (blinding + if lastRow then 1 else 0) % 2 ^ 32
  if e.length < rows then (e, false, k)
  else (e.take (e.length - rows) ++ (List.range rows).map (fun i => rnd (k + i)), true, k + rows)

/-- `UnstableSort` of the first `u` elements (permute_expression_pair.h:40-41). -/
def sortPrefix (u : Nat) (l : List F) : Option (List F) :=
  if u ≤ l.length then some ((l.take u).insertionSort (· ≤ ·) ++ l.drop u) else none

/-- `try_emplace` with `++(it->second)` (permute_expression_pair.h:49-54). -/
def bump (x : F) : List (F × Nat) → List (F × Nat)
  | [] => [(x, 1)]
  | (k, c) :: m => if x = k then (k, c + 1) :: m else if x < k then (x, 1) :: (k, c) :: m else (k, c) :: bump x m

/-- The map of the counts (permute_expression_pair.h:44-55). -/
def countTable (u : Nat) (table : List F) : Option (List (F × Nat)) :=
  if u ≤ table.length then some ((table.take u).foldl (fun m x => bump x m) []) else none

/-- `find` and the decrement (permute_expression_pair.h:109-119): `some none` if the key is not found, `none`
if the count is 0. -/
def takeOne (x : F) : List (F × Nat) → Option (Option (List (F × Nat)))
  | [] => some none
  | (k, c) :: m =>
    if x = k then (if c > 0 then some (some ((k, c - 1) :: m)) else none)
    else (takeOne x m).map fun r => r.map fun m => (k, c) :: m

/-- What the loop over the rows changes. -/
structure State (F : Type u) where
  table : List F
  counts : List (F × Nat)
  repeated : List Nat

/-- An iteration of the loop over the rows (permute_expression_pair.h:66-123); `back()` of
`repeated_input_rows` is the head of `repeated`. -/
def rowStep (input : List F) (s : State F) (row : Nat) : Option (Option (State F)) :=
  match input[row]? with
  | none => none
  | some x =>
    if row = 0 ∨ input[row - 1]? ≠ some x then
      (takeOne x s.counts).map fun r => r.map fun m => ⟨s.table.set row x, m, s.repeated⟩
    else some (some ⟨s.table, s.counts, row :: s.repeated⟩)

/-- The loop over the rows. -/
def rowLoop (input : List F) : List Nat → State F → Option (Option (State F))
  | [], s => some (some s)
  | row :: rows, s =>
    match rowStep input s row with
    | some (some s) => rowLoop input rows s
    | some none => some none
    | none => none

/-- The inner loop over the count of an entry (permute_expression_pair.h:131-136). -/
def fillValue (x : F) : Nat → List F × List Nat → Option (List F × List Nat)
  | 0, s => some s
  | c + 1, (t, row :: rows) => fillValue x c (t.set row x, rows)
  | _ + 1, (_, []) => none

/-- The loop over the map and the check after it (permute_expression_pair.h:126-139). -/
def fillLoop : List (F × Nat) → List F × List Nat → Option (List F)
  | [], (t, rows) => if rows.isEmpty then some t else none
  | (x, c) :: m, s =>
    match fillValue x c s with
    | some s => fillLoop m s
    | none => none

/-- `PermuteExpressionPair` (permute_expression_pair.h:30-149); `n` is the size of the domain. The result of
`Blind` is ignored. -/
def permutePair [Zero F] (rnd : Nat → F) (n blinding : Nat) (input table : List F) :
    Option (Option (List F × List F)) :=
  let u := usableRows n blinding
  match sortPrefix u input, countTable u table with
  | some a, some m =>
    match rowLoop a (List.range u) ⟨List.replicate n 0, m, []⟩ with
    | some (some s) =>
      match fillLoop s.counts (s.table, s.repeated) with
      | some t =>
        let a' := blind rnd 0 blinding true a
        some (some (a'.1, (blind rnd a'.2.2 blinding true t).1))
      | none => none
    | some none => some none
    | none => none
  | _, _ => none

end Tachyon.Lookup
