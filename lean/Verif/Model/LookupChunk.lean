import Verif.Model.CircuitPoly
/-!
# Lookups with several inputs

`LookupAny`, `UpdateLookupsMap` and `ChunkLookups` of `zk/plonk/constraint_system/constraint_system.h`,
`zk/plonk/constraint_system/lookup_tracker.h`, `zk/lookup/argument.h`,
`zk/plonk/expressions/evaluator/{identifier,simple_selector_finder}.h`.

`none` is a failing `CHECK` or an access out of bounds. Strings are lists of characters; `canon` is `ToBigInt`. Names of
lookups are left out. Degrees are natural numbers: `bit_ceil` does not overflow.
-/
universe u
namespace Tachyon.LookupChunk
open Plonk CircuitPoly

section
variable {F : Type u}

/-- The digits of a number (`BigInt::ToString`, math/base/big_int.h:728, `operator<<` of `size_t`). -/
def decimal (n : Nat) : List Char := Nat.toDigits 10 n

/-- `operator<<` of `int32_t`. -/
def decimalInt (i : Int) : List Char := if i < 0 then '-' :: decimal i.natAbs else decimal i.natAbs

/-- The two indices of a query in an identifier (identifier.h:56-73). -/
def queryIdent (q : Query) : List Char := decimal q.column ++ [']', '['] ++ decimalInt q.rotation ++ [']']

/-- `Identifier::Evaluate` (identifier.h:28-93). -/
def identifier (canon : F → Nat) : Expr F → List Char
  | .constant v => decimal (canon v)
  | .neg e => ['(', '-'] ++ identifier canon e ++ [')']
  | .sum a b => ['('] ++ identifier canon a ++ ['+'] ++ identifier canon b ++ [')']
  | .prod a b => ['('] ++ identifier canon a ++ ['*'] ++ identifier canon b ++ [')']
  | .scaled _ s => ['*'] ++ decimal (canon s)
  | .fixed q => ['f', 'i', 'x', 'e', 'd', '['] ++ queryIdent q
  | .advice q => ['a', 'd', 'v', 'i', 'c', 'e', '['] ++ queryIdent q
  | .inst q => ['i', 'n', 's', 't', 'a', 'n', 'c', 'e', '['] ++ queryIdent q
  | .challenge i => ['c', 'h', 'a', 'l', 'l', 'e', 'n', 'g', 'e', '['] ++ decimal i ++ [']']
  | .selector i => ['s', 'e', 'l', 'e', 'c', 't', 'o', 'r', '['] ++ decimal i ++ [']']

/-- The identifier of a table (constraint_system.h:792-797). -/
def tableIdentifier (canon : F → Nat) (table : List (Expr F)) : List Char := table.flatMap (identifier canon)

/-- `SimpleSelectorFinder::Evaluate` (simple_selector_finder.h:23-61); whether a selector is simple is a function of its
index. -/
def containsSimple (simple : Nat → Bool) : Expr F → Bool
  | .constant _ => false
  | .selector i => simple i
  | .fixed _ => false
  | .advice _ => false
  | .inst _ => false
  | .challenge _ => false
  | .neg e => containsSimple simple e
  | .sum a b => containsSimple simple a || containsSimple simple b
  | .prod a b => containsSimple simple a || containsSimple simple b
  | .scaled e _ => containsSimple simple e

/-- `LookupTracker` (lookup_tracker.h:14-31). -/
structure Tracker (F : Type u) where
  table : List (Expr F)
  inputs : List (List (Expr F))

/-- `lookups_map_` (constraint_system.h:931): a list that is sorted by the keys. -/
abbrev LookupMap (F : Type u) := List (List Char × Tracker F)

/-- `UpdateLookupsMap` (constraint_system.h:788-807). -/
def updateMap (key : List Char) (input table : List (Expr F)) : LookupMap F → LookupMap F
  | [] => [(key, ⟨table, [input]⟩)]
  | (k, t) :: m =>
    if k = key then (k, { t with inputs := t.inputs ++ [input] }) :: m
    else if key < k then (key, ⟨table, [input]⟩) :: (k, t) :: m
    else (k, t) :: updateMap key input table m

/-- `LookupAny` (constraint_system.h:224-260) for `kLogDerivativeHalo2`. -/
def lookupAny (canon : F → Nat) (simple : Nat → Bool) (pairs : List (Expr F × Expr F)) (m : LookupMap F) :
    Option (LookupMap F) :=
  if pairs.any fun p => containsSimple simple p.1 then none
  else some (updateMap (tableIdentifier canon (pairs.map Prod.snd)) (pairs.map Prod.fst) (pairs.map Prod.snd) m)

/-- The lookups of a circuit, one after the other. -/
def lookupAll (canon : F → Nat) (simple : Nat → Bool) : List (List (Expr F × Expr F)) → LookupMap F → Option (LookupMap F)
  | [], m => some m
  | p :: ps, m => (lookupAny canon simple p m).bind fun m => lookupAll canon simple ps m

/-- `lookup::Argument` (lookup/argument.h:21-217). -/
structure MultiArgument (F : Type u) where
  inputs : List (List (Expr F))
  table : List (Expr F)

/-- `RequiredDegree` (lookup/argument.h:101-202). -/
def requiredDegree (a : MultiArgument F) : Option Nat :=
  if a.inputs.any fun i => decide (i.length ≠ a.table.length) then none
  else some (max (3 + a.inputs.length) (2 + (a.inputs.map maxExprDegree).sum + maxExprDegree a.table))

/-- `ComputeColumnDegree` (constraint_system.h:821-829). -/
def columnDegree (column : List (Expr F)) : Option Nat := (column.map degree).max?

/-- The degree of the lookups of a table, each on its own (constraint_system.h:277-290, 868-887). -/
def singleDegree (t : Tracker F) : Option Nat :=
  (columnDegree t.table).bind fun d => (t.inputs.mapM columnDegree).map fun ds => max 3 (d + 2) + ds.foldl max 0

/-- `absl::bit_ceil` (absl/numeric/bits.h): the smallest power of two that is not less. -/
def bitCeil (n : Nat) : Nat := if n ≤ 1 then 1 else 2 ^ (Nat.log2 (n - 1) + 1)

/-- `set_minimum_degree` (constraint_system.h:145-151). -/
def setMinimumDegree (m : Option Nat) (degree : Nat) : Nat :=
  match m with
  | some d => max d degree
  | none => degree

/-- The loop over the arguments (constraint_system.h:318-331): the arguments, and whether the input was added. -/
def addInput (minimum d : Nat) (input : List (Expr F)) : List (MultiArgument F) → Option (List (MultiArgument F) × Bool)
  | [] => some ([], false)
  | a :: as => (requiredDegree a).bind fun cur =>
    if cur + d ≤ minimum then some ({ a with inputs := a.inputs ++ [input] } :: as, true)
    else (addInput minimum d input as).map fun r => (a :: r.1, r.2)

/-- The loop over the inputs of a table but the first (constraint_system.h:313-341). -/
def chunkInputs (minimum : Nat) (table : List (Expr F)) :
    List (List (Expr F)) → List (MultiArgument F) → Option (List (MultiArgument F))
  | [], as => some as
  | i :: is, as => (columnDegree i).bind fun d => (addInput minimum d i as).bind fun r =>
    chunkInputs minimum table is (if r.2 then r.1 else r.1 ++ [⟨[i], table⟩])

/-- The loop over the tables (constraint_system.h:305-342). -/
def chunkTables (minimum : Nat) : LookupMap F → List (MultiArgument F) → Option (List (MultiArgument F))
  | [], as => some as
  | (_, t) :: m, as =>
    match t.inputs with
    | [] => none
    | i :: is => (chunkInputs minimum t.table is (as ++ [⟨[i], t.table⟩])).bind fun as => chunkTables minimum m as

/-- `ChunkLookups` (constraint_system.h:266-343) for `kLogDerivativeHalo2`: the arguments and the minimum degree. `lookups_`
is empty before. -/
def chunkLookups (gates : List (List (Expr F))) (minimum : Option Nat) (m : LookupMap F) :
    Option (List (MultiArgument F) × Option Nat) :=
  if m.isEmpty then some ([], minimum)
  else
    (m.mapM fun t => singleDegree t.2).bind fun ds =>
      let required := max (maxOr 0 (gates.flatten.map degree)) (ds.foldl max 0)
      let minimum := setMinimumDegree minimum (bitCeil required + 1)
      (chunkTables minimum m []).map fun as => (as, some minimum)

end
end Tachyon.LookupChunk
