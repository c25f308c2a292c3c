import Verif.Model.Group
/-! Copy constraints: `zk/plonk/permutation/{label.h, cycle_store.h, cycle_store.cc, permutation_assembly.h,
unpermuted_table.h, permutation_utils.h}`.

`none` is an access out of bounds, a failing `CHECK`, or a loop that does not end. -/
universe u v
namespace Tachyon.Cycle

variable {α : Type u}

/-- `Label` (label.h:21-35): column and row. -/
abbrev Label := Nat × Nat

/-- `Table::operator[]` (cycle_store.h:76). -/
def get (t : List (List α)) (l : Label) : Option α := (t[l.1]?).bind fun c => c[l.2]?

/-- Assignment through `Table::operator[]` (cycle_store.h:75). -/
def put (t : List (List α)) (l : Label) (x : α) : Option (List (List α)) :=
  if (get t l).isSome then some (t.modify l.1 fun c => c.set l.2 x) else none

/-- `CycleStore` (cycle_store.h:132-138). -/
structure Store where
  mapping : List (List Label)
  aux : List (List Label)
  sizes : List (List Nat)

/-- The constructor (cycle_store.h:92-100). -/
def Store.new (cols rows : Nat) : Store :=
  let mapping := (List.range cols).map fun col => (List.range rows).map fun row => (col, row)
  ⟨mapping, mapping, List.replicate cols (List.replicate rows 1)⟩

/-- `GetNextLabel` (cycle_store.h:107-109). -/
def Store.next (s : Store) (l : Label) : Option Label := get s.mapping l

/-- `GetCycleBase` (cycle_store.h:112). -/
def Store.base (s : Store) (l : Label) : Option Label := get s.aux l

/-- `GetCycleSize` (cycle_store.h:115-117). -/
def Store.size (s : Store) (l : Label) : Option Nat := (s.base l).bind fun b => get s.sizes b

/-- `CheckSameCycle` (cycle_store.h:121-123). -/
def Store.sameCycle (s : Store) (a b : Label) : Option Bool :=
  (s.base a).bind fun x => (s.base b).map fun y => decide (x = y)

/-- The number of labels, which bounds the loops. -/
def Store.labels (s : Store) : Nat := (s.mapping.map List.length).sum

/-- The loop of `MergeCycle` (cycle_store.cc:25-32) with at most `fuel` iterations. -/
def relabel (mapping : List (List Label)) (left right : Label) :
    Nat → Label → List (List Label) → Option (List (List Label))
  | 0, _, _ => none
  | fuel + 1, l, aux =>
    (put aux l left).bind fun aux =>
    (get mapping l).bind fun l =>
    if l = right then some aux else relabel mapping left right fuel l aux

/-- The second half of `MergeCycle` (cycle_store.cc:23-35); `total` is the sum of the sizes. -/
def Store.mergeInto (s : Store) (a b left right : Label) (total : Nat) : Option (Store × Bool) :=
  (put s.sizes left total).bind fun sizes =>
  (relabel s.mapping left right s.labels right s.aux).bind fun aux =>
  (get s.mapping a).bind fun x =>
  (get s.mapping b).bind fun y =>
  (put s.mapping a y).bind fun m =>
  (put m b x).map fun m => (⟨m, aux, sizes⟩, true)

/-- `MergeCycle` (cycle_store.cc:13-36). The arguments are references; those that point into the tables of
the store itself are not modelled. -/
def Store.merge (s : Store) (a b : Label) : Option (Store × Bool) :=
  (s.base a).bind fun l =>
  (s.base b).bind fun r =>
  if l = r then some (s, false)
  else
    (get s.sizes l).bind fun sl =>
    (get s.sizes r).bind fun sr =>
    if sl < sr then s.mergeInto a b r l (sr + sl) else s.mergeInto a b l r (sl + sr)

/-- The loop of `GetAllLabels` (cycle_store.cc:43-49). -/
def walk (mapping : List (List Label)) (base : Label) : Nat → Label → Option (List Label)
  | 0, _ => none
  | fuel + 1, l =>
    (get mapping l).bind fun l => if l = base then some [l] else (walk mapping base fuel l).map fun ls => l :: ls

/-- `GetAllLabels` (cycle_store.cc:38-51). -/
def Store.all (s : Store) (l : Label) : Option (List Label) :=
  (s.base l).bind fun b => (walk s.mapping b s.labels b).map fun ls => b :: ls

/-- A sequence of calls of `MergeCycle`. -/
def run (s : Store) : List (Label × Label) → Option Store
  | [] => some s
  | (a, b) :: ps => (s.merge a b).bind fun r => run r.1 ps

section Assembly
variable {K : Type v} [DecidableEq K]

/-- The checks of `Copy` (permutation_assembly.h:62-63). -/
def copyCheck (rows lrow rrow : Nat) : Bool := decide (lrow ≤ rows) && decide (rrow ≤ rows)

/-- `GetColumnIndex` (permutation_assembly.h:146-148). -/
def columnIndex (columns : List K) (k : K) : Option Nat :=
  if k ∈ columns then some (columns.findIdx fun c => c = k) else none

/-- `Copy` (permutation_assembly.h:60-71). -/
def copy (columns : List K) (rows : Nat) (s : Store) (lcol : K) (lrow : Nat) (rcol : K) (rrow : Nat) :
    Option Store :=
  if copyCheck rows lrow rrow then
    (columnIndex columns lcol).bind fun i =>
    (columnIndex columns rcol).bind fun j => (s.merge (i, lrow) (j, rrow)).map Prod.fst
  else none

end Assembly

section Tables
variable {F : Type u} [Field F] [DecidableEq F]

/-- The loop of `UnpermutedTable::Construct` (unpermuted_table.h:71-77): `cols` further columns. -/
def nextColumns (delta : F) : Nat → List F → List (List F)
  | 0, _ => []
  | cols + 1, col => (col.map fun x => x * delta) :: nextColumns delta cols (col.map fun x => x * delta)

/-- `UnpermutedTable::Construct` (unpermuted_table.h:55-79); `GetRootsOfUnity` is
`GetSuccessivePowers`. -/
def unpermuted (threads : Nat) (cols rows : Nat) (omega delta : F) : List (List F) :=
  Group.getSuccessivePowers threads rows omega 1 ::
    nextColumns delta (cols - 1) (Group.getSuccessivePowers threads rows omega 1)

/-- `GetDelta` (permutation_utils.h:20-35) for fields other than bn254's `Fr`, for which it is a constant; `canon` is
`ToBigInt`, `g` the subgroup generator, `s` the two-adicity. `Pow` is C19. -/
def getDelta (canon : F → Nat) (g : F) (s : Nat) : F := g ^ canon ((2 : F) ^ s)

/-- `GeneratePermutations` (permutation_assembly.h:121-143). -/
def generate (threads cols rows domainSize : Nat) (omega delta : F) (s : Store) : Option (List (List F)) :=
  if domainSize = rows then
    (List.range cols).mapM fun i => (List.range rows).mapM fun j =>
      (s.next (i, j)).bind fun l => get (unpermuted threads cols rows omega delta) l
  else none

end Tables

end Tachyon.Cycle
