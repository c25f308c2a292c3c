import Mathlib.Data.List.Defs
/-!
# Floor planners

`zk/plonk/layout/region_shape.h`, `zk/plonk/layout/floor_planner/{allocated_region,allocations,plan_region,
single_chip_layouter}.h`, `zk/plonk/layout/floor_planner/v1/{v1_strategy.h,v1_strategy.cc,v1_floor_planner.h}`.

`C` is the type of `RegionColumn`s. A circuit is the list of what its regions do: the cells they write (selectors are
columns), the cells they make equal and the constants they ask for; both passes see the same. `none` is a failing `CHECK` or
an access out of bounds. Rows are natural numbers, where the code has `uint32_t` and `int32_t`: `C91_bound` bounds them. Names,
lookup tables and instances are left out.
-/
namespace Tachyon.FloorPlan

/-- `AllocatedRegion` (allocated_region.h:16-35). -/
structure Alloc where
  start : Nat
  length : Nat
  deriving DecidableEq

/-- `End` (allocated_region.h:24). -/
def Alloc.stop (a : Alloc) : Nat := a.start + a.length

/-- `insert` of the `absl::btree_set` of allocated regions, which are compared by their starts (allocated_region.h:26-28): the
list is sorted. -/
def insertAlloc (a : Alloc) : List Alloc → List Alloc
  | [] => [a]
  | b :: l =>
    if a.start < b.start then a :: b :: l
    else if b.start < a.start then b :: insertAlloc a l
    else b :: l

/-- `UnboundedIntervalStart` (allocations.h:30-35). -/
def unboundedStart (l : List Alloc) : Nat :=
  match l.getLast? with
  | none => 0
  | some a => a.stop

/-- The end of `FreeIntervals` (allocations.h:53-56). -/
def freeLast (stop : Option Nat) (row : Nat) : List (Nat × Option Nat) :=
  if stop.all fun e => decide (row < e) then [(row, stop)] else []

/-- The loop of `FreeIntervals` (allocations.h:44-52). -/
def freeGo (stop : Option Nat) : List Alloc → Nat → List (Nat × Option Nat)
  | [], row => freeLast stop row
  | a :: l, row =>
    if stop.any fun e => decide (e ≤ a.start) then freeLast stop row
    else (if row < a.start then [(row, some a.start)] else []) ++ freeGo stop l (max row a.stop)

/-- `FreeIntervals` (allocations.h:39-57): starts and ends of `EmptySpace`s. -/
def freeIntervals (l : List Alloc) (start : Nat) (stop : Option Nat) : List (Nat × Option Nat) := freeGo stop l start

section
variable {C : Type} [DecidableEq C] {V : Type}

/-- `CircuitAllocations` (v1_strategy.h:31): the allocations of each column, none if the column is not a key, and the keys. -/
structure Plan (C : Type) where
  allocs : C → List Alloc
  keys : List C

/-- `try_emplace` (v1_strategy.cc:36). -/
def Plan.touch (p : Plan C) (c : C) : Plan C := { p with keys := if c ∈ p.keys then p.keys else p.keys ++ [c] }

/-- `at(c).allocations().insert` (v1_strategy.cc:55-56). -/
def Plan.insert (p : Plan C) (c : C) (a : Alloc) : Plan C :=
  { p with allocs := fun c' => if c' = c then insertAlloc a (p.allocs c') else p.allocs c' }

/-- The loop over the free intervals of `FirstFitRegion` (v1_strategy.cc:35-63); `rec` is `FirstFitRegion` for the remaining
columns. -/
def trySpaces (rec : Nat → Option Nat → Plan C → Option (Option Nat × Plan C)) (c : C) (len : Nat)
    (slack stop : Option Nat) : List (Nat × Option Nat) → Plan C → Option (Option Nat × Plan C)
  | [], p => some (none, p)
  | (s, e) :: rest, p =>
    let sSlack : Option Int := e.map fun e => (e : Int) - s - len
    if slack.any fun x => sSlack.any fun y => decide ((x : Int) < y) then none
    else if sSlack.all fun y => decide (0 ≤ y) then
      (rec s (sSlack.map Int.toNat) p).bind fun r =>
        match r.1 with
        | some row => if stop.any fun e => decide (e < row + len) then none else some (some row, r.2.insert c ⟨row, len⟩)
        | none => trySpaces rec c len slack stop rest r.2
    else trySpaces rec c len slack stop rest p

/-- `FirstFitRegion` (v1_strategy.cc:16-64). -/
def firstFit : List C → Nat → Nat → Option Nat → Plan C → Option (Option Nat × Plan C)
  | [], _, start, _, p => some (some start, p)
  | c :: cs, len, start, slack, p =>
    let stop := slack.map fun x => start + len + x
    trySpaces (firstFit cs len) c len slack stop (freeIntervals (p.allocs c) start stop) (p.touch c)

/-- A cell that is written: `EnableSelector`, `AssignAdvice` or `AssignFixed` of a region. -/
structure Write (C V : Type) where
  column : C
  offset : Nat
  value : V

/-- `Cell` (layout/cell.h:23-45). -/
structure Cell (C : Type) where
  region : Nat
  offset : Nat
  column : C

/-- What a region does. -/
structure Region (C V : Type) where
  writes : List (Write C V)
  equal : List (Cell C × Cell C)
  consts : List (V × Cell C)

/-- `RegionShape` (region_shape.h:21-75). -/
structure Shape (C : Type) where
  index : Nat
  columns : List C
  rowCount : Nat

/-- `UpdateColumnsAndRowCount` (region_shape.h:66-70). -/
def Shape.update (s : Shape C) (c : C) (offset : Nat) : Shape C :=
  { s with columns := if c ∈ s.columns then s.columns else s.columns ++ [c], rowCount := max s.rowCount (offset + 1) }

/-- The shape of a region after the first pass (measurement_pass.h:37-47, single_chip_layouter.h:54-61). -/
def shapeOf (index : Nat) (ws : List (Write C V)) : Shape C :=
  ws.foldl (fun s w => s.update w.column w.offset) ⟨index, [], 0⟩

/-- What the sort of the columns of a region (v1_strategy.h:73-78) leaves: some permutation. -/
structure ColumnOrder (C : Type) where
  run : List C → List C
  perm : ∀ l, (run l).Perm l

/-- What `base::UnstableSort` (base/sort.h:15-18) by a number leaves: some sorted permutation. -/
structure SortBy {α : Type} (key : α → Nat) where
  run : List α → List α
  perm : ∀ l, (run l).Perm l
  sorted : ∀ l, (run l).Pairwise fun a b => key a ≤ key b

/-- `SlotIn` (v1_strategy.h:59-89): the starts with the regions. -/
def slotIn (o : ColumnOrder C) : List (Shape C) → Plan C → Option (List (Nat × Shape C) × Plan C)
  | [], p => some ([], p)
  | r :: rs, p => (firstFit (o.run r.columns) r.rowCount 0 none p).bind fun x =>
    match x.1 with
    | none => none
    | some s => (slotIn o rs x.2).map fun y => ((s, r) :: y.1, y.2)

/-- The number of advice columns times the number of rows (v1_strategy.h:107-129). -/
def adviceArea (advice : C → Bool) (s : Shape C) : Nat := (s.columns.filter advice).length * s.rowCount

/-- The region index by which the regions are sorted back (v1_strategy.h:138-141). -/
def infoIndex (x : Nat × Shape C) : Nat := x.2.index

/-- `SlotInBiggestAdviceFirst` (v1_strategy.h:98-147). -/
def slotBiggest (advice : C → Bool) (o : ColumnOrder C) (byArea : SortBy (adviceArea advice))
    (byIndex : SortBy (infoIndex (C := C))) (shapes : List (Shape C)) : Option (List Nat × Plan C) :=
  (slotIn o (byArea.run shapes).reverse ⟨fun _ => [], []⟩).map fun r => ((byIndex.run r.1).map Prod.fst, r.2)

/-- The row of a cell (plan_region.h:96-100, v1_floor_planner.h:131-133). -/
def absolute (starts : List Nat) (c : Cell C) : Option (C × Nat) := (starts[c.region]?).map fun s => (c.column, s + c.offset)

/-- `ConstrainEqual` (plan_region.h:96-100). -/
def absolutePair (starts : List Nat) (p : Cell C × Cell C) : Option ((C × Nat) × (C × Nat)) :=
  (absolute starts p.1).bind fun a => (absolute starts p.2).map fun b => (a, b)

/-- The calls of `AssignFixed`, `AssignAdvice` and `EnableSelector` of an `Assignment` with column and row, and those of `Copy`. -/
structure Out (C V : Type) where
  writes : List ((C × Nat) × V)
  copies : List ((C × Nat) × (C × Nat))

/-- The second pass of a region (plan_region.h:38-100). -/
def assignRegion (starts : List Nat) (index : Nat) (r : Region C V) : Option (Out C V) :=
  (starts[index]?).bind fun s => (r.equal.mapM (absolutePair starts)).map fun copies =>
    ⟨r.writes.map fun w => ((w.column, s + w.offset), w.value), copies⟩

/-- The second pass of the regions from some index on (assignment_pass.h:37-43). -/
def assignFrom (starts : List Nat) : Nat → List (Region C V) → Option (List (Out C V))
  | _, [] => some []
  | i, r :: rs => (assignRegion starts i r).bind fun o => (assignFrom starts (i + 1) rs).map fun os => o :: os

/-- The first row behind all regions (v1_floor_planner.h:71-81). -/
def firstUnassigned (p : Plan C) : Nat := (p.keys.map fun c => unboundedStart (p.allocs c)).foldl max 0

/-- `constant_positions` (v1_floor_planner.h:83-104). -/
def constantPositions (p : Plan C) (constCols : List C) : List (C × Nat) :=
  constCols.flatMap fun c => (freeIntervals (p.allocs c) 0 (some (firstUnassigned p))).flatMap fun s =>
    match s.2 with
    | some e => (List.range' s.1 (e - s.1)).map fun row => (c, row)
    | none => []

/-- The constants (v1_floor_planner.h:119-134, single_chip_layouter.h:111-123). -/
def assignConstants (starts : List Nat) (l : List ((C × Nat) × (V × Cell C))) : Option (Out C V) :=
  (l.mapM fun x => (absolute starts x.2.2).map fun b => (x.1, b)).map fun copies => ⟨l.map fun x => (x.1, x.2.1), copies⟩

/-- `V1FloorPlanner::Synthesize` (v1_floor_planner.h:42-135): the calls of each region and those for the constants. -/
def synthesizeV1 (advice : C → Bool) (o : ColumnOrder C) (byArea : SortBy (adviceArea advice))
    (byIndex : SortBy (infoIndex (C := C))) (constCols : List C) (regions : List (Region C V)) :
    Option (List (Out C V) × Out C V) :=
  (slotBiggest advice o byArea byIndex (regions.mapIdx fun i r => shapeOf i r.writes)).bind fun plan =>
    let positions := constantPositions plan.2 constCols
    (assignFrom plan.1 0 regions).bind fun os =>
      let consts := regions.flatMap fun r => r.consts
      if positions.length < consts.length then none
      else (assignConstants plan.1 (positions.zip consts)).map fun c => (os, c)

/-- The members of `SingleChipLayouter` (single_chip_layouter.h:159-162); columns that are not in the map have row zero. -/
structure Single (C : Type) where
  starts : List Nat
  next : C → Nat

/-- `SingleChipLayouter::AssignRegion` (single_chip_layouter.h:49-125): the calls of the region and those for its constants. -/
def singleRegion (constCols : List C) (st : Single C) (r : Region C V) : Option ((Out C V × Out C V) × Single C) :=
  let shape := shapeOf st.starts.length r.writes
  let start := (shape.columns.map st.next).foldl max 0
  let starts := st.starts ++ [start]
  let next := fun c => if c ∈ shape.columns then start + shape.rowCount else st.next c
  (assignRegion starts st.starts.length r).bind fun o =>
    match constCols with
    | [] => if r.consts.isEmpty then some ((o, ⟨[], []⟩), ⟨starts, next⟩) else none
    | c :: _ =>
      (assignConstants starts (((List.range' (next c) r.consts.length).map fun row => (c, row)).zip r.consts)).map fun k =>
        ((o, k), ⟨starts, fun c' => if c' = c then next c + r.consts.length else next c'⟩)

/-- The regions of a circuit with `SimpleFloorPlanner` (simple_floor_planner.h:18-23). -/
def singleAll (constCols : List C) : List (Region C V) → Single C → Option (List (Out C V × Out C V) × Single C)
  | [], st => some ([], st)
  | r :: rs, st => (singleRegion constCols st r).bind fun x => (singleAll constCols rs x.2).map fun y => (x.1 :: y.1, y.2)

end
end Tachyon.FloorPlan
