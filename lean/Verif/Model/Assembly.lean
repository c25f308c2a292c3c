import Verif.Model.Cycle
/-!
# Fixed columns, selectors, lookup tables and witnesses

`zk/plonk/keys/assembly.h`, `CreateAssembly` of `zk/plonk/keys/key.h`, `zk/plonk/layout/floor_planner/
{simple_lookup_table_layouter,lookup_table_assigner}.h`, `zk/plonk/halo2/{witness_collection,synthesizer}.h`.

A circuit is the list of the calls it makes. Values of cells are values of a type `V`; fractions are C50. `none` is a failing
`CHECK` or an access out of bounds.
-/
namespace Tachyon.Keygen
open Tachyon.Cycle

/-- A call of an `Assignment` (assignment.h:54-78) that the key generation looks at; columns are given by their indices, but for
`Copy` by their keys. -/
inductive Call (K V : Type)
  | selector (i row : Nat)
  | fixed (i row : Nat) (v : V)
  | copy (k : K) (row : Nat) (k' : K) (row' : Nat)
  | fill (i row : Nat) (v : V)

/-- The members of `Assembly` (assembly.h:82-88) with those of `PermutationAssembly`; the usable rows are those below `usable`. -/
structure Assembly (K V : Type) where
  fixed : List (List V)
  selectors : List (List Bool)
  columns : List K
  rows : Nat
  store : Store
  usable : Nat

section
variable {K V : Type} [DecidableEq K]

/-- `CreateAssembly` (key.h:40-55); `n` is not less than the number of blinding factors plus one (key.h:75-79). -/
def Assembly.new (numFixed numSelectors n blinding : Nat) (columns : List K) (zero : V) : Assembly K V :=
  ⟨List.replicate numFixed (List.replicate n zero), List.replicate numSelectors (List.replicate n false), columns, n,
    Store.new columns.length n, n - (blinding + 1)⟩

/-- Consecutive assignments of a value to the cells of a column. -/
def putRows (t : List (List V)) (i : Nat) (v : V) : List Nat → Option (List (List V))
  | [] => some t
  | row :: l => (put t (i, row) v).bind fun t => putRows t i v l

/-- `EnableSelector` (assembly.h:45-49), `AssignFixed` (assembly.h:57-62), `Copy` (assembly.h:64-69) and `FillFromRow`
(assembly.h:71-80). -/
def Assembly.step (a : Assembly K V) : Call K V → Option (Assembly K V)
  | .selector i row =>
    if row < a.usable then (put a.selectors (i, row) true).map fun s => { a with selectors := s } else none
  | .fixed i row v => if row < a.usable then (put a.fixed (i, row) v).map fun t => { a with fixed := t } else none
  | .copy k row k' row' =>
    if row < a.usable ∧ row' < a.usable then
      (Cycle.copy a.columns a.rows a.store k row k' row').map fun s => { a with store := s }
    else none
  | .fill i row v =>
    if row < a.usable then (putRows a.fixed i v (List.range' row (a.usable - row))).map fun t => { a with fixed := t } else none

/-- A sequence of calls. -/
def Assembly.run (a : Assembly K V) : List (Call K V) → Option (Assembly K V)
  | [] => some a
  | c :: cs => (a.step c).bind fun a => a.run cs

end

/-! ## Lookup tables -/

section
variable {K V : Type}

/-- `SimpleLookupTableLayouter::Value` (simple_lookup_table_layouter.h:25-37). -/
structure Entry (V : Type) where
  default : Option V
  assigned : List Bool

/-- `values_[column]` of the hash map (simple_lookup_table_layouter.h:55): the entry, or a new one. -/
def entryOf (entries : List (Nat × Entry V)) (c : Nat) : Entry V := (entries.lookup c).getD ⟨none, []⟩

/-- Changes the entry of a column, which may be new. -/
def setEntry (entries : List (Nat × Entry V)) (c : Nat) (e : Entry V) : List (Nat × Entry V) :=
  match entries with
  | [] => [(c, e)]
  | (d, x) :: l => if d = c then (d, e) :: l else (d, x) :: setEntry l c e

/-- `assigned` with `offset` set (simple_lookup_table_layouter.h:78-81). -/
def markAssigned (l : List Bool) (offset : Nat) : List Bool :=
  (l ++ List.replicate (offset + 1 - l.length) false).set offset true

/-- `AssignCell` (simple_lookup_table_layouter.h:48-83) with an assignment that runs the callback: whether it is fine, the entries
and the calls. -/
def assignCell (used : List Nat) (entries : List (Nat × Entry V)) (c offset : Nat) (v : V) :
    Bool × List (Nat × Entry V) × List (Call K V) :=
  if c ∈ used then (false, entries, [])
  else
    let e := entryOf entries c
    if offset = 0 ∧ e.default.isSome then (false, setEntry entries c e, [.fixed c offset v])
    else
      (true, setEntry entries c ⟨if offset = 0 then some v else e.default, markAssigned e.assigned offset⟩, [.fixed c offset v])

/-- The calls of `AssignCell` made by the circuit for a table: whether all are fine, the entries and the calls. -/
def assignCells (used : List Nat) : List (Nat × Nat × V) → List (Nat × Entry V) →
    Bool × List (Nat × Entry V) × List (Call K V)
  | [], entries => (true, entries, [])
  | (c, offset, v) :: ws, entries =>
    let r := assignCell (K := K) used entries c offset v
    let s := assignCells used ws r.2.1
    (r.1 && s.1, s.2.1, r.2.2 ++ s.2.2)

/-- The order in which a hash map is iterated: some permutation. -/
structure MapOrder (V : Type) where
  run : List (Nat × Entry V) → List (Nat × Entry V)
  perm : ∀ l, (run l).Perm l

/-- The lengths of the columns (lookup_table_assigner.h:46-72). -/
def firstUnused : List (Nat × Entry V) → Option Nat → Option (Option Nat)
  | [], first => some first
  | (_, e) :: l, first =>
    if e.assigned.all id then
      match first with
      | none => firstUnused l (some e.assigned.length)
      | some n => if n = e.assigned.length then firstUnused l first else none
    else none

/-- `AssignLookupTable` (lookup_table_assigner.h:31-83): whether all calls of `AssignCell` are fine, the calls of the assignment, the
used columns. -/
def assignTable (o : MapOrder V) (used : List Nat) (ws : List (Nat × Nat × V)) :
    Option (Bool × List (Call K V) × List Nat) :=
  let r := assignCells (K := K) used ws []
  let values : List (Nat × Entry V) := o.run r.2.1
  (firstUnused values none).bind fun first => first.bind fun n =>
    (values.mapM fun (x : Nat × Entry V) => x.2.default.map fun v => Call.fill x.1 n v).map fun fills =>
      (r.1, r.2.2 ++ fills, used ++ values.map Prod.fst)

end

/-! ## Witnesses -/

section
variable {F : Type} [Field F]

/-- A call of `AssignAdvice`: index and phase of the column, row and value. -/
structure Advice (F : Type) where
  column : Nat
  phase : Nat
  row : Nat
  value : F

/-- `WitnessCollection::AssignAdvice` (witness_collection.h:53-63). -/
def assignAdvice (usable phase : Nat) (t : List (List F)) (a : Advice F) : Option (List (List F)) :=
  if phase < a.phase then some t
  else if a.row < usable then put t (a.column, a.row) a.value else none

/-- The calls of a circuit. -/
def assignAdvices (usable phase : Nat) : List (Advice F) → List (List F) → Option (List (List F))
  | [], t => some t
  | a :: as, t => (assignAdvice usable phase t a).bind fun t => assignAdvices usable phase as t

/-- What the prover tells the transcript: the commitment of a column of a circuit, or that it asks for a challenge. -/
inductive Item (F : Type)
  | commit (circuit column : Nat) (values : List F)
  | squeeze (challenge : Nat)

/-- `challenges_` (synthesizer.h:169), which are unknown before their phase. -/
abbrev Known (F : Type) := Nat → Option F

/-- The members of `Synthesizer` (synthesizer.h:165-171) and the transcript. -/
structure Synth (F : Type) where
  columns : List (List (Option (List F)))
  challenges : Known F
  log : List (Item F)

/-- Lines 70-87 of `GenerateAdviceColumns` (synthesizer.h:70-87) for the columns `js`; the last row is one. The order within a batch
is that of the indices. -/
def takeColumns (n i phase : Nat) (phases : List Nat) (t : List (List F)) : List Nat → Synth F → Option (Synth F)
  | [], s => some s
  | j :: js, s => (phases[j]?).bind fun ph =>
    if phase ≠ ph then takeColumns n i phase phases t js s
    else (t[j]?).bind fun col =>
      if n - 1 < col.length ∧ 0 < n then
        let col := col.set (n - 1) 1
        (put s.columns (i, j) (some col)).bind fun cs =>
          takeColumns n i phase phases t js { s with columns := cs, log := s.log ++ [Item.commit i j col] }
      else none

/-- The loop over the circuits (synthesizer.h:61-88). A circuit is a function of the challenges it can query. -/
def synthCircuits (n usable phase : Nat) (phases : List Nat) : List (Known F → List (Advice F)) → Nat → Synth F →
    Option (Synth F)
  | [], _, s => some s
  | c :: cs, i, s =>
    (assignAdvices usable phase (c s.challenges) (List.replicate phases.length (List.replicate n 0))).bind fun t =>
      (takeColumns n i phase phases t (List.range t.length) s).bind fun s => synthCircuits n usable phase phases cs (i + 1) s

/-- `UpdateChallenges` (synthesizer.h:150-163) from an index on; `squeeze` is the transcript, a function of what it was told. -/
def updateChallenges (squeeze : List (Item F) → F) (phase : Nat) : List Nat → Nat → Synth F → Option (Synth F)
  | [], _, s => some s
  | ph :: l, k, s =>
    if phase = ph then
      if (s.challenges k).isSome then none
      else
        updateChallenges squeeze phase l (k + 1)
          { s with challenges := fun k' => if k' = k then some (squeeze s.log) else s.challenges k',
                   log := s.log ++ [Item.squeeze k] }
    else updateChallenges squeeze phase l (k + 1) s

/-- The loop of `GenerateAdviceColumns` (synthesizer.h:52-93) over some phases. -/
def synthPhases (squeeze : List (Item F) → F) (n usable : Nat) (phases challengePhases : List Nat)
    (circuits : List (Known F → List (Advice F))) : List Nat → Synth F → Option (Synth F)
  | [], s => some s
  | p :: ps, s => (synthCircuits n usable p phases circuits 0 s).bind fun s =>
    (updateChallenges squeeze p challengePhases 0 s).bind fun s => synthPhases squeeze n usable phases challengePhases circuits ps s

/-- `GetPhases` (constraint_system.h:641-653). -/
def getPhases (phases : List Nat) : List Nat := List.range (phases.foldl max 0 + 1)

/-- `GenerateAdviceColumns` (synthesizer.h:40-94) with the constructor (synthesizer.h:26-35); `log` is what the transcript was told
before. -/
def generateAdvice (squeeze : List (Item F) → F) (n usable : Nat) (phases challengePhases : List Nat)
    (circuits : List (Known F → List (Advice F))) (log : List (Item F)) : Option (Synth F) :=
  synthPhases squeeze n usable phases challengePhases circuits (getPhases phases)
    ⟨List.replicate circuits.length (List.replicate phases.length none), fun _ => none, log⟩

/-- `ExportChallenges` (synthesizer.h:97-102) and `TakeChallenges` (synthesizer.h:105-110): the challenges that are known, by index. -/
def exportChallenges (challengePhases : List Nat) (s : Synth F) : List F := (List.range challengePhases.length).filterMap s.challenges

end
end Tachyon.Keygen
