import Mathlib.Data.List.Basic
/-! How a constraint system of plonk is built: the columns, selectors, challenges and queries of
`zk/plonk/constraint_system/constraint_system.h`, with `zk/plonk/base/{column_key,phase}.h` and `zk/plonk/permutation/permutation_argument.h`.
Gates, lookups and shuffles add to it only through the queries; their expressions and degrees are in C70 and C88. Numbers of columns and queries
do not overflow. `none` is a failed `CHECK` or an access out of bounds. -/
namespace Tachyon.Config

/-- `AnyColumnKey` (column_key.h:24-48, 61-200) of a known type: index and, for an advice column, phase; they are equal if these are
(column_key.h:152-159). -/
inductive Column
  | instance_ (index : ℕ)
  | advice (index phase : ℕ)
  | fixed (index : ℕ)
  deriving DecidableEq

/-- The members (constraint_system.h:893-949) without gates, lookups, shuffles and annotations. A query is a column and a rotation. -/
structure State where
  numFixed : ℕ
  numInstance : ℕ
  numSimple : ℕ
  numComplex : ℕ
  advicePhases : List ℕ
  challengePhases : List ℕ
  adviceQueries : List ((ℕ × ℕ) × Int)
  numAdviceQueries : List ℕ
  instanceQueries : List (ℕ × Int)
  fixedQueries : List (ℕ × Int)
  permutation : List Column
  constants : List ℕ
  minimumDegree : Option ℕ
  cachedBlinding : Option ℕ
  deriving DecidableEq

/-- The initial values (constraint_system.h:893-949). -/
def State.new : State := ⟨0, 0, 0, 0, [], [], [], [], [], [], [], [], none, none⟩

/-- `set_minimum_degree` (constraint_system.h:145-151). -/
def State.setMinimumDegree (s : State) (degree : ℕ) : State := { s with minimumDegree := some ((s.minimumDegree.map fun m => max m degree).getD degree) }

/-- `CreateSimpleSelector` (constraint_system.h:571-573): its index. -/
def State.createSimple (s : State) : ℕ × State := (s.numSimple + s.numComplex, { s with numSimple := s.numSimple + 1 })

/-- `CreateComplexSelector` (constraint_system.h:577-579). -/
def State.createComplex (s : State) : ℕ × State := (s.numSimple + s.numComplex, { s with numComplex := s.numComplex + 1 })

/-- `CreateFixedColumn` (constraint_system.h:605-607). -/
def State.createFixed (s : State) : ℕ × State := (s.numFixed, { s with numFixed := s.numFixed + 1 })

/-- `CreateInstanceColumn` (constraint_system.h:629-631). -/
def State.createInstance (s : State) : ℕ × State := (s.numInstance, { s with numInstance := s.numInstance + 1 })

/-- `CreateAdviceColumn` (constraint_system.h:615-626). -/
def State.createAdvice (s : State) (phase : ℕ) : Option ((ℕ × ℕ) × State) :=
  if phase ≠ 0 ∧ ¬(phase - 1) ∈ s.advicePhases then none
  else some ((s.advicePhases.length, phase),
    { s with numAdviceQueries := s.numAdviceQueries ++ [0], advicePhases := s.advicePhases ++ [phase] })

/-- `CreateChallengeUsableAfter` (constraint_system.h:633-639): index and phase. -/
def State.createChallenge (s : State) (phase : ℕ) : Option ((ℕ × ℕ) × State) :=
  if phase ∈ s.advicePhases then some ((s.challengePhases.length, phase), { s with challengePhases := s.challengePhases ++ [phase] }) else none

/-- `QueryFixedIndex` (constraint_system.h:367-375) with `QueryIndex` (constraint_system.h:809-819). -/
def State.queryFixed (s : State) (column : ℕ) (rot : Int) : ℕ × State :=
  match s.fixedQueries.findIdx? (· = (column, rot)) with
  | some i => (i, s)
  | none => (s.fixedQueries.length, { s with fixedQueries := s.fixedQueries ++ [(column, rot)] })

/-- `QueryInstanceIndex` (constraint_system.h:388-396). -/
def State.queryInstance (s : State) (column : ℕ) (rot : Int) : ℕ × State :=
  match s.instanceQueries.findIdx? (· = (column, rot)) with
  | some i => (i, s)
  | none => (s.instanceQueries.length, { s with instanceQueries := s.instanceQueries ++ [(column, rot)] })

/-- `QueryAdviceIndex` (constraint_system.h:377-386). -/
def State.queryAdvice (s : State) (column : ℕ × ℕ) (rot : Int) : Option (ℕ × State) :=
  match s.adviceQueries.findIdx? (· = (column, rot)) with
  | some i => some (i, s)
  | none =>
    match s.numAdviceQueries[column.1]? with
    | none => none
    | some n => some (s.adviceQueries.length,
        { s with adviceQueries := s.adviceQueries ++ [(column, rot)], numAdviceQueries := s.numAdviceQueries.set column.1 (n + 1) })

/-- `QueryAnyIndex` (constraint_system.h:398-411). -/
def State.queryAny (s : State) (column : Column) (rot : Int) : Option (ℕ × State) :=
  match column with
  | .fixed i => some (s.queryFixed i rot)
  | .advice i p => s.queryAdvice (i, p) rot
  | .instance_ i => some (s.queryInstance i rot)

/-- `EnableEquality` (constraint_system.h:168-171) with `AddColumn` (permutation_argument.h:29-32). -/
def State.enableEquality (s : State) (column : Column) : Option State :=
  (s.queryAny column 0).map fun r =>
    if column ∈ r.2.permutation then r.2 else { r.2 with permutation := r.2.permutation ++ [column] }

/-- `EnableConstant` (constraint_system.h:159-165). -/
def State.enableConstant (s : State) (column : ℕ) : Option State :=
  if column ∈ s.constants then some s else { s with constants := s.constants ++ [column] }.enableEquality (.fixed column)

/-- `ComputeMaxPhase` (constraint_system.h:641-646). -/
def State.maxPhase (s : State) : ℕ := s.advicePhases.foldl max 0

/-- `GetPhases` (constraint_system.h:648-653). -/
def State.phases (s : State) : List ℕ := List.range (s.maxPhase + 1)

/-- The largest element, or one (constraint_system.h:703-708). -/
def maxQueries (s : State) : ℕ := if s.numAdviceQueries = [] then 1 else s.numAdviceQueries.foldl max 0

/-- `ComputeBlindingFactors` (constraint_system.h:700-735). -/
def State.blindingFactors (s : State) : Option (ℕ × State) :=
  match s.cachedBlinding with
  | some b => some (b, s)
  | none =>
    let factors := max 3 (maxQueries s)
    if factors ≤ 2 ^ 32 - 1 - 2 then some (factors + 1 + 1, { s with cachedBlinding := some (factors + 1 + 1) }) else none

/-- `ComputeMinimumRows` (constraint_system.h:741-750). -/
def State.minimumRows (s : State) : Option (ℕ × State) := s.blindingFactors.map fun r => (r.1 + 1 + 1 + 1, r.2)

/-- What a circuit can do while it is configured. -/
inductive Action
  | createFixed
  | createInstance
  | createSimple
  | createComplex
  | createAdvice (phase : ℕ)
  | createChallenge (phase : ℕ)
  | query (column : Column) (rot : Int)
  | enableEquality (column : Column)
  | enableConstant (column : ℕ)
  | setMinimumDegree (degree : ℕ)
  | blindingFactors

/-- One action. -/
def State.step (s : State) : Action → Option State
  | .createFixed => some s.createFixed.2
  | .createInstance => some s.createInstance.2
  | .createSimple => some s.createSimple.2
  | .createComplex => some s.createComplex.2
  | .createAdvice p => (s.createAdvice p).map Prod.snd
  | .createChallenge p => (s.createChallenge p).map Prod.snd
  | .query c r => (s.queryAny c r).map Prod.snd
  | .enableEquality c => s.enableEquality c
  | .enableConstant c => s.enableConstant c
  | .setMinimumDegree d => some (s.setMinimumDegree d)
  | .blindingFactors => s.blindingFactors.map Prod.snd

/-- A configuration. -/
def State.run (s : State) : List Action → Option State
  | [] => some s
  | a :: as => (s.step a).bind fun t => t.run as

/-- `operator<` of columns (column_key.h:165-182) with the order of the types (column_type.h:22-27). -/
def Column.lt : Column → Column → Bool
  | .instance_ _, .instance_ _ => false
  | .fixed _, .fixed _ => false
  | .advice _ p, .advice _ q => p < q
  | .instance_ _, _ => true
  | .advice _ _, .fixed _ => true
  | _, _ => false

end Tachyon.Config
