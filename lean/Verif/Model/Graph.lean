import Mathlib.Algebra.Field.Basic
import Verif.Model.Parallel
/-! Expressions of plonk constraints, their evaluators and the graph evaluator: `zk/expressions/*_expression.h`,
`zk/plonk/expressions/{proving_evaluator,verifying_evaluator}.h`, `zk/base/rotation.h`,
`zk/plonk/vanishing/{value_source,calculation,graph_evaluator,evaluation_input,custom_gate_evaluator}.h`.

The nodes of expressions are values of an inductive type instead of pointers to objects of virtual classes; the
expressions for AIR are left out, because all the functions below end in `NOTREACHED()` for them. -/
universe u
namespace Tachyon.Plonk

/-- `Query` (zk/plonk/constraint_system/query.h:50-75): a column and a rotation, and the position in the list of queries. -/
structure Query where
  index : Option Nat
  rotation : Int
  column : Nat
  deriving DecidableEq

/-- `Expression` (zk/expressions/expression.h:72-154 and the derived classes). -/
inductive Expr (F : Type u) where
  | constant (value : F)
  | selector (index : Nat)
  | fixed (query : Query)
  | advice (query : Query)
  | inst (query : Query)
  | challenge (index : Nat)
  | neg (e : Expr F)
  | sum (left right : Expr F)
  | prod (left right : Expr F)
  | scaled (e : Expr F) (scale : F)

/-- The range of `int32_t`. -/
def inInt32 (i : Int) : Bool := decide (-2 ^ 31 ≤ i) && decide (i < 2 ^ 31)

/-- `Rotation::GetIndex` (rotation.h:44-51); `CheckedNumeric` ends the program if a result is not an `int32_t`. -/
def getIndex (rotation : Int) (idx scale size : Int) : Option Nat :=
  if size ≤ 0 then none
  else if inInt32 (rotation * scale) && inInt32 (idx + rotation * scale) then
    let result := (idx + rotation * scale).tmod size
    some (if result < 0 then result + size else result).toNat
  else none

/-- `MultiPhaseRefTable` (zk/plonk/base/multi_phase_ref_table.h:10-25). -/
structure Table (F : Type u) where
  fixed : List (List F)
  advice : List (List F)
  inst : List (List F)
  challenges : List F

section
variable {F : Type u} [Field F]

/-- Reading a column of a span of columns: `operator[]` of evaluations gives zero outside of the range
(univariate_evaluations.h:142-147). -/
def cell (columns : List (List F)) (column row : Nat) : Option F := (columns[column]?).map fun c => c.getD row 0

/-- Reading the cell of a query (proving_evaluator.h:53-71). -/
def queryCell (columns : List (List F)) (q : Query) (idx scale size : Int) : Option F :=
  (getIndex q.rotation idx scale size).bind (cell columns q.column)

/-- `ProvingEvaluator::Evaluate` (proving_evaluator.h:46-98). -/
def evalProving (t : Table F) (idx scale size : Int) : Expr F → Option F
  | .constant v => some v
  | .selector _ => none
  | .fixed q => queryCell t.fixed q idx scale size
  | .advice q => queryCell t.advice q idx scale size
  | .inst q => queryCell t.inst q idx scale size
  | .challenge i => t.challenges[i]?
  | .neg e => (evalProving t idx scale size e).map fun v => -v
  | .sum a b => (evalProving t idx scale size a).bind fun v => (evalProving t idx scale size b).map fun w => v + w
  | .prod a b => (evalProving t idx scale size a).bind fun v => (evalProving t idx scale size b).map fun w => v * w
  | .scaled e s => (evalProving t idx scale size e).map fun v => v * s

/-- `MultiPhaseEvaluations` (zk/plonk/base/multi_phase_evaluations.h:8-24). -/
structure Evaluations (F : Type u) where
  fixed : List F
  advice : List F
  inst : List F
  challenges : List F

/-- Reading the evaluation of a query; `GetIndex` of a query without index ends the program. -/
def queryEval (evals : List F) (q : Query) : Option F := q.index.bind fun i => evals[i]?

/-- `VerifyingEvaluator::Evaluate` (verifying_evaluator.h:32-84). -/
def evalVerifying (d : Evaluations F) : Expr F → Option F
  | .constant v => some v
  | .selector _ => none
  | .fixed q => queryEval d.fixed q
  | .advice q => queryEval d.advice q
  | .inst q => queryEval d.inst q
  | .challenge i => d.challenges[i]?
  | .neg e => (evalVerifying d e).map fun v => -v
  | .sum a b => (evalVerifying d a).bind fun v => (evalVerifying d b).map fun w => v + w
  | .prod a b => (evalVerifying d a).bind fun v => (evalVerifying d b).map fun w => v * w
  | .scaled e s => (evalVerifying d e).map fun v => v * s

end

/-- `Expression::Degree` (the derived classes). -/
def degree {F : Type u} : Expr F → Nat
  | .constant _ => 0
  | .selector _ => 1
  | .fixed _ => 1
  | .advice _ => 1
  | .inst _ => 1
  | .challenge _ => 0
  | .neg e => degree e
  | .sum a b => max (degree a) (degree b)
  | .prod a b => degree a + degree b
  | .scaled e _ => degree e

/-- `ValueSource` (value_source.h:21-191). -/
inductive Source where
  | constant (index : Nat)
  | intermediate (index : Nat)
  | fixed (column rotation : Nat)
  | advice (column rotation : Nat)
  | inst (column rotation : Nat)
  | challenge (index : Nat)
  | beta
  | gamma
  | theta
  | y
  | previous
  deriving DecidableEq

/-- The number of the type (value_source.h:23-35). -/
def Source.type : Source → Nat
  | .constant _ => 0
  | .intermediate _ => 1
  | .fixed _ _ => 2
  | .advice _ _ => 3
  | .inst _ _ => 4
  | .challenge _ => 5
  | .beta => 6
  | .gamma => 7
  | .theta => 8
  | .y => 9
  | .previous => 10

/-- `operator<=` for two queries (value_source.h:119-122). -/
def queryLe (c r c' r' : Nat) : Bool := if c = c' then decide (r ≤ r') else decide (c < c')

/-- `operator<=` (value_source.h:109-134). -/
def Source.le : Source → Source → Bool
  | .constant i, .constant j => decide (i ≤ j)
  | .intermediate i, .intermediate j => decide (i ≤ j)
  | .challenge i, .challenge j => decide (i ≤ j)
  | .fixed c r, .fixed c' r' => queryLe c r c' r'
  | .advice c r, .advice c' r' => queryLe c r c' r'
  | .inst c r, .inst c' r' => queryLe c r c' r'
  | a, b => decide (a.type ≤ b.type)

/-- `Calculation` (calculation.h:23-63): the member functions make one of these; the optional members are the fields. -/
inductive Calc where
  | add (left right : Source)
  | sub (left right : Source)
  | mul (left right : Source)
  | square (value : Source)
  | double (value : Source)
  | negate (value : Source)
  | horner (init : Source) (parts : List Source) (factor : Source)
  | store (value : Source)
  deriving DecidableEq

/-- The members of `GraphEvaluator` (graph_evaluator.h:253-256). -/
structure Graph (F : Type u) where
  constants : List F
  rotations : List Int
  calcs : List (Calc × Nat)
  num : Nat

section
variable {F : Type u} [Field F] [DecidableEq F]

/-- A new `GraphEvaluator` (graph_evaluator.h:253-256). -/
def Graph.empty : Graph F := ⟨[0, 1, 2], [], [], 0⟩

/-- `AddCalculation` (graph_evaluator.h:216-228). -/
def Graph.addCalc (g : Graph F) (c : Calc) : Source × Graph F :=
  match g.calcs.find? (fun info => decide (info.1 = c)) with
  | some info => (.intermediate info.2, g)
  | none => (.intermediate g.num, { g with num := g.num + 1, calcs := g.calcs ++ [(c, g.num)] })

/-- `AddRotation` (graph_evaluator.h:236-244); the conversions to `size_t` keep different values apart. -/
def Graph.addRotation (g : Graph F) (rotation : Int) : Nat × Graph F :=
  match g.rotations.findIdx? (fun value => decide (value = rotation)) with
  | some i => (i, g)
  | none => (g.rotations.length, { g with rotations := g.rotations ++ [rotation] })

/-- `AddConstant` (graph_evaluator.h:246-251). -/
def Graph.addConstant (g : Graph F) (c : F) : Source × Graph F :=
  match g.constants.findIdx? (fun value => decide (value = c)) with
  | some i => (.constant i, g)
  | none => (.constant g.constants.length, { g with constants := g.constants ++ [c] })

/-- The case of a query (graph_evaluator.h:85-105). -/
def Graph.addQuery (g : Graph F) (source : Nat → Nat → Source) (q : Query) : Source × Graph F :=
  (g.addRotation q.rotation).2.addCalc (.store (source q.column (g.addRotation q.rotation).1))

/-- The sum of two sources (graph_evaluator.h:138-153). -/
def Graph.addSum (g : Graph F) (l r : Source) : Source × Graph F :=
  if l = .constant 0 then (r, g)
  else if r = .constant 0 then (l, g)
  else if l.le r then g.addCalc (.add l r)
  else g.addCalc (.add r l)

/-- The difference of two sources (graph_evaluator.h:129-135). -/
def Graph.addSub (g : Graph F) (l r : Source) : Source × Graph F :=
  if l = .constant 0 then g.addCalc (.negate r)
  else if r = .constant 0 then (l, g)
  else g.addCalc (.sub l r)

/-- The product of two sources (graph_evaluator.h:160-182). -/
def Graph.addMul (g : Graph F) (l r : Source) : Source × Graph F :=
  if l = .constant 0 ∨ r = .constant 0 then (.constant 0, g)
  else if l = .constant 1 then (r, g)
  else if r = .constant 1 then (l, g)
  else if l = .constant 2 then g.addCalc (.double r)
  else if r = .constant 2 then g.addCalc (.double l)
  else if l = r then g.addCalc (.square l)
  else if l.le r then g.addCalc (.mul l r)
  else g.addCalc (.mul r l)

/-- The negation of a source (graph_evaluator.h:118-121). -/
def Graph.addNeg (g : Graph F) (r : Source) : Source × Graph F :=
  if r = .constant 0 then (r, g) else g.addCalc (.negate r)

/-- `Evaluate` for an expression, which is `AddExpression` (graph_evaluator.h:79-207, 230-233). -/
def Graph.addExpr (g : Graph F) : Expr F → Option (Source × Graph F)
  | .constant v => some (g.addConstant v)
  | .selector _ => none
  | .fixed q => some (g.addQuery .fixed q)
  | .advice q => some (g.addQuery .advice q)
  | .inst q => some (g.addQuery .inst q)
  | .challenge i => some (g.addCalc (.store (.challenge i)))
  | .neg (.constant v) => some (g.addConstant (-v))
  | .neg e => (g.addExpr e).map fun p => p.2.addNeg p.1
  | .sum a (.neg b) => (g.addExpr a).bind fun p => (p.2.addExpr b).map fun q => q.2.addSub p.1 q.1
  | .sum a b => (g.addExpr a).bind fun p => (p.2.addExpr b).map fun q => q.2.addSum p.1 q.1
  | .prod a b => (g.addExpr a).bind fun p => (p.2.addExpr b).map fun q => q.2.addMul p.1 q.1
  | .scaled e s =>
    if s = 0 then some (.constant 0, g)
    else if s = 1 then g.addExpr e
    else ((g.addConstant s).2.addExpr e).map fun p => p.2.addCalc (.mul p.1 (g.addConstant s).1)

/-- The expressions of a list, one after the other (custom_gate_evaluator.h:31-39). -/
def Graph.addExprs (g : Graph F) : List (Expr F) → Option (List Source × Graph F)
  | [] => some ([], g)
  | e :: es => (g.addExpr e).bind fun p => (p.2.addExprs es).map fun q => (p.1 :: q.1, q.2)

/-- `CustomGateEvaluator::Construct` (custom_gate_evaluator.h:28-42). -/
def constructGates (gates : List (List (Expr F))) : Option (Graph F) :=
  ((Graph.empty : Graph F).addExprs gates.flatten).map fun p => (p.2.addCalc (.horner .previous p.1 .y)).2

/-- `compress` (lookup/halo2/evaluator.h:32-43, shuffle/evaluator.h:38-49). -/
def Graph.compress (g : Graph F) (es : List (Expr F)) : Option (Source × Graph F) :=
  (g.addExprs es).map fun p => p.2.addCalc (.horner (.constant 0) p.1 .theta)

/-- The graph of a lookup (lookup/halo2/evaluator.h:29-61). -/
def constructLookup (inputs table : List (Expr F)) : Option (Graph F) :=
  ((Graph.empty : Graph F).compress inputs).bind fun a => (a.2.compress table).map fun s =>
    let left := s.2.addCalc (.add a.1 .beta)
    let right := left.2.addCalc (.add s.1 .gamma)
    (right.2.addCalc (.mul left.1 right.1)).2

/-- A graph of a shuffle, for the inputs or for the shuffled columns (shuffle/evaluator.h:52-63), or of a lookup with
logarithmic derivatives with `β` in place of `γ` (lookup/log_derivative_halo2/evaluator.h:58-71). -/
def constructShift (shift : Source) (es : List (Expr F)) : Option (Graph F) :=
  ((Graph.empty : Graph F).compress es).map fun a => (a.2.addCalc (.add a.1 shift)).2

end

section
variable {F : Type u} [Field F]

/-- The challenges in `EvaluationInput` (evaluation_input.h:49-56). -/
structure Challenges (F : Type u) where
  theta : F
  beta : F
  gamma : F
  y : F

/-- `ValueSource::Get` (value_source.h:136-171). -/
def Source.get (t : Table F) (ch : Challenges F) (constants : List F) (rotations : List Nat) (previous : F)
    (intermediates : List F) : Source → Option F
  | .constant i => constants[i]?
  | .intermediate i => intermediates[i]?
  | .challenge i => t.challenges[i]?
  | .fixed c r => (rotations[r]?).bind (cell t.fixed c)
  | .advice c r => (rotations[r]?).bind (cell t.advice c)
  | .inst c r => (rotations[r]?).bind (cell t.inst c)
  | .beta => some ch.beta
  | .gamma => some ch.gamma
  | .theta => some ch.theta
  | .y => some ch.y
  | .previous => some previous

/-- The loop over the parts (calculation.h:96-99). -/
def hornerLoop (get : Source → Option F) (factor : F) : List Source → F → Option F
  | [], value => some value
  | p :: ps, value => (get p).bind fun v => hornerLoop get factor ps (value * factor + v)

/-- `Calculation::Evaluate` (calculation.h:71-105). -/
def Calc.eval (get : Source → Option F) : Calc → Option F
  | .add l r => (get l).bind fun v => (get r).map fun w => v + w
  | .sub l r => (get l).bind fun v => (get r).map fun w => v - w
  | .mul l r => (get l).bind fun v => (get r).map fun w => v * w
  | .square v => (get v).map fun v => v ^ 2
  | .double v => (get v).map fun v => v + v
  | .negate v => (get v).map fun v => -v
  | .store v => get v
  | .horner init parts factor =>
    (get factor).bind fun f => (get init).bind fun i => hornerLoop get f parts i

/-- The loop over the calculations (graph_evaluator.h:69-72). -/
def runCalcs (get : List F → Source → Option F) : List (Calc × Nat) → List F → Option (List F)
  | [], intermediates => some intermediates
  | (c, target) :: cs, intermediates =>
    (c.eval (get intermediates)).bind fun v =>
      if target < intermediates.length then runCalcs get cs (intermediates.set target v) else none

/-- `GraphEvaluator::Evaluate` for a row (graph_evaluator.h:61-76): the value and the intermediates, which the next row
finds. -/
def Graph.evaluate (g : Graph F) (t : Table F) (ch : Challenges F) (n : Int) (intermediates : List F) (idx scale : Int)
    (previous : F) : Option (F × List F) :=
  (g.rotations.mapM fun r => getIndex r idx scale n).bind fun rotations =>
    (runCalcs (fun ims => Source.get t ch g.constants rotations previous ims) g.calcs intermediates).bind fun ims =>
      match g.calcs.getLast? with
      | none => some (0, ims)
      | some info => (ims[info.2]?).map fun v => (v, ims)

/-- The loop over the rows of a chunk with one evaluator (custom_gate_evaluator.h:49-56). -/
def Graph.rows (g : Graph F) (t : Table F) (ch : Challenges F) (n : Int) :
    List F → List (Int × F) → Option (List F)
  | _, [] => some []
  | ims, (idx, previous) :: rest =>
    (g.evaluate t ch n ims idx 1 previous).bind fun p => (g.rows t ch n p.2 rest).map fun vs => p.1 :: vs

/-- `CustomGateEvaluator::Evaluate` for a chunk that starts in row `start` (custom_gate_evaluator.h:44-57). -/
def Graph.chunk (g : Graph F) (t : Table F) (ch : Challenges F) (n : Int) (start : Nat) (chunk : List F) :
    Option (List F) :=
  g.rows t ch n (List.replicate g.num 0) (chunk.mapIdx fun i v => (((start + i : Nat) : Int), v))

end
end Tachyon.Plonk
