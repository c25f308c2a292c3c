import Mathlib.Algebra.Field.Defs
/-! Constraint systems of AIR: `zk/air/constraint_system/{constraint_system,variable}.h` and `zk/air/expressions`. A matrix is its size and its
entries. `none` is a failed `CHECK` or an access out of bounds. The members of the evaluator are arguments. -/
namespace Tachyon.Air

variable {F : Type} [Field F] [DecidableEq F]

/-- `Variable::Type` (variable.h:15-21). -/
inductive VarType
  | preprocessed
  | main
  | public_
  | permutation
  | challenge
  deriving DecidableEq

/-- The expressions that `AirEvaluator::Evaluate` knows (air_evaluator.h:24-89); `other` are those of plonk. -/
inductive Expr (F : Type)
  | constant (c : F)
  | sum (l r : Expr F)
  | product (l r : Expr F)
  | negated (e : Expr F)
  | scaled (e : Expr F) (s : F)
  | firstRow (e : Expr F)
  | lastRow (e : Expr F)
  | transition (e : Expr F)
  | variable_ (t : VarType) (row col : ℕ)
  | other

/-- `Degree` of a variable (variable.h:61-73). -/
def VarType.degree : VarType → ℕ
  | .preprocessed => 1
  | .main => 1
  | .public_ => 1
  | .permutation => 0
  | .challenge => 0

/-- `Degree` (constant_expression.h:31, sum_expression.h:40-42, product_expression.h:37, negated_expression.h:34, scaled_expression.h:35,
first_row_expression.h:29, last_row_expression.h:29, transition_expression.h:29, variable_expression.h:29). -/
def Expr.degree : Expr F → ℕ
  | .constant _ => 0
  | .sum l r => max l.degree r.degree
  | .product l r => l.degree + r.degree
  | .negated e => e.degree
  | .scaled e _ => e.degree
  | .firstRow e => e.degree
  | .lastRow e => e.degree
  | .transition e => e.degree
  | .variable_ t _ _ => t.degree
  | .other => 0

/-- A matrix. -/
structure Matrix (F : Type) where
  rows : ℕ
  cols : ℕ
  entry : ℕ → ℕ → F

/-- `coeff` of a window of two rows from row `i` on. -/
def Matrix.window (m : Matrix F) (i row col : ℕ) : Option F := if row < 2 ∧ col < m.cols then some (m.entry (i + row) col) else none

/-- `Evaluate` (air_evaluator.h:23-92) in the window from row `i` on; `NOTIMPLEMENTED` (base/logging.h:113) only writes to the log. -/
def Expr.evaluate (pub : List F) (main : Matrix F) (pre : Option (Matrix F)) (i : ℕ) : Expr F → Option F
  | .constant c => some c
  | .sum l r => (l.evaluate pub main pre i).bind fun a => (r.evaluate pub main pre i).map fun b => a + b
  | .product l r => (l.evaluate pub main pre i).bind fun a => (r.evaluate pub main pre i).map fun b => a * b
  | .negated e => (e.evaluate pub main pre i).map fun a => -a
  | .scaled e s => (e.evaluate pub main pre i).map fun a => a * s
  | .firstRow e => if i = 0 then e.evaluate pub main pre i else some 0
  | .lastRow e => if i + 2 = main.rows then e.evaluate pub main pre i else some 0
  | .transition e => e.evaluate pub main pre i
  | .variable_ .public_ row _ => pub[row]?
  | .variable_ .main row col => main.window i row col
  | .variable_ .preprocessed row col => pre.bind fun p => p.window i row col
  | .variable_ .permutation _ _ => some 0
  | .variable_ .challenge _ _ => some 0
  | .other => none

/-- The members (constraint_system.h:86-90). -/
structure System (F : Type) where
  numPublic : ℕ
  mainWidth : ℕ
  preWidth : ℕ
  constraints : List (Expr F)

/-- The constructor (constraint_system.h:23-28). -/
def System.new (numPublic mainWidth preWidth : ℕ) : System F := ⟨numPublic, mainWidth, preWidth, []⟩

/-- `EnforceConstraint` (constraint_system.h:42-44). -/
def System.enforce (s : System F) (e : Expr F) : System F := { s with constraints := s.constraints ++ [e] }

/-- `EnforceFirstRowConstraint` (constraint_system.h:30-32). -/
def System.enforceFirstRow (s : System F) (e : Expr F) : System F := s.enforce (.firstRow e)

/-- `EnforceLastRowConstraint` (constraint_system.h:34-36). -/
def System.enforceLastRow (s : System F) (e : Expr F) : System F := s.enforce (.lastRow e)

/-- `EnforceTransitionConstraint` (constraint_system.h:38-40). -/
def System.enforceTransition (s : System F) (e : Expr F) : System F := s.enforce (.transition e)

/-- The loop over the constraints in one window (constraint_system.h:76-80). -/
def checkAll (value : Expr F → Option F) : List (Expr F) → Option Bool
  | [] => some true
  | c :: cs => (value c).bind fun v => if v ≠ 0 then some false else checkAll value cs

/-- The loop over `n` windows from window `i` on (constraint_system.h:63-81). -/
def checkWindows (s : System F) (pub : List F) (main : Matrix F) (pre : Option (Matrix F)) : ℕ → ℕ → Option Bool
  | 0, _ => some true
  | n + 1, i => (checkAll (Expr.evaluate pub main pre i) s.constraints).bind fun ok =>
      if ok then checkWindows s pub main pre n (i + 1) else some false

/-- The checks at the start of `IsSatisfied` (constraint_system.h:50-58). -/
def System.accepts (s : System F) (pub : List F) (main : Matrix F) (pre : Option (Matrix F)) : Bool :=
  pub.length = s.numPublic && main.cols = s.mainWidth && 1 ≤ main.rows &&
    match pre with
    | some p => p.cols = s.preWidth && p.rows = main.rows
    | none => s.preWidth = 0

/-- `IsSatisfied` (constraint_system.h:46-83). -/
def System.isSatisfied (s : System F) (pub : List F) (main : Matrix F) (pre : Option (Matrix F)) : Option Bool :=
  if !s.accepts pub main pre then none else checkWindows s pub main pre (main.rows - 1) 0

end Tachyon.Air
