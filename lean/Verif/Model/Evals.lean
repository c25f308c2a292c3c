import Verif.Model.FFT
/-! Polynomials in evaluation form: `math/polynomials/univariate/univariate_evaluations.h`,
`univariate_evaluations_ops.h`. The iterations of the parallel loops work on elements of their own, so the
loops are maps. The `CHECK` of `MaxDegree` in the constructor is not modelled. -/
universe u
namespace Tachyon.Evals
open Tachyon.Group Tachyon.Poly

variable {F : Type u} [Field F] [DecidableEq F]

/-- `IsZero` (univariate_evaluations.h:103-107). -/
def isZero (a : List F) : Bool := if a.isEmpty then true else a.all fun x => x = 0

/-- `IsOne` (univariate_evaluations.h:109-113). -/
def isOne (a : List F) : Bool := if a.isEmpty then false else a.all fun x => x = 1

/-- `operator==` (univariate_evaluations.h:115-123). -/
def eq (a b : List F) : Bool :=
  if a.isEmpty then isZero b else if b.isEmpty then isZero a else a = b

/-- `One(degree)` (univariate_evaluations.h:74-78). -/
def one (degree : Nat) : List F := List.replicate (degree + 1) 1

/-- `Degree` (univariate_evaluations.h:96-99). -/
def degree (a : List F) : Nat := if a.isEmpty then 0 else a.length - 1

/-- `operator[]` (univariate_evaluations.h:142-147). -/
def get (a : List F) (i : Nat) : F := if i < a.length then a.getD i 0 else 0

/-- `Negate` (univariate_evaluations_ops.h:100-110). -/
def negate (a : List F) : List F := if a.isEmpty then a else a.map fun x => -x

/-- `NegateInPlace` (univariate_evaluations_ops.h:112-123). -/
def negateInPlace (a : List F) : List F := if a.isEmpty then a else a.map fun x => -x

/-- `Add` (univariate_evaluations_ops.h:26-43). -/
def add (a b : List F) : Option (List F) :=
  if a.isEmpty then some b
  else if b.isEmpty then some a
  else if a.length ≠ b.length then none
  else some (List.zipWith (fun x y => x + y) a b)

/-- `AddInPlace` (univariate_evaluations_ops.h:45-61). -/
def addInPlace (a b : List F) : Option (List F) :=
  if a.isEmpty then some b
  else if b.isEmpty then some a
  else if a.length ≠ b.length then none
  else some (a.mapIdx fun i x => x + b.getD i 0)

/-- `Sub` (univariate_evaluations_ops.h:63-80). -/
def sub (a b : List F) : Option (List F) :=
  if a.isEmpty then some (negate b)
  else if b.isEmpty then some a
  else if a.length ≠ b.length then none
  else some (List.zipWith (fun x y => x - y) a b)

/-- `SubInPlace` (univariate_evaluations_ops.h:82-98). -/
def subInPlace (a b : List F) : Option (List F) :=
  if a.isEmpty then some (negate b)
  else if b.isEmpty then some a
  else if a.length ≠ b.length then none
  else some (a.mapIdx fun i x => x - b.getD i 0)

/-- `Mul` (univariate_evaluations_ops.h:125-138). -/
def mul (a b : List F) : Option (List F) :=
  if a.isEmpty || b.isEmpty then some []
  else if a.length ≠ b.length then none
  else some (List.zipWith (fun x y => x * y) a b)

/-- `MulInPlace` (univariate_evaluations_ops.h:140-157). -/
def mulInPlace (a b : List F) : Option (List F) :=
  if a.isEmpty then some a
  else if b.isEmpty then some []
  else if a.length ≠ b.length then none
  else some (a.mapIdx fun i x => x * b.getD i 0)

/-- `Mul` by a scalar (univariate_evaluations_ops.h:159-174). -/
def mulScalar (a : List F) (s : F) : List F :=
  if a.isEmpty || s = 0 then []
  else if s = 1 then a
  else a.map fun x => x * s

/-- `MulInPlace` by a scalar (univariate_evaluations_ops.h:176-186). -/
def mulScalarInPlace (a : List F) (s : F) : List F :=
  if a.isEmpty || s = 1 then a else a.map fun x => x * s

/-- `l / r` in the field. -/
def div? (x y : F) : Option F := (inv? y).map fun i => x * i

/-- `Div` (univariate_evaluations_ops.h:188-221); `none` is `std::nullopt`. -/
def div (a b : List F) : Option (List F) :=
  if b.isEmpty then none
  else if a.isEmpty then some a
  else if a.length ≠ b.length then none
  else (List.zip a b).mapM fun p => div? p.1 p.2

/-- `DivInPlace` (univariate_evaluations_ops.h:223-251): whether it returns a pointer, and the new value of
`self`. -/
def divInPlace (a b : List F) : Bool × List F :=
  if b.isEmpty then (false, a)
  else if a.isEmpty then (true, a)
  else if a.length ≠ b.length then (false, a)
  else ((List.zip a b).all fun p => (div? p.1 p.2).isSome,
    (List.zip a b).map fun p => (div? p.1 p.2).getD p.1)

/-- `Div` by a scalar (univariate_evaluations_ops.h:253-258). -/
def divScalar (a : List F) (s : F) : Option (List F) := (inv? s).map (mulScalar a)

/-- `DivInPlace` by a scalar (univariate_evaluations_ops.h:260-266). -/
def divScalarInPlace (a : List F) (s : F) : Option (List F) := (inv? s).map (mulScalarInPlace a)

/-- The values that `AbslHashValue` (univariate_evaluations.h:270-284) combines, in order. -/
def hashInput (maxDegree : Nat) (a : List F) : List F :=
  a ++ List.replicate (maxDegree + 1 - a.length) 0

end Tachyon.Evals
