import Verif.Model.Group
/-! `RationalField`: `math/base/rational_field.h`. -/
universe u
namespace Tachyon.Rational
open Tachyon.Group Tachyon.Parallel

/-- The members (rational_field.h:198-200). -/
structure Rat (F : Type u) where
  num : F
  den : F
  deriving DecidableEq

variable {F : Type u} [Field F] [DecidableEq F]

/-- The constructor from a numerator (rational_field.h:23-26, 200). -/
def ofNum (x : F) : Rat F := ⟨x, 1⟩

/-- `Zero` (rational_field.h:33). -/
def zero : Rat F := ofNum 0

/-- `One` (rational_field.h:35). -/
def one : Rat F := ofNum 1

/-- `MinusOne` (rational_field.h:37-39). -/
def minusOne : Rat F := ofNum (-1)

/-- `IsZero` (rational_field.h:81). -/
def isZero (a : Rat F) : Bool := decide (a.num = 0)

/-- `IsOne` (rational_field.h:83-85). -/
def isOne (a : Rat F) : Bool := decide (a.num = 1) || decide (a.num = a.den)

/-- `IsMinusOne` (rational_field.h:87-89). -/
def isMinusOne (a : Rat F) : Bool := decide (a.num = -1) || decide (a.num + a.den = 0)

/-- `operator==` (rational_field.h:96-98). -/
def eq (a b : Rat F) : Bool := decide (a.num * b.den = b.num * a.den)

/-- `operator<` (rational_field.h:102-104); `canon` is the integer that the field compares by. -/
def lt (canon : F → Nat) (a b : Rat F) : Bool := decide (canon (a.num * b.den) < canon (b.num * a.den))

/-- `Evaluate` (rational_field.h:115): `unwrap` of nothing ends the program. -/
def evaluate (a : Rat F) : Option F := (inv? a.den).map fun d => a.num * d

/-- `Add` (rational_field.h:118-121). -/
def add (a b : Rat F) : Rat F := ⟨a.num * b.den + b.num * a.den, a.den * b.den⟩

/-- `AddInPlace` (rational_field.h:123-128): the denominator changes after the numerator. -/
def addInPlace (a b : Rat F) : Rat F :=
  let a := { a with num := a.num * b.den + b.num * a.den }
  { a with den := a.den * b.den }

/-- `DoubleImpl` (rational_field.h:130-137). -/
def double (a : Rat F) : Rat F := ⟨a.num + a.num, a.den⟩

/-- `Sub` (rational_field.h:140-143). -/
def sub (a b : Rat F) : Rat F := ⟨a.num * b.den - b.num * a.den, a.den * b.den⟩

/-- `SubInPlace` (rational_field.h:145-150). -/
def subInPlace (a b : Rat F) : Rat F :=
  let a := { a with num := a.num * b.den - b.num * a.den }
  { a with den := a.den * b.den }

/-- `Negate` (rational_field.h:152-157). -/
def neg (a : Rat F) : Rat F := ⟨-a.num, a.den⟩

/-- `Mul` (rational_field.h:160-168). -/
def mul (a b : Rat F) : Rat F := ⟨a.num * b.num, a.den * b.den⟩

/-- `SquareImpl` (rational_field.h:170-178). -/
def square (a : Rat F) : Rat F := ⟨a.num * a.num, a.den * a.den⟩

/-- `Inverse` (rational_field.h:181-196). -/
def inverse (a : Rat F) : Option (Rat F) := if isZero a then none else some ⟨a.den, a.num⟩

/-- The callback of `BatchEvaluate` (rational_field.h:66-73). -/
def batchChunk (rs : List (Rat F)) : Option (List F) :=
  (batchInverseSerial (rs.map Rat.den) rs.length 1).map fun ds => List.zipWith (fun d r => d * r.num) ds rs

/-- The chunks (rational_field.h:63-74). -/
def batchChunked (cs : Nat) (rs : List (Rat F)) : Option (List F) :=
  ((invocations rs.length cs).mapM fun c => batchChunk (chunkOf rs cs c)).map List.flatten

/-- `BatchEvaluate` (rational_field.h:51-76): `none` in the result is `false`; `coeff` is not used. -/
def batchEvaluate (threads : Nat) (rs : List (Rat F)) (outLen : Nat) (_coeff : F) : Option (List F) :=
  if rs.length ≠ outLen then none else batchChunked (numElementsPerThread threads outLen none) rs

end Tachyon.Rational
