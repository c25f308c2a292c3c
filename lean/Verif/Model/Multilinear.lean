import Verif.Model.Evals
/-! Multilinear polynomials given by their values on the hypercube:
`math/polynomials/multivariate/multilinear_dense_evaluations.h`; `multilinear_extension.h` only forwards. The
arithmetic of `multilinear_extension_ops.h` repeats that of `univariate_evaluations_ops.h` line by line. The
`CHECK` of `MaxDegree` in the constructor is not modelled. -/
universe u
namespace Tachyon.Multilinear
open Tachyon.FFT

variable {F : Type u} [Field F] [DecidableEq F]

/-- `Degree` (multilinear_dense_evaluations.h:109-111). -/
def degree (e : List F) : Nat := (Bits.safeLog2Ceiling (BitVec.ofNat 64 e.length)).toNat

/-- `One(degree)` (multilinear_dense_evaluations.h:56-59). -/
def one (degree : Nat) : List F := List.replicate (2 ^ degree) 1

/-- `operator[]` (multilinear_dense_evaluations.h:90-95). -/
def get (e : List F) (i : Nat) : F := if i < e.length then e.getD i 0 else 0

/-- `IsZero` (multilinear_dense_evaluations.h:97-101). -/
def isZero (e : List F) : Bool := if e.isEmpty then true else e.all fun x => x = 0

/-- `IsOne` (multilinear_dense_evaluations.h:103-107). -/
def isOne (e : List F) : Bool := if e.isEmpty then false else e.all fun x => x = 1

/-- `operator==` (multilinear_dense_evaluations.h:69-77). -/
def eq (a b : List F) : Bool :=
  if a.isEmpty then isZero b else if b.isEmpty then isZero a else a = b

/-- An iteration of the inner loop of `RunFixVariables` (multilinear_dense_evaluations.h:188-190); `none`
is a read out of bounds. -/
def foldStep (r : F) (e : List F) (b : Nat) : Option (List F) :=
  match e[2 * b]?, e[2 * b + 1]? with
  | some left, some right => some (e.set b (left + r * (right - left)))
  | _, _ => none

/-- The inner loop (multilinear_dense_evaluations.h:187-191). -/
def foldVar (r : F) (count : Nat) (e : List F) : Option (List F) :=
  (List.range count).foldlM (foldStep r) e

/-- The outer loop (multilinear_dense_evaluations.h:185-192) from `i` on. -/
def fixGo (n : Nat) : Nat → List F → List F → Option (List F)
  | _, [], e => some e
  | i, r :: point, e =>
    match foldVar r (2 ^ (n - i)) e with
    | some e => fixGo n (i + 1) point e
    | none => none

/-- `FixVariables`, `FixVariablesInPlace` with `RunFixVariables` (multilinear_dense_evaluations.h:113-122,
163-194); `none` is the failing `CHECK` or a read out of bounds. -/
def fixVariables (e point : List F) : Option (List F) :=
  if point.length ≤ degree e then
    (fixGo (degree e) 1 point e).map (resizeZero (2 ^ (degree e - point.length)))
  else none

/-- `Evaluate` (multilinear_dense_evaluations.h:134-143). -/
def evaluate (e point : List F) : Option F :=
  if point.length ≠ degree e then none
  else
    match fixVariables e point with
    | some fixed => if isZero fixed then some 0 else fixed[0]?
    | none => none

/-- `Add` and `AddInPlace` (multilinear_extension_ops.h:20-58), see `Evals.add`. -/
def add (a b : List F) : Option (List F) :=
  if a.isEmpty then some b
  else if b.isEmpty then some a
  else if a.length ≠ b.length then none
  else some (List.zipWith (fun x y => x + y) a b)

/-- `Negate` and `NegateInPlace` (multilinear_extension_ops.h:99-122). -/
def negate (a : List F) : List F := if a.isEmpty then a else a.map fun x => -x

/-- `Sub` and `SubInPlace` (multilinear_extension_ops.h:60-97). -/
def sub (a b : List F) : Option (List F) :=
  if a.isEmpty then some (negate b)
  else if b.isEmpty then some a
  else if a.length ≠ b.length then none
  else some (List.zipWith (fun x y => x - y) a b)

/-- `Mul` and `MulInPlace` (multilinear_extension_ops.h:124-158): the product of the values, which is the
multilinear polynomial with these values on the hypercube. -/
def mul (a b : List F) : Option (List F) :=
  if a.isEmpty || b.isEmpty then some []
  else if a.length ≠ b.length then none
  else some (List.zipWith (fun x y => x * y) a b)

/-- `Div` (multilinear_extension_ops.h:160-194). -/
def div (a b : List F) : Option (List F) :=
  if b.isEmpty then none
  else if a.isEmpty then some a
  else if a.length ≠ b.length then none
  else (List.zip a b).mapM fun p => Evals.div? p.1 p.2

/-- The values that `AbslHashValue` (multilinear_dense_evaluations.h:199-213) combines, in order. -/
def hashInput (maxDegree : Nat) (a : List F) : List F :=
  a ++ List.replicate (2 ^ maxDegree - a.length) 0

end Tachyon.Multilinear
