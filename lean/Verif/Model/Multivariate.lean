import Verif.Model.Parallel
import Mathlib.Algebra.Field.Defs
/-! Multivariate polynomials in sparse form: `math/polynomials/multivariate/{multivariate_sparse_coefficients,multivariate_polynomial_ops}.h`.

`none` is a failed `CHECK`, an access out of bounds, the last element of an empty vector, or a value that is not initialised. Numbers are
natural numbers. `Pow` is a power, see `C19`. `ToString` and `Random` are left out, and so are `GetLeadingCoefficient` and the `at` that is
not `const`, which do not compile when they are used. -/
universe u
namespace Tachyon.Multivariate
open Tachyon.Parallel

/-- `Element` (multivariate_sparse_coefficients.h:36-59). -/
structure Elem where
  var : Nat
  exp : Nat
deriving DecidableEq

/-- `operator<` of `Element` (multivariate_sparse_coefficients.h:40-52). -/
def Elem.lt (a b : Elem) : Bool :=
  if a.exp ≠ 0 ∧ b.exp ≠ 0 then
    if a.var ≠ b.var then decide (a.var < b.var) else decide (a.exp < b.exp)
  else decide (a.exp < b.exp)

/-- `Literal` (multivariate_sparse_coefficients.h:61-135). -/
abbrev Lit := List Elem

/-- `operator<` of `Literal` (multivariate_sparse_coefficients.h:83-89). -/
def Lit.lt (a b : Lit) : Option Bool :=
  a.getLast?.bind fun x => b.getLast?.map fun y => if x = y then decide (a.length < b.length) else x.lt y

/-- `Degree` of `Literal` (multivariate_sparse_coefficients.h:99-104). -/
def Lit.degree (a : Lit) : Nat := (a.map Elem.exp).sum

/-- `operator==` of `Literal` (multivariate_sparse_coefficients.h:90-93). -/
def Lit.eq (a b : Lit) : Bool := (Lit.degree a = 0 ∧ Lit.degree b = 0) ∨ a = b

/-- `Term` (multivariate_sparse_coefficients.h:137-160). -/
structure Term (F : Type u) where
  literal : Lit
  coeff : F

/-- The members of `MultivariateSparseCoefficients` (multivariate_sparse_coefficients.h:349-350). The number of variables is `none` when it
is not initialised, as after `MultivariatePolynomial<S> ret;`. -/
structure Poly (F : Type u) where
  numVars : Option Nat
  terms : List (Term F)

variable {F : Type u} [Field F] [DecidableEq F]

/-- `EvaluateSerial` of `Literal` (multivariate_sparse_coefficients.h:127-134). -/
def evaluateElems (point : List F) (es : List Elem) : Option F :=
  es.foldlM (fun acc e => (point[e.var]?).map fun x => acc * x ^ e.exp) 1

/-- `Evaluate` of `Literal` (multivariate_sparse_coefficients.h:106-113). -/
def Lit.evaluate (threads : Nat) (point : List F) (a : Lit) : Option F :=
  ((parallelizeMap threads a fun _ _ chunk => evaluateElems point chunk).mapM id).map fun r => r.foldl (· * ·) 1

/-- `EvaluateSerial` (multivariate_sparse_coefficients.h:341-347). -/
def evaluateTerms (threads : Nat) (point : List F) (ts : List (Term F)) : Option F :=
  ts.foldlM (fun acc t => (Lit.evaluate threads point t.literal).map fun x => acc + t.coeff * x) 0

/-- `Evaluate` (multivariate_sparse_coefficients.h:270-281). -/
def Poly.evaluate (threads : Nat) (p : Poly F) (point : List F) : Option F :=
  p.numVars.bind fun n =>
    if n < point.length then none
    else if p.terms.isEmpty then some 0
    else ((parallelizeMap threads p.terms fun _ _ chunk => evaluateTerms threads point chunk).mapM id).map fun r => r.foldl (· + ·) 0

/-- `Degree` with `IsConstant` (multivariate_sparse_coefficients.h:219-221, 265-268). -/
def degree (ts : List (Term F)) : Option Nat :=
  match ts with
  | [t] => some (if Lit.degree t.literal = 0 then 0 else Lit.degree t.literal)
  | ts => ts.getLast?.map fun t => Lit.degree t.literal

/-- The constructor (multivariate_sparse_coefficients.h:165-172). -/
def Poly.make (maxDegree : Nat) (numVars : Option Nat) (ts : List (Term F)) : Option (Poly F) :=
  (degree ts).bind fun d => if maxDegree < d then none else some ⟨numVars, ts⟩

/-- `operator==` of the vectors of terms, with that of `Term` (multivariate_sparse_coefficients.h:150-152). -/
def termsEq : List (Term F) → List (Term F) → Bool
  | [], [] => true
  | a :: as, b :: bs => Lit.eq a.literal b.literal && decide (a.coeff = b.coeff) && termsEq as bs
  | _, _ => false

/-- `operator==` (multivariate_sparse_coefficients.h:223-231). -/
def Poly.eq (p q : Poly F) : Bool :=
  if p.terms.isEmpty then q.terms.isEmpty else if q.terms.isEmpty then false else termsEq p.terms q.terms

/-- The first term that is not less, which `std::lower_bound` finds if no such term comes before one that is less; otherwise the call is
not allowed. -/
def lowerBound (a : Lit) (ts : List (Term F)) : Option (Option (Term F)) :=
  (ts.mapM fun t => (Lit.lt t.literal a).map fun l => (t, l)).bind fun ls =>
    if (ls.dropWhile Prod.snd).any Prod.snd then none else some ((ls.dropWhile Prod.snd).head?.map Prod.fst)

/-- `operator[]` with `GetCoefficient` (multivariate_sparse_coefficients.h:247-251, 330-339). -/
def Poly.index (p : Poly F) (a : Lit) : Option F :=
  (lowerBound a p.terms).map fun t =>
    match t with
    | some t => if Lit.eq t.literal a then t.coeff else 0
    | none => 0

/-- `Term::Constant` (multivariate_sparse_coefficients.h:159): `{{{}}}` is a vector with one element. -/
def constant (c : F) : Term F := ⟨[⟨0, 0⟩], c⟩

/-- The loop of `Compact` (multivariate_sparse_coefficients.h:304-314); `w` is the term that is written. -/
def compactGo (w : Term F) : List (Term F) → List (Term F)
  | [] => [w]
  | r :: rs => if Lit.eq w.literal r.literal then compactGo ⟨w.literal, w.coeff + r.coeff⟩ rs else w :: compactGo r rs

/-- Whether the degree of a term is zero (multivariate_sparse_coefficients.h:317). -/
def Term.isConstant (t : Term F) : Bool := decide (Lit.degree t.literal = 0)

/-- `Compact` (multivariate_sparse_coefficients.h:303-324). The iterator behind the first term of an empty vector is not allowed. -/
def compact : List (Term F) → Option (List (Term F))
  | [] => none
  | t :: ts =>
    let l := compactGo t ts
    some ((constant (((l.takeWhile Term.isConstant).map Term.coeff).foldl (· + ·) 0) :: l.dropWhile Term.isConstant).filter
      fun t => decide (t.coeff ≠ 0))

/-- `operator-` of `Term` (multivariate_sparse_coefficients.h:141). -/
def Term.neg (t : Term F) : Term F := ⟨t.literal, -t.coeff⟩

/-- A term of the second operand (multivariate_polynomial_ops.h:114-118, 131-135). -/
def signed (negation : Bool) (t : Term F) : Term F := if negation then t.neg else t

/-- The sum or the difference of coefficients (multivariate_polynomial_ops.h:139-143). -/
def signedSum (negation : Bool) (a b : F) : F := if negation then a - b else a + b

/-- The loop of `DoAdd` (multivariate_polynomial_ops.h:112-150) for a first term `a` of the first operand; `rec` is the loop for the terms
`as` behind it. -/
def mergeInto (negation : Bool) (a : Term F) (as : List (Term F)) (rec : List (Term F) → Option (List (Term F))) :
    List (Term F) → Option (List (Term F))
  | [] => some (a :: as)
  | b :: bs => (Lit.lt a.literal b.literal).bind fun l =>
    if l then (rec (b :: bs)).map (a :: ·)
    else (Lit.lt b.literal a.literal).bind fun g =>
      if g then (mergeInto negation a as rec bs).map (signed negation b :: ·)
      else
        let c := signedSum negation a.coeff b.coeff
        (rec bs).map fun cs => if c = 0 then cs else ⟨a.literal, c⟩ :: cs

/-- The loop of `DoAdd` (multivariate_polynomial_ops.h:110-150). -/
def mergeTerms (negation : Bool) : List (Term F) → List (Term F) → Option (List (Term F))
  | [], bs => some (bs.map (signed negation))
  | a :: as, bs => mergeInto negation a as (mergeTerms negation as) bs

/-- `DoAdd` (multivariate_polynomial_ops.h:102-154); `numVars` is that of `c`. -/
def doAdd (negation : Bool) (a b : Poly F) (numVars : Option Nat) : Option (Poly F) :=
  (mergeTerms negation a.terms b.terms).bind fun ts => (compact ts).map fun ts => ⟨numVars, ts⟩

/-- `Add` (multivariate_polynomial_ops.h:25-36). -/
def Poly.add (a b : Poly F) : Option (Poly F) :=
  if a.terms.isEmpty then some b else if b.terms.isEmpty then some a else doAdd false a b none

/-- `AddInPlace` (multivariate_polynomial_ops.h:38-48). -/
def Poly.addInPlace (a b : Poly F) : Option (Poly F) :=
  if a.terms.isEmpty then some b else if b.terms.isEmpty then some a else doAdd false a b a.numVars

/-- `Negate` (multivariate_polynomial_ops.h:75-87). -/
def Poly.negate (maxDegree : Nat) (p : Poly F) : Option (Poly F) :=
  if p.terms.isEmpty then some p else Poly.make maxDegree p.numVars (p.terms.map Term.neg)

/-- `NegateInPlace` (multivariate_polynomial_ops.h:89-99). -/
def Poly.negateInPlace (p : Poly F) : Poly F := ⟨p.numVars, p.terms.map Term.neg⟩

/-- `Sub` (multivariate_polynomial_ops.h:50-61). -/
def Poly.sub (maxDegree : Nat) (a b : Poly F) : Option (Poly F) :=
  if a.terms.isEmpty then b.negate maxDegree else if b.terms.isEmpty then some a else doAdd true a b none

/-- `SubInPlace` (multivariate_polynomial_ops.h:63-73). -/
def Poly.subInPlace (maxDegree : Nat) (a b : Poly F) : Option (Poly F) :=
  if a.terms.isEmpty then b.negate maxDegree else if b.terms.isEmpty then some a else doAdd true a b a.numVars

end Tachyon.Multivariate
