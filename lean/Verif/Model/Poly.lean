import Verif.Model.Group
/-!
# Model of univariate polynomials in coefficient form: `tachyon/math/polynomials/univariate`

`univariate_dense_coefficients.h`, `univariate_sparse_coefficients.h`, `univariate_polynomial.h`,
`univariate_polynomial_ops.h`, `lagrange_interpolation.h`. A dense polynomial is the list of its
coefficients, lowest first; a sparse one is the list of its terms, a term being a degree and a
coefficient. The functions are written over a mathematical field.

`none` is a failed `CHECK`, a `std::nullopt`, or an access out of bounds. The check of the
constructors that the degree is at most `MaxDegree` is left out: the program ends if it fails. Degrees
are natural numbers. An OpenMP loop whose iteration `i` only writes element `i` is a map
(`C45_interleaving`); for a loop over the terms of a sparse polynomial the order in which the
iterations run is a parameter `sched`. Filling or resizing with zeros is `List.replicate` (`C45_fill`,
`C45_resizeWith`).
-/
universe u
namespace Tachyon.Poly
open Tachyon.Parallel Tachyon.BigInt Tachyon.Group

variable {F : Type u} [Field F] [DecidableEq F]

/-- `v[i] = f(v[i])`; `none` out of bounds. -/
def modifyAt (v : List F) (i : Nat) (f : F → F) : Option (List F) :=
  match v[i]? with
  | none => none
  | some x => some (v.set i (f x))

/-! ### Dense coefficients -/

namespace Dense

/-- `operator[]` (univariate_dense_coefficients.h:146-151). -/
def coeff (l : List F) (i : Nat) : F := if h : i < l.length then l[i] else 0

/-- `Degree` (univariate_dense_coefficients.h:164-167). -/
def degree (l : List F) : Nat := if l.isEmpty then 0 else l.length - 1

/-- `IsOne` (univariate_dense_coefficients.h:160-162). -/
def isOne : List F → Bool
  | [c] => c = 1
  | _ => false

/-- `RemoveHighDegreeZeros` (univariate_dense_coefficients.h:220-228). -/
def removeZeros (l : List F) : List F := (l.reverse.dropWhile (· = 0)).reverse

/-- `IsClean` (univariate_dense_coefficients.h:230-232). -/
def isClean (l : List F) : Bool := l.getLast? ≠ some 0

/-- `GetLeadingCoefficient` (univariate_dense_coefficients.h:153-156). -/
def leading (l : List F) : F := l.getLast?.getD 0

/-- `HornerEvaluate` (univariate_dense_coefficients.h:275-282). -/
def horner (l : List F) (x : F) : F := l.reverse.foldl (fun acc c => acc * x + c) 0

/-- `Evaluate`, `DoEvaluate` (univariate_dense_coefficients.h:171-175, :256-273). -/
def evaluate (threads : Nat) (l : List F) (x : F) : F :=
  if l.isEmpty then 0
  else if x = 0 then coeff l 0
  else
    (parallelizeMap threads l fun offset size chunk =>
      horner chunk x * powSize x (offset * size)).foldl (· + ·) 0

/-- One iteration of `Fold` (univariate_dense_coefficients.h:186-191). -/
def foldAt (l : List F) (r : F) (i : Nat) : Option F :=
  match l[2 * i]?, l[2 * i + 1]? with
  | some a, some b => some (b * r + a)
  | _, _ => none

/-- `Fold` (univariate_dense_coefficients.h:181-195): the loop reads `coefficients_[i + 1]` for every
even `i < size`. -/
def fold (l : List F) (r : F) : Option (List F) :=
  let values := (List.range ((l.length + 1) / 2)).map (foldAt l r)
  if values.all Option.isSome then some (removeZeros (values.filterMap id)) else none

/-- The inner loop of `FromRoots` and of `LagrangeInterpolate` (univariate_dense_coefficients.h:116-118,
lagrange_interpolation.h:85-87), from `j` down to 1. -/
def rootInner (root : F) : Nat → List F → Option (List F)
  | 0, c => some c
  | j + 1, c =>
    match c[j]?, c[j + 1]? with
    | some a, some b => rootInner root j (c.set (j + 1) (a - root * b))
    | _, _ => none

/-- The outer loop of `FromRoots` (univariate_dense_coefficients.h:115-120), from root `i` on. -/
def rootLoop : List F → Nat → List F → Option (List F)
  | [], _, c => some c
  | root :: roots, i, c =>
    match rootInner root (i + 1) c with
    | none => none
    | some c =>
      match modifyAt c 0 (· * (-root)) with
      | none => none
      | some c => rootLoop roots (i + 1) c

/-- `FromRoots` (univariate_dense_coefficients.h:86-125). -/
def fromRoots (roots : List F) : Option (List F) :=
  rootLoop roots 0 (1 :: List.replicate roots.length 0)

/-- `EvaluateVanishingPolyByRoots(Serial)` (univariate_polynomial.h:131-149). -/
def vanishingByRoots (threads : Nat) (roots : List F) (x : F) : F :=
  (parallelizeMap threads roots fun _ _ chunk =>
    chunk.foldl (fun acc root => acc * (x - root)) 1).foldl (· * ·) 1

end Dense

/-! ### Sparse coefficients -/

namespace Sparse

/-- `GetCoefficient`, `operator[]` (univariate_sparse_coefficients.h:179-183, :287-294).
`std::lower_bound` returns the first term whose degree is not less than `i`. -/
def coeff (terms : List (Nat × F)) (i : Nat) : F :=
  match terms.find? fun t => !(t.1 < i) with
  | none => 0
  | some t => if t.1 ≠ i then 0 else t.2

/-- `Degree` (univariate_sparse_coefficients.h:197-200). -/
def degree (terms : List (Nat × F)) : Nat :=
  match terms.getLast? with
  | none => 0
  | some t => t.1

/-- `GetLeadingCoefficient` (univariate_sparse_coefficients.h:185-188). -/
def leading (terms : List (Nat × F)) : F :=
  match terms.getLast? with
  | none => 0
  | some t => t.2

/-- `IsOne` (univariate_sparse_coefficients.h:192-195). -/
def isOne : List (Nat × F) → Bool
  | [t] => t.1 = 0 && decide (t.2 = 1)
  | _ => false

/-- `RemoveZeros` (univariate_sparse_coefficients.h:276-278). -/
def removeZeros (terms : List (Nat × F)) : List (Nat × F) := terms.filter (·.2 ≠ 0)

/-- `num_powers` squares (univariate_sparse_coefficients.h:213-218). -/
def squares : Nat → F → List F
  | 0, p => [p]
  | n + 1, p => p :: squares n (p * p)

/-- One iteration of `Evaluate` (univariate_sparse_coefficients.h:220-224). `p` is the characteristic:
the constructor `F(term.degree)` requires a reduced value; `limbs` is the number of limbs of
`BigInt<N>`. -/
def evalStep (p limbs : Nat) (powers : List F) (sum : F) (t : Nat × F) : Option F :=
  if p ≤ t.1 then none
  else
    match powWithTable ⟨1, (· * ·), fun x => x * x⟩ powers
        (BitVec.ofNat 64 t.1 :: List.replicate (limbs - 1) 0#64) with
    | none => none
    | some y => some (sum + y * t.2)

/-- `Evaluate` (univariate_sparse_coefficients.h:204-226). -/
def evaluate (p limbs : Nat) (terms : List (Nat × F)) (x : F) : Option F :=
  if terms.isEmpty then some 0
  else
    let d := degree terms
    let numPowers := if d = 0 then 0 else d.log2 + 1
    terms.foldlM (evalStep p limbs (squares (numPowers - 1) x)) 0

/-- One iteration of `Fold` (univariate_sparse_coefficients.h:236-253). -/
def foldStep (r : F) (terms : List (Nat × F)) (t : Nat × F) : List (Nat × F) :=
  if t.1 % 2 = 0 then terms ++ [(t.1 / 2, t.2)]
  else
    match terms.getLast? with
    | some b =>
      if b.1 = t.1 / 2 then
        let c := if r ≠ 0 then b.2 + t.2 * r else b.2
        if c = 0 then terms.dropLast else terms.dropLast ++ [(b.1, c)]
      else if r ≠ 0 then terms ++ [(t.1 / 2, t.2 * r)] else terms
    | none => if r ≠ 0 then terms ++ [(t.1 / 2, t.2 * r)] else terms

/-- `Fold` (univariate_sparse_coefficients.h:232-255). -/
def fold (terms : List (Nat × F)) (r : F) : List (Nat × F) := terms.foldl (foldStep r) []

/-- `Negate` and `NegateInPlace` (univariate_polynomial_ops.h:638-659). -/
def neg (terms : List (Nat × F)) : List (Nat × F) := terms.map fun t => (t.1, -t.2)

/-- `ToDense` (univariate_polynomial_ops.h:771-779). -/
def toDense (terms : List (Nat × F)) : List F :=
  if terms.isEmpty then [] else (List.range (degree terms + 1)).map (coeff terms)

/-- The loop of `DoAdd<NEGATION>` (univariate_polynomial_ops.h:796-836). -/
def doAddGo (negation : Bool) : Nat → List (Nat × F) → List (Nat × F) → Option (List (Nat × F))
  | _, [], [] => some []
  | 0, _, _ => none
  | n + 1, [], b :: bs =>
    (doAddGo negation n [] bs).map ((b.1, if negation then -b.2 else b.2) :: ·)
  | n + 1, a :: as, [] => (doAddGo negation n as []).map (a :: ·)
  | n + 1, a :: as, b :: bs =>
    if a.1 < b.1 then (doAddGo negation n as (b :: bs)).map (a :: ·)
    else if b.1 < a.1 then
      (doAddGo negation n (a :: as) bs).map ((b.1, if negation then -b.2 else b.2) :: ·)
    else
      let c := if negation then a.2 - b.2 else a.2 + b.2
      if c ≠ 0 then (doAddGo negation n as bs).map ((a.1, c) :: ·) else doAddGo negation n as bs

/-- `DoAdd<NEGATION>` (univariate_polynomial_ops.h:787-839). -/
def doAdd (negation : Bool) (a b : List (Nat × F)) : Option (List (Nat × F)) :=
  doAddGo negation (a.length + b.length) a b

/-- `Add` and `AddInPlace` of sparse polynomials (univariate_polynomial_ops.h:583-606). -/
def add (a b : List (Nat × F)) : Option (List (Nat × F)) :=
  if a.isEmpty then some b else if b.isEmpty then some a else doAdd false a b

/-- `Sub` and `SubInPlace` of sparse polynomials (univariate_polynomial_ops.h:613-636). -/
def sub (a b : List (Nat × F)) : Option (List (Nat × F)) :=
  if a.isEmpty then some (neg b) else if b.isEmpty then some a else doAdd true a b

/-- `Mul` by a scalar (univariate_polynomial_ops.h:666-677). -/
def mulScalar (a : List (Nat × F)) (s : F) : List (Nat × F) :=
  if a.isEmpty ∨ s = 0 then [] else a.map fun t => (t.1, t.2 * s)

/-- `MulInPlace` by a scalar (univariate_polynomial_ops.h:679-692). -/
def mulInPlaceScalar (a : List (Nat × F)) (s : F) : List (Nat × F) :=
  if a.isEmpty ∨ s = 1 then a else if s = 0 then [] else a.map fun t => (t.1, t.2 * s)

/-- Adding a product to `c_terms` (univariate_polynomial_ops.h:850-862). -/
def insertTerm (d : Nat) (f : F) : List (Nat × F) → List (Nat × F)
  | [] => [(d, f)]
  | t :: ts =>
    if t.1 = d then if t.2 + f = 0 then ts else (t.1, t.2 + f) :: ts
    else t :: insertTerm d f ts

/-- One step of sorting. -/
def insertSorted (t : Nat × F) : List (Nat × F) → List (Nat × F)
  | [] => [t]
  | s :: ts => if t.1 ≤ s.1 then t :: s :: ts else s :: insertSorted t ts

/-- `UnstableSort` by degree: the degrees are distinct, so every sort gives the same list. -/
def sortTerms (l : List (Nat × F)) : List (Nat × F) := l.foldr insertSorted []

/-- `DoMul` (univariate_polynomial_ops.h:841-867). -/
def doMul (a b : List (Nat × F)) : List (Nat × F) :=
  sortTerms (a.foldl (fun c s => b.foldl (fun c t =>
    let f := s.2 * t.2
    if f = 0 then c else insertTerm (s.1 + t.1) f c) c) [])

/-- `Mul` of sparse polynomials (univariate_polynomial_ops.h:694-707). -/
def mul (a b : List (Nat × F)) : List (Nat × F) :=
  if a.isEmpty ∨ b.isEmpty then []
  else if isOne a then b
  else if isOne b then a
  else doMul a b

/-- `MulInPlace` of sparse polynomials (univariate_polynomial_ops.h:709-722). -/
def mulInPlace (a b : List (Nat × F)) : List (Nat × F) :=
  if a.isEmpty ∨ isOne b then a
  else if isOne a then b
  else if b.isEmpty then []
  else doMul a b

/-- `Div` and `DivInPlace` by a scalar (univariate_polynomial_ops.h:724-738). -/
def divScalar (a : List (Nat × F)) (s : F) : Option (List (Nat × F) × List (Nat × F)) :=
  if s = 0 then none else some (mulScalar a s⁻¹, mulInPlaceScalar a s⁻¹)

end Sparse

/-! ### Dense operations -/

namespace Dense

/-- `ToSparse` (univariate_polynomial_ops.h:431-443). -/
def toSparse (l : List F) : List (Nat × F) :=
  ((List.range (degree l + 1)).filter fun i => coeff l i ≠ 0).map fun i => (i, coeff l i)

/-- `Negate` (univariate_polynomial_ops.h:226-236). -/
def neg (l : List F) : List F := if l.isEmpty then l else l.map fun c => -c

/-- `NegateInPlace` (univariate_polynomial_ops.h:238-250). -/
def negInPlace (l : List F) : List F := if l.isEmpty then l else removeZeros (l.map fun c => -c)

/-- `Add` (univariate_polynomial_ops.h:34-54). -/
def add (l r : List F) : List F :=
  if l.isEmpty then r
  else if r.isEmpty then l
  else removeZeros ((List.range (max l.length r.length)).map fun i => coeff l i + coeff r i)

/-- `l[i] = f(l[i], r[i])` for all `i < r.size()`; `l` has been resized to at least `r.size()`. -/
def zipInto (f : F → F → F) : List F → List F → Option (List F)
  | l, [] => some l
  | [], _ :: _ => none
  | a :: l, b :: r => (zipInto f l r).map (f a b :: ·)

/-- `ParallelizeResize(l, n, 0)` with `n` at least the size. -/
def padTo (n : Nat) (l : List F) : List F := l ++ List.replicate (n - l.length) 0

/-- `AddInPlace` (univariate_polynomial_ops.h:56-77). -/
def addInPlace (l r : List F) : Option (List F) :=
  if l.isEmpty then some r
  else if r.isEmpty then some l
  else (zipInto (· + ·) (padTo (max l.length r.length) l) r).map removeZeros

/-- `Sub` (univariate_polynomial_ops.h:131-151). -/
def sub (l r : List F) : List F :=
  if l.isEmpty then neg r
  else if r.isEmpty then l
  else removeZeros ((List.range (max l.length r.length)).map fun i => coeff l i - coeff r i)

/-- `SubInPlace` (univariate_polynomial_ops.h:153-173). -/
def subInPlace (l r : List F) : Option (List F) :=
  if l.isEmpty then some (neg r)
  else if r.isEmpty then some l
  else (zipInto (· - ·) (padTo (max l.length r.length) l) r).map removeZeros

/-- `Add` of a sparse polynomial (univariate_polynomial_ops.h:79-98). -/
def addSparse (l : List F) (r : List (Nat × F)) : List F :=
  if l.isEmpty then Sparse.toDense r
  else if r.isEmpty then l
  else removeZeros ((List.range (max (degree l) (Sparse.degree r) + 1)).map fun i =>
    coeff l i + Sparse.coeff r i)

/-- `Sub` of a sparse polynomial (univariate_polynomial_ops.h:175-194). -/
def subSparse (l : List F) (r : List (Nat × F)) : List F :=
  if l.isEmpty then Sparse.toDense (Sparse.neg r)
  else if r.isEmpty then l
  else removeZeros ((List.range (max (degree l) (Sparse.degree r) + 1)).map fun i =>
    coeff l i - Sparse.coeff r i)

/-- `Copy<NEGATION>` (univariate_polynomial_ops.h:446-464): `resize` keeps the old elements, which the
fill overwrites. -/
def copySparse (negation : Bool) (r sched : List (Nat × F)) : Option (List F) :=
  (sched.foldlM (fun c t => modifyAt c t.1 fun _ => if negation then -t.2 else t.2)
    (List.replicate (Sparse.degree r + 1) (0 : F))).map removeZeros

/-- The loop of the sparse `AddInPlace` and `SubInPlace` (univariate_polynomial_ops.h:118-124,
:213-219): the lower and upper coefficients; `sched` is the order of the iterations. -/
def termsInto (negation : Bool) (degree : Nat) (sched : List (Nat × F)) (lower upper : List F) :
    Option (List F × List F) :=
  sched.foldlM (fun (s : List F × List F) t =>
    if t.1 ≤ degree then
      (modifyAt s.1 t.1 fun c => if negation then c - t.2 else c + t.2).map (·, s.2)
    else
      (modifyAt s.2 (t.1 - degree - 1) fun _ => if negation then -t.2 else t.2).map (s.1, ·))
    (lower, upper)

/-- `AddInPlace` of a sparse polynomial (univariate_polynomial_ops.h:100-129). -/
def addInPlaceSparse (l : List F) (r sched : List (Nat × F)) : Option (List F) :=
  if l.isEmpty then copySparse false r sched
  else if r.isEmpty then some l
  else (termsInto false (degree l) sched l (List.replicate (Sparse.degree r - degree l) 0)).map fun s =>
    removeZeros (s.1 ++ s.2)

/-- `SubInPlace` of a sparse polynomial (univariate_polynomial_ops.h:196-224). -/
def subInPlaceSparse (l : List F) (r sched : List (Nat × F)) : Option (List F) :=
  if l.isEmpty then copySparse true r sched
  else if r.isEmpty then some l
  else (termsInto true (degree l) sched l (List.replicate (Sparse.degree r - degree l) 0)).map fun s =>
    removeZeros (s.1 ++ s.2)

/-- `Mul` by a scalar (univariate_polynomial_ops.h:252-265). -/
def mulScalar (l : List F) (s : F) : List F :=
  if l.isEmpty ∨ s = 1 then l else if s = 0 then [] else l.map (· * s)

/-- `MulInPlace` by a scalar (univariate_polynomial_ops.h:267-280). -/
def mulInPlaceScalar (l : List F) (s : F) : List F :=
  if l.isEmpty ∨ s = 1 then l else removeZeros (l.map (· * s))

/-- `c[k + j] += a[j] * b` for all `j` (univariate_polynomial_ops.h:482-484, :509-511). -/
def mulRow (b : F) : List F → Nat → List F → Option (List F)
  | [], _, c => some c
  | x :: a, k, c =>
    match modifyAt c k (· + x * b) with
    | none => none
    | some c => mulRow b a (k + 1) c

/-- The loop over the coefficients of `b`, from degree `i` on (univariate_polynomial_ops.h:477-486). -/
def mulRows (a : List F) : List F → Nat → List F → Option (List F)
  | [], _, c => some c
  | b :: bs, i, c =>
    if b = 0 then mulRows a bs (i + 1) c
    else
      match mulRow b a i c with
      | none => none
      | some c => mulRows a bs (i + 1) c

/-- `DoMul` (univariate_polynomial_ops.h:466-490). -/
def doMul (a b : List F) : Option (List F) :=
  (mulRows a b 0 (List.replicate (degree a + degree b + 1) 0)).map removeZeros

/-- `Mul` (univariate_polynomial_ops.h:282-295). -/
def mul (a b : List F) : Option (List F) :=
  if a.isEmpty ∨ b.isEmpty then some []
  else if isOne a then some b
  else if isOne b then some a
  else doMul a b

/-- `MulInPlace` (univariate_polynomial_ops.h:297-313). -/
def mulInPlace (a b : List F) : Option (List F) :=
  if a.isEmpty ∨ isOne b then some a
  else if isOne a then some b
  else if b.isEmpty then some []
  else doMul a b

/-- The loop over the terms of `b` (univariate_polynomial_ops.h:503-513). -/
def mulTerms (a : List F) : List (Nat × F) → List F → Option (List F)
  | [], c => some c
  | t :: ts, c =>
    if t.2 = 0 then mulTerms a ts c
    else
      match mulRow t.2 a t.1 c with
      | none => none
      | some c => mulTerms a ts c

/-- `DoMul` with a sparse polynomial (univariate_polynomial_ops.h:492-517). -/
def doMulSparse (a : List F) (b : List (Nat × F)) : Option (List F) :=
  (mulTerms a b (List.replicate (degree a + Sparse.degree b + 1) 0)).map removeZeros

/-- `Mul` by a sparse polynomial (univariate_polynomial_ops.h:315-328). -/
def mulSparse (a : List F) (b : List (Nat × F)) : Option (List F) :=
  if a.isEmpty ∨ b.isEmpty then some []
  else if isOne a then some (Sparse.toDense b)
  else if Sparse.isOne b then some a
  else doMulSparse a b

/-- `MulInPlace` by a sparse polynomial (univariate_polynomial_ops.h:330-344). -/
def mulInPlaceSparse (a : List F) (b sched : List (Nat × F)) : Option (List F) :=
  if a.isEmpty ∨ Sparse.isOne b then some a
  else if isOne a then copySparse false b sched
  else if b.isEmpty then some []
  else doMulSparse a b

/-- `Div` and `DivInPlace` by a scalar (univariate_polynomial_ops.h:346-360). -/
def divScalar (l : List F) (s : F) : Option (List F × List F) :=
  if s = 0 then none else some (mulScalar l s⁻¹, mulInPlaceScalar l s⁻¹)

/-- `r[degree + i] -= q * d[i]` for all `i` (univariate_polynomial_ops.h:551-553). -/
def subRow (q : F) : List F → Nat → List F → Option (List F)
  | [], _, r => some r
  | x :: d, k, r =>
    match modifyAt r k (· - q * x) with
    | none => none
    | some r => subRow q d (k + 1) r

/-- The same for a sparse divisor (univariate_polynomial_ops.h:556-559). -/
def subTerms (q : F) (k : Nat) : List (Nat × F) → List F → Option (List F)
  | [], r => some r
  | t :: d, r =>
    match modifyAt r (k + t.1) (· - q * t.2) with
    | none => none
    | some r => subTerms q k d r

/-- The loop of `Divide` (univariate_polynomial_ops.h:543-562): `sub q degree` subtracts the multiple of
the divisor, `otherDegree` is its degree, `inv` the inverse of its leading coefficient. `none` also when
the fuel does not suffice. -/
def divideGo (sub : F → Nat → List F → Option (List F)) (otherDegree : Nat) (inv : F) :
    Nat → List F → List F → Option (List F × List F)
  | 0, _, _ => none
  | n + 1, quotient, remainder =>
    match remainder.getLast? with
    | none => some (quotient, remainder)
    | some last =>
      if otherDegree ≤ degree remainder then
        let q := last * inv
        let k := degree remainder - otherDegree
        match modifyAt quotient k fun _ => q with
        | none => none
        | some quotient =>
          match sub q k remainder with
          | none => none
          | some remainder => divideGo sub otherDegree inv n quotient (removeZeros remainder)
      else some (quotient, remainder)

/-- A divisor: dense or sparse. -/
inductive Divisor (F : Type u) where
  | dense (l : List F)
  | sparse (t : List (Nat × F))

/-- `other.IsZero()`. -/
def Divisor.isZero : Divisor F → Bool
  | .dense l => l.isEmpty
  | .sparse t => t.isEmpty

/-- `other.Degree()`. -/
def Divisor.degree : Divisor F → Nat
  | .dense l => Dense.degree l
  | .sparse t => Sparse.degree t

/-- `other.ToDense()`. -/
def Divisor.toDense : Divisor F → List F
  | .dense l => l
  | .sparse t => Sparse.toDense t

/-- `other.GetLeadingCoefficient()`. -/
def Divisor.leading : Divisor F → F
  | .dense l => Dense.leading l
  | .sparse t => Sparse.leading t

/-- The subtraction in the loop of `Divide` (univariate_polynomial_ops.h:549-560). -/
def Divisor.sub : Divisor F → F → Nat → List F → Option (List F)
  | .dense l, q, k, r => subRow q l k r
  | .sparse t, q, k, r => subTerms q k t r

/-- `Divide` (univariate_polynomial_ops.h:519-568). The inverse of a zero leading coefficient is a
dereferenced `std::nullopt`. -/
def divide (l : List F) (other : Divisor F) : Option (List F × List F) :=
  if other.isZero then none
  else if l.isEmpty then some ([], other.toDense)
  else if degree l < other.degree then some ([], l)
  else if other.leading = 0 then none
  else
    (divideGo other.sub other.degree other.leading⁻¹ (l.length + 1)
      (List.replicate (degree l - other.degree + 1) 0) l).map fun s => (removeZeros s.1, s.2)

/-- `Div` and `DivInPlace` (univariate_polynomial_ops.h:362-387). -/
def div (l : List F) (other : Divisor F) : Option (List F) := (divide l other).map fun s => removeZeros s.1

/-- `Mod` and `ModInPlace` (univariate_polynomial_ops.h:389-414). -/
def mod (l : List F) (other : Divisor F) : Option (List F) := (divide l other).map fun s => removeZeros s.2

/-- `DivMod` (univariate_polynomial_ops.h:416-424). -/
def divMod (l : List F) (other : Divisor F) : Option (List F × List F) := divide l other

end Dense

namespace Sparse

/-- `Add` of a dense polynomial (univariate_polynomial_ops.h:578-581). -/
def addDense (a : List (Nat × F)) (b : List F) : List F := Dense.addSparse b a

/-- `Sub` of a dense polynomial (univariate_polynomial_ops.h:608-611). -/
def subDense (a : List (Nat × F)) (b : List F) : List F := Dense.addSparse (Dense.neg b) a

/-- `Mul` by a dense polynomial (univariate_polynomial_ops.h:661-664). -/
def mulDense (a : List (Nat × F)) (b : List F) : Option (List F) := Dense.mulSparse b a

/-- `Div` (univariate_polynomial_ops.h:740-748). -/
def div (a : List (Nat × F)) (other : Dense.Divisor F) : Option (List F) :=
  if a.isEmpty then some [] else Dense.div (toDense a) other

/-- `Mod` (univariate_polynomial_ops.h:750-758). -/
def mod (a : List (Nat × F)) (other : Dense.Divisor F) : Option (List F) :=
  if a.isEmpty then some other.toDense else Dense.mod (toDense a) other

/-- `DivMod` (univariate_polynomial_ops.h:760-769). -/
def divMod (a : List (Nat × F)) (other : Dense.Divisor F) : Option (List F × List F) :=
  if a.isEmpty then some ([], other.toDense) else Dense.divMod (toDense a) other

end Sparse

/-! ### Lagrange interpolation -/

/-- The denominators (lagrange_interpolation.h:40-52) of chunk `offset`: products of differences, then
`BatchInverseInPlaceSerial`. -/
def lagrangeDenoms (points : List F) (start n : Nat) : Option (List F) :=
  let ds := (List.range n).map fun k =>
    (List.range points.length).foldl (fun d j =>
      if start + k = j then d else d * (points.getD (start + k) 0 - points.getD j 0)) 1
  batchInverseSerial ds ds.length 1

/-- The loop over the roots (lagrange_interpolation.h:82-90): the polynomial with all points as roots
but point `i`, from index `j` on. -/
def lagrangeRoots (i : Nat) : List F → Nat → Nat → List F → Option (List F)
  | [], _, _, c => some c
  | x :: xs, j, kStart, c =>
    if i = j then lagrangeRoots i xs (j + 1) kStart c
    else
      match Dense.rootInner x kStart c with
      | none => none
      | some c =>
        match modifyAt c 0 (· * (-x)) with
        | none => none
        | some c => lagrangeRoots i xs (j + 1) (kStart + 1) c

/-- The loop of a chunk (lagrange_interpolation.h:72-99) from index `i` on. -/
def lagrangeChunk (points denoms : List F) : List F → Nat → List F → Option (List F)
  | [], _, sum => some sum
  | eval :: evals, i, sum =>
    match denoms[i]? with
    | none => none
    | some denom =>
      match lagrangeRoots i points 0 1 (1 :: List.replicate (points.length - 1) 0) with
      | none => none
      | some c =>
        lagrangeChunk points denoms evals (i + 1)
          (List.zipWith (fun s x => s + x * eval * denom) sum c)

/-- `LagrangeInterpolate` for other than one point (lagrange_interpolation.h:38-108) with chunks of
`cs` elements; with no points `coeffs_sums[0]` is out of bounds. -/
def lagrangeBody (cs : Nat) (points evals : List F) : Option (List F) :=
  match (invocations points.length cs).mapM fun c => lagrangeDenoms points (c.1 * cs) c.2 with
  | none => none
  | some ds =>
    match (invocations evals.length cs).mapM fun c =>
        lagrangeChunk points ds.flatten (chunkOf evals cs c) (c.1 * cs)
          (List.replicate points.length 0) with
    | none => none
    | some [] => none
    | some (s :: ss) =>
      some (Dense.removeZeros (ss.foldl (fun acc x => List.zipWith (· + ·) acc x) s))

/-- `LagrangeInterpolate` (lagrange_interpolation.h:19-109). -/
def lagrangeInterpolate (threads : Nat) (points evals : List F) : Option (List F) :=
  if points.length ≠ evals.length then none
  else
    match evals with
    | [e] => some (Dense.removeZeros [e])
    | _ => lagrangeBody (numElementsPerThread threads points.length none) points evals

end Tachyon.Poly
