import Verif.Model.Multilinear
import Verif.Model.Parallel
import Verif.Model.Group
/-! The sumcheck protocol: `math/polynomials/multivariate/linear_combination{,_term}.h`,
`crypto/sumcheck/multilinear/*.h`.

A `std::shared_ptr<MLE>` is a number and `heap` the map from these addresses to tables; a
`flat_hash_map` is an association list. `none` is a failing `CHECK` or an access out of bounds; a failing
check of the verifier that is no `CHECK` is `some none`. `F::Random()` is an argument. The number of variables
is at most 63, so that `size_t{1} << num_variables_` is a power of two. -/
universe u v
namespace Tachyon.Sumcheck
open Tachyon.Parallel

variable {F : Type u} [Field F] [DecidableEq F] {β : Type v}

/-- `ParallelizeMap` over a size (base/parallelize.h:230-246, 264-270); the callback gets the length, the
chunk index and the chunk size and may fail. -/
def mapSize (threads size threshold : Nat) (f : Nat → Nat → Nat → Option β) : Option (List β) :=
  (invocations size (sizePerThread threads size (some threshold))).mapM fun c =>
    f c.2 c.1 (sizePerThread threads size (some threshold))

/-- `LinearCombinationTerm` (linear_combination_term.h:16-20). -/
structure Term (F : Type u) where
  coeff : F
  indexes : List Nat

/-- `LinearCombination` (linear_combination.h:133-145). -/
structure LinComb (F : Type u) where
  numVars : Nat
  maxEvals : Nat := 0
  terms : List (Term F) := []
  flattened : List Nat := []
  lookup : List (Nat × Nat) := []

/-- The callback of `base::Map` in `AddTerm` (linear_combination.h:68-77): `try_emplace`. -/
def addIndex (heap : Nat → List F) (acc : LinComb F × List Nat) (ptr : Nat) : Option (LinComb F × List Nat) :=
  if Multilinear.degree (heap ptr) ≠ acc.1.numVars then none
  else
    match acc.1.lookup.lookup ptr with
    | some i => some (acc.1, acc.2 ++ [i])
    | none => some ({ acc.1 with lookup := acc.1.lookup ++ [(ptr, acc.1.flattened.length)],
                                 flattened := acc.1.flattened ++ [ptr] }, acc.2 ++ [acc.1.flattened.length])

/-- `AddTerm` (linear_combination.h:62-79). -/
def addTerm (heap : Nat → List F) (lc : LinComb F) (coeff : F) (ptrs : List Nat) : Option (LinComb F) :=
  if ptrs.isEmpty then some lc
  else
    (ptrs.foldlM (addIndex heap) ({ lc with maxEvals := max lc.maxEvals ptrs.length }, [])).map fun r =>
      { r.1 with terms := r.1.terms ++ [⟨coeff, r.2⟩] }

/-- A linear combination built by calls of `AddTerm`. -/
def build (heap : Nat → List F) (numVars : Nat) (ts : List (F × List Nat)) : Option (LinComb F) :=
  ts.foldlM (fun lc t => addTerm heap lc t.1 t.2) { numVars := numVars }

/-- The tables a linear combination points to (sumcheck_proving_key.h:23-25). -/
def LinComb.tables (heap : Nat → List F) (lc : LinComb F) : List (List F) := lc.flattened.map heap

/-- The product for one vertex (linear_combination_term.h:56-62): a table that is too short is skipped. -/
def vertexProduct (tabs : List (List F)) (i : Nat) (indexes : List Nat) : Option F :=
  indexes.foldlM (fun acc ix =>
    (tabs[ix]?).map fun evals => if i < evals.length then acc * evals.getD i 0 else acc) 1

/-- `LinearCombinationTerm::Combine` (linear_combination_term.h:35-69). -/
def Term.combine (threads numVars : Nat) (tabs : List (List F)) (t : Term F) : Option F :=
  if t.indexes.isEmpty then none
  else
    (mapSize threads (2 ^ numVars) (16 * threads) fun len offset size =>
      (List.range' (offset * size) len).foldlM
        (fun sum i => (vertexProduct tabs i t.indexes).map fun x => sum + x) 0).map fun sums =>
      sums.foldl (· + ·) 0 * t.coeff

/-- `EvaluateSerial` of a term (linear_combination_term.h:79-89). -/
def evaluateIndexes (tabs : List (List F)) (point : List F) (indexes : List Nat) : Option F :=
  indexes.foldlM (fun acc ix =>
    ((tabs[ix]?).bind fun e => Multilinear.evaluate e point).map fun x => acc * x) 1

/-- `LinearCombinationTerm::Evaluate` (linear_combination_term.h:22-33). -/
def Term.evaluate (threads : Nat) (tabs : List (List F)) (point : List F) (t : Term F) : Option F :=
  ((parallelizeMap threads t.indexes fun _ _ chunk => evaluateIndexes tabs point chunk).mapM id).map
    fun results => t.coeff * results.foldl (· * ·) 1

/-- `CombineSerial`, `EvaluateSerial` (linear_combination.h:109-131). -/
def sumTerms (f : Term F → Option F) (ts : List (Term F)) : Option F :=
  ts.foldlM (fun acc t => (f t).map fun x => acc + x) 0

/-- `Combine` (linear_combination.h:84-92). -/
def LinComb.combine (threads : Nat) (heap : Nat → List F) (lc : LinComb F) : Option F :=
  ((parallelizeMap threads lc.terms fun _ _ chunk =>
    sumTerms (Term.combine threads lc.numVars (lc.tables heap)) chunk).mapM id).map fun results =>
      results.foldl (· + ·) 0

/-- `Evaluate` (linear_combination.h:97-106). -/
def LinComb.evaluate (threads : Nat) (heap : Nat → List F) (lc : LinComb F) (point : List F) : Option F :=
  if point.length ≠ lc.numVars then none
  else
    ((parallelizeMap threads lc.terms fun _ _ chunk =>
      sumTerms (Term.evaluate threads (lc.tables heap) point) chunk).mapM id).map fun results =>
        results.foldl (· + ·) 0

/-- `SumcheckProver` (sumcheck_prover.h:159-171); the sampled values are stored by the prover too. -/
structure Prover (F : Type u) where
  round : Nat
  numVars : Nat
  maxEvals : Nat
  randomness : List F
  terms : List (Term F)
  tabs : List (List F)

/-- The constructor (sumcheck_prover.h:36-53) with `SumcheckProvingKey::Build`
(sumcheck_proving_key.h:21-28) and `SumcheckVerifyingKey::Build` (sumcheck_verifying_key.h:20-25). -/
def Prover.new (heap : Nat → List F) (lc : LinComb F) : Option (Prover F) :=
  if lc.numVars = 0 then none
  else some ⟨0, lc.numVars, lc.maxEvals, [], lc.terms, lc.tables heap⟩

/-- The inner loop of `EvaluateTermPerVariable` (sumcheck_prover.h:152-155). -/
def mulRun : List F → F → F → List F
  | [], _, _ => []
  | p :: ps, start, step => (p * start) :: mulRun ps (start + step) step

/-- `EvaluateTermPerVariable` (sumcheck_prover.h:145-157). -/
def evalTerm (tabs : List (List F)) (j : Nat) (products : List F) (indexes : List Nat) : Option (List F) :=
  indexes.foldlM (fun ps ix =>
    (tabs[ix]?).map fun t =>
      mulRun ps (Multilinear.get t (2 * j)) (Multilinear.get t (2 * j + 1) - Multilinear.get t (2 * j))) products

/-- The body of the loop over `i` (sumcheck_prover.h:102-108). -/
def roundVertex (p : Prover F) (ret : List F) (i : Nat) : Option (List F) :=
  p.terms.foldlM (fun ret t =>
    (evalTerm p.tabs i (List.replicate (p.maxEvals + 1) t.coeff) t.indexes).map fun tmp =>
      List.zipWith (· + ·) ret tmp) ret

/-- `Round()` (sumcheck_prover.h:68-119). `maxDegree` is the template parameter; the constructor of
`UnivariateEvaluations` (univariate_evaluations.h:58-61) checks the degree. -/
def Prover.send (threads maxDegree : Nat) (p : Prover F) : Option (List F × Prover F) :=
  if p.round + 1 ≤ p.numVars then
    match mapSize threads (2 ^ (p.numVars - (p.round + 1))) (16 * threads) fun len offset size =>
        (List.range' (offset * size) len).foldlM (roundVertex p) (List.replicate (p.maxEvals + 1) 0) with
    | some (e :: es) =>
      if p.maxEvals ≤ maxDegree then
        some (es.foldl (fun acc x => List.zipWith (· + ·) acc x) e, { p with round := p.round + 1 })
      else none
    | _ => none
  else none

/-- `Round(v_msg)` (sumcheck_prover.h:133-142). -/
def Prover.receive (threads maxDegree : Nat) (p : Prover F) (r : F) : Option (List F × Prover F) :=
  if p.round = 0 then none
  else
    match p.tabs.mapM fun t => Multilinear.fixVariables t [r] with
    | some tabs => Prover.send threads maxDegree { p with randomness := p.randomness ++ [r], tabs := tabs }
    | none => none

/-- `SumcheckVerifier` (sumcheck_verifier.h:111-117). -/
structure Verifier (F : Type u) where
  numVars : Nat
  maxEvals : Nat
  randomness : List F
  polys : List (List F)

/-- The constructor (sumcheck_verifier.h:36-47). -/
def Verifier.new (lc : LinComb F) : Verifier F := ⟨lc.numVars, lc.maxEvals, [], []⟩

/-- `Round` (sumcheck_verifier.h:60-70); `r` is the sampled value. -/
def Verifier.receive (v : Verifier F) (msg : List F) (r : F) : Option (Verifier F) :=
  if v.polys.length < v.numVars then
    some { v with randomness := v.randomness ++ [r], polys := v.polys ++ [msg] }
  else none

/-- `Result` (sumcheck_verifier.h:185-189). -/
structure Part (F : Type u) where
  product : F
  denomUp : F
  evals : List F

/-- An iteration of the callback (sumcheck_verifier.h:205-213). -/
def partStep (x : F) (s : Part F × F) (i : Nat) : Part F × F :=
  (⟨s.1.product * (x - s.2), if i > 1 then s.1.denomUp * s.2 else s.1.denomUp, s.1.evals ++ [x - s.2]⟩, s.2 + 1)

/-- The callback (sumcheck_verifier.h:197-215). -/
def part (x : F) (len offset size : Nat) : Part F :=
  ((List.range' (offset * size) len).foldl (partStep x) (⟨1, 1, []⟩, ((offset * size : Nat) : F))).1

/-- The loop over the results (sumcheck_verifier.h:225-230). -/
def mergePart (a b : Part F) : Part F := ⟨a.product * b.product, a.denomUp * b.denomUp, a.evals ++ b.evals⟩

/-- The first loop down (sumcheck_verifier.h:258-264), before iteration `i - 1`. -/
def upLoop : Nat → List F → F → F → List F
  | 0, evals, _, _ => evals
  | i + 1, evals, denomUp, offset =>
    upLoop i (evals.modify i (· * denomUp)) (if i ≠ 0 then denomUp * -offset else denomUp)
      (if i ≠ 0 then offset + 1 else offset)

/-- The second loop down (sumcheck_verifier.h:268-274). -/
def downLoop (poly evals : List F) (product : F) : Nat → F → F → F → F
  | 0, _, _, res => res
  | i + 1, denomDown, offset, res =>
    downLoop poly evals product i (if i ≠ 0 then denomDown * offset else denomDown)
      (if i ≠ 0 then offset - 1 else offset) (res + poly.getD i 0 * product * denomDown * evals.getD i 0)

/-- `InterpolateUniPoly` (sumcheck_verifier.h:125-276); `canon` is `ToBigInt`. -/
def interpolate (canon : F → Nat) (threads : Nat) (poly : List F) (x : F) : Option F :=
  if poly.length = 0 then none
  else if canon x < poly.length then poly[canon x]?
  else
    match mapSize threads poly.length (16 * threads) fun len offset size => some (part x len offset size) with
    | some (r :: rs) =>
      let p := rs.foldl mergePart r
      match Group.batchInverse threads (upLoop poly.length p.evals p.denomUp 1) poly.length 1 with
      | some evals =>
        some (downLoop poly evals p.product poly.length 1 ((poly.length - 1 : Nat) : F) 0)
      | none => none
    | _ => none

/-- The loop of `CheckAndGenerateSubclaim` (sumcheck_verifier.h:90-105) over the messages and challenges. -/
def checkLoop (canon : F → Nat) (threads maxEvals : Nat) : F → List (List F) → List F → Option (Option F)
  | expected, [], _ => some (some expected)
  | _, _ :: _, [] => none
  | expected, e :: polys, r :: rs =>
    if e.length = maxEvals + 1 then
      match e[0]?, e[1]? with
      | some p0, some p1 =>
        if p0 + p1 ≠ expected then some none
        else
          match interpolate canon threads e r with
          | some y => checkLoop canon threads maxEvals y polys rs
          | none => none
      | _, _ => none
    else none

/-- `CheckAndGenerateSubclaim` (sumcheck_verifier.h:85-108): the subclaim if accepted. -/
def Verifier.check (canon : F → Nat) (threads : Nat) (v : Verifier F) (asserted : F) :
    Option (Option (List F × F)) :=
  if v.polys.length = v.numVars then
    (checkLoop canon threads v.maxEvals asserted v.polys v.randomness).map fun r => r.map fun y => (v.randomness, y)
  else none

/-- The loop of `RunInteractiveProtocol` (multilinear_sumcheck.h:36-39); `r` is the last challenge sent. -/
def protocolGo (threads maxDegree : Nat) : Prover F → Verifier F → F → List F → Option (Verifier F)
  | _, v, _, [] => some v
  | p, v, r, r' :: rs =>
    match p.receive threads maxDegree r with
    | some (msg, p) =>
      match v.receive msg r' with
      | some v => protocolGo threads maxDegree p v r' rs
      | none => none
    | none => none

/-- `RunInteractiveProtocol` (multilinear_sumcheck.h:21-48); `r :: rs` are the sampled values and
`num_variables` is their number. -/
def runProtocol (canon : F → Nat) (threads maxDegree : Nat) (heap : Nat → List F) (lc : LinComb F) (r : F)
    (rs : List F) : Option Bool :=
  (Prover.new heap lc).bind fun p =>
  (p.send threads maxDegree).bind fun (msg, p) =>
  ((Verifier.new lc).receive msg r).bind fun v =>
  (protocolGo threads maxDegree p v r rs).bind fun v =>
  (lc.combine threads heap).bind fun asserted =>
  (v.check canon threads asserted).bind fun
    | none => some false
    | some (point, y) => (lc.evaluate threads heap point).map fun expected => decide (expected = y)

/-- `SumcheckVerifyingKey::operator==` and `SumcheckProvingKey::operator==` (sumcheck_verifying_key.h:27-30,
sumcheck_proving_key.h:30-33); the tables of the left key are compared with themselves. -/
def keyEq (a b : Prover F) : Bool :=
  a.numVars = b.numVars && a.maxEvals = b.maxEvals &&
    (a.terms.map fun t => (t.coeff, t.indexes)) = (b.terms.map fun t => (t.coeff, t.indexes)) &&
    a.tabs.length = a.tabs.length && (List.zipWith Multilinear.eq a.tabs a.tabs).all id

end Tachyon.Sumcheck
