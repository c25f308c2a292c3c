import Verif.Model.Graph
import Verif.Model.GrandProduct
import Verif.Model.Vanishing
/-!
# The circuit polynomial of plonk

`zk/plonk/vanishing/{circuit_polynomial_builder,custom_gate_evaluator,vanishing_argument,vanishing_verifier}.h`,
`zk/plonk/permutation/permutation_evaluator.h`, `zk/lookup/halo2/evaluator.h`, `zk/shuffle/evaluator.h`, the Lagrange
polynomials of `zk/plonk/keys/proving_key.h`, `EvaluateH` of `zk/plonk/halo2/verifier.h`, `ComputeDegree` of
`zk/plonk/constraint_system/constraint_system.h`.

`none` is a failing `CHECK` or an access out of bounds. The path of the vendor Scroll is modelled. Evaluations are lists;
reading them outside gives zero (univariate_evaluations.h:142-147). The evaluators get the cosets of the circuit as
arguments instead of keeping them: all circuits have the same number of polynomials. Phases of columns are left out.
Lookups are those of halo2, with one vector of input expressions.
-/
universe u
namespace Tachyon.CircuitPoly
open Plonk FFT Parallel Vanishing Tachyon.Group

/-- `AnyColumnKey` (plonk/base/column_key.h:25-200). -/
inductive Key where
  | fixed (index : Nat)
  | advice (index : Nat)
  | inst (index : Nat)
  deriving DecidableEq

/-- A lookup or shuffle argument (lookup/argument.h:21-217, shuffle/argument.h:20-88): the input expressions and those of
the table or of the shuffled columns. -/
structure Argument (F : Type u) where
  inputs : List (Expr F)
  targets : List (Expr F)

/-- The members of `ConstraintSystem` that are used here (constraint_system.h:911-946). -/
structure System (F : Type u) where
  gates : List (List (Expr F))
  columns : List Key
  lookups : List (Argument F)
  shuffles : List (Argument F)
  fixedQueries : List (Nat × Int)
  adviceQueries : List (Nat × Int)
  instQueries : List (Nat × Int)
  minimumDegree : Option Nat

/-- `GetMaxExprDegree` (lookup/argument.h:205-212, shuffle/argument.h:76-83). -/
def maxExprDegree {F : Type u} (es : List (Expr F)) : Nat := es.foldl (fun d e => max d (degree e)) 1

/-- `RequiredDegree` of a lookup (lookup/argument.h:101-202) with one vector of input expressions. -/
def lookupDegree {F : Type u} (a : Argument F) : Option Nat :=
  if a.inputs.length ≠ a.targets.length then none
  else some (max (3 + 1) (2 + maxExprDegree a.inputs + maxExprDegree a.targets))

/-- `RequiredDegree` of a shuffle (shuffle/argument.h:65-73). -/
def shuffleDegree {F : Type u} (a : Argument F) : Nat := 2 + max (maxExprDegree a.targets) (maxExprDegree a.inputs)

/-- The maximum of a vector, or a value for the empty one (constraint_system.h:836-839, 847-850, 861-864). -/
def maxOr (empty : Nat) (l : List Nat) : Nat := (l.max?).getD empty

/-- `ComputeDegree` (constraint_system.h:657-678, 831-865) without the cache; `RequiredDegree` of the permutation argument
is 3 (permutation_argument.h:37-69). -/
def computeDegree {F : Type u} (s : System F) : Option Nat :=
  (s.lookups.mapM lookupDegree).map fun ls =>
    max (max (max (max 3 (maxOr 1 ls)) (maxOr 1 (s.shuffles.map shuffleDegree)))
      (maxOr 0 ((s.gates.flatten).map degree))) (s.minimumDegree.getD 1)

section
variable {F : Type u} [Field F] [DecidableEq F]

/-- The graphs of the evaluators. -/
structure Graphs (F : Type u) where
  gates : Graph F
  lookups : List (Graph F)
  shuffles : List (Graph F)

/-- `VanishingArgument::Create` (vanishing_argument.h:46-53, lookup/halo2/evaluator.h:26-63, shuffle/evaluator.h:27-68). -/
def createGraphs (s : System F) : Option (Graphs F) :=
  (constructGates s.gates).bind fun g =>
    (s.lookups.mapM fun a => constructLookup a.inputs a.targets).bind fun ls =>
      (s.shuffles.mapM fun a => (constructShift .gamma a.inputs).bind fun i =>
        (constructShift .gamma a.targets).map fun t => [i, t]).map fun ss => ⟨g, ls, ss.flatten⟩

/-- The members of `CircuitPolynomialBuilder` that the evaluators read (circuit_polynomial_builder.h:249-280). -/
structure Builder (F : Type u) where
  n : Nat
  chunkLen : Nat
  lastRotation : Int
  omega : F
  delta : F
  deltaStart : F
  ch : Challenges F
  current : F
  lFirst : List F
  lLast : List F
  lActive : List F
  table : Table F

/-- `operator[]` of evaluations (univariate_evaluations.h:142-147). -/
def at' (l : List F) (i : Nat) : F := l.getD i 0

/-- `Chunked` of a vector (base/containers/adapters.h:42-56, 101-104): chunks of `len` elements. -/
def chunked {α : Type u} (len : Nat) (l : List α) : List (List α) :=
  (List.range (GrandProduct.chunkNum l.length len)).map fun k => (l.drop (k * len)).take len

/-- A column of `GetColumns` (plonk/base/table_base.h:31-58). -/
def Key.column (t : Table F) : Key → Option (List F)
  | .fixed i => t.fixed[i]?
  | .advice i => t.advice[i]?
  | .inst i => t.inst[i]?

/-- The loop over the products for the links (permutation_evaluator.h:73-78). -/
def permLinks (b : Builder F) (idx rLast : Nat) : List (List F) → F → F
  | z :: z' :: zs, v =>
    permLinks b idx rLast (z' :: zs) (v * b.ch.y + at' b.lFirst idx * (at' z' idx - at' z rLast))
  | _, v => v

/-- The loop over a chunk for `right` (permutation_evaluator.h:97-101): `right` and `current_delta`. -/
def permRight (b : Builder F) (idx : Nat) : List (List F) → F → F → F × F
  | [], right, delta => (right, delta)
  | c :: cs, right, delta => permRight b idx cs (right * (at' c idx + delta + b.ch.gamma)) (delta * b.delta)

/-- The loop over a chunk for `left` (permutation_evaluator.h:92-96). -/
def permLeft (b : Builder F) (idx : Nat) : List (List F) → List (List F) → F → Option F
  | [], _, left => some left
  | c :: cs, s :: ss, left => permLeft b idx cs ss (left * (at' c idx + b.ch.beta * at' s idx + b.ch.gamma))
  | _ :: _, [], _ => none

/-- The loop over the products for the products (permutation_evaluator.h:88-104). -/
def permSets (b : Builder F) (idx rNext : Nat) :
    List (List F) → List (List (List F)) → List (List (List F)) → F → F → Option F
  | [], _, _, _, v => some v
  | z :: zs, c :: cs, s :: ss, delta, v =>
    (permLeft b idx c s (at' z rNext)).bind fun left =>
      let right := permRight b idx c (at' z idx) delta
      permSets b idx rNext zs cs ss right.2 (v * b.ch.y + (left - right.1) * at' b.lActive idx)
  | _, _, _, _, _ => none

/-- A row of the permutation evaluator (permutation_evaluator.h:51-106). -/
def permRow (b : Builder F) (products : List (List F)) (cols cosets : List (List (List F))) (idx : Nat)
    (betaTerm v : F) : Option F :=
  (products.head?).bind fun zf => (products.getLast?).bind fun zl =>
    (getIndex b.lastRotation idx 1 b.n).bind fun rLast => (getIndex 1 idx 1 b.n).bind fun rNext =>
      permSets b idx rNext products cols cosets (b.deltaStart * betaTerm)
        (permLinks b idx rLast products
          ((v * b.ch.y + (1 - at' zf idx) * at' b.lFirst idx) * b.ch.y +
            at' b.lLast idx * (at' zl idx ^ 2 - at' zl idx)))

/-- The loop over the rows (permutation_evaluator.h:50-107). -/
def permRows (b : Builder F) (products : List (List F)) (cols cosets : List (List (List F))) :
    F → Nat → List F → Option (List F)
  | _, _, [] => some []
  | betaTerm, idx, v :: vs =>
    (permRow b products cols cosets idx betaTerm v).bind fun r =>
      (permRows b products cols cosets (betaTerm * b.omega) (idx + 1) vs).map fun rs => r :: rs

/-- `PermutationEvaluator::Evaluate` for a chunk that starts in row `start` (permutation_evaluator.h:24-108). -/
def permChunk (b : Builder F) (keys : List Key) (products sigmas : List (List F)) (start : Nat) (chunk : List F) :
    Option (List F) :=
  if products.isEmpty then some chunk
  else if b.chunkLen = 0 then none
  else
    (keys.mapM (Key.column b.table)).bind fun cols =>
      permRows b products (chunked b.chunkLen cols) (chunked b.chunkLen sigmas)
        (b.current * powSize b.omega start) start chunk

/-- The cosets of a lookup (lookup/halo2/evaluator.h:71-73). -/
structure LookupCosets (F : Type u) where
  product : List F
  input : List F
  table : List F

/-- A row of the lookup evaluator (lookup/halo2/evaluator.h:86-125). -/
def lookupRow (b : Builder F) (c : LookupCosets F) (idx : Nat) (tableValue v : F) : Option F :=
  (getIndex 1 idx 1 b.n).bind fun rNext => (getIndex (-1) idx 1 b.n).map fun rPrev =>
    let aMinusS := at' c.input idx - at' c.table idx
    let v := v * b.ch.y + at' b.lFirst idx * (1 - at' c.product idx)
    let v := v * b.ch.y + at' b.lLast idx * (at' c.product idx ^ 2 - at' c.product idx)
    let v := v * b.ch.y + at' b.lActive idx *
      (at' c.product rNext * (at' c.input idx + b.ch.beta) * (at' c.table idx + b.ch.gamma) -
        at' c.product idx * tableValue)
    let v := v * b.ch.y + at' b.lFirst idx * aMinusS
    v * b.ch.y + at' b.lActive idx * aMinusS * (at' c.input idx - at' c.input rPrev)

/-- The loop over the rows (lookup/halo2/evaluator.h:80-126). -/
def lookupRows (b : Builder F) (g : Graph F) (c : LookupCosets F) : List F → Nat → List F → Option (List F)
  | _, _, [] => some []
  | ims, idx, v :: vs =>
    (g.evaluate b.table b.ch b.n ims idx 1 0).bind fun p =>
      (lookupRow b c idx p.1 v).bind fun r =>
        (lookupRows b g c p.2 (idx + 1) vs).map fun rs => r :: rs

/-- `Evaluator::Evaluate` of the lookups (lookup/halo2/evaluator.h:65-128). -/
def lookupChunk (b : Builder F) (graphs : List (Graph F)) (cosets : List (LookupCosets F)) (start : Nat)
    (chunk : List F) : Option (List F) :=
  graphs.zipIdx.foldlM (fun chunk g => (cosets[g.2]?).bind fun c =>
    lookupRows b g.1 c (List.replicate g.1.num 0) start chunk) chunk

/-- A row of the shuffle evaluator (shuffle/evaluator.h:96-116). -/
def shuffleRow (b : Builder F) (product : List F) (idx : Nat) (inputValue value v : F) : Option F :=
  (getIndex 1 idx 1 b.n).map fun rNext =>
    let v := v * b.ch.y + at' b.lFirst idx * (1 - at' product idx)
    let v := v * b.ch.y + at' b.lLast idx * (at' product idx ^ 2 - at' product idx)
    v * b.ch.y + at' b.lActive idx * (at' product rNext * value - at' product idx * inputValue)

/-- The loop over the rows (shuffle/evaluator.h:88-117). -/
def shuffleRows (b : Builder F) (gi gs : Graph F) (product : List F) :
    List F → List F → Nat → List F → Option (List F)
  | _, _, _, [] => some []
  | ims, ims', idx, v :: vs =>
    (gi.evaluate b.table b.ch b.n ims idx 1 0).bind fun p => (gs.evaluate b.table b.ch b.n ims' idx 1 0).bind fun q =>
      (shuffleRow b product idx p.1 q.1 v).bind fun r =>
        (shuffleRows b gi gs product p.2 q.2 (idx + 1) vs).map fun rs => r :: rs

/-- `Evaluator::Evaluate` of the shuffles (shuffle/evaluator.h:70-119): the index goes up by two, also for the products. -/
def shuffleChunk (b : Builder F) (graphs : List (Graph F)) (products : List (List F)) (start : Nat)
    (chunk : List F) : Option (List F) :=
  (List.range ((graphs.length + 1) / 2)).foldlM (fun chunk m =>
    (graphs[2 * m]?).bind fun gi => (graphs[2 * m + 1]?).bind fun gs => (products[2 * m]?).bind fun z =>
      shuffleRows b gi gs z (List.replicate gi.num 0) (List.replicate gs.num 0) start chunk) chunk

/-- The polynomials of the prover for a circuit: the columns (`poly_tables_`), and the polynomials of the provers of the
arguments (circuit_polynomial_builder.h:271-274). -/
structure Circuit (F : Type u) where
  polys : Table F
  products : List (List F)
  lookups : List (LookupCosets F)
  shuffles : List (List F)

/-- The polynomials of the proving key (keys/proving_key.h:197-209). -/
structure ProvingKey (F : Type u) where
  sigmas : List (List F)
  lFirst : List F
  lLast : List F
  lActive : List F

/-- `l_first`, `l_last`, `l_active_row` (keys/proving_key.h:128-172); `usable` is `GetUsableRows()`. -/
def lagrangePolys (threads : Nat) (o : Sched) (d : Domain F) (item : Item F) (usable : Nat) :
    Option (List F × List F × List F) :=
  if d.size ≤ usable then none
  else
    (ifft threads o d item ((List.replicate d.size 0).set 0 1)).bind fun first =>
      (ifft threads o d item ((List.replicate d.size 0).set usable 1)).bind fun last =>
        (ifft threads o d item ((List.range d.size).map fun i => if i < usable then 1 else 0)).map fun active =>
          (first, last, active)

/-- `UpdateCosets` of the gates (custom_gate_evaluator.h:59-130). -/
def tableCosets (threads : Nat) (o : Sched) (cd : Domain F) (item : Item F) (t : Table F) : Option (Table F) :=
  (t.fixed.mapM (fft threads o cd item)).bind fun fixed =>
    (t.advice.mapM (fft threads o cd item)).bind fun advice =>
      (t.inst.mapM (fft threads o cd item)).map fun inst => ⟨fixed, advice, inst, t.challenges⟩

/-- `UpdateCosets` for a lookup (lookup/halo2/evaluator.h:158-163). -/
def lookupCosets (threads : Nat) (o : Sched) (cd : Domain F) (item : Item F) (c : LookupCosets F) :
    Option (LookupCosets F) :=
  (fft threads o cd item c.product).bind fun product => (fft threads o cd item c.input).bind fun input =>
    (fft threads o cd item c.table).map fun table => ⟨product, input, table⟩

/-- A callback of `Parallelize` (circuit_polynomial_builder.h:229-239). -/
def evalChunk (g : Graphs F) (b : Builder F) (keys : List Key) (products sigmas : List (List F))
    (lookups : List (LookupCosets F)) (shuffles : List (List F)) (start : Nat) (chunk : List F) : Option (List F) :=
  (g.gates.chunk b.table b.ch b.n start chunk).bind fun chunk =>
    (permChunk b keys products sigmas start chunk).bind fun chunk =>
      (lookupChunk b g.lookups lookups start chunk).bind fun chunk =>
        shuffleChunk b g.shuffles shuffles start chunk

/-- An iteration over the circuits (circuit_polynomial_builder.h:219-240). -/
def evalCircuit (threads : Nat) (o : Sched) (cd : Domain F) (item : Item F) (g : Graphs F) (keys : List Key)
    (key : ProvingKey F) (b : Builder F) (c : Circuit F) (values : List F) : Option (List F) :=
  (tableCosets threads o cd item c.polys).bind fun table =>
    (c.products.mapM (fft threads o cd item)).bind fun products =>
      (key.sigmas.mapM (fft threads o cd item)).bind fun sigmas =>
        (c.lookups.mapM (lookupCosets threads o cd item)).bind fun lookups =>
          (c.shuffles.mapM (fft threads o cd item)).bind fun shuffles =>
            let cs := numElementsPerThread threads values.length none
            ((invocations values.length cs).mapM fun i => evalChunk g { b with table := table } keys products sigmas
              lookups shuffles (i.1 * cs) (chunkOf values cs i)).map List.flatten

/-- An iteration over the parts (circuit_polynomial_builder.h:211-242). -/
def buildPart (threads : Nat) (o : Sched) (d : Domain F) (item : Item F) (g : Graphs F) (keys : List Key)
    (key : ProvingKey F) (zeta : F) (b : Builder F) (circuits : List (Circuit F)) : Option (List F) :=
  (d.getCoset (zeta * b.current)).bind fun cd =>
    (fft threads o cd item key.lFirst).bind fun lFirst => (fft threads o cd item key.lLast).bind fun lLast =>
      (fft threads o cd item key.lActive).bind fun lActive =>
        circuits.foldlM (fun values c => evalCircuit threads o cd item g keys key
          { b with lFirst := lFirst, lLast := lLast, lActive := lActive } c values) (List.replicate b.n 0)

/-- The loop over the parts (circuit_polynomial_builder.h:207-244). -/
def buildParts (threads : Nat) (o : Sched) (d : Domain F) (item : Item F) (g : Graphs F) (keys : List Key)
    (key : ProvingKey F) (zeta extendedOmega : F) (circuits : List (Circuit F)) :
    Nat → Builder F → Option (List (List F))
  | 0, _ => some []
  | m + 1, b =>
    (buildPart threads o d item g keys key zeta b circuits).bind fun part =>
      (buildParts threads o d item g keys key zeta extendedOmega circuits m
        { b with current := b.current * extendedOmega }).map fun parts => part :: parts

/-- `VanishingArgument::BuildExtendedCircuitColumn` (vanishing_argument.h:55-74, circuit_polynomial_builder.h:103-128,
199-247); `delta` is `GetDelta()`, `blinding` the number of blinding factors. -/
def buildColumn (threads : Nat) (o : Sched) (d ext : Domain F) (item : Item F) (s : System F) (key : ProvingKey F)
    (blinding : Nat) (delta zeta : F) (ch : Challenges F) (circuits : List (Circuit F)) : Option (List F) :=
  (createGraphs s).bind fun g => (computeDegree s).bind fun degree =>
    (buildParts threads o d item g s.columns key zeta ext.gen circuits (ext.size / 2 ^ d.logSize)
      ⟨d.size, degree - 2, -((blinding : Int) + 1), d.gen, delta, ch.beta * zeta, ch, 1, [], [], [],
        ⟨[], [], [], []⟩⟩).bind buildExtended

/-! ### The verifier -/

/-- `QueryIndex` (constraint_system.h:809-819). -/
def queryIndex (queries : List (Nat × Int)) (column : Nat) (rotation : Int) : Option Nat :=
  queries.findIdx? fun q => decide (q = (column, rotation))

/-- `GetEval` (permutation_verifier.h:118-140, constraint_system.h:413-445). -/
def getEval (s : System F) (e : Evaluations F) : Key → Option F
  | .fixed i => (queryIndex s.fixedQueries i 0).bind fun j => e.fixed[j]?
  | .advice i => (queryIndex s.adviceQueries i 0).bind fun j => e.advice[j]?
  | .inst i => (queryIndex s.instQueries i 0).bind fun j => e.inst[j]?

/-- The evaluations of a lookup (lookup/halo2/verifier_data.h:10-44). -/
structure LookupEvals (F : Type u) where
  product : F
  productNext : F
  input : F
  inputPrev : F
  table : F

/-- The evaluations for a circuit in the proof (plonk/halo2/proof.h:23-53, 136-183). -/
structure CircuitEvals (F : Type u) where
  evals : Evaluations F
  products : List F
  productsNext : List F
  productsLast : List (Option F)
  lookups : List (LookupEvals F)
  shuffles : List (F × F)

/-- `CompressExpressions` (lookup/halo2/verifier.h:90-99, shuffle/verifier.h:70-79). -/
def compressed (e : Evaluations F) (theta : F) (es : List (Expr F)) : Option F :=
  (es.mapM (evalVerifying e)).map (GrandProduct.compress theta)

/-- The iteration of `EvaluateH` for a circuit (plonk/halo2/verifier.h:327-350): the values of the constraints; `subst`
are the evaluations of the permutation polynomials. -/
def verifierCircuit (s : System F) (l : GrandProduct.LValues F) (x delta : F) (ch : Challenges F) (len : Nat)
    (subst : List F) (c : CircuitEvals F) : Option (List F) :=
  ((s.gates.flatten).mapM (evalVerifying c.evals)).bind fun gates =>
    (if c.products.isEmpty then some [] else (s.columns.mapM (getEval s c.evals)).bind fun cols =>
      GrandProduct.permEvaluate l x ch.beta ch.gamma delta len cols subst c.products c.productsNext
        c.productsLast).bind fun perm =>
      (c.lookups.zipIdx.mapM fun p => (s.lookups[p.2]?).bind fun a =>
        (compressed c.evals ch.theta a.inputs).bind fun input => (compressed c.evals ch.theta a.targets).map fun table =>
          GrandProduct.lookupEvaluate l ch.beta ch.gamma input table p.1.input p.1.table p.1.inputPrev p.1.product
            p.1.productNext).bind fun lookups =>
        (c.shuffles.zipIdx.mapM fun p => (s.shuffles[p.2]?).bind fun a =>
          (compressed c.evals ch.theta a.inputs).bind fun input =>
            (compressed c.evals ch.theta a.targets).map fun shuffle =>
              GrandProduct.shuffleEvaluate l ch.gamma input shuffle p.1.1 p.1.2).map fun shuffles =>
          gates ++ perm ++ lookups.flatten ++ shuffles.flatten

/-- `EvaluateH` (plonk/halo2/verifier.h:311-356) with the values of `ComputeAuxValues` (verifier.h:128-146). -/
def evaluateH (threads : Nat) (d : Domain F) (s : System F) (blinding : Nat) (x delta : F) (ch : Challenges F)
    (subst : List F) (circuits : List (CircuitEvals F)) : Option F :=
  (GrandProduct.lValues threads d x blinding).bind fun l => (computeDegree s).bind fun degree =>
    (circuits.mapM (verifierCircuit s l x delta ch (degree - 2) subst)).bind fun evals =>
      expectedH ch.y (squareTimes d.logSize x) evals.flatten

end
end Tachyon.CircuitPoly
