import Verif.Model.GrandProduct
/-!
# The lookup argument with logarithmic derivatives

`zk/lookup/log_derivative_halo2/{prover.h, prover_impl.h, verifier.h, evaluator.h}` and `BinarySearchByKey` of
`base/containers/container_util.h`.

`none` is a failing `CHECK`, an access out of bounds, a null optional that is dereferenced, or the use of a vector
that has not been written. Columns are lists of `n` values. `canon` is `ToBigInt`. The storages are those of one
call: their vectors have `usable_rows` elements (prover.h:48-66), the counters are 0 before and after
(prover.h:50-52, prover_impl.h:134). Counters do not wrap around.
-/
universe u
namespace Tachyon.LogDerivative
open Parallel Lookup Tachyon.Group GrandProduct

/-- `BinarySearchByKey` (container_util.h:168-185) on values with indices, with at most `fuel` iterations: the index
of the entry found. -/
def search (l : List (Nat × Nat)) (v : Nat) : Nat → Nat → Nat → Option (Option Nat)
  | 0, _, _ => none
  | fuel + 1, left, right =>
    if left < right then
      (l[left + (right - left) / 2]?).bind fun e =>
        if e.1 < v then search l v fuel (left + (right - left) / 2 + 1) right
        else if v < e.1 then search l v fuel left (left + (right - left) / 2)
        else some (some e.2)
    else some none

/-- An iteration of the loop over the inputs (prover_impl.h:121-128). -/
def countStep (l : List (Nat × Nat)) (m : List Nat) (v : Nat) : Option (List Nat) :=
  match search l v (l.length + 1) 0 l.length with
  | none => none
  | some none => some m
  | some (some i) => if i < m.length then some (m.modify i (· + 1)) else none

variable {F : Type u} [Field F] [DecidableEq F]

/-- `StableSort` of the table with the indices (prover_impl.h:108-113); `operator<` compares the values
(prover.h:32-40). -/
def sortTable (canon : F → Nat) (u : Nat) (table : List F) : Option (List (Nat × Nat)) :=
  ((List.range u).mapM fun i => (table[i]?).map fun t => (canon t, i)).map
    fun l => l.insertionSort fun a b => a.1 ≤ b.1

/-- The usable rows of a column. -/
def usable (u : Nat) (column : List F) : Option (List F) :=
  if u ≤ column.length then some (column.take u) else none

/-- `ComputeMPoly` (prover_impl.h:99-143): how often each row of the table is used. The additions to the counters are
atomic; they are made in the order of the inputs here. -/
def computeM (canon : F → Nat) (n blinding : Nat) (inputs : List (List F)) (table : List F) : Option (List F) :=
  (sortTable canon (usableRows n blinding) table).bind fun l =>
  (inputs.mapM (usable (usableRows n blinding))).bind fun vs =>
  ((vs.flatten.map canon).foldlM (countStep l) (List.replicate (usableRows n blinding) 0)).map fun m =>
    (List.range n).map fun i => if i < usableRows n blinding then ((m.getD i 0 : Nat) : F) else 0

/-- The callback in `ComputeLogDerivatives` (prover_impl.h:194-201). -/
def logChunk (beta : F) (evals : List F) (start len : Nat) : Option (List F) :=
  ((List.range' start len).mapM fun i => (evals[i]?).map (beta + ·)).bind fun d => batchInverseSerial d d.length 1

/-- `ComputeLogDerivatives` for chunks of `cs` rows. -/
def logChunked (cs : Nat) (beta : F) (evals : List F) (u : Nat) : Option (List F) :=
  ((invocations u cs).mapM fun c => logChunk beta evals (c.1 * cs) c.2).map List.flatten

/-- `ComputeLogDerivatives` (prover_impl.h:187-202) into a vector of `u` elements. -/
def logDerivatives (threads : Nat) (beta : F) (evals : List F) (u : Nat) : Option (List F) :=
  logChunked (sizePerThread threads u none) beta evals u

/-- The sum of the derivatives of the inputs (prover_impl.h:220-233); without inputs the vector is not written. -/
def sumDerivatives (threads : Nat) (beta : F) (inputs : List (List F)) (u : Nat) : Option (List F) :=
  match inputs with
  | [] => none
  | i :: is =>
    (logDerivatives threads beta i u).bind fun d =>
      is.foldlM (fun acc i => (logDerivatives threads beta i u).map fun d => List.zipWith (· + ·) acc d) d

/-- `log_derivatives_diff` (prover_impl.h:250). -/
def diffs (sums m table : List F) : List F := List.zipWith (fun s p => s - p.1 * p.2) sums (m.zip table)

/-- The inner loop of the first pass (prover_impl.h:277-279) after the value `prev`. -/
def runSum (diff : List F) : Nat → Nat → F → Option (List F)
  | _, 0, _ => some []
  | pos, len + 1, prev =>
    (diff[pos]?).bind fun d => (runSum diff (pos + 1) len (prev + d)).map fun r => (prev + d) :: r

/-- The callback of the first pass (prover_impl.h:274-281) on the rows `start, …`, the first of which holds `first`. -/
def segment (diff : List F) (start : Nat) (span : List F) : Option (List F) :=
  match span with
  | [] => none
  | first :: rest => (runSum diff start rest.length first).map fun r => first :: r

/-- The two passes with chunks of `cs` rows (prover_impl.h:264-295); `gs` are the usable rows. The sums of the
segments are `segment_sum` after its loop (prover_impl.h:283-285). -/
def twoPass (cs : Nat) (diff gs : List F) : Option (List F) :=
  ((invocations gs.length cs).mapM fun c => segment diff (c.1 * cs) (chunkOf gs cs c)).map fun segs =>
    (segs.zipIdx.map fun s =>
      if s.2 = 0 then s.1
      else s.1.map (· + ((segs.take s.2).map fun t => t.getLastD 0).sum)).flatten

/-- The usable rows of `grand_sum` before the passes (prover_impl.h:241-253). -/
def initial (u : Nat) (diff : List F) : List F := (0 :: diff).take u

/-- `std::partial_sum` (prover_impl.h:297-298) into the rows from 1 on. -/
def partialSums : F → List F → List F
  | _, [] => []
  | acc, d :: ds => (acc + d) :: partialSums (acc + d) ds

/-- The sums of the usable rows with OpenMP. -/
def sumsParallel (threads : Nat) (diff : List F) (u : Nat) : Option (List F) :=
  twoPass (sizePerThread threads u none) diff (initial u diff)

/-- The sums of the usable rows without OpenMP; without usable rows the range is not valid. -/
def sumsSerial (diff : List F) (u : Nat) : Option (List F) :=
  if u = 0 then none else some (0 :: partialSums 0 diff.dropLast)

/-- The rest of `CreateGrandSumPoly` (prover_impl.h:255, 301-306): the rows after the usable ones are 0, then blinded. -/
def finish (n blinding : Nat) (rnd : Nat → F) (k : Nat) (sums : List F) : Option (List F × Nat) :=
  match blind rnd k blinding false (sums ++ List.replicate (n - sums.length) 0) with
  | (e, true, k') => some (e, k')
  | _ => none

/-- `CreateGrandSumPoly` (prover_impl.h:204-307): the column and the number of random values. -/
def createSum (openmp : Bool) (threads n blinding : Nat) (rnd : Nat → F) (k : Nat) (m : List F)
    (inputs : List (List F)) (table : List F) (beta : F) : Option (List F × Nat) :=
  (sumDerivatives threads beta inputs (usableRows n blinding)).bind fun s =>
  (logDerivatives threads beta table (usableRows n blinding)).bind fun t =>
  if m.length < usableRows n blinding then none
  else
    (if openmp then sumsParallel threads (diffs s m t) (usableRows n blinding)
      else sumsSerial (diffs s m t) (usableRows n blinding)).bind (finish n blinding rnd k)

/-- `CreateGrandSumEvaluation` of the verifier (verifier.h:82-116); `inputs` and `table` are the compressed
expressions. -/
def verifierEval (threads : Nat) (beta : F) (inputs : List F) (table m z zNext : F) : Option F :=
  (batchInverse threads (inputs.map (· + beta)) inputs.length 1).bind fun inv =>
    if table + beta = 0 then none
    else
      some ((table + beta) * (inputs.map (· + beta)).foldl (· * ·) 1 * (zNext - z) -
        (table + beta) * (inputs.map (· + beta)).foldl (· * ·) 1 *
          (inv.foldl (· + ·) 0 - m * (table + beta)⁻¹))

/-- `Evaluate` of the verifier for an argument (verifier.h:34-48). -/
def verifierEvaluate (threads : Nat) (l : LValues F) (beta : F) (inputs : List F) (table m z zNext : F) :
    Option (List F) :=
  (verifierEval threads beta inputs table m z zNext).map fun e => [l.first * z, l.last * z, l.active * e]

/-- `inputs_exclusive` (evaluator.h:151-161). -/
def exclusive (values : List F) : F :=
  (List.range values.length).foldl (fun acc i =>
    acc + values.zipIdx.foldl (fun p x => if x.2 ≠ i then p * x.1 else p) 1) 0

/-- `lhs - rhs` of the prover (evaluator.h:136-164). -/
def proverEval (beta : F) (inputs : List F) (table m z zNext : F) : F :=
  (table + beta) * (inputs.map (· + beta)).foldl (· * ·) 1 * (zNext - z) -
    ((table + beta) * exclusive (inputs.map (· + beta)) - (inputs.map (· + beta)).foldl (· * ·) 1 * m)

/-- The constraints that the prover puts into the circuit polynomial (evaluator.h:166-176). -/
def proverEvaluate (l : LValues F) (beta : F) (inputs : List F) (table m z zNext : F) : List F :=
  [l.first * z, l.last * z, proverEval beta inputs table m z zNext * l.active]

end Tachyon.LogDerivative
