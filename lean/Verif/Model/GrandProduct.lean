import Verif.Model.Group
import Verif.Model.Lookup
import Verif.Model.Domain
/-!
# The grand products of the permutation, lookup and shuffle arguments

`zk/plonk/permutation/{grand_product_argument,permutation_table_store,permutation_prover_impl,
permutation_verifier}.h`, the callbacks and verifiers of `zk/lookup/halo2` and `zk/shuffle`.

`none` is a failing `CHECK` or an access out of bounds. Columns are lists of `n` values, `n` is `pcs().N()`. The
values of the random generator are `rnd 0, rnd 1, …`; a function that draws values takes the number of values
drawn so far and returns the new one. Row indices stay below `2^32` and are not reduced. A parallel loop runs its
callbacks in the order of the chunks; they work on disjoint rows.
-/
universe u
namespace Tachyon.GrandProduct
open Parallel Lookup Tachyon.Group

variable {F : Type u} [Field F] [DecidableEq F]

/-- The two nested loops that multiply the values of a callback into the rows `start, …`
(grand_product_argument.h:93-97, 102-106). -/
def mulCols (cb : Nat → Nat → Option F) (cols start : Nat) (g : List F) : Option (List F) :=
  (List.range cols).foldlM (fun g i => g.zipIdx.mapM fun a => (cb i (start + a.2)).map (a.1 * ·)) g

/-- The callback of `Parallelize` in `CreateExcessivePoly` (grand_product_argument.h:90-107) on the rows
`start, …, start + len - 1`, which are 1 before. -/
def chunkRatios (num den : Nat → Nat → Option F) (cols start len : Nat) : Option (List F) :=
  match mulCols den cols start (List.replicate len 1) with
  | none => none
  | some d =>
    match batchInverseSerial d d.length 1 with
    | none => none
    | some e => mulCols num cols start e

/-- `DoCreatePoly` (grand_product_argument.h:113-130): the column, `last_z` and the number of random values;
`gp` is `grand_product` without its first entry. -/
def doCreate (n blinding : Nat) (rnd : Nat → F) (k : Nat) (lastZ : F) (gp : List F) :
    Option (List F × F × Nat) :=
  let u := usableRows n blinding
  if gp.length < u then none
  else
    let zs := (gp.take u).scanl (· * ·) lastZ
    match zs.getLast?, blind rnd k blinding false (zs ++ gp.drop u).dropLast with
    | some z, (e, true, k') => some (e, z, k')
    | _, _ => none

/-- `CreateExcessivePoly` for chunks of `cs` rows. -/
def createChunked (cs n blinding : Nat) (rnd : Nat → F) (k : Nat) (num den : Nat → Nat → Option F)
    (cols : Nat) (lastZ : F) : Option (List F × F × Nat) :=
  match (invocations n cs).mapM fun c => chunkRatios num den cols (c.1 * cs) c.2 with
  | none => none
  | some gs => doCreate n blinding rnd k lastZ gs.flatten

/-- `CreateExcessivePoly` (grand_product_argument.h:77-110, base/parallelize.h:189-195). -/
def createExcessive (threads n blinding : Nat) (rnd : Nat → F) (k : Nat) (num den : Nat → Nat → Option F)
    (cols : Nat) (lastZ : F) : Option (List F × F × Nat) :=
  createChunked (sizePerThread threads n none) n blinding rnd k num den cols lastZ

/-- `CreatePolySerial` (grand_product_argument.h:42-70). -/
def createSerial (n blinding : Nat) (rnd : Nat → F) (k : Nat) (num den : Nat → Option F) :
    Option (List F × F × Nat) :=
  match (List.range n).mapM den with
  | none => none
  | some d =>
    match batchInverseSerial d d.length 1 with
    | none => none
    | some e =>
      match e.zipIdx.mapM fun a => (num a.2).map (a.1 * ·) with
      | none => none
      | some gp => doCreate n blinding rnd k 1 gp

/-- A value of a table of columns. -/
def cell (t : List (List F)) (i j : Nat) : Option F := (t[i]?).bind (·[j]?)

/-- The callbacks of the permutation argument (permutation_prover_impl.h:214-244): `v + β l + γ` where `l` is the
label of the cell or of the next one in the cycle. -/
def permCallback (labels values : List (List F)) (offset : Nat) (beta gamma : F) (i j : Nat) : Option F :=
  match cell values (offset + i) j, cell labels (offset + i) j with
  | some v, some l => some (v + beta * l + gamma)
  | _, _ => none

/-- `GetChunkNum` (permutation_table_store.h:70-72, permutation_prover_impl.h:74). -/
def chunkNum (cols len : Nat) : Nat := (cols + len - 1) / len

/-- `GetChunkSize` (permutation_table_store.h:37-47). -/
def chunkSize (cols len idx : Nat) : Option Nat :=
  if chunkNum cols len ≤ idx then none
  else if idx < chunkNum cols len - 1 then some len
  else some (cols - (chunkNum cols len - 1) * len)

/-- A chunk of `CreateGrandProductPolys` (permutation_prover_impl.h:34-46). -/
def permStep (threads n blinding : Nat) (rnd : Nat → F) (values permuted unpermuted : List (List F))
    (len : Nat) (beta gamma : F) (idx : Nat) (lastZ : F) (k : Nat) : Option (List F × F × Nat) :=
  (chunkSize values.length len idx).bind fun size =>
    createExcessive threads n blinding rnd k (permCallback unpermuted values (idx * len) beta gamma)
      (permCallback permuted values (idx * len) beta gamma) size lastZ

/-- The chunks `idx, …` of `CreateGrandProductPolys` (permutation_prover_impl.h:33-50); another random value is
drawn for every polynomial. -/
def permLoop (threads n blinding : Nat) (rnd : Nat → F) (values permuted unpermuted : List (List F))
    (len : Nat) (beta gamma : F) : Nat → Nat → F → Nat → Option (List (List F) × F × Nat)
  | 0, _, lastZ, k => some ([], lastZ, k)
  | m + 1, idx, lastZ, k =>
    (permStep threads n blinding rnd values permuted unpermuted len beta gamma idx lastZ k).bind fun r =>
      (permLoop threads n blinding rnd values permuted unpermuted len beta gamma m (idx + 1) r.2.1 (r.2.2 + 1)).map
        fun q => (r.1 :: q.1, q.2)

/-- `CreateGrandProductPolys` as called by `BatchCreateGrandProductPolys` (permutation_prover_impl.h:24-51,
73-84); `len` is the number of columns of a chunk. -/
def permCreate (threads n blinding : Nat) (rnd : Nat → F) (k : Nat) (values permuted unpermuted : List (List F))
    (len : Nat) (beta gamma : F) : Option (List (List F) × F × Nat) :=
  if len = 0 then none
  else permLoop threads n blinding rnd values permuted unpermuted len beta gamma (chunkNum values.length len) 0 1 k

/-- `(a + β) * (s + γ)` in a row. -/
def pairCallback (input table : List F) (beta gamma : F) (j : Nat) : Option F :=
  match input[j]?, table[j]? with
  | some a, some s => some ((a + beta) * (s + gamma))
  | _, _ => none

/-- `CreateGrandProductPoly` of the lookup argument: the callbacks of lookup/halo2/prover_impl.h:270-297 given
to `CreatePolySerial`. -/
def lookupCreate (n blinding : Nat) (rnd : Nat → F) (k : Nat) (input table input' table' : List F)
    (beta gamma : F) : Option (List F × F × Nat) :=
  createSerial n blinding rnd k (pairCallback input table beta gamma) (pairCallback input' table' beta gamma)

/-- `CreateGrandProductPoly` of the shuffle argument (shuffle/prover_impl.h:71-81, 190-207). -/
def shuffleCreate (n blinding : Nat) (rnd : Nat → F) (k : Nat) (input shuffle : List F) (gamma : F) :
    Option (List F × F × Nat) :=
  createSerial n blinding rnd k (fun j => (input[j]?).map (· + gamma)) (fun j => (shuffle[j]?).map (· + gamma))

/-- `LValues` (plonk/base/l_values.h:8-13). -/
structure LValues (F : Type u) where
  first : F
  blind : F
  last : F

/-- The values of the Lagrange polynomials in `ComputeAuxValues` (plonk/halo2/verifier.h:128-139). -/
def lValues (threads : Nat) (d : FFT.Domain F) (x : F) (blinding : Nat) : Option (LValues F) :=
  match d.partialLagrange threads x (-((blinding : Int) + 1)) (blinding + 2) with
  | none => none
  | some l =>
    match l[1 + blinding]?, l[0]? with
    | some first, some last => some ⟨first, ((l.drop 1).take blinding).foldl (· + ·) 0, last⟩
    | _, _ => none

/-- `F active_rows` (permutation_verifier.h:51, lookup/halo2/verifier.h:39, shuffle/verifier.h:34). -/
def LValues.active (l : LValues F) : F := 1 - (l.last + l.blind)

/-- The loop over a chunk for `right` (permutation_verifier.h:65-72). -/
def rightLoop (delta gamma : F) : List F → F → F → F
  | [], _, acc => acc
  | v :: vs, cur, acc => rightLoop delta gamma vs (cur * delta) (acc * (v + cur + gamma))

/-- An iteration over the chunks (permutation_verifier.h:53-75). -/
def permChunk (l : LValues F) (x beta gamma delta : F) (len : Nat) (cols subst z zNext : List F) (k : Nat) :
    Option F :=
  let vs := (cols.drop (k * len)).take len
  let ss := (subst.drop (k * len)).take vs.length
  if ss.length ≠ vs.length then none
  else
    match zNext[k]?, z[k]? with
    | some zn, some zc =>
      let left := (vs.zip ss).foldl (fun acc p => acc * (p.1 + beta * p.2 + gamma)) zn
      let right := rightLoop delta gamma vs (beta * x * powSize delta (k * len)) zc
      some (l.active * (left - right))
    | _, _ => none

/-- The constraint between the polynomials `i` and `i + 1` (permutation_verifier.h:39-43). -/
def linkEvaluate (l : LValues F) (z : List F) (zLast : List (Option F)) (i : Nat) : Option F :=
  match z[i + 1]?, zLast[i]? with
  | some zc, some (some zp) => some (l.first * (zc - zp))
  | _, _ => none

/-- `PermutationVerifier::Evaluate` (permutation_verifier.h:28-76): the values of the constraints. `cols` are the
values of the columns of the argument. -/
def permEvaluate (l : LValues F) (x beta gamma delta : F) (len : Nat) (cols subst z zNext : List F)
    (zLast : List (Option F)) : Option (List F) :=
  match z.head?, z.getLast? with
  | some zf, some zl =>
    if len = 0 then none
    else
      match (List.range (z.length - 1)).mapM (linkEvaluate l z zLast) with
      | none => none
      | some links =>
        ((List.range (chunkNum cols.length len)).mapM
          (permChunk l x beta gamma delta len cols subst z zNext)).map fun cs =>
            [l.first * (1 - zf), l.last * (zl ^ 2 - zl)] ++ links ++ cs
  | _, _ => some []

/-- The constraints of a lookup (lookup/halo2/verifier.h:41-61, 101-116); `input` and `table` are the compressed
expressions, `pInput`, `pTable` the permuted columns. -/
def lookupEvaluate (l : LValues F) (beta gamma input table pInput pTable pInputPrev z zNext : F) : List F :=
  [l.first * (1 - z), l.last * (z ^ 2 - z),
    l.active * (zNext * (pInput + beta) * (pTable + gamma) - z * (input + beta) * (table + gamma)),
    l.first * (pInput - pTable), l.active * (pInput - pTable) * (pInput - pInputPrev)]

/-- The constraints of a shuffle (shuffle/verifier.h:36-47, 81-93). -/
def shuffleEvaluate (l : LValues F) (gamma input shuffle z zNext : F) : List F :=
  [l.first * (1 - z), l.last * (z ^ 2 - z),
    l.active * (zNext * (shuffle + gamma) - z * (input + gamma))]

/-- `CompressExpressions` (lookup/halo2/verifier.h:90-99, shuffle/verifier.h:70-79). -/
def compress (theta : F) (values : List F) : F := values.foldl (fun c v => c * theta + v) 0

end Tachyon.GrandProduct
