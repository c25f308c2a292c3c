import Verif.Model.Parallel
import Mathlib.Data.List.Sort
/-! Merkle trees over matrices of different heights: `field_merkle_tree.h` and `field_merkle_tree_mmcs.h`
in `crypto/commitments/merkle_tree/field_merkle_tree`; `extension_field_merkle_tree_mmcs.h` only forwards
to the latter. The CUDA parts are not modelled.

A matrix is the list of its rows. `base::StableSort` (third-party powersort) is represented by insertion
sort: the result of a stable sort is determined by its input. A packed value is represented by its lanes,
so a vector of packed values is the list of the vectors in the lanes. -/
universe u v w
namespace Tachyon.MMCS
open Tachyon.Parallel

variable {F : Type u} {P : Type v} {D : Type w}

/-- The hash functions of the scheme (field_merkle_tree_mmcs.h:270-273), and the coefficients of a field
element over the prime field (a single one for a prime field). -/
structure Ops (F : Type u) (P : Type v) (D : Type w) where
  flat : F → List P
  hash : List P → D
  compress : D → D → D
  packedHash : List (List P) → List D
  packedCompress : List D → List D → List D
  /-- A value-initialised digest. -/
  dflt : D

/-- `absl::bit_ceil`. -/
def bitCeil (n : Nat) : Nat := if n ≤ 1 then 1 else 2 ^ (Nat.log2 (n - 1) + 1)

/-- `base::bits::Log2Ceiling` of a positive number. -/
def log2Ceil (n : Nat) : Nat := if n ≤ 1 then 0 else Nat.log2 (n - 1) + 1

/-- Row `row` of a matrix over the prime field (field_merkle_tree.h:431-450); `none` out of bounds. -/
def rowOf (o : Ops F P D) (m : List (List F)) (row : Nat) : Option (List P) :=
  m[row]?.map fun r => r.flatMap o.flat

/-- `GetRowAsPrimeFieldVector` (field_merkle_tree.h:427-452). -/
def rowsAt (o : Ops F P D) (ms : List (List (List F))) (row : Nat) : Option (List P) :=
  (ms.mapM fun m => rowOf o m row).map List.flatten

/-- Lane `i` of the packed vector built with `PackRowVertically` (math/matrix/matrix_utils.h:86-108):
row `(row + i) % rows`. -/
def packLane (o : Ops F P D) (ms : List (List (List F))) (row i : Nat) : Option (List P) :=
  (ms.mapM fun m => rowOf o m ((row + i) % m.length)).map List.flatten

/-- The packed vector of a chunk of rows (field_merkle_tree.h:280-283, :339-342). -/
def packRows (o : Ops F P D) (ms : List (List (List F))) (lanes row : Nat) : Option (List (List P)) :=
  (List.range lanes).mapM (packLane o ms row)

/-- `DynamicParallelizeByChunkSize` (base/parallelize.h:144-158) with a callback that fills its span. -/
def fillChunks (size chunkSize : Nat) (f : Nat → Nat → Option (List D)) : Option (List D) :=
  ((invocations size chunkSize).mapM fun c => f (c.1 * chunkSize) c.2).map List.flatten

/-- The callback of `CreateFirstDigestLayer` (field_merkle_tree.h:276-297). -/
def firstChunk (o : Ops F P D) (lanes : Nat) (ms : List (List (List F))) (start len : Nat) :
    Option (List D) :=
  if len = lanes then (packRows o ms lanes start).map o.packedHash
  else (List.range len).mapM fun i => (rowsAt o ms (start + i)).map o.hash

/-- `CreateFirstDigestLayer` (field_merkle_tree.h:264-299). -/
def firstLayer (o : Ops F P D) (lanes : Nat) (ms : List (List (List F))) : Option (List D) :=
  match ms with
  | [] => none
  | m :: _ => (fillChunks m.length lanes (firstChunk o lanes ms)).map fun ds =>
      ds ++ List.replicate (bitCeil m.length - m.length) o.dflt

/-- The two packed inputs of a compression (field_merkle_tree.h:324-337, :394-407): entries
`2 (start + j) + side` of the previous layer. -/
def packPrev (prev : List D) (lanes start side : Nat) : Option (List D) :=
  (List.range lanes).mapM fun j => prev[2 * (start + j) + side]?

/-- The packed compression of a chunk (field_merkle_tree.h:324-338, :394-408). -/
def packedPairs (o : Ops F P D) (lanes : Nat) (prev : List D) (start : Nat) : Option (List D) :=
  match packPrev prev lanes start 0, packPrev prev lanes start 1 with
  | some a, some b => some (o.packedCompress a b)
  | _, _ => none

/-- The compression of one pair (field_merkle_tree.h:352-356, :370-374, :416-420). -/
def pair (o : Ops F P D) (prev : List D) (i : Nat) : Option D :=
  match prev[2 * i]?, prev[2 * i + 1]? with
  | some a, some b => some (o.compress a b)
  | _, _ => none

/-- The callback of `Compress` (field_merkle_tree.h:390-423). -/
def compressChunk (o : Ops F P D) (lanes : Nat) (prev : List D) (start len : Nat) : Option (List D) :=
  if len = lanes then packedPairs o lanes prev start
  else (List.range len).mapM fun i => pair o prev (start + i)

/-- `Compress` (field_merkle_tree.h:380-425). -/
def compressLayer (o : Ops F P D) (lanes : Nat) (prev : List D) : Option (List D) :=
  fillChunks (prev.length / 2) lanes (compressChunk o lanes prev)

/-- One injected row (field_merkle_tree.h:351-360). -/
def injectRow (o : Ops F P D) (prev : List D) (ms : List (List (List F))) (i : Nat) : Option D :=
  match pair o prev i, rowsAt o ms i with
  | some c, some r => some (o.compress c (o.hash r))
  | _, _ => none

/-- The callback of `CompressAndInject` (field_merkle_tree.h:319-362). -/
def injectChunk (o : Ops F P D) (lanes : Nat) (prev : List D) (ms : List (List (List F)))
    (start len : Nat) : Option (List D) :=
  if len = lanes then
    match packedPairs o lanes prev start, packRows o ms lanes start with
    | some c, some rs => some (o.packedCompress c (o.packedHash rs))
    | _, _ => none
  else (List.range len).mapM fun i => injectRow o prev ms (start + i)

/-- A padded entry (field_merkle_tree.h:370-375). -/
def padEntry (o : Ops F P D) (prev : List D) (i : Nat) : Option D :=
  (pair o prev i).map fun c => o.compress c o.dflt

/-- The injecting part of `CompressAndInject` (field_merkle_tree.h:312-377) with `rows` the number of
rows of the first matrix. -/
def injectLayer (o : Ops F P D) (lanes : Nat) (prev : List D) (ms : List (List (List F))) (rows : Nat) :
    Option (List D) :=
  match fillChunks rows lanes (injectChunk o lanes prev ms),
      (List.range' rows (bitCeil rows - rows)).mapM (padEntry o prev) with
  | some a, some b => some (a ++ b)
  | _, _ => none

/-- `CompressAndInject` (field_merkle_tree.h:301-378). -/
def compressAndInject (o : Ops F P D) (lanes : Nat) (prev : List D) (ms : List (List (List F))) :
    Option (List D) :=
  match ms with
  | [] => compressLayer o lanes prev
  | m :: _ => injectLayer o lanes prev ms m.length

/-- The loop of `DoBuildCpu` (field_merkle_tree.h:238-260): the layers above `prev`, from the bottom. The
first argument bounds the number of layers. -/
def layersGo (o : Ops F P D) (lanes : Nat) : Nat → List D → List (List (List F)) → Option (List (List D))
  | 0, _, _ => none
  | fuel + 1, prev, remaining =>
    if prev.length = 1 then some []
    else
      match compressAndInject o lanes prev
          (remaining.takeWhile fun m => bitCeil m.length = prev.length / 2) with
      | some next => (layersGo o lanes fuel next
          (remaining.dropWhile fun m => bitCeil m.length = prev.length / 2)).map (next :: ·)
      | none => none

/-- The comparison of matrices (field_merkle_tree.h:164-174): descending in the number of rows. -/
def taller (a b : List (List F)) : Prop := b.length ≤ a.length

instance : DecidableRel (taller (F := F)) := fun a b => Nat.decLe b.length a.length

/-- The `DCHECK` (field_merkle_tree.h:207-217) on the sorted matrices. -/
def heightsOk : List (List (List F)) → Bool
  | a :: b :: l =>
    decide (a.length = b.length ∨ bitCeil a.length ≠ bitCeil b.length) && heightsOk (b :: l)
  | _ => true

/-- `DoBuildCpu` (field_merkle_tree.h:193-262) and the `CHECK` of `BuildCpu` (58): the digest layers.
`dchecks` tells whether the build has the debug checks. -/
def buildLayers (o : Ops F P D) (lanes : Nat) (dchecks : Bool) (leaves : List (List (List F))) :
    Option (List (List D)) :=
  match leaves.insertionSort taller with
  | [] => none
  | m :: rest =>
    if dchecks && !heightsOk (m :: rest) then none
    else
      match firstLayer o lanes (m :: rest.takeWhile fun x => m.length = x.length) with
      | some first => (layersGo o lanes 65 first
          (rest.dropWhile fun x => m.length = x.length)).map (first :: ·)
      | none => none

/-- `GetRoot` (field_merkle_tree.h:153). -/
def getRoot (layers : List (List D)) : Option D :=
  match layers.getLast? with
  | some l => l[0]?
  | none => none

/-- `DoCommit` (field_merkle_tree_mmcs.h:93-109): the root and the layers. -/
def commit (o : Ops F P D) (lanes : Nat) (dchecks : Bool) (leaves : List (List (List F))) :
    Option (D × List (List D)) :=
  match buildLayers o lanes dchecks leaves with
  | some layers => (getRoot layers).map fun r => (r, layers)
  | none => none

/-- `GetMaxRowSize` (crypto/commitments/mixed_matrix_commitment_scheme.h:108-119). -/
def maxRowSize (leaves : List (List (List F))) : Nat := leaves.foldl (fun m x => max m x.length) 0

/-- `DoCreateOpeningProof` (field_merkle_tree_mmcs.h:134-165): the opened rows and the siblings. `none`
is a read out of bounds. -/
def createProof (leaves : List (List (List F))) (layers : List (List D)) (index : Nat) :
    Option (List (List F) × List D) :=
  let logMax := log2Ceil (maxRowSize leaves)
  match leaves.mapM fun m => m[index / 2 ^ (logMax - log2Ceil m.length)]?,
      (List.range logMax).mapM fun i => (layers[i]?).bind fun l => l[(index / 2 ^ i) ^^^ 1]? with
  | some openings, some proof => some (openings, proof)
  | _, _ => none

/-- `IndexedDimensions` (field_merkle_tree_mmcs.h:72-91): index and height; the comparison is
descending in the height. -/
def higher (a b : Nat × Nat) : Prop := b.2 ≤ a.2

instance : DecidableRel higher := fun a b => Nat.decLe b.2 a.2

/-- `GetOpenedValuesAsPrimeFieldVectors` (field_merkle_tree_mmcs.h:233-268). -/
def openedValues (o : Ops F P D) (opened : List (List F)) (dims : List (Nat × Nat)) : Option (List P) :=
  (dims.mapM fun d => opened[d.1]?.map fun r => r.flatMap o.flat).map List.flatten

/-- `inputs` of a step (field_merkle_tree_mmcs.h:195-198). -/
def step (o : Ops F P D) (index : Nat) (root sibling : D) : D :=
  if index % 2 = 0 then o.compress root sibling else o.compress sibling root

/-- The injection of a step (field_merkle_tree_mmcs.h:203-211). -/
def injectOpened (o : Ops F P D) (opened : List (List F)) (dims : List (Nat × Nat)) (root : D) :
    Option D :=
  if dims.isEmpty then some root
  else (openedValues o opened dims).map fun v => o.compress root (o.hash v)

/-- The loop of `DoVerifyOpeningProof` (field_merkle_tree_mmcs.h:194-212) with `CountLayers`
(217-231). -/
def verifyGo (o : Ops F P D) (opened : List (List F)) :
    List D → D → Nat → Nat → List (Nat × Nat) → Option D
  | [], root, _, _, _ => some root
  | sibling :: proof, root, index, layer, dims =>
    match injectOpened o opened (dims.takeWhile fun d => layer / 2 = bitCeil d.2)
        (step o index root sibling) with
    | some root => verifyGo o opened proof root (index / 2) (layer / 2)
        (dims.dropWhile fun d => layer / 2 = bitCeil d.2)
    | none => none

/-- The root computed by `DoVerifyOpeningProof` (field_merkle_tree_mmcs.h:174-212); `none` is a failing
`CHECK` or an empty list of dimensions. -/
def computeRoot (o : Ops F P D) (heights : List Nat) (index : Nat) (opened : List (List F))
    (proof : List D) : Option D :=
  if heights.length ≠ opened.length then none
  else
    match (heights.zipIdx.map fun p => (p.2, p.1)).insertionSort higher with
    | [] => none
    | d :: dims =>
      match openedValues o opened ((d :: dims).takeWhile fun x => bitCeil d.2 = bitCeil x.2) with
      | some v => verifyGo o opened proof (o.hash v) index (bitCeil d.2)
          ((d :: dims).dropWhile fun x => bitCeil d.2 = bitCeil x.2)
      | none => none

/-- `DoVerifyOpeningProof` (field_merkle_tree_mmcs.h:167-215). The widths in the dimensions are not
used. -/
def verifyProof [DecidableEq D] (o : Ops F P D) (root : D) (heights : List Nat) (index : Nat)
    (opened : List (List F)) (proof : List D) : Option Bool :=
  (computeRoot o heights index opened proof).map fun r => decide (r = root)

end Tachyon.MMCS
