import Verif.Model.FFT
/-! FFT of the columns of a matrix: `math/polynomials/univariate/radix2_evaluation_domain.h` (`FFTBatch`,
`CosetLDEBatch`), `two_adic_subgroup.h`, `naive_batch_fft.h` and `math/matrix/matrix_utils.h`
(`ReverseMatrixIndexBits`). A matrix is the list of its rows. The blocks of a parallel loop take effect in
an arbitrary order; every block works on rows of its own. -/
universe u
namespace Tachyon.FFT
open Tachyon.Group Tachyon.Parallel

variable {F : Type u} [Field F] [DecidableEq F]

/-- `ReverseMatrixIndexBits` (matrix_utils.h:113-143); `CheckedLog2` fails when the number of rows is not
a power of two. -/
def reverseRows (o : Sched) (mat : List (List F)) : Option (List (List F)) :=
  if mat.length = 0 then some mat
  else
    match Bits.checkedLog2 (BitVec.ofNat 64 mat.length) with
    | none => none
    | some log => swapBitRev o mat mat.length log

/-- `ApplyButterflyToRows` (radix2_evaluation_domain.h:427-453): the columns in full packed vectors of
`lanes` elements use the packed twiddle, the others the twiddle. -/
def rowButterfly (lanes : Nat) (w pw : F) (lo hi : List F) : List F × List F :=
  ((List.zip lo hi).mapIdx fun i p =>
      (butterflyOutIn (if i < lo.length / lanes * lanes then pw else w) p.1 p.2).1,
    (List.zip lo hi).mapIdx fun i p =>
      (butterflyOutIn (if i < lo.length / lanes * lanes then pw else w) p.1 p.2).2)

/-- An iteration of `RunDitLayers` (radix2_evaluation_domain.h:412-424) for the block start `p.1` and
`i = p.2`. -/
def ditStep (lanes layerRev half : Nat) (rev : Bool) (tw ptw : List F) (start : Nat)
    (mat : List (List F)) (p : Nat × Nat) : Option (List (List F)) :=
  let idx := if rev then p.1 / (2 * half) else p.2 * 2 ^ layerRev
  match tw[idx]?, ptw[idx]? with
  | some w, some pw => pairStep (rowButterfly lanes w pw) mat (start + p.1 + p.2) (start + p.1 + p.2 + half)
  | _, _ => none

/-- `RunDitLayers` (radix2_evaluation_domain.h:398-425) on the `subRows` rows from `start`. -/
def runDitLayers (lanes logN layer : Nat) (rev : Bool) (tw ptw : List F) (start subRows : Nat)
    (mat : List (List F)) : Option (List (List F)) :=
  let layerRev := logN - 1 - layer
  let half := 2 ^ (if rev then layerRev else layer)
  if subRows < 2 * half then none
  else (butterflyPairs subRows half).foldlM (ditStep lanes layerRev half rev tw ptw start) mat

/-- A block of `RunParallelRowChunks` (radix2_evaluation_domain.h:353-358). -/
def rowChunk (lanes logN size chunkRows : Nat) (tw ptw : List F) (mat : List (List F)) (block : Nat) :
    Option (List (List F)) :=
  (List.range (logN / 2)).foldlM (fun mat layer => runDitLayers lanes logN layer false tw ptw
    (block * chunkRows) (min chunkRows (size - block * chunkRows)) mat) mat

/-- `RunParallelRowChunks` (radix2_evaluation_domain.h:336-360). -/
def runRowChunks (o : Sched) (lanes logN size : Nat) (tw ptw : List F) (mat : List (List F)) :
    Option (List (List F)) :=
  if Bits.isPowerOfTwo (BitVec.ofNat 64 mat.length) then
    let chunkRows := 2 ^ (logN / 2)
    (o.one (List.range ((size + chunkRows - 1) / chunkRows))).foldlM
      (rowChunk lanes logN size chunkRows tw ptw) mat
  else none

/-- A layer of a block of `RunParallelRowChunksReversed` (radix2_evaluation_domain.h:387-393); `subspan`
beyond the end fails. -/
def rowLayerRev (lanes logN size chunkRows : Nat) (tw ptw : List F) (block : Nat) (mat : List (List F))
    (layer : Nat) : Option (List (List F)) :=
  let first := block * 2 ^ (layer - logN / 2)
  if tw.length < first ∨ ptw.length < first then none
  else runDitLayers lanes logN layer true (tw.drop first) (ptw.drop first) (block * chunkRows)
    (min chunkRows (size - block * chunkRows)) mat

/-- A block of `RunParallelRowChunksReversed` (radix2_evaluation_domain.h:382-394). -/
def rowChunkRev (lanes logN size chunkRows : Nat) (tw ptw : List F) (mat : List (List F)) (block : Nat) :
    Option (List (List F)) :=
  (List.range' (logN / 2) (logN - logN / 2)).foldlM (rowLayerRev lanes logN size chunkRows tw ptw block) mat

/-- `RunParallelRowChunksReversed` (radix2_evaluation_domain.h:363-396). -/
def runRowChunksRev (o : Sched) (lanes logN size : Nat) (tw ptw : List F) (mat : List (List F)) :
    Option (List (List F)) :=
  if Bits.isPowerOfTwo (BitVec.ofNat 64 mat.length) then
    let chunkRows := 2 ^ (logN - logN / 2)
    (o.one (List.range ((size + chunkRows - 1) / chunkRows))).foldlM
      (rowChunkRev lanes logN size chunkRows tw ptw) mat
  else none

/-- The two halves of the network with the bit reversal between them
(radix2_evaluation_domain.h:111-117, :143-149, :187-193). -/
def twoHalves (o : Sched) (lanes : Nat) (d : Domain F) (tw ptw bitrev pbitrev : Option (List F))
    (mat : List (List F)) : Option (List (List F)) :=
  match tw, ptw, bitrev, pbitrev with
  | some tw, some ptw, some bitrev, some pbitrev =>
    match runRowChunks o lanes d.logSize d.size tw ptw mat with
    | none => none
    | some mat =>
      match reverseRows o mat with
      | none => none
      | some mat => runRowChunksRev o lanes d.logSize d.size bitrev pbitrev mat
  | _, _, _, _ => none

/-- `FFTBatch` (radix2_evaluation_domain.h:99-119). -/
def fftBatch (o : Sched) (lanes : Nat) (d : Domain F) (item : Item F) (mat : List (List F)) :
    Option (List (List F)) :=
  if item.roots.length = 0 ∨ item.packed.length = 0 ∨ d.size ≠ mat.length then none
  else
    match reverseRows o mat with
    | none => none
    | some mat =>
      match twoHalves o lanes d item.roots.getLast? item.packed[0]? (some item.bitrev) item.packed[1]? mat with
      | none => none
      | some mat => reverseRows o mat

/-- `mat.row(r) *= weight`. -/
def scaleRow (mat : List (List F)) (r : Nat) (weight : F) : Option (List (List F)) :=
  match mat[r]? with
  | none => none
  | some row => some (mat.set r (row.map (· * weight)))

/-- The loop over a chunk that scales the rows of a matrix in bit-reversed order
(radix2_evaluation_domain.h:163-170) for `n` rows. -/
def scaleLoop (logN : Nat) (shift : F) : Nat → Nat → F → List (List F) → Option (List (List F))
  | 0, _, _, mat => some mat
  | n + 1, row, weight, mat =>
    match Bits.reverseBitsLen (BitVec.ofNat 64 row) logN with
    | none => none
    | some r =>
      match scaleRow mat r.toNat weight with
      | none => none
      | some mat => scaleLoop logN shift n (row + 1) (weight * shift) mat

/-- A chunk of the loop of `CosetLDEBatch` (radix2_evaluation_domain.h:157-171). -/
def scaleChunk (logN cs : Nat) (sizeInv shift : F) (mat : List (List F)) (ch : Nat × Nat) :
    Option (List (List F)) :=
  scaleLoop logN shift ch.2 (ch.1 * cs) (sizeInv * powSize shift (ch.1 * cs)) mat

/-- `ExpandWithZeroPad` (radix2_evaluation_domain.h:455-477). -/
def expandZeroPad (cols addedBits : Nat) (mat : List (List F)) : Option (List (List F)) :=
  if addedBits = 0 then none
  else (List.range (mat.length * 2 ^ addedBits)).mapM fun row =>
    if row % 2 ^ addedBits = 0 then mat[row / 2 ^ addedBits]? else some (List.replicate cols 0)

/-- `CosetLDEBatch` (radix2_evaluation_domain.h:129-197) with the output matrix of `outRows` rows and
`outCols` columns. `cache` gives the items of domains of other sizes. With `added_bits` zero the matrix is
moved, and the output has its dimensions. -/
def cosetLDE (threads : Nat) (o : Sched) (lanes : Nat) (cfg : RootConfig F)
    (cache : Domain F → Option (Item F)) (d : Domain F) (item : Item F) (mat : List (List F)) (cols : Nat)
    (addedBits : Nat) (shift : F) (outRows outCols : Nat) (reverseAtLast : Bool) :
    Option (List (List F)) :=
  if item.roots.length = 0 ∨ item.packed.length = 0 ∨ d.size ≠ mat.length then none
  else
    match reverseRows o mat with
    | none => none
    | some mat =>
      match twoHalves o lanes d item.invRoots[0]? item.packedInv[0]? (some item.bitrevInv) item.packedInv[1]?
          mat with
      | none => none
      | some mat =>
        let cs := numElementsPerThread threads d.size none
        match (o.two (invocations d.size cs)).foldlM (scaleChunk d.logSize cs d.sizeInv shift) mat with
        | none => none
        | some mat =>
          match (if addedBits = 0 then some mat
            else if outRows ≠ mat.length * 2 ^ addedBits ∨ outCols ≠ cols then none
            else expandZeroPad cols addedBits mat) with
          | none => none
          | some out =>
            match Bits.checkedLog2 (BitVec.ofNat 64 out.length) with
            | none => none
            | some log =>
              match Domain.new cfg out.length log with
              | none => none
              | some d' =>
                match cache d' with
                | none => none
                | some item' =>
                  match twoHalves o lanes d' item'.roots.getLast? item'.packed[0]? (some item'.bitrev)
                      item'.packed[1]? out with
                  | none => none
                  | some out => if reverseAtLast then reverseRows o out else some out

/-- The overload of `CosetLDEBatch` for a constant matrix (radix2_evaluation_domain.h:121-127): the last
argument is not passed on. -/
def cosetLDEConst (threads : Nat) (o : Sched) (lanes : Nat) (cfg : RootConfig F)
    (cache : Domain F → Option (Item F)) (d : Domain F) (item : Item F) (mat : List (List F)) (cols : Nat)
    (addedBits : Nat) (shift : F) (outRows outCols : Nat) (_reverseAtLast : Bool) :
    Option (List (List F)) :=
  cosetLDE threads o lanes cfg cache d item mat cols addedBits shift outRows outCols true

/-- `IFFTBatch` (two_adic_subgroup.h:26-45) from the result of `FFTBatch`. -/
def ifftBatch (o : Sched) (fft : List (List F) → Option (List (List F))) (mat : List (List F)) :
    Option (List (List F)) :=
  match fft mat with
  | none => none
  | some mat =>
    match inv? (mat.length : F) with
    | none => none
    | some inv =>
      match scaleRow mat 0 inv with
      | none => none
      | some mat =>
        match scaleRow mat (mat.length / 2) inv with
        | none => none
        | some mat =>
          let rows := mat.length
          (o.one (List.range' 1 (rows / 2 - 1))).foldlM (fun mat row =>
            pairStep (fun a b => (b.map (· * inv), a.map (· * inv))) mat row (rows - row)) mat

/-! ### `NaiveBatchFFT` -/

/-- The loop over the rows of the input (naive_batch_fft.h:42-51). -/
def naiveRow (basePow : F) : List (List F) → F → List F → List F
  | [], _, res => res
  | row :: rows, pow, res =>
    naiveRow basePow rows (pow * basePow) (List.zipWith (fun r m => r + pow * m) res row)

/-- The loop over a chunk of rows of the result (naive_batch_fft.h:39-53). -/
def naiveChunk (g : F) (mat : List (List F)) : List (List F) → F → List (List F)
  | [], _ => []
  | row :: rows, basePow => naiveRow basePow mat 1 row :: naiveChunk g mat rows (basePow * g)

/-- `NaiveBatchFFT::FFTBatch` (naive_batch_fft.h:21-57). -/
def naiveFFT (threads : Nat) (cfg : RootConfig F) (cols : Nat) (mat : List (List F)) :
    Option (List (List F)) :=
  if Bits.isPowerOfTwo (BitVec.ofNat 64 mat.length) then
    match getRootOfUnity cfg mat.length with
    | some (some g) =>
      some (parallelize threads (List.replicate mat.length (List.replicate cols 0)) fun i cs span =>
        naiveChunk g mat span (powSize g (i * cs)))
    | _ => none
  else none

/-- The loop over a chunk of `CosetFFTBatch` (naive_batch_fft.h:109-118). -/
def rowsLoop (shift : F) : List (List F) → F → List (List F)
  | [], _ => []
  | row :: rows, weight => row.map (· * weight) :: rowsLoop shift rows (weight * shift)

/-- `NaiveBatchFFT::CosetFFTBatch` (naive_batch_fft.h:94-121). -/
def naiveCosetFFT (threads : Nat) (cfg : RootConfig F) (cols : Nat) (mat : List (List F)) (shift : F) :
    Option (List (List F)) :=
  naiveFFT threads cfg cols
    (parallelize threads mat fun i cs span => rowsLoop shift span (powSize shift (i * cs)))

/-- `NaiveBatchFFT::CosetLDEBatch` (naive_batch_fft.h:68-88). -/
def naiveCosetLDE (threads : Nat) (o : Sched) (cfg : RootConfig F) (cols : Nat) (mat : List (List F))
    (addedBits : Nat) (shift : F) (outRows outCols : Nat) : Option (List (List F)) :=
  if outRows ≠ mat.length * 2 ^ addedBits ∨ outCols ≠ cols then none
  else
    match ifftBatch o (naiveFFT threads cfg cols) mat with
    | none => none
    | some m =>
      naiveCosetFFT threads cfg cols
        (m ++ List.replicate (mat.length * 2 ^ addedBits - mat.length) (List.replicate cols 0)) shift

end Tachyon.FFT
