import Verif.Model.Bits
/-!
# Model of the chunked loops: `tachyon/base/openmp_util.h`, `tachyon/base/parallelize.h`

`threads` is `omp_get_max_threads()` (1 without OpenMP). `size_t` arithmetic wraps modulo `2^64`. A
parallel loop is described by the list of its callback invocations `(i, len)`; what the callbacks do to
memory, in any interleaving, is in `Spec/Schedule.lean`.
-/
universe u v
namespace Tachyon.Parallel

variable {α : Type u} {β : Type v}

/-- `(a + b - 1) / b` in `size_t`. -/
def ceilDiv64 (a b : Nat) : Nat := ((a + b + (2 ^ 64 - 1)) % 2 ^ 64) / b

/-- `GetSizePerThread` (openmp_util.h:41-51). -/
def sizePerThread (threads total : Nat) (threshold : Option Nat) : Nat :=
  if (match threshold with
      | none => true
      | some t => decide (t < total)) then ceilDiv64 total threads
  else total

/-- `GetNumElementsPerThread` (openmp_util.h:55-59); the threshold is not forwarded. -/
def numElementsPerThread (threads total : Nat) (_threshold : Option Nat) : Nat :=
  sizePerThread threads total none

/-- The number of chunks (parallelize.h:114, :130, :148, :166, :209, :234). -/
def numChunks (size chunkSize : Nat) : Nat := ceilDiv64 size chunkSize

/-- The length of chunk `i` (parallelize.h:25-26, :45, :67-68, :89). -/
def chunkLen (size chunkSize i : Nat) : Nat :=
  if i = numChunks size chunkSize - 1 then size - i * chunkSize else chunkSize

/-- The callback invocations of `ParallelizeByChunkSize`, `DynamicParallelizeByChunkSize`,
`ParallelizeMapByChunkSize` (parallelize.h:110-176, :201-246) as pairs of chunk index and chunk
length. The shortcut for a single chunk makes the same call. -/
def invocations (size chunkSize : Nat) : List (Nat × Nat) :=
  if chunkSize = 0 then []
  else (List.range (numChunks size chunkSize)).map fun i => (i, chunkLen size chunkSize i)

/-- The span handed to the callback of chunk `i` (parallelize.h:27, :69). -/
def chunkOf (xs : List α) (chunkSize : Nat) (c : Nat × Nat) : List α :=
  (xs.drop (c.1 * chunkSize)).take c.2

/-- `ParallelizeByChunkSize` on a container whose callback rewrites its span (parallelize.h:110-124);
`f i span` is the final content of the span. -/
def byChunkSize (xs : List α) (chunkSize : Nat) (f : Nat → List α → List α) : List α :=
  if chunkSize = 0 then xs
  else (invocations xs.length chunkSize).flatMap fun c => f c.1 (chunkOf xs chunkSize c)

/-- `Parallelize` on a container (parallelize.h:180-187). The callback also gets `chunk_size`. -/
def parallelize (threads : Nat) (xs : List α) (f : Nat → Nat → List α → List α) : List α :=
  let cs := numElementsPerThread threads xs.length none
  byChunkSize xs cs fun i span => f i cs span

/-- `ParallelizeMap` on a container (parallelize.h:252-259). -/
def parallelizeMap (threads : Nat) (xs : List α) (f : Nat → Nat → List α → β) : List β :=
  let cs := numElementsPerThread threads xs.length none
  (invocations xs.length cs).map fun c => f c.1 cs (chunkOf xs cs c)

/-- `ParallelizeFill` (parallelize.h:272-283). -/
def fill (threads : Nat) (xs : List α) (value : α) : List α :=
  parallelize threads xs fun _ _ span => span.map fun _ => value

/-- `ParallelizeResize` without a value (parallelize.h:285-305): `capacity` is that of the container,
`dflt` the value-initialised element. -/
def resize (threads : Nat) (xs : List α) (capacity size : Nat) (dflt : α) : Option (List α) :=
  if size < capacity then some (xs.take size ++ List.replicate (size - xs.length) dflt)
  else
    -- `MakeSpan(new_container).first(container.size())`
    if size < xs.length then none
    else some (parallelize threads (List.replicate xs.length dflt)
        (fun i cs span => chunkOf xs cs (i, span.length)) ++ List.replicate (size - xs.length) dflt)

/-- `ParallelizeResize` with a value (parallelize.h:307-337); `none` is `last(size - old_size)` with a
wrapped count. -/
def resizeWith (threads : Nat) (xs : List α) (capacity size : Nat) (value : α) : Option (List α) :=
  if size < capacity then
    if size < xs.length then none
    else some (xs ++ fill threads (List.replicate (size - xs.length) value) value)
  else some (parallelize threads (List.replicate size value) fun i cs span =>
    (List.range span.length).map fun k => xs.getD (i * cs + k) value)

end Tachyon.Parallel
