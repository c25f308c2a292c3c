import Verif.Model.FFT
/-! Binary Merkle tree: `crypto/commitments/merkle_tree/binary_merkle_tree/binary_merkle_tree.h` with
`SimpleBinaryMerkleTreeStorage`. `size_t` values are natural numbers; the only subtraction that can
wrap is written out. -/
universe u v
namespace Tachyon.Merkle
open Tachyon.FFT

variable {L : Type u} {H : Type v}

/-- `BinaryMerkleHasher` (binary_merkle_hasher.h:9-17). -/
structure Hasher (L : Type u) (H : Type v) where
  leaf : L → H
  parent : H → H → H

/-- `SimpleBinaryMerkleTreeStorage::Allocate` (simple_binary_merkle_tree_storage.h:16): `resize`, which
keeps the old hashes; `dflt` is a value-initialised hash. -/
def allocate (dflt : H) (store : List H) (size : Nat) : List H :=
  store.take size ++ List.replicate (size - store.length) dflt

/-- `SetHash` (simple_binary_merkle_tree_storage.h:19); `none` out of bounds. -/
def setHash (store : List H) (i : Nat) (x : H) : Option (List H) :=
  if i < store.length then some (store.set i x) else none

/-- An iteration of the loop of `FillLeaves` (binary_merkle_tree.h:138-141). -/
def fillStep (h : Hasher L H) (leaves : List L) (store : List H) (i : Nat) : Option (List H) :=
  match leaves[i]? with
  | some x => setHash store (leaves.length + i - 1) (h.leaf x)
  | none => none

/-- `FillLeaves` (binary_merkle_tree.h:125-143). The outer `none` is a failing `CHECK` or undefined
behaviour, the inner one the result `false`. -/
def fillLeaves (h : Hasher L H) (dflt : H) (maxSize : Nat) (o : Sched) (store : List H)
    (leaves : List L) : Option (Option (List H)) :=
  if ¬ Bits.isPowerOfTwo (BitVec.ofNat 64 leaves.length) then some none
  else if leaves.length > maxSize then some none
  else if 2 ^ 64 ≤ leaves.length * 2 then none
  else ((o.one (List.range leaves.length)).foldlM (fillStep h leaves)
    (allocate dflt store (leaves.length * 2 - 1))).map some

/-- An iteration of the inner loop of `BuildTreeFromLeaves` (binary_merkle_tree.h:148-150). -/
def parentStep (h : Hasher L H) (store : List H) (i : Nat) : Option (List H) :=
  match store[i]?, store[i + 1]? with
  | some a, some b => setHash store (i / 2) (h.parent a b)
  | _, _ => none

/-- The inner loop of `BuildTreeFromLeaves` (binary_merkle_tree.h:147-151). -/
def buildLevel (h : Hasher L H) (store : List H) (lo hi : Nat) : Option (List H) :=
  (List.range ((hi - lo + 1) / 2)).foldlM (fun s k => parentStep h s (lo + 2 * k)) store

/-- `BuildTreeFromLeaves` (binary_merkle_tree.h:145-154) with `Range::GetSize` (base/range.h), which is
zero unless `from < to`; the first argument bounds the number of levels. -/
def buildTree (h : Hasher L H) : Nat → List H → Nat → Nat → Option (List H)
  | 0, _, _, _ => none
  | fuel + 1, store, lo, hi =>
    if lo < hi then
      match buildLevel h store lo hi with
      | some store => buildTree h fuel store (lo / 2) ((hi / 2 + 2 ^ 64 - 1) % 2 ^ 64)
      | none => none
    else some store

/-- A subtree of the parallel loop of `DoCommit` (binary_merkle_tree.h:71-76). -/
def subtreeStep (h : Hasher L H) (n threshold : Nat) (store : List H) (chunk : Nat) :
    Option (List H) :=
  buildTree h 65 store (n - 1 + chunk * threshold) (n - 1 + chunk * threshold + threshold)

/-- The rest of `DoCommit` (binary_merkle_tree.h:69-84) after `FillLeaves`. -/
def buildAll (h : Hasher L H) (threshold : Nat) (o : Sched) (n : Nat) (store : List H) :
    Option (List H) :=
  if n > threshold then
    match (o.one (List.range ((n + threshold - 1) / threshold))).foldlM (subtreeStep h n threshold)
        store with
    | some store =>
      let i := Nat.log2 n - Nat.log2 threshold
      buildTree h 65 store (2 ^ i - 1) (2 ^ (i + 1) - 1)
    | none => none
  else buildTree h 65 store (n - 1) (n * 2 - 1)

/-- `*out = storage_->GetHash(0)` (binary_merkle_tree.h:85-86). -/
def rootOf (store : List H) : Option (Option (List H × H)) :=
  store[0]?.map fun r => some (store, r)

/-- `DoCommit` (binary_merkle_tree.h:56-87): the storage and the root; the inner `none` is `false`. The
threshold is a power of two (set_leaves_size_for_parallelization, 39-43). -/
def commit (h : Hasher L H) (dflt : H) (maxSize threshold : Nat) (o : Sched) (store : List H)
    (leaves : List L) : Option (Option (List H × H)) :=
  match fillLeaves h dflt maxSize o store leaves with
  | none => none
  | some none => some none
  | some (some store) => (buildAll h threshold o leaves.length store).bind rootOf

/-- `BinaryMerklePath` (binary_merkle_proof.h): the sibling is on the left, and its hash. -/
abbrev Path (H : Type v) := Bool × H

/-- The loop of `DoCreateOpeningProof` (binary_merkle_tree.h:94-107): the paths from `index` up. At most
`index` iterations. -/
def pathsGo (store : List H) : Nat → Nat → Option (List (Path H))
  | 0, index => if index > 0 then none else some []
  | fuel + 1, index =>
    if index > 0 then
      match (if index % 2 = 0 then store[index - 1]? else store[index + 1]?) with
      | some x => (pathsGo store fuel ((index - 1) / 2)).map ((decide (index % 2 = 0), x) :: ·)
      | none => none
    else some []

/-- `DoCreateOpeningProof` (binary_merkle_tree.h:89-109). The vector of paths has room for
`Log2Floor(size)` of them (`none` if more are written); places that are not written keep a default. -/
def createProof (dflt : H) (store : List H) (index : Nat) : Option (List (Path H)) :=
  match pathsGo store (store.length / 2 + index) (store.length / 2 + index) with
  | some paths =>
    if Nat.log2 store.length < paths.length then none
    else some (paths ++ List.replicate (Nat.log2 store.length - paths.length) (false, dflt))
  | none => none

/-- The hash computed by `DoVerifyOpeningProof` (binary_merkle_tree.h:114-121). -/
def foldPath (h : Hasher L H) (leafHash : H) (proof : List (Path H)) : H :=
  proof.foldl (fun x p => if p.1 then h.parent p.2 x else h.parent x p.2) leafHash

/-- `DoVerifyOpeningProof` (binary_merkle_tree.h:111-123). -/
def verifyProof [DecidableEq H] (h : Hasher L H) (root leafHash : H) (proof : List (Path H)) : Bool :=
  decide (foldPath h leafHash proof = root)

end Tachyon.Merkle
