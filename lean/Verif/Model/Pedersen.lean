import Verif.Model.Kzg
/-! Pedersen commitments: `crypto/commitments/pedersen/pedersen.h` with `vector_commitment_scheme.h` and `batch_commitment_state.h`, without
the code for GPUs. As in `Verif.Model.Kzg` a point is the element of the group that it stands for, and `msm` is `VariableBaseMSM::Run` by C31.
`none` is a failed `CHECK` or an access out of bounds; for `commit` also the result `false`. Random points are a function of the number of the
call. A vector that was moved from is empty. -/
namespace Tachyon.Pedersen
open Tachyon.Kzg

variable {F G : Type} [Field F] [DecidableEq F] [AddCommGroup G] [Module F G]

/-- The members (pedersen.h:225-227, vector_commitment_scheme.h:165, batch_commitment_state.h:11-12). -/
structure State (G : Type) where
  h : G
  generators : List G
  batch : List G
  batchMode : Bool
  batchCount : ℕ
  deriving DecidableEq

/-- The constructor (pedersen.h:49-62). -/
def new (maxSize : ℕ) (h : G) (generators : List G) : Option (State G) :=
  if maxSize < generators.length then none else some ⟨h, generators, [], false, 0⟩

/-- `DoSetup` (pedersen.h:151-160). -/
def State.setup (s : State G) (random : ℕ → G) (size : ℕ) : State G :=
  { s with h := random 0, generators := (List.range size).map fun i => random (i + 1) }

/-- `N` (pedersen.h:140). -/
def State.n (s : State G) : ℕ := s.generators.length

/-- `DoCommit` (pedersen.h:170-188) with `ComputeCommitment` (pedersen.h:205-223). -/
def State.commit (s : State G) (v : List F) (r : F) : Option G := (msm s.generators v).map fun m => r • s.h + m

/-- `resize` of the commitments (pedersen.h:87-98, pedersen.h:200-201). -/
def resize (l : List G) (n : ℕ) : List G := l.take n ++ List.replicate (n - l.length) 0

/-- `SetBatchMode` (vector_commitment_scheme.h:38-44, pedersen.h:87-98). -/
def State.setBatchMode (s : State G) (n : ℕ) : Option (State G) :=
  if n = 0 then some s
  else if s.batchCount ≠ 0 then none
  else some { s with batchMode := true, batchCount := n, batch := resize s.batch n }

/-- `Commit` in batch mode (vector_commitment_scheme.h:127-133, pedersen.h:190-203): the result and the state after it. -/
def State.commitAt (s : State G) (v : List F) (_r : F) (index : ℕ) : Option (Bool × State G) :=
  if !s.batchMode then none
  else
    let s := if s.batch.length ≠ s.batchCount then { s with batch := resize s.batch s.batchCount } else s
    if s.batch.length ≤ index then none
    else match msm s.generators v with
      | none => some (false, s)
      | some c => some (true, { s with batch := s.batch.set index c })

/-- Several calls of `Commit` in batch mode; `none` also if one returns `false`. -/
def State.commitAll (s : State G) : List (ℕ × List F × F) → Option (State G)
  | [] => some s
  | (i, v, r) :: js => (s.commitAt v r i).bind fun t => if t.1 then t.2.commitAll js else none

/-- `GetBatchCommitments` (pedersen.h:100-135). -/
def State.getBatch (s : State G) : List G × State G := (s.batch, { s with batch := [], batchMode := false, batchCount := 0 })

/-- `WriteTo` and then `ReadFrom` (pedersen.h:256-269) of the parameters. -/
def State.copy (maxSize : ℕ) (s : State G) : Option (State G) := new maxSize s.h s.generators

end Tachyon.Pedersen
