import Verif.Model.Assembly
import Verif.Model.Kzg
import Verif.Model.Vanishing
/-! The messages between the halo2 prover and verifier: `zk/plonk/halo2/{prover,proof_reader,verifier,proof,synthesizer,argument_data}.h`,
`zk/base/entities/prover_base.h`, `crypto/transcripts/transcript.h`, and the functions that commit, evaluate and open of
`zk/plonk/vanishing/{vanishing_prover_impl,vanishing_verifier,vanishing_utils}.h`, `zk/plonk/permutation/{permutation_prover_impl,permutation_verifier,
permutation_utils}.h`, `zk/lookup/halo2/{prover_impl,verifier,utils}.h`, `zk/lookup/log_derivative_halo2/{prover_impl,verifier}.h`,
`zk/shuffle/{prover_impl,verifier,utils}.h`.

A transcript is the list of what it was told and of the challenges that were asked for; a challenge is a function of that list. A proof is
a list of commitments and scalars (not of bytes), and the reader fails if the next one is of the other kind. What the prover computes
between two messages (witnesses, permuted pairs, grand products and sums, the quotient) is given by functions of the transcript so far, see
`Work`; columns and their interpolation polynomials are not distinguished but for the instance columns. The vectors of the proof that are
filled side by side are one list of tuples. The addresses in the openings are values of `Place`. -/
namespace Tachyon.Halo2
open Tachyon.FFT Tachyon.Vanishing

/-- A commitment or a value. -/
inductive Msg (P F : Type)
  | point (c : P)
  | scalar (v : F)
deriving DecidableEq

/-- What a transcript sees. -/
inductive Event (P F : Type)
  | absorb (m : Msg P F)
  | squeeze
deriving DecidableEq

abbrev Log (P F : Type) := List (Event P F)

/-- `TranscriptWriterImpl` (crypto/transcripts/transcript.h:176-215). -/
structure Writer (P F : Type) where
  log : Log P F
  proof : List (Msg P F)
deriving DecidableEq

/-- `TranscriptReaderImpl` (crypto/transcripts/transcript.h:101-140). -/
structure Reader (P F : Type) where
  log : Log P F
  rest : List (Msg P F)
deriving DecidableEq

abbrev Write (P F : Type) := StateT (Writer P F) Option
abbrev Read (P F : Type) := StateT (Reader P F) Option

/-- A loop that collects values. -/
def forEach {m : Type → Type} [Monad m] {ι α : Type} (f : ι → m α) : List ι → m (List α)
  | [] => pure []
  | i :: l => do
    let a ← f i
    let as ← forEach f l
    pure (a :: as)

/-- A loop with a state. -/
def foldEach {m : Type → Type} [Monad m] {ι σ : Type} (f : ι → σ → m σ) : List ι → σ → m σ
  | [], s => pure s
  | i :: l, s => do
    let s ← f i s
    foldEach f l s

section
variable {P F : Type}

/-- `WriteToTranscript` of the writer (transcript.h:38-45). -/
def tell (m : Msg P F) : Write P F Unit := fun w => some ((), { w with log := w.log ++ [.absorb m] })

/-- `WriteToProof` (transcript.h:191-204). -/
def write (m : Msg P F) : Write P F Unit := fun w => some ((), ⟨w.log ++ [.absorb m], w.proof ++ [m]⟩)

/-- `SqueezeChallenge` of the writer (transcript.h:35-36). -/
def challenge (squeeze : Log P F → F) : Write P F F := fun w => some (squeeze w.log, { w with log := w.log ++ [.squeeze] })

/-- `WriteToTranscript` of the reader (transcript.h:38-45). -/
def hear (m : Msg P F) : Read P F Unit := fun r => some ((), { r with log := r.log ++ [.absorb m] })

/-- `Read` of a commitment (proof_reader.h:325-330, transcript.h:114-121). -/
def readPoint : Read P F P := fun r =>
  match r.rest with
  | .point c :: l => some (c, ⟨r.log ++ [.absorb (.point c)], l⟩)
  | _ => none

/-- `Read` of a value (proof_reader.h:325-330, transcript.h:123-129). -/
def readScalar : Read P F F := fun r =>
  match r.rest with
  | .scalar v :: l => some (v, ⟨r.log ++ [.absorb (.scalar v)], l⟩)
  | _ => none

/-- `ReadMany` (proof_reader.h:332-335). -/
def readMany {α : Type} (read : Read P F α) (n : Nat) : Read P F (List α) := forEach (fun _ => read) (List.range n)

/-- `SqueezeChallenge` of the reader (transcript.h:35-36). -/
def asked (squeeze : Log P F → F) : Read P F F := fun r => some (squeeze r.log, { r with log := r.log ++ [.squeeze] })

/-- A failed `CHECK` or an access out of bounds. -/
def give {σ α : Type} (a : Option α) : StateT σ Option α := fun s => a.map fun a => (a, s)

/-- `lookup::Type` (lookup/type.h). -/
inductive LookupType
  | halo2
  | logDerivative
deriving DecidableEq

/-- What is committed to for a lookup before `beta`: a permuted input and table (lookup/halo2/prover.h), or the multiplicities
(lookup/log_derivative_halo2/prover.h). -/
inductive Prepared (α : Type)
  | pair (input table : α)
  | single (m : α)
deriving DecidableEq

/-- The committed ones in the order of `BatchCommitPermutedPairs` (lookup/halo2/prover_impl.h:115-123) and `BatchCommitMPolys`
(lookup/log_derivative_halo2/prover_impl.h:177-184). -/
def Prepared.toList {α : Type} : Prepared α → List α
  | .pair a b => [a, b]
  | .single m => [m]

/-- What the constraint system, the keys and the commitment scheme say about a proof. `products` is `ComputePermutationProductNums()`,
`degree` is `ComputeDegree()`, `blinding` is `ComputeBlindingFactors()`; a query is a column
and a rotation. -/
structure Shape where
  advicePhases : List Nat
  challengePhases : List Nat
  instanceColumns : Nat
  lookups : Nat
  shuffles : Nat
  products : Nat
  degree : Nat
  blinding : Nat
  instanceQueries : List (Nat × Int)
  adviceQueries : List (Nat × Int)
  fixedQueries : List (Nat × Int)
  lookupType : LookupType
  queryInstance : Bool
  batch : Bool

/-- The rest of the world: the commitment scheme for coefficients and for values on the domain, evaluation of polynomials, the inverse FFT
of an instance column, the transcript's hash function, the domain, the number `n` of rows and its logarithm. -/
structure Env (P F : Type) where
  commit : List F → P
  commitEvals : List F → P
  eval : List F → F → F
  ifft : List F → List F
  squeeze : Log P F → F
  domain : Domain F
  n : Nat
  k : Nat
  threads : Nat

/-- What the prover computes between the messages, from what was said before: the advice columns of a phase of a circuit
(synthesizer.h:62-79), the permuted pairs or multiplicities (prover.h:156-177), the grand products of the permutation (prover.h:193-196),
the grand products or sums of the lookups (prover.h:198-205), the grand products of the shuffles (prover.h:207-210) and the quotient
(prover.h:282-285). -/
structure Work (P F : Type) where
  advice : Log P F → (Nat → Option F) → Nat → Nat → Nat → List F
  prepared : Log P F → Nat → List (Prepared (List F))
  products : Log P F → Nat → List (List F)
  grands : Log P F → Nat → List (List F)
  shuffles : Log P F → Nat → List (List F)
  quotient : Log P F → List F

/-- `fixed_polys`, `permutation_proving_key().polys()` and `transcript_repr()` of the proving key. -/
structure Key (F : Type) where
  fixed : List (List F)
  sigmas : List (List F)
  repr : F

/-- `fixed_commitments`, `permutation_verifying_key().commitments()` and `transcript_repr()` of the verifying key. -/
structure VerifyingKey (P F : Type) where
  fixed : List P
  sigmas : List P
  repr : F

/-- What the prover holds when it makes the openings. -/
structure Held (F : Type) where
  instancePolys : List (List (List F))
  advice : Nat → Nat → List F
  challenges : Nat → Option F
  theta : F
  prepared : List (List (Prepared (List F)))
  beta : F
  gamma : F
  products : List (List (List F))
  grands : List (List (List F))
  shuffles : List (List (List F))
  random : List F
  y : F
  h : List F
  x : F

/-- A vector of vectors with an element replaced. -/
def setAt {α : Type} (t : Nat → Nat → α) (i j : Nat) (a : α) : Nat → Nat → α :=
  fun i' j' => if i' = i ∧ j' = j then a else t i' j'

/-! ### The prover -/

variable [Field F] [DecidableEq F]

/-- `CommitAndWriteToProof` of polynomials one after the other (prover_base.h:59-62), or in batch mode `SetBatchMode` for `count`
commitments, `BatchCommitAt` with the indices from zero on and `RetrieveAndWriteBatchCommitmentsToProof` (prover_base.h:94-99,
zk/base/entities/entity.h:128-148): an index that is too large is out of bounds, commitments that are not set are zero. -/
def commitAll [Zero P] (env : Env P F) (batch : Bool) (count : Nat) (polys : List (List F)) : Write P F Unit :=
  if batch then
    if count < polys.length then give none
    else do
      let _ ← forEach (fun c => write (.point c)) (polys.map env.commit ++ List.replicate (count - polys.length) 0)
      pure ()
  else do
    let _ ← forEach (fun p => write (.point (env.commit p))) polys
    pure ()

/-- `EvaluateAndWriteToProof` (prover_base.h:86-89). -/
def evaluate (env : Env P F) (p : List F) (x : F) : Write P F Unit := write (.scalar (env.eval p x))

/-- `RotateOmega` (zk/base/rotation.h:54-56). -/
def rotate (env : Env P F) (r : Int) (x : F) : Option F := (env.domain.getElement r).map (x * ·)

/-- The number in `SetBatchMode` for a vector of provers: the number of circuits by that of the first, `GetNumPermutedPairsCommitments`
(lookup/halo2/prover.h:60-64), `GetNumMPolysCommitments` (lookup/log_derivative_halo2/prover.h:104-108) and the like
(lookup/halo2/prover.h:82-87, lookup/log_derivative_halo2/prover.h:125-129, shuffle/prover.h:67-72,
permutation_prover.h:52-57). -/
def batchCount {α : Type} (provers : List (List α)) : Nat :=
  match provers with
  | [] => 0
  | p :: _ => provers.length * p.length

/-- `GetNumPermutedPairsCommitments` (lookup/halo2/prover.h:60-64), `GetNumMPolysCommitments`
(lookup/log_derivative_halo2/prover.h:104-108). -/
def preparedCount (s : Shape) (provers : List (List (Prepared (List F)))) : Nat :=
  match s.lookupType with
  | .halo2 => batchCount provers * 2
  | .logDerivative => batchCount provers

/-- `GenerateInstancePolys` (argument_data.h:168-205) for a circuit: what it writes; the polynomials are `ifft` of the columns. -/
def tellInstances (env : Env P F) (s : Shape) (columns : List (List F)) : Write P F Unit := do
  let _ ← forEach (fun c => if s.queryInstance then tell (.point (env.commitEvals c)) else do
    let _ ← forEach (fun v => tell (.scalar v)) c
    pure ()) columns
  pure ()

/-- The columns of a phase of all circuits (synthesizer.h:61-88), without the commitments. -/
def adviceColumns (s : Shape) (work : Work P F) (circuits phase : Nat) (log : Log P F) (known : Nat → Option F) :
    List (Nat × Nat × List F) :=
  (List.range circuits).flatMap fun i => (List.range s.advicePhases.length).filterMap fun j =>
    if s.advicePhases[j]? = some phase then some (i, j, work.advice log known phase i j) else none

/-- An iteration of `UpdateChallenges` (synthesizer.h:152-162). -/
def challengeStep (env : Env P F) (s : Shape) (phase i : Nat) (known : Nat → Option F) : Write P F (Nat → Option F) :=
  if s.challengePhases[i]? = some phase then do
    let c ← challenge env.squeeze
    if (known i).isSome then give none else pure (fun i' => if i' = i then some c else known i')
  else pure known

/-- `UpdateChallenges` (synthesizer.h:150-163). -/
def updateChallenges (env : Env P F) (s : Shape) (phase : Nat) (known : Nat → Option F) : Write P F (Nat → Option F) :=
  foldEach (challengeStep env s phase) (List.range s.challengePhases.length) known

/-- The transcript so far. -/
def written : Write P F (Log P F) := fun w => some (w.log, w)

/-- An iteration of the loop over the phases (synthesizer.h:52-93). In batch mode the number of commitments is that of the columns of the
phase by that of the circuits. -/
def advicePhase [Zero P] (env : Env P F) (s : Shape) (work : Work P F) (circuits phase : Nat)
    (st : (Nat → Nat → List F) × (Nat → Option F)) : Write P F ((Nat → Nat → List F) × (Nat → Option F)) := do
  let log ← written
  let cols := adviceColumns s work circuits phase log st.2
  commitAll env s.batch ((s.advicePhases.filter (· = phase)).length * circuits) (cols.map (·.2.2))
  let known ← updateChallenges env s phase st.2
  pure (cols.foldl (fun t c => setAt t c.1 c.2.1 c.2.2) st.1, known)

/-- `GenerateAdviceColumns` (synthesizer.h:38-94). -/
def generateAdvice [Zero P] (env : Env P F) (s : Shape) (work : Work P F) (circuits : Nat) :
    Write P F ((Nat → Nat → List F) × (Nat → Option F)) :=
  foldEach (advicePhase env s work circuits) (Keygen.getPhases s.advicePhases) (fun _ _ => [], fun _ => none)

/-- `EvaluateColumns` (vanishing_prover_impl.h:140-149). -/
def evaluateColumns (env : Env P F) (poly : Nat → Option (List F)) (x : F) (queries : List (Nat × Int)) : Write P F Unit := do
  let _ ← forEach (fun q => do
    let p ← give (poly q.1)
    let point ← give (rotate env q.2 x)
    evaluate env p point) queries
  pure ()

/-- The points at which the arguments are opened (permutation_opening_point_set.h, lookup/halo2/opening_point_set.h,
shuffle/opening_point_set.h). -/
structure Points (F : Type) where
  x : F
  next : F
  prev : F
  last : F
deriving DecidableEq

/-- The points of the prover (prover.h:304-313, entity.h:102-104); `blinding` is that of its blinder. -/
def points (env : Env P F) (blinding : Nat) (x : F) : Option (Points F) :=
  (rotate env (-1) x).bind fun prev => (rotate env 1 x).bind fun next =>
    (rotate env (-((blinding : Int) + 1)) x).map fun last => ⟨x, next, prev, last⟩

/-- `Evaluate` of `PermutationProver` (permutation_prover_impl.h:126-149). -/
def evaluateProducts (env : Env P F) (pts : Points F) (products : List (List F)) : Write P F Unit := do
  let _ ← forEach (fun p : List F × Nat => do
    evaluate env p.1 pts.x
    evaluate env p.1 pts.next
    if p.2 ≠ products.length - 1 then evaluate env p.1 pts.last else pure ()) products.zipIdx
  pure ()

/-- `Evaluate` of the lookup provers (lookup/halo2/prover_impl.h:201-233, lookup/log_derivative_halo2/prover_impl.h:366-392). -/
def evaluateLookups (env : Env P F) (pts : Points F) (prepared : List (Prepared (List F))) (grands : List (List F)) :
    Write P F Unit :=
  if grands.length ≠ prepared.length then give none
  else do
    let _ ← forEach (fun p : List F × Prepared (List F) =>
      match p.2 with
      | .pair input table => do
        evaluate env p.1 pts.x
        evaluate env p.1 pts.next
        evaluate env input pts.x
        evaluate env input pts.prev
        evaluate env table pts.x
      | .single m => do
        evaluate env p.1 pts.x
        evaluate env p.1 pts.next
        evaluate env m pts.x) (grands.zip prepared)
    pure ()

/-- `Evaluate` of the shuffle prover (shuffle/prover_impl.h:137-160). -/
def evaluateShuffles (env : Env P F) (pts : Points F) (shuffles : List (List F)) : Write P F Unit := do
  let _ ← forEach (fun p => do
    evaluate env p pts.x
    evaluate env p pts.next) shuffles
  pure ()

/-- `Evaluate` of the prover (prover.h:326-353) with `BatchEvaluate` (vanishing_prover_impl.h:154-195) and `EvaluateProvingKey`
(permutation_prover_impl.h:151-163). -/
def evaluateAll (env : Env P F) (s : Shape) (key : Key F) (circuits : Nat) (d : Held F) (pts : Points F) : Write P F Unit := do
  if s.queryInstance then
    let _ ← forEach (fun polys => evaluateColumns env (polys[·]?) d.x s.instanceQueries) d.instancePolys
  let _ ← forEach (fun i => evaluateColumns env
    (fun j => if j < s.advicePhases.length then some (d.advice i j) else none) d.x s.adviceQueries) (List.range circuits)
  evaluateColumns env (key.fixed[·]?) d.x s.fixedQueries
  evaluate env d.random d.x
  let _ ← forEach (fun p => evaluate env p pts.x) key.sigmas
  let _ ← forEach (evaluateProducts env pts) d.products
  let _ ← forEach (fun p : List (Prepared (List F)) × List (List F) => evaluateLookups env pts p.1 p.2) (d.prepared.zip d.grands)
  let _ ← forEach (evaluateShuffles env pts) d.shuffles
  pure ()

/-- `CreateProof` (prover.h:67-100, 120-316) up to the openings. The number of commitments in the second batch is that of
prover.h:216-235. -/
def prove [Zero P] (env : Env P F) (s : Shape) (key : Key F) (work : Work P F) (instances : List (List (List F))) :
    Write P F (Held F × Points F) := do
  give (if instances.any (·.length ≠ s.instanceColumns) ∨ instances = [] then none else some ())
  tell (.scalar key.repr)
  let _ ← forEach (tellInstances env s) instances
  let circuits := instances.length
  let (advice, known) ← generateAdvice env s work circuits
  let theta ← challenge env.squeeze
  let log ← written
  let prepared := (List.range circuits).map (work.prepared log)
  commitAll env s.batch (preparedCount s prepared) (prepared.flatten.flatMap Prepared.toList)
  let beta ← challenge env.squeeze
  let gamma ← challenge env.squeeze
  let log ← written
  let products := (List.range circuits).map (work.products log)
  let grands := (List.range circuits).map (work.grands log)
  let shuffles := (List.range circuits).map (work.shuffles log)
  commitAll env s.batch (batchCount products + batchCount grands + batchCount shuffles + 1)
    (products.flatten ++ grands.flatten ++ shuffles.flatten ++ [[1]])
  let y ← challenge env.squeeze
  let log ← written
  let h ← give (truncateH env.n s.degree (work.quotient log))
  commitAll env s.batch (s.degree - 1) (pieces env.n h)
  let x ← challenge env.squeeze
  let pts ← give (points env s.blinding x)
  let held : Held F := ⟨instances.map (·.map env.ifft), advice, known, theta, prepared, beta, gamma, products, grands, shuffles, [1],
    y, h, x⟩
  evaluateAll env s key circuits held pts
  pure (held, pts)

/-- Where a polynomial of the prover and the commitment to it of the verifier are. -/
inductive Place
  | inst (circuit column : Nat)
  | advice (circuit column : Nat)
  | product (circuit i : Nat)
  | grand (circuit i : Nat)
  | input (circuit i : Nat)
  | table (circuit i : Nat)
  | single (circuit i : Nat)
  | shuffle (circuit i : Nat)
  | fixed (column : Nat)
  | sigma (i : Nat)
  | quotient
  | random
deriving DecidableEq

/-- `PolynomialOpening` (crypto/commitments/polynomial_openings.h:18-43). -/
structure Opening (F : Type) where
  place : Place
  point : F
  value : F
deriving DecidableEq

/-- `OPENING` of the provers: the value is computed. -/
def opened (env : Env P F) (place : Place) (p : List F) (point : F) : Opening F := ⟨place, point, env.eval p point⟩

/-- `OpenColumns` of the prover (vanishing_prover_impl.h:201-215). -/
def openColumns (env : Env P F) (place : Nat → Place) (poly : Nat → Option (List F)) (x : F) (queries : List (Nat × Int)) :
    Option (List (Opening F)) :=
  queries.mapM fun q => (poly q.1).bind fun p => (rotate env q.2 x).map fun point => opened env (place q.1) p point

/-- `Open` of `PermutationProver` (permutation_prover_impl.h:165-194). -/
def openProducts (env : Env P F) (pts : Points F) (i : Nat) (products : List (List F)) : List (Opening F) :=
  (products.zipIdx.flatMap fun p => [opened env (.product i p.2) p.1 pts.x, opened env (.product i p.2) p.1 pts.next]) ++
    (products.zipIdx.reverse.drop 1).map fun p => opened env (.product i p.2) p.1 pts.last

/-- `Open` of the lookup provers (lookup/halo2/prover_impl.h:235-268, lookup/log_derivative_halo2/prover_impl.h:394-420). -/
def openLookups (env : Env P F) (pts : Points F) (i : Nat) (prepared : List (Prepared (List F))) (grands : List (List F)) :
    Option (List (Opening F)) :=
  if grands.length ≠ prepared.length then none
  else some ((grands.zip prepared).zipIdx.flatMap fun p =>
    match p.1.2 with
    | .pair input table => [opened env (.grand i p.2) p.1.1 pts.x, opened env (.input i p.2) input pts.x,
        opened env (.table i p.2) table pts.x, opened env (.input i p.2) input pts.prev, opened env (.grand i p.2) p.1.1 pts.next]
    | .single m => [opened env (.grand i p.2) p.1.1 pts.x, opened env (.grand i p.2) p.1.1 pts.next,
        opened env (.single i p.2) m pts.x])

/-- `Open` of the shuffle prover (shuffle/prover_impl.h:162-186). -/
def openShuffles (env : Env P F) (pts : Points F) (i : Nat) (shuffles : List (List F)) : List (Opening F) :=
  shuffles.zipIdx.flatMap fun p => [opened env (.shuffle i p.2) p.1 pts.x, opened env (.shuffle i p.2) p.1 pts.next]

/-- `GetNumVanishingOpenings` (vanishing_utils.h:208-221). -/
def vanishingOpenings (s : Shape) (circuits : Nat) : Nat :=
  (s.adviceQueries.length + if s.queryInstance then s.instanceQueries.length else 0) * circuits + s.fixedQueries.length + 2

/-- `GetNumPermutationOpenings` (permutation_utils.h:44-50). -/
def permutationOpenings (circuits products permutations : Nat) : Nat :=
  if circuits = 0 then 0 else if products = 0 then 0 else circuits * (products * 3 - 1) + permutations

/-- `GetNumOpenings` of the lookups (lookup/halo2/utils.h:29-39). -/
def lookupOpenings (t : LookupType) (circuits lookups : Nat) : Nat :=
  match t with
  | .halo2 => circuits * lookups * 5
  | .logDerivative => circuits * lookups * 3

/-- `GetNumOpenings` of the shuffles (shuffle/utils.h:18-20). -/
def shuffleOpenings (circuits shuffles : Nat) : Nat := circuits * shuffles * 2

/-- An iteration of the loop over the circuits in `Open` of the prover (prover.h:388-395). -/
def openCircuit (env : Env P F) (s : Shape) (d : Held F) (pts : Points F) (i : Nat) : Option (List (Opening F)) :=
  (if s.queryInstance then (d.instancePolys[i]?).bind fun polys =>
    openColumns env (.inst i) (polys[·]?) d.x s.instanceQueries else some []).bind fun inst =>
  (openColumns env (.advice i) (fun j => if j < s.advicePhases.length then some (d.advice i j) else none) d.x s.adviceQueries).bind
    fun advice =>
  (d.products[i]?).bind fun products => (d.prepared[i]?).bind fun prepared => (d.grands[i]?).bind fun grands =>
  (openLookups env pts i prepared grands).bind fun lookups => (d.shuffles[i]?).map fun shuffles =>
    inst ++ advice ++ openProducts env pts i products ++ lookups ++ openShuffles env pts i shuffles

/-- `Open` of the prover (prover.h:355-404), with `OpenFixedColumns`, `Open` of `VanishingProver` (vanishing_prover_impl.h:236-261) and
`OpenPermutationProvingKey` (permutation_prover_impl.h:196-212), and with `combined_h_poly_` (vanishing_prover_impl.h:178-192). The result
has the combined polynomial. -/
def proverOpenings (env : Env P F) (s : Shape) (key : Key F) (d : Held F) (pts : Points F) : Option (List F × List (Opening F)) :=
  (combinedH env.n (Group.squareTimes env.k d.x) d.h).bind fun comb =>
  (d.products[0]?).bind fun products0 =>
  ((List.range d.instancePolys.length).mapM (openCircuit env s d pts)).bind fun circuits =>
  (openColumns env .fixed (key.fixed[·]?) d.x s.fixedQueries).bind fun fixed =>
    let openings := circuits.flatten ++ fixed ++ (key.sigmas.zipIdx.map fun p => opened env (.sigma p.2) p.1 pts.x) ++
      [opened env .quotient comb d.x, opened env .random d.random d.x]
    if openings.length ≠ vanishingOpenings s d.instancePolys.length +
        permutationOpenings d.instancePolys.length products0.length key.sigmas.length +
        lookupOpenings s.lookupType d.prepared.length s.lookups + shuffleOpenings d.shuffles.length s.shuffles then none
    else some (comb, openings)

/-! ### The verifier -/

/-- The evaluations of a lookup in a proof (proof.h:139-143, 188-190). -/
inductive LookupEvals (F : Type)
  | pair (product next input inputPrev table : F)
  | single (sum next m : F)
deriving DecidableEq

/-- The evaluations in `ProofBase`, `Halo2Proof` and `LogDerivativeHalo2Proof` (proof.h:35-44, 139-143, 188-190). -/
structure Evals (F : Type) where
  instanceEvals : List (List F)
  adviceEvals : List (List F)
  fixedEvals : List F
  randomEval : F
  sigmaEvals : List F
  productEvals : List (List (F × F × Option F))
  lookupEvals : List (List (LookupEvals F))
  shuffleEvals : List (List (F × F))
deriving DecidableEq

/-- `ProofBase`, `Halo2Proof` and `LogDerivativeHalo2Proof` (proof.h:22-44, 136-143, 185-190). -/
structure Proof (P F : Type) where
  advice : Nat → Nat → P
  challenges : List F
  theta : F
  prepared : List (List (Prepared P))
  beta : F
  gamma : F
  products : List (List P)
  grands : List (List P)
  shuffles : List (List P)
  random : P
  y : F
  h : List P
  x : F
  evals : Evals F

/-- `CommitColumns` (verifier.h:183-200): the columns are filled up with zeros. -/
def commitColumns (env : Env P F) (columns : List (List F)) : List P := columns.map fun c => env.commitEvals (resizeZero env.n c)

/-- `ValidateInstanceColumnsVec` (verifier.h:148-181); `GetUsableRows` is entity.h:98-100. -/
def validInstances (env : Env P F) (s : Shape) (instances : List (List (List F))) : Bool :=
  instances.all fun columns => columns.length = s.instanceColumns ∧ columns.all fun c => c.length ≤ env.n - (s.blinding + 1)

/-- `WriteCommitmentsVecToTranscript` and `WriteColumnsVecToTranscript` (verifier.h:83-87, 209-229) for a circuit. -/
def hearInstances (env : Env P F) (s : Shape) (columns : List (List F)) : Read P F Unit := do
  if s.queryInstance then
    let _ ← forEach (fun c => hear (.point c)) (commitColumns env columns)
    pure ()
  else
    let _ ← forEach (fun c => forEach (fun v => hear (.scalar v)) c) columns
    pure ()

/-- An iteration over the columns (proof_reader.h:68-72). -/
def readCell (s : Shape) (phase i j : Nat) (t : Nat → Nat → P) : Read P F (Nat → Nat → P) :=
  if s.advicePhases[j]? = some phase then do
    let c ← readPoint
    pure (setAt t i j c)
  else pure t

/-- An iteration over the phases of the challenges (proof_reader.h:74-81). -/
def askStep (env : Env P F) (phase ph : Nat) (cs : List F) : Read P F (List F) :=
  if phase = ph then do
    let c ← asked env.squeeze
    pure (cs ++ [c])
  else pure cs

/-- An iteration over the phases (proof_reader.h:64-82). -/
def readPhase (env : Env P F) (s : Shape) (circuits phase : Nat) (st : (Nat → Nat → P) × List F) :
    Read P F ((Nat → Nat → P) × List F) := do
  let t ← foldEach (fun i => foldEach (readCell s phase i) (List.range s.advicePhases.length)) (List.range circuits) st.1
  let cs ← foldEach (askStep env phase) s.challengePhases st.2
  pure (t, cs)

/-- `ReadAdviceCommitmentsVecAndChallenges` (proof_reader.h:52-84). -/
def readAdvice [Zero P] (env : Env P F) (s : Shape) (circuits : Nat) : Read P F ((Nat → Nat → P) × List F) :=
  foldEach (readPhase env s circuits) (Keygen.getPhases s.advicePhases) (fun _ _ => 0, [])

/-- `ReadLookupPreparedCommitments` (proof_reader.h:93-113). -/
def readPrepared (s : Shape) : Read P F (Prepared P) :=
  match s.lookupType with
  | .halo2 => do
    let input ← readPoint
    let table ← readPoint
    pure (.pair input table)
  | .logDerivative => do
    let m ← readPoint
    pure (.single m)

/-- `ReadPermutationEvals` (proof_reader.h:238-256) for a circuit. -/
def readProductEvals (size : Nat) : Read P F (List (F × F × Option F)) :=
  forEach (fun j => do
    let a ← readScalar
    let b ← readScalar
    let c ← if j ≠ size - 1 then do
        let c ← readScalar
        pure (some c)
      else pure none
    pure (a, b, c)) (List.range size)

/-- `ReadLookupEvals` (proof_reader.h:258-302) for a lookup. -/
def readLookupEvals (s : Shape) : Read P F (LookupEvals F) :=
  match s.lookupType with
  | .halo2 => do
    let product ← readScalar
    let next ← readScalar
    let input ← readScalar
    let prev ← readScalar
    let table ← readScalar
    pure (.pair product next input prev table)
  | .logDerivative => do
    let sum ← readScalar
    let next ← readScalar
    let m ← readScalar
    pure (.single sum next m)

/-- `ReadShuffleEvals` (proof_reader.h:304-320) for a shuffle. -/
def readShuffleEvals : Read P F (F × F) := do
  let a ← readScalar
  let b ← readScalar
  pure (a, b)

/-- `ReadInstanceEvalsIfQueryInstance` (proof_reader.h:190-199) or `ComputeInstanceEvalsVec` (verifier.h:103-109). -/
def readInstanceEvals (env : Env P F) (s : Shape) (instances : List (List (List F))) (x : F) : Read P F (List (List F)) :=
  if s.queryInstance then forEach (fun _ => readMany readScalar s.instanceQueries.length) (List.range instances.length)
  else give (Vanishing.instanceEvals env.threads env.domain x instances s.instanceQueries)

/-- `ReadVanishingHPolyCommitments` (proof_reader.h:175-181): `degree - 1` wraps for zero. -/
def readQuotient (s : Shape) : Read P F (List P) := if s.degree = 0 then give none else readMany readPoint (s.degree - 1)

/-- What is read after `x` (verifier.h:103-116). -/
def readEvals (env : Env P F) (s : Shape) (vk : VerifyingKey P F) (instances : List (List (List F))) (x : F)
    (products grands shuffles : List (List P)) : Read P F (Evals F) := do
  let instanceEvals ← readInstanceEvals env s instances x
  let adviceEvals ← forEach (fun _ => readMany readScalar s.adviceQueries.length) (List.range instances.length)
  let fixedEvals ← readMany readScalar s.fixedQueries.length
  let randomEval ← readScalar
  let sigmaEvals ← readMany readScalar vk.sigmas.length
  let productEvals ← forEach (fun c : List P => readProductEvals c.length) products
  let lookupEvals ← forEach (fun c : List P => readMany (readLookupEvals s) c.length) grands
  let shuffleEvals ← forEach (fun c : List P => readMany readShuffleEvals c.length) shuffles
  pure ⟨instanceEvals, adviceEvals, fixedEvals, randomEval, sigmaEvals, productEvals, lookupEvals, shuffleEvals⟩

/-- What `VerifyProofForTesting` writes and reads (verifier.h:80-117), with the functions of `ProofReader` (proof_reader.h:52-320). -/
def readProof [Zero P] (env : Env P F) (s : Shape) (vk : VerifyingKey P F) (instances : List (List (List F))) : Read P F (Proof P F) := do
  hear (.scalar vk.repr)
  let _ ← forEach (hearInstances env s) instances
  let all := List.range instances.length
  let (advice, challenges) ← readAdvice env s instances.length
  let theta ← asked env.squeeze
  let prepared ← forEach (fun _ => readMany (readPrepared s) s.lookups) all
  let beta ← asked env.squeeze
  let gamma ← asked env.squeeze
  let products ← forEach (fun _ => readMany readPoint s.products) all
  let grands ← forEach (fun _ => readMany readPoint s.lookups) all
  let shuffles ← forEach (fun _ => readMany readPoint s.shuffles) all
  let random ← readPoint
  let y ← asked env.squeeze
  let h ← readQuotient s
  let x ← asked env.squeeze
  let evals ← readEvals env s vk instances x products grands shuffles
  pure ⟨advice, challenges, theta, prepared, beta, gamma, products, grands, shuffles, random, y, h, x, evals⟩

/-- `OpenColumns` of the verifier (vanishing_verifier.h:78-96); `columns` is the number of commitments. -/
def verifierColumns (env : Env P F) (place : Nat → Place) (columns : Nat) (x : F) (queries : List (Nat × Int)) (evals : List F) :
    Option (List (Opening F)) :=
  queries.zipIdx.mapM fun q => (rotate env q.1.2 x).bind fun point =>
    if q.1.1 < columns then (evals[q.2]?).map fun v => ⟨place q.1.1, point, v⟩ else none

/-- `Open` of `PermutationVerifier` (permutation_verifier.h:78-101) for a number of commitments. -/
def verifierProducts (pts : Points F) (i count : Nat) (evals : List (F × F × Option F)) : Option (List (Opening F)) :=
  if evals.isEmpty then some []
  else ((List.range count).mapM fun j => (evals[j]?).map fun e =>
      [(⟨.product i j, pts.x, e.1⟩ : Opening F), ⟨.product i j, pts.next, e.2.1⟩]).bind fun a =>
    ((List.range (count - 1)).reverse.mapM fun j => (evals[j]?).bind fun e =>
      e.2.2.map fun v => (⟨.product i j, pts.last, v⟩ : Opening F)).map fun b => a.flatten ++ b

/-- `Open` of the lookup verifiers (lookup/halo2/verifier.h:65-87, lookup/log_derivative_halo2/verifier.h:51-68) for a number of
commitments. -/
def verifierLookups (pts : Points F) (i count : Nat) (evals : List (LookupEvals F)) : Option (List (Opening F)) :=
  ((List.range count).mapM fun j => (evals[j]?).map fun e =>
    match e with
    | .pair product next input prev table => [(⟨.grand i j, pts.x, product⟩ : Opening F), ⟨.input i j, pts.x, input⟩,
        ⟨.table i j, pts.x, table⟩, ⟨.input i j, pts.prev, prev⟩, ⟨.grand i j, pts.next, next⟩]
    | .single sum next m => [⟨.grand i j, pts.x, sum⟩, ⟨.grand i j, pts.next, next⟩, ⟨.single i j, pts.x, m⟩]).map List.flatten

/-- `Open` of the shuffle verifier (shuffle/verifier.h:51-67) for a number of commitments. -/
def verifierShuffles (pts : Points F) (i count : Nat) (evals : List (F × F)) : Option (List (Opening F)) :=
  ((List.range count).mapM fun j => (evals[j]?).map fun e =>
    [(⟨.shuffle i j, pts.x, e.1⟩ : Opening F), ⟨.shuffle i j, pts.next, e.2⟩]).map List.flatten

/-- An iteration of the loop in `Open` of the verifier (verifier.h:385-406). -/
def verifierCircuit (env : Env P F) (s : Shape) (instances : List (List (List F))) (p : Proof P F) (pts : Points F) (i : Nat) :
    Option (List (Opening F)) :=
  (if s.queryInstance then (instances[i]?).bind fun c => (p.evals.instanceEvals[i]?).bind fun e =>
    verifierColumns env (.inst i) c.length p.x s.instanceQueries e else some []).bind fun inst =>
  ((p.evals.adviceEvals[i]?).bind fun e => verifierColumns env (.advice i) s.advicePhases.length p.x s.adviceQueries e).bind fun advice =>
  ((p.products[i]?).bind fun c => (p.evals.productEvals[i]?).bind fun e => verifierProducts pts i c.length e).bind fun products =>
  ((p.grands[i]?).bind fun c => (p.evals.lookupEvals[i]?).bind fun e => verifierLookups pts i c.length e).bind fun lookups =>
  ((p.shuffles[i]?).bind fun c => (p.evals.shuffleEvals[i]?).bind fun e => verifierShuffles pts i c.length e).map fun shuffles =>
    inst ++ advice ++ products ++ lookups ++ shuffles

/-- `Open` of the verifier (verifier.h:358-423), with the points of `ComputeAuxValues` (verifier.h:141-145) and `OpenFixedColumns`,
`OpenPermutationProvingKey` (permutation_verifier.h:103-115) and `Open` of `VanishingVerifier` (vanishing_verifier.h:58-75), which are called
for the last circuit. `expected` is the value of `EvaluateH`. Without circuits the first element of an empty vector is read
(verifier.h:370). -/
def verifierOpenings (env : Env P F) (s : Shape) (vk : VerifyingKey P F) (instances : List (List (List F))) (p : Proof P F) (expected : F) :
    Option (List (Opening F)) :=
  (points env s.blinding p.x).bind fun pts =>
  ((List.range instances.length).mapM (verifierCircuit env s instances p pts)).bind fun circuits =>
  if instances.length = 0 then none
  else
    (verifierColumns env .fixed vk.fixed.length p.x s.fixedQueries p.evals.fixedEvals).bind fun fixed =>
    ((List.range vk.sigmas.length).mapM fun i => (p.evals.sigmaEvals[i]?).map fun v => (⟨.sigma i, p.x, v⟩ : Opening F)).map fun sigmas =>
      circuits.flatten ++ fixed ++ sigmas ++ [⟨.quotient, p.x, expected⟩, ⟨.random, p.x, p.evals.randomEval⟩]

end

section
variable {P F : Type} [Field F] [DecidableEq F]

/-- The polynomial at a place of the prover (the addresses in the openings of the prover). -/
def Held.polyAt (s : Shape) (key : Key F) (comb : List F) (d : Held F) : Place → Option (List F)
  | .inst i j => (d.instancePolys[i]?).bind (·[j]?)
  | .advice i j => if i < d.instancePolys.length ∧ j < s.advicePhases.length then some (d.advice i j) else none
  | .product i j => (d.products[i]?).bind (·[j]?)
  | .grand i j => (d.grands[i]?).bind (·[j]?)
  | .input i j => ((d.prepared[i]?).bind (·[j]?)).bind fun p => match p with | .pair a _ => some a | _ => none
  | .table i j => ((d.prepared[i]?).bind (·[j]?)).bind fun p => match p with | .pair _ b => some b | _ => none
  | .single i j => ((d.prepared[i]?).bind (·[j]?)).bind fun p => match p with | .single m => some m | _ => none
  | .shuffle i j => (d.shuffles[i]?).bind (·[j]?)
  | .fixed i => key.fixed[i]?
  | .sigma i => key.sigmas[i]?
  | .quotient => some comb
  | .random => some d.random

/-- The commitment at a place of the verifier (the addresses in the openings of the verifier): for the instances those that the verifier
computes (verifier.h:73-78), for the quotient the combination (vanishing_verifier.h:61-65). -/
def Proof.commitAt [AddCommGroup P] [Module F P] (env : Env P F) (s : Shape) (vk : VerifyingKey P F) (instances : List (List (List F)))
    (p : Proof P F) : Place → Option P
  | .inst i j => (instances[i]?).bind fun c => (commitColumns env c)[j]?
  | .advice i j => if i < instances.length ∧ j < s.advicePhases.length then some (p.advice i j) else none
  | .product i j => (p.products[i]?).bind (·[j]?)
  | .grand i j => (p.grands[i]?).bind (·[j]?)
  | .input i j => ((p.prepared[i]?).bind (·[j]?)).bind fun p => match p with | .pair a _ => some a | _ => none
  | .table i j => ((p.prepared[i]?).bind (·[j]?)).bind fun p => match p with | .pair _ b => some b | _ => none
  | .single i j => ((p.prepared[i]?).bind (·[j]?)).bind fun p => match p with | .single m => some m | _ => none
  | .shuffle i j => (p.shuffles[i]?).bind (·[j]?)
  | .fixed i => vk.fixed[i]?
  | .sigma i => vk.sigmas[i]?
  | .quotient => some (verifierH (Group.squareTimes env.k p.x) p.h)
  | .random => some p.random

/-! ### With an opening scheme -/

/-- The openings with addresses. -/
def toClaims (addr : Place → Nat) (os : List (Opening F)) : List (Kzg.Claim F) := os.map fun o => ⟨addr o.place, o.point, o.value⟩

/-- The transcript for the opening schemes. -/
def transcript (env : Env P F) : Kzg.Transcript (Log P F) F P where
  squeeze l := (env.squeeze l, l ++ [.squeeze])
  absorb l c := some (l ++ [.absorb (.point c)])

/-- The commitments up to the next value. -/
def leading : List (Msg P F) → List P
  | .point c :: l => c :: leading l
  | _ => []

variable [AddCommGroup P] [Module F P] {Q T : Type} [AddCommGroup Q] [Module F Q] [AddCommGroup T] [DecidableEq T]

/-- `CreateProof` (prover.h:67-100, 120-324) with `CreateOpeningProof` of a scheme (prover.h:318-322); `deref` gives what is at an address. -/
def createProof (env : Env P F) (s : Shape) (key : Key F) (work : Work P F) (addr : Place → Nat) (deref : Nat → Place)
    (create : (Nat → List F) → List (Kzg.Claim F) → Log P F → Option (List P)) (instances : List (List (List F))) :
    Option (List (Msg P F)) :=
  (prove env s key work instances ⟨[], []⟩).bind fun r =>
  (proverOpenings env s key r.1.1 r.1.2).bind fun o =>
  (create (fun a => (r.1.1.polyAt s key o.1 (deref a)).getD []) (toClaims addr o.2) r.2.log).map fun cs => r.2.proof ++ cs.map .point

/-- `VerifyProof` (verifier.h:57-126, 425-442) with `VerifyOpeningProof` of a scheme; `expected` is `EvaluateH`. -/
def verifyProof (env : Env P F) (s : Shape) (vk : VerifyingKey P F) (addr : Place → Nat) (deref : Nat → Place) (expected : Proof P F → F)
    (verify : (Nat → P) → List (Kzg.Claim F) → Log P F → List P → Option Bool) (instances : List (List (List F)))
    (proof : List (Msg P F)) : Option Bool :=
  if validInstances env s instances then
    (readProof env s vk instances ⟨[], proof⟩).bind fun r =>
    (verifierOpenings env s vk instances r.1 (expected r.1)).bind fun os =>
    verify (fun a => (r.1.commitAt env s vk instances (deref a)).getD 0) (toClaims addr os) r.2.log (leading r.2.rest)
  else some false

end
end Tachyon.Halo2
