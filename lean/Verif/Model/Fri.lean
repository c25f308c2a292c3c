import Mathlib.Data.Nat.Notation
import Mathlib.Algebra.Field.Defs
import Verif.Model.Bits
import Verif.Model.Group
import Verif.Model.MMCS
/-! The FRI protocol: `fri_config.h`, `prove.h` and `verify.h` in `crypto/commitments/fri`.

Everything happens in the extension field `K`: base field elements are represented by their images.
`F::GetRootOfUnity(2^k, &w)` is the oracle `root k`, `none` for a failing `CHECK` (C59 is about the real
function). `Pow` is `^` (C19). The challenger and the commitment scheme are records of operations; C48 and
C65 are about the real ones. Log output is left out, and so are the threads of the loops that write each
entry once (prove.h:48-57, :77-79, fri_config.h:57-62). -/
namespace Tachyon.Fri

/-- A mixed matrix commitment scheme (crypto/commitments/mixed_matrix_commitment_scheme.h): matrices are
lists of rows; `verify` takes the heights of the matrices. A failing `CHECK` inside is `false`, since every
caller passes the result to `CHECK`. -/
structure Mmcs (E Com Data Prf : Type) where
  commit : List (List (List E)) → Option (Com × Data)
  matrices : Data → List (List (List E))
  openAt : ℕ → Data → Option (List (List E) × Prf)
  verify : Com → List ℕ → ℕ → List (List E) → Prf → Bool

/-- `FieldMerkleTreeMMCS` (C65) as such a scheme. -/
def merkle {F P D : Type} [DecidableEq D] (o : MMCS.Ops F P D) (lanes : ℕ) (dchecks : Bool) :
    Mmcs F D (List (List (List F)) × List (List D)) (List D) where
  commit ms := (MMCS.commit o lanes dchecks ms).map fun c => (c.1, (ms, c.2))
  matrices d := d.1
  openAt i d := MMCS.createProof d.1 d.2 i
  verify c hs i rows p := MMCS.verifyProof o c hs i rows p == some true

/-- The operations of the challenger that FRI uses (crypto/challenger). `S` is the state; `grind` returns
the witness and the state after it has been checked. -/
structure Chal (K Com W S : Type) where
  observeCom : Com → S → S
  observeElem : K → S → S
  sampleExt : S → K × S
  sampleBits : ℕ → S → ℕ × S
  grind : ℕ → S → Option (W × S)
  checkWitness : ℕ → W → S → Bool × S

/-- `FRIConfig` (fri_config.h:19-27) without the commitment scheme. -/
structure Config where
  logBlowup : ℕ
  numQueries : ℕ
  powBits : ℕ

/-- `Blowup` (fri_config.h:26). -/
def Config.blowup (c : Config) : ℕ := 2 ^ c.logBlowup

/-- What the folding needs from its surroundings: the roots of unity, the number of threads and the order
in which they run. -/
structure Env (K : Type) where
  root : ℕ → Option K
  threads : ℕ
  order : List (ℕ × ℕ) → List (ℕ × ℕ)

section
variable {K Com Data Prf Inp W S : Type} [Field K] [DecidableEq K]

/-- One entry of the folded vector (fri_config.h:58-61, :82-84). -/
def foldPair (power : K) (row : List K) : Option K :=
  row[0]?.bind fun lo => row[1]?.map fun hi => (2⁻¹ + power) * lo + (2⁻¹ - power) * hi

/-- `FoldMatrix` (fri_config.h:31-64). -/
def foldMatrix (env : Env K) (beta : K) (mat : List (List K)) : Option (List K) :=
  (Bits.checkedLog2 (BitVec.ofNat 64 mat.length)).bind fun logRows =>
  (env.root (logRows + 1)).bind fun w =>
  if w = 0 then none
  else
    (Group.getBitRevPowers env.threads mat.length w⁻¹ (beta * 2⁻¹) env.order).bind fun powers =>
    (powers.zip mat).mapM fun p => foldPair p.1 p.2

/-- `FoldRow` (fri_config.h:68-85). -/
def foldRow (env : Env K) (index logRows : ℕ) (beta : K) (evals : List K) : Option K :=
  (env.root (logRows + 1)).bind fun w =>
  if w = 0 then none
  else
    (Bits.reverseBitsLen (BitVec.ofNat 64 index) logRows).bind fun r =>
    foldPair (w⁻¹ ^ r.toNat * (beta * 2⁻¹)) evals

/-- The matrix of the pairs of neighbours (prove.h:46-57); of an odd number of entries the last row would
be half uninitialised. -/
def pairs : List K → Option (List (List K))
  | [] => some []
  | [_] => none
  | x :: y :: l => (pairs l).map ([x, y] :: ·)

/-- The loop that adds the inputs of the size of the folded vector (prove.h:75-81). -/
def addInputs (inputs : List (List K)) (folded : List K) : List K :=
  inputs.foldl (fun acc g => if g.length = acc.length then List.zipWith (· + ·) acc g else acc) folded

/-- `CommitPhaseResult`, the challenges left out. -/
structure Committed (K Com Data : Type) where
  commits : List Com
  data : List Data
  final : List K

/-- The loop of `CommitPhase` (prove.h:45-82); the first argument bounds the number of rounds. -/
def commitLoop (env : Env K) (mmcs : Mmcs K Com Data Prf) (ch : Chal K Com W S) (blowup : ℕ)
    (inputs : List (List K)) : ℕ → List K → S → Option (Committed K Com Data × S)
  | 0, _, _ => none
  | fuel + 1, folded, s =>
    if folded.length ≤ blowup then some (⟨[], [], folded⟩, s)
    else
      (pairs folded).bind fun m =>
      (mmcs.commit [m]).bind fun cd =>
      let bs := ch.sampleExt (ch.observeCom cd.1 s)
      ((mmcs.matrices cd.2).getLast?).bind fun mat =>
      (foldMatrix env bs.1 mat).bind fun folded =>
      (commitLoop env mmcs ch blowup inputs fuel (addInputs inputs folded) bs.2).map fun r =>
        (⟨cd.1 :: r.1.commits, cd.2 :: r.1.data, r.1.final⟩, r.2)

/-- `CommitPhase` (prove.h:22-95): the commitments, the prover data, the final evaluation and the state.
`dchecks` tells whether the build has the debug checks. -/
def commitPhase (env : Env K) (mmcs : Mmcs K Com Data Prf) (ch : Chal K Com W S) (cfg : Config)
    (dchecks : Bool) (inputs : List (List K)) (s : S) : Option ((List Com × List Data × K) × S) :=
  match inputs with
  | [] => none
  | first :: rest =>
    (Bits.checkedLog2 (BitVec.ofNat 64 first.length)).bind fun _ =>
    (commitLoop env mmcs ch cfg.blowup rest 65 first s).bind fun r =>
    if r.1.final.length ≠ cfg.blowup then none
    else
      (r.1.final[0]?).bind fun final =>
      if dchecks && !r.1.final.all (· = final) then none
      else some ((r.1.commits, r.1.data, final), ch.observeElem final r.2)

/-- The callback of `AnswerQuery` (prove.h:109-120). -/
def answerStep (mmcs : Mmcs K Com Data Prf) (index i : ℕ) (d : Data) : Option (K × Prf) :=
  (mmcs.openAt (index / 2 ^ i / 2) d).bind fun o =>
  match o.1 with
  | [row] => if row.length ≠ 2 then none
      else (row[((index / 2 ^ i) ^^^ 1) % 2]?).map fun v => (v, o.2)
  | _ => none

/-- `AnswerQuery` (prove.h:98-122). -/
def answerQuery (mmcs : Mmcs K Com Data Prf) (index : ℕ) (data : List Data) : Option (List (K × Prf)) :=
  data.zipIdx.mapM fun d => answerStep mmcs index d.2 d.1

/-- `FRIProof` (fri_proof.h); a query proof is what the caller opens and the steps of the commit phase. -/
structure Proof (K Com Prf Inp W : Type) where
  commits : List Com
  queries : List (Inp × List (K × Prf))
  final : K
  pow : W

/-- The queries of `Prove` (prove.h:150-160). -/
def queryLoop (mmcs : Mmcs K Com Data Prf) (ch : Chal K Com W S) (openInput : ℕ → Option Inp)
    (logMax : ℕ) (data : List Data) : ℕ → S → Option (List (Inp × List (K × Prf)) × S)
  | 0, s => some ([], s)
  | n + 1, s =>
    let is := ch.sampleBits logMax s
    (openInput is.1).bind fun x =>
    (answerQuery mmcs is.1 data).bind fun a =>
    (queryLoop mmcs ch openInput logMax data n is.2).map fun r => ((x, a) :: r.1, r.2)

/-- The debug check of `Prove` (prove.h:134-141): `is_sorted` with the comparison `l.size() > r.size()`,
so equal sizes may follow one another. -/
def sortedSizes : List (List K) → Bool
  | a :: b :: l => decide (b.length ≤ a.length) && sortedSizes (b :: l)
  | _ => true

/-- `Prove` (prove.h:124-163). -/
def prove (env : Env K) (mmcs : Mmcs K Com Data Prf) (ch : Chal K Com W S) (cfg : Config)
    (dchecks : Bool) (inputs : List (List K)) (openInput : ℕ → Option Inp) (s : S) :
    Option (Proof K Com Prf Inp W × S) :=
  if dchecks && !sortedSizes inputs then none
  else
    (inputs.head?).bind fun first =>
    (Bits.checkedLog2 (BitVec.ofNat 64 first.length)).bind fun logMax =>
    (commitPhase env mmcs ch cfg dchecks inputs s).bind fun c =>
    (ch.grind cfg.powBits c.2).bind fun ws =>
    (queryLoop mmcs ch openInput logMax c.1.2.1 cfg.numQueries ws.2).map fun q =>
      (⟨c.1.1, q.1, c.1.2.2, ws.1⟩, q.2)

/-- `CommitStep` (verify.h:20-29). -/
structure Step (K Com Prf : Type) where
  beta : K
  commit : Com
  sibling : K
  proof : Prf

/-- `evals` (verify.h:48-49). -/
def evalsAt (index : ℕ) (folded sibling : K) : List K :=
  if (index ^^^ 1) % 2 = 0 then [sibling, folded] else [folded, sibling]

/-- The reduced opening of this height, if it is next (verify.h:43-45): the folded value and the remaining
reduced openings. -/
def takeOpening (height : ℕ) (folded : K) : List (ℕ × K) → K × List (ℕ × K)
  | [] => (folded, [])
  | o :: ros => if o.1 = height then (folded + o.2, ros) else (folded, o :: ros)

/-- The loop and the end of `VerifyQuery` (verify.h:41-61). -/
def verifySteps (env : Env K) (mmcs : Mmcs K Com Data Prf) (blowup logMax : ℕ) :
    List (Step K Com Prf) → ℕ → ℕ → K → List (ℕ × K) → Option K
  | [], _, index, folded, ros => if index < blowup ∧ ros = [] then some folded else none
  | st :: steps, i, index, folded, ros =>
    let logFolded := logMax - i - 1
    let fr := takeOpening (logFolded + 1) folded ros
    let evals := evalsAt index fr.1 st.sibling
    if mmcs.verify st.commit [2 ^ logFolded] (index / 2) [evals] st.proof then
      (foldRow env (index / 2) logFolded st.beta evals).bind fun folded =>
      verifySteps env mmcs blowup logMax steps (i + 1) (index / 2) folded fr.2
    else none

/-- `VerifyQuery` (verify.h:31-62); its parameter `index` has 32 bits. -/
def verifyQuery (env : Env K) (mmcs : Mmcs K Com Data Prf) (blowup index logMax : ℕ)
    (steps : List (Step K Com Prf)) (ros : List (ℕ × K)) : Option K :=
  verifySteps env mmcs blowup logMax steps 0 (index % 2 ^ 32) 0 ros

/-- The challenges (verify.h:72-79). -/
def sampleBetas (ch : Chal K Com W S) : List Com → S → List K × S
  | [], s => ([], s)
  | c :: cs, s =>
    let bs := ch.sampleExt (ch.observeCom c s)
    let r := sampleBetas ch cs bs.2
    (bs.1 :: r.1, r.2)

/-- `steps` (verify.h:111-116); too few openings are a read out of bounds. -/
def mkSteps : List K → List Com → List (K × Prf) → Option (List (Step K Com Prf))
  | b :: bs, c :: cs, o :: os => (mkSteps bs cs os).map (⟨b, c, o.1, o.2⟩ :: ·)
  | _ :: _, _ :: _, [] => none
  | _, _, _ => some []

/-- The debug check of the reduced openings (verify.h:106-110). -/
def sortedHeights : List (ℕ × K) → Bool
  | a :: b :: l => decide (b.1 ≤ a.1) && sortedHeights (b :: l)
  | _ => true

/-- The loop over the queries (verify.h:98-124). -/
def verifyLoop (env : Env K) (mmcs : Mmcs K Com Data Prf) (ch : Chal K Com W S) (cfg : Config)
    (dchecks : Bool) (openInput : ℕ → Inp → Option (List (ℕ × K))) (logMax : ℕ) (betas : List K) (commits : List Com)
    (final : K) : List (Inp × List (K × Prf)) → S → Option Bool
  | [], _ => some true
  | q :: qs, s =>
    let is := ch.sampleBits logMax s
    (openInput is.1 q.1).bind fun ros =>
    if dchecks && !sortedHeights ros then none
    else
      (mkSteps betas commits q.2).bind fun steps =>
      (verifyQuery env mmcs cfg.blowup is.1 logMax steps ros).bind fun folded =>
      if folded ≠ final then some false
      else verifyLoop env mmcs ch cfg dchecks openInput logMax betas commits final qs is.2

/-- `Verify` (verify.h:64-126). -/
def verify (env : Env K) (mmcs : Mmcs K Com Data Prf) (ch : Chal K Com W S) (cfg : Config)
    (dchecks : Bool) (openInput : ℕ → Inp → Option (List (ℕ × K))) (proof : Proof K Com Prf Inp W)
    (s : S) : Option Bool :=
  let bs := sampleBetas ch proof.commits s
  let s := ch.observeElem proof.final bs.2
  if proof.queries.length ≠ cfg.numQueries then some false
  else
    let ws := ch.checkWitness cfg.powBits proof.pow s
    if ws.1 then
      verifyLoop env mmcs ch cfg dchecks openInput (proof.commits.length + cfg.logBlowup) bs.1 proof.commits
        proof.final proof.queries ws.2
    else some false

end
end Tachyon.Fri
