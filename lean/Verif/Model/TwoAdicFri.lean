import Verif.Model.Fri
import Verif.Model.BatchFFT
/-! The polynomial commitment scheme `TwoAdicFRI` (crypto/commitments/fri/two_adic_fri.h) and
`DotExtPowers` (math/matrix/matrix_utils.h).

As in `Verif/Model/Fri.lean` everything happens in the extension field `K`, base field elements are
represented by their images and roots of unity come from `env.root`. A matrix is the list of its rows; the
number of its columns is the length of its first row. Hash maps and B-trees are lists of pairs. Indices that
C++ reads without a check give `none` out of range. Log output and trace events are left out, and so are the
threads of the loops that write each entry once (two_adic_fri.h:153-157, :180-185, matrix_utils.h:172). -/
namespace Tachyon.TwoAdicFri
open Tachyon.Fri Tachyon.Parallel

/-- The members of `TwoAdicFRI` (two_adic_fri.h:443-444), the field constant `kSubgroupGenerator`, the number
of values in a packed field, and the surroundings. -/
structure Pcs (K Com Data Prf : Type) where
  env : Env K
  lanes : ℕ
  gen : K
  mmcs : Mmcs K Com Data Prf
  cfg : Config

section
variable {K Com Data Prf W S : Type} [Field K] [DecidableEq K]

/-- The number of columns of a matrix. -/
def cols (mat : List (List K)) : ℕ := (mat.headD []).length

/-- `Commit` (two_adic_fri.h:76-94); the arguments in front belong to `CosetLDEBatch` (C62). -/
def commit (p : Pcs K Com Data Prf) (o : FFT.Sched) (rcfg : FFT.RootConfig K)
    (cache : FFT.Domain K → Option (FFT.Item K)) (cosets : List (FFT.Domain K))
    (matrices : List (List (List K))) : Option (Com × Data) :=
  (cosets.zipIdx.mapM fun c =>
    matrices[c.2]?.bind fun mat =>
    if c.1.size ≠ mat.length then none
    else
      (cache c.1).bind fun item =>
      FFT.cosetLDE p.env.threads o p.lanes rcfg cache c.1 item mat (cols mat) p.cfg.logBlowup
        (p.gen * c.1.offsetInv) (mat.length * 2 ^ p.cfg.logBlowup) (cols mat) false).bind p.mmcs.commit

/-! ### `InterpolateCoset` -/

/-- `diff_invs` before the inversion (two_adic_fri.h:409-415). -/
def diffs (w point : K) : ℕ → K → List K
  | 0, _ => []
  | n + 1, shiftedPow => (point - shiftedPow) :: diffs w point n (shiftedPow * w)

/-- The loop over the rows of a chunk (two_adic_fri.h:417-423). -/
def trackRows (w : K) : List (K × List K) → K → List K → List K
  | [], _, sums => sums
  | (d, row) :: l, pow, sums => trackRows w l (pow * w) (List.zipWith (fun s e => s + d * pow * e) sums row)

/-- The callback for one chunk (two_adic_fri.h:404-425). -/
def interpolateChunk (w shift point : K) (evals : List (List K)) (len rowStart : ℕ) : Option (List K) :=
  let pow := Group.powSize w rowStart
  (Group.batchInverseSerial (diffs w point len (shift * pow)) len 1).map fun inv =>
    trackRows w (inv.zip ((evals.drop rowStart).take len)) pow (List.replicate (cols evals) 0)

/-- `InterpolateCoset` (two_adic_fri.h:391-441). -/
def interpolateCoset (env : Env K) (evals : List (List K)) (shift point : K) : Option (List K) :=
  (Bits.checkedLog2 (BitVec.ofNat 64 evals.length)).bind fun logRows =>
  (env.root logRows).bind fun w =>
  let cs := sizePerThread env.threads evals.length none
  ((invocations evals.length cs).mapM fun c => interpolateChunk w shift point evals c.2 (c.1 * cs)).bind
    fun sums =>
  let zeroifier := Group.squareTimes logRows point - Group.squareTimes logRows shift
  (Group.inv? ((evals.length : K) * Group.powSize shift (evals.length - 1))).map fun inv =>
    (sums.foldl (List.zipWith (· + ·)) (List.replicate (cols evals) 0)).map (· * (zeroifier * inv))

/-! ### The reduced openings of the prover -/

/-- The loop of `reduced_ys` (two_adic_fri.h:168-174): the sum of the values times the successive powers of
`alpha`, from `pow` on. -/
def dotPowers (alpha : K) : List K → K → K → K
  | [], _, acc => acc
  | y :: ys, pow, acc => dotPowers alpha ys (pow * alpha) (acc + pow * y)

/-- `first_n_powers` and the power after them (extension_field_base.h:75-82). -/
def firstPowers (alpha : K) : ℕ → K → List K × K
  | 0, pow => ([], pow)
  | n + 1, pow => (pow :: (firstPowers alpha n (pow * alpha)).1, (firstPowers alpha n (pow * alpha)).2)

/-- The vector `ret` from an element on, with so many elements after it (extension_field_base.h:97-100). -/
def packedPowers (mult : K) : ℕ → List K → List (List K)
  | 0, v => [v]
  | n + 1, v => v :: packedPowers mult n (v.map (· * mult))

/-- `GetExtendedPackedPowers` (extension_field_base.h:66-102) with `lanes` values in a packed field; for
size zero the bound of the loop wraps around. -/
def getPackedPowers (lanes : ℕ) (alpha : K) (size : ℕ) : Option (List (List K)) :=
  if size = 0 then none
  else some (packedPowers (firstPowers alpha lanes 1).2 (size - 1) (firstPowers alpha lanes 1).1)

/-- `PackRowHorizontallyPadded` (matrix_utils.h:61-80). -/
def packRow (lanes : ℕ) (row : List K) : List (List K) :=
  (List.range ((row.length + lanes - 1) / lanes)).map fun i =>
    (List.range lanes).map fun c => row.getD (i * lanes + c) 0

/-- The sum of the products lane by lane (matrix_utils.h:175-178), then over the lanes (:179-185). -/
def dotRow (lanes : ℕ) (powers rows : List (List K)) : K :=
  ((powers.zip rows).foldl (fun acc p => List.zipWith (· + ·) acc (List.zipWith (· * ·) p.1 p.2))
    (List.replicate lanes 0)).foldl (· + ·) 0

/-- `DotExtPowers` (matrix_utils.h:159-188). -/
def dotExtPowers (lanes : ℕ) (alpha : K) (mat : List (List K)) : Option (List K) :=
  (getPackedPowers lanes alpha ((cols mat + lanes - 1) / lanes * lanes)).map fun powers =>
    mat.map fun row => dotRow lanes powers (packRow lanes row)

/-- `try_emplace` and `max` (two_adic_fri.h:351-357). -/
def upsertMax (point : K) (log : ℕ) : List (K × ℕ) → List (K × ℕ)
  | [] => [(point, log)]
  | e :: l => if e.1 = point then (point, max e.2 log) :: l else e :: upsertMax point log l

/-- Each matrix with the points at which it is opened; missing points are a read out of bounds. -/
def zipPoints {α β : Type} : List α → List β → Option (List (α × β))
  | [], _ => some []
  | _ :: _, [] => none
  | a :: as, b :: bs => (zipPoints as bs).map ((a, b) :: ·)

/-- The loop over the matrices (two_adic_fri.h:338-359): the points with the largest logarithm of a number
of rows, and the largest logarithm. The number of rows is cast to 32 bits. -/
def maxLogs : List (List (List K) × List K) → List (K × ℕ) × ℕ → Option (List (K × ℕ) × ℕ)
  | [], st => some st
  | (mat, points) :: l, st =>
    (Bits.checkedLog2 (BitVec.ofNat 32 mat.length)).bind fun log =>
    maxLogs l (points.foldl (fun m z => upsertMax z log m) st.1, max st.2 log)

/-- The inverses for one point (two_adic_fri.h:374-383). -/
def invDenom (env : Env K) (subgroup : List K) (point : K) (log : ℕ) : Option (List K) :=
  let cs := numElementsPerThread env.threads (2 ^ log) none
  ((invocations (2 ^ log) cs).mapM fun c =>
    if subgroup.length < c.1 * cs + c.2 then none
    else
      Group.batchInverse env.threads (((subgroup.drop (c.1 * cs)).take c.2).map (· - point)) c.2 1).map
    List.flatten

/-- `ComputeInverseDenominators` (two_adic_fri.h:330-387). -/
def inverseDenominators (env : Env K) (mats : List (List (List K) × List K)) (shift : K) :
    Option (List (K × List K)) :=
  (maxLogs mats ([], 0)).bind fun m =>
  (env.root m.2).bind fun w =>
  (Group.getBitRevPowers env.threads (2 ^ m.2) w shift env.order).bind fun subgroup =>
  m.1.mapM fun e => (invDenom env subgroup e.1 e.2).map fun inv => (e.1, inv)

/-- `inv_denoms[point]` (two_adic_fri.h:179); a missing entry is an empty vector. -/
def denomOf (point : K) (l : List (K × List K)) : List K := (l.lookup point).getD []

/-- The loop over the entries (two_adic_fri.h:180-185). -/
def addReduced (offset ys : K) : List K → List K → List K → Option (List K)
  | [], _, _ => some []
  | a :: as, r :: rs, d :: ds => (addReduced offset ys as rs ds).map ((a + offset * (r - ys) * d) :: ·)
  | _, _, _ => none

/-- `reduced_openings` and `num_reduced` (two_adic_fri.h:127-128). -/
structure Reduced (K : Type) where
  openings : List (List K)
  nums : List ℕ

/-- The initial state (two_adic_fri.h:127-128). -/
def Reduced.init : Reduced K := ⟨List.replicate 32 [], List.replicate 32 0⟩

/-- `block` (two_adic_fri.h:151-157). -/
def block (cfg : Config) (mat : List (List K)) (log : ℕ) : Option (List (List K)) :=
  (List.range (mat.length / 2 ^ cfg.logBlowup)).mapM fun row =>
    (Bits.reverseBitsLen (BitVec.ofNat 64 row) (log - cfg.logBlowup)).bind fun r => mat[r.toNat]?

/-- The loop over the points of a matrix (two_adic_fri.h:162-187): the state and the opened values. -/
def openPoints (env : Env K) (gen alpha : K) (inv : List (K × List K)) (blk : List (List K))
    (rows : List K) : List K → List K → ℕ → Option ((List K × ℕ) × List (List K))
  | [], red, num => some ((red, num), [])
  | z :: zs, red, num =>
    (interpolateCoset env blk gen z).bind fun ys =>
    if ys = [] then none
    else
      (addReduced (Group.powSize alpha num) (dotPowers alpha ys 1 0) red rows (denomOf z inv)).bind fun red =>
      (openPoints env gen alpha inv blk rows zs red (num + ys.length)).map fun r => (r.1, ys :: r.2)

/-- One matrix (two_adic_fri.h:137-187). -/
def openMatrix (p : Pcs K Com Data Prf) (alpha : K) (inv : List (K × List K))
    (mat : List (List K)) (points : List K) (st : Reduced K) : Option (Reduced K × List (List K)) :=
  (Bits.checkedLog2 (BitVec.ofNat 64 mat.length)).bind fun log =>
  st.openings[log]?.bind fun red =>
  st.nums[log]?.bind fun num =>
  let red := if red = [] then List.replicate mat.length 0 else red
  if red.length ≠ mat.length then none
  else
    (block p.cfg mat log).bind fun blk =>
    (dotExtPowers p.lanes alpha mat).bind fun rows =>
    (openPoints p.env p.gen alpha inv blk rows points red num).map fun r =>
      (⟨st.openings.set log r.1.1, st.nums.set log r.1.2⟩, r.2)

/-- The matrices of a round (two_adic_fri.h:136-188). -/
def openRound (p : Pcs K Com Data Prf) (alpha : K) (inv : List (K × List K)) :
    List (List (List K) × List K) → Reduced K → Option (Reduced K × List (List (List K)))
  | [], st => some (st, [])
  | (mat, points) :: l, st =>
    (openMatrix p alpha inv mat points st).bind fun r =>
    (openRound p alpha inv l r.1).map fun r' => (r'.1, r.2 :: r'.2)

/-- The rounds (two_adic_fri.h:131-190). -/
def openRounds (p : Pcs K Com Data Prf) (alpha : K) (inv : List (K × List K)) :
    List (List (List (List K) × List K)) → Reduced K → Option (Reduced K × List (List (List (List K))))
  | [], st => some (st, [])
  | round :: l, st =>
    (openRound p alpha inv round st).bind fun r =>
    (openRounds p alpha inv l r.1).map fun r' => (r'.1, r.2 :: r'.2)

/-- `GetMaxRowSize` (mixed_matrix_commitment_scheme.h:108-119). -/
def maxRows (mats : List (List (List K))) : ℕ := (mats.map List.length).foldl max 0

/-- `index >> bits_reduced` with `bits_reduced = log_global - log` in 32 bits: a difference that wraps
around or is too large is an undefined shift (two_adic_fri.h:212-214, :273-275, :292-294). -/
def shiftIndex (index logGlobal log : ℕ) : Option ℕ :=
  if logGlobal < log ∨ 64 ≤ logGlobal - log then none else some (index / 2 ^ (logGlobal - log))

/-- The callback for the queries (two_adic_fri.h:202-220). -/
def openInput (mmcs : Mmcs K Com Data Prf) (logGlobal : ℕ) (datas : List Data) (index : ℕ) :
    Option (List (List (List K) × Prf)) :=
  datas.mapM fun d =>
    (Bits.checkedLog2 (BitVec.ofNat 64 (maxRows (mmcs.matrices d)))).bind fun log =>
    (shiftIndex index logGlobal log).bind fun i => mmcs.openAt (i % 2 ^ 32) d

/-- `CreateOpeningProof` (two_adic_fri.h:96-223): the opened values, the proof and the state of the
challenger. `fmmcs` is the commitment scheme of the FRI configuration. -/
def createOpeningProof {Com' Data' Prf' : Type} (p : Pcs K Com Data Prf) (fmmcs : Mmcs K Com' Data' Prf')
    (ch : Chal K Com' W S) (dchecks : Bool) (datas : List Data) (points : List (List (List K))) (s : S) :
    Option ((List (List (List (List K))) × Proof K Com' Prf' (List (List (List K) × Prf)) W) × S) :=
  let as := ch.sampleExt s
  let mats := datas.map p.mmcs.matrices
  (Bits.checkedLog2 (BitVec.ofNat 64 ((mats.map maxRows).foldl max 0))).bind fun logGlobal =>
  (zipPoints mats points).bind fun rounds =>
  (rounds.mapM fun r => zipPoints r.1 r.2).bind fun rounds =>
  (inverseDenominators p.env rounds.flatten p.gen).bind fun inv =>
  (openRounds p as.1 inv rounds Reduced.init).bind fun r =>
  (prove p.env fmmcs ch p.cfg dchecks (r.1.openings.reverse.filter (· ≠ [])) (openInput p.mmcs logGlobal datas)
    as.2).map fun q => ((r.2, q.1), q.2)

/-! ### The verifier -/

/-- The entry of the B-tree for a height, created if it is missing (two_adic_fri.h:300-302), and changed by
`f`; the list is sorted by descending height. -/
def update (h : ℕ) (f : K × K → Option (K × K)) : List (ℕ × K × K) → Option (List (ℕ × K × K))
  | [] => (f (0, 1)).map fun v => [(h, v)]
  | e :: l =>
    if e.1 = h then (f e.2).map fun v => (h, v) :: l
    else if e.1 < h then (f (0, 1)).map fun v => (h, v) :: e :: l
    else (update h f l).map (e :: ·)

/-- The loop over the columns (two_adic_fri.h:308-312): the state is the value and the power. -/
def addColumns (alpha denom : K) : List K → List K → K × K → K × K
  | v :: vs, y :: ys, (value, pow) => addColumns alpha denom vs ys (value + pow * ((v - y) * denom), pow * alpha)
  | _, _, st => st

/-- The loop over the points (two_adic_fri.h:303-313). -/
def addPoints (alpha x : K) (row : List K) : List K → List (List K) → K × K → Option (K × K)
  | [], _, st => some st
  | z :: zs, values, st =>
    (Group.inv? (x - z)).bind fun denom =>
    (values.head?).bind fun ys =>
    if ys.length ≠ row.length then none
    else addPoints alpha x row zs values.tail (addColumns alpha denom row ys st)

/-- What the verifier knows about a matrix: its domain, its points and the opened values. -/
structure Claim (K : Type) where
  domain : FFT.Domain K
  points : List K
  values : List (List K)

/-- One matrix of a round (two_adic_fri.h:284-313); `row` is the opened row of the matrix. -/
def reduceMatrix (p : Pcs K Com Data Prf) (alpha : K) (logGlobal index : ℕ) (c : Claim K)
    (row : List K) (m : List (ℕ × K × K)) : Option (List (ℕ × K × K)) :=
  let log := c.domain.logSize + p.cfg.logBlowup
  (shiftIndex index logGlobal log).bind fun i =>
  (Bits.reverseBitsLen (BitVec.ofNat 64 i) log).bind fun r =>
  (p.env.root log).bind fun w =>
  update log (addPoints alpha (p.gen * w ^ (r.toNat % 2 ^ 32)) row c.points c.values) m

/-- The matrices of a round (two_adic_fri.h:283-314); a missing row is a read out of bounds. -/
def reduceMatrices (p : Pcs K Com Data Prf) (alpha : K) (logGlobal index : ℕ) :
    List (Claim K) → List (List K) → List (ℕ × K × K) → Option (List (ℕ × K × K))
  | [], _, m => some m
  | _ :: _, [], _ => none
  | c :: cs, row :: rows, m =>
    (reduceMatrix p alpha logGlobal index c row m).bind (reduceMatrices p alpha logGlobal index cs rows)

/-- One round (two_adic_fri.h:258-314). -/
def reduceRound (p : Pcs K Com Data Prf) (alpha : K) (logGlobal index : ℕ) (com : Com) (claims : List (Claim K))
    (inp : List (List K) × Prf) (m : List (ℕ × K × K)) : Option (List (ℕ × K × K)) :=
  let dims := claims.map fun c => c.domain.size * 2 ^ p.cfg.logBlowup
  (Bits.checkedLog2 (BitVec.ofNat 64 (dims.foldl max 0))).bind fun log =>
  (shiftIndex index logGlobal log).bind fun i =>
  if p.mmcs.verify com dims (i % 2 ^ 32) inp.1 inp.2 then
    reduceMatrices p alpha logGlobal index claims inp.1 m
  else none

/-- The rounds (two_adic_fri.h:257-315). -/
def reduceRounds (p : Pcs K Com Data Prf) (alpha : K) (logGlobal index : ℕ) :
    List (Com × List (Claim K)) → List (List (List K) × Prf) → List (ℕ × K × K) →
      Option (List (ℕ × K × K))
  | [], _, m => some m
  | _ :: _, [], _ => none
  | c :: cs, inp :: inps, m =>
    (reduceRound p alpha logGlobal index c.1 c.2 inp m).bind (reduceRounds p alpha logGlobal index cs inps)

/-- The callback for the queries (two_adic_fri.h:239-323). -/
def reduceInput (p : Pcs K Com Data Prf) (alpha : K) (logGlobal : ℕ) (rounds : List (Com × List (Claim K)))
    (index : ℕ) (inp : List (List (List K) × Prf)) : Option (List (ℕ × K)) :=
  (reduceRounds p alpha logGlobal index rounds inp []).map fun m => m.map fun e => (e.1, e.2.1)

/-- `VerifyOpeningProof` (two_adic_fri.h:225-324). The domains, points and values of a matrix are given
together as a claim; the program takes three nested vectors and reads out of bounds if their lengths do not
fit. -/
def verifyOpeningProof {Com' Data' Prf' : Type} (p : Pcs K Com Data Prf) (fmmcs : Mmcs K Com' Data' Prf')
    (ch : Chal K Com' W S) (dchecks : Bool) (rounds : List (Com × List (Claim K)))
    (proof : Proof K Com' Prf' (List (List (List K) × Prf)) W) (s : S) : Option Bool :=
  let as := ch.sampleExt s
  verify p.env fmmcs ch p.cfg dchecks
    (reduceInput p as.1 (proof.commits.length + p.cfg.logBlowup) rounds) proof as.2

end
end Tachyon.TwoAdicFri
