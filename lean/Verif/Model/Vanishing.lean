import Mathlib.Algebra.Module.Defs
import Verif.Model.FFT
import Verif.Model.Pow
/-! The quotient polynomial of the plonk prover and what the verifier does with it:
`zk/plonk/vanishing/vanishing_utils.h`, `zk/plonk/vanishing/vanishing_prover_impl.h` (the quotient),
`zk/plonk/vanishing/vanishing_verifier.h` (`Open`), `zk/plonk/halo2/verifier.h` (`EvaluateH`,
`ComputeInstanceEvalsVec`).

`GetHalo2Zeta` keeps its result in a static variable; here it is computed again. The commitment scheme is a function from
lists of coefficients to a module. The blinding factors `h_blinds_` are not used by the prover and left out. -/
universe u v
namespace Tachyon.Vanishing
open Tachyon.FFT Tachyon.Group Tachyon.Parallel

/-- The constants of a prime field that `GetZeta` uses: `kTrace`, `kTwoAdicity`, `kSubgroupGenerator`. -/
structure ZetaConfig (F : Type u) where
  trace : Nat
  twoAdicity : Nat
  generator : F

section
variable {F : Type u} [Field F] [DecidableEq F]

/-- `GetZeta` (vanishing_utils.h:25-36). Simplified: the exponent is a natural number, the power is that of the field. -/
def zeta (cfg : ZetaConfig F) : Option F :=
  if cfg.trace % 3 ≠ 0 then none else some (cfg.generator ^ (cfg.trace * 2 ^ cfg.twoAdicity / 3))

/-- `GetHalo2Zeta` (vanishing_utils.h:44-63). -/
def halo2Zeta (cfg : ZetaConfig F) (scroll : Bool) : Option F :=
  (zeta cfg).map fun z => if scroll then z else z * z

/-- The loop over a chunk of `t_evaluations` (vanishing_utils.h:94-100) with `n + 1` elements. -/
def tLoop (w : F) : Nat → F → List F
  | 0, z => [z - 1]
  | n + 1, z => (z - 1) :: tLoop w n (z * w)

/-- The callback for a chunk of `t_evaluations` (vanishing_utils.h:88-102). -/
def tChunk (w z : F) (start len : Nat) : Option (List F) :=
  batchInverseSerial (tLoop w (len - 1) (z * powSize w start)) len 1

/-- `t_evaluations` after the inversions (vanishing_utils.h:77-102). -/
def tEvals (threads : Nat) (d ext : Domain F) (zeta : F) : Option (List F) :=
  if ext.logSize < d.logSize then none
  else
    let size := 2 ^ (ext.logSize - d.logSize)
    let cs := numElementsPerThread threads size none
    ((invocations size cs).mapM fun c =>
      tChunk (squareTimes d.logSize ext.gen) (squareTimes d.logSize zeta) (c.1 * cs) c.2).map List.flatten

/-- `DivideByVanishingPolyInPlace` (vanishing_utils.h:65-112); a negative difference of the logarithms is a shift by more
than a word. -/
def divideByVanishing (threads : Nat) (d ext : Domain F) (zeta : F) (evals : List F) : Option (List F) :=
  if evals.length ≠ ext.size then none
  else
    (tEvals threads d ext zeta).bind fun t =>
      evals.zipIdx.mapM fun e => (t[e.2 % t.length]?).map fun v => e.1 * v

/-- `coset_powers[i % 3 - 1]` (vanishing_utils.h:124-133). -/
def cosetPower (zeta : F) (into : Bool) (i : Nat) : F :=
  if i % 3 = 1 then (if into then zeta else zeta * zeta) else (if into then zeta * zeta else zeta)

/-- `DistributePowersZeta` (vanishing_utils.h:114-135). -/
def distributeZeta (zeta : F) (into : Bool) (coeffs : List F) : List F :=
  coeffs.mapIdx fun i c => if i % 3 = 0 then c else c * cosetPower zeta into i

/-- `CoeffToExtended` (vanishing_utils.h:137-161). -/
def coeffToExtended (threads : Nat) (o : Sched) (ext : Domain F) (item : Item F) (zeta : F) (p : List F) :
    Option (List F) :=
  fft threads o ext item (distributeZeta zeta true p)

/-- `ExtendedToCoeff` (vanishing_utils.h:163-180). -/
def extendedToCoeff (threads : Nat) (o : Sched) (ext : Domain F) (item : Item F) (zeta : F) (evals : List F) :
    Option (List F) :=
  if evals.length ≠ ext.size then none
  else (ifft threads o ext item evals).map (distributeZeta zeta false)

/-- `flattened_transposed_columns[j * cols + i] = columns[i][j]` for all `j` (vanishing_utils.h:191-193). -/
def writeColumn (columns : List (List F)) (rows : Nat) (out : List F) (i : Nat) : Option (List F) :=
  (List.range rows).foldlM (fun out j =>
    (columns[i]?).bind fun c => (c[j]?).bind fun v =>
      if j * columns.length + i < out.length then some (out.set (j * columns.length + i) v) else none) out

/-- `BuildExtendedColumnWithColumns` (vanishing_utils.h:182-196). -/
def buildExtended (columns : List (List F)) : Option (List F) :=
  match columns with
  | [] => none
  | c :: _ => (List.range columns.length).foldlM (writeColumn columns c.length)
      (List.replicate (columns.length * c.length) 0)

/-- `ComputeExtendedK` (constraint_system.h:691-696); `degree - 1` wraps for zero, the shift and the product may overflow. -/
def extendedK (degree k : Nat) : Option Nat :=
  if degree = 0 ∨ 64 ≤ k then none
  else some (max (Bits.safeLog2Ceiling (BitVec.ofNat 64 (2 ^ k * (degree - 1)))).toNat k)

/-- `CreateFinalHPoly` (vanishing_prover_impl.h:77-97). -/
def finalH (threads : Nat) (o : Sched) (d ext : Domain F) (item : Item F) (zeta : F) (evals : List F) :
    Option (List F) :=
  (divideByVanishing threads d ext zeta evals).bind (extendedToCoeff threads o ext item zeta)

/-- The coefficients after `resize` in `CommitFinalHPoly` (vanishing_prover_impl.h:111-114); `degree` is that of the
constraint system, and `degree - 1` wraps for zero. -/
def truncateH (n degree : Nat) (h : List F) : Option (List F) :=
  if degree = 0 then none else some (resizeZero (n * (degree - 1)) h)

/-- The pieces (vanishing_prover_impl.h:117-128, 179-182). -/
def pieces (n : Nat) (coeffs : List F) : List (List F) :=
  (invocations coeffs.length n).map (chunkOf coeffs n)

/-- An iteration of the loop over the pieces (vanishing_prover_impl.h:186-191). -/
def combineStep (n : Nat) (xN : F) (coeffs piece : List F) : Option (List F) :=
  (List.range n).mapM fun j => (coeffs[j]?).bind fun c => (piece[j]?).map fun h => c * xN + h

/-- `combined_h_poly_` (vanishing_prover_impl.h:178-192). -/
def combinedH (n : Nat) (xN : F) (coeffs : List F) : Option (List F) :=
  ((pieces n coeffs).reverse.foldlM (combineStep n xN) (List.replicate n 0)).map Poly.Dense.removeZeros

section
variable {G : Type v} [AddCommGroup G] [Module F G]

/-- The commitments to the pieces (vanishing_prover_impl.h:99-134). -/
def commitH (commit : List F → G) (n : Nat) (coeffs : List F) : List G := (pieces n coeffs).map commit

/-- `h_commitment` of the verifier (vanishing_verifier.h:61-65). -/
def verifierH (xN : F) (commitments : List G) : G :=
  linearCombination ⟨0, (· + ·), fun x => x + x⟩ (fun c => xN • c) false commitments

end

/-- The value of the quotient that the verifier expects (halo2/verifier.h:352-355): `evals` are the values of the
constraints. -/
def expectedH (y xN : F) (evals : List F) : Option F :=
  (inv? (xN - 1)).map fun i => linearCombination ⟨0, (· + ·), fun x => x + x⟩ (fun c => c * y) true evals * i

/-- The accumulation of the rotations (halo2/verifier.h:270-287). -/
def rotationRange (rotations : List Int) : Int × Int :=
  rotations.foldl (fun r x => if x < r.1 then (x, r.2) else if r.2 < x then (r.1, x) else r) (0, 0)

/-- `ComputeInstanceEval` (halo2/verifier.h:241-252); a query is a column and a rotation. -/
def instanceEval (columns : List (List F)) (coeffs : List F) (maxRotation : Int) (q : Nat × Int) : Option F :=
  (columns[q.1]?).bind fun instances =>
    let offset := maxRotation - q.2
    if offset < 0 ∨ coeffs.length < offset.toNat then none
    else sumOfProductsSerial instances ((coeffs.drop offset.toNat).take instances.length)

/-- `ComputeMaxRow` (halo2/verifier.h:232-239): without columns zero. -/
def maxRow (columns : List (List F)) : Nat := (columns.map List.length).foldl max 0

/-- `ComputeInstanceEvalsVec` (halo2/verifier.h:267-309); `columns` are those of all circuits. -/
def instanceEvals (threads : Nat) (d : Domain F) (x : F) (columns : List (List (List F))) (queries : List (Nat × Int)) :
    Option (List (List F)) :=
  let range := rotationRange (queries.map Prod.snd)
  let stop := ((columns.map maxRow).foldl max 0 : Nat) + range.1.natAbs
  (d.partialLagrange threads x (-range.2) (range.2 + stop).toNat).bind fun coeffs =>
    columns.mapM fun cols => queries.mapM (instanceEval cols coeffs range.2)

end
end Tachyon.Vanishing
