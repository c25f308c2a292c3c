import Verif.Model.Qap
import Verif.Model.Kzg
/-!
# Model of Groth16: `tachyon/zk/r1cs/groth16`

`key.h`, `proving_key.h`, `verifying_key.h`, `prepared_verifying_key.h`, `toxic_waste.h`, `proof.h`, `prove.h`,
`verify.h` and `constraint_system/circuit.h`.

As for KZG the groups are modules over the scalar field, points are the group elements they stand for
(`ToAffine`, `BatchNormalize`, `ConvertPoint`, `G2Prepared`: the identity), the variable-base multi-scalar
multiplication is that of C31 and the fixed-base one that of C33, whose table sizes (key.h:66-74,
proving_key.h:124-125) are left out. The group of the pairing is written additively and `e` is the pairing of two
points. Random values are parameters. Code for GPUs is left out. `none` is a failing `CHECK`, `unwrap`, an access
out of bounds, or the result `false` of `Load`.
-/
namespace Tachyon.Groth16
open Tachyon.R1cs Tachyon.FFT Tachyon.Group Tachyon.Kzg

variable {F G1 G2 GT : Type} [Field F] [DecidableEq F] [AddCommGroup G1] [Module F G1] [AddCommGroup G2] [Module F G2]
  [AddCommGroup GT] [DecidableEq GT]

/-- What a `Circuit` may do in `Synthesize` (circuit.h:13): the calls that add to a constraint system, each of which
may depend on the variables returned before. A circuit that looks at the mode or the values of the system is not of
this form. -/
inductive Prog (F : Type) where
  | done
  | createInstance (v : F) (k : Var → Prog F)
  | createWitness (v : F) (k : Var → Prog F)
  | createLC (l : LC F) (k : Var → Prog F)
  | enforce (a b c : LC F) (k : Prog F)

/-- `Synthesize` (circuit.h:13). -/
def Prog.run : Prog F → CS F → Option (CS F)
  | .done, cs => some cs
  | .createInstance v k, cs => (k (cs.createInstance v).1).run (cs.createInstance v).2
  | .createWitness v k, cs => (k (cs.createWitness v).1).run (cs.createWitness v).2
  | .createLC l k, cs => (k (cs.createLC l).1).run (cs.createLC l).2
  | .enforce a b c k, cs => (cs.enforce a b c).bind k.run

/-- The constraint system of a key (key.h:47-53) or of a proof (prove.h:199-204). -/
def synthesize (s : Sorter F) (p : Prog F) (setup : Bool) : Option (CS F) :=
  (({} : CS F).setGoal false).bind fun cs =>
    (p.run (if setup then cs.setMode true false else cs)).bind fun cs => cs.finalize s

/-- `ToxicWaste` (toxic_waste.h:16-88) without `x`. -/
structure Toxic (F G1 G2 : Type) where
  alpha : F
  beta : F
  gamma : F
  delta : F
  g1 : G1
  g2 : G2

/-- `SampleX` (toxic_waste.h:56-59, univariate_evaluation_domain.h:120-126): the first of the random values that is
outside the domain. -/
def sampleX (d : Domain F) (draws : List F) : Option F := draws.find? fun t => d.vanishingAt t ≠ 0

/-- `KeyPreLoadResult` (key.h:29-37), and the `x` that `PreLoad` has sampled. -/
structure PreLoad (F : Type) where
  domain : Domain F
  x : F
  qap : QapInstance F

/-- `PreLoad` (key.h:41-78). -/
def preLoad (threads : Nat) (cfg : RootConfig F) (s : Sorter F) (p : Prog F) (draws : List F) : Option (PreLoad F) :=
  (synthesize s p true).bind fun cs =>
    (Domain.create cfg (cs.numCons + cs.numInst)).bind fun d =>
      (sampleX d draws).bind fun x => (instanceMap threads d cs x).map fun q => ⟨d, x, q⟩

/-- `ComputeABC` (key.h:80-88). -/
def computeABC (tw : Toxic F G1 G2) (inverse a b c : F) : F := (tw.beta * a + tw.alpha * b + c) * inverse

/-- `ComputeABC` for the variables from `start` on (verifying_key.h:90-96, proving_key.h:112-122). -/
def abcRange (tw : Toxic F G1 G2) (inverse : F) (q : QapInstance F) (start n : Nat) : Option (List F) :=
  (List.range n).mapM fun i =>
    (q.a[start + i]?).bind fun a => (q.b[start + i]?).bind fun b => (q.c[start + i]?).map fun c =>
      computeABC tw inverse a b c

/-- `VerifyingKey` (verifying_key.h:144-154). -/
structure VerifyingKey (G1 G2 : Type) where
  alphaG1 : G1
  betaG2 : G2
  gammaG2 : G2
  deltaG2 : G2
  l : List G1

/-- `VerifyingKey::Load` with the inverse of `γ` (verifying_key.h:78-122). -/
def loadVerifyingWith (tw : Toxic F G1 G2) (r : PreLoad F) (gammaInv : F) : Option (VerifyingKey G1 G2) :=
  (abcRange tw gammaInv r.qap 0 r.qap.numInst).bind fun l =>
    (mapScalars tw.g1 l l.length).map fun l =>
      ⟨tw.alpha • tw.g1, tw.beta • tw.g2, tw.gamma • tw.g2, tw.delta • tw.g2, l⟩

/-- `VerifyingKey::Load` for a circuit (verifying_key.h:63-76). -/
def loadVerifying (threads : Nat) (cfg : RootConfig F) (s : Sorter F) (tw : Toxic F G1 G2) (p : Prog F)
    (draws : List F) : Option (VerifyingKey G1 G2) :=
  (preLoad threads cfg s p draws).bind fun r => (inv? tw.gamma).bind (loadVerifyingWith tw r)

/-- `ProvingKey` (proving_key.h:206-221). -/
structure ProvingKey (G1 G2 : Type) where
  vk : VerifyingKey G1 G2
  betaG1 : G1
  deltaG1 : G1
  a : List G1
  bG1 : List G1
  bG2 : List G2
  h : List G1
  l : List G1

/-- `ProvingKey::Load` after `PreLoad` (proving_key.h:101-178). -/
def loadProvingWith (threads : Nat) (tw : Toxic F G1 G2) (r : PreLoad F) (gammaInv deltaInv : F) :
    Option (ProvingKey G1 G2) :=
  (loadVerifyingWith tw r gammaInv).bind fun vk =>
    let h := computeHQuery threads r.domain r.qap.tx r.x deltaInv
    (abcRange tw deltaInv r.qap r.qap.numInst r.qap.numWit).bind fun l =>
    (mapScalars tw.g1 r.qap.a r.qap.a.length).bind fun a =>
    (mapScalars tw.g1 r.qap.b r.qap.b.length).bind fun b1 =>
    (mapScalars tw.g2 r.qap.b r.qap.b.length).bind fun b2 =>
    (mapScalars tw.g1 h h.length).bind fun h =>
    (mapScalars tw.g1 l l.length).map fun l =>
      ⟨vk, tw.beta • tw.g1, tw.delta • tw.g1, a, b1, b2, h, l⟩

/-- `ProvingKey::Load` (proving_key.h:82-179). -/
def loadProving (threads : Nat) (cfg : RootConfig F) (s : Sorter F) (tw : Toxic F G1 G2) (p : Prog F)
    (draws : List F) : Option (ProvingKey G1 G2) :=
  (batchInverse threads [tw.gamma, tw.delta] 2 1).bind fun invs =>
    (preLoad threads cfg s p draws).bind fun r =>
      (invs[0]?).bind fun gammaInv => (invs[1]?).bind fun deltaInv => loadProvingWith threads tw r gammaInv deltaInv

/-! ### Proofs -/

/-- `Proof` (proof.h:16-51). -/
structure Proof (G1 G2 : Type) where
  a : G1
  b : G2
  c : G1
deriving DecidableEq

/-- `CalculateCoeff` (prove.h:33-50). -/
def calculateCoeff {G : Type} [AddCommGroup G] [Module F G] (initial : G) (query : List G) (vkParam : G)
    (assignments : List F) : Option G :=
  match query with
  | [] => none
  | q :: query => (msm query assignments).map fun acc => initial + q + acc + vkParam

/-- `h_acc` (prove.h:102-112). -/
def hAcc (query : List G1) (h : List F) : Option G1 :=
  if query.length < h.length then msm query (h.take (h.length - 1)) else msm (query.take h.length) h

/-- `CreateProofWithAssignment` (prove.h:52-165). -/
def createProof (pk : ProvingKey G1 G2) (r s : F) (h witness full : List F) : Option (Proof G1 G2) :=
  (msm pk.l witness).bind fun witnessAcc =>
  (hAcc pk.h h).bind fun hAcc =>
  (calculateCoeff (r • pk.deltaG1) pk.a pk.vk.alphaG1 full).bind fun a =>
  (calculateCoeff (s • pk.vk.deltaG2) pk.bG2 pk.vk.betaG2 full).bind fun b =>
  (if r ≠ 0 then
    (calculateCoeff (s • pk.deltaG1) pk.bG1 pk.betaG1 full).map fun b1 => s • a + r • b1 - s • (r • pk.deltaG1)
   else some (s • a)).map fun c => ⟨a, b, c + witnessAcc + hAcc⟩

/-- `CreateProofWithReduction` (prove.h:191-220); `full_assignments` and the instance assignments start with one, so
`subspan(1)` is defined. The twiddle item is the one of the domain (C60). -/
def prove (threads : Nat) (o : Sched) (small : Bool) (cfg : RootConfig F) (g : F) (st : Sorter F) (p : Prog F)
    (pk : ProvingKey G1 G2) (r s : F) : Option (Proof G1 G2) :=
  (synthesize st p false).bind fun cs =>
    (Domain.create cfg (cs.numCons + cs.numInst)).bind fun d =>
      (Item.new threads o small d false).bind fun item =>
        (witnessMap threads o g d item cs).bind fun w => createProof pk r s w.1 cs.wit (w.2.drop 1)

/-- `ReRandomizeProof` (prove.h:245-295); `draws` are the pairs of random values. -/
def reRandomize (vk : VerifyingKey G1 G2) (proof : Proof G1 G2) (draws : List (F × F)) : Option (Proof G1 G2) :=
  (draws.find? fun r => ¬(r.1 = 0 ∧ r.2 = 0)).bind fun r =>
    (inv? r.1).map fun inv => ⟨inv • proof.a, r.1 • (r.2 • vk.deltaG2 + proof.b), r.2 • proof.a + proof.c⟩

/-! ### Verification -/

/-- `PreparedVerifyingKey` (prepared_verifying_key.h:61-69). -/
structure Prepared (G1 G2 GT : Type) where
  vk : VerifyingKey G1 G2
  alphaBeta : GT
  deltaNeg : G2
  gammaNeg : G2

/-- `ToPreparedVerifyingKey` (prepared_verifying_key.h:71-104). -/
def VerifyingKey.prepare (e : G1 → G2 → GT) (vk : VerifyingKey G1 G2) : Prepared G1 G2 GT :=
  ⟨vk, e vk.alphaG1 vk.betaG2, -vk.deltaG2, -vk.gammaG2⟩

/-- `PrepareInputs` (verify.h:20-35): `subspan(1)` of an empty query aborts, the inner `none` is `false`. -/
def prepareInputs (pvk : Prepared G1 G2 GT) (inputs : List F) : Option (Option G1) :=
  match pvk.vk.l with
  | [] => none
  | l :: ls => some ((msm ls inputs).map (· + l))

/-- `VerifyProofWithPreparedInputs` (verify.h:37-60). -/
def verifyPrepared (e : G1 → G2 → GT) (pvk : Prepared G1 G2 GT) (proof : Proof G1 G2) (inputs : G1) : Bool :=
  e proof.a proof.b + e inputs pvk.gammaNeg + e proof.c pvk.deltaNeg = pvk.alphaBeta

/-- `VerifyProof` (verify.h:62-74). -/
def verify (e : G1 → G2 → GT) (pvk : Prepared G1 G2 GT) (proof : Proof G1 G2) (inputs : List F) : Option Bool :=
  (prepareInputs pvk inputs).map fun r =>
    match r with
    | none => false
    | some inputs => verifyPrepared e pvk proof inputs

end Tachyon.Groth16
