import Verif.Model.Groth16
/-!
# Model of the Groth16 prover for circom: `vendors/circom`

`circomlib/circuit/quadratic_arithmetic_program.h`, `circomlib/circuit/circuit.h`,
`circomlib/zkey/{coefficient,proving_key,verifying_key}.h` and `CreateProof` of `prover_main.cc`.

The iterations of the loop over the coefficients run in parallel, each of them under the lock of its
constraint: they are run in any order. Groups and the field are those of `Model.Groth16`. Pointers and
spans into the file are the values they refer to. The witness calculator generated by circom is left
out: the values of the wires are a list. Code for GPUs, times and files are left out.
-/
namespace Tachyon.Circom
open Tachyon.R1cs Tachyon.FFT Tachyon.Groth16

variable {F G1 G2 GT : Type} [Field F] [DecidableEq F] [AddCommGroup G1] [Module F G1] [AddCommGroup G2] [Module F G2]
  [AddCommGroup GT] [DecidableEq GT]

/-- `Coefficient` (zkey/coefficient.h:26-49). -/
structure Coeff (F : Type) where
  matrix : Nat
  constraint : Nat
  signal : Nat
  value : F
deriving DecidableEq

/-- One iteration of the loop over the coefficients (quadratic_arithmetic_program.h:51-66) on the vectors
`a` and `b`; an index out of range is `none`. -/
def addCoeff (full : List F) (ab : List F × List F) (c : Coeff F) : Option (List F × List F) :=
  let v := if c.matrix = 0 then ab.1 else ab.2
  (v[c.constraint]?).bind fun old => (full[c.signal]?).map fun z =>
    let v := v.set c.constraint (old + (if c.value = 1 then z else c.value * z))
    if c.matrix = 0 then (v, ab.2) else (ab.1, v)

/-- The vectors `a` and `b` (quadratic_arithmetic_program.h:33-66). -/
def abValues (o : Sched) (size : Nat) (cs : List (Coeff F)) (full : List F) : Option (List F × List F) :=
  (o.one (List.range cs.length)).foldlM (fun ab i => (cs[i]?).bind (addCoeff full ab))
    (List.replicate size 0, List.replicate size 0)

/-- The last loop (quadratic_arithmetic_program.h:111-115): `at` checks the index, `operator[]` gives zero
beyond the end (univariate_evaluations.h:131-134, :142-147). -/
def hEvals (size : Nat) (a b c : List F) : Option (List F) :=
  (List.range size).mapM fun i => (a[i]?).map fun v => v * b.getD i 0 - c.getD i 0

/-- `IFFT`, `DistributePowers`, `FFT` of one vector (quadratic_arithmetic_program.h:86, :96, :103). -/
def shiftEvals (threads : Nat) (o : Sched) (d : Domain F) (item : Item F) (w : F) (v : List F) : Option (List F) :=
  (ifft threads o d item v).bind fun p => fft threads o d item (distribute threads p w 1)

/-- `WitnessMapFromMatrices` (quadratic_arithmetic_program.h:25-118). -/
def witnessMapFromMatrices (threads : Nat) (o : Sched) (cfg : RootConfig F) (d : Domain F) (item : Item F)
    (cs : List (Coeff F)) (full : List F) : Option (List F) :=
  (abValues o d.size cs full).bind fun ab =>
    ((getRootOfUnity cfg (2 * d.size)).bind id).bind fun w =>
      (shiftEvals threads o d item w ab.1).bind fun a =>
        (shiftEvals threads o d item w ab.2).bind fun b =>
          (shiftEvals threads o d item w (List.zipWith (· * ·) ab.1 ab.2)).bind fun c => hEvals d.size a b c

/-- `ProvingKey` (zkey/proving_key.h:23-29) with its `VerifyingKey` (zkey/verifying_key.h:17-22). -/
structure ZProvingKey (G1 G2 : Type) where
  alphaG1 : G1
  betaG1 : G1
  betaG2 : G2
  gammaG2 : G2
  deltaG1 : G1
  deltaG2 : G2
  ic : List G1
  a : List G1
  b1 : List G1
  b2 : List G2
  c : List G1
  h : List G1

/-- `ToNativeVerifyingKey` and `ToNativeProvingKey` (zkey/proving_key.h:39-60); the members of
`groth16::ProvingKey` in order are `beta_g1`, `delta_g1`, the queries `a`, `b` of both groups, `h` and
`l` (groth16/proving_key.h:206-221). -/
def ZProvingKey.toNative (k : ZProvingKey G1 G2) : ProvingKey G1 G2 :=
  ⟨⟨k.alphaG1, k.betaG2, k.gammaG2, k.deltaG2, k.ic⟩, k.betaG1, k.deltaG1, k.a, k.b1, k.b2, k.h, k.c⟩

/-- What `ZKey` gives to the prover (zkey/zkey.h:45-49). -/
structure ZKey (F G1 G2 : Type) where
  pk : ZProvingKey G1 G2
  coefficients : List (Coeff F)
  domainSize : Nat
  numInst : Nat

/-- `subspan(n)`, which aborts beyond the end. -/
def subspan {α : Type} (n : Nat) (l : List α) : Option (List α) := if n ≤ l.length then some (l.drop n) else none

/-- The proof (prover_main.cc:97-99, :115-116, :137-154); `r` and `s` are zero with `no_zk`. The span of
the instance values, which `CreateProofWithAssignment` does not look at, is checked too. -/
def prove (threads : Nat) (o : Sched) (small : Bool) (cfg : RootConfig F) (k : ZKey F G1 G2) (r s : F)
    (full : List F) : Option (Proof G1 G2) :=
  (Domain.create cfg k.domainSize).bind fun d =>
    (Item.new threads o small d false).bind fun item =>
      (witnessMapFromMatrices threads o cfg d item k.coefficients full).bind fun h =>
        (subspan 1 full).bind fun rest =>
          (subspan k.numInst full).bind fun witness => createProof k.pk.toNative r s h witness rest

/-- `public_inputs` (prover_main.cc:166-167). -/
def publicInputs (numInst : Nat) (full : List F) : Option (List F) :=
  (subspan 1 full).map (·.take (numInst - 1))

/-- The check of the proof (prover_main.cc:170-173). -/
def checkProof (e : G1 → G2 → GT) (k : ZKey F G1 G2) (proof : Proof G1 G2) (full : List F) : Option Bool :=
  (publicInputs k.numInst full).bind fun x => verify e (k.pk.toNative.vk.prepare e) proof x

/-! ## `Circuit` -/

/-- `Term` of circom (r1cs/constraint.h:15-17). -/
structure CTerm (F : Type) where
  wire : Nat
  coeff : F

/-- `Constraint` (r1cs/constraint.h:51-54). -/
structure Constraint (F : Type) where
  a : List (CTerm F)
  b : List (CTerm F)
  c : List (CTerm F)

/-- What `R1CS` gives to the circuit (r1cs/r1cs.h:41-43). -/
structure R1CS (F : Type) where
  numInst : Nat
  numVars : Nat
  constraints : List (Constraint F)

/-- The variable of a wire (circuit/circuit.h:49-55). -/
def wireVar (numInst wire : Nat) : Var := if wire < numInst then .inst wire else .wit (wire - numInst)

/-- `MakeLC` (circuit/circuit.h:46-58). -/
def makeLC (s : Sorter F) (numInst : Nat) (l : List (CTerm F)) : LC F :=
  dedup s (l.map fun t => ⟨t.coeff, wireVar numInst t.wire⟩)

/-- The third loop of `Synthesize` (circuit/circuit.h:33-36). -/
def enforceAll (s : Sorter F) (numInst : Nat) : List (Constraint F) → Prog F
  | [] => .done
  | c :: cs => .enforce (makeLC s numInst c.a) (makeLC s numInst c.b) (makeLC s numInst c.c) (enforceAll s numInst cs)

/-- The second loop (circuit/circuit.h:29-32): the witness variables with the values `vs`. -/
def witnesses : List F → Prog F → Prog F
  | [], p => p
  | v :: vs, p => .createWitness v fun _ => witnesses vs p

/-- The first loop (circuit/circuit.h:25-28). -/
def instances : List F → Prog F → Prog F
  | [], p => p
  | v :: vs, p => .createInstance v fun _ => instances vs p

/-- `Synthesize` (circuit/circuit.h:22-37); `full` are the values of the wires (`witness_loader_.Get`). -/
def synthesize (s : Sorter F) (r : R1CS F) (full : List F) : Prog F :=
  instances ((full.take r.numInst).drop 1)
    (witnesses ((full.take r.numVars).drop (max 1 r.numInst)) (enforceAll s r.numInst r.constraints))

/-- `GetPublicInputs` (circuit/circuit.h:39-43). -/
def getPublicInputs (r : R1CS F) (full : List F) : Option (List F) :=
  (List.range (r.numInst - 1)).mapM fun i => full[i + 1]?

end Tachyon.Circom
