import Verif.Model.CircuitPoly
import Verif.Model.Halo2Protocol
/-! The connection of the messages of halo2 (`Model/Halo2Protocol`) with the circuit polynomial (`Model/CircuitPoly`): what the prover gives to
`CreateHEvals` and `CreateFinalHPoly` (`zk/plonk/halo2/{prover,argument_data}.h`, `zk/plonk/vanishing/vanishing_prover_impl.h`), and what
`EvaluateH` takes from the proof (`zk/plonk/halo2/{verifier,proof}.h`). Lookups are those of halo2. -/
namespace Tachyon.Halo2
open Tachyon.FFT Tachyon.Vanishing Tachyon.Parallel

variable {P F : Type}

/-- The challenges of the prover (argument_data.h:140-147): those of the map from indices that are set, in the order of the indices (synthesizer.h:96-110, :169). -/
def Held.challengeList (s : Shape) (d : Held F) : List F := (List.range s.challengePhases.length).filterMap d.challenges

/-- The polynomials of a lookup prover (lookup/halo2/prover.h:163-165). -/
def Prepared.cosets (grand : List F) : Prepared (List F) → CircuitPoly.LookupCosets F
  | .pair input table => ⟨grand, input, table⟩
  | .single _ => ⟨grand, [], []⟩

/-- The polynomials for a circuit: `ExportPolyTables` (argument_data.h:140-147) and those of the provers of the arguments
(prover.h:282-284). -/
def Held.circuit (s : Shape) (key : Key F) (d : Held F) (i : Nat) : CircuitPoly.Circuit F where
  polys := ⟨key.fixed, (List.range s.advicePhases.length).map (d.advice i), d.instancePolys.getD i [], d.challengeList s⟩
  products := d.products.getD i []
  lookups := List.zipWith Prepared.cosets (d.grands.getD i []) (d.prepared.getD i [])
  shuffles := d.shuffles.getD i []

/-- The members of the proof that `lookup::halo2::Verifier` takes (proof.h:163-181). -/
def LookupEvals.toCircuit : LookupEvals F → Option (CircuitPoly.LookupEvals F)
  | .pair product next input inputPrev table => some ⟨product, next, input, inputPrev, table⟩
  | .single _ _ _ => none

/-- `ToVanishingVerifierData`, `ToPermutationVerifierData`, `ToShuffleVerifierData` (proof.h:84-133) and the one for lookups
(proof.h:163-181). -/
def Proof.circuitEvals (p : Proof P F) (i : Nat) : Option (CircuitPoly.CircuitEvals F) :=
  (p.evals.instanceEvals[i]?).bind fun inst => (p.evals.adviceEvals[i]?).bind fun advice =>
  (p.evals.productEvals[i]?).bind fun products => (p.evals.lookupEvals[i]?).bind fun lookups =>
  (lookups.mapM LookupEvals.toCircuit).bind fun lookups => (p.evals.shuffleEvals[i]?).map fun shuffles =>
    ⟨⟨p.evals.fixedEvals, advice, inst, p.challenges⟩, products.map (·.1), products.map (·.2.1), products.map (·.2.2), lookups, shuffles⟩

variable [Field F] [DecidableEq F]

/-- The challenges of the prover at the quotient (prover.h:282-284). -/
def Held.ch (d : Held F) : Plonk.Challenges F := ⟨d.theta, d.beta, d.gamma, d.y⟩

/-- `CreateHEvals` and `CreateFinalHPoly` (prover.h:282-285, vanishing_prover_impl.h:60-97). -/
def Held.quotient (threads : Nat) (o o' : Sched) (dom ext : Domain F) (item item' : Item F) (sys : CircuitPoly.System F)
    (pk : CircuitPoly.ProvingKey F) (delta zeta : F) (s : Shape) (key : Key F) (d : Held F) : Option (List F) :=
  (CircuitPoly.buildColumn threads o dom ext item sys pk s.blinding delta zeta d.ch
    ((List.range d.instancePolys.length).map (d.circuit s key))).bind (finalH threads o' dom ext item' zeta)

/-- `EvaluateH` on a proof (verifier.h:311-356). -/
def Proof.expected (env : Env P F) (s : Shape) (sys : CircuitPoly.System F) (delta : F) (circuits : Nat) (p : Proof P F) : Option F :=
  ((List.range circuits).mapM p.circuitEvals).bind fun vs =>
    CircuitPoly.evaluateH env.threads env.domain sys s.blinding p.x delta ⟨p.theta, p.beta, p.gamma, p.y⟩ p.evals.sigmaEvals vs

/-- `VerifyProof` (verifier.h:57-126) with its `EvaluateH`; there is no result where that has none. -/
def verify [AddCommGroup P] [Module F P] (env : Env P F) (s : Shape) (sys : CircuitPoly.System F) (delta : F) (vk : VerifyingKey P F) (addr : Place → Nat)
    (deref : Nat → Place) (opening : (Nat → P) → List (Kzg.Claim F) → Log P F → List P → Option Bool) (instances : List (List (List F)))
    (proof : List (Msg P F)) : Option Bool :=
  if validInstances env s instances then
    (readProof env s vk instances ⟨[], proof⟩).bind fun r => (r.1.expected env s sys delta instances.length).bind fun v =>
    verifyProof env s vk addr deref (fun _ => v) opening instances proof
  else some false

end Tachyon.Halo2
