import Verif.Model.Kzg
import Verif.Model.Merkle
/-!
# Model of `SimpleFRI`: `tachyon/crypto/commitments/fri/simple_fri.h`

With `BinaryMerkleTree` (`Model/Merkle`), the radix-2 domains and their FFT (`Model/Domain`, `Model/FFT`) and
`Fold` of dense polynomials (`Model/Poly`). The transcript is a state with `squeeze` and `absorb`
(`Kzg.Transcript`); the proof that the writer makes is the list of the values that are written, the reader
takes them from it. `item` gives the twiddle factors of a domain. Leaves and hashes are field elements.
The outer `none` is a failing `CHECK` or undefined behaviour, the inner one the result `false`.
-/
namespace Tachyon.SimpleFri
open Tachyon.Poly Tachyon.FFT Tachyon.Group

variable {F σ : Type} [Field F] [DecidableEq F]

/-- The members (simple_fri.h:203-212) and what the parts need: the hasher, the bound on the number of
leaves (`MaxDegree + 1`, :57), and the threads, orders and twiddle factors of the parallel loops. -/
structure Scheme (F : Type) where
  domain : Domain F
  sub : List (Domain F)
  hasher : Merkle.Hasher F F
  maxSize : Nat
  threads : Nat
  sched : Sched
  item : Domain F → Item F

/-- The sub-domains that the constructor makes (simple_fri.h:35-47). -/
def subDomains (cfg : RootConfig F) (d : Domain F) : Option (List (Domain F)) :=
  if d.size < 2 then none
  else (List.range (d.logSize - 1)).mapM fun i => Domain.create cfg (2 ^ (d.logSize - i - 1))

/-- A layer of `Commit`: the evaluations and the tree (simple_fri.h:57-60, :74-77); the storage and the
root. The threshold of `BinaryMerkleTree` is 1024 (binary_merkle_tree.h:29, :160-161). -/
def layerCommit (s : Scheme F) (dom : Domain F) (store poly : List F) : Option (Option (List F × F)) :=
  (fft s.threads s.sched dom (s.item dom) poly).bind fun evals =>
    Merkle.commit s.hasher 0 s.maxSize 1024 s.sched store evals

/-- What `Commit` leaves: the storages of the layers, the values written and the transcript. -/
structure Committed (σ F : Type) where
  stores : List (List F)
  written : List F
  state : σ
deriving DecidableEq

/-- `WriteToProof(folded_poly[0])` (simple_fri.h:83-87). -/
def commitLast (tr : Kzg.Transcript σ F F) (poly : List F) (st : σ) : Option (Option (Committed σ F)) :=
  (Dense.fold poly (tr.squeeze st).1).map fun folded =>
    (tr.absorb (tr.squeeze st).2 (Dense.coeff folded 0)).map fun st => ⟨[], [Dense.coeff folded 0], st⟩

/-- The tree of the layer, and what follows it (simple_fri.h:57-61, :74-79). -/
def withLayer (s : Scheme F) (tr : Kzg.Transcript σ F F) (dom : Domain F) (store poly : List F) (st : σ)
    (next : σ → Option (Option (Committed σ F))) : Option (Option (Committed σ F)) :=
  (layerCommit s dom store poly).bind fun
    | none => some none
    | some (store, root) =>
      match tr.absorb st root with
      | none => some none
      | some st => (next st).map fun r => r.map fun c => ⟨store :: c.stores, root :: c.written, c.state⟩

/-- The loop of `Commit` (simple_fri.h:66-81), for the layers of the given domains and storages, and the
end. -/
def commitGo (s : Scheme F) (tr : Kzg.Transcript σ F F) :
    List (Domain F) → List (List F) → List F → σ → Option (Option (Committed σ F))
  | [], _, poly, st => commitLast tr poly st
  | dom :: doms, store :: stores, poly, st =>
    (Dense.fold poly (tr.squeeze st).1).bind fun folded =>
      withLayer s tr dom store folded (tr.squeeze st).2 fun st => commitGo s tr doms stores folded st
  | _ :: _, [], _, _ => none

/-- `Commit` (simple_fri.h:54-88); `stores` are the storages of the layers as they are before. -/
def commit (s : Scheme F) (tr : Kzg.Transcript σ F F) (stores : List (List F)) (poly : List F) (st : σ) :
    Option (Option (Committed σ F)) :=
  match stores with
  | [] => none
  | store :: stores => withLayer s tr s.domain store poly st fun st => commitGo s tr s.sub stores poly st

/-- What a proof has for a layer (simple_fri_proof.h): the two evaluations and their paths. -/
structure Layer (F : Type) where
  eval : F
  path : List (Merkle.Path F)
  evalSym : F
  pathSym : List (Merkle.Path F)
deriving DecidableEq

/-- `DoCreateOpeningProof` (simple_fri.h:90-119); the sum of the index and half of the size is a
`size_t`. -/
def createProof (index : Nat) : List (List F) → Nat → Option (List (Layer F))
  | [], _ => some []
  | store :: stores, size =>
    let leaf := index % size
    let sym := (index + size / 2) % 2 ^ 64 % size
    match Merkle.createProof 0 store leaf, store[size - 1 + leaf]?, Merkle.createProof 0 store sym,
        store[size - 1 + sym]? with
    | some p, some e, some ps, some es => (createProof index stores (size / 2)).map (⟨e, p, es, ps⟩ :: ·)
    | _, _, _, _ => none

/-- `((1 + β) * evaluation + (1 - β) * evaluation_sym) / 2` (simple_fri.h:170-173, :190-193). -/
def combine (beta e es : F) : F := (e * (1 + beta) + es * (1 - beta)) * (2 : F)⁻¹

/-- The check of the evaluation against the last layer (simple_fri.h:165-183); there is none for the first
layer. -/
def agrees (prev : Option (F × F × F)) (e : F) : Bool :=
  match prev with
  | none => true
  | some (beta, e', es') => decide (combine beta e' es' = e)

/-- The loop of `DoVerifyOpeningProof` and the end (simple_fri.h:132-200), from a layer on. `prev` has `β / x`
and the two evaluations of the last layer; the proof has one entry for every layer: a shorter one is read
out of bounds. -/
def verifyGo (h : Merkle.Hasher F F) (tr : Kzg.Transcript σ F F) (index : Nat) :
    List (Domain F) → Nat → Option (F × F × F) → List (Layer F) → List F → σ → Option Bool
  | [], _, prev, _, proof, st =>
    match proof with
    | [] => some false
    | c :: _ =>
      match tr.absorb st c with
      | none => some false
      | some _ => some (agrees prev c)
  | dom :: doms, size, prev, layers, proof, st =>
    match proof with
    | [] => some false
    | root :: proof =>
      match tr.absorb st root with
      | none => some false
      | some st =>
        match layers with
        | [] => none
        | l :: layers =>
          if ¬ Merkle.verifyProof h root l.eval l.path then some false
          else if ¬ Merkle.verifyProof h root l.evalSym l.pathSym then some false
          else if ¬ agrees prev l.eval then some false
          else
            ((dom.getElement ((index % size : Nat) : Int)).bind inv?).bind fun xInv =>
              verifyGo h tr index doms (size / 2) (some ((tr.squeeze st).1 * xInv, l.eval, l.evalSym)) layers proof
                (tr.squeeze st).2

/-- `DoVerifyOpeningProof` (simple_fri.h:121-201). -/
def verifyProof (s : Scheme F) (tr : Kzg.Transcript σ F F) (index : Nat) (layers : List (Layer F))
    (proof : List F) (st : σ) : Option Bool :=
  verifyGo s.hasher tr index (s.domain :: s.sub) s.domain.size none layers proof st

end Tachyon.SimpleFri
