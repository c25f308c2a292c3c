import Verif.Model.Domain
import Verif.Model.Poly
import Mathlib.Algebra.Module.Defs
/-!
# Model of the KZG commitment schemes: `tachyon/crypto/commitments`

`kzg/kzg.h`, `kzg/kzg_family.h`, `kzg/gwc.h`, `kzg/shplonk.h`, `polynomial_openings.h`, and the parts of
`univariate_polynomial_commitment_scheme.h`, `vector_commitment_scheme.h` and
`crypto/transcripts/transcript.h` they use.

The groups `G` (G1) and `G2` are modules over the scalar field `F`; the group of the pairing is written
additively, `e` is the pairing of two points, and the product of two pairings compared with one is a sum
compared with zero. A point is the element of the group that it stands for, so changing the
representation of points (`ConvertPoint`, `ToAffine`, `BatchNormalize`: C29) is the identity. The
multi-scalar multiplication returns the sum of the multiples and rejects lists of different lengths
(C31). Polynomials are coefficient lists with the operations of `Verif.Model.Poly`.

`base::Ref` compares addresses (base/ref.h): an oracle is a number, and a function gives the polynomial
or the commitment that is stored there. `canon` is `ToBigInt`, by which `absl::btree_set` orders the
points. The transcript is an abstract state: `absorb` is `WriteToTranscript`, `none` if it returns
false; a proof is the list of commitments in it.

`none` is a failed `CHECK`, an access out of bounds, or the result `false` of a function that otherwise
returns a value through a pointer. Code for GPUs is left out.
-/
namespace Tachyon.Kzg
open Tachyon.Poly Tachyon.FFT

/-- `Transcript` (crypto/transcripts/transcript.h:27-62). -/
structure Transcript (σ F G : Type) where
  squeeze : σ → F × σ
  absorb : σ → G → Option σ

variable {F G G2 GT σ : Type} [Field F] [DecidableEq F] [AddCommGroup G] [Module F G] [AddCommGroup G2]
  [Module F G2] [AddCommGroup GT] [DecidableEq GT]

/-! ### KZG -/

/-- The members of `KZG` (kzg.h:319-321). -/
structure Setup (G : Type) where
  powers : List G
  lagrange : List G
  batch : List G
deriving DecidableEq

/-- The constructor (kzg.h:59-68). -/
def Setup.new (maxDegree : Nat) (powers lagrange : List G) : Option (Setup G) :=
  if powers.length ≠ lagrange.length then none
  else if maxDegree + 1 < powers.length then none
  else some ⟨powers, lagrange, []⟩

/-- `BatchMapScalarFieldToPoint` (math/elliptic_curves/short_weierstrass/affine_point.h:184-206). -/
def mapScalars (g : G) (scalars : List F) (size : Nat) : Option (List G) :=
  if scalars.length ≠ size then none else some (scalars.map (· • g))

/-- The Lagrange basis in `UnsafeSetup` (kzg.h:190-199). -/
def setupLagrange (threads : Nat) (cfg : RootConfig F) (g : G) (size : Nat) (tau : F) : Option (List G) :=
  (Domain.create cfg size).bind fun d => (d.allLagrange threads tau).bind fun coeffs => mapScalars g coeffs size

/-- `UnsafeSetup` (kzg.h:177-211). -/
def unsafeSetup (threads : Nat) (cfg : RootConfig F) (g : G) (size : Nat) (tau : F) : Option (Setup G) :=
  (mapScalars g (Group.getSuccessivePowers threads size tau 1) size).bind fun powers =>
    (setupLagrange threads cfg g size tau).map fun lagrange => ⟨powers, lagrange, []⟩

/-- `Downsize` (kzg.h:214-219). -/
def Setup.downsize (k : Setup G) (n : Nat) : Option (Setup G) :=
  if k.powers.length ≤ n then none
  else some ⟨k.powers.take n, k.lagrange.take n, k.batch⟩

/-- `VariableBaseMSM::Run` (math/elliptic_curves/msm/variable_base_msm.h:31-36), by C31. -/
def msm (bases : List G) (scalars : List F) : Option G :=
  if bases.length ≠ scalars.length then none
  else some (List.zipWith (fun (s : F) b => s • b) scalars bases).sum

/-- `DoMSM` (kzg.h:271-301). -/
def doMSM (bases : List G) (scalars : List F) : Option G :=
  msm (bases.take (min bases.length scalars.length)) scalars

/-- `Commit` (kzg.h:221-229, kzg_family.h:66-70, univariate_polynomial_commitment_scheme.h:32-35). -/
def Setup.commit (k : Setup G) (v : List F) : Option G := doMSM k.powers v

/-- `CommitLagrange` (kzg.h:242-251, kzg_family.h:78-82,
univariate_polynomial_commitment_scheme.h:50-54). -/
def Setup.commitLagrange (k : Setup G) (v : List F) : Option G := doMSM k.lagrange v

/-- A commitment scheme: `KZGFamily` (kzg_family.h:94), the `BatchCommitmentState`
(batch_commitment_state.h:11-13) and the members of `GWC` and `SHPlonk` (gwc.h:242-243,
shplonk.h:374-375). -/
structure Scheme (G G2 : Type) where
  kzg : Setup G
  batchMode : Bool
  batchCount : Nat
  sG2 : G2
  g2Arr : G2 × G2
deriving DecidableEq

/-- The constructor from a `KZG` and `s_g2` (gwc.h:55-59, shplonk.h:56-60), used by `ReadFrom`
(gwc.h:274-283, shplonk.h:406-415). -/
def Scheme.new (g2 : G2) (kzg : Setup G) (sG2 : G2) : Scheme G G2 := ⟨kzg, false, 0, sG2, (g2, -sG2)⟩

/-- `DoUnsafeSetup` and `DoUnsafeSetupWithTau` (kzg_family.h:37-39, gwc.h:232-240, shplonk.h:366-372). -/
def Scheme.unsafeSetup (threads : Nat) (cfg : RootConfig F) (g : G) (g2 : G2) (size : Nat) (tau : F) :
    Option (Scheme G G2) :=
  (_root_.Tachyon.Kzg.unsafeSetup threads cfg g size tau).map fun k => ⟨k, false, 0, tau • g2, (tau • g2, -g2)⟩

/-- `SetBatchMode` (vector_commitment_scheme.h:38-44) and `ResizeBatchCommitments` (kzg.h:116-126). -/
def Scheme.setBatchMode (s : Scheme G G2) (n : Nat) : Option (Scheme G G2) :=
  if n = 0 then some s
  else if s.batchCount ≠ 0 then none
  else some { s with
    batchMode := true, batchCount := n,
    kzg := { s.kzg with batch := s.kzg.batch.take n ++ List.replicate (n - s.kzg.batch.length) 0 } }

/-- Storing a commitment at `index` (kzg.h:303-317). -/
def Scheme.store (s : Scheme G G2) (index : Nat) (c : Option G) : Option (Scheme G G2) :=
  if !s.batchMode then none
  else if s.kzg.batch.length ≤ index then none
  else c.map fun c => { s with kzg := { s.kzg with batch := s.kzg.batch.set index c } }

/-- `Commit` in batch mode (univariate_polynomial_commitment_scheme.h:42-46, kzg_family.h:72-76). -/
def Scheme.commitAt (s : Scheme G G2) (v : List F) (index : Nat) : Option (Scheme G G2) :=
  s.store index (s.kzg.commit v)

/-- `CommitLagrange` in batch mode (univariate_polynomial_commitment_scheme.h:61-66,
kzg_family.h:84-88). -/
def Scheme.commitLagrangeAt (s : Scheme G G2) (v : List F) (index : Nat) : Option (Scheme G G2) :=
  s.store index (s.kzg.commitLagrange v)

/-- `GetBatchCommitments` (kzg.h:128-169): the commitments, and the scheme afterwards. -/
def Scheme.getBatchCommitments (s : Scheme G G2) : List G × Scheme G G2 :=
  (s.kzg.batch, { s with batchMode := false, batchCount := 0, kzg := { s.kzg with batch := [] } })

/-! ### Openings -/

/-- `PolynomialOpening` (polynomial_openings.h:24-34). -/
structure Claim (F : Type) where
  oracle : Nat
  point : F
  opening : F
deriving DecidableEq

/-- `PolynomialOpenings` (polynomial_openings.h:81-88). -/
structure Openings (F : Type) where
  oracle : Nat
  openings : List F
deriving DecidableEq

/-- `GroupedPolynomialOpenings` (polynomial_openings.h:104-112). -/
structure Grouped (F : Type) where
  polys : List (Openings F)
  points : List F
deriving DecidableEq

/-- `insert` into a `btree_set`, a sorted list. -/
def setInsert (canon : F → Nat) (x : F) : List F → List F
  | [] => [x]
  | y :: l =>
    if canon x < canon y then x :: y :: l
    else if canon y < canon x then y :: setInsert canon x l
    else y :: l

/-- `super_point_set_` after the loop over the claims (polynomial_openings.h:195, :256). -/
def superPoints (canon : F → Nat) (claims : List (Claim F)) : List F :=
  claims.foldl (fun s c => setInsert canon c.point s) []

/-- One iteration of `GroupBySinglePoint` (polynomial_openings.h:197-211). -/
def addSingle (c : Claim F) : List (Grouped F) → Option (List (Grouped F))
  | [] => some [⟨[⟨c.oracle, [c.opening]⟩], [c.point]⟩]
  | g :: gs =>
    match g.points with
    | [] => none
    | x :: _ =>
      if x = c.point then some ({ g with polys := g.polys ++ [⟨c.oracle, [c.opening]⟩] } :: gs)
      else (addSingle c gs).map (g :: ·)

/-- `GroupBySinglePoint` (polynomial_openings.h:191-213). -/
def groupBySinglePoint (claims : List (Claim F)) : Option (List (Grouped F)) :=
  claims.foldlM (fun gs c => addSingle c gs) []

/-- One iteration of `GroupByPolyOracle` (polynomial_openings.h:258-273). -/
def addOracle (canon : F → Nat) (c : Claim F) : List (Nat × List F) → List (Nat × List F)
  | [] => [(c.oracle, [c.point])]
  | p :: ps =>
    if p.1 = c.oracle then (p.1, setInsert canon c.point p.2) :: ps else p :: addOracle canon c ps

/-- `GroupByPolyOracle` (polynomial_openings.h:250-276). -/
def groupByPolyOracle (canon : F → Nat) (claims : List (Claim F)) : List (Nat × List F) :=
  claims.foldl (fun ps c => addOracle canon c ps) []

/-- One iteration of `GroupByPoints` (polynomial_openings.h:289-303). -/
def addPoints (p : Nat × List F) : List (List F × List Nat) → List (List F × List Nat)
  | [] => [(p.2, [p.1])]
  | q :: qs => if q.1 = p.2 then (q.1, q.2 ++ [p.1]) :: qs else q :: addPoints p qs

/-- `GroupByPoints` (polynomial_openings.h:283-306). -/
def groupByPoints (pairs : List (Nat × List F)) : List (List F × List Nat) :=
  pairs.foldl (fun qs p => addPoints p qs) []

/-- `GetOpeningFromPolyOpenings` (polynomial_openings.h:335-347). -/
def getOpening (claims : List (Claim F)) (oracle : Nat) (point : F) : Option F :=
  (claims.find? fun c => c.oracle = oracle && decide (c.point = point)).map (·.opening)

/-- The inner functions of `CreateMultiPolynomialOpenings` (polynomial_openings.h:319-327). -/
def openingsOf (claims : List (Claim F)) (points : List F) (oracle : Nat) : Option (Openings F) :=
  (points.mapM (getOpening claims oracle)).map fun o => ⟨oracle, o⟩

/-- `CreateMultiPolynomialOpenings` (polynomial_openings.h:308-333). -/
def createMulti (claims : List (Claim F)) (pairs : List (List F × List Nat)) : Option (List (Grouped F)) :=
  pairs.mapM fun q => (q.2.mapM (openingsOf claims q.1)).map fun polys => ⟨polys, q.1⟩

/-- `GroupByPolyOracleAndPoints` (polynomial_openings.h:216-240). -/
def groupByPolyOracleAndPoints (canon : F → Nat) (claims : List (Claim F)) : Option (List (Grouped F)) :=
  createMulti claims (groupByPoints (groupByPolyOracle canon claims))

/-- `CreateLowDegreeExtensions` (polynomial_openings.h:143-152). -/
def lowDegreeExtensions (threads : Nat) (g : Grouped F) : Option (List (List F)) :=
  g.polys.mapM fun p => lagrangeInterpolate threads g.points p.openings

/-- `LinearCombinationInPlace<false>` of polynomials (math/base/semigroups.h:519-541). -/
def polyCombine (r : F) (values : List (List F)) : Option (List F) :=
  match values.reverse with
  | [] => none
  | v :: vs => vs.foldlM (fun ret v => Dense.addInPlace (Dense.mulInPlaceScalar ret r) v) v

/-- `CombineLowDegreeExtensions` (polynomial_openings.h:154-172). -/
def combineExtensions (poly : Nat → List F) (r : F) (g : Grouped F) (exts : List (List F)) :
    Option (List F) :=
  match polyCombine r (List.zipWith (fun p ext => Dense.sub (poly p.oracle) ext) g.polys exts) with
  | none => none
  | some n =>
    match Dense.fromRoots g.points with
    | none => none
    | some z => Dense.div n (.dense z)

/-! ### GWC -/

/-- The loop that commits the quotients (gwc.h:102-114), from group `i` on. -/
def gwcCommit (threads : Nat) (poly : Nat → List F) (v : F) :
    List (Grouped F) → Nat → Scheme G G2 → Option (Scheme G G2)
  | [], _, s => some s
  | g :: gs, i, s =>
    match lowDegreeExtensions threads g with
    | none => none
    | some exts =>
      match combineExtensions poly v g exts with
      | none => none
      | some w =>
        match s.commitAt w i with
        | none => none
        | some s => gwcCommit threads poly v gs (i + 1) s

/-- `DoCreateOpeningProof` of `GWC` (gwc.h:84-122): the proof, the transcript and the scheme. -/
def gwcCreate (threads : Nat) (poly : Nat → List F) (tr : Transcript σ F G) (s : Scheme G G2)
    (claims : List (Claim F)) (st : σ) : Option (List G × σ × Scheme G G2) :=
  let (v, st) := tr.squeeze st
  match groupBySinglePoint claims with
  | none => none
  | some groups =>
    match s.setBatchMode groups.length with
    | none => none
    | some s =>
      match gwcCommit threads poly v groups 0 s with
      | none => none
      | some s =>
        let (commitments, s) := s.getBatchCommitments
        (commitments.foldlM tr.absorb st).map fun st => (commitments, st, s)

/-- `ReadFromProof`, `n` times (transcript.h:116-121): the commitments, the transcript and the rest of
the proof. -/
def readProof (tr : Transcript σ F G) : Nat → σ → List G → Option (List G × σ × List G)
  | 0, st, proof => some ([], st, proof)
  | _ + 1, _, [] => none
  | n + 1, st, c :: proof =>
    match tr.absorb st c with
    | none => none
    | some st => (readProof tr n st proof).map fun r => (c :: r.1, r.2)

/-- The accumulators of `DoVerifyOpeningProof` of `GWC` (gwc.h:157-161). -/
structure Acc (F G : Type) where
  openingMulti : F
  commitmentMulti : G
  witnessWithAux : G
  witness : G
  powerOfU : F

/-- The inner loop (gwc.h:168-184), over the reversed list. -/
def gwcBatch (com : Nat → G) (v : F) : List (Openings F) → F × G → Option (F × G)
  | [], b => some b
  | p :: ps, b =>
    match p.openings with
    | [] => none
    | o :: _ => gwcBatch com v ps (b.1 * v + o, v • b.2 + com p.oracle)

/-- The outer loop (gwc.h:162-212). -/
def gwcLoop (com : Nat → G) (v u : F) : List (Grouped F) → List G → Acc F G → Option (Acc F G)
  | [], _, a => some a
  | _ :: _, [], _ => none
  | g :: gs, w :: ws, a =>
    match gwcBatch com v g.polys.reverse (0, 0), g.points with
    | some b, x :: _ => gwcLoop com v u gs ws
        ⟨a.openingMulti + b.1 * a.powerOfU, a.commitmentMulti + a.powerOfU • b.2,
          a.witnessWithAux + (a.powerOfU * x) • w, a.witness + a.powerOfU • w, a.powerOfU * u⟩
    | _, _ => none

/-- `Pairing(g1_arr, g2_arr_).IsOne()` (gwc.h:228, shplonk.h:362). -/
def pairingCheck (e : G → G2 → GT) (a b : G) (g2Arr : G2 × G2) : Bool := e a g2Arr.1 + e b g2Arr.2 = 0

/-- `DoVerifyOpeningProof` of `GWC` (gwc.h:125-229). -/
def gwcVerify (e : G → G2 → GT) (g : G) (com : Nat → G) (tr : Transcript σ F G) (s : Scheme G G2)
    (claims : List (Claim F)) (st : σ) (proof : List G) : Option Bool :=
  let (v, st) := tr.squeeze st
  match groupBySinglePoint claims with
  | none => none
  | some groups =>
    match readProof tr groups.length st proof with
    | none => some false
    | some (commitments, st, _) =>
      let (u, _) := tr.squeeze st
      match gwcLoop com v u groups commitments ⟨0, 0, 0, 0, 1⟩ with
      | none => none
      | some a =>
        some (pairingCheck e a.witness (a.witnessWithAux + a.commitmentMulti - a.openingMulti • g) s.g2Arr)

/-! ### SHPlonk -/

/-- The points that the group does not have (shplonk.h:147-154, :284-290). -/
def diffs (super points : List F) : List F := super.filter fun x => !(points.contains x)

/-- `P(X) - R(u)` (shplonk.h:166-182); `coefficients_[0] -= R(u)` can leave the list `[0]`. -/
def subConst (threads : Nat) (u : F) (poly ext : List F) : List F :=
  match poly with
  | c :: l => (c - Dense.evaluate threads ext u) :: l
  | [] => [-Dense.evaluate threads ext u]

/-- `L` of one group (shplonk.h:142-192). -/
def lPoly (threads : Nat) (poly : Nat → List F) (super : List F) (y u : F) (g : Grouped F)
    (exts : List (List F)) : Option (List F) :=
  (polyCombine y (List.zipWith (fun p ext => subConst threads u (poly p.oracle) ext) g.polys exts)).map
    fun l => Dense.mulScalar l (Dense.vanishingByRoots threads (diffs super g.points) u)

/-- `f(i, values[i])` for all `i`, where `f` uses a second list. -/
def zipM {α β γ : Type} (f : α → β → Option γ) : List α → List β → Option (List γ)
  | a :: as, b :: bs =>
    match f a b with
    | none => none
    | some c => (zipM f as bs).map (c :: ·)
  | _, _ => some []

/-- `Q(X)` from `L(X)` and `H(X)` (shplonk.h:194-220). `debug` says whether `DCHECK` is compiled. -/
def quotient (threads : Nat) (debug : Bool) (super : List F) (v u : F) (ls : List (List F)) (h : List F)
    (firstZDiff : F) : Option (List F) :=
  match polyCombine v ls with
  | none => none
  | some l =>
    match Dense.subInPlace l (Dense.mulInPlaceScalar h (Dense.vanishingByRoots threads super u)) with
    | none => none
    | some l =>
      if debug ∧ Dense.evaluate threads l u ≠ 0 then none
      else
        match Dense.fromRoots [u] with
        | none => none
        | some z =>
          match Dense.div l (.dense z) with
          | none => none
          | some q => (Dense.divScalar q firstZDiff).map (·.2)

/-- `DoCreateOpeningProof` of `SHPlonk` (shplonk.h:85-226): the proof and the transcript. -/
def shplonkCreate (threads : Nat) (debug : Bool) (canon : F → Nat) (poly : Nat → List F)
    (tr : Transcript σ F G) (s : Scheme G G2) (claims : List (Claim F)) (st : σ) : Option (List G × σ) :=
  match groupByPolyOracleAndPoints canon claims with
  | none => none
  | some groups =>
    let super := superPoints canon claims
    let (y, st) := tr.squeeze st
    match groups.mapM (lowDegreeExtensions threads) with
    | none => none
    | some exts =>
      match zipM (combineExtensions poly y) groups exts with
      | none => none
      | some hs =>
        let (v, st) := tr.squeeze st
        match polyCombine v hs with
        | none => none
        | some hPoly =>
          match s.kzg.commit hPoly with
          | none => none
          | some h =>
            match tr.absorb st h with
            | none => none
            | some st =>
              let (u, st) := tr.squeeze st
              match zipM (lPoly threads poly super y u) groups exts, groups with
              | some ls, g0 :: _ =>
                match quotient threads debug super v u ls hPoly
                    (Dense.vanishingByRoots threads (diffs super g0.points) u) with
                | none => none
                | some qPoly =>
                  match s.kzg.commit qPoly with
                  | none => none
                  | some q => (tr.absorb st q).map fun st => ([h, q], st)
              | _, _ => none

/-- `C - [R(u)]` for the oracles of a group (shplonk.h:273-277, :313-321). -/
def shplonkTerms (threads : Nat) (g : G) (com : Nat → G) (u : F) (points : List F)
    (polys : List (Openings F)) : Option (List G) :=
  polys.mapM fun p => (lagrangeInterpolate threads points p.openings).map fun r =>
    com p.oracle - Dense.evaluate threads r u • g

/-- `Σ yʲ aⱼ` (shplonk.h:328-332). -/
def hornerSum (y : F) (terms : List G) : G := terms.reverse.foldl (fun acc t => y • acc + t) 0

/-- The loop over the groups after the first (shplonk.h:265-342). -/
def shplonkRest (threads : Nat) (g : G) (com : Nat → G) (super : List F) (y u firstInv : F) :
    List (Grouped F) → Option (List G)
  | [] => some []
  | gr :: gs =>
    match shplonkTerms threads g com u gr.points gr.polys with
    | none => none
    | some terms => (shplonkRest threads g com super y u firstInv gs).map fun rest =>
        (Dense.vanishingByRoots threads (diffs super gr.points) u * firstInv) • hornerSum y terms :: rest

/-- `LinearCombinationInPlace<false>` of points (math/base/semigroups.h:519-541). -/
def pointCombine (r : F) (values : List G) : Option G :=
  match values.reverse with
  | [] => none
  | v :: vs => some (vs.foldl (fun ret v => r • ret + v) v)

/-- `|p|` of `DoVerifyOpeningProof` (shplonk.h:259-352). -/
def shplonkP (threads : Nat) (g : G) (com : Nat → G) (super : List F) (y v u : F) (h q : G)
    (groups : List (Grouped F)) : Option G :=
  match groups with
  | [] => none
  | g0 :: gs =>
    match Group.inv? (Dense.vanishingByRoots threads (diffs super g0.points) u) with
    | none => none
    | some firstInv =>
      match shplonkTerms threads g com u g0.points g0.polys with
      | none => none
      | some terms =>
        match shplonkRest threads g com super y u firstInv gs with
        | none => none
        | some rest =>
          (pointCombine v ((1 : F) • hornerSum y terms :: rest)).map fun p =>
            p - Dense.vanishingByRoots threads g0.points u • h + u • q

/-- `DoVerifyOpeningProof` of `SHPlonk` (shplonk.h:229-363). -/
def shplonkVerify (threads : Nat) (canon : F → Nat) (e : G → G2 → GT) (g : G) (com : Nat → G)
    (tr : Transcript σ F G) (s : Scheme G G2) (claims : List (Claim F)) (st : σ) (proof : List G) :
    Option Bool :=
  let (y, st) := tr.squeeze st
  let (v, st) := tr.squeeze st
  match readProof tr 1 st proof with
  | some ([h], st, proof) =>
    let (u, st) := tr.squeeze st
    match readProof tr 1 st proof with
    | some ([q], _, _) =>
      match groupByPolyOracleAndPoints canon claims with
      | none => none
      | some groups =>
        (shplonkP threads g com (superPoints canon claims) y v u h q groups).map fun p =>
          pairingCheck e q p s.g2Arr
    | _ => some false
  | _ => some false

end Tachyon.Kzg
