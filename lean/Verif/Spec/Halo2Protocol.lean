import Verif.Model.Halo2Protocol
import Verif.Spec.Poly
/-! What is asked of the prover's data in the theorems on the messages of halo2. -/
namespace Tachyon.Halo2

variable {P F : Type} [Field F] [DecidableEq F]

/-- A prepared lookup is one of the lookup argument. -/
def LookupType.Kind {α : Type} : LookupType → Prepared α → Prop
  | .halo2, .pair _ _ => True
  | .logDerivative, .single _ => True
  | _, _ => False

/-- A function of both parts. -/
def Prepared.map {α β : Type} (f : α → β) : Prepared α → Prepared β
  | .pair a b => .pair (f a) (f b)
  | .single m => .single (f m)

/-- The prover computes as many polynomials as the constraint system says, for all circuits. -/
structure Work.Fits (s : Shape) (work : Work P F) : Prop where
  prepared : ∀ log i, (work.prepared log i).length = s.lookups
  kind : ∀ log i, ∀ p ∈ work.prepared log i, s.lookupType.Kind p
  products : ∀ log i, (work.products log i).length = s.products
  grands : ∀ log i, (work.grands log i).length = s.lookups
  shuffles : ∀ log i, (work.shuffles log i).length = s.shuffles

/-- The keys, the queries and the instances belong to the constraint system. -/
structure Fits (env : Env P F) (s : Shape) (key : Key F) (vk : VerifyingKey P F) (instances : List (List (List F))) : Prop where
  rotations : ∀ q ∈ s.instanceQueries ++ s.adviceQueries ++ s.fixedQueries, (env.domain.getElement q.2).isSome
  next : (env.domain.getElement 1).isSome
  prev : (env.domain.getElement (-1)).isSome
  last : (env.domain.getElement (-((s.blinding : Int) + 1))).isSome
  rows : 0 < env.n
  degree : 0 < s.degree
  bound : env.n * s.degree ≤ 2 ^ 64
  repr : vk.repr = key.repr
  fixed : vk.fixed = key.fixed.map env.commit
  sigmas : vk.sigmas = key.sigmas.map env.commit
  noSigmas : s.products = 0 → key.sigmas = []
  circuits : instances ≠ []
  columns : ∀ c ∈ instances, c.length = s.instanceColumns
  instanceQueries : ∀ q ∈ s.instanceQueries, q.1 < s.instanceColumns
  adviceQueries : ∀ q ∈ s.adviceQueries, q.1 < s.advicePhases.length
  fixedQueries : ∀ q ∈ s.fixedQueries, q.1 < key.fixed.length

/-- The commitment to an instance column does not depend on the zeros at its end, and is that to its polynomial; if the instances are
not committed to, the verifier finds the values of their polynomials. -/
structure InstancesFit (env : Env P F) (s : Shape) (instances : List (List (List F))) : Prop where
  pad : s.queryInstance = true → ∀ c ∈ instances, ∀ col ∈ c, env.commitEvals (FFT.resizeZero env.n col) = env.commitEvals col
  poly : s.queryInstance = true → ∀ c ∈ instances, ∀ col ∈ c, env.commitEvals col = env.commit (env.ifft col)
  values : s.queryInstance = false → ∀ x, Vanishing.instanceEvals env.threads env.domain x instances s.instanceQueries =
    instances.mapM fun c => s.instanceQueries.mapM fun q => (c[q.1]?).bind fun col => (rotate env q.2 x).map (env.eval (env.ifft col))

/-- The value of a column at a rotated point. -/
def valueAt (env : Env P F) (poly : Nat → Option (List F)) (x : F) (q : Nat × Int) : F :=
  env.eval ((poly q.1).getD []) ((rotate env q.2 x).getD 0)

/-- The values of the grand products of a circuit: at `x`, at the next point, and but for the last product at the last usable row. -/
def productValues (env : Env P F) (pts : Points F) (products : List (List F)) : List (F × F × Option F) :=
  products.zipIdx.map fun p => (env.eval p.1 pts.x, env.eval p.1 pts.next,
    if p.2 ≠ products.length - 1 then some (env.eval p.1 pts.last) else none)

/-- The values of a lookup. -/
def lookupValues (env : Env P F) (pts : Points F) (p : List F × Prepared (List F)) : LookupEvals F :=
  match p.2 with
  | .pair input table => .pair (env.eval p.1 pts.x) (env.eval p.1 pts.next) (env.eval input pts.x) (env.eval input pts.prev)
      (env.eval table pts.x)
  | .single m => .single (env.eval p.1 pts.x) (env.eval p.1 pts.next) (env.eval m pts.x)

/-- The challenges in the order of the phases. -/
def byPhase (s : Shape) (known : Nat → Option F) (phases : List Nat) : List F :=
  phases.flatMap fun ph => (List.range s.challengePhases.length).filterMap fun i =>
    if s.challengePhases[i]? = some ph then known i else none

/-- The values of the prover's polynomials. -/
def Held.values (env : Env P F) (s : Shape) (key : Key F) (d : Held F) (pts : Points F) : Evals F where
  instanceEvals := d.instancePolys.map fun c => s.instanceQueries.map (valueAt env (c[·]?) d.x)
  adviceEvals := (List.range d.instancePolys.length).map fun i => s.adviceQueries.map (valueAt env (fun j => some (d.advice i j)) d.x)
  fixedEvals := s.fixedQueries.map (valueAt env (key.fixed[·]?) d.x)
  randomEval := env.eval d.random d.x
  sigmaEvals := key.sigmas.map fun p => env.eval p d.x
  productEvals := d.products.map (productValues env pts)
  lookupEvals := (d.prepared.zip d.grands).map fun p => (p.2.zip p.1).map (lookupValues env pts)
  shuffleEvals := d.shuffles.map fun l => l.map fun p => (env.eval p pts.x, env.eval p pts.next)

/-- The proof has the commitments to the prover's polynomials, their values, and the prover's challenges. -/
structure Proof.Of (env : Env P F) (s : Shape) (key : Key F) (d : Held F) (pts : Points F) (p : Proof P F) : Prop where
  advice : ∀ i < d.instancePolys.length, ∀ j < s.advicePhases.length, p.advice i j = env.commit (d.advice i j)
  challenges : p.challenges = byPhase s d.challenges (Keygen.getPhases s.advicePhases)
  theta : p.theta = d.theta
  prepared : p.prepared = d.prepared.map (·.map (·.map env.commit))
  beta : p.beta = d.beta
  gamma : p.gamma = d.gamma
  products : p.products = d.products.map (·.map env.commit)
  grands : p.grands = d.grands.map (·.map env.commit)
  shuffles : p.shuffles = d.shuffles.map (·.map env.commit)
  random : p.random = env.commit d.random
  y : p.y = d.y
  h : p.h = (Vanishing.pieces env.n d.h).map env.commit
  x : p.x = d.x
  evals : p.evals = d.values env s key pts

/-- What is said about the instances of a circuit. -/
def instanceMsgs (env : Env P F) (s : Shape) (columns : List (List F)) : List (Msg P F) :=
  columns.flatMap fun c => if s.queryInstance then [.point (env.commitEvals c)] else c.map .scalar

/-- The commitments to polynomials, as a transcript sees them. -/
def told (env : Env P F) (polys : List (List F)) : Log P F := polys.map fun p => .absorb (.point (env.commit p))

/-- What the transcript has seen when `beta` is asked for, if it had seen `l` when `theta` was. -/
def Held.log1 (env : Env P F) (d : Held F) (l : Log P F) : Log P F :=
  l ++ [.squeeze] ++ told env (d.prepared.flatten.flatMap Prepared.toList)

/-- What the transcript has seen when `y` is asked for. -/
def Held.log2 (env : Env P F) (d : Held F) (l : Log P F) : Log P F :=
  d.log1 env l ++ [.squeeze, .squeeze] ++ told env (d.products.flatten ++ d.grands.flatten ++ d.shuffles.flatten ++ [d.random])

/-- What the transcript has seen when `x` is asked for. -/
def Held.log3 (env : Env P F) (d : Held F) (l : Log P F) : Log P F := d.log2 env l ++ [.squeeze] ++ told env (Vanishing.pieces env.n d.h)

/-- All that is made after a challenge is made from what was said up to it, and is committed to before the next challenge. -/
structure Schedule (env : Env P F) (s : Shape) (work : Work P F) (circuits : Nat) (d : Held F) (l log : Log P F) : Prop where
  theta : d.theta = env.squeeze l
  prepared : d.prepared = (List.range circuits).map (work.prepared (l ++ [.squeeze]))
  beta : d.beta = env.squeeze (d.log1 env l)
  gamma : d.gamma = env.squeeze (d.log1 env l ++ [.squeeze])
  products : d.products = (List.range circuits).map (work.products (d.log1 env l ++ [.squeeze, .squeeze]))
  grands : d.grands = (List.range circuits).map (work.grands (d.log1 env l ++ [.squeeze, .squeeze]))
  shuffles : d.shuffles = (List.range circuits).map (work.shuffles (d.log1 env l ++ [.squeeze, .squeeze]))
  random : d.random = [1]
  y : d.y = env.squeeze (d.log2 env l)
  h : Vanishing.truncateH env.n s.degree (work.quotient (d.log2 env l ++ [.squeeze])) = some d.h
  x : d.x = env.squeeze (d.log3 env l)
  log : d.log3 env l ++ [.squeeze] <+: log

/-- The keys and the instances come first, then the advice columns. A challenge of the circuit is asked for when all columns of its phase and
of those before it are committed to. -/
structure AdviceSchedule (env : Env P F) (s : Shape) (key : Key F) (instances : List (List (List F))) (d : Held F) (l : Log P F) :
    Prop where
  first : .absorb (.scalar key.repr) :: (instances.flatMap (instanceMsgs env s)).map .absorb <+: l
  advice : ∀ i < instances.length, ∀ j < s.advicePhases.length, .absorb (.point (env.commit (d.advice i j))) ∈ l
  challenges : ∀ i c, d.challenges i = some c → ∃ l' ph, l' ++ [.squeeze] <+: l ∧ s.challengePhases[i]? = some ph ∧ c = env.squeeze l' ∧
    .absorb (.scalar key.repr) :: (instances.flatMap (instanceMsgs env s)).map .absorb <+: l' ∧
    ∀ i' < instances.length, ∀ j ph', s.advicePhases[j]? = some ph' → ph' ≤ ph → .absorb (.point (env.commit (d.advice i' j))) ∈ l'

/-- The values that are opened belong to the polynomials of the prover, the commitments of the verifier are to these polynomials. -/
def Backed [AddCommGroup P] [Module F P] (env : Env P F) (s : Shape) (key : Key F) (vk : VerifyingKey P F)
    (instances : List (List (List F))) (d : Held F) (comb : List F) (p : Proof P F) (o : Opening F) : Prop :=
  ∃ poly, d.polyAt s key comb o.place = some poly ∧ o.value = env.eval poly o.point ∧
    p.commitAt env s vk instances o.place = some (env.commit poly)

/-- Coefficients without zeros at the end, at most `n`. -/
def Opens (n : Nat) (l : List F) : Prop := Poly.DClean l ∧ l.length ≤ n

/-- All polynomials that are opened have at most `n` coefficients, and the quotient fits in the pieces. -/
structure Sizes (env : Env P F) (s : Shape) (key : Key F) (work : Work P F) (instances : List (List (List F))) : Prop where
  advice : ∀ log known ph i j, Opens env.n (work.advice log known ph i j)
  prepared : ∀ log i, ∀ p ∈ work.prepared log i, ∀ q ∈ p.toList, Opens env.n q
  products : ∀ log i, ∀ p ∈ work.products log i, Opens env.n p
  grands : ∀ log i, ∀ p ∈ work.grands log i, Opens env.n p
  shuffles : ∀ log i, ∀ p ∈ work.shuffles log i, Opens env.n p
  fixed : ∀ p ∈ key.fixed, Opens env.n p
  sigmas : ∀ p ∈ key.sigmas, Opens env.n p
  instances : ∀ c ∈ instances, ∀ col ∈ c, Opens env.n (env.ifft col)
  quotient : ∀ log, (work.quotient log).length ≤ env.n * (s.degree - 1)

/-- The number of openings. -/
def openings (s : Shape) (circuits sigmas : Nat) : Nat :=
  circuits * ((s.adviceQueries.length + if s.queryInstance then s.instanceQueries.length else 0) + (s.products * 3 - 1) +
    s.lookups * (match s.lookupType with | .halo2 => 5 | .logDerivative => 3) + s.shuffles * 2) + s.fixedQueries.length + sigmas + 2

end Tachyon.Halo2
