import Verif.Model.Halo2Complete
import Verif.Spec.CircuitPoly
import Verif.Spec.FFT
import Verif.Model.Lookup
import Verif.Spec.Cycle
import Verif.Spec.GrandProduct
import Verif.Spec.Halo2Protocol
/-! What is asked of the constraint system in the theorems on the whole of halo2. -/
namespace Tachyon.Halo2
open Tachyon.CircuitPoly (System ProvingKey computeDegree)
open Tachyon.FFT Tachyon.Vanishing Tachyon.Plonk Tachyon.Poly

variable {P F : Type}

/-- The number of columns of a kind. -/
def Shape.numColumns (s : Shape) (key : Key F) : Plonk.Kind → ℕ
  | .fixed => key.fixed.length
  | .advice => s.advicePhases.length
  | .inst => s.instanceColumns

/-- The shape of the proof is that of the constraint system. -/
structure Shape.For (s : Shape) (sys : System F) (key : Key F) (pk : ProvingKey F) : Prop where
  degree : computeDegree sys = some s.degree
  fixedQueries : s.fixedQueries = sys.fixedQueries
  adviceQueries : s.adviceQueries = sys.adviceQueries
  instQueries : s.instanceQueries = sys.instQueries
  lookups : s.lookups = sys.lookups.length
  shuffles : s.shuffles = sys.shuffles.length
  products : s.products = GrandProduct.chunkNum sys.columns.length (s.degree - 2)
  kind : s.lookupType = .halo2
  sigmas : key.sigmas = pk.sigmas
  rotations : ∀ q ∈ s.instanceQueries ++ s.adviceQueries ++ s.fixedQueries, -2 ^ 63 < q.2 ∧ q.2 < 2 ^ 63
  exprs : ∀ e ∈ sys.exprs, Plonk.Legal (fun k q => q.column < s.numColumns key k ∧ -2 ^ 30 ≤ q.rotation ∧ q.rotation ≤ 2 ^ 30)
    (fun i => i < s.challengePhases.length) e
  keys : ∀ k ∈ sys.columns, k.kind.2 < s.numColumns key k.kind.1
  phases : ∀ ph ∈ s.challengePhases, ph ∈ Keygen.getPhases s.advicePhases
  sorted : s.challengePhases.Pairwise (· ≤ ·)

variable [Field F] [DecidableEq F]

/-- The domains, the roots for the transforms, the key and the numbers fit together. -/
structure Setting (env : Env P F) (s : Shape) (sys : System F) (pk : ProvingKey F) (ext : Domain F) (item item' : Item F) (threads : ℕ)
    (zeta : F) : Prop where
  eval : ∀ l x, env.eval l x = (dpoly l).eval x
  domain : env.domain.Radix2
  rows : env.n = env.domain.size
  offset : env.domain.offset = 1
  extDomain : ext.Radix2
  extOffset : ext.offset = 1
  gen : ext.gen ^ 2 ^ (ext.logSize - env.domain.logSize) = env.domain.gen
  itemFor : item.For env.domain
  itemExt : item'.For ext
  threads : 0 < threads ∧ threads ≤ 2 ^ 63
  verifierThreads : 0 < env.threads ∧ env.threads < 128
  size : env.domain.size ≤ 2 ^ 30
  extended : extendedK s.degree env.domain.logSize = some ext.logSize
  bound : env.domain.size * s.degree ≤ 2 ^ 63
  queried : sys.Queried
  shuffles : sys.shuffles.length ≤ 1
  columns : sys.columns.length < 2 ^ 64
  blinding : s.blinding + 2 ≤ env.domain.size
  key : pk.Fits sys env.domain.size
  selects : pk.Selects env.domain.gen env.domain.size (env.domain.size - (s.blinding + 1))
  zeta : IsPrimitiveRoot zeta 3

/-- In the rows of a circuit of the prover the gates vanish and the columns of the arguments are as they have to be. -/
def Held.Satisfies (env : Env P F) (s : Shape) (sys : System F) (key : Key F) (pk : ProvingKey F) (delta : F) (d : Held F) (i : ℕ) :
    Prop :=
  let c := d.circuit s key i
  let size := env.domain.size
  let usable := env.domain.size - (s.blinding + 1)
  let table := CircuitPoly.rowTable env.domain.gen size c.polys
  let column := CircuitPoly.onRows env.domain.gen size
  (∀ e ∈ sys.gates.flatten, ∀ j < size, rowValue table (j : ℕ) 1 size e = 0) ∧
  (c.products ≠ [] → GrandProduct.PermHolds size usable (s.degree - 2) env.domain.gen delta d.beta d.gamma
    (sys.columns.map fun k => (table.columns k.kind.1).getD k.kind.2 []) (pk.sigmas.map column) (c.products.map column)) ∧
  (∀ (j : ℕ) a l, sys.lookups[j]? = some a → c.lookups[j]? = some l →
    GrandProduct.LookupHolds size usable d.beta d.gamma (CircuitPoly.compressRows table size d.theta a.inputs)
      (CircuitPoly.compressRows table size d.theta a.targets) (column l.input) (column l.table) (column l.product)) ∧
  ∀ (j : ℕ) a z, sys.shuffles[j]? = some a → c.shuffles[j]? = some z →
    GrandProduct.ShuffleHolds size usable d.gamma (CircuitPoly.compressRows table size d.theta a.inputs)
      (CircuitPoly.compressRows table size d.theta a.targets) (column z)

section
variable {F : Type} [Field F] [LinearOrder F]

/-- The witness of a circuit satisfies the gates, the copies, the lookups and the shuffles, and the polynomials of the arguments have in the
rows the values that the code computes for the challenges of the run, which do not hit a value. -/
structure Held.Honest (env : Env P F) (s : Shape) (sys : System F) (key : Key F) (pk : ProvingKey F) (delta : F) (d : Held F) (i : ℕ) :
    Prop where
  gates : ∀ e ∈ sys.gates.flatten, ∀ j < env.domain.size,
    rowValue (CircuitPoly.rowTable env.domain.gen env.domain.size (d.circuit s key i).polys) (j : ℕ) 1 env.domain.size e = 0
  /-- The key is that of some copies, which hold; the grand products are those of the code. -/
  permutation : ∃ (threads : ℕ) (ps : List ((Fin sys.columns.length × Fin env.domain.size) × (Fin sys.columns.length × Fin env.domain.size)))
    (store : Cycle.Store) (rnd : ℕ → F) (k k' : ℕ) (z : F), 0 < threads ∧ threads ≤ 2 ^ 63 ∧
    let values := sys.columns.map fun k =>
      ((CircuitPoly.rowTable env.domain.gen env.domain.size (d.circuit s key i).polys).columns k.kind.1).getD k.kind.2 []
    (∀ p ∈ ps, p.1.2.val < env.domain.size - (s.blinding + 1) ∧ p.2.2.val < env.domain.size - (s.blinding + 1)) ∧
    (∀ p ∈ ps, GrandProduct.cell values p.1.1 p.1.2 = GrandProduct.cell values p.2.1 p.2.2) ∧
    Cycle.run (Cycle.Store.new sys.columns.length env.domain.size) (ps.map fun p => (Cycle.lab p.1, Cycle.lab p.2)) = some store ∧
    Cycle.generate threads sys.columns.length env.domain.size env.domain.size env.domain.gen delta store =
      some (pk.sigmas.map (CircuitPoly.onRows env.domain.gen env.domain.size)) ∧
    GrandProduct.permCreate threads env.domain.size s.blinding rnd k values
      (pk.sigmas.map (CircuitPoly.onRows env.domain.gen env.domain.size))
      (Cycle.unpermuted threads sys.columns.length env.domain.size env.domain.gen delta) (s.degree - 2) d.beta d.gamma =
      some ((d.circuit s key i).products.map (CircuitPoly.onRows env.domain.gen env.domain.size), z, k') ∧
    ∀ c < sys.columns.length, ∀ j < env.domain.size - (s.blinding + 1), ∀ v, GrandProduct.cell values c j = some v →
      v + d.beta * (delta ^ c * env.domain.gen ^ j) + d.gamma ≠ 0
  /-- The tuple of the inputs of a usable row is that of the table in some usable row; the permuted columns and the grand product are those
  of the code. -/
  lookups : ∀ (m : ℕ) a l, sys.lookups[m]? = some a → (d.circuit s key i).lookups[m]? = some l →
    let table := CircuitPoly.rowTable env.domain.gen env.domain.size (d.circuit s key i).polys
    let input := CircuitPoly.compressRows table env.domain.size d.theta a.inputs
    let target := CircuitPoly.compressRows table env.domain.size d.theta a.targets
    let usable := env.domain.size - (s.blinding + 1)
    (∀ j < usable, ∃ j' < usable, a.inputs.map (rowValue table (j : ℕ) 1 env.domain.size) =
      a.targets.map (rowValue table (j' : ℕ) 1 env.domain.size)) ∧
    (∀ x ∈ input.take usable, x + d.beta ≠ 0) ∧ (∀ x ∈ target.take usable, x + d.gamma ≠ 0) ∧
    ∃ rnd k k' z, Lookup.permutePair rnd env.domain.size s.blinding input target =
        some (some (CircuitPoly.onRows env.domain.gen env.domain.size l.input, CircuitPoly.onRows env.domain.gen env.domain.size l.table)) ∧
      GrandProduct.lookupCreate env.domain.size s.blinding rnd k input target (CircuitPoly.onRows env.domain.gen env.domain.size l.input)
        (CircuitPoly.onRows env.domain.gen env.domain.size l.table) d.beta d.gamma =
        some (CircuitPoly.onRows env.domain.gen env.domain.size l.product, z, k')
  /-- The tuples of the usable rows are the same in another order; the grand product is that of the code. -/
  shuffles : ∀ (m : ℕ) a p, sys.shuffles[m]? = some a → (d.circuit s key i).shuffles[m]? = some p →
    let table := CircuitPoly.rowTable env.domain.gen env.domain.size (d.circuit s key i).polys
    let input := CircuitPoly.compressRows table env.domain.size d.theta a.inputs
    let target := CircuitPoly.compressRows table env.domain.size d.theta a.targets
    let usable := env.domain.size - (s.blinding + 1)
    ((List.range usable).map fun j : ℕ => a.inputs.map (rowValue table (j : ℕ) 1 env.domain.size)).Perm
      ((List.range usable).map fun j : ℕ => a.targets.map (rowValue table (j : ℕ) 1 env.domain.size)) ∧
    (∀ x ∈ input.take usable, x + d.gamma ≠ 0) ∧
    ∃ rnd k k' z, GrandProduct.shuffleCreate env.domain.size s.blinding rnd k input target d.gamma =
      some (CircuitPoly.onRows env.domain.gen env.domain.size p, z, k')

end

end Tachyon.Halo2
