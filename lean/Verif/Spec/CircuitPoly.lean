import Verif.Model.CircuitPoly
import Verif.Spec.Graph
import Verif.Spec.Poly
import Mathlib.Algebra.BigOperators.Intervals
import Mathlib.LinearAlgebra.Lagrange
/-! The constraints of a plonk circuit (C88): as elements of any commutative ring, so that they can be polynomials as well
as values at a point. -/
universe u
namespace Tachyon.CircuitPoly
open Plonk Polynomial Poly

/-- What the constraints of a lookup are about: the grand product, the permuted input and table, the compressed input and
table. -/
structure LookupEnv (R : Type u) where
  z : R
  zNext : R
  permInput : R
  permInputPrev : R
  permTable : R
  input : R
  table : R

/-- What the constraints of a shuffle are about. -/
structure ShuffleEnv (R : Type u) where
  z : R
  zNext : R
  input : R
  target : R

/-- What the constraints of a circuit are about. `first`, `last`, `active` select rows; there are `m` columns in the
permutation argument and `sets` grand products. -/
structure Env (R : Type u) where
  first : R
  last : R
  active : R
  x : R
  gates : List R
  m : ℕ
  cols : ℕ → R
  sigmas : ℕ → R
  sets : ℕ
  z : ℕ → R
  zNext : ℕ → R
  zLast : ℕ → R
  lookups : List (LookupEnv R)
  shuffles : List (ShuffleEnv R)

section
variable {R : Type u} [CommRing R]

/-- The permutation argument: the first product starts with one, the last one ends with zero or one, a product continues
the one before it, and in an active row a product changes by the quotient over the columns of its set. -/
def permConstraints (β γ δ : R) (len : ℕ) (E : Env R) : List R :=
  if E.sets = 0 then []
  else
    [E.first * (1 - E.z 0), E.last * (E.z (E.sets - 1) ^ 2 - E.z (E.sets - 1))] ++
      (List.range (E.sets - 1)).map (fun i => E.first * (E.z (i + 1) - E.zLast i)) ++
      (List.range E.sets).map fun k => E.active *
        (E.zNext k * ∏ j ∈ Finset.Ico (k * len) (min ((k + 1) * len) E.m), (E.cols j + β * E.sigmas j + γ) -
          E.z k * ∏ j ∈ Finset.Ico (k * len) (min ((k + 1) * len) E.m), (E.cols j + β * δ ^ j * E.x + γ))

/-- The lookup argument of halo2. -/
def lookupConstraints (β γ : R) (E : Env R) (l : LookupEnv R) : List R :=
  [E.first * (1 - l.z), E.last * (l.z ^ 2 - l.z),
    E.active * (l.zNext * (l.permInput + β) * (l.permTable + γ) - l.z * (l.input + β) * (l.table + γ)),
    E.first * (l.permInput - l.permTable),
    E.active * (l.permInput - l.permTable) * (l.permInput - l.permInputPrev)]

/-- The shuffle argument. -/
def shuffleConstraints (γ : R) (E : Env R) (l : ShuffleEnv R) : List R :=
  [E.first * (1 - l.z), E.last * (l.z ^ 2 - l.z), E.active * (l.zNext * (l.target + γ) - l.z * (l.input + γ))]

/-- All constraints of a circuit. -/
def constraints (β γ δ : R) (len : ℕ) (E : Env R) : List R :=
  E.gates ++ permConstraints β γ δ len E ++ E.lookups.flatMap (lookupConstraints β γ E) ++
    E.shuffles.flatMap (shuffleConstraints γ E)

/-- The combination of a list by powers of a challenge, the first element with the highest. -/
def combination (y : R) (l : List R) : R := ∑ i ∈ Finset.range l.length, l.getD i 0 * y ^ (l.length - 1 - i)

end

section
variable {F : Type u} [Field F]

/-- The polynomials of the columns of a table. -/
noncomputable def colPolys (t : Table F) (k : Kind) (i : ℕ) : F[X] := dpoly ((t.columns k).getD i [])

/-- The polynomial of an expression over a table of polynomials. -/
noncomputable def exprPoly (ω : F) (t : Table F) (e : Expr F) : F[X] :=
  polyOf (colPolys t) (fun i => t.challenges.getD i 0) ω e

/-- The polynomial of expressions combined by powers of `θ`. -/
noncomputable def compressPoly (ω θ : F) (t : Table F) (es : List (Expr F)) : F[X] :=
  combination (C θ) (es.map (exprPoly ω t))

/-- The kind and the index of a column. -/
def Key.kind : Key → Kind × ℕ
  | .fixed i => (.fixed, i)
  | .advice i => (.advice, i)
  | .inst i => (.inst, i)

/-- A polynomial in a row further on. -/
noncomputable def rotated (ω : F) (r : ℤ) (p : List F) : F[X] := (dpoly p).comp (C (ω ^ r) * X)

/-- The polynomials of a circuit; `r` is the distance of the last row. -/
noncomputable def Circuit.env (s : System F) (key : ProvingKey F) (ω θ : F) (r : ℤ) (c : Circuit F) : Env F[X] where
  first := dpoly key.lFirst
  last := dpoly key.lLast
  active := dpoly key.lActive
  x := X
  gates := s.gates.flatten.map (exprPoly ω c.polys)
  m := s.columns.length
  cols := fun j => colPolys c.polys (s.columns.getD j (.fixed 0)).kind.1 (s.columns.getD j (.fixed 0)).kind.2
  sigmas := fun j => dpoly (key.sigmas.getD j [])
  sets := c.products.length
  z := fun i => dpoly (c.products.getD i [])
  zNext := fun i => rotated ω 1 (c.products.getD i [])
  zLast := fun i => rotated ω r (c.products.getD i [])
  lookups := List.zipWith (fun (a : Argument F) (l : LookupCosets F) =>
    ⟨dpoly l.product, rotated ω 1 l.product, dpoly l.input, rotated ω (-1) l.input, dpoly l.table,
      compressPoly ω θ c.polys a.inputs, compressPoly ω θ c.polys a.targets⟩) s.lookups c.lookups
  shuffles := List.zipWith (fun (a : Argument F) (z : List F) =>
    ⟨dpoly z, rotated ω 1 z, compressPoly ω θ c.polys a.inputs, compressPoly ω θ c.polys a.targets⟩) s.shuffles c.shuffles

/-- The constraints of a circuit as polynomials; `degree` is that of the constraint system. -/
noncomputable def Circuit.constraints (s : System F) (key : ProvingKey F) (ω δ : F) (blinding degree : ℕ)
    (ch : Challenges F) (c : Circuit F) : List F[X] :=
  CircuitPoly.constraints (C ch.beta) (C ch.gamma) (C δ) (degree - 2) (c.env s key ω ch.theta (-((blinding : ℤ) + 1)))

/-- The numerator of the quotient: the constraints of all circuits combined by powers of `y`. -/
noncomputable def numerator (s : System F) (key : ProvingKey F) (ω δ : F) (blinding degree : ℕ) (ch : Challenges F)
    (circuits : List (Circuit F)) : F[X] :=
  combination (C ch.y) (circuits.flatMap (Circuit.constraints s key ω δ blinding degree ch))

/-- The expressions of a constraint system. -/
def System.exprs (s : System F) : List (Expr F) :=
  s.gates.flatten ++ s.lookups.flatMap (fun a => a.inputs ++ a.targets) ++
    s.shuffles.flatMap fun a => a.inputs ++ a.targets

/-- The polynomials of a circuit fit to the constraint system and to `n` rows. -/
structure Circuit.Fits (s : System F) (n degree : ℕ) (c : Circuit F) : Prop where
  exprs : ∀ e ∈ s.exprs, Legal (fun k q => q.column < (c.polys.columns k).length ∧
    -2 ^ 30 ≤ q.rotation ∧ q.rotation ≤ 2 ^ 30) (fun i => i < c.polys.challenges.length) e
  keys : ∀ k ∈ s.columns, k.kind.2 < (c.polys.columns k.kind.1).length
  columns : ∀ k, ∀ p ∈ c.polys.columns k, p.length ≤ n
  sets : c.products.length = GrandProduct.chunkNum s.columns.length (degree - 2)
  products : ∀ p ∈ c.products, p.length ≤ n
  numLookups : c.lookups.length = s.lookups.length
  lookups : ∀ l ∈ c.lookups, l.product.length ≤ n ∧ l.input.length ≤ n ∧ l.table.length ≤ n
  numShuffles : c.shuffles.length = s.shuffles.length
  shuffles : ∀ p ∈ c.shuffles, p.length ≤ n

/-- The same for the proving key. -/
structure ProvingKey.Fits (s : System F) (n : ℕ) (key : ProvingKey F) : Prop where
  numSigmas : key.sigmas.length = s.columns.length
  sigmas : ∀ p ∈ key.sigmas, p.length ≤ n
  first : key.lFirst.length ≤ n
  last : key.lLast.length ≤ n
  active : key.lActive.length ≤ n

/-- The polynomials of the key that select rows: the first one, the last one that is used (`u`), and those before it. -/
structure ProvingKey.Selects (ω : F) (n u : ℕ) (key : ProvingKey F) : Prop where
  first : ∀ i < n, (dpoly key.lFirst).eval (ω ^ i) = if i = 0 then 1 else 0
  last : ∀ i < n, (dpoly key.lLast).eval (ω ^ i) = if i = u then 1 else 0
  active : ∀ i < n, (dpoly key.lActive).eval (ω ^ i) = if i < u then 1 else 0

/-- The values of a polynomial in the rows. -/
noncomputable def onRows (ω : F) (n : ℕ) (p : List F) : List F := (List.range n).map fun j => (dpoly p).eval (ω ^ j)

/-- The table of the values of the columns. -/
noncomputable def rowTable (ω : F) (n : ℕ) (t : Table F) : Table F :=
  ⟨t.fixed.map (onRows ω n), t.advice.map (onRows ω n), t.inst.map (onRows ω n), t.challenges⟩

/-- Expressions in the rows of a table, combined by powers of `θ`. -/
def compressRows (t : Table F) (n : ℕ) (θ : F) (es : List (Expr F)) : List F :=
  (List.range n).map fun j : ℕ => combination θ (es.map (rowValue t (j : ℤ) 1 n))

/-- The queries of a constraint system. -/
def System.queries (s : System F) : Kind → List (ℕ × ℤ)
  | .fixed => s.fixedQueries
  | .advice => s.adviceQueries
  | .inst => s.instQueries

/-- The queries of the expressions are in the lists of queries, where they say, and so are those of the columns of the
permutation argument. -/
structure System.Queried (s : System F) : Prop where
  exprs : ∀ e ∈ s.exprs, Legal (fun k q => ∃ i, q.index = some i ∧ (s.queries k)[i]? = some (q.column, q.rotation))
    (fun _ => True) e
  keys : ∀ k ∈ s.columns, (k.kind.2, 0) ∈ s.queries k.kind.1

/-- The evaluations are those of the polynomials of the circuit at `x`. -/
structure CircuitEvals.Of (s : System F) (ω x : F) (r : ℤ) (c : Circuit F) (v : CircuitEvals F) : Prop where
  columns : ∀ k, v.evals.of k = (s.queries k).map fun q => (colPolys c.polys k q.1).eval (ω ^ q.2 * x)
  challenges : v.evals.challenges = c.polys.challenges
  products : v.products = c.products.map fun p => (dpoly p).eval x
  productsNext : v.productsNext = c.products.map fun p => (dpoly p).eval (ω * x)
  productsLast : ∀ i, i + 1 < c.products.length →
    v.productsLast[i]? = some (some ((dpoly (c.products.getD i [])).eval (ω ^ r * x)))
  lookups : v.lookups = c.lookups.map fun l => ⟨(dpoly l.product).eval x, (dpoly l.product).eval (ω * x),
    (dpoly l.input).eval x, (dpoly l.input).eval (ω⁻¹ * x), (dpoly l.table).eval x⟩
  shuffles : v.shuffles = c.shuffles.map fun p => ((dpoly p).eval x, (dpoly p).eval (ω * x))

end
end Tachyon.CircuitPoly
