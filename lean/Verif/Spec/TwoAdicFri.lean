import Verif.Model.TwoAdicFri
import Verif.Spec.Fri
import Mathlib.LinearAlgebra.Lagrange
/-! What `TwoAdicFRI` is about: matrices whose columns are the values of polynomials on a coset, claims about
the values of these polynomials at points, and the sum of quotients that combines the claims. -/
namespace Tachyon.TwoAdicFri
open Polynomial Tachyon.Fri

/-- Committing to matrices with `2^k` rows, for any `k ≤ 62` per matrix, succeeds, the prover data hold the
matrices, and the rows of every place open to themselves and are accepted; a matrix with `2^k` rows next to a
largest one of `2^K` rows is opened at the place without its `K - k` lowest bits. -/
structure LawfulMany {E Com Data Prf : Type} (m : Mmcs E Com Data Prf) : Prop where
  commit : ∀ (mats : List (ℕ × List (List E))) (K : ℕ), K ≤ 62 →
    (∀ x ∈ mats, x.1 ≤ K ∧ x.2.length = 2 ^ x.1 ∧ ∃ c > 0, ∀ r ∈ x.2, r.length = c) →
    (∃ x ∈ mats, x.1 = K) →
    ∃ c d, m.commit (mats.map Prod.snd) = some (c, d) ∧ m.matrices d = mats.map Prod.snd ∧
      ∀ i < 2 ^ K, ∃ p, m.openAt i d = some (mats.map fun x => x.2.getD (i / 2 ^ (K - x.1)) [], p) ∧
        m.verify c (mats.map fun x => 2 ^ x.1) i (mats.map fun x => x.2.getD (i / 2 ^ (K - x.1)) []) p = true

namespace Spec
variable {K : Type} [Field K]

/-- The sum of the values times the powers of `a`. -/
def dot (a : K) : List K → K
  | [] => 0
  | y :: ys => y + a * dot a ys

/-- The combination of claims `(z, row, ys)`: that the columns with the values `row` at `x` have the values
`ys` at `z`. Each column gives the quotient `(row - ys) / (x - z)`, and the quotients are added with the
successive powers of `a`. -/
def combine (a x : K) : List (K × List K × List K) → K
  | [] => 0
  | (z, row, ys) :: l => (dot a row - dot a ys) / (x - z) + a ^ row.length * combine a x l

/-- A committed matrix: the logarithm of its number of rows, the polynomials of its columns and the points
at which it is opened. -/
structure Mat (K : Type) [Field K] where
  log : ℕ
  polys : List K[X]
  points : List K

/-- Place `i` of the coset with `2^h` elements: the powers of the root of unity in bit-reversed order, times
`g`. -/
def place (A : ℕ) (W g : K) (h i : ℕ) : K := g * (W ^ 2 ^ (A - h)) ^ FFT.rv h i

/-- The values of polynomials at a point. -/
def evalAll (ps : List K[X]) (x : K) : List K := ps.map (eval x)

/-- The rows of the matrix. -/
def Mat.rows (A : ℕ) (W g : K) (m : Mat K) : List (List K) :=
  (List.range (2 ^ m.log)).map fun i => evalAll m.polys (place A W g m.log i)

/-- A matrix that the scheme can handle: at least one column, more rows than the blowup factor but at most
`2^31` and no more than there are roots of unity, columns of a low degree, and points outside the coset of
all roots of unity. -/
structure Mat.Ok (A b : ℕ) (g : K) (m : Mat K) : Prop where
  polys : m.polys ≠ []
  blowup : b < m.log
  le : m.log ≤ A
  le31 : m.log ≤ 31
  deg : ∀ p ∈ m.polys, p.degree < (2 ^ (m.log - b) : ℕ)
  out : ∀ z ∈ m.points, z ^ 2 ^ A ≠ g ^ 2 ^ A

/-- The matrix of `Commit` for the values `mat` on the coset `d`: the polynomials through the columns, and
`2^b` times as many rows. -/
noncomputable def matOf (b : ℕ) (d : FFT.Domain K) (mat : List (List K)) (points : List K) : Mat K where
  log := d.logSize + b
  polys := (List.range (cols mat)).map fun j => Lagrange.interpolate (Finset.range d.size)
    (fun i => d.offset * d.gen ^ i) fun i => (mat.getD i []).getD j 0
  points := points

/-- The domains of the verifier fit the matrices. -/
def DomainsFit (b : ℕ) (ms : List (Mat K × FFT.Domain K)) : Prop :=
  ∀ m ∈ ms, m.2.size = 2 ^ m.2.logSize ∧ m.2.logSize + b = m.1.log

/-- The number of opened values of the matrices of height `h`. -/
def numCols (h : ℕ) (ms : List (Mat K)) : ℕ :=
  ((ms.filter fun m => m.log = h).map fun m => m.points.length * m.polys.length).sum

/-- Claims that a random combination with the challenge `a` does not tell apart. -/
def SameUnder (a : K) (c c' : Claim K) : Prop :=
  c.domain = c'.domain ∧ c.points = c'.points ∧
    List.Forall₂ (fun ys ys' => ys.length = ys'.length ∧ dot a ys = dot a ys') c.values c'.values

/-- The opened values of the matrix. -/
def Mat.values (m : Mat K) : List (List K) := m.points.map (evalAll m.polys)

/-- The true claims about the matrices of height `h`, at the point `x`. -/
def claimsAt (h : ℕ) (ms : List (Mat K)) (x : K) : List (K × List K × List K) :=
  (ms.filter fun m => m.log = h).flatMap fun m =>
    m.points.map fun z => (z, evalAll m.polys x, evalAll m.polys z)

/-- A round of the prover: the committed matrices with the domains on which they were given, the
commitment and the prover data. -/
structure Round (K Com Data : Type) [Field K] where
  mats : List (Mat K × FFT.Domain K)
  com : Com
  data : Data

/-- The largest height. -/
def TopLog (ms : List (Mat K × FFT.Domain K)) (k : ℕ) : Prop :=
  (∀ m ∈ ms, m.1.log ≤ k) ∧ ∃ m ∈ ms, m.1.log = k

/-- The prover data hold the matrices, and the rows at every place open to themselves and are accepted. -/
def Round.Opens {Com Data Prf : Type} (A : ℕ) (W : K) (p : Pcs K Com Data Prf) (r : Round K Com Data) : Prop :=
  p.mmcs.matrices r.data = r.mats.map (fun m => m.1.rows A W p.gen) ∧
    ∀ k, TopLog r.mats k → ∀ i < 2 ^ k, ∃ prf,
      p.mmcs.openAt i r.data = some (r.mats.map fun m =>
        evalAll m.1.polys (place A W p.gen m.1.log (i / 2 ^ (k - m.1.log))), prf) ∧
      p.mmcs.verify r.com (r.mats.map fun m => 2 ^ m.1.log) i (r.mats.map fun m =>
        evalAll m.1.polys (place A W p.gen m.1.log (i / 2 ^ (k - m.1.log)))) prf = true

/-- What the verifier is told about a round: the commitment and the claims with the true values. -/
def Round.claims {Com Data : Type} (r : Round K Com Data) : Com × List (Claim K) :=
  (r.com, r.mats.map fun m => ⟨m.2, m.1.points, m.1.values⟩)

/-! ### What the verifier checks -/

/-- The claims that the columns with the values `row` have the opened values at the points. -/
def mkClaims (row : List K) (c : Claim K) : List (K × List K × List K) :=
  (c.points.zip c.values).map fun q => (q.1, row, q.2)

/-- There are values for every point, each with one entry per column, and no point is `x`. -/
def ClaimOk (x : K) (row : List K) (c : Claim K) : Prop :=
  c.points.length ≤ c.values.length ∧ ∀ q ∈ c.points.zip c.values, x ≠ q.1 ∧ q.2.length = row.length

/-- The logarithm of the number of rows of the matrix of a claim. -/
def height (b : ℕ) (c : Claim K) : ℕ := c.domain.logSize + b

/-- The height of the tallest matrix of a round. -/
def maxHeight (b : ℕ) (cs : List (Claim K)) : ℕ := (cs.map (height b)).foldl max 0

/-- The claims for the height `h`. -/
def collect (h : ℕ) (items : List (ℕ × List (K × List K × List K))) : List (K × List K × List K) :=
  (items.filter fun e => e.1 = h).flatMap Prod.snd

/-- The heights that occur, in descending order. -/
def heights (n : ℕ) (items : List (ℕ × List (K × List K × List K))) : List ℕ :=
  (List.range (n + 1)).reverse.filter fun h => items.any fun e => e.1 = h

/-- The claims of a round, each with the height of its matrix. -/
def roundItems (b : ℕ) (q : List (Claim K) × List (List K)) : List (ℕ × List (K × List K × List K)) :=
  (q.1.zip q.2).map fun q => (height b q.1, mkClaims q.2 q.1)

/-- The checks of a round at place `i` of `2^n`: the opened rows are those of the commitment at the place
without its lowest bits, and every claim makes sense. -/
def RoundOk {Com Data Prf : Type} (p : Pcs K Com Data Prf) (A : ℕ) (W : K) (n i : ℕ) (com : Com)
    (cs : List (Claim K)) (inp : List (List K) × Prf) : Prop :=
  cs ≠ [] ∧ maxHeight p.cfg.logBlowup cs ≤ n ∧
    p.mmcs.verify com (cs.map fun c => 2 ^ height p.cfg.logBlowup c)
      (i / 2 ^ (n - maxHeight p.cfg.logBlowup cs)) inp.1 inp.2 = true ∧
    cs.length ≤ inp.1.length ∧
    ∀ q ∈ cs.zip inp.1, ClaimOk (place A W p.gen (height p.cfg.logBlowup q.1)
      (i / 2 ^ (n - height p.cfg.logBlowup q.1))) q.2 q.1

end Spec
end Tachyon.TwoAdicFri
