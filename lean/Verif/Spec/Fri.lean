import Mathlib.RingTheory.RootsOfUnity.PrimitiveRoots
import Mathlib.Algebra.Polynomial.Eval.Degree
import Verif.Model.Fri
import Verif.Proofs.FFTCore
/-! What FRI is about: vectors of values at the powers of a root of unity in bit-reversed order, the
folding of such a vector, and the laws of the records that the protocol is given. -/
namespace Tachyon.Fri

/-- The roots of unity of a field with two-adicity `A` and the surroundings of a correct run. -/
structure Env.Good {K : Type} [Field K] (env : Env K) (A : ℕ) (W : K) : Prop where
  prim : IsPrimitiveRoot W (2 ^ A)
  root : ∀ k ≤ A, env.root k = some (W ^ 2 ^ (A - k))
  le : A ≤ 63
  threads : 0 < env.threads ∧ env.threads ≤ 2 ^ 63
  order : ∀ l, (env.order l).Perm l

/-- Committing to one matrix with two columns and `2^k` rows succeeds, the prover data hold the matrix, and
every row opens to itself and is accepted. -/
structure Mmcs.Lawful {E Com Data Prf : Type} (m : Mmcs E Com Data Prf) : Prop where
  commit : ∀ (k : ℕ) (mat : List (List E)), k ≤ 62 → mat.length = 2 ^ k → (∀ r ∈ mat, r.length = 2) →
    ∃ c d, m.commit [mat] = some (c, d) ∧ m.matrices d = [mat] ∧
      ∀ i (hi : i < mat.length), ∃ p, m.openAt i d = some ([mat[i]], p) ∧
        m.verify c [2 ^ k] i [mat[i]] p = true

/-- No commitment has two different accepted openings at one place. -/
def Mmcs.Binding {E Com Data Prf : Type} (m : Mmcs E Com Data Prf) : Prop :=
  ∀ c h i rows rows' p p', m.verify c [h] i [rows] p = true → m.verify c [h] i [rows'] p' = true →
    rows.length = rows'.length → rows = rows'

/-- Samples of `k` bits are below `2^k`, and a witness that was found is accepted. -/
structure Chal.Lawful {K Com W S : Type} (ch : Chal K Com W S) : Prop where
  bits : ∀ k s, (ch.sampleBits k s).1 < 2 ^ k
  grind : ∀ k s w s', ch.grind k s = some (w, s') → ch.checkWitness k w s = (true, s')

namespace Spec
variable {K : Type} [Field K]

/-- The vector `f` of `2^(k+1)` values, folded with `b`: neighbours are the values at `x` and `-x` for
`x = w^(rv k r)`, and their even part plus `b` times their odd part is the new value. -/
def fold (w : K) (k : ℕ) (b : K) (f : ℕ → K) (r : ℕ) : K :=
  (f (2 * r) + f (2 * r + 1)) / 2 + b * ((f (2 * r) - f (2 * r + 1)) / (2 * w ^ FFT.rv k r))

/-- The sum of the inputs of height `k` at place `i`. -/
def inputAt (inputs : List (ℕ × (ℕ → K))) (k i : ℕ) : K :=
  ((inputs.filter fun p => p.1 = k).map fun p => p.2 i).sum

/-- The vector of `2^n` values `f` after the rounds with the given challenges, each round followed by the
addition of the inputs of the new size; `W` is a root of unity of order `2^A`. -/
def rounds (A : ℕ) (W : K) (inputs : List (ℕ × (ℕ → K))) : ℕ → (ℕ → K) → List K → ℕ → K
  | _, f, [] => f
  | n, f, b :: bs => rounds A W inputs (n - 1)
      (fun i => fold (W ^ 2 ^ (A - n)) (n - 1) b f i + inputAt inputs (n - 1) i) bs

/-- The vector holds the values of a polynomial with fewer than `d` coefficients at the powers of `w` in
bit-reversed order. -/
def Codeword (w : K) (n d : ℕ) (f : ℕ → K) : Prop :=
  ∃ p : Polynomial K, p.degree < d ∧ ∀ i < 2 ^ n, f i = p.eval (w ^ FFT.rv n i)

/-- The places that `q` queries ask for. -/
def queries {Com W S : Type} (ch : Chal K Com W S) (logMax : ℕ) : ℕ → S → List ℕ
  | 0, _ => []
  | q + 1, s => (ch.sampleBits logMax s).1 :: queries ch logMax q (ch.sampleBits logMax s).2

/-- The list of the first `2^n` values. -/
def vec (n : ℕ) (f : ℕ → K) : List K := (List.range (2 ^ n)).map f

end Spec
end Tachyon.Fri
