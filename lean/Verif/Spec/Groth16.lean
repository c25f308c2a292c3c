import Verif.Spec.Qap
import Verif.Spec.Kzg
import Verif.Model.Groth16
/-! What circuits and the keys of Groth16 are, independent of the code. -/
namespace Tachyon.Groth16
open Polynomial Tachyon.R1cs Tachyon.FFT

variable {F G1 G2 GT : Type} [Field F] [DecidableEq F] [AddCommGroup G1] [Module F G1] [AddCommGroup G2] [Module F G2]

/-- The circuit uses the variables `known` and those that it has created, when there are `ni` instance variables, `nw`
witness variables and `nl` linear combinations before it. -/
def Prog.Scoped : (Var → Prop) → ℕ → ℕ → ℕ → Prog F → Prop
  | _, _, _, _, .done => True
  | known, ni, nw, nl, .createInstance _ k => (k (.inst ni)).Scoped (fun v => known v ∨ v = .inst ni) (ni + 1) nw nl
  | known, ni, nw, nl, .createWitness _ k => (k (.wit nw)).Scoped (fun v => known v ∨ v = .wit nw) ni (nw + 1) nl
  | known, ni, nw, nl, .createLC l k =>
    (∀ t ∈ l, known t.var) ∧ (k (.lc nl)).Scoped (fun v => known v ∨ v = .lc nl) ni nw (nl + 1)
  | known, ni, nw, nl, .enforce a b c k => (∀ t ∈ a, known t.var) ∧ (∀ t ∈ b, known t.var) ∧ (∀ t ∈ c, known t.var) ∧
    k.Scoped known ni nw (nl + 3)

/-- The circuit uses only the constant one, which is `One` and the instance variable 0, and the variables that it has
created. -/
def Prog.Closed (p : Prog F) : Prop := p.Scoped (fun v => v = .one ∨ v = .inst 0) 1 0 0

/-- The same circuit for other values of the variables. -/
inductive Same : Prog F → Prog F → Prop where
  | done : Same .done .done
  | createInstance {v v' k k'} : (∀ u, Same (k u) (k' u)) → Same (.createInstance v k) (.createInstance v' k')
  | createWitness {v v' k k'} : (∀ u, Same (k u) (k' u)) → Same (.createWitness v k) (.createWitness v' k')
  | createLC {l k k'} : (∀ u, Same (k u) (k' u)) → Same (.createLC l k) (.createLC l k')
  | enforce {a b c k k'} : Same k k' → Same (.enforce a b c k) (.enforce a b c k')

/-- The constraint system of a circuit fits into a domain: the number of its constraints and public values is at most
`2 ^ k`. The number of references to a linear combination is a `size_t`. -/
structure Fits (cfg : RootConfig F) (cs : CS F) (k : ℕ) : Prop where
  refs : ∀ j, refs cs.lcMap j < 2 ^ 64
  le : cs.numCons + cs.numInst ≤ 2 ^ k
  least : ∀ j, cs.numCons + cs.numInst ≤ 2 ^ j → k ≤ j
  k63 : k ≤ 63
  adicity : k ≤ cfg.twoAdicity

/-- The polynomials of the columns of the three matrices. -/
structure Columns (d : Domain F) (m : Matrices F) (a b c : ℕ → F[X]) : Prop where
  a : ∀ j < m.numInst + m.numWit, Interp d (colA m j) (a j)
  b : ∀ j < m.numInst + m.numWit, Interp d (col m.b m.numCons j) (b j)
  c : ∀ j < m.numInst + m.numWit, Interp d (col m.c m.numCons j) (c j)

/-- The key of Groth16 for the values `a j`, `b j`, `c j` of the column polynomials at `x`, and `t` of the vanishing
polynomial. -/
def theKey (tw : Toxic F G1 G2) (ni nw size : ℕ) (a b c : ℕ → F) (x t : F) : ProvingKey G1 G2 where
  vk := {
    alphaG1 := tw.alpha • tw.g1
    betaG2 := tw.beta • tw.g2
    gammaG2 := tw.gamma • tw.g2
    deltaG2 := tw.delta • tw.g2
    l := (List.range ni).map fun j => ((tw.beta * a j + tw.alpha * b j + c j) / tw.gamma) • tw.g1 }
  betaG1 := tw.beta • tw.g1
  deltaG1 := tw.delta • tw.g1
  a := (List.range (ni + nw)).map fun j => a j • tw.g1
  bG1 := (List.range (ni + nw)).map fun j => b j • tw.g1
  bG2 := (List.range (ni + nw)).map fun j => b j • tw.g2
  h := (List.range (size - 1)).map fun i => (x ^ i * t / tw.delta) • tw.g1
  l := (List.range nw).map fun j =>
    ((tw.beta * a (ni + j) + tw.alpha * b (ni + j) + c (ni + j)) / tw.delta) • tw.g1

end Tachyon.Groth16
