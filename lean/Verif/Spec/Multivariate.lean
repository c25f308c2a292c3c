import Verif.Model.Multivariate
import Mathlib.Algebra.MvPolynomial.Basic
/-! What a sparse multivariate polynomial stands for, and when it is in normal form. -/
universe u
namespace Tachyon.Multivariate
open MvPolynomial

/-- The exponents of a literal. -/
noncomputable def Lit.exps (a : Lit) : ℕ →₀ ℕ := (a.map fun e => Finsupp.single e.var e.exp).sum

/-- What the parallel loops need: fewer than `2^63` elements. -/
def Fits (threads : ℕ) {α : Type*} (l : List α) : Prop := l.length + threads ≤ 2 ^ 64 ∧ 2 * l.length ≤ 2 ^ 64

variable {F : Type u} [Field F]

/-- The polynomial of terms. -/
noncomputable def den (ts : List (Term F)) : MvPolynomial ℕ F := (ts.map fun t => monomial t.literal.exps t.coeff).sum

/-- A literal in normal form: the constant one, or with increasing variables and positive exponents. -/
def Lit.Valid (a : Lit) : Prop :=
  a = [⟨0, 0⟩] ∨ (a ≠ [] ∧ a.Pairwise (fun x y => x.var < y.var) ∧ ∀ e ∈ a, 0 < e.exp)

/-- Terms in normal form: sorted, with literals in normal form, without zeros. -/
def Normal (ts : List (Term F)) : Prop :=
  (∀ t ∈ ts, t.literal.Valid ∧ t.coeff ≠ 0) ∧ ts.Pairwise fun s t => Lit.lt s.literal t.literal = some true

/-- Literals that are not different for `operator<` stand for the same monomial. -/
def Agree (as bs : List (Term F)) : Prop :=
  ∀ a ∈ as, ∀ b ∈ bs, Lit.lt a.literal b.literal = some false → Lit.lt b.literal a.literal = some false →
    a.literal.exps = b.literal.exps

end Tachyon.Multivariate
