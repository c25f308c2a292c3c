import Verif.Spec.Graph
import Verif.Spec.CircuitPoly
import Verif.Model.Selector
import Mathlib.Data.List.Forall2
/-! What selectors mean (C89): the value of an expression where a selector has any given value. -/
universe u
namespace Tachyon.Selector
open Plonk CircuitPoly

section
variable {F : Type u}

/-- The meaning of an expression with selectors: like `Plonk.denote`, and `sel` gives the values of the selectors. -/
def denoteSel {R : Type u} [CommRing R] (c : F → R) (q : Kind → Query → R) (ch sel : ℕ → R) : Expr F → R
  | .constant v => c v
  | .selector i => sel i
  | .fixed x => q .fixed x
  | .advice x => q .advice x
  | .inst x => q .inst x
  | .challenge i => ch i
  | .neg e => -denoteSel c q ch sel e
  | .sum a b => denoteSel c q ch sel a + denoteSel c q ch sel b
  | .prod a b => denoteSel c q ch sel a * denoteSel c q ch sel b
  | .scaled e s => denoteSel c q ch sel e * c s

/-- The selectors of an expression, with repetitions. -/
def selectorsOf : Expr F → List ℕ
  | .selector i => [i]
  | .neg e => selectorsOf e
  | .sum a b => selectorsOf a ++ selectorsOf b
  | .prod a b => selectorsOf a ++ selectorsOf b
  | .scaled e _ => selectorsOf e
  | _ => []

/-- The simple selectors of an expression, with repetitions. -/
def simpleOf (simple : ℕ → Bool) (e : Expr F) : List ℕ := (selectorsOf e).filter simple

/-- The fixed columns of an expression are some of the first `n`. -/
def FixedBelow (n : ℕ) : Expr F → Prop
  | .fixed q => q.column < n
  | .neg e => FixedBelow n e
  | .sum a b => FixedBelow n a ∧ FixedBelow n b
  | .prod a b => FixedBelow n a ∧ FixedBelow n b
  | .scaled e _ => FixedBelow n e
  | _ => True

/-- The expression is a product with the simple selector `s`, up to sign and scale; the other factors have no simple
selectors. -/
def Gated (simple : ℕ → Bool) (s : ℕ) : Expr F → Prop
  | .selector i => i = s
  | .neg e => Gated simple s e
  | .scaled e _ => Gated simple s e
  | .prod a b => (Gated simple s a ∧ simpleOf simple b = []) ∨ (simpleOf simple a = [] ∧ Gated simple s b)
  | _ => False

/-- The selector `s` is active in row `i`. -/
def active (selectors : List (List Bool)) (s i : ℕ) : Bool := (selectors.getD s []).getD i false

/-- The largest degree of a gate with the simple selector `s`; zero if there is none or if `s` is not simple. -/
def gateDegree (cs : CS F) (s : ℕ) : ℕ :=
  ((cs.sys.gates.flatten.filter fun e => decide (s ∈ simpleOf cs.simple e)).map degree).foldr max 0

/-- The constraint system has the selectors, each of its gates has at most one simple selector, lookups and shuffles have
none, and its queries are of its columns. -/
structure CS.Proper (cs : CS F) : Prop where
  queries : ∀ q ∈ cs.sys.fixedQueries, q.1 < cs.numFixed
  fixed : ∀ g ∈ cs.sys.gates, ∀ e ∈ g, FixedBelow cs.numFixed e
  fixedLookups : ∀ a ∈ cs.sys.lookups ++ cs.sys.shuffles, ∀ e ∈ a.inputs ++ a.targets, FixedBelow cs.numFixed e
  selectors : ∀ g ∈ cs.sys.gates, ∀ e ∈ g, ∀ s ∈ selectorsOf e, s < cs.numSelectors
  selectorsLookups : ∀ a ∈ cs.sys.lookups ++ cs.sys.shuffles, ∀ e ∈ a.inputs ++ a.targets,
    ∀ s ∈ selectorsOf e, s < cs.numSelectors
  one : ∀ g ∈ cs.sys.gates, ∀ e ∈ g, (simpleOf cs.simple e).length ≤ 1
  noneLookups : ∀ a ∈ cs.sys.lookups ++ cs.sys.shuffles, ∀ e ∈ a.inputs ++ a.targets, simpleOf cs.simple e = []

/-- The expressions of the arguments are in relation. -/
def ArgReplaced (R : Expr F → Expr F → Prop) (a a' : Argument F) : Prop :=
  List.Forall₂ R a.inputs a'.inputs ∧ List.Forall₂ R a.targets a'.targets

variable [Field F]

/-- The value of an expression in a row, where `sel` gives the values of the selectors. -/
def rowValueSel (t : Table F) (sel : ℕ → F) (idx scale : ℤ) (n : ℕ) (e : Expr F) : F :=
  denoteSel id (fun k q => ((t.columns k).getD q.column []).getD ((idx + q.rotation * scale) % n).toNat 0)
    (fun i => t.challenges.getD i 0) sel e

/-- The table with more fixed columns. -/
def addFixed (t : Table F) (cols : List (List F)) : Table F := { t with fixed := t.fixed ++ cols }

/-- In every row `e'` is worth what `e` is worth with the selectors worth `c s` in the rows where they are active, and zero
in the others; `e'` may use the columns `cols` behind the fixed columns. -/
def Replaced (selectors : List (List Bool)) (numFixed n : ℕ) (cols : List (List F)) (c : ℕ → F) (e e' : Expr F) : Prop :=
  ∀ (t : Table F) (scale : ℤ), t.fixed.length = numFixed → ∀ i < n,
    rowValue (addFixed t cols) i scale n e' =
      rowValueSel t (fun s => if active selectors s i then c s else 0) i scale n e

/-- `cs'` is `cs` without selectors: `cols` are columns behind the fixed ones, with a query each, and in all expressions
the selectors are replaced. A selector is worth `c s` where it is active. -/
structure Compressed (cs : CS F) (selectors : List (List Bool)) (n : ℕ) (cs' : CS F) (cols : List (List F)) (c : ℕ → F) :
    Prop where
  numFixed : cs'.numFixed = cs.numFixed + cols.length
  fewer : cols.length ≤ cs.numSelectors
  rows : ∀ col ∈ cols, col.length = n
  queries : cs'.sys.fixedQueries = cs.sys.fixedQueries ++ (List.range cols.length).map fun j => (cs.numFixed + j, 0)
  same : cs'.sys.columns = cs.sys.columns ∧ cs'.sys.adviceQueries = cs.sys.adviceQueries ∧
    cs'.sys.instQueries = cs.sys.instQueries ∧ cs'.sys.minimumDegree = cs.sys.minimumDegree
  nonzero : ∀ s, c s ≠ 0
  complex : ∀ s, cs.simple s = false → c s = 1
  gates : List.Forall₂ (List.Forall₂ (Replaced selectors cs.numFixed n cols c)) cs.sys.gates cs'.sys.gates
  lookups : List.Forall₂ (ArgReplaced (Replaced selectors cs.numFixed n cols c)) cs.sys.lookups cs'.sys.lookups
  shuffles : List.Forall₂ (ArgReplaced (Replaced selectors cs.numFixed n cols c)) cs.sys.shuffles cs'.sys.shuffles
  noSelectors : ∀ e ∈ cs'.sys.exprs, selectorsOf e = []

end
end Tachyon.Selector
