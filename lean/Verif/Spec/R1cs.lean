import Verif.Model.R1cs
import Mathlib.Algebra.BigOperators.Group.List.Basic
import Mathlib.Data.Nat.Notation
/-! What linear combinations and rank-one constraint systems mean, independent of the code. -/
namespace Tachyon.R1cs

variable {F : Type} [Field F] [DecidableEq F]

/-- The value of a linear combination when the variables have the values `z`. -/
def lin (z : Var → F) (l : LC F) : F := (l.map fun t => t.coeff * z t.var).sum

/-- The coefficient of a variable: the sum over its occurrences. -/
def coeffOf (l : LC F) (v : Var) : F := ((l.filter fun t => t.var = v).map (·.coeff)).sum

/-- Strictly sorted by variables, so without repetitions. -/
def Strict (l : LC F) : Prop := l.Pairwise fun a b => a.var.lt b.var = true

/-- `z` gives the variables the values `x` and `w`, and to every linear combination of the system its
value. -/
structure Assign (cs : CS F) (x w : List F) (z : Var → F) : Prop where
  zero : z .zero = 0
  one : z .one = 1
  inst : ∀ (i : ℕ) v, x[i]? = some v → z (.inst i) = v
  wit : ∀ (i : ℕ) v, w[i]? = some v → z (.wit i) = v
  lc : ∀ i l, mapFind cs.lcMap i = some l → z (.lc i) = lin z l

/-- All products are right: `⟨a, z⟩ * ⟨b, z⟩ = ⟨c, z⟩` for every constraint. -/
def Products (cs : CS F) (z : Var → F) : Prop :=
  ∀ i a b c : ℕ, cs.aCons[i]? = some a → cs.bCons[i]? = some b → cs.cCons[i]? = some c →
    z (.lc a) * z (.lc b) = z (.lc c)

/-- The instance values `x` and the witness values `w` satisfy the system. -/
def Sat (cs : CS F) (x w : List F) : Prop := ∃ z, Assign cs x w z ∧ Products cs z

/-- A variable with a value of its own, when there are `ni` instance and `nw` witness variables. -/
def Var.Concrete (ni nw : ℕ) : Var → Prop
  | .zero => True
  | .one => True
  | .inst i => i < ni
  | .wit i => i < nw
  | .lc _ => False

/-- A variable that the system has returned: the linear combinations of constraints are not. -/
def CS.Known (cs : CS F) : Var → Prop
  | .zero => True
  | .one => True
  | .inst i => i < cs.numInst
  | .wit i => i < cs.numWit
  | .lc j => j < cs.numLC ∧ j ∉ cs.aCons ∧ j ∉ cs.bCons ∧ j ∉ cs.cCons

/-- A system before `Finalize`, made by the calls below from the empty one with linear combinations over
known variables. -/
structure Built (cs : CS F) : Prop where
  keys : cs.lcMap.map (·.1) = List.range cs.numLC
  terms : ∀ k l, mapFind cs.lcMap k = some l → ∀ t ∈ l, cs.Known t.var ∧ ∀ j, t.var = .lc j → j < k
  lena : cs.aCons.length = cs.numCons
  lenb : cs.bCons.length = cs.numCons
  lenc : cs.cCons.length = cs.numCons
  cons : ∀ k, k ∈ cs.aCons ∨ k ∈ cs.bCons ∨ k ∈ cs.cCons → k < cs.numLC
  inst : cs.setup = false → cs.inst.length = cs.numInst
  wit : cs.setup = false → cs.wit.length = cs.numWit
  one : cs.inst[0]? = some 1
  pos : 0 < cs.numInst
  cache : ∀ z, Assign cs cs.inst cs.wit z → ∀ i v, mapFind cs.cache i = some v → z (.lc i) = v

/-- How often the linear combination `j` occurs. -/
def refsT (l : LC F) (j : ℕ) : ℕ := l.countP fun t => t.var = .lc j

/-- How often the linear combination `j` occurs in a map. -/
def refs (m : List (ℕ × LC F)) (j : ℕ) : ℕ := (m.map fun e => refsT e.2 j).sum

/-- The values of the concrete variables. -/
def asg (x w : List F) : Var → F
  | .zero => 0
  | .one => 1
  | .inst i => x.getD i 0
  | .wit i => w.getD i 0
  | .lc _ => 0

/-- A system after `Finalize`: no linear combination refers to another one, and those of the constraints are
there. -/
structure Finalized (cs : CS F) : Prop where
  lcs : ∀ k l, mapFind cs.lcMap k = some l →
    k < cs.numLC ∧ Strict l ∧ ∀ t ∈ l, t.var.Concrete cs.numInst cs.numWit
  cons : ∀ k, k ∈ cs.aCons ∨ k ∈ cs.bCons ∨ k ∈ cs.cCons → ∃ l, mapFind cs.lcMap k = some l
  lena : cs.aCons.length = cs.numCons
  lenb : cs.bCons.length = cs.numCons
  lenc : cs.cCons.length = cs.numCons
  inst : cs.setup = false → cs.inst.length = cs.numInst
  wit : cs.setup = false → cs.wit.length = cs.numWit
  one : cs.inst[0]? = some 1
  pos : 0 < cs.numInst

/-- No linear combination has a term with the variable `Zero`. -/
def CS.ZeroFree (cs : CS F) : Prop := ∀ k l, mapFind cs.lcMap k = some l → ∀ t ∈ l, t.var ≠ .zero

/-- The product of a row of a matrix with a vector. -/
def dot (row : List (Cell F)) (v : List F) : F := (row.map fun c => c.coeff * v.getD c.index 0).sum

/-- `A v * B v = C v`, row by row. -/
def MatSat (m : Matrices F) (v : List F) : Prop :=
  ∀ (i : ℕ) a b c, m.a[i]? = some a → m.b[i]? = some b → m.c[i]? = some c → dot a v * dot b v = dot c v

/-- Every cell of the matrices has a coefficient and an index of a variable. -/
def CellsOk (m : List (List (Cell F))) (n : ℕ) : Prop := ∀ row ∈ m, ∀ c ∈ row, c.coeff ≠ 0 ∧ c.index < n

end Tachyon.R1cs
