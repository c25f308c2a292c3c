import Verif.Model.Air
/-! What the constraints of an AIR mean. -/
namespace Tachyon.Air

variable {F : Type} [Field F] [DecidableEq F]

/-- The expression is one of arithmetic, with variables that are there. -/
def Expr.Plain (s : System F) : Expr F → Prop
  | .constant _ => True
  | .sum l r => l.Plain s ∧ r.Plain s
  | .product l r => l.Plain s ∧ r.Plain s
  | .negated e => e.Plain s
  | .scaled e _ => e.Plain s
  | .variable_ .public_ row _ => row < s.numPublic
  | .variable_ .main row col => row < 2 ∧ col < s.mainWidth
  | .variable_ .preprocessed row col => row < 2 ∧ col < s.preWidth
  | .variable_ .permutation _ _ => True
  | .variable_ .challenge _ _ => True
  | _ => False

/-- The value of an expression for values of the variables. -/
def Expr.value {R : Type} [CommRing R] (f : F → R) (x : VarType → ℕ → ℕ → R) : Expr F → R
  | .constant c => f c
  | .sum l r => l.value f x + r.value f x
  | .product l r => l.value f x * r.value f x
  | .negated e => -e.value f x
  | .scaled e s => e.value f x * f s
  | .variable_ t row col => x t row col
  | _ => 0

/-- The variables in the rows `i` and `i + 1`. -/
def varsAt (pub : List F) (main : Matrix F) (pre : Option (Matrix F)) (i : ℕ) : VarType → ℕ → ℕ → F
  | .public_, row, _ => pub.getD row 0
  | .main, row, col => main.entry (i + row) col
  | .preprocessed, row, col => pre.elim 0 fun p => p.entry (i + row) col
  | .permutation, _, _ => 0
  | .challenge, _, _ => 0

/-- An expression without variables of the second row of the window. -/
def Expr.OneRow : Expr F → Prop
  | .sum l r => l.OneRow ∧ r.OneRow
  | .product l r => l.OneRow ∧ r.OneRow
  | .negated e => e.OneRow
  | .scaled e _ => e.OneRow
  | .variable_ .main row _ => row = 0
  | .variable_ .preprocessed row _ => row = 0
  | _ => True

end Tachyon.Air
