import Verif.Model.Assembly
/-! What the tables of a circuit have to be (C92). -/
namespace Tachyon.Keygen
open Tachyon.Cycle

section
variable {K V : Type}

/-- The value that a call gives to a cell of a fixed column, if the rows below `u` are usable. -/
def Call.valueAt (u i row : Nat) : Call K V → Option V
  | .fixed i' row' v => if i' = i ∧ row' = row then some v else none
  | .fill i' from' v => if i' = i ∧ from' ≤ row ∧ row < u then some v else none
  | _ => none

/-- The value of a cell of a fixed column after the calls: the last one it was given. -/
def fixedAt (u : Nat) (zero : V) (cs : List (Call K V)) (i row : Nat) : V :=
  ((cs.filterMap (Call.valueAt u i row)).getLast?).getD zero

/-- The call is within the bounds. -/
def Call.Valid (numFixed numSelectors u : Nat) (columns : List K) : Call K V → Prop
  | .selector i row => i < numSelectors ∧ row < u
  | .fixed i row _ => i < numFixed ∧ row < u
  | .copy k row k' row' => k ∈ columns ∧ k' ∈ columns ∧ row < u ∧ row' < u
  | .fill i row _ => i < numFixed ∧ row < u

/-- The columns of a table have exactly the rows below `n`. -/
def TableRows (ws : List (Nat × Nat × V)) (n : Nat) : Prop :=
  ∀ c ∈ ws.map Prod.fst, ∀ x, (∃ v, (c, x, v) ∈ ws) ↔ x < n

end
section
variable {F : Type} [Field F]

/-- The advice column `j` of phase `p` as the calls say: the last value for the column and the row, zero if there is none, and one in
the last row. -/
def witnessColumn (n p j : Nat) (calls : List (Advice F)) : List F :=
  (List.range n).map fun row =>
    if row = n - 1 then 1
    else ((calls.filterMap fun a => if a.column = j ∧ a.row = row ∧ a.phase ≤ p then some a.value else none).getLast?).getD 0

/-- The challenges that are known in a phase: those of the phases before. -/
def knownBefore (challengePhases : List Nat) (values : Nat → F) (p : Nat) : Known F := fun k =>
  if ∃ ph ∈ challengePhases[k]?, ph < p then some (values k) else none

/-- What is committed in a phase: circuit by circuit the columns of the phase. -/
def commitsOf (n : Nat) (phases challengePhases : List Nat) (circuits : List (Known F → List (Advice F))) (values : Nat → F)
    (p : Nat) : List (Item F) :=
  (List.range circuits.length).flatMap fun i =>
    ((List.range phases.length).filter fun j => decide (phases[j]? = some p)).map fun j =>
      .commit i j (witnessColumn n p j ((circuits.getD i fun _ => []) (knownBefore challengePhases values p)))

/-- What is asked for after a phase: the challenges of the phase. -/
def squeezesOf (challengePhases : List Nat) (p : Nat) : List (Item F) :=
  ((List.range challengePhases.length).filter fun k => decide (challengePhases[k]? = some p)).map fun k => .squeeze k

/-- What the transcript is told in the phases below `p`. -/
def logBelow (n : Nat) (phases challengePhases : List Nat) (circuits : List (Known F → List (Advice F))) (values : Nat → F)
    (p : Nat) : List (Item F) :=
  (List.range p).flatMap fun q => commitsOf n phases challengePhases circuits values q ++ squeezesOf challengePhases q

end
end Tachyon.Keygen
