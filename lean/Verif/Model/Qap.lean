import Verif.Model.R1cs
import Verif.Model.FFT
import Verif.Model.Parallel
/-!
# Model of `tachyon/zk/r1cs/constraint_system/quadratic_arithmetic_program.h`

The domain is a radix-2 domain; `item` holds its roots (C60). The iterations of the parallel loops work on
elements of their own, so the loops are maps. Undefined behaviour and a failing `CHECK` are `none`.
-/
namespace Tachyon.R1cs
open Tachyon.FFT Tachyon.Group

variable {F : Type} [Field F] [DecidableEq F]

/-- One iteration of `EvaluateConstraint` (quadratic_arithmetic_program.h:32-38). -/
def evalCell (full : List F) (sum : F) (c : Cell F) : Option F :=
  (full[c.index]?).map fun v => if c.coeff = 1 then sum + v else sum + v * c.coeff

/-- `EvaluateConstraint` (quadratic_arithmetic_program.h:27-40). -/
def evaluateConstraint (row : List (Cell F)) (full : List F) : Option F := row.foldlM (evalCell full) 0

/-- `QAPInstanceMapResult` (qap_instance_map_result.h:10-25). -/
structure QapInstance (F : Type) where
  a : List F
  b : List F
  c : List F
  tx : F
  numCons : Nat
  numInst : Nat
  numWit : Nat
  numQap : Nat
deriving DecidableEq, Repr

/-- `v[i] = x`; `none` if `i` is out of range. -/
def setAt {α : Type} (v : List α) (i : Nat) (x : α) : Option (List α) := (v[i]?).map fun _ => v.set i x

/-- `v[cell.index] += l * cell.coefficient` (quadratic_arithmetic_program.h:91-99). -/
def addCell (l : F) (v : List F) (c : Cell F) : Option (List F) :=
  (v[c.index]?).map fun x => v.set c.index (x + l * c.coeff)

/-- The cells of row `i` of a matrix (quadratic_arithmetic_program.h:91-93); `rows` is `none` if
`matrices` is `std::nullopt`. -/
def addRow (ls : List F) (rows : Option (List (List (Cell F)))) (v : List F) (i : Nat) : Option (List F) :=
  rows.bind fun rows => (rows[i]?).bind fun row => (ls[i]?).bind fun l => row.foldlM (addCell l) v

/-- The loop over the constraints (quadratic_arithmetic_program.h:90-100), for one of the matrices. -/
def addRows (ls : List F) (rows : Option (List (List (Cell F)))) (n : Nat) (v : List F) : Option (List F) :=
  (List.range n).foldlM (addRow ls rows) v

/-- `a[i] = l[num_constraints + i]` (quadratic_arithmetic_program.h:86-88). -/
def placeInst (ls : List F) (numCons n : Nat) (v : List F) : Option (List F) :=
  (List.range n).foldlM (fun v i => (ls[numCons + i]?).bind (setAt v i)) v

/-- `InstanceMap` (quadratic_arithmetic_program.h:48-105); the loops over the three matrices are separate. -/
def instanceMap (threads : Nat) (d : Domain F) (cs : CS F) (x : F) : Option (QapInstance F) :=
  if d.size < cs.numCons then none
  else
    cs.toMatrices.bind fun m =>
      (d.allLagrange threads x).bind fun ls =>
        let numQap := (cs.numInst - 1) + cs.numWit
        let zeros := List.replicate (numQap + 1) 0
        (placeInst ls cs.numCons cs.numInst zeros).bind fun a =>
          (addRows ls (m.map (·.a)) cs.numCons a).bind fun a =>
            (addRows ls (m.map (·.b)) cs.numCons zeros).bind fun b =>
              (addRows ls (m.map (·.c)) cs.numCons zeros).map fun c =>
                ⟨a, b, c, d.vanishingAt x, cs.numCons, cs.numInst, cs.numWit, numQap⟩

/-- The values of a matrix on the domain (quadratic_arithmetic_program.h:138-169). -/
def rowValues (size n : Nat) (rows : List (List (Cell F))) (full : List F) : Option (List F) :=
  ((List.range n).mapM fun i => (rows[i]?).bind (evaluateConstraint · full)).map fun v =>
    v ++ List.replicate (size - n) 0

/-- The instance values (quadratic_arithmetic_program.h:171-174). -/
def placeFull (full : List F) (numCons n : Nat) (v : List F) : Option (List F) :=
  (List.range n).foldlM (fun v i => (full[i]?).bind (setAt v (numCons + i))) v

/-- The division by the vanishing polynomial on the coset (quadratic_arithmetic_program.h:196-202):
`at` checks the index, `operator[]` gives zero beyond the end (univariate_evaluations.h:131-134, :142-147). -/
def divideEvals (size : Nat) (a b c : List F) (inv : F) : Option (List F) :=
  (List.range size).mapM fun i => (a[i]?).map fun v => (v * b.getD i 0 - c.getD i 0) * inv

/-- `WitnessMapFromMatrices` (quadratic_arithmetic_program.h:128-207); `g` is `kSubgroupGenerator`. -/
def witnessMapFromMatrices (threads : Nat) (o : Sched) (g : F) (d : Domain F) (item : Item F) (m : Matrices F)
    (full : List F) : Option (List F) :=
  if d.size < m.numCons then none
  else
    (rowValues d.size m.numCons m.a full).bind fun a =>
    (rowValues d.size m.numCons m.b full).bind fun b =>
    (rowValues d.size m.numCons m.c full).bind fun c =>
    (placeFull full m.numCons m.numInst a).bind fun a =>
    (ifft threads o d item a).bind fun a =>
    (ifft threads o d item b).bind fun b =>
    (ifft threads o d item c).bind fun c =>
    (d.getCoset g).bind fun d' =>
    (fft threads o d' item a).bind fun a =>
    (fft threads o d' item b).bind fun b =>
    (fft threads o d' item c).bind fun c =>
    (inv? (d.vanishingAt g)).bind fun inv =>
    (divideEvals d.size a b c inv).bind fun h => ifft threads o d' item h

/-- `WitnessMap` (quadratic_arithmetic_program.h:107-126): `h` and `full_assignments`. -/
def witnessMap (threads : Nat) (o : Sched) (g : F) (d : Domain F) (item : Item F) (cs : CS F) :
    Option (List F × List F) :=
  cs.toMatrices.bind fun m => m.bind fun m =>
    (witnessMapFromMatrices threads o g d item m (cs.inst ++ cs.wit)).map fun h => (h, cs.inst ++ cs.wit)

/-- The callback of `ComputeHQuery` (quadratic_arithmetic_program.h:220-229). -/
def hLoop (x tx deltaInv : F) : List F → F → List F
  | [], _ => []
  | _ :: l, xi => xi * tx * deltaInv :: hLoop x tx deltaInv l (xi * x)

/-- `ComputeHQuery` (quadratic_arithmetic_program.h:209-232). -/
def computeHQuery (threads : Nat) (d : Domain F) (tx x deltaInv : F) : List F :=
  Parallel.parallelize threads (List.replicate (d.size - 1) 0) fun i cs chunk =>
    hLoop x tx deltaInv chunk (powSize x (i * cs))

end Tachyon.R1cs
