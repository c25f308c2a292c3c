import Mathlib.Algebra.Field.Basic
/-!
# Model of rank-one constraint systems: `tachyon/zk/r1cs/constraint_system`

`variable.h`, `term.h`, `linear_combination.h`, `constraint_system.h`, `matrix.h` and
`constraint_matrices.h`. `size_t` is modelled by `Nat` without wrapping, except where noted. Undefined
behaviour, a failing `CHECK` and an endless recursion are `none`.
-/
namespace Tachyon.R1cs

/-- `Variable` (variable.h:19-128); the constructors are private but for these five. -/
inductive Var where
  | zero
  | one
  | inst (index : Nat)
  | wit (index : Nat)
  | lc (index : Nat)
deriving DecidableEq, Repr

/-- `type_` as an `int` (variable.h:23-34). -/
def Var.type : Var → Nat
  | .zero => 0
  | .one => 1
  | .inst _ => 2
  | .wit _ => 3
  | .lc _ => 4

/-- `index_` (variable.h:123-127). -/
def Var.index : Var → Nat
  | .zero => 0
  | .one => 0
  | .inst i => i
  | .wit i => i
  | .lc i => i

/-- `GetIndex` (variable.h:55-69). -/
def Var.getIndex (witnessOffset : Nat) : Var → Option Nat
  | .one => some 0
  | .inst i => some i
  | .wit i => some (witnessOffset + i)
  | .zero => none
  | .lc _ => none

/-- `operator<` (variable.h:87-101). -/
def Var.lt (a b : Var) : Bool :=
  if a.type = b.type then
    match a with
    | .zero => false
    | .one => false
    | _ => decide (a.index < b.index)
  else decide (a.type < b.type)

/-- `operator<=` (variable.h:102-116). -/
def Var.le (a b : Var) : Bool :=
  if a.type = b.type then
    match a with
    | .zero => true
    | .one => true
    | _ => decide (a.index ≤ b.index)
  else decide (a.type < b.type)

/-- `operator>` (variable.h:117). -/
def Var.gt (a b : Var) : Bool := !(a.le b)

/-- `operator>=` (variable.h:118). -/
def Var.ge (a b : Var) : Bool := !(a.lt b)

/-- `Term` (term.h:18-58). -/
structure Term (F : Type) where
  coeff : F
  var : Var
deriving DecidableEq, Repr

/-- `LinearCombination` (linear_combination.h:28-332). -/
abbrev LC (F : Type) := List (Term F)

section
variable {F : Type} [Field F] [DecidableEq F]

/-- `Term::operator-` (term.h:35). -/
def Term.neg (t : Term F) : Term F := ⟨-t.coeff, t.var⟩

/-- `Term::operator*` (term.h:41-43). -/
def Term.mul (t : Term F) (s : F) : Term F := ⟨t.coeff * s, t.var⟩

/-- `Term(variable)` (term.h:24-27). -/
def Term.ofVar (v : Var) : Term F := ⟨1, v⟩

/-- What `base::UnstableSort` by variables (base/sort.h:15-18) leaves: some sorted permutation. -/
structure Sorter (F : Type) where
  run : LC F → LC F
  perm : ∀ l, (run l).Perm l
  sorted : ∀ l, (run l).Pairwise fun a b => b.var.lt a.var = false

/-- The loop of `Deduplicate` (linear_combination.h:70-81): `first` is the term `cur_var_first_it` points
to, `run` the terms between it and `it`. -/
def accumulate (first : Term F) (run : LC F) : LC F → LC F
  | [] => first :: run
  | t :: l =>
    if first.var = t.var then accumulate ⟨first.coeff + t.coeff, first.var⟩ (run ++ [t]) l
    else (first :: run) ++ accumulate t [] l

/-- `std::unique` by variables and `erase` (linear_combination.h:82-86): `last` is the last term kept. -/
def uniqueGo (last : Term F) : LC F → LC F
  | [] => [last]
  | t :: l => if last.var = t.var then uniqueGo last l else last :: uniqueGo t l

/-- `Deduplicate` (linear_combination.h:65-87) after the sort. -/
def merge : LC F → LC F
  | [] => []
  | t :: l =>
    match accumulate t [] l with
    | [] => []
    | t' :: l' => uniqueGo t' l'

/-- `Deduplicate` (linear_combination.h:65-87), `CreateDeduplicated` (:39-51). -/
def dedup (s : Sorter F) (l : LC F) : LC F := merge (s.run l)

/-- The linear search of `GetVarLocation` (linear_combination.h:230-241). -/
def linearSearch (v : Var) : LC F → Nat → Bool × Nat
  | [], i => (false, i)
  | t :: l, i => if t.var = v then (true, i) else if t.var.gt v then (false, i) else linearSearch v l (i + 1)

/-- `BinarySearch` (linear_combination.h:252-277); `right - left` shrinks in every iteration. -/
def binarySearchGo (l : LC F) (v : Var) : Nat → Nat → Nat → Option (Bool × Nat)
  | 0, left, right => if left < right then none else some (false, left)
  | fuel + 1, left, right =>
    if left < right then
      let mid := left + (right - left) / 2
      (l[mid]?).bind fun t =>
        if t.var.lt v then binarySearchGo l v fuel (mid + 1) right
        else if t.var.gt v then binarySearchGo l v fuel left mid
        else some (true, mid)
    else some (false, left)

/-- `BinarySearch` (linear_combination.h:252-277). -/
def binarySearch (l : LC F) (v : Var) : Option (Bool × Nat) := binarySearchGo l v l.length 0 l.length

/-- `GetVarLocation` (linear_combination.h:227-245). -/
def getVarLocation (l : LC F) (v : Var) : Option (Bool × Nat) :=
  if l.length < 6 then some (linearSearch v l 0) else binarySearch l v

/-- `terms_[index].coefficient += c` or `terms_.insert(terms_.begin() + index, term)`
(linear_combination.h:104-108). -/
def placeTerm (l : LC F) (t : Term F) (r : Bool × Nat) : Option (LC F) :=
  if r.1 then (l[r.2]?).map fun u => l.set r.2 ⟨u.coeff + t.coeff, u.var⟩
  else if l.length < r.2 then none else some (l.take r.2 ++ t :: l.drop r.2)

/-- `operator+=(term)`, `operator+(term)` (linear_combination.h:96-110). -/
def addTerm (l : LC F) (t : Term F) : Option (LC F) := (getVarLocation l t.var).bind (placeTerm l t)

/-- `operator-=(term)`, `operator-(term)` (linear_combination.h:112-118). -/
def subTerm (l : LC F) (t : Term F) : Option (LC F) := addTerm l t.neg

/-- `operator-`, `NegateInPlace` (linear_combination.h:152-161). -/
def neg (l : LC F) : LC F := l.map Term.neg

/-- `operator*`, `operator*=` (linear_combination.h:199-209). -/
def mulScalar (l : LC F) (s : F) : LC F := l.map (Term.mul · s)

/-- The iterations of `DoAddition` (linear_combination.h:288-327) while `l_it` points to `a`; `rest` is the
remainder once it moves on. -/
def addGo (negation : Bool) (a : Term F) (rest : LC F → LC F) : LC F → LC F
  | [] => a :: rest []
  | b :: r =>
    if a.var.lt b.var then a :: rest (b :: r)
    else if a.var.gt b.var then (if negation then b.neg else b) :: addGo negation a rest r
    else ⟨if negation then a.coeff - b.coeff else a.coeff + b.coeff, a.var⟩ :: rest r

/-- `DoAddition` (linear_combination.h:279-329). -/
def doAddition (negation : Bool) : LC F → LC F → LC F
  | [] => fun r => r.map fun b => if negation then b.neg else b
  | a :: l => addGo negation a (doAddition negation l)

/-- `operator+`, `operator+=` (linear_combination.h:163-178). -/
def add (l r : LC F) : LC F :=
  if l.isEmpty then r else if r.isEmpty then l else doAddition false l r

/-- `operator-`, `operator-=` (linear_combination.h:180-195). -/
def sub (l r : LC F) : LC F :=
  if l.isEmpty then neg r else if r.isEmpty then l else doAddition true l r

/-- `IsSorted` (linear_combination.h:89-94). -/
def isSorted : LC F → Bool
  | [] => true
  | [_] => true
  | a :: b :: l => !(b.var.lt a.var) && isSorted (b :: l)

end

/-! ### `absl::btree_map<size_t, T>`: a list sorted by keys -/

section
variable {α : Type}

/-- `find`. -/
def mapFind (m : List (Nat × α)) (k : Nat) : Option α := (m.find? fun e => e.1 = k).map (·.2)

/-- `map[k] = v`. -/
def mapSet (m : List (Nat × α)) (k : Nat) (v : α) : List (Nat × α) :=
  match m with
  | [] => [(k, v)]
  | e :: m => if k < e.1 then (k, v) :: e :: m else if k = e.1 then (k, v) :: m else e :: mapSet m k v

/-- `erase`. -/
def mapErase (m : List (Nat × α)) (k : Nat) : List (Nat × α) := m.filter fun e => e.1 ≠ k

end

/-- `ConstraintSystem` (constraint_system.h:465-495). `setup` and `construct` are `mode_`
(synthesis_mode.h:40-41), `weight` is `optimization_goal_ == kWeight`. -/
structure CS (F : Type) [Field F] where
  setup : Bool := false
  construct : Bool := true
  weight : Bool := false
  numInst : Nat := 1
  numWit : Nat := 0
  numCons : Nat := 0
  numLC : Nat := 0
  inst : List F := [1]
  wit : List F := []
  lcMap : List (Nat × LC F) := []
  aCons : List Nat := []
  bCons : List Nat := []
  cCons : List Nat := []
  cache : List (Nat × F) := []
deriving DecidableEq

variable {F : Type} [Field F] [DecidableEq F]

/-- `ShouldConstructMatrices` (synthesis_mode.h:30-33). -/
def CS.shouldConstruct (cs : CS F) : Bool := cs.setup || cs.construct

/-- `set_mode` (constraint_system.h:54). -/
def CS.setMode (cs : CS F) (setup construct : Bool) : CS F := { cs with setup := setup, construct := construct }

/-- `set_optimization_goal` (constraint_system.h:62-70). -/
def CS.setGoal (cs : CS F) (weight : Bool) : Option (CS F) :=
  if cs.numInst = 1 ∧ cs.numWit = 0 ∧ cs.numCons = 0 ∧ cs.numLC = 0 then some { cs with weight := weight } else none

/-- `CreateInstanceVariable` (constraint_system.h:98-103); `v` is what the callback returns. -/
def CS.createInstance (cs : CS F) (v : F) : Var × CS F :=
  (.inst cs.numInst,
    { cs with inst := if cs.setup then cs.inst else cs.inst ++ [v], numInst := cs.numInst + 1 })

/-- `CreateWitnessVariable` (constraint_system.h:106-111). -/
def CS.createWitness (cs : CS F) (v : F) : Var × CS F :=
  (.wit cs.numWit, { cs with wit := if cs.setup then cs.wit else cs.wit ++ [v], numWit := cs.numWit + 1 })

/-- `CreateLinearCombination` (constraint_system.h:114-126). -/
def CS.createLC (cs : CS F) (l : LC F) : Var × CS F :=
  (.lc cs.numLC, { cs with lcMap := mapSet cs.lcMap cs.numLC l, numLC := cs.numLC + 1 })

/-- `EnforceConstraint` (constraint_system.h:130-157). -/
def CS.enforce (cs : CS F) (a b c : LC F) : Option (CS F) :=
  if cs.shouldConstruct then
    let ra := cs.createLC a
    let rb := ra.2.createLC b
    let rc := rb.2.createLC c
    some { rc.2 with aCons := cs.aCons ++ [ra.1.index], bCons := cs.bCons ++ [rb.1.index],
                     cCons := cs.cCons ++ [rc.1.index], numCons := cs.numCons + 1 }
  else none

/-! ### Evaluation -/

/-- One step of the `std::accumulate` in `DoEvalLinearCombination` (constraint_system.h:459-462). -/
def evalStep (value : List (Nat × F) → Var → Option (F × List (Nat × F))) (acc : F × List (Nat × F)) (t : Term F) :
    Option (F × List (Nat × F)) :=
  (value acc.2 t.var).map fun r => (acc.1 + t.coeff * r.1, r.2)

/-- `GetAssignedValue` (constraint_system.h:407-429) and `EvalLinearCombination` (:399-404), with the cache.
`fuel` bounds the depth of the recursion. -/
def CS.valueGo (cs : CS F) : Nat → List (Nat × F) → Var → Option (F × List (Nat × F))
  | _, c, .zero => some (0, c)
  | _, c, .one => some (1, c)
  | _, c, .inst i => (cs.inst[i]?).map fun v => (v, c)
  | _, c, .wit i => (cs.wit[i]?).map fun v => (v, c)
  | 0, c, .lc i => (mapFind c i).map fun v => (v, c)
  | fuel + 1, c, .lc i =>
    match mapFind c i with
    | some v => some (v, c)
    | none => (mapFind cs.lcMap i).bind fun l =>
        (l.foldlM (evalStep (cs.valueGo fuel)) (0, c)).map fun r => (r.1, mapSet r.2 i r.1)

/-- `GetAssignedValue` (constraint_system.h:407-429); a linear combination that depends on earlier ones only
needs a depth of at most their number. -/
def CS.value (cs : CS F) (v : Var) : Option (F × CS F) :=
  (cs.valueGo cs.numLC cs.cache v).map fun r => (r.1, { cs with cache := r.2 })

/-- `DoEvalLinearCombination` (constraint_system.h:457-463). -/
def CS.evalLC (cs : CS F) (l : LC F) : Option (F × CS F) :=
  (l.foldlM (evalStep (cs.valueGo cs.numLC)) (0, cs.cache)).map fun r => (r.1, { cs with cache := r.2 })

/-- `EvalLinearCombination` (constraint_system.h:399-404). -/
def CS.evalIndex (cs : CS F) (i : Nat) : Option (F × CS F) := (mapFind cs.lcMap i).bind cs.evalLC

/-- The loop of `IsSatisfied` (constraint_system.h:438-444) from constraint `i` on, `n` more. -/
def satGo : Nat → Nat → CS F → Option (Bool × CS F)
  | 0, _, cs => some (true, cs)
  | n + 1, i, cs =>
    (cs.aCons[i]?).bind fun ia => (cs.evalIndex ia).bind fun a =>
    (a.2.bCons[i]?).bind fun ib => (a.2.evalIndex ib).bind fun b =>
    (b.2.cCons[i]?).bind fun ic => (b.2.evalIndex ic).bind fun c =>
      if a.1 * b.1 ≠ c.1 then some (false, c.2) else satGo n (i + 1) c.2

/-- `IsSatisfied` (constraint_system.h:433-445). -/
def CS.isSatisfied (cs : CS F) : Option (Bool × CS F) :=
  if cs.setup then some (false, cs) else satGo cs.numCons 0 cs

/-! ### Inlining and outlining -/

/-- `v[i] = f(v[i])`; `none` if `i` is out of range. -/
def modifyAt (v : List Nat) (i : Nat) (f : Nat → Nat) : Option (List Nat) := (v[i]?).map fun x => v.set i (f x)

/-- Counting the terms of one linear combination (constraint_system.h:170-174). -/
def countTerms (used : List Nat) (l : LC F) : Option (List Nat) :=
  l.foldlM (fun used t => match t.var with
    | .lc i => modifyAt used i (· + 1)
    | _ => some used) used

/-- `ComputeLCNumTimesUsed` (constraint_system.h:161-177). -/
def CS.numTimesUsed (cs : CS F) (countSinks : Bool) : Option (List Nat) :=
  cs.lcMap.foldlM (fun used e =>
    (modifyAt used e.1 (· + if countSinks then 1 else 0)).bind fun used => countTerms used e.2)
    (List.replicate cs.lcMap.length 0)

/-- The state of the inner loop of `TransformLCMap` (constraint_system.h:184-191): `transformed_lc_map`,
`num_times_used`, `transformed_lc`. -/
structure Inl (F : Type) where
  tmap : List (Nat × LC F)
  used : List Nat
  acc : LC F

/-- One iteration of the inner loop (constraint_system.h:195-230). `--num_times_used[i]` wraps. -/
def inlineTerm (s : Inl F) (t : Term F) : Option (Inl F) :=
  match t.var with
  | .lc i => (mapFind s.tmap i).bind fun l => (s.used[i]?).map fun u =>
      let u' := (u + (2 ^ 64 - 1)) % 2 ^ 64
      ⟨if u' = 0 then mapErase s.tmap i else s.tmap, s.used.set i u', s.acc ++ mulScalar l t.coeff⟩
  | _ => some { s with acc := s.acc ++ [t] }

/-- What a `TransformLCMapCallback` leaves (constraint_system.h:36-49): the system, the variables it captured,
the linear combination, `num_new_witness_variables_needed` and `new_witness_assignments`. -/
structure CbResult (F α : Type) [Field F] where
  cs : CS F
  aux : α
  lc : LC F
  numNew : Nat
  newWit : Option (List F)

/-- Updating the witnesses (constraint_system.h:240-251). -/
def updateWitness (cs : CS F) (numNew : Nat) (newWit : Option (List F)) : Option (CS F) :=
  if cs.setup = false ∧ 0 < numNew then
    newWit.bind fun w =>
      if w.length = numNew then some { cs with numWit := cs.numWit + numNew, wit := cs.wit ++ w } else none
  else some { cs with numWit := cs.numWit + numNew }

/-- The state of the outer loop of `TransformLCMap`. -/
structure Tr (F α : Type) [Field F] where
  tmap : List (Nat × LC F)
  used : List Nat
  cs : CS F
  aux : α

/-- One iteration of the outer loop (constraint_system.h:190-252). -/
def transformEntry {α : Type} (s : Sorter F) (cb : CS F → α → Nat → LC F → Option (CbResult F α)) (st : Tr F α)
    (e : Nat × LC F) : Option (Tr F α) :=
  (e.2.foldlM inlineTerm ⟨st.tmap, st.used, []⟩).bind fun r =>
    (r.used[e.1]?).bind fun u => (cb st.cs st.aux u (dedup s r.acc)).bind fun o =>
      (updateWitness o.cs o.numNew o.newWit).map fun cs => ⟨mapSet r.tmap e.1 o.lc, r.used, cs, o.aux⟩

/-- `TransformLCMap` (constraint_system.h:183-254). -/
def CS.transform {α : Type} (s : Sorter F) (cs : CS F) (aux : α)
    (cb : CS F → α → Nat → LC F → Option (CbResult F α)) : Option (CS F × α) :=
  (cs.numTimesUsed false).bind fun used =>
    (cs.lcMap.foldlM (transformEntry s cb) ⟨[], used, cs, aux⟩).map fun st =>
      ({ st.cs with lcMap := st.tmap }, st.aux)

/-- The closure of `InlineAllLCs` (constraint_system.h:272-274). -/
def inlineCb (cs : CS F) (aux : Unit) (_ : Nat) (l : LC F) : Option (CbResult F Unit) := some ⟨cs, aux, l, 0, none⟩

/-- `InlineAllLCs` (constraint_system.h:265-275). -/
def CS.inlineAll (s : Sorter F) (cs : CS F) : Option (CS F) :=
  if cs.shouldConstruct then (cs.transform s () inlineCb).map (·.1) else some cs

/-- The closure of `OutlineLCs` (constraint_system.h:306-354); `aux` pairs
`new_witness_linear_combinations` with `new_witness_indices`. -/
def outlineCb (cs : CS F) (aux : List (LC F × Nat)) (numTimesUsed : Nat) (l : LC F) :
    Option (CbResult F (List (LC F × Nat))) :=
  let times := numTimesUsed + 1
  if times + l.length + 2 < l.length * times then
    (if cs.setup then some ([], cs) else (cs.evalLC l).map fun r => ([r.1], r.2)).map fun r =>
      ⟨r.2, aux ++ [(l, cs.numWit)], [Term.ofVar (.wit cs.numWit)], 1, some r.1⟩
  else some ⟨cs, aux, l, 0, none⟩

/-- `OutlineLCs` (constraint_system.h:286-362). -/
def CS.outline (s : Sorter F) (cs : CS F) : Option (CS F) :=
  if cs.shouldConstruct then
    (cs.transform s [] outlineCb).bind fun r =>
      r.2.foldlM (fun cs e => cs.enforce e.1 [Term.ofVar .one] [Term.ofVar (.wit e.2)]) r.1
  else some cs

/-- `Finalize` (constraint_system.h:366-376). -/
def CS.finalize (s : Sorter F) (cs : CS F) : Option (CS F) := if cs.weight then cs.outline s else cs.inlineAll s

/-! ### Matrices -/

/-- `Cell` (matrix.h:26-39). -/
structure Cell (F : Type) where
  coeff : F
  index : Nat
deriving DecidableEq, Repr

/-- `MakeRow` (constraint_system.h:78-87); dereferencing the missing index of `Zero` or of a linear
combination is undefined. -/
def CS.makeRow (cs : CS F) (l : LC F) : Option (List (Cell F)) :=
  (l.filter fun t => t.coeff ≠ 0).mapM fun t => (t.var.getIndex cs.numInst).map fun i => ⟨t.coeff, i⟩

/-- `MakeMatrix` (constraint_system.h:450-455). -/
def CS.makeMatrix (cs : CS F) (constraints : List Nat) : Option (List (List (Cell F))) :=
  constraints.mapM fun i => (mapFind cs.lcMap i).bind cs.makeRow

/-- `ConstraintMatrices` (constraint_matrices.h:25-47). -/
structure Matrices (F : Type) where
  numInst : Nat
  numWit : Nat
  numCons : Nat
  aNonZero : Nat
  bNonZero : Nat
  cNonZero : Nat
  a : List (List (Cell F))
  b : List (List (Cell F))
  c : List (List (Cell F))
deriving DecidableEq, Repr

/-- `CountNonZero` (matrix.h:50-55); the `int` accumulator is not modelled. -/
def countNonZero (m : List (List (Cell F))) : Nat := m.foldl (fun acc row => acc + row.length) 0

/-- `ToMatrices` (constraint_system.h:381-396); the inner `none` is `std::nullopt`. -/
def CS.toMatrices (cs : CS F) : Option (Option (Matrices F)) :=
  if cs.shouldConstruct then
    (cs.makeMatrix cs.aCons).bind fun a => (cs.makeMatrix cs.bCons).bind fun b =>
      (cs.makeMatrix cs.cCons).map fun c =>
        some ⟨cs.numInst, cs.numWit, cs.numCons, countNonZero a, countNonZero b, countNonZero c, a, b, c⟩
  else some none

end Tachyon.R1cs
