import Mathlib.Algebra.Field.Defs
/-! Example circuits of plonk: `zk/plonk/examples/simple_circuit.h` and `zk/plonk/examples/fibonacci`. A row of the table is written as a region and
an offset in it: where regions are placed is C91, and that the copies and selectors of the table are these is C92. The values of advice are known,
as they are for the prover. The expressions of gates are written as their values (C70). Rotations are not negative. `none` is undefined
behaviour. -/
namespace Tachyon.Examples

variable {F : Type} [Field F] [DecidableEq F]

/-- What is copied: a cell of advice, a cell of an instance column or a constant. -/
inductive Ref (F : Type)
  | cell (region col offset : ℕ)
  | inst (col row : ℕ)
  | const (c : F)

/-- `AssignedCell` (assigned_cell.h:46-47). -/
structure Cell (F : Type) where
  region : ℕ
  col : ℕ
  offset : ℕ
  value : F

def Cell.ref (c : Cell F) : Ref F := .cell c.region c.col c.offset

/-- What a circuit does with the layouter: the number of regions, the selectors that are enabled (number, region and offset), the advice and
the copies. -/
structure Layout (F : Type) where
  regions : ℕ
  enabled : List (ℕ × ℕ × ℕ)
  advice : ℕ → ℕ → ℕ → F
  copies : List (Ref F × Ref F)

def Layout.new : Layout F := ⟨0, [], fun _ _ _ => 0, []⟩

/-- `AssignRegion`: the number of the region. -/
def Layout.region (l : Layout F) : ℕ × Layout F := (l.regions, { l with regions := l.regions + 1 })

/-- `Selector::Enable` (region.h:94-97). -/
def Layout.enable (l : Layout F) (sel region offset : ℕ) : Layout F := { l with enabled := l.enabled ++ [(sel, region, offset)] }

/-- `AssignAdvice` (region.h:39-49). -/
def Layout.assign (l : Layout F) (region col offset : ℕ) (v : F) : Cell F × Layout F :=
  (⟨region, col, offset, v⟩, { l with advice := fun r c o => if r = region ∧ c = col ∧ o = offset then v else l.advice r c o })

/-- `ConstrainEqual`, `ConstrainInstance` and `ConstrainConstant` (region.h:80-87). -/
def Layout.copy (l : Layout F) (a b : Ref F) : Layout F := { l with copies := l.copies ++ [(a, b)] }

/-- `AssignAdviceFromInstance` (region.h:59-66). -/
def Layout.fromInstance (l : Layout F) (inst : ℕ → ℕ → F) (icol row region col offset : ℕ) : Cell F × Layout F :=
  let r := l.assign region col offset (inst icol row)
  (r.1, r.2.copy r.1.ref (.inst icol row))

/-- `AssignAdviceFromConstant` (region.h:51-57). -/
def Layout.fromConstant (l : Layout F) (c : F) (region col offset : ℕ) : Cell F × Layout F :=
  let r := l.assign region col offset c
  (r.1, r.2.copy r.1.ref (.const c))

/-- `CopyAdvice` (region.h:99-108). -/
def Layout.copyAdvice (l : Layout F) (x : Cell F) (region col offset : ℕ) : Cell F × Layout F :=
  let r := l.assign region col offset x.value
  (r.1, r.2.copy r.1.ref x.ref)

/-! ### `Fibonacci1Circuit` -/

/-- The gate (fibonacci1_circuit.h:59-76): from the selectors and the advice at a column and a rotation. -/
def fib1Gates (s : ℕ → F) (q : ℕ → ℕ → F) : List F := [s 0 * (q 0 0 + q 1 0 - q 2 0)]

/-- `AssignFirstRow` (fibonacci1_circuit.h:82-99): the second and the third cell. -/
def fib1First (inst : ℕ → ℕ → F) (l : Layout F) : Cell F × Cell F × Layout F :=
  let r := l.region
  let l := r.2.enable 0 r.1 0
  let a := l.fromInstance inst 0 0 r.1 0 0
  let b := a.2.fromInstance inst 0 1 r.1 1 0
  let c := b.2.assign r.1 2 0 (a.1.value + b.1.value)
  (b.1, c.1, c.2)

/-- `AssignRow` (fibonacci1_circuit.h:101-122). -/
def fib1Row (l : Layout F) (prevB prevC : Cell F) : Cell F × Layout F :=
  let r := l.region
  let l := r.2.enable 0 r.1 0
  let a := l.copyAdvice prevB r.1 0 0
  let b := a.2.copyAdvice prevC r.1 1 0
  b.2.assign r.1 2 0 (a.1.value + b.1.value)

/-- The loop (fibonacci1_circuit.h:157-162) with `n` iterations. -/
def fib1Loop : ℕ → Layout F → Cell F → Cell F → Cell F × Layout F
  | 0, l, _, prevC => (prevC, l)
  | n + 1, l, prevB, prevC => fib1Loop n (fib1Row l prevB prevC).2 prevC (fib1Row l prevB prevC).1

/-- `Synthesize` (fibonacci1_circuit.h:147-165) with `n` iterations, which are seven in the code. -/
def fib1 (inst : ℕ → ℕ → F) (n : ℕ) : Layout F :=
  let f := fib1First inst Layout.new
  let r := fib1Loop n f.2.2 f.1 f.2.1
  r.2.copy r.1.ref (.inst 0 2)

/-! ### `Fibonacci2Circuit` -/

/-- The gate (fibonacci2_circuit.h:41-58). -/
def fib2Gates (s : ℕ → F) (q : ℕ → ℕ → F) : List F := [s 0 * (q 0 0 + q 0 1 - q 0 2)]

/-- The loop (fibonacci2_circuit.h:76-88) from `row` on, with `n` iterations; the region is the first one. -/
def fib2Loop (rows : ℕ) : ℕ → ℕ → Layout F → Cell F → Cell F → Cell F × Layout F
  | 0, _, l, _, b => (b, l)
  | n + 1, row, l, a, b =>
    let l := if row < rows - 2 then l.enable 0 0 row else l
    let c := l.assign 0 0 row (a.value + b.value)
    fib2Loop rows n (row + 1) c.2 b c.1

/-- `Synthesize` (fibonacci2_circuit.h:119-127) with `Assign` (fibonacci2_circuit.h:63-92) for a number of rows, which is ten in the code. -/
def fib2 (inst : ℕ → ℕ → F) (rows : ℕ) : Layout F :=
  let r := Layout.new.region
  let l := (r.2.enable 0 r.1 0).enable 0 r.1 1
  let a := l.fromInstance inst 0 0 r.1 0 0
  let b := a.2.fromInstance inst 0 1 r.1 0 1
  let out := fib2Loop rows (rows - 2) 2 b.2 a.1 b.1
  out.2.copy out.1.ref (.inst 0 2)

/-! ### `IsZeroChip` and `Fibonacci3Circuit` -/

/-- `expr` of the chip (is_zero_chip.h:68-69) from value and inverse. -/
def isZeroExpr (value valueInv : F) : F := 1 - value * valueInv

/-- The gate (is_zero_chip.h:70-72). -/
def isZeroGate (q value valueInv : F) : F := q * value * isZeroExpr value valueInv

/-- `Assign` (is_zero_chip.h:78-83): where the value has no inverse an empty `optional` is written through and read. -/
def isZeroAssign (l : Layout F) (region col offset : ℕ) (value : F) : Option (Layout F) :=
  if value = 0 then none else some (l.assign region col offset value⁻¹).2

/-- The gates (fibonacci3_circuit.h:45-97); columns `a`, `b`, `c`, `output` and that of the inverse. -/
def fib3Gates (s : ℕ → F) (q : ℕ → ℕ → F) : List F :=
  [isZeroGate (s 0) (q 0 0 - q 1 0) (q 4 0),
   s 0 * (isZeroExpr (q 0 0 - q 1 0) (q 4 0) * (q 3 0 - q 2 0)),
   s 0 * (1 - isZeroExpr (q 0 0 - q 1 0) (q 4 0)) * (q 3 0 - (q 0 0 - q 1 0))]

/-- `Synthesize` (fibonacci3_circuit.h:154-158) with `Assign` (fibonacci3_circuit.h:103-129). -/
def fib3 (a b c : F) : Option (Layout F) :=
  let r := Layout.new.region
  let l := r.2.enable 0 r.1 0
  let l := (l.assign r.1 0 0 a).2
  let l := (l.assign r.1 1 0 b).2
  let l := (l.assign r.1 2 0 c).2
  (isZeroAssign l r.1 4 0 (a - b)).map fun l => (l.assign r.1 3 0 (if a = b then c else a - b)).2

/-! ### `SimpleCircuit` -/

/-- The gate (simple_circuit.h:74-109). -/
def simpleGates (s : ℕ → F) (q : ℕ → ℕ → F) : List F := [s 0 * (q 0 0 * q 1 0 - q 0 1)]

/-- `LoadPrivate` (simple_circuit.h:114-123). -/
def loadPrivate (l : Layout F) (v : F) : Cell F × Layout F := let r := l.region; r.2.assign r.1 0 0 v

/-- `LoadConstant` (simple_circuit.h:125-133). -/
def loadConstant (l : Layout F) (c : F) : Cell F × Layout F := let r := l.region; r.2.fromConstant c r.1 0 0

/-- `Mul` (simple_circuit.h:135-161). -/
def mul (l : Layout F) (a b : Cell F) : Cell F × Layout F :=
  let r := l.region
  let l := r.2.enable 0 r.1 0
  let l := (l.copyAdvice a r.1 0 0).2
  let l := (l.copyAdvice b r.1 1 0).2
  l.assign r.1 0 1 (a.value * b.value)

/-- `Synthesize` (simple_circuit.h:199-233). -/
def simple (constant a b : F) : Layout F :=
  let a := loadPrivate Layout.new a
  let b := loadPrivate a.2 b
  let k := loadConstant b.2 constant
  let ab := mul k.2 a.1 b.1
  let absq := mul ab.2 ab.1 ab.1
  let c := mul absq.2 k.1 absq.1
  c.2.copy c.1.ref (.inst 0 0)

end Tachyon.Examples
