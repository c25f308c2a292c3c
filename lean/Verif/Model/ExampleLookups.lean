import Mathlib.Algebra.Field.Defs
import Mathlib.Data.List.Basic
/-! `SimpleLookupCircuit` (`zk/plonk/examples/simple_lookup_circuit.h`), `ShuffleAPICircuit` (`zk/plonk/examples/shuffle_api_circuit.h`) and
`MultiLookupCircuit` (`zk/plonk/examples/multi_lookup_circuit.h`). There are `u` usable rows; where a region starts is a parameter (C91). What a
lookup and a shuffle argument ask of the values of their expressions in these rows is C67 and C68: that the inputs are among the table, and that the
rows of one are those of the other in some order. `none` is a failed `CHECK` or undefined behaviour. -/
namespace Tachyon.Examples

variable {F : Type} [Field F] [DecidableEq F]

/-- `SimpleLookupConfig::Load` (simple_lookup_circuit.h:42-53). -/
def simpleTable (bits : ℕ) : List F := (List.range (1 <<< bits)).map fun row => ((row + 1 : ℕ) : F)

/-- The table's column: rows that are not assigned hold the first value (simple_lookup_circuit.h:44; C92). It must fit in the usable rows. -/
def tableColumn (u : ℕ) (t : List F) : Option (List F) :=
  if t.length ≤ u then t[0]?.map fun d => t ++ List.replicate (u - t.length) d else none

/-- The input expression (simple_lookup_circuit.h:83-94). -/
def simpleInput (selector advice : F) : F := selector * advice + (1 - selector)

/-- `SimpleLookupCircuit::Synthesize` (simple_lookup_circuit.h:101-115): the selector and the advice in the usable rows, and the table's column. -/
def simpleLookup (bits k u start : ℕ) : Option ((ℕ → F) × (ℕ → F) × List F) :=
  (tableColumn u (simpleTable bits)).bind fun table =>
    if start + 1 <<< k ≤ u then
      some (fun row => if start ≤ row ∧ row < start + 1 <<< k then 1 else 0,
        fun row => if start ≤ row ∧ row < start + 1 <<< k then (((row - start) % 1 <<< bits + 1 : ℕ) : F) else 0, table)
    else none

/-- `ShuffleAPICircuit`'s members (shuffle_api_circuit.h:150-153). -/
structure ShuffleApi (F : Type) where
  input0 : List F
  input1 : List F
  shuffle0 : List F
  shuffle1 : List F

/-- A vector moved from: its elements, and what is left. -/
def moveFrom {α : Type} (l : List α) : List α × List α := (l, [])

/-- The constructor (shuffle_api_circuit.h:101-109). -/
def ShuffleApi.new (input0 input1 shuffle0 shuffle1 : List F) : Option (ShuffleApi F) :=
  let m0 := moveFrom input0
  let m1 := moveFrom input1
  let c := ShuffleApi.mk m0.1 m1.1 (moveFrom shuffle0).1 (moveFrom shuffle1).1
  if m0.2.length = m1.2.length then some c else none

/-- The columns of `ShuffleAPICircuit` in the usable rows: advice `input_0`, `shuffle_0` and `shuffle_1`, the fixed `input_1` and the selectors. -/
structure ShuffleApiColumns (F : Type) where
  input0 : ℕ → F
  input1 : ℕ → F
  shuffle0 : ℕ → F
  shuffle1 : ℕ → F
  sInput : ℕ → F
  sShuffle : ℕ → F

/-- A column in which a region at `start` assigns these values. -/
def regionColumn (start : ℕ) (values : List F) : ℕ → F := fun row => if start ≤ row then values.getD (row - start) 0 else 0

/-- `Synthesize` (shuffle_api_circuit.h:125-147): the loops read the second lists at the indices of the first. -/
def ShuffleApi.synthesize (c : ShuffleApi F) (u startInput startShuffle : ℕ) : Option (ShuffleApiColumns F) :=
  ((List.range c.input0.length).mapM fun i => c.input1[i]?).bind fun input1 =>
    ((List.range c.shuffle0.length).mapM fun i => c.shuffle1[i]?).bind fun shuffle1 =>
      if startInput + c.input0.length ≤ u ∧ startShuffle + c.shuffle0.length ≤ u then
        some ⟨regionColumn startInput c.input0, regionColumn startInput input1, regionColumn startShuffle c.shuffle0,
          regionColumn startShuffle shuffle1, regionColumn startInput (List.replicate c.input0.length 1),
          regionColumn startShuffle (List.replicate c.shuffle0.length 1)⟩
      else none

/-- The expressions of the shuffle (shuffle_api_circuit.h:59-81) in the usable rows: the inputs and the shuffled ones. -/
def ShuffleApiColumns.inputs (c : ShuffleApiColumns F) (u : ℕ) : List (F × F) :=
  (List.range u).map fun r => (c.sInput r * c.input0 r, c.sInput r * c.input1 r)

def ShuffleApiColumns.shuffles (c : ShuffleApiColumns F) (u : ℕ) : List (F × F) :=
  (List.range u).map fun r => (c.sShuffle r * c.shuffle0 r, c.sShuffle r * c.shuffle1 r)

/-- The fixed columns of `MultiLookupCircuit` in a row. -/
structure MultiFixed (F : Type) where
  sa : F
  sb : F
  sc : F
  sf : F
  sm : F
  sp : F

/-- The columns of advice of `MultiLookupCircuit` in a row. -/
structure MultiAdvice (F : Type) where
  a : F
  b : F
  c : F
  d : F
  e : F

/-- The gates (multi_lookup_circuit.h:138-186) at a row, with the rows before and after it and the instance. -/
def multiGates (f : MultiFixed F) (prev cur next : MultiAdvice F) (p : F) : List F :=
  [cur.a * f.sa + cur.b * f.sb + cur.a * cur.b * f.sm - cur.c * f.sc + f.sf * (next.d * prev.e), f.sp * (cur.a - p)]

/-- Rows that have not been assigned. -/
def MultiFixed.zero : MultiFixed F := ⟨0, 0, 0, 0, 0, 0⟩

def MultiAdvice.zero : MultiAdvice F := ⟨0, 0, 0, 0, 0⟩

/-- `PublicInput` (multi_lookup_circuit.h:222-229), `RawMultiply` (:231-267) and `RawAdd` (:269-304): regions of one row. -/
def multiPublic (value : F) : MultiFixed F × MultiAdvice F := ({ MultiFixed.zero with sp := 1 }, { MultiAdvice.zero with a := value })

def multiRaw (mul : Bool) (lhs rhs out : F) : MultiFixed F × MultiAdvice F :=
  (if mul then ⟨0, 0, 1, 0, 1, 0⟩ else ⟨1, 1, 1, 0, 0, 0⟩, ⟨lhs, rhs, out, lhs ^ 4, rhs ^ 4⟩)

/-- A cell: the number of a region with a row, and the column (`0` to `2` for `a` to `c`). -/
abbrev MultiCell := ℕ × Fin 3

/-- `Synthesize` (multi_lookup_circuit.h:348-377) with `n` times what the code does ten times: the regions with a row, and the copies. `Copy` states each twice
(:306-311). -/
def multiLookup (n : ℕ) (x : F) : List (MultiFixed F × MultiAdvice F) × List (MultiCell × MultiCell) :=
  (List.range n).foldl (fun s i =>
    (s.1 ++ [multiRaw true x x (x * x), multiRaw false x (x * x) (x * x + x)],
      s.2 ++ [((2 * i + 1, 0), (2 * i + 2, 0)), ((2 * i + 1, 0), (2 * i + 2, 0)), ((2 * i + 2, 1), (2 * i + 1, 2)), ((2 * i + 2, 1), (2 * i + 1, 2))]))
    ([multiPublic (1 + 1)], [])

def MultiAdvice.cell (v : MultiAdvice F) : Fin 3 → F
  | 0 => v.a
  | 1 => v.b
  | 2 => v.c

end Tachyon.Examples
