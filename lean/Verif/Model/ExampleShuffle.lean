import Verif.Model.ExampleCircuits
/-! `ShuffleCircuit` (`zk/plonk/examples/shuffle_circuit.h`) for any width from one on and any height. As in `Verif.Model.ExampleCircuits` a row is
a region and an offset; there is one region. Columns `0..w-1` are the original ones, `w..2w-1` the shuffled ones and `2w` is `z`; selector 0 is
`q_shuffle`, 1 is `q_first` and 2 is `q_last`. A table is a function of column and row. -/
namespace Tachyon.Examples

variable {F : Type} [Field F] [DecidableEq F]

/-- The compression in the gate (shuffle_circuit.h:138-154). -/
def gateCompress (theta : F) (w : ℕ) (e : ℕ → F) : F := (List.range (w - 1)).foldl (fun acc i => acc * theta + e (i + 1)) (e 0)

/-- The gates (shuffle_circuit.h:84-170). -/
def shuffleGates (w : ℕ) (theta gamma : F) (s : ℕ → F) (q : ℕ → ℕ → F) : List F :=
  [s 1 * (1 - q (2 * w) 0), s 2 * (1 - q (2 * w) 0),
   s 0 * (q (2 * w) 0 * (gateCompress theta w (fun i => q i 0) + gamma) -
     q (2 * w) 1 * (gateCompress theta w (fun i => q (w + i) 0) + gamma))]

/-- The compression of the prover (shuffle_circuit.h:268-276, :282-288). -/
def proverCompress (theta : F) (w : ℕ) (e : ℕ → F) : F := (List.range w).foldl (fun acc i => acc * theta + e i) 0

/-- A vector: how many elements it has, and the memory it holds, which is as long as its capacity. -/
structure ZVec (F : Type) where
  size : ℕ
  mem : List F

/-- `reserve` on an empty vector (shuffle_circuit.h:263-264): memory, but no elements. Its contents are unspecified; here they are zeros. -/
def ZVec.reserve (n : ℕ) : ZVec F := ⟨0, List.replicate n 0⟩

/-- How far indices may go: to the size where they are checked, and to the end of the memory where they are not. -/
def ZVec.limit (checked : Bool) (v : ZVec F) : ℕ := if checked then v.size else v.mem.length

/-- `v[i]` read. -/
def ZVec.get (checked : Bool) (v : ZVec F) (i : ℕ) : Option F := if i < v.limit checked then v.mem[i]? else none

/-- `v[i]` assigned. -/
def ZVec.set (checked : Bool) (v : ZVec F) (i : ℕ) (x : F) : Option (ZVec F) := if i < v.limit checked then some ⟨v.size, v.mem.set i x⟩ else none

/-- The quotients (shuffle_circuit.h:266-290); `BatchInverseInPlace` leaves zeros, as `⁻¹` does. -/
def shuffleProduct (w : ℕ) (theta gamma : F) (orig shuf : ℕ → ℕ → F) (i : ℕ) : F :=
  (proverCompress theta w (fun c => shuf c i) + gamma)⁻¹ * (proverCompress theta w (fun c => orig c i) + gamma)

/-- The column `z` (shuffle_circuit.h:263-264, :292-295). -/
def shuffleZ (checked : Bool) (w h : ℕ) (theta gamma : F) (orig shuf : ℕ → ℕ → F) : Option (ZVec F) :=
  ((ZVec.reserve (h + 1)).set checked 0 1).bind fun z => (List.range h).foldlM (fun z i =>
    (z.get checked i).bind fun x => z.set checked (i + 1) (x * shuffleProduct w theta gamma orig shuf i)) z

/-- `Synthesize` (shuffle_circuit.h:221-305) with known challenges. -/
def shuffle (checked : Bool) (w h : ℕ) (theta gamma : F) (orig shuf : ℕ → ℕ → F) : Option (Layout F) :=
  (shuffleZ checked w h theta gamma orig shuf).bind fun z => some
    { regions := 1
      enabled := [(1, 0, 0), (2, 0, h)] ++ (List.range h).map fun i => (0, 0, i)
      advice := fun r c o =>
        if r ≠ 0 then 0
        else if c < w then if o < h then orig c o else 0
        else if c < 2 * w then if o < h then shuf (c - w) o else 0
        else if c = 2 * w ∧ o < h + 1 then z.mem.getD o 0 else 0
      copies := [] }

end Tachyon.Examples
