import Verif.Model.FloorPlan
import Mathlib.Data.List.Dedup
/-! What floor planners have to do (C91). -/
namespace Tachyon.FloorPlan

section
variable {C V : Type}

/-- The rows `[r, r + len)` are free of the allocated intervals. -/
def Free (l : List Alloc) (r len : Nat) : Prop := ∀ a ∈ l, r + len ≤ a.start ∨ a.start + a.length ≤ r

/-- The region writes to the column. -/
def Region.Uses (r : Region C V) (c : C) : Prop := ∃ w ∈ r.writes, w.column = c

/-- The number of rows of a region: the largest offset plus one, or zero. -/
def Region.height (r : Region C V) : Nat := (r.writes.map fun w => w.offset + 1).foldr max 0

/-- The number of advice columns of a region times its rows. -/
def Region.area [DecidableEq C] (advice : C → Bool) (r : Region C V) : Nat :=
  (((r.writes.map Write.column).dedup).filter advice).length * r.height

/-- Two regions with these starts do not share a row of a column. -/
def Apart (s : Nat) (r : Region C V) (s' : Nat) (r' : Region C V) : Prop :=
  ∀ c, r.Uses c → r'.Uses c → s + r.height ≤ s' ∨ s' + r'.height ≤ s

/-- The row `x` of the column `c` is in the rectangle of the region. -/
def Covers (s : Nat) (r : Region C V) (c : C) (x : Nat) : Prop := r.Uses c ∧ s ≤ x ∧ x < s + r.height

/-- All cells that the region refers to belong to one of the first `n` regions. -/
def Region.Below (n : Nat) (r : Region C V) : Prop :=
  (∀ p ∈ r.equal, p.1.region < n ∧ p.2.region < n) ∧ ∀ k ∈ r.consts, k.2.region < n

/-- Where a cell is. -/
def place (starts : List Nat) (c : Cell C) : C × Nat := (c.column, starts.getD c.region 0 + c.offset)

/-- What a region with this start has to do: its writes from the start on, and copies between the places of the cells. -/
def regionOut (starts : List Nat) (s : Nat) (r : Region C V) : Out C V :=
  ⟨r.writes.map fun w => ((w.column, s + w.offset), w.value), r.equal.map fun p => (place starts p.1, place starts p.2)⟩

/-- What the constants have to do at these cells. -/
def constOut (starts : List Nat) (cells : List (C × Nat)) (consts : List (V × Cell C)) : Out C V :=
  ⟨List.zipWith (fun x k => (x, k.1)) cells consts, List.zipWith (fun x k => (x, place starts k.2)) cells consts⟩

/-- In column `c` the rows from `x` on are behind everything that was done: the rectangles of regions with their starts and
the constants. -/
def Behind (done : List (Nat × Region C V × Out C V)) (c : C) (x : Nat) : Prop :=
  ∀ e ∈ done, (e.2.1.Uses c → e.1 + e.2.1.height ≤ x) ∧ ∀ k ∈ e.2.2.writes, k.1.1 = c → k.1.2 < x

/-- What the first pass of the planner achieves: a start for each region, the regions are apart, and there is an order of them with
descending advice areas in which each start is the least row that is apart from the regions before it. -/
structure V1Plan [DecidableEq C] (advice : C → Bool) (regions : List (Region C V)) (starts : List Nat) : Prop where
  length : starts.length = regions.length
  apart : (starts.zip regions).Pairwise fun x y => Apart x.1 x.2 y.1 y.2
  least : ∃ order : List (Nat × Region C V), order.Perm (starts.zip regions) ∧
    (order.Pairwise fun x y => y.2.area advice ≤ x.2.area advice) ∧
    ∀ l y r, order = l ++ y :: r → ∀ x, (∀ z ∈ l, Apart x y.2 z.1 z.2) → y.1 ≤ x

/-- What the layouter does with a region, if this has been done before. -/
def SingleStep (cols : List C) (starts : List Nat) (done : List (Nat × Region C V × Out C V)) (s : Nat) (r : Region C V)
    (o k : Out C V) : Prop :=
  o = regionOut starts s r ∧ (∀ x, s ≤ x ↔ ∀ c, r.Uses c → Behind done c x) ∧
    match cols with
    | [] => k = ⟨[], []⟩
    | c :: _ => ∃ n, (∀ x, n ≤ x ↔ Behind (done ++ [(s, r, ⟨[], []⟩)]) c x) ∧
        k = constOut starts ((List.range' n r.consts.length).map fun row => (c, row)) r.consts

end
end Tachyon.FloorPlan
