import Mathlib.Data.List.Basic
/-! Ranges of integers: `base/range.h`, for types of at least the width of `int` (narrower ones are promoted in the sums and differences) and not
for floating point. `none` is an overflow of a signed type, or a loop that does not end in so many steps. -/
namespace Tachyon.Range

/-- A type of integers: the limits, and whether it is signed. -/
structure Ty where
  lo : Int
  hi : Int
  signed : Bool
  deriving DecidableEq

/-- The result of an operation: overflow of signed types is undefined, that of unsigned types wraps. -/
def Ty.wrap (t : Ty) (x : Int) : Option Int :=
  if t.lo ≤ x ∧ x ≤ t.hi then some x else if t.signed then none else some (x % (t.hi + 1))

/-- `Range` (range.h:19-24, :117-118). -/
structure Range where
  startIncl : Bool
  endIncl : Bool
  lower : Int
  upper : Int
  deriving DecidableEq

/-- `All` (range.h:117-123). -/
def all (t : Ty) (startIncl endIncl : Bool) : Range := ⟨startIncl, endIncl, t.lo, t.hi⟩

/-- `From` (range.h:125-129). -/
def starting (t : Ty) (startIncl endIncl : Bool) (a : Int) : Range := { all t startIncl endIncl with lower := a }

/-- `Until` (range.h:131-135). -/
def ending (t : Ty) (startIncl endIncl : Bool) (b : Int) : Range := { all t startIncl endIncl with upper := b }

/-- `begin` (range.h:137-143). -/
def Range.first (t : Ty) (r : Range) : Option Int := if r.startIncl then some r.lower else t.wrap (r.lower + 1)

/-- `end` (range.h:145-151). -/
def Range.last (t : Ty) (r : Range) : Option Int := if r.endIncl then t.wrap (r.upper + 1) else some r.upper

/-- A loop from one iterator to another (range.h:39-58) in at most `n` steps: the values that it visits. -/
def visit (t : Ty) : Nat → Int → Int → Option (List Int)
  | 0, cur, stop => if cur = stop then some [] else none
  | n + 1, cur, stop => if cur = stop then some [] else (t.wrap (cur + 1)).bind fun next => (visit t n next stop).map (cur :: ·)

/-- `for (T value : range)`. -/
def Range.elements (t : Ty) (n : Nat) (r : Range) : Option (List Int) :=
  (r.first t).bind fun a => (r.last t).bind fun b => visit t n a b

/-- `Intersect` (range.h:153-155). -/
def Range.intersect (r s : Range) : Range := { r with lower := max r.lower s.lower, upper := min r.upper s.upper }

/-- `IsEmpty` (range.h:174-180). -/
def Range.isEmpty (r : Range) : Bool := if r.startIncl && r.endIncl then r.lower > r.upper else r.lower ≥ r.upper

/-- `GetSize` (range.h:159-170); the result is a `size_t`. -/
def Range.size (t : Ty) (r : Range) : Option Int :=
  if r.isEmpty then some 0
  else (t.wrap (r.upper - r.lower)).bind fun d =>
    if r.startIncl && r.endIncl then (t.wrap (d + 1)).map (· % 2 ^ 64)
    else if r.startIncl || r.endIncl then some (d % 2 ^ 64)
    else (t.wrap (d - 1)).map (· % 2 ^ 64)

/-- `Contains` (range.h:183-193). -/
def Range.contains (r : Range) (v : Int) : Bool :=
  if r.startIncl && r.endIncl then r.lower ≤ v && v ≤ r.upper
  else if r.startIncl then r.lower ≤ v && v < r.upper
  else if r.endIncl then r.lower < v && v ≤ r.upper
  else r.lower < v && v < r.upper

end Tachyon.Range
