import Mathlib.Data.List.Basic
import Mathlib.Data.Int.Notation
/-! `Zipped` (`base/containers/adapters.h`, `base/containers/zipped_iterator.h`) in a `for` loop over two vectors. Iterators are indices; to read at or beyond
an end is `none`. -/
namespace Tachyon.Zipped

variable {α β : Type}

/-- `current_` and `current2_` (zipped_iterator.h:77-78). -/
structure It where
  a : ℕ
  b : ℕ
  deriving DecidableEq

/-- `ZippedBegin` (zipped_iterator.h:82-87). -/
def begin : It := ⟨0, 0⟩

/-- `ZippedEnd` (zipped_iterator.h:89-94). -/
def finish (l : List α) (r : List β) : It := ⟨l.length, r.length⟩

/-- `operator==` (zipped_iterator.h:31-33). -/
def It.eq (i j : It) : Bool := i.a == j.a && i.b == j.b

/-- `operator++` (zipped_iterator.h:40-44). -/
def It.next (i : It) : It := ⟨i.a + 1, i.b + 1⟩

/-- `operator*` (zipped_iterator.h:66-74). -/
def It.deref (l : List α) (r : List β) (i : It) : Option (α × β) := l[i.a]?.bind fun x => r[i.b]?.map fun y => (x, y)

/-- `operator-` (zipped_iterator.h:52-54). -/
def It.sub (i j : It) : ℤ := (i.a : ℤ) - j.a

/-- The loop: `none` if it has not ended in `fuel` rounds, `some none` if it reads beyond an end, else what it has seen. -/
def loop (l : List α) (r : List β) : ℕ → It → Option (Option (List (α × β)))
  | 0, i => if i.eq (finish l r) then some (some []) else none
  | fuel + 1, i =>
    if i.eq (finish l r) then some (some [])
    else
      match i.deref l r with
      | none => some none
      | some x => (loop l r fuel i.next).map fun t => t.map (x :: ·)

/-- `for (auto x : Zipped(l, r))` (adapters.h:58-72, :119-122). -/
def forEach (fuel : ℕ) (l : List α) (r : List β) : Option (Option (List (α × β))) := loop l r fuel begin

end Tachyon.Zipped
