import Mathlib.Data.List.Basic
import Mathlib.Data.Int.Basic
/-! `ChunkedIterator` (`base/containers/chunked_iterator.h`) over a list of `size` elements. An iterator of the underlying container is an index. -/
namespace Tachyon.Chunked

/-- `ChunkedIterator` (chunked_iterator.h:98-102). -/
structure It where
  current : ℕ
  offset : ℕ
  chunk : ℕ
  size : ℕ
  len : ℕ

/-- `ChunkedBegin` (chunked_iterator.h:35-39, :106-111). -/
def begin (n chunk : ℕ) : It := ⟨0, 0, chunk, n, min chunk n⟩

/-- `ChunkedEnd` (chunked_iterator.h:30-34, :113-117). -/
def finish (n chunk : ℕ) : It := ⟨n, 0, chunk, 0, 0⟩

/-- `operator==` (chunked_iterator.h:44-46). -/
def It.eq (a b : It) : Bool := a.current == b.current

/-- `operator++` (chunked_iterator.h:53-65); `none` is `ValueOrDie` on an overflow of `size_t`. -/
def It.next (it : It) : Option It :=
  let offset := it.offset + it.len
  if 2 ^ 64 ≤ offset + it.chunk then none
  else some ⟨it.current + it.len, offset, it.chunk, it.size, if offset + it.chunk > it.size then it.size - offset else it.chunk⟩

/-- `operator-` (chunked_iterator.h:73-75): the difference of the indices is added and divided as `size_t`, and the result is a signed number; `none` is a
division by zero. -/
def It.sub (a b : It) : Option ℤ :=
  if a.chunk = 0 then none
  else
    let q := (((a.current : ℤ) - b.current + a.chunk - 1) % 2 ^ 64).toNat / a.chunk
    some (if q < 2 ^ 63 then (q : ℤ) else (q : ℤ) - 2 ^ 64)

/-- `operator*` (chunked_iterator.h:89-92). -/
def It.deref {α : Type} (it : It) (l : List α) : List α := (l.drop it.current).take it.len

/-- How a loop over the chunks ends. -/
inductive Outcome (α : Type)
  | done (chunks : List (List α))
  | died
  | running
  deriving DecidableEq

/-- `for (it = ChunkedBegin(l, chunk); it != ChunkedEnd(l, chunk); ++it)` (adapters.h:50-51), at most `fuel` rounds: the chunks it has seen. -/
def loop {α : Type} (l : List α) (stop : It) : ℕ → It → List (List α) → Outcome α
  | 0, _, _ => .running
  | fuel + 1, it, acc =>
    if it.eq stop then .done acc
    else match it.next with
      | none => .died
      | some it' => loop l stop fuel it' (acc ++ [it.deref l])

def chunks {α : Type} (fuel : ℕ) (l : List α) (chunk : ℕ) : Outcome α := loop l (finish l.length chunk) fuel (begin l.length chunk) []

end Tachyon.Chunked
