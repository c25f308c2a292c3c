import Mathlib.Data.List.Basic
/-! `circular_deque` (`base/containers/circular_deque.h`): a deque in a ring of memory, which `base::stack` is built on. A slot of the memory holds an object or
not; to read, move or destroy what is not there, to make an object where there is one and to go beyond the memory is `none`. Iterators, insertion and
removal in the middle and the sizes at which `size_t` overflows are not modelled. -/
namespace Tachyon.Deque

variable {α : Type}

/-- `buffer_` with its capacity, `begin_` and `end_` (circular_deque.h:413-416). -/
structure Deque (α : Type) where
  cap : ℕ
  mem : ℕ → Option α
  b : ℕ
  e : ℕ

/-- The default constructor (circular_deque.h:435). -/
def Deque.new : Deque α := ⟨0, fun _ => none, 0, 0⟩

/-- `size` (circular_deque.h:633-637). -/
def Deque.size (d : Deque α) : ℕ := if d.b ≤ d.e then d.e - d.b else d.cap - d.b + d.e

/-- `capacity` (circular_deque.h:604-607). -/
def Deque.capacity (d : Deque α) : ℕ := if d.cap = 0 then 0 else d.cap - 1

/-- `empty` (circular_deque.h:631). -/
def Deque.empty (d : Deque α) : Bool := d.b == d.e

/-- An object made in a slot. -/
def Deque.construct (d : Deque α) (i : ℕ) (x : α) : Option (Deque α) :=
  if i < d.cap ∧ (d.mem i).isNone then some { d with mem := fun j => if j = i then some x else d.mem j } else none

/-- `DestructRange` for one slot (vector_buffer.h:107-116). -/
def Deque.destroy (d : Deque α) (i : ℕ) : Option (Deque α) :=
  if i < d.cap ∧ (d.mem i).isSome then some { d with mem := fun j => if j = i then none else d.mem j } else none

/-- `at` (circular_deque.h:530-536), with its `DCHECK`. -/
def Deque.at (d : Deque α) (i : ℕ) : Option α :=
  if i < d.size then
    let right := d.cap - d.b
    let slot := if d.b ≤ d.e ∨ i < right then d.b + i else i - right
    if slot < d.cap then d.mem slot else none
  else none

/-- `front` (circular_deque.h:547-550). -/
def Deque.front (d : Deque α) : Option α := if d.empty then none else if d.b < d.cap then d.mem d.b else none

/-- `back` (circular_deque.h:556-559). -/
def Deque.back (d : Deque α) : Option α :=
  if d.empty then none
  else
    let slot := if d.e = 0 then d.cap - 1 else d.e - 1
    if slot < d.cap then d.mem slot else none

/-- `MoveBuffer` (circular_deque.h:925-952): the new memory and the new end. -/
def Deque.moved (d : Deque α) : (ℕ → Option α) × ℕ :=
  if d.b < d.e then (fun i => if i < d.e - d.b then d.mem (d.b + i) else none, d.e - d.b)
  else if d.e < d.b then
    let right := d.cap - d.b
    (fun i => if i < right then d.mem (d.b + i) else if i < right + d.e then d.mem (i - right) else none, right + d.e)
  else (fun _ => none, 0)

/-- `SetCapacityTo` (circular_deque.h:956-962). -/
def Deque.setCapacityTo (d : Deque α) (n : ℕ) : Option (Deque α) :=
  let m := d.moved
  if m.2 ≤ n + 1 ∧ ∀ i ∈ List.range m.2, (m.1 i).isSome then some ⟨n + 1, m.1, 0, m.2⟩ else none

/-- `kCircularBufferInitialCapacity` (circular_deque.h:135). -/
def initialCapacity : ℕ := 3

/-- `ExpandCapacityIfNecessary` (circular_deque.h:963-977). -/
def Deque.expand (d : Deque α) (additional : ℕ) : Option (Deque α) :=
  let minNew := d.size + additional
  if minNew ≤ d.capacity then some d
  else d.setCapacityTo (max (max minNew initialCapacity) (d.capacity + d.capacity / 4))

/-- `ShrinkCapacityIfNecessary` (circular_deque.h:979-998). -/
def Deque.shrink (d : Deque α) : Option (Deque α) :=
  if d.capacity ≤ initialCapacity then some d
  else
    let sz := d.size
    if d.capacity - sz < sz then some d
    else
      let n := max initialCapacity (sz + sz / 4)
      if n < d.capacity then d.setCapacityTo n else some d

/-- `emplace_front` (circular_deque.h:854-863). -/
def Deque.emplaceFront (d : Deque α) (x : α) : Option (Deque α) :=
  (d.expand 1).bind fun d =>
    let b := if d.b = 0 then d.cap - 1 else d.b - 1
    Deque.construct { d with b := b } b x

/-- `emplace_back` (circular_deque.h:866-875). -/
def Deque.emplaceBack (d : Deque α) (x : α) : Option (Deque α) :=
  (d.expand 1).bind fun d => (d.construct d.e x).map fun d => { d with e := if d.e = d.cap - 1 then 0 else d.e + 1 }

/-- `pop_front` (circular_deque.h:877-891). -/
def Deque.popFront (d : Deque α) : Option (Deque α) :=
  (d.destroy d.b).bind fun d => Deque.shrink { d with b := if d.b + 1 = d.cap then 0 else d.b + 1 }

/-- `pop_back` (circular_deque.h:892-904). -/
def Deque.popBack (d : Deque α) : Option (Deque α) :=
  let e := if d.e = 0 then d.cap - 1 else d.e - 1
  (Deque.destroy { d with e := e } e).bind Deque.shrink

/-- `reserve` (circular_deque.h:599-602). -/
def Deque.reserve (d : Deque α) (n : ℕ) : Option (Deque α) := if n > d.capacity then d.setCapacityTo n else some d

/-- `shrink_to_fit` (circular_deque.h:609-618). -/
def Deque.shrinkToFit (d : Deque α) : Option (Deque α) :=
  if d.empty then some (if d.cap ≠ 0 then { d with cap := 0, mem := fun _ => none } else d) else d.setCapacityTo d.size

/-- The slots that `DestructRange` goes through (circular_deque.h:1013-1022). -/
def Deque.slots (d : Deque α) (lo hi : ℕ) : List ℕ :=
  if hi = lo then []
  else if hi > lo then (List.range (hi - lo)).map (lo + ·)
  else (List.range (d.cap - lo)).map (lo + ·) ++ List.range hi

/-- `DestructRange` (circular_deque.h:1013-1022). -/
def Deque.destructRange (d : Deque α) (lo hi : ℕ) : Option (Deque α) :=
  if ∀ i ∈ d.slots lo hi, i < d.cap ∧ (d.mem i).isSome then some { d with mem := fun j => if j ∈ d.slots lo hi then none else d.mem j } else none

/-- `clear` (circular_deque.h:624-629, :1001-1008), which destroys all objects first. -/
def Deque.clear (d : Deque α) : Option (Deque α) := (d.destructRange d.b d.e).map fun _ => ⟨0, fun _ => none, 0, 0⟩

/-- The loop that adds elements (circular_deque.h:673-674), at most `fuel` rounds. -/
def Deque.grow (count : ℕ) (x : α) : ℕ → Deque α → Option (Deque α)
  | 0, d => if d.size < count then none else some d
  | fuel + 1, d => if d.size < count then (d.emplaceBack x).bind (Deque.grow count x fuel) else some d

/-- `resize` with a value (circular_deque.h:669-683). -/
def Deque.resize (d : Deque α) (count : ℕ) (x : α) : Option (Deque α) :=
  if count > d.size then (d.expand (count - d.size)).bind fun d => Deque.grow count x (count - d.size) d
  else if count < d.size then
    let newEnd := (d.b + count) % d.cap
    (d.destructRange newEnd d.e).bind fun d => Deque.shrink { d with e := newEnd }
  else some d

/-- What is done with a deque. -/
inductive Op (α : Type)
  | pushFront (x : α)
  | pushBack (x : α)
  | popFront
  | popBack
  | reserve (n : ℕ)
  | shrinkToFit
  | clear
  | resize (count : ℕ) (x : α)

def Deque.step (d : Deque α) : Op α → Option (Deque α)
  | .pushFront x => d.emplaceFront x
  | .pushBack x => d.emplaceBack x
  | .popFront => d.popFront
  | .popBack => d.popBack
  | .reserve n => d.reserve n
  | .shrinkToFit => d.shrinkToFit
  | .clear => d.clear
  | .resize n x => d.resize n x

def Deque.run (d : Deque α) : List (Op α) → Option (Deque α)
  | [] => some d
  | o :: os => (d.step o).bind fun d => d.run os

end Tachyon.Deque
