import Mathlib.Data.List.Basic
/-! `MaybeOwned` (`base/maybe_owned.h`) of a type without traits of its own: a value or a pointer to one elsewhere. A program has variables of this type, by
number, and memory outside them, which pointers point to; a construction is an assignment to a fresh variable. What `std::move` leaves of a value is not
known. -/
namespace Tachyon.MaybeOwned

variable {α : Type}

/-- Where a pointer points to: nowhere, to a place outside, or to `value_` of a variable. -/
inductive Ptr
  | null
  | ext (k : ℕ)
  | own (i : ℕ)
  deriving DecidableEq

/-- `value_`, `ptr_` and `owned_` (maybe_owned.h:98-100); `none` is a value that is not known. -/
structure Obj (α : Type) where
  value : Option α
  ptr : Ptr
  owned : Bool

/-- The variables and the memory outside. -/
structure State (α : Type) where
  obj : ℕ → Obj α
  mem : ℕ → α

def State.setObj (s : State α) (i : ℕ) (o : Obj α) : State α := { s with obj := fun j => if j = i then o else s.obj j }

/-- All variables constructed by default (maybe_owned.h:18). -/
def State.new (mem : ℕ → α) : State α := ⟨fun _ => ⟨none, .null, false⟩, mem⟩

/-- `UpdatePtr` (maybe_owned.h:90-96) of variable `i` with variable `j`. -/
def updatePtr (s : State α) (i j : ℕ) : State α :=
  if (s.obj i).owned then s.setObj i { s.obj i with ptr := .own i } else s.setObj i { s.obj i with ptr := (s.obj j).ptr }

/-- The assignment of a copy (maybe_owned.h:23-28; the constructor :19-22 is the same). -/
def copy (s : State α) (i j : ℕ) : State α :=
  let s := s.setObj i { s.obj i with value := (s.obj j).value }
  let s := s.setObj i { s.obj i with owned := (s.obj j).owned }
  updatePtr s i j

/-- The assignment by moving (maybe_owned.h:35-41; the constructor :29-34 is the same). -/
def move (s : State α) (i j : ℕ) : State α :=
  let v := (s.obj j).value
  let s := s.setObj i { s.obj i with value := v }
  let s := s.setObj j { s.obj j with value := none }
  let o := (s.obj j).owned
  let s := s.setObj j { s.obj j with owned := false }
  let s := s.setObj i { s.obj i with owned := o }
  let s := updatePtr s i j
  s.setObj j { s.obj j with ptr := .null }

/-- The assignment of a value (maybe_owned.h:61-72; the constructors :52-59 are the same). -/
def assignValue (s : State α) (i : ℕ) (x : α) : State α := s.setObj i ⟨some x, .own i, true⟩

/-- The assignment of a pointer to memory outside (maybe_owned.h:73-78; the constructor :60 is the same). -/
def assignPtr (s : State α) (i k : ℕ) : State α := s.setObj i { s.obj i with ptr := .ext k, owned := false }

/-- `operator*` (maybe_owned.h:80-81): `none` if the pointer is null or the value is not known. -/
def read (s : State α) (i : ℕ) : Option α :=
  match (s.obj i).ptr with
  | .null => none
  | .ext k => some (s.mem k)
  | .own j => (s.obj j).value

/-- An assignment through `operator*`: `none` if the pointer is null. -/
def write (s : State α) (i : ℕ) (x : α) : Option (State α) :=
  match (s.obj i).ptr with
  | .null => none
  | .ext k => some { s with mem := fun l => if l = k then x else s.mem l }
  | .own j => some (s.setObj j { s.obj j with value := some x })

/-- What a program does. -/
inductive Op (α : Type)
  | copy (i j : ℕ)
  | move (i j : ℕ)
  | value (i : ℕ) (x : α)
  | pointer (i k : ℕ)
  | write (i : ℕ) (x : α)

def step (s : State α) : Op α → Option (State α)
  | .copy i j => some (copy s i j)
  | .move i j => some (move s i j)
  | .value i x => some (assignValue s i x)
  | .pointer i k => some (assignPtr s i k)
  | .write i x => write s i x

def run : List (Op α) → State α → Option (State α)
  | [], s => some s
  | o :: os, s => (step s o).bind (run os)

end Tachyon.MaybeOwned
