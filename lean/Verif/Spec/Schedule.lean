import Mathlib.Logic.Function.Basic
import Mathlib.Data.Set.Basic
/-!
# Interleavings of threads

A thread is the list of its atomic steps on a shared array. An execution of several threads is any
interleaving of their steps.
-/
namespace Tachyon.Schedule

variable {α ι : Type*}

/-- Shared memory: one cell per index. -/
abbrev Mem (α : Type*) := ℕ → α

/-- The step reads and writes cells of `r` only. -/
def LocalTo (r : Set ℕ) (f : Mem α → Mem α) : Prop :=
  (∀ s i, i ∉ r → f s i = s i) ∧ ∀ s s', (∀ i ∈ r, s i = s' i) → ∀ i ∈ r, f s i = f s' i

/-- Run steps in order. -/
def run (l : List (Mem α → Mem α)) (s : Mem α) : Mem α := l.foldl (fun s f => f s) s

/-- `l` is an interleaving of the threads' programs. -/
inductive Interleaves [DecidableEq ι] : (ι → List (Mem α → Mem α)) → List (Mem α → Mem α) → Prop
  | done {P} : (∀ i, P i = []) → Interleaves P []
  | step {P} (i f tail l) : P i = f :: tail → Interleaves (Function.update P i tail) l →
      Interleaves P (f :: l)

end Tachyon.Schedule
