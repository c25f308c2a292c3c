import Mathlib.Logic.Function.Iterate
import Verif.Model.Challenger
/-!
# What a challenger computes

The mathematical description of an overwrite-mode duplex sponge, independent of buffers: the observed
values are cut into blocks of `R`, every block replaces the head of the state and the state is permuted;
the challenges are then read from the state, last element first, with one more permutation whenever the
state is used up.
-/
namespace Tachyon.Challenger

variable {F : Type} {S : Type}

/-- The blocks of length `R` of a list; the last one may be shorter. -/
def blocks (R : ℕ) (xs : List F) : List (List F) :=
  (List.range ((xs.length + R - 1) / R)).map fun k => (xs.drop (k * R)).take R

/-- Absorption of a list of values: one `step` for every block. -/
def absorb (step : S → List F → S) (R : ℕ) (s : S) (xs : List F) : S := (blocks R xs).foldl step s

/-- The `i`-th challenge after a state `s` with outputs `out s`, a list of length `w`. -/
def stream (step : S → List F → S) (out : S → List F) (w : ℕ) (s : S) (i : ℕ) : Option F :=
  (out ((fun t => step t [])^[i / w] s))[w - 1 - i % w]?

/-- The state when `m ≥ 1` challenges have been read. -/
def after (step : S → List F → S) (w : ℕ) (s : S) (m : ℕ) : S :=
  (fun t => step t [])^[(m - 1) / w] s

/-- Overwrite the head of a state with a block and permute. -/
def overwriteStep (perm : List F → List F) (s : List F) (xs : List F) : List F :=
  perm (xs ++ s.drop xs.length)

/-- One call of a challenger. -/
inductive Call (F : Type)
  | observe (x : F)
  | sample

variable {D : Type}

/-- A history of calls, with the sampled values. -/
def run (o : Ops D F) : List (Call F) → D → Option (List F × D)
  | [], d => some ([], d)
  | .observe x :: cs, d => (o.observe d x).bind (run o cs)
  | .sample :: cs, d => (o.sample d).bind fun r => (run o cs r.2).map fun q => (r.1 :: q.1, q.2)

/-- Phases of a protocol: observe the values, then sample that many challenges. -/
def calls (ph : List (List F × ℕ)) : List (Call F) :=
  ph.flatMap fun p => p.1.map Call.observe ++ List.replicate p.2 Call.sample

/-- The challenges of a protocol, phase by phase. -/
def challenges (step : S → List F → S) (out : S → List F) (R w : ℕ) :
    S → List (List F × ℕ) → List (Option F)
  | _, [] => []
  | s, (xs, m) :: ph =>
    (List.range m).map (stream step out w (absorb step R s xs)) ++
      challenges step out R w (after step w (absorb step R s xs) m) ph

/-- The state at the end of a protocol. -/
def finish (step : S → List F → S) (R w : ℕ) : S → List (List F × ℕ) → S
  | s, [] => s
  | s, (xs, m) :: ph => finish step R w (after step w (absorb step R s xs) m) ph

/-- The packing of small elements into a large one: base `2^32`. -/
def pack (canon : F → ℕ) : List F → ℕ
  | [] => 0
  | x :: xs => canon x + 2 ^ 32 * pack canon xs

end Tachyon.Challenger
