import Verif.Model.MaybeOwned
/-! C116: `MaybeOwned` is a variable that is empty, holds a value of its own or refers to memory outside, whatever is copied, moved, assigned and written. -/
namespace Tachyon.Props

open Tachyon.MaybeOwned

variable {α : Type}

/-- What a variable is. -/
inductive Holding (α : Type)
  | empty
  | value (x : α)
  | ref (k : ℕ)

/-- What variables are and the memory outside. -/
structure Holdings (α : Type) where
  var : ℕ → Holding α
  mem : ℕ → α

def Holdings.set (h : Holdings α) (i : ℕ) (x : Holding α) : Holdings α := { h with var := fun j => if j = i then x else h.var j }

/-- What an operation should do. -/
def holdingsStep (h : Holdings α) : Op α → Option (Holdings α)
  | .copy i j => some (h.set i (h.var j))
  | .move i j => some ((h.set i (h.var j)).set j .empty)
  | .value i x => some (h.set i (.value x))
  | .pointer i k => some (h.set i (.ref k))
  | .write i x =>
    match h.var i with
    | .empty => none
    | .value _ => some (h.set i (.value x))
    | .ref k => some { h with mem := fun l => if l = k then x else h.mem l }

def holdingsRun : List (Op α) → Holdings α → Option (Holdings α)
  | [], h => some h
  | o :: os, h => (holdingsStep h o).bind (holdingsRun os)

/-- What is read. -/
def holdingsRead (h : Holdings α) (i : ℕ) : Option α :=
  match h.var i with
  | .empty => none
  | .value x => some x
  | .ref k => some (h.mem k)

/-- A variable as it should be. -/
def HoldsObj (i : ℕ) (o : Obj α) : Holding α → Prop
  | .empty => o.ptr = .null ∧ o.owned = false
  | .value x => o.ptr = .own i ∧ o.owned = true ∧ o.value = some x
  | .ref k => o.ptr = .ext k ∧ o.owned = false

def HoldsState (s : State α) (h : Holdings α) : Prop := s.mem = h.mem ∧ ∀ i, HoldsObj i (s.obj i) (h.var i)

theorem move_obj (s : State α) (i j : ℕ) (hij : i ≠ j) (l : ℕ) : (move s i j).obj l =
    if l = j then ⟨none, .null, false⟩ else if l = i then ⟨(s.obj j).value, if (s.obj j).owned then .own i else (s.obj j).ptr, (s.obj j).owned⟩
      else s.obj l := by
  have hji : j ≠ i := fun e => hij e.symm
  by_cases hl : l = j
  · cases ho : (s.obj j).owned <;> simp [move, updatePtr, State.setObj, hij, hji, hl, ho]
  · by_cases hi : l = i
    · cases ho : (s.obj j).owned <;> simp [move, updatePtr, State.setObj, hij, hji, hi, ho]
    · cases ho : (s.obj j).owned <;> simp [move, updatePtr, State.setObj, hij, hji, hl, hi, ho]

theorem holdsState_step (s : State α) (h : Holdings α) (hs : HoldsState s h) (o : Op α) (ho : ∀ i j, o = .move i j → i ≠ j) :
    (holdingsStep h o = none ∧ step s o = none) ∨ ∃ s' h', step s o = some s' ∧ holdingsStep h o = some h' ∧ HoldsState s' h' := by
  obtain ⟨hm, hv⟩ := hs
  cases o with
  | value i x =>
    refine .inr ⟨_, _, rfl, rfl, hm, fun l => ?_⟩
    by_cases hl : l = i
    · subst hl; simp [assignValue, State.setObj, Holdings.set, HoldsObj]
    · simpa [assignValue, State.setObj, Holdings.set, hl] using hv l
  | pointer i k =>
    refine .inr ⟨_, _, rfl, rfl, hm, fun l => ?_⟩
    by_cases hl : l = i
    · subst hl; simp [assignPtr, State.setObj, Holdings.set, HoldsObj]
    · simpa [assignPtr, State.setObj, Holdings.set, hl] using hv l
  | write i x =>
    have hi := hv i
    simp only [step, write, holdingsStep]
    cases hx : h.var i with
    | empty => rw [hx] at hi; left; simp [hi.1]
    | value y =>
      rw [hx] at hi
      right
      rw [hi.1]
      refine ⟨_, _, rfl, rfl, hm, fun l => ?_⟩
      by_cases hl : l = i
      · subst hl; simp [State.setObj, Holdings.set, HoldsObj, hi.1, hi.2.1]
      · simpa [State.setObj, Holdings.set, hl] using hv l
    | ref k =>
      rw [hx] at hi
      right
      rw [hi.1]
      exact ⟨_, _, rfl, rfl, by simp [hm], hv⟩
  | copy i j =>
    have hj := hv j
    refine .inr ⟨_, _, rfl, rfl, ?_, fun l => ?_⟩
    · simp only [copy, updatePtr]
      rw [apply_ite State.mem]
      simpa [State.setObj, Holdings.set] using hm
    · by_cases hij : j = i
      · subst hij
        by_cases hl : l = j
        · subst hl
          cases hx : h.var l <;> rw [hx] at hj <;> simp_all [copy, updatePtr, State.setObj, Holdings.set, HoldsObj]
        · have := hv l
          cases hx : h.var j <;> rw [hx] at hj <;> simp_all [copy, updatePtr, State.setObj, Holdings.set, HoldsObj]
      · by_cases hl : l = i
        · subst hl
          cases hx : h.var j <;> rw [hx] at hj <;> simp_all [copy, updatePtr, State.setObj, Holdings.set, HoldsObj]
        · have := hv l
          cases hx : h.var j <;> rw [hx] at hj <;> simp_all [copy, updatePtr, State.setObj, Holdings.set, HoldsObj]
  | move i j =>
    have hj := hv j
    have hij : i ≠ j := ho i j rfl
    have hji : j ≠ i := fun e => hij e.symm
    refine .inr ⟨_, _, rfl, rfl, ?_, fun l => ?_⟩
    · simp only [move, updatePtr, State.setObj]
      rw [apply_ite State.mem]
      simpa [Holdings.set] using hm
    · rw [move_obj s i j hij l]
      have hl' := hv l
      clear hv hm
      by_cases hl : l = j
      · simp [hl, Holdings.set, HoldsObj]
      · by_cases hi : l = i
        · subst hi
          simp only [hl, Holdings.set, if_false, if_true]
          cases hx : h.var j <;> rw [hx] at hj <;> simp only [HoldsObj] at hj ⊢ <;> simp [hj]
        · simpa [hl, hi, Holdings.set] using hl'

theorem holdsState_run (os : List (Op α)) (ho : ∀ i j, Op.move i j ∈ os → i ≠ j) (s : State α) (h : Holdings α) (hs : HoldsState s h) :
    (holdingsRun os h = none ∧ run os s = none) ∨ ∃ s' h', run os s = some s' ∧ holdingsRun os h = some h' ∧ HoldsState s' h' := by
  induction os generalizing s h with
  | nil => exact .inr ⟨s, h, rfl, rfl, hs⟩
  | cons o os ih =>
    rcases holdsState_step s h hs o (fun i j e => ho i j (by simp [e])) with ⟨h1, h2⟩ | ⟨s', h', h1, h2, h3⟩
    · left; simp [holdingsRun, run, h1, h2]
    · simp only [holdingsRun, run, h1, h2, Option.bind_some]
      exact ih (fun i j e => ho i j (by simp [e])) s' h' h3

/-- C116: a program that moves no variable to itself runs as it should (it fails exactly if it writes to an empty variable), and then each variable reads as
it should, owns a value exactly if it holds one, and the memory outside is as it should be. -/
theorem C116_maybe_owned (os : List (Op α)) (ho : ∀ i j, Op.move i j ∈ os → i ≠ j) (mem : ℕ → α) :
    (holdingsRun os ⟨fun _ => .empty, mem⟩ = none ∧ run os (State.new mem) = none) ∨
      ∃ s h, run os (State.new mem) = some s ∧ holdingsRun os ⟨fun _ => .empty, mem⟩ = some h ∧ s.mem = h.mem ∧
        ∀ i, read s i = holdingsRead h i ∧ ((s.obj i).owned = true ↔ ∃ x, h.var i = .value x) := by
  rcases holdsState_run os ho (State.new mem) ⟨fun _ => .empty, mem⟩ ⟨rfl, fun i => ⟨rfl, rfl⟩⟩ with h | ⟨s, h, h1, h2, hm, hv⟩
  · exact .inl h
  · refine .inr ⟨s, h, h1, h2, hm, fun i => ?_⟩
    have hi := hv i
    cases hx : h.var i <;> rw [hx] at hi <;> simp only [HoldsObj] at hi <;> simp [MaybeOwned.read, holdingsRead, hx, hi, hm]

/-- A pointer is never to the value of another variable. -/
theorem C116_maybe_owned_no_alias (os : List (Op α)) (ho : ∀ i j, Op.move i j ∈ os → i ≠ j) (mem : ℕ → α) (s : State α)
    (h : run os (State.new mem) = some s) (i j : ℕ) (hp : (s.obj i).ptr = .own j) : j = i := by
  rcases holdsState_run os ho (State.new mem) ⟨fun _ => .empty, mem⟩ ⟨rfl, fun i => ⟨rfl, rfl⟩⟩ with h' | ⟨s', h', h1, -, -, hv⟩
  · rw [h] at h'; simp at h'
  · rw [h, Option.some.injEq] at h1
    subst h1
    have hi := hv i
    cases hx : h'.var i <;> rw [hx] at hi <;> simp only [HoldsObj] at hi <;> simp [hi] at hp
    exact hp.symm

/-- Finding: a variable that owns a value and is moved to itself keeps `owned_` but has a null pointer, so that reading it is undefined. -/
theorem C116_maybe_owned_self_move (s : State α) (i : ℕ) :
    read (move s i i) i = none ∧ ((move s i i).obj i).owned = (s.obj i).owned := by
  constructor
  · simp [move, MaybeOwned.read, State.setObj]
  · cases ho : (s.obj i).owned <;> simp [move, updatePtr, State.setObj, ho]

/-- A value, a copy of it that is written, and the value moved on: the copy is its own, and what was moved from is empty. -/
example : ((run [.value 0 5, .copy 1 0, .write 1 7, .move 2 0, .pointer 3 4, .copy 4 3, .write 4 9] (State.new (fun k => k * 10))).map fun s =>
    [read s 0, read s 1, read s 2, read s 3, read s 4]) = some [none, some 7, some 5, some 9, some 9] := by decide

end Tachyon.Props
