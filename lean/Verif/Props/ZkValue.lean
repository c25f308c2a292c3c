import Verif.Model.ZkValue
import Verif.Spec.F7
import Mathlib.Tactic.Ring
import Mathlib.Algebra.Field.Basic
/-! C114: a term in values that may be unknown has the value that the field gives it if its variables are known, and else is unknown or fails; and `!=` never
returns. -/
namespace Tachyon.Props

open Tachyon.ZkValue

variable {F : Type} [Field F] [DecidableEq F]

/-- The variables of a term. -/
def valueVars : Term F → List ℕ
  | .var i => [i]
  | .known _ => []
  | .add a b => valueVars a ++ valueVars b
  | .addElem a _ => valueVars a
  | .double a => valueVars a
  | .sub a b => valueVars a ++ valueVars b
  | .subElem a _ => valueVars a
  | .negate a => valueVars a
  | .mul a b => valueVars a ++ valueVars b
  | .mulElem a _ => valueVars a
  | .square a => valueVars a
  | .inverse a => valueVars a

/-- What a term is in the field. -/
def valueIn (s : ℕ → F) : Term F → F
  | .var i => s i
  | .known x => x
  | .add a b => valueIn s a + valueIn s b
  | .addElem a y => valueIn s a + y
  | .double a => 2 * valueIn s a
  | .sub a b => valueIn s a - valueIn s b
  | .subElem a y => valueIn s a - y
  | .negate a => -valueIn s a
  | .mul a b => valueIn s a * valueIn s b
  | .mulElem a y => valueIn s a * y
  | .square a => valueIn s a ^ 2
  | .inverse a => (valueIn s a)⁻¹

/-- Something under an inverse is zero. -/
def valueDivides (s : ℕ → F) : Term F → Prop
  | .var _ => False
  | .known _ => False
  | .add a b => valueDivides s a ∨ valueDivides s b
  | .addElem a _ => valueDivides s a
  | .double a => valueDivides s a
  | .sub a b => valueDivides s a ∨ valueDivides s b
  | .subElem a _ => valueDivides s a
  | .negate a => valueDivides s a
  | .mul a b => valueDivides s a ∨ valueDivides s b
  | .mulElem a _ => valueDivides s a
  | .square a => valueDivides s a
  | .inverse a => valueDivides s a ∨ valueIn s a = 0

theorem value_run_known (s : ℕ → F) (t : Term F) :
    (valueDivides s t → t.run (fun i => some (s i)) = none) ∧ (¬ valueDivides s t → t.run (fun i => some (s i)) = some (some (valueIn s t))) := by
  induction t with
  | var i => simp [valueDivides, Term.run, valueIn]
  | known x => simp [valueDivides, Term.run, valueIn]
  | add a b iha ihb =>
    by_cases ha : valueDivides s a
    · simp [valueDivides, Term.run, ha, iha.1 ha]
    · by_cases hb : valueDivides s b
      · simp [valueDivides, Term.run, ha, hb, iha.2 ha, ihb.1 hb]
      · simp [valueDivides, Term.run, ha, hb, iha.2 ha, ihb.2 hb, ZkValue.add, valueIn]
  | sub a b iha ihb =>
    by_cases ha : valueDivides s a
    · simp [valueDivides, Term.run, ha, iha.1 ha]
    · by_cases hb : valueDivides s b
      · simp [valueDivides, Term.run, ha, hb, iha.2 ha, ihb.1 hb]
      · simp [valueDivides, Term.run, ha, hb, iha.2 ha, ihb.2 hb, ZkValue.sub, valueIn]
  | mul a b iha ihb =>
    by_cases ha : valueDivides s a
    · simp [valueDivides, Term.run, ha, iha.1 ha]
    · by_cases hb : valueDivides s b
      · simp [valueDivides, Term.run, ha, hb, iha.2 ha, ihb.1 hb]
      · simp [valueDivides, Term.run, ha, hb, iha.2 ha, ihb.2 hb, ZkValue.mul, valueIn]
  | addElem a y iha =>
    by_cases ha : valueDivides s a
    · simp [valueDivides, Term.run, ha, iha.1 ha]
    · simp [valueDivides, Term.run, ha, iha.2 ha, ZkValue.addElem, valueIn]
  | subElem a y iha =>
    by_cases ha : valueDivides s a
    · simp [valueDivides, Term.run, ha, iha.1 ha]
    · simp [valueDivides, Term.run, ha, iha.2 ha, ZkValue.subElem, valueIn]
  | mulElem a y iha =>
    by_cases ha : valueDivides s a
    · simp [valueDivides, Term.run, ha, iha.1 ha]
    · simp [valueDivides, Term.run, ha, iha.2 ha, ZkValue.mulElem, valueIn]
  | double a iha =>
    by_cases ha : valueDivides s a
    · simp [valueDivides, Term.run, ha, iha.1 ha]
    · simp [valueDivides, Term.run, ha, iha.2 ha, ZkValue.double, valueIn, two_mul]
  | negate a iha =>
    by_cases ha : valueDivides s a
    · simp [valueDivides, Term.run, ha, iha.1 ha]
    · simp [valueDivides, Term.run, ha, iha.2 ha, ZkValue.negate, valueIn]
  | square a iha =>
    by_cases ha : valueDivides s a
    · simp [valueDivides, Term.run, ha, iha.1 ha]
    · simp [valueDivides, Term.run, ha, iha.2 ha, ZkValue.square, valueIn, pow_two]
  | inverse a iha =>
    by_cases ha : valueDivides s a
    · simp [valueDivides, Term.run, ha, iha.1 ha]
    · by_cases h0 : valueIn s a = 0
      · simp [valueDivides, Term.run, ha, iha.2 ha, ZkValue.inverse, h0]
      · simp [valueDivides, Term.run, ha, iha.2 ha, ZkValue.inverse, valueIn, h0]

theorem value_run_congr (s s' : ℕ → Value F) (t : Term F) (h : ∀ i ∈ valueVars t, s i = s' i) : t.run s = t.run s' := by
  induction t with
  | var i => simp [Term.run, h i (by simp [valueVars])]
  | known x => rfl
  | add a b iha ihb => simp only [Term.run, iha fun i hi => h i (by simp [valueVars, hi]), ihb fun i hi => h i (by simp [valueVars, hi])]
  | sub a b iha ihb => simp only [Term.run, iha fun i hi => h i (by simp [valueVars, hi]), ihb fun i hi => h i (by simp [valueVars, hi])]
  | mul a b iha ihb => simp only [Term.run, iha fun i hi => h i (by simp [valueVars, hi]), ihb fun i hi => h i (by simp [valueVars, hi])]
  | addElem a y iha => simp only [Term.run, iha h]
  | subElem a y iha => simp only [Term.run, iha h]
  | mulElem a y iha => simp only [Term.run, iha h]
  | double a iha => simp only [Term.run, iha h]
  | negate a iha => simp only [Term.run, iha h]
  | square a iha => simp only [Term.run, iha h]
  | inverse a iha => simp only [Term.run, iha h]

/-- **C114 (known variables).** A term whose variables are known is known and what the field says, unless something under an inverse is zero; then it fails. -/
theorem C114_known (s : ℕ → Value F) (x : ℕ → F) (t : Term F) (h : ∀ i ∈ valueVars t, s i = some (x i)) [Decidable (valueDivides x t)] :
    t.run s = if valueDivides x t then none else some (some (valueIn x t)) := by
  rw [value_run_congr s (fun i => some (x i)) t h]
  split
  · exact (value_run_known x t).1 ‹_›
  · exact (value_run_known x t).2 ‹_›

/-- **C114 (unknown variables).** A term with a variable that is not known never gives a known value, however the others are. -/
theorem C114_unknown (s : ℕ → Value F) (t : Term F) (i : ℕ) (hi : i ∈ valueVars t) (h : s i = none) : ∀ y : F, t.run s ≠ some (some y) := by
  induction t with
  | var j =>
    simp only [valueVars, List.mem_singleton] at hi
    subst hi
    simp [Term.run, h]
  | known x => simp [valueVars] at hi
  | add a b iha ihb =>
    intro y hy
    simp only [Term.run, Option.bind_eq_some_iff, Option.map_eq_some_iff] at hy
    obtain ⟨u, hu, v, hv, huv⟩ := hy
    rcases u with _ | u <;> rcases v with _ | v <;> simp [ZkValue.add] at huv
    rcases List.mem_append.1 hi with hi | hi
    · exact iha hi u hu
    · exact ihb hi v hv
  | sub a b iha ihb =>
    intro y hy
    simp only [Term.run, Option.bind_eq_some_iff, Option.map_eq_some_iff] at hy
    obtain ⟨u, hu, v, hv, huv⟩ := hy
    rcases u with _ | u <;> rcases v with _ | v <;> simp [ZkValue.sub] at huv
    rcases List.mem_append.1 hi with hi | hi
    · exact iha hi u hu
    · exact ihb hi v hv
  | mul a b iha ihb =>
    intro y hy
    simp only [Term.run, Option.bind_eq_some_iff, Option.map_eq_some_iff] at hy
    obtain ⟨u, hu, v, hv, huv⟩ := hy
    rcases u with _ | u <;> rcases v with _ | v <;> simp [ZkValue.mul] at huv
    rcases List.mem_append.1 hi with hi | hi
    · exact iha hi u hu
    · exact ihb hi v hv
  | addElem a z iha =>
    intro y hy
    simp only [Term.run, Option.map_eq_some_iff] at hy
    obtain ⟨u, hu, huv⟩ := hy
    rcases u with _ | u <;> simp [ZkValue.addElem] at huv
    exact iha hi u hu
  | subElem a z iha =>
    intro y hy
    simp only [Term.run, Option.map_eq_some_iff] at hy
    obtain ⟨u, hu, huv⟩ := hy
    rcases u with _ | u <;> simp [ZkValue.subElem] at huv
    exact iha hi u hu
  | mulElem a z iha =>
    intro y hy
    simp only [Term.run, Option.map_eq_some_iff] at hy
    obtain ⟨u, hu, huv⟩ := hy
    rcases u with _ | u <;> simp [ZkValue.mulElem] at huv
    exact iha hi u hu
  | double a iha =>
    intro y hy
    simp only [Term.run, Option.map_eq_some_iff] at hy
    obtain ⟨u, hu, huv⟩ := hy
    rcases u with _ | u <;> simp [ZkValue.double] at huv
    exact iha hi u hu
  | negate a iha =>
    intro y hy
    simp only [Term.run, Option.map_eq_some_iff] at hy
    obtain ⟨u, hu, huv⟩ := hy
    rcases u with _ | u <;> simp [ZkValue.negate] at huv
    exact iha hi u hu
  | square a iha =>
    intro y hy
    simp only [Term.run, Option.map_eq_some_iff] at hy
    obtain ⟨u, hu, huv⟩ := hy
    rcases u with _ | u <;> simp [ZkValue.square] at huv
    exact iha hi u hu
  | inverse a iha =>
    intro y hy
    simp only [Term.run, Option.bind_eq_some_iff] at hy
    obtain ⟨u, hu, huv⟩ := hy
    rcases u with _ | u
    · simp [ZkValue.inverse] at huv
    · exact iha hi u hu

/-- Everything under an inverse has a variable that is not known. -/
def valueHidden (s : ℕ → Value F) : Term F → Prop
  | .var _ => True
  | .known _ => True
  | .add a b => valueHidden s a ∧ valueHidden s b
  | .addElem a _ => valueHidden s a
  | .double a => valueHidden s a
  | .sub a b => valueHidden s a ∧ valueHidden s b
  | .subElem a _ => valueHidden s a
  | .negate a => valueHidden s a
  | .mul a b => valueHidden s a ∧ valueHidden s b
  | .mulElem a _ => valueHidden s a
  | .square a => valueHidden s a
  | .inverse a => valueHidden s a ∧ ∃ i ∈ valueVars a, s i = none

/-- **C114 (unknown variables, no failure).** A term fails only by an inverse of something known: if everything under an inverse has a variable that is not
known, as while keys are made, the term does not fail; with a variable that is not known it is unknown. -/
theorem C114_unknown_run (s : ℕ → Value F) (t : Term F) (h : valueHidden s t) :
    t.run s ≠ none ∧ ((∃ i ∈ valueVars t, s i = none) → t.run s = some none) := by
  have key : ∃ u, t.run s = some u := by
    induction t with
    | var i => exact ⟨_, rfl⟩
    | known x => exact ⟨_, rfl⟩
    | add a b iha ihb => obtain ⟨u, hu⟩ := iha h.1; obtain ⟨v, hv⟩ := ihb h.2; simp [Term.run, hu, hv]
    | sub a b iha ihb => obtain ⟨u, hu⟩ := iha h.1; obtain ⟨v, hv⟩ := ihb h.2; simp [Term.run, hu, hv]
    | mul a b iha ihb => obtain ⟨u, hu⟩ := iha h.1; obtain ⟨v, hv⟩ := ihb h.2; simp [Term.run, hu, hv]
    | addElem a y iha => obtain ⟨u, hu⟩ := iha h; simp [Term.run, hu]
    | subElem a y iha => obtain ⟨u, hu⟩ := iha h; simp [Term.run, hu]
    | mulElem a y iha => obtain ⟨u, hu⟩ := iha h; simp [Term.run, hu]
    | double a iha => obtain ⟨u, hu⟩ := iha h; simp [Term.run, hu]
    | negate a iha => obtain ⟨u, hu⟩ := iha h; simp [Term.run, hu]
    | square a iha => obtain ⟨u, hu⟩ := iha h; simp [Term.run, hu]
    | inverse a iha =>
      obtain ⟨ha, i, hi, hn⟩ := h
      obtain ⟨u, hu⟩ := iha ha
      rcases u with _ | y
      · simp [Term.run, hu, ZkValue.inverse]
      · exact absurd hu (C114_unknown s a i hi hn y)
  obtain ⟨u, hu⟩ := key
  refine ⟨by simp [hu], fun ⟨i, hi, hn⟩ => ?_⟩
  rcases u with _ | y
  · exact hu
  · exact absurd hu (C114_unknown s t i hi hn y)

/-- **C114 (comparison).** `==` is equality, two unknown values being equal; what is unknown is neither zero nor one. -/
theorem C114_eq (a b : Value F) : ZkValue.eq a b = decide (a = b) ∧ ZkValue.isZero a = decide (a = some 0) ∧ ZkValue.isOne a = decide (a = some 1) := by
  rcases a with _ | a <;> rcases b with _ | b <;> simp [ZkValue.eq, ZkValue.isZero, ZkValue.isOne, Bool.beq_eq_decide_eq]

/-- **C114 (`!=`).** Finding: `operator!=` calls itself and never returns, whatever the values. -/
theorem C114_ne (a b : Value F) (depth : ℕ) : ZkValue.ne a b depth = none := by
  induction depth with
  | zero => rfl
  | succ depth ih => exact ih

/-- `(x₀·x₁ + 3)⁻¹` in the field of seven elements: known, dividing by zero, and with an unknown variable. -/
example :
    let t : Term F7 := .inverse (.addElem (.mul (.var 0) (.var 1)) 3)
    t.run (fun i => [some 2, some 3][i]?.join) = some (some 4) ∧ t.run (fun i => [some 2, some 2][i]?.join) = none ∧
      t.run (fun i => [some 2, none][i]?.join) = some none := by decide

end Tachyon.Props
