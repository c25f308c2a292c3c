import Verif.Model.Rational
import Verif.Props.Group
import Verif.Spec.F17
import Mathlib.Tactic.FieldSimp
import Mathlib.Tactic.Ring
/-! C50: `RationalField` represents fractions. -/
universe u
namespace Tachyon.Props
open Tachyon.Group Tachyon.Parallel Tachyon.Rational

variable {F : Type u} [Field F] [DecidableEq F]

omit [DecidableEq F] in
/-- C50: sums, differences, products, and the other operations are those of the fractions, and denominators stay
non-zero. The variants in place give the same. -/
theorem C50_operations (a b : Rational.Rat F) (ha : a.den ≠ 0) (hb : b.den ≠ 0) :
    ((add a b).den ≠ 0 ∧ (add a b).num / (add a b).den = a.num / a.den + b.num / b.den) ∧
    ((sub a b).den ≠ 0 ∧ (sub a b).num / (sub a b).den = a.num / a.den - b.num / b.den) ∧
    ((mul a b).den ≠ 0 ∧ (mul a b).num / (mul a b).den = a.num / a.den * (b.num / b.den)) ∧
    ((neg a).den ≠ 0 ∧ (neg a).num / (neg a).den = -(a.num / a.den)) ∧
    ((double a).den ≠ 0 ∧ (double a).num / (double a).den = 2 * (a.num / a.den)) ∧
    ((square a).den ≠ 0 ∧ (square a).num / (square a).den = (a.num / a.den) ^ 2) ∧
    addInPlace a b = add a b ∧ subInPlace a b = sub a b := by
  refine ⟨⟨mul_ne_zero ha hb, ?_⟩, ⟨mul_ne_zero ha hb, ?_⟩, ⟨mul_ne_zero ha hb, ?_⟩, ⟨ha, ?_⟩, ⟨ha, ?_⟩,
    ⟨mul_ne_zero ha ha, ?_⟩, rfl, rfl⟩ <;> (simp only [add, sub, mul, neg, double, square]; field_simp; try ring)

omit [DecidableEq F] in
/-- C50: the constants. -/
theorem C50_constants : (zero : Rational.Rat F).den ≠ 0 ∧ (zero : Rational.Rat F).num / (zero : Rational.Rat F).den = 0 ∧
    (one : Rational.Rat F).num / (one : Rational.Rat F).den = 1 ∧
    (minusOne : Rational.Rat F).num / (minusOne : Rational.Rat F).den = -1 ∧
    (one : Rational.Rat F).den ≠ 0 ∧ (minusOne : Rational.Rat F).den ≠ 0 := by
  simp [zero, one, minusOne, ofNum]

/-- C50: equality is equality of fractions. -/
theorem C50_eq (a b : Rational.Rat F) (ha : a.den ≠ 0) (hb : b.den ≠ 0) :
    Rational.eq a b = true ↔ a.num / a.den = b.num / b.den := by
  rw [Rational.eq, decide_eq_true_eq, div_eq_div_iff ha hb]

/-- C50: the inverse exists exactly for non-zero fractions, and is again a fraction with non-zero denominator. -/
theorem C50_inverse (a : Rational.Rat F) (ha : a.den ≠ 0) :
    (isZero a = true ↔ a.num / a.den = 0) ∧ (a.num / a.den = 0 → inverse a = none) ∧
    (a.num / a.den ≠ 0 → ∃ b, inverse a = some b ∧ b.den ≠ 0 ∧ b.num / b.den = (a.num / a.den)⁻¹) := by
  have h0 : isZero a = true ↔ a.num / a.den = 0 := by
    rw [isZero, decide_eq_true_eq, div_eq_zero_iff]
    exact ⟨.inl, fun h => h.resolve_right ha⟩
  refine ⟨h0, fun h => by rw [inverse, if_pos (h0.2 h)], fun h => ?_⟩
  refine ⟨⟨a.den, a.num⟩, by rw [inverse, if_neg (fun e => h (h0.1 e))], ?_, ?_⟩
  · rintro (e : a.num = 0)
    exact h (by rw [e, zero_div])
  · rw [inv_div]

/-- C50: `Evaluate` is the quotient; a denominator zero ends the program. -/
theorem C50_evaluate (a : Rational.Rat F) :
    (a.den ≠ 0 → evaluate a = some (a.num / a.den)) ∧ (a.den = 0 → evaluate a = none) := by
  refine ⟨fun h => ?_, fun h => ?_⟩
  · rw [evaluate, inv?, if_neg h, Option.map_some, div_eq_mul_inv]
  · rw [evaluate, inv?, if_pos h, Option.map_none]

private theorem batchChunk_eq (rs : List (Rational.Rat F)) : batchChunk rs = some (rs.map fun r => r.num / r.den) := by
  have h := C22_serial (rs.map Rational.Rat.den) (1 : F)
  rw [List.length_map] at h
  rw [batchChunk, h, Option.map_some, List.map_map]
  congr 1
  rw [List.zipWith_map_left, List.zipWith_self]
  refine List.map_congr_left fun r _ => ?_
  by_cases h0 : r.den = 0
  · simp [h0]
  · simp only [Function.comp_apply, if_neg h0, one_mul]
    rw [div_eq_mul_inv, mul_comm]

/-- C50: `BatchEvaluate` gives the quotients, for every number of threads; a denominator zero gives zero. -/
theorem C50_batchEvaluate (threads : ℕ) (rs : List (Rational.Rat F)) (coeff : F) (ht : 0 < threads)
    (ht' : threads ≤ 2 ^ 63) (hl : rs.length ≤ 2 ^ 63) :
    batchEvaluate threads rs rs.length coeff = some (rs.map fun r => r.num / r.den) := by
  rw [batchEvaluate, if_neg (by simp), batchChunked]
  simp only [batchChunk_eq]
  have h1 : ∀ l : List (ℕ × ℕ), l.mapM (fun c => some ((chunkOf rs (numElementsPerThread threads rs.length none) c).map
      fun r => r.num / r.den)) = some (l.map fun c => (chunkOf rs (numElementsPerThread threads rs.length none) c).map
      fun r => r.num / r.den) := by
    intro l
    induction l with
    | nil => rfl
    | cons a l ih => rw [List.mapM_cons, ih]; rfl
  rw [h1, Option.map_some]
  congr 1
  obtain ⟨hp, hle, -⟩ := sizePerThread_bounds ht (total := rs.length) (by omega) none
  rcases Nat.eq_zero_or_pos rs.length with h0 | h0
  · have : rs = [] := List.eq_nil_of_length_eq_zero h0
    subst this
    have h2 : numElementsPerThread threads 0 none = 0 := by
      have : ¬ 0 < sizePerThread threads 0 none := fun h => by simpa using hp.1 h
      simpa [numElementsPerThread] using this
    simp [invocations, h2]
  · have h2 := flatMap_chunkOf rs (cs := numElementsPerThread threads rs.length none) (hp.2 h0)
      (by have : numElementsPerThread threads rs.length none ≤ rs.length := hle; omega)
    conv_rhs => rw [← h2]
    rw [List.map_flatMap, List.flatMap_def]

/-- C50: results of another size are refused. -/
theorem C50_batchEvaluate_mismatch (threads : ℕ) (rs : List (Rational.Rat F)) (n : ℕ) (coeff : F) (h : rs.length ≠ n) :
    batchEvaluate threads rs n coeff = none := if_pos h

/-- C50: `IsOne` and `IsMinusOne` find every fraction that is one or minus one, and are right when the numerator is not
one (minus one) or the denominator is one. -/
theorem C50_isOne (a : Rational.Rat F) (ha : a.den ≠ 0) :
    (a.num / a.den = 1 → isOne a = true) ∧ (isOne a = true → (a.num = 1 → a.den = 1) → a.num / a.den = 1) ∧
    (a.num / a.den = -1 → isMinusOne a = true) ∧
    (isMinusOne a = true → (a.num = -1 → a.den = 1) → a.num / a.den = -1) := by
  simp only [isOne, isMinusOne, Bool.or_eq_true, decide_eq_true_eq]
  refine ⟨fun h => .inr ((div_eq_one_iff_eq ha).1 h), fun h h' => ?_, fun h => .inr ?_, fun h h' => ?_⟩
  · rcases h with h | h
    · rw [h, h' h, div_one]
    · rw [h, div_self ha]
  · rw [div_eq_iff ha] at h
    rw [h]; ring
  · rcases h with h | h
    · rw [h, h' h, div_one]
    · rw [div_eq_iff ha, eq_neg_of_add_eq_zero_left h]; ring

/-- C50: `IsOne` takes `1/2` for one, `IsMinusOne` takes `-1/2` for minus one. -/
theorem C50_isOne_wrong : isOne (⟨1, 2⟩ : Rational.Rat F17) = true ∧ Rational.eq (⟨1, 2⟩ : Rational.Rat F17) one = false ∧
    isMinusOne (⟨-1, 2⟩ : Rational.Rat F17) = true ∧ Rational.eq (⟨-1, 2⟩ : Rational.Rat F17) minusOne = false := by
  decide +kernel

omit [DecidableEq F] in
/-- C50: the order is strict, at most one of `a < b` and `b < a` holds, and on numbers with the denominator one it is the order of
the field. -/
theorem C50_order (canon : F → Nat) (a b : Rational.Rat F) (x y : F) : lt canon a a = false ∧
    (lt canon a b = true → lt canon b a = false) ∧ (lt canon ⟨x, 1⟩ ⟨y, 1⟩ = true ↔ canon x < canon y) := by
  refine ⟨by simp [lt], ?_, by simp [lt]⟩
  simp only [lt, decide_eq_true_eq, decide_eq_false_iff_not]
  omega

/-- C50: the order depends on the representation: `2 = 1/9` and `1 < 2`, but not `1 < 1/9`. -/
theorem C50_order_wrong : lt (fun x : F17 => x.val) ⟨1, 1⟩ ⟨2, 1⟩ = true ∧ lt (fun x : F17 => x.val) ⟨1, 1⟩ ⟨1, 9⟩ = false ∧
    Rational.eq (⟨2, 1⟩ : Rational.Rat F17) ⟨1, 9⟩ = true := by decide +kernel

/-- C50: the factor of `BatchEvaluate` has no effect. -/
theorem C50_coeff_ignored : batchEvaluate 2 [⟨3, 2⟩, ⟨1, 1⟩] 2 (5 : F17) = some [10, 1] ∧
    (5 : F17) * (3 / 2) ≠ 10 := by decide +kernel

example : batchEvaluate 2 [⟨3, 2⟩, ⟨0, 5⟩, ⟨6, 0⟩, ⟨1, 4⟩, ⟨7, 7⟩] 5 (1 : F17) = some [10, 0, 0, 13, 1] := by decide +kernel

example : (add ⟨3, 2⟩ ⟨1, 4⟩ : Rational.Rat F17) = ⟨14, 8⟩ ∧ evaluate (add ⟨3, 2⟩ ⟨1, 4⟩ : Rational.Rat F17) = some (3 / 2 + 1 / 4) ∧
    (inverse (⟨3, 2⟩ : Rational.Rat F17)).bind evaluate = some (2 / 3) := by decide +kernel

example : Rational.eq (add ⟨3, 2⟩ ⟨1, 4⟩ : Rational.Rat F17) ⟨7, 4⟩ = true :=
  (C50_eq _ _ (by decide) (by decide)).2 (by decide +kernel)

end Tachyon.Props
