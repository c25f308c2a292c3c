import Verif.Model.FieldSerial
import Mathlib.Tactic.NormNum
import Mathlib.Algebra.Order.Ring.Int
/-! C109: integers as field elements. -/
namespace Tachyon.Props
open Tachyon.FieldSerial

theorem wrap_of_nonneg {n : ℕ} {v : ℤ} (h0 : 0 ≤ v) (h : v < 2 ^ n) : wrap n v = v.toNat := by
  rw [wrap, Int.emod_eq_of_lt h0 h]

theorem has_lt {t : IntType} {v : ℤ} (ht : t.bits ≤ 64) (h : t.Has v) : v < 2 ^ t.bits ∧ v < 2 ^ 64 := by
  have h1 : (2 : ℤ) ^ (t.bits - 1) ≤ 2 ^ t.bits := pow_le_pow_right₀ (by norm_num) (by omega)
  have h2 : (2 : ℤ) ^ t.bits ≤ 2 ^ 64 := pow_le_pow_right₀ (by norm_num) ht
  have h3 : v < 2 ^ t.bits := by
    unfold IntType.Has at h
    split at h
    · exact lt_of_lt_of_le h.2 h1
    · exact h.2
  exact ⟨h3, lt_of_lt_of_le h3 h2⟩

/-- C109: a value that is not negative becomes an element exactly if it is below the modulus, and then that element; else nothing is added. -/
theorem C109_exact (debug small : Bool) (t : IntType) (p : ℕ) (ht : t.bits ≤ 64) (hp : small = true → p < 2 ^ 32) (v : ℤ) (hv : t.Has v) (h0 : 0 ≤ v)
    (fields : List ℕ) :
    toPrimeField debug small t p v fields = some (if v < p then (true, fields ++ [v.toNat]) else (false, fields)) := by
  obtain ⟨h1, h2⟩ := has_lt ht hv
  have hpv : p ≤ v.toNat ↔ ¬ v < p := by omega
  rw [toPrimeField]
  split
  · rename_i hs
    have hp := hp hs
    have hge : geModulus32 t p v = decide (p ≤ v.toNat) := by
      rw [geModulus32]
      split
      · rename_i hb
        rw [wrap_of_nonneg h0 (lt_of_lt_of_le h1 (pow_le_pow_right₀ (by norm_num) hb))]
      · exact decide_eq_decide.2 (by omega)
    rw [hge]
    by_cases hlt : v < p
    · have hw : wrap 32 v = v.toNat := wrap_of_nonneg h0 (lt_trans hlt (by exact_mod_cast hp))
      have : v.toNat < p := by omega
      simp [hlt, hw, this, show ¬ p ≤ v.toNat by omega]
    · simp [hlt, show p ≤ v.toNat by omega]
  · rw [if_neg (by simp [h0]), wrap_of_nonneg h0 h2]
    by_cases hlt : v < p
    · rw [if_neg (by omega), if_pos hlt]
    · rw [if_pos (by omega), if_neg hlt]

/-- C109: a list of values that are not negative is taken exactly if all are below the modulus; at the first that is not, the ones before it have been
added already. -/
theorem C109_batch (debug small : Bool) (t : IntType) (p : ℕ) (ht : t.bits ≤ 64) (hp : small = true → p < 2 ^ 32) (vs : List ℤ)
    (hv : ∀ v ∈ vs, t.Has v ∧ 0 ≤ v) (fields : List ℕ) :
    batchToPrimeField debug small t p vs fields =
      some (decide (∀ v ∈ vs, v < p), fields ++ (vs.takeWhile fun v : ℤ => decide (v < (p : ℤ))).map Int.toNat) := by
  induction vs generalizing fields with
  | nil => simp [batchToPrimeField]
  | cons v vs ih =>
    have h := hv v List.mem_cons_self
    rw [batchToPrimeField, C109_exact debug small t p ht hp v h.1 h.2, Option.bind_some]
    by_cases hlt : v < p
    · rw [if_pos hlt, if_pos rfl, ih (fun x hx => hv x (List.mem_cons_of_mem _ hx))]
      simp [hlt]
    · rw [if_neg hlt]
      simp [hlt]

theorem takeWhile_of_all {α : Type} (l : List α) (f : α → Bool) (h : ∀ x ∈ l, f x = true) : l.takeWhile f = l := by
  induction l with
  | nil => rfl
  | cons a l ih => rw [List.takeWhile_cons, if_pos (h a List.mem_cons_self), ih fun x hx => h x (List.mem_cons_of_mem _ hx)]

/-- C109: different lists that are taken give different elements. -/
theorem C109_injective (debug small : Bool) (t : IntType) (p : ℕ) (ht : t.bits ≤ 64) (hp : small = true → p < 2 ^ 32) (vs ws : List ℤ)
    (hv : ∀ v ∈ vs, t.Has v ∧ 0 ≤ v) (hw : ∀ v ∈ ws, t.Has v ∧ 0 ≤ v) (fields out : List ℕ)
    (h1 : batchToPrimeField debug small t p vs fields = some (true, out)) (h2 : batchToPrimeField debug small t p ws fields = some (true, out)) :
    vs = ws := by
  have key : ∀ us : List ℤ, (∀ v ∈ us, t.Has v ∧ 0 ≤ v) → batchToPrimeField debug small t p us fields = some (true, out) →
      out = fields ++ us.map Int.toNat := fun us hu h => by
    rw [C109_batch debug small t p ht hp us hu] at h
    simp only [Option.some.injEq, Prod.mk.injEq, decide_eq_true_eq] at h
    rw [← h.2, takeWhile_of_all us _ fun v hv => decide_eq_true (h.1 v hv)]
  have e := List.append_cancel_left ((key vs hv h1).symm.trans (key ws hw h2))
  have back : ∀ us : List ℤ, (∀ v ∈ us, t.Has v ∧ 0 ≤ v) → (us.map Int.toNat).map (fun n : ℕ => (n : ℤ)) = us := fun us hu => by
    rw [List.map_map]
    exact (List.map_congr_left fun v hv => Int.toNat_of_nonneg (hu v hv).2).trans (List.map_id _)
  rw [← back vs hv, ← back ws hw, e]

/-- C109: negative values of types of at most 32 bits are refused where the modulus has at most 31. -/
theorem C109_negative_refused (debug : Bool) (p : ℕ) (hp : p ≤ 2 ^ 31) (bits : ℕ) (hb : bits ≤ 32) (v : ℤ) (hv : (IntType.mk true bits).Has v) (h0 : v < 0)
    (fields : List ℕ) : toPrimeField debug true ⟨true, bits⟩ p v fields = some (false, fields) := by
  have h1 : (2 : ℤ) ^ (bits - 1) ≤ 2 ^ 31 := pow_le_pow_right₀ (by norm_num) (by omega)
  have h2 : -(2 : ℤ) ^ 31 ≤ v := le_trans (neg_le_neg h1) (by simpa [IntType.Has] using hv.1)
  have hw : p ≤ wrap 32 v := by
    rw [wrap]
    norm_num at h2 hp ⊢
    omega
  simp [toPrimeField, geModulus32, hb, hw]

/-- C109: finding: negative values of 64 bits are not refused by a modulus of at most 32 bits; without `DCHECK` the element is what 32 bits leave of the value. -/
theorem C109_negative_wide (p : ℕ) (v : ℤ) (h0 : v < 0) (fields : List ℕ) :
    toPrimeField false true ⟨true, 64⟩ p v fields = some (true, fields ++ [wrap 32 v]) ∧
      (toPrimeField true true ⟨true, 64⟩ p v fields = none ↔ p ≤ wrap 32 v) := by
  have h1 : geModulus32 ⟨true, 64⟩ p v = false := by
    rw [geModulus32, if_neg (by decide)]
    exact decide_eq_false (by omega)
  constructor
  · simp [toPrimeField, h1]
  · simp [toPrimeField, h1]

/-- C109: finding: without `DCHECK` negative values become the elements of unsigned ones where the modulus is greater. -/
theorem C109_negative_big (p : ℕ) (hp : 2 ^ 64 ≤ p) (t : IntType) (v : ℤ) (hv : -2 ^ 63 ≤ v) (h0 : v < 0) (fields : List ℕ) :
    toPrimeField false false t p v fields = toPrimeField false false ⟨false, 64⟩ p (2 ^ 64 + v) fields ∧
      (IntType.mk false 64).Has (2 ^ 64 + v) ∧ (toPrimeField false false t p v fields).map Prod.fst = some true ∧
      toPrimeField true false t p v fields = none := by
  have hw : wrap 64 (2 ^ 64 + v) = wrap 64 v := by rw [wrap, wrap, Int.add_emod_left]
  have hlt : wrap 64 v < 2 ^ 64 := by
    rw [wrap]
    norm_num
    omega
  refine ⟨by simp only [toPrimeField, hw, Bool.false_eq_true, false_and, if_false], ?_, by simp [toPrimeField, show ¬ p ≤ wrap 64 v by omega], by simp [toPrimeField, h0]⟩
  simp only [IntType.Has]
  norm_num at hv ⊢
  omega

/-- In the field of seven elements: 5 and 6 are added before 7 is refused. -/
example : batchToPrimeField true true ⟨true, 32⟩ 7 [5, 6, 7, 1] [2] = some (false, [2, 5, 6]) := by decide

/-- The value -1 of 64 bits as an element of the field of seven. -/
example : toPrimeField false true ⟨true, 64⟩ 7 (-1) [] = some (true, [4294967295]) := by decide

end Tachyon.Props
