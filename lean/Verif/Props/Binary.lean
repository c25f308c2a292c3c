import Verif.Proofs.Binary
/-!
# C49: the binary tower fields

`level n` (`Spec/Binary`) is built over the field with two elements by `X² = α X + 1`, independently of the
code: it is a field of characteristic two. `val n` reads a machine value as an element of it.
-/
namespace Tachyon.Props
open Tachyon.Binary

/-- **C49.** The `2^2^n` machine values of level `n` stand for the elements of the field, one each: equality
of values is equality of elements. -/
theorem C49_values (n : ℕ) :
    (∀ a < 2 ^ 2 ^ n, ∀ b < 2 ^ 2 ^ n, val n a = val n b → a = b) ∧
    (∀ x : (level n).K, ∃ a < 2 ^ 2 ^ n, val n a = x) ∧
    val n 0 = 0 ∧ val n 1 = 1 :=
  ⟨fun _ ha _ hb => val_injective n ha hb, val_surjective n, val_zero n, val_one n⟩

/-- **C49.** The spec is the field it should be: characteristic two, level zero has `0` and `1`, an element
of the next level is a pair, multiplied by `X² = α X + 1`, and `α` of the next level is `X`. -/
theorem C49_tower (n : ℕ) :
    (∀ x : (level n).K, x + x = 0) ∧ (∀ x : (level 0).K, x = 0 ∨ x = 1) ∧ (level 0).α = 1 ∧
    (level (n + 1)).α = (⟨0, 1⟩ : Ext (level n)) ∧
    (⟨0, 1⟩ * ⟨0, 1⟩ : Ext (level n)) = ⟨(level n).α, 0⟩ * ⟨0, 1⟩ + 1 ∧
    (∀ a < 2 ^ 2 ^ n, val (n + 1) a = (⟨val n a, 0⟩ : Ext (level n))) ∧
    val (n + 1) (2 ^ 2 ^ n) = (level (n + 1)).α := by
  refine ⟨(level n).char2, ?_, rfl, rfl, ?_, fun a ha => ?_, (val_alphaNat (n + 1)).1⟩
  · exact show ∀ x : ZMod 2, x = 0 ∨ x = 1 by decide
  · refine Ext.ext ?_ ?_
    · show (0 : (level n).K) * 0 + 1 * 1 = (level n).α * 0 + 0 * 1 + 1
      ring
    · show (0 : (level n).K) * 1 + 1 * 0 + 1 * 1 * (level n).α =
        (level n).α * 1 + 0 * 0 + 0 * 1 * (level n).α + 0
      ring
  · have h1 : a % size n = a := Nat.mod_eq_of_lt ha
    have h2 : a / size n = 0 := Nat.div_eq_of_lt ha
    rw [val_succ, h1, h2, val_zero]

/-- **C49.** `Add`, `Sub`, `Double` and `Negate` at every width: the result is a machine value of the field
and stands for the sum, the difference, the double and the negative. -/
theorem C49_add (n a b : ℕ) (ha : a < 2 ^ 2 ^ n) (hb : b < 2 ^ 2 ^ n) :
    add a b < 2 ^ 2 ^ n ∧ val n (add a b) = val n a + val n b ∧ val n (add a b) = val n a - val n b ∧
    val n (double a) = 2 * val n a ∧ neg a < 2 ^ 2 ^ n ∧ val n (neg a) = - val n a := by
  have hn : ∀ x : (level n).K, -x = x := fun x => neg_eq_of_add_eq_zero_left ((level n).char2 x)
  refine ⟨add_lt ha hb, val_add n a b, ?_, ?_, ha, (hn _).symm⟩
  · rw [val_add, sub_eq_add_neg, hn]
  · rw [two_mul, (level n).char2]
    exact val_zero n

/-- **C49.** `Mul` at every width: no table is read out of range, no check fails, and the result stands for
the product. -/
theorem C49_mul (n a b : ℕ) (ha : a < 2 ^ 2 ^ n) (hb : b < 2 ^ 2 ^ n) :
    ∃ c, mul n a b = some c ∧ c < 2 ^ 2 ^ n ∧ val n c = val n a * val n b :=
  (good n).mul a b ha hb

/-- **C49.** `Square` at every width is the product with itself. -/
theorem C49_square (n a : ℕ) (ha : a < 2 ^ 2 ^ n) :
    ∃ c, square n a = some c ∧ c < 2 ^ 2 ^ n ∧ val n c = val n a ^ 2 := by
  obtain ⟨c, h⟩ := (good n).square a ha
  exact ⟨c, by rw [pow_two]; exact h⟩

/-- **C49.** `MulByAlpha` at every width is the product with `α`. -/
theorem C49_mulByAlpha (n a : ℕ) (ha : a < 2 ^ 2 ^ n) :
    ∃ c, mulByAlpha n a = some c ∧ c < 2 ^ 2 ^ n ∧ val n c = val n a * (level n).α :=
  (good n).alpha a ha

/-- **C49.** `Inverse` at every width: `std::nullopt` for zero and the inverse for every other element. -/
theorem C49_inverse (n a : ℕ) (ha : a < 2 ^ 2 ^ n) :
    (a = 0 → inverse n a = some none) ∧
    (a ≠ 0 → ∃ c, inverse n a = some (some c) ∧ c < 2 ^ 2 ^ n ∧ val n c = (val n a)⁻¹) := by
  refine ⟨fun h => by rw [h]; exact (good n).inv0, fun h => ?_⟩
  obtain ⟨c, e, l, v⟩ := (good n).inv a ha h
  exact ⟨c, e, l, eq_inv_of_mul_eq_one_right v⟩

/-- **C49.** `TwoInv` is not the inverse of two, which is zero in these fields: above the first level it is
the inverse of the element with machine value `2`, and on the first level its check fails. -/
theorem C49_twoInv_wrong (n : ℕ) :
    (2 : (level n).K) = 0 ∧ twoInv 0 = none ∧
    ∃ c, twoInv (n + 1) = some c ∧ val (n + 1) c * val (n + 1) 2 = 1 ∧ val (n + 1) c * 2 ≠ 1 := by
  have two : ∀ m, (2 : (level m).K) = 0 := fun m => by
    rw [← one_add_one_eq_two]; exact (level m).char2 1
  have h2 : 2 < size (n + 1) := by
    have := two_le_size n
    rw [size_succ]
    exact lt_of_lt_of_le (by omega) (Nat.mul_le_mul this this)
  obtain ⟨c, e, _, v⟩ := (good (n + 1)).inv 2 h2 (by omega)
  refine ⟨two n, rfl, c, ?_, by rw [mul_comm]; exact v, ?_⟩
  · unfold twoInv
    rw [mk_of_lt h2]
    show (inverse (n + 1) 2).bind id = _
    rw [e]; rfl
  · rw [two, mul_zero]
    exact zero_ne_one

/-! Values up to 128 bits. -/
example : (inverse 7 2).bind id = some 3 := by decide +kernel
example : (mul 7 (2 ^ 127 + 5) (2 ^ 64 + 3)).isSome = true := by decide +kernel
example : mul 4 0x1234 1 = some 0x1234 := by decide +kernel
example : ((mul 5 0xdeadbeef 0x12345678).bind fun c => (inverse 5 0x12345678).bind fun i =>
    i.bind fun i => mul 5 c i) = some 0xdeadbeef := by decide +kernel
example : val 1 2 * val 1 2 = val 1 3 := by
  obtain ⟨c, e, _, h⟩ := C49_mul 1 2 2 (by decide) (by decide)
  have : mul 1 2 2 = some 3 := by decide
  rw [this] at e
  rw [← h, Option.some.inj e]

end Tachyon.Props
