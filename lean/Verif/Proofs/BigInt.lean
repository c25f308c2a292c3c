import Verif.Proofs.Word
import Verif.Spec.Limbs
import Verif.Model.BigInt
import Mathlib.Tactic.Ring
import Mathlib.Tactic.Linarith
import Mathlib.Tactic.LinearCombination
import Mathlib.Data.Nat.Bitwise

namespace Tachyon

variable {w : Nat}

/-! ## `limbsVal` -/

@[simp] theorem limbsVal_nil : limbsVal ([] : List (BitVec w)) = 0 := rfl
@[simp] theorem limbsVal_cons (x : BitVec w) (xs) :
    limbsVal (x :: xs) = x.toNat + 2 ^ w * limbsVal xs := by rw [limbsVal]

theorem limbsVal_lt (xs : List (BitVec w)) : limbsVal xs < 2 ^ (w * xs.length) := by
  induction xs with
  | nil => simp
  | cons x xs ih =>
    have hx := x.isLt
    rw [limbsVal_cons, List.length_cons, Nat.mul_succ, pow_add]
    have : 2 ^ w * limbsVal xs + 2 ^ w ≤ 2 ^ w * 2 ^ (w * xs.length) := by
      rw [← Nat.mul_succ]; exact Nat.mul_le_mul_left _ ih
    rw [Nat.mul_comm (2 ^ (w * xs.length))]
    omega

theorem limbsVal_append (xs ys : List (BitVec w)) :
    limbsVal (xs ++ ys) = limbsVal xs + 2 ^ (w * xs.length) * limbsVal ys := by
  induction xs with
  | nil => simp
  | cons x xs ih =>
    simp only [List.cons_append, limbsVal_cons, ih, List.length_cons, Nat.mul_succ, pow_add]
    ring

theorem limbsVal_replicate_zero (n : Nat) : limbsVal (List.replicate n 0#w) = 0 := by
  induction n with
  | zero => rfl
  | succ n ih => rw [List.replicate_succ, limbsVal_cons, ih]; simp

@[simp] theorem limbsVal_zero (n : Nat) : limbsVal (BigInt.zero n : List (BitVec w)) = 0 :=
  limbsVal_replicate_zero n

@[simp] theorem length_zero (n : Nat) : (BigInt.zero n : List (BitVec w)).length = n := by
  simp [BigInt.zero]

theorem limbsVal_inj : ∀ {xs ys : List (BitVec w)}, xs.length = ys.length →
    limbsVal xs = limbsVal ys → xs = ys
  | [], [], _, _ => rfl
  | [], _ :: _, h, _ => by simp at h
  | _ :: _, [], h, _ => by simp at h
  | x :: xs, y :: ys, h, hv => by
    simp only [limbsVal_cons] at hv
    have hx := x.isLt; have hy := y.isLt
    have h1 : x.toNat = y.toNat := by
      have := congrArg (· % 2 ^ w) hv
      simpa [Nat.add_mul_mod_self_left, Nat.mod_eq_of_lt hx, Nat.mod_eq_of_lt hy] using this
    have h2 : limbsVal xs = limbsVal ys := by
      have := congrArg (· / 2 ^ w) hv
      simpa [Nat.add_mul_div_left _ _ (Nat.two_pow_pos w), Nat.div_eq_of_lt hx,
        Nat.div_eq_of_lt hy] using this
    rw [BitVec.eq_of_toNat_eq h1, limbsVal_inj (by simpa using h) h2]

theorem limbsVal_eq_zero_iff (xs : List (BitVec w)) :
    limbsVal xs = 0 ↔ ∀ x ∈ xs, x = 0#w := by
  induction xs with
  | nil => simp
  | cons x xs ih =>
    simp only [limbsVal_cons, List.mem_cons, forall_eq_or_imp, ← ih, Nat.add_eq_zero_iff,
      Nat.mul_eq_zero]
    have hp : 2 ^ w ≠ 0 := (Nat.two_pow_pos w).ne'
    constructor
    · rintro ⟨h1, h2⟩
      exact ⟨BitVec.eq_of_toNat_eq (by simpa using h1), h2.resolve_left hp⟩
    · rintro ⟨rfl, h2⟩
      exact ⟨by simp, Or.inr h2⟩

namespace BigInt

/-! ## Addition and subtraction -/

theorem addGo_spec (hw : 0 < w) : ∀ (a b : Limbs w) (c : BitVec w), a.length = b.length →
    c.toNat ≤ 1 →
    limbsVal (addGo a b c).1 + 2 ^ (w * a.length) * (addGo a b c).2.toNat
      = limbsVal a + limbsVal b + c.toNat ∧
    (addGo a b c).2.toNat ≤ 1 ∧ (addGo a b c).1.length = a.length
  | [], [], c, _, hc => by simp [addGo, hc]
  | [], _ :: _, _, h, _ => by simp at h
  | _ :: _, [], _, h, _ => by simp at h
  | x :: xs, y :: ys, c, h, hc => by
    obtain ⟨h1, h1'⟩ := addWithCarry_spec hw x y c hc
    obtain ⟨h2, h3, h4⟩ := addGo_spec hw xs ys (addWithCarry x y c).carry (by simpa using h) h1'
    refine ⟨?_, h3, by simp [addGo, h4]⟩
    simp only [addGo, limbsVal_cons, List.length_cons, Nat.mul_succ, pow_add]
    linear_combination h1 + 2 ^ w * h2

theorem subGo_spec (hw : 0 < w) : ∀ (a b : Limbs w) (c : BitVec w), a.length = b.length →
    c.toNat ≤ 1 →
    limbsVal (subGo a b c).1 + limbsVal b + c.toNat
      = limbsVal a + 2 ^ (w * a.length) * (subGo a b c).2.toNat ∧
    (subGo a b c).2.toNat ≤ 1 ∧ (subGo a b c).1.length = a.length
  | [], [], c, _, hc => by simp [subGo, hc]
  | [], _ :: _, _, h, _ => by simp at h
  | _ :: _, [], _, h, _ => by simp at h
  | x :: xs, y :: ys, c, h, hc => by
    obtain ⟨h1, h1'⟩ := subWithBorrow_spec x y c hw hc
    obtain ⟨h2, h3, h4⟩ := subGo_spec hw xs ys (subWithBorrow x y c).borrow (by simpa using h) h1'
    refine ⟨?_, h3, by simp [subGo, h4]⟩
    simp only [subGo, limbsVal_cons, List.length_cons, Nat.mul_succ, pow_add]
    linear_combination h1 + 2 ^ w * h2

theorem add_spec (hw : 0 < w) (a b : Limbs w) (h : a.length = b.length) :
    limbsVal (add a b).1 + 2 ^ (w * a.length) * (add a b).2.toNat = limbsVal a + limbsVal b ∧
    (add a b).2.toNat ≤ 1 ∧ (add a b).1.length = a.length := by
  unfold add
  simpa using addGo_spec hw a b 0#w h (by simp)

theorem sub_spec (hw : 0 < w) (a b : Limbs w) (h : a.length = b.length) :
    limbsVal (sub a b).1 + limbsVal b = limbsVal a + 2 ^ (w * a.length) * (sub a b).2.toNat ∧
    (sub a b).2.toNat ≤ 1 ∧ (sub a b).1.length = a.length := by
  unfold sub
  simpa using subGo_spec hw a b 0#w h (by simp)

theorem sub_val_of_le (hw : 0 < w) (a b : Limbs w) (h : a.length = b.length)
    (hle : limbsVal b ≤ limbsVal a) :
    limbsVal (sub a b).1 = limbsVal a - limbsVal b ∧ (sub a b).2 = 0#w := by
  obtain ⟨h1, h2, h3⟩ := sub_spec hw a b h
  have hlt := limbsVal_lt (sub a b).1
  rw [h3] at hlt
  have h0 : (sub a b).2.toNat = 0 := by
    by_contra hne
    have : (sub a b).2.toNat = 1 := by omega
    rw [this] at h1; omega
  rw [h0] at h1
  exact ⟨by omega, BitVec.eq_of_toNat_eq (by simpa using h0)⟩

theorem sub_val_of_lt (hw : 0 < w) (a b : Limbs w) (h : a.length = b.length)
    (hlt : limbsVal a < limbsVal b) :
    limbsVal (sub a b).1 = 2 ^ (w * a.length) + limbsVal a - limbsVal b ∧
      (sub a b).2.toNat = 1 := by
  obtain ⟨h1, h2, h3⟩ := sub_spec hw a b h
  have h0 : (sub a b).2.toNat = 1 := by
    by_contra hne
    have : (sub a b).2.toNat = 0 := by omega
    rw [this] at h1; omega
  rw [h0] at h1
  exact ⟨by omega, h0⟩

/-! ## Shifts by one -/

theorem or_eq_add_of_lt {x y k : Nat} (hy : y < 2 ^ k) : (2 ^ k * x) ||| y = 2 ^ k * x + y :=
  (Nat.two_pow_add_eq_or_of_lt hy x).symm

theorem shl_or_spec {n : Nat} (hn : n ≤ w) (x t : BitVec w) (ht : t.toNat < 2 ^ n) :
    ((x <<< n) ||| t).toNat + 2 ^ w * (x >>> (w - n)).toNat = 2 ^ n * x.toNat + t.toNat := by
  rw [BitVec.toNat_or, BitVec.toNat_shiftLeft, BitVec.toNat_ushiftRight,
    Nat.shiftLeft_eq, Nat.shiftRight_eq_div_pow]
  have hwn : 2 ^ w = 2 ^ n * 2 ^ (w - n) := by rw [← pow_add]; congr 1; omega
  rw [Nat.mul_comm x.toNat, hwn, Nat.mul_mod_mul_left, or_eq_add_of_lt ht, Nat.mul_assoc]
  have := Nat.mod_add_div x.toNat (2 ^ (w - n))
  linear_combination 2 ^ n * this

theorem ushr_lt {n : Nat} (hn : n ≤ w) (x : BitVec w) : (x >>> (w - n)).toNat < 2 ^ n := by
  rw [BitVec.toNat_ushiftRight, Nat.shiftRight_eq_div_pow,
    Nat.div_lt_iff_lt_mul (Nat.two_pow_pos _), ← pow_add, show n + (w - n) = w by omega]
  exact x.isLt

theorem mulBy2_spec (hw : 0 < w) : ∀ (a : Limbs w) (c : BitVec w), c.toNat ≤ 1 →
    limbsVal (mulBy2 a c).1 + 2 ^ (w * a.length) * (mulBy2 a c).2.toNat
      = 2 * limbsVal a + c.toNat ∧
    (mulBy2 a c).2.toNat ≤ 1 ∧ (mulBy2 a c).1.length = a.length
  | [], c, hc => by simp [mulBy2, hc]
  | x :: xs, c, hc => by
    have h1 := shl_or_spec (n := 1) hw x c (by omega)
    have h1' := ushr_lt (n := 1) hw x
    obtain ⟨h2, h3, h4⟩ := mulBy2_spec hw xs (x >>> (w - 1)) (by omega)
    refine ⟨?_, h3, by simp [mulBy2, h4]⟩
    simp only [mulBy2, limbsVal_cons, List.length_cons, Nat.mul_succ, pow_add]
    linear_combination h1 + 2 ^ w * h2

theorem shr_or_spec {n : Nat} (hn : n ≤ w) (x t : BitVec w) (q : Nat)
    (ht : t.toNat = 2 ^ (w - n) * q) :
    ((x >>> n) ||| t).toNat = x.toNat / 2 ^ n + 2 ^ (w - n) * q := by
  rw [BitVec.toNat_or, BitVec.toNat_ushiftRight, Nat.shiftRight_eq_div_pow, ht, Nat.or_comm,
    or_eq_add_of_lt, Nat.add_comm]
  rw [Nat.div_lt_iff_lt_mul (Nat.two_pow_pos _), ← pow_add, show (w - n) + n = w by omega]
  exact x.isLt

theorem shl_spec {n : Nat} (hn : n ≤ w) (x : BitVec w) :
    (x <<< (w - n)).toNat = 2 ^ (w - n) * (x.toNat % 2 ^ n) := by
  rw [BitVec.toNat_shiftLeft, Nat.shiftLeft_eq]
  have hwn : 2 ^ w = 2 ^ (w - n) * 2 ^ n := by rw [← pow_add]; congr 1; omega
  rw [Nat.mul_comm x.toNat, hwn, Nat.mul_mod_mul_left]

theorem bitShiftDown_spec {n : Nat} (hn : n ≤ w) : ∀ (a : Limbs w),
    limbsVal (bitShiftDown n a).1 = limbsVal a / 2 ^ n ∧
    (bitShiftDown n a).2.toNat = 2 ^ (w - n) * (limbsVal a % 2 ^ n) ∧
    (bitShiftDown n a).1.length = a.length
  | [] => by simp [bitShiftDown]
  | x :: xs => by
    obtain ⟨h1, h2, h3⟩ := bitShiftDown_spec hn xs
    have hwn : 2 ^ w = 2 ^ n * 2 ^ (w - n) := by rw [← pow_add]; congr 1; omega
    refine ⟨?_, ?_, by simp [bitShiftDown, h3]⟩
    · simp only [bitShiftDown, limbsVal_cons, shr_or_spec hn x _ _ h2, h1]
      rw [hwn, Nat.mul_assoc, Nat.mul_assoc, Nat.add_mul_div_left _ _ (Nat.two_pow_pos n),
        Nat.add_assoc]
      congr 1
      have := Nat.mod_add_div (limbsVal xs) (2 ^ n)
      linear_combination 2 ^ (w - n) * this
    · simp only [bitShiftDown, limbsVal_cons, shl_spec hn]
      rw [hwn, Nat.mul_assoc, Nat.add_mul_mod_self_left]

theorem divBy2Go_eq (a : Limbs w) : divBy2Go a = bitShiftDown 1 a := by
  induction a with
  | nil => rfl
  | cons x xs ih => simp [divBy2Go, bitShiftDown, ih]

theorem divBy2_spec (hw : 0 < w) (a : Limbs w) :
    limbsVal (divBy2 a) = limbsVal a / 2 ∧ (divBy2 a).length = a.length := by
  have := bitShiftDown_spec (n := 1) hw a
  simp only [divBy2, divBy2Go_eq]
  exact ⟨by simpa using this.1, this.2.2⟩

/-! ## General shifts -/

theorem swapUp_length : ∀ (t : BitVec w) (a : Limbs w), (swapUp t a).length = a.length
  | _, [] => rfl
  | _, x :: xs => by simp [swapUp, swapUp_length x xs]

theorem swapUp_spec : ∀ (t : BitVec w) (a : Limbs w),
    limbsVal (swapUp t a) = (t.toNat + 2 ^ w * limbsVal a) % 2 ^ (w * a.length)
  | t, [] => by simp [swapUp, Nat.mod_one]
  | t, x :: xs => by
    simp only [swapUp, limbsVal_cons, List.length_cons, Nat.mul_succ, swapUp_spec x xs]
    rw [pow_add, Nat.mul_comm (2 ^ (w * xs.length)), Nat.mod_mul, Nat.add_mul_mod_self_left,
      Nat.mod_eq_of_lt t.isLt, Nat.add_mul_div_left _ _ (Nat.two_pow_pos w),
      Nat.div_eq_of_lt t.isLt, Nat.zero_add]

theorem limbShiftUp_spec (hw : 0 < w) (a : Limbs w) (n : Nat) :
    (limbShiftUp a n).1.length = a.length ∧ (limbShiftUp a n).2 < w ∧
    (2 ^ (limbShiftUp a n).2 * limbsVal (limbShiftUp a n).1) % 2 ^ (w * a.length)
      = (2 ^ n * limbsVal a) % 2 ^ (w * a.length) := by
  fun_induction limbShiftUp a n with
  | case1 a n h ih =>
    obtain ⟨h1, h2, h3⟩ := ih
    rw [swapUp_length] at h1 h3
    refine ⟨h1, h2, ?_⟩
    rw [h3, swapUp_spec, Nat.mul_mod_mod]
    congr 1
    have : 2 ^ n = 2 ^ (n - w) * 2 ^ w := by rw [← pow_add]; congr 1; omega
    rw [this]; simp; ring
  | case2 a n h => exact ⟨rfl, by omega, rfl⟩

theorem bitShiftUp_length {n : Nat} : ∀ (t : BitVec w) (a : Limbs w),
    (bitShiftUp n t a).length = a.length
  | _, [] => rfl
  | _, x :: xs => by simp [bitShiftUp, bitShiftUp_length _ xs]

theorem bitShiftUp_spec {n : Nat} (hn : n ≤ w) : ∀ (t : BitVec w) (a : Limbs w), t.toNat < 2 ^ n →
    limbsVal (bitShiftUp n t a) = (2 ^ n * limbsVal a + t.toNat) % 2 ^ (w * a.length)
  | t, [], _ => by simp [bitShiftUp, Nat.mod_one]
  | t, x :: xs, ht => by
    simp only [bitShiftUp, limbsVal_cons, List.length_cons, Nat.mul_succ,
      bitShiftUp_spec hn _ xs (ushr_lt hn x)]
    have h1 := shl_or_spec hn x t ht
    have hl := ((x <<< n) ||| t).isLt
    have : 2 ^ n * (x.toNat + 2 ^ w * limbsVal xs) + t.toNat =
        ((x <<< n) ||| t).toNat + 2 ^ w * (2 ^ n * limbsVal xs + (x >>> (w - n)).toNat) := by
      linear_combination -h1
    rw [this, pow_add, Nat.mul_comm (2 ^ (w * xs.length)), Nat.mod_mul, Nat.add_mul_mod_self_left,
      Nat.mod_eq_of_lt hl, Nat.add_mul_div_left _ _ (Nat.two_pow_pos w), Nat.div_eq_of_lt hl,
      Nat.zero_add]

theorem mulBy2Exp_spec (hw : 0 < w) (a : Limbs w) (n : Nat) :
    limbsVal (mulBy2Exp a n) = (2 ^ n * limbsVal a) % 2 ^ (w * a.length) ∧
    (mulBy2Exp a n).length = a.length := by
  unfold mulBy2Exp
  split
  · rename_i h
    refine ⟨?_, by simp⟩
    have : 2 ^ n = 2 ^ (w * a.length) * 2 ^ (n - w * a.length) := by
      rw [← pow_add]; congr 1; omega
    rw [this, Nat.mul_assoc, Nat.mul_mod_right]; simp
  · obtain ⟨h1, h2, h3⟩ := limbShiftUp_spec hw a n
    dsimp only
    split
    · refine ⟨?_, by rw [bitShiftUp_length, h1]⟩
      rw [bitShiftUp_spec h2.le _ _ (by simp), h1]
      simpa using h3
    · refine ⟨?_, h1⟩
      have h0 : (limbShiftUp a n).2 = 0 := by omega
      rw [h0] at h3
      rw [← h3, pow_zero, Nat.one_mul, Nat.mod_eq_of_lt]
      rw [← h1]; exact limbsVal_lt _

theorem swapDown_spec : ∀ (a : Limbs w),
    limbsVal (swapDown a).1 = limbsVal a / 2 ^ w ∧
    (swapDown a).2.toNat = limbsVal a % 2 ^ w ∧
    (swapDown a).1.length = a.length
  | [] => by simp [swapDown]
  | x :: xs => by
    obtain ⟨h1, h2, h3⟩ := swapDown_spec xs
    refine ⟨?_, ?_, by simp [swapDown, h3]⟩
    · simp only [swapDown, limbsVal_cons, h1, h2, Nat.mod_add_div]
      rw [Nat.add_mul_div_left _ _ (Nat.two_pow_pos w), Nat.div_eq_of_lt x.isLt, Nat.zero_add]
    · simp only [swapDown, limbsVal_cons]
      rw [Nat.add_mul_mod_self_left, Nat.mod_eq_of_lt x.isLt]

theorem limbShiftDown_spec (hw : 0 < w) (a : Limbs w) (n : Nat) :
    (limbShiftDown a n).1.length = a.length ∧ (limbShiftDown a n).2 < w ∧
    limbsVal (limbShiftDown a n).1 / 2 ^ (limbShiftDown a n).2 = limbsVal a / 2 ^ n := by
  fun_induction limbShiftDown a n with
  | case1 a n h ih =>
    obtain ⟨h1, h2, h3⟩ := ih
    obtain ⟨g1, g2, g3⟩ := swapDown_spec a
    refine ⟨by rw [h1, g3], h2, ?_⟩
    rw [h3, g1, Nat.div_div_eq_div_mul, ← pow_add]
    congr 2; omega
  | case2 a n h => exact ⟨rfl, by omega, rfl⟩

theorem divBy2Exp_spec (hw : 0 < w) (a : Limbs w) (n : Nat) :
    limbsVal (divBy2Exp a n) = limbsVal a / 2 ^ n ∧ (divBy2Exp a n).length = a.length := by
  unfold divBy2Exp
  split
  · rename_i h
    refine ⟨?_, by simp⟩
    rw [Nat.div_eq_of_lt, limbsVal_zero]
    exact lt_of_lt_of_le (limbsVal_lt a) (Nat.pow_le_pow_right (by omega) h)
  · obtain ⟨h1, h2, h3⟩ := limbShiftDown_spec hw a n
    dsimp only
    split
    · obtain ⟨g1, g2, g3⟩ := bitShiftDown_spec h2.le (limbShiftDown a n).1
      exact ⟨by rw [g1, h3], by rw [g3, h1]⟩
    · have h0 : (limbShiftDown a n).2 = 0 := by omega
      rw [h0] at h3
      exact ⟨by simpa using h3, h1⟩

/-! ## Comparison -/

theorem ltGo_spec : ∀ (a b : Limbs w), a.length = b.length →
    ltGo a b = if limbsVal a = limbsVal b then none else some (decide (limbsVal a < limbsVal b))
  | [], [], _ => by simp [ltGo]
  | [], _ :: _, h => by simp at h
  | _ :: _, [], h => by simp at h
  | x :: xs, y :: ys, h => by
    have hx := x.isLt; have hy := y.isLt
    have hp := Nat.two_pow_pos w
    simp only [ltGo, ltGo_spec xs ys (by simpa using h), limbsVal_cons]
    by_cases hv : limbsVal xs = limbsVal ys
    · rw [if_pos hv, hv]
      by_cases hxy : x = y
      · simp [hxy]
      · have : x.toNat ≠ y.toNat := fun h => hxy (BitVec.eq_of_toNat_eq h)
        simp [hxy, this]
    · rw [if_neg hv]
      have hne : x.toNat + 2 ^ w * limbsVal xs ≠ y.toNat + 2 ^ w * limbsVal ys := by
        intro he
        have := congrArg (· / 2 ^ w) he
        simp [Nat.add_mul_div_left _ _ hp, Nat.div_eq_of_lt hx, Nat.div_eq_of_lt hy] at this
        exact hv this
      rw [if_neg hne]
      show some _ = some _
      congr 2
      apply propext
      constructor
      · intro hl
        have : 2 ^ w * limbsVal xs + 2 ^ w ≤ 2 ^ w * limbsVal ys := by
          rw [← Nat.mul_succ]; exact Nat.mul_le_mul_left _ hl
        omega
      · intro hl
        by_contra hc
        have : 2 ^ w * limbsVal ys + 2 ^ w ≤ 2 ^ w * limbsVal xs := by
          rw [← Nat.mul_succ]; exact Nat.mul_le_mul_left _ (by omega)
        omega

theorem gtGo_eq : ∀ (a b : Limbs w), gtGo a b = ltGo b a
  | [], [] => rfl
  | [], _ :: _ => rfl
  | _ :: _, [] => rfl
  | x :: xs, y :: ys => by
    simp only [gtGo, ltGo, gtGo_eq xs ys]
    by_cases h : x = y
    · simp [h]
    · simp [h, Ne.symm h]

theorem lt_spec (a b : Limbs w) (h : a.length = b.length) :
    lt a b = decide (limbsVal a < limbsVal b) := by
  unfold lt; rw [ltGo_spec a b h]
  by_cases hv : limbsVal a = limbsVal b <;> simp [hv]

theorem gt_spec (a b : Limbs w) (h : a.length = b.length) :
    gt a b = decide (limbsVal b < limbsVal a) := by
  unfold gt; rw [gtGo_eq, ltGo_spec b a h.symm]
  by_cases hv : limbsVal b = limbsVal a <;> simp [hv]

theorem le_spec (a b : Limbs w) (h : a.length = b.length) :
    le a b = decide (limbsVal a ≤ limbsVal b) := by
  unfold le; rw [ltGo_spec a b h]
  by_cases hv : limbsVal a = limbsVal b
  · simp [hv]
  · simp only [if_neg hv]; congr 1; apply propext; omega

theorem ge_spec (a b : Limbs w) (h : a.length = b.length) :
    ge a b = decide (limbsVal b ≤ limbsVal a) := by
  unfold ge; rw [gtGo_eq, ltGo_spec b a h.symm]
  by_cases hv : limbsVal b = limbsVal a
  · simp [hv]
  · simp only [if_neg hv]; congr 1; apply propext; omega

theorem eq_spec : ∀ (a b : Limbs w), a.length = b.length →
    eq a b = decide (limbsVal a = limbsVal b) := by
  have key : ∀ (a b : Limbs w), a.length = b.length → eq a b = decide (a = b) := by
    intro a
    induction a with
    | nil => intro b h; cases b <;> simp_all [eq]
    | cons x xs ih =>
      intro b h
      cases b with
      | nil => simp at h
      | cons y ys =>
        by_cases hxy : x = y <;> simp [eq, ih ys (by simpa using h), hxy]
  intro a b h
  rw [key a b h]
  congr 1; apply propext
  exact ⟨fun h => by rw [h], limbsVal_inj h⟩

theorem isZero_spec (a : Limbs w) : isZero a = decide (limbsVal a = 0) := by
  unfold isZero
  rw [Bool.eq_iff_iff]
  simp [limbsVal_eq_zero_iff]

theorem isOne_spec (hw : 0 < w) (a : Limbs w) : isOne a = decide (limbsVal a = 1) := by
  have h2 : 2 ≤ 2 ^ w := by
    calc 2 = 2 ^ 1 := rfl
      _ ≤ 2 ^ w := Nat.pow_le_pow_right (by omega) hw
  have h1 : (1#w).toNat = 1 := by
    rw [BitVec.toNat_ofNat]; exact Nat.mod_eq_of_lt (by omega)
  cases a with
  | nil => simp [isOne]
  | cons x xs =>
    rw [Bool.eq_iff_iff]
    have hz := isZero_spec xs
    simp only [isZero] at hz
    simp only [isOne, hz, Bool.and_eq_true, decide_eq_true_eq, beq_iff_eq, limbsVal_cons]
    constructor
    · rintro ⟨h, rfl⟩; rw [h, h1]; simp
    · intro h
      have : limbsVal xs = 0 := by
        by_contra hne
        have : 2 ^ w * 1 ≤ 2 ^ w * limbsVal xs := Nat.mul_le_mul_left _ (by omega)
        omega
      refine ⟨this, BitVec.eq_of_toNat_eq ?_⟩
      rw [this] at h; rw [h1]; simpa using h

theorem limbsVal_mod_two (hw : 0 < w) (x : BitVec w) (xs : Limbs w) :
    limbsVal (x :: xs) % 2 = x.toNat % 2 := by
  have : 2 ^ w = 2 * 2 ^ (w - 1) := by rw [← pow_succ']; congr 1; omega
  rw [limbsVal_cons, this, Nat.mul_assoc]
  omega

theorem isEven_spec (hw : 0 < w) (a : Limbs w) : isEven a = decide (limbsVal a % 2 = 0) := by
  cases a with
  | nil => simp [isEven]
  | cons x xs => rw [limbsVal_mod_two hw]; simp only [isEven]; rfl

theorem isOdd_spec (hw : 0 < w) (a : Limbs w) : isOdd a = decide (limbsVal a % 2 = 1) := by
  cases a with
  | nil => simp [isOdd]
  | cons x xs => rw [limbsVal_mod_two hw]; simp only [isOdd]; rfl

/-! ## Products -/

theorem mulAddRow_spec (x : BitVec w) : ∀ (ys rs : Limbs w) (c : BitVec w),
    ys.length ≤ rs.length →
    limbsVal (mulAddRow x ys rs c).1 + 2 ^ (w * ys.length) * (mulAddRow x ys rs c).2.toNat
      = limbsVal (rs.take ys.length) + x.toNat * limbsVal ys + c.toNat ∧
    (mulAddRow x ys rs c).1.length = ys.length
  | [], _, c, _ => by simp [mulAddRow]
  | _ :: _, [], _, h => by simp at h
  | y :: ys, r :: rs, c, h => by
    have h1 := mulAdd_spec r x y c
    obtain ⟨h2, h3⟩ := mulAddRow_spec x ys rs (mulAddWithCarry r x y c).hi (by simpa using h)
    refine ⟨?_, by simp [mulAddRow, h3]⟩
    simp only [mulAddRow, limbsVal_cons, List.length_cons, Nat.mul_succ, pow_add,
      List.take_succ_cons]
    linear_combination h1 + 2 ^ w * h2

/-- The memory invariant of `Multiply`: row `i` adds `x * b` provided the word that the high half
is stored into was zero, as are all later ones. -/
theorem multiplyGo_spec (b : Limbs w) : ∀ (a r : Limbs w),
    r.length = a.length + b.length → (∀ x ∈ r.drop b.length, x = 0#w) →
    limbsVal (multiplyGo b a r) = limbsVal r + limbsVal a * limbsVal b ∧
    (multiplyGo b a r).length = r.length
  | [], r, _, _ => by simp [multiplyGo]
  | x :: xs, r, hl, hz => by
    simp only [List.length_cons] at hl
    obtain ⟨h1, h2⟩ := mulAddRow_spec x b r 0#w (by omega)
    have hsplit : r = r.take b.length ++ r.drop b.length := (List.take_append_drop _ _).symm
    have hval0 : limbsVal (r.drop b.length) = 0 := (limbsVal_eq_zero_iff _).2 hz
    have hval1 : limbsVal (r.drop (b.length + 1)) = 0 := by
      rw [limbsVal_eq_zero_iff]
      intro y hy; apply hz
      rw [← List.drop_drop] at hy
      exact List.mem_of_mem_drop hy
    have hr : limbsVal r = limbsVal (r.take b.length) := by
      conv_lhs => rw [hsplit, limbsVal_append, hval0]
      simp
    simp only [multiplyGo]
    generalize hL : (mulAddRow x b r 0#w).1 ++ (mulAddRow x b r 0#w).2 :: r.drop (b.length + 1) = L
    have hLval : limbsVal L = limbsVal r + x.toNat * limbsVal b := by
      rw [← hL, limbsVal_append, h2, limbsVal_cons, hval1, hr]
      simp only [BitVec.toNat_ofNat, Nat.zero_mod] at h1
      linear_combination h1
    have hLlen : L.length = r.length := by
      rw [← hL]; simp [h2]; omega
    match L, hL, hLval, hLlen with
    | [], _, _, h => simp at h; omega
    | o :: rest, hL, hLval, hLlen =>
      simp only [List.length_cons] at hLlen
      obtain ⟨h3, h4⟩ := multiplyGo_spec b xs rest (by omega) (by
        intro y hy
        have : rest.drop b.length = (o :: rest).drop (b.length + 1) := by simp
        rw [this, ← hL, List.drop_append] at hy
        rw [h2] at hy
        simp only [Nat.add_sub_cancel_left, List.drop_succ_cons, List.drop_zero,
          List.mem_append] at hy
        rcases hy with hy | hy
        · have := List.drop_eq_nil_of_le (as := (mulAddRow x b r 0#w).1) (i := b.length + 1) (by omega)
          rw [this] at hy; simp at hy
        · apply hz
          rw [← List.drop_drop] at hy
          exact List.mem_of_mem_drop hy)
      refine ⟨?_, by simp [h4, hLlen]⟩
      simp only [limbsVal_cons] at hLval ⊢
      linear_combination hLval + 2 ^ w * h3

theorem mulExtend_spec (a b : Limbs w) (h : a.length = b.length) :
    limbsVal (mulExtend a b) = limbsVal a * limbsVal b ∧
    (mulExtend a b).length = 2 * a.length := by
  have := multiplyGo_spec b a (zero (2 * a.length)) (by simp; omega) (by
    intro x hx
    have := List.mem_of_mem_drop hx
    simpa [zero] using List.eq_of_mem_replicate this)
  simpa [mulExtend] using this

end BigInt
end Tachyon
