import Verif.Proofs.Divide
/-!
# Properties C01-C05: big-integer arithmetic

`limbsVal` (Verif/Spec/Limbs.lean) is the number denoted by a limb list. All statements hold for
every word width `w > 0` (the code uses 64) and every number of limbs.
-/
namespace Tachyon.Props
open Tachyon.BigInt

variable {w : Nat}

/-- C01, addition: sum and carry-out are exact, the carry is 0 or 1, the length is kept. -/
theorem C01_add (hw : 0 < w) (a b : List (BitVec w)) (h : a.length = b.length) :
    limbsVal (add a b).1 + 2 ^ (w * a.length) * (add a b).2.toNat = limbsVal a + limbsVal b ∧
    (add a b).2.toNat ≤ 1 ∧ (add a b).1.length = a.length :=
  add_spec hw a b h

/-- C01, subtraction: difference and borrow-out are exact. -/
theorem C01_sub (hw : 0 < w) (a b : List (BitVec w)) (h : a.length = b.length) :
    limbsVal (sub a b).1 + limbsVal b = limbsVal a + 2 ^ (w * a.length) * (sub a b).2.toNat ∧
    (sub a b).2.toNat ≤ 1 ∧ (sub a b).1.length = a.length :=
  sub_spec hw a b h

-- a carry that ripples through a limb and out of the top
example : add [0xffffffffffffffff#64, 0xffffffffffffffff#64] [1#64, 0#64] = ([0#64, 0#64], 1#64) := by
  decide
example : sub [0#64, 0#64] [1#64, 0#64] = ([0xffffffffffffffff#64, 0xffffffffffffffff#64], 1#64) := by
  decide

/-- The portable 64-bit `SubWithBorrow` (compiled only without clang and off x86-64) returns the
*inverted* borrow: it reports a borrow of 1 for `1 - 0`. -/
theorem C01_portable_borrow_inverted :
    (subWithBorrowPortable64 1#64 0#64 0#64).borrow = 1#64 ∧
    (subWithBorrowPortable64 0#64 1#64 0#64).borrow = 0#64 := by decide

/-- C02, doubling: `MulBy2` returns `2a` with the dropped bit as carry. -/
theorem C02_mulBy2 (hw : 0 < w) (a : List (BitVec w)) :
    limbsVal (mulBy2 a 0#w).1 + 2 ^ (w * a.length) * (mulBy2 a 0#w).2.toNat = 2 * limbsVal a ∧
    (mulBy2 a 0#w).2.toNat ≤ 1 ∧ (mulBy2 a 0#w).1.length = a.length := by
  simpa using mulBy2_spec hw a 0#w (by simp)

/-- C02, halving. -/
theorem C02_divBy2 (hw : 0 < w) (a : List (BitVec w)) :
    limbsVal (divBy2 a) = limbsVal a / 2 ∧ (divBy2 a).length = a.length :=
  divBy2_spec hw a

/-- C02, left shift by any amount. -/
theorem C02_shiftLeft (hw : 0 < w) (a : List (BitVec w)) (n : Nat) :
    limbsVal (mulBy2Exp a n) = (limbsVal a * 2 ^ n) % 2 ^ (w * a.length) ∧
    (mulBy2Exp a n).length = a.length := by
  rw [Nat.mul_comm]; exact mulBy2Exp_spec hw a n

/-- C02, right shift by any amount. -/
theorem C02_shiftRight (hw : 0 < w) (a : List (BitVec w)) (n : Nat) :
    limbsVal (divBy2Exp a n) = limbsVal a / 2 ^ n ∧ (divBy2Exp a n).length = a.length :=
  divBy2Exp_spec hw a n

example : (mulBy2 [0x8000000000000000#64, 0x8000000000000001#64] 0#64)
    = ([0#64, 3#64], 1#64) := by decide
example : divBy2 [1#64, 1#64] = [0x8000000000000000#64, 0#64] := by decide

/-- C03: `Multiply` returns both halves of the exact product. -/
theorem C03_multiply (a b : List (BitVec w)) (h : a.length = b.length) :
    limbsVal (mulLo a b) + 2 ^ (w * a.length) * limbsVal (mulHi a b) = limbsVal a * limbsVal b ∧
    (mulLo a b).length = a.length ∧ (mulHi a b).length = a.length := by
  obtain ⟨h1, h2⟩ := mulExtend_spec a b h
  have hl : ((mulExtend a b).take a.length).length = a.length := by rw [List.length_take, h2]; omega
  refine ⟨?_, hl, by rw [mulHi, List.length_drop, h2]; omega⟩
  have hs : mulExtend a b = (mulExtend a b).take a.length ++ (mulExtend a b).drop a.length :=
    (List.take_append_drop _ _).symm
  rw [← h1]
  conv_rhs => rw [hs, limbsVal_append, hl]
  rfl

example : mulHi [0xffffffffffffffff#64, 0xffffffffffffffff#64]
    [0xffffffffffffffff#64, 0xffffffffffffffff#64]
    = [0xfffffffffffffffe#64, 0xffffffffffffffff#64] := by decide

/-- C04: for a non-zero divisor `Divide` succeeds with the Euclidean quotient and remainder. -/
theorem C04_divide (hw : 0 < w) (a d : List (BitVec w)) (h : d.length = a.length)
    (hd : limbsVal d ≠ 0) :
    ∃ q r, divide a d = some (q, r) ∧ q.length = a.length ∧ r.length = a.length ∧
      limbsVal a = limbsVal q * limbsVal d + limbsVal r ∧ limbsVal r < limbsVal d := by
  obtain ⟨q, r, h1, h2, h3, h4, h5⟩ := divide_spec hw a d h hd
  refine ⟨q, r, h1, h2, h3, ?_, by rw [h5]; exact Nat.mod_lt _ (by omega)⟩
  rw [h4, h5, Nat.mul_comm]; exact (Nat.div_add_mod _ _).symm

/-- C04: division by zero is reported, and only then. -/
theorem C04_divide_fails_iff (hw : 0 < w) (a d : List (BitVec w)) (h : d.length = a.length) :
    divide a d = none ↔ limbsVal d = 0 := by
  constructor
  · intro hn
    by_contra hd
    obtain ⟨q, r, h1, _⟩ := divide_spec hw a d h hd
    rw [hn] at h1; cases h1
  · intro h0
    unfold divide
    rw [isZero_spec]; simp [h0]

/-- C04: `Div` and `Mod` return the Euclidean quotient and remainder; `Div` by zero fails and `Mod`
by zero is the default-constructed zero. -/
theorem C04_div_mod (hw : 0 < w) (a d : List (BitVec w)) (h : d.length = a.length) :
    (limbsVal d ≠ 0 → (∃ q, div a d = some q ∧ q.length = a.length ∧
        limbsVal q = limbsVal a / limbsVal d) ∧ (mod a d).length = a.length ∧
        limbsVal (mod a d) = limbsVal a % limbsVal d) ∧
    (limbsVal d = 0 → div a d = none ∧ limbsVal (mod a d) = 0) := by
  constructor
  · intro hd
    obtain ⟨q, r, h1, h2, h3, h4, h5⟩ := divide_spec hw a d h hd
    refine ⟨⟨q, by unfold div; rw [h1]; rfl, h2, h4⟩, ?_, ?_⟩ <;> unfold mod <;> rw [h1]
    · exact h3
    · exact h5
  · intro h0
    have hn := (C04_divide_fails_iff hw a d h).2 h0
    unfold div mod; rw [hn]
    exact ⟨rfl, limbsVal_zero _⟩

example : div [0xf#4, 0xf#4] [0x1#4, 0x8#4] = some [0x1#4, 0x0#4] ∧
    mod [0xf#4, 0xf#4] [0x1#4, 0x8#4] = [0xe#4, 0x7#4] := by decide

-- a division whose intermediate remainder overflows the top limb
example : divide [0xf#4, 0xf#4] [0x1#4, 0x8#4] = some ([0x1#4, 0x0#4], [0xe#4, 0x7#4]) := by decide

/-- C05: all six comparison operators are the numeric ones. -/
theorem C05_compare (a b : List (BitVec w)) (h : a.length = b.length) :
    lt a b = decide (limbsVal a < limbsVal b) ∧ le a b = decide (limbsVal a ≤ limbsVal b) ∧
    gt a b = decide (limbsVal a > limbsVal b) ∧ ge a b = decide (limbsVal a ≥ limbsVal b) ∧
    eq a b = decide (limbsVal a = limbsVal b) ∧ (!eq a b) = decide (limbsVal a ≠ limbsVal b) := by
  refine ⟨lt_spec a b h, le_spec a b h, gt_spec a b h, ge_spec a b h, eq_spec a b h, ?_⟩
  rw [eq_spec a b h, decide_not]

/-- C05: the tests against 0, 1 and parity. -/
theorem C05_tests (hw : 0 < w) (a : List (BitVec w)) :
    isZero a = decide (limbsVal a = 0) ∧ isOne a = decide (limbsVal a = 1) ∧
    isEven a = decide (limbsVal a % 2 = 0) ∧ isOdd a = decide (limbsVal a % 2 = 1) :=
  ⟨isZero_spec a, isOne_spec hw a, isEven_spec hw a, isOdd_spec hw a⟩

example : lt [5#64, 1#64] [4#64, 2#64] = true ∧ ge [5#64, 1#64] [5#64, 1#64] = true := by decide

end Tachyon.Props
