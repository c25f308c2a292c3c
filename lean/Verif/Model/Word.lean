/-!
# Model of `tachyon/math/base/arithmetics.h`

Machine words are `BitVec w`; `w = 64` is namespace `u64`, `w = 32` is namespace `u32` of
the C++ code. Double-width intermediates (`absl::uint128`, `uint64_t`) are `BitVec (2*w)` and
wrap like the C++ ones.
-/
namespace Tachyon

/-- `AddResult<T>` (math/base/arithmetics_results.h:10-25). -/
structure AddResult (w : Nat) where
  result : BitVec w
  carry : BitVec w
deriving DecidableEq, Repr

/-- `SubResult<T>` (math/base/arithmetics_results.h:27-42). -/
structure SubResult (w : Nat) where
  result : BitVec w
  borrow : BitVec w
deriving DecidableEq, Repr

/-- `MulResult<T>` (math/base/arithmetics_results.h:44-59). -/
structure MulResult (w : Nat) where
  hi : BitVec w
  lo : BitVec w
deriving DecidableEq, Repr

/-- `AddWithCarry` (math/base/arithmetics.h:36-49 for u32, :84-102 for u64), the portable branch:
a double-width sum split in two words. The compiler builtins of the other branches are specified
to return the same pair for a carry-in of 0 or 1, the only values the callers pass. -/
def addWithCarry {w : Nat} (a b carry : BitVec w) : AddResult w :=
  let tmp : BitVec (2 * w) := a.setWidth (2 * w) + b.setWidth (2 * w) + carry.setWidth (2 * w)
  { result := tmp.setWidth w, carry := (tmp >>> w).setWidth w }

/-- `SubWithBorrow` (math/base/arithmetics.h:52-67 for u32, :105-123 for u64): the behaviour of
the builtin branches `__builtin_subcl` / `_subborrow_u64` (the ones compiled by clang or on
x86-64) and of the portable u32 branch: the wrapped difference, and borrow-out 1 exactly when the
exact difference is negative. -/
def subWithBorrow {w : Nat} (a b borrow : BitVec w) : SubResult w :=
  { result := a - b - borrow,
    borrow := if a.toNat < b.toNat + borrow.toNat then 1#w else 0#w }

/-- The portable `#else` branch of the *u64* `SubWithBorrow` (math/base/arithmetics.h:117-121),
compiled neither by clang nor on x86-64: the high word of `2^64 + a - b - borrow` is returned as
the borrow. -/
def subWithBorrowPortable64 (a b borrow : BitVec 64) : SubResult 64 :=
  let tmp : BitVec 128 :=
    (1#128 <<< 64) + a.setWidth 128 - b.setWidth 128 - borrow.setWidth 128
  { result := tmp.setWidth 64, borrow := (tmp >>> 64).setWidth 64 }

/-- `MulAddWithCarry` (math/base/arithmetics.h:70-77 for u32, :126-135 for u64):
`a + b * c + carry` in a double-width word. -/
def mulAddWithCarry {w : Nat} (a b c carry : BitVec w) : MulResult w :=
  let tmp : BitVec (2 * w) :=
    a.setWidth (2 * w) + b.setWidth (2 * w) * c.setWidth (2 * w) + carry.setWidth (2 * w)
  { lo := tmp.setWidth w, hi := (tmp >>> w).setWidth w }

end Tachyon
