/-!
# Specification: the natural number denoted by a list of machine words

Independent of the code: a little-endian list of `w`-bit words denotes a natural number.
-/
namespace Tachyon

/-- The natural number denoted by a little-endian list of `w`-bit words. -/
def limbsVal {w : Nat} : List (BitVec w) → Nat
  | [] => 0
  | x :: xs => x.toNat + 2 ^ w * limbsVal xs

end Tachyon
