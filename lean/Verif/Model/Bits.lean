/-!
# Model of `tachyon/base/bits.h` and `bits.cc`

`T` is an unsigned type of `w` bits; `size_t` and `uint64_t` are `BitVec 64`.
-/
namespace Tachyon.Bits

variable {w : Nat}

/-- `IsPowerOfTwo` (bits.h:26-35). -/
def isPowerOfTwo (v : BitVec w) : Bool := decide (0#w < v) && (v &&& (v - 1#w)) == 0#w

/-- `AlignDown` of a size (bits.h:38-42); `none` is the failing `DCHECK`. -/
def alignDown (size alignment : BitVec w) : Option (BitVec w) :=
  if isPowerOfTwo alignment then some (size &&& ~~~(alignment - 1#w)) else none

/-- `AlignUp` of a size (bits.h:53-57). -/
def alignUp (size alignment : BitVec w) : Option (BitVec w) :=
  if isPowerOfTwo alignment then some ((size + alignment - 1#w) &&& ~~~(alignment - 1#w)) else none

/-- Number of leading zeros of a non-zero word, the meaning of `__builtin_clz`: scan from the top. -/
def clzGo (v : BitVec w) : Nat → Nat
  | 0 => 0
  | i + 1 => if v.getLsbD i then 0 else clzGo v i + 1

/-- `CountLeadingZeroBits` (bits.h:87-98). -/
def countLeadingZeroBits (v : BitVec w) : Nat := if v ≠ 0#w then clzGo v w else w

/-- Number of trailing zeros of a non-zero word, the meaning of `__builtin_ctz`: scan from bit
`w - fuel` up. -/
def ctzGo (v : BitVec w) : Nat → Nat
  | 0 => 0
  | n + 1 => if v.getLsbD (w - (n + 1)) then 0 else ctzGo v n + 1

/-- `CountTrailingZeroBits` (bits.h:100-109). -/
def countTrailingZeroBits (v : BitVec w) : Nat := if v ≠ 0#w then ctzGo v w else w

/-- `Log2Floor` (bits.h:118-123). -/
def log2Floor (n : BitVec w) : Int := (w : Int) - 1 - countLeadingZeroBits n

/-- `Log2Ceiling` (bits.h:126-134). -/
def log2Ceiling (n : BitVec w) : Int :=
  (if n ≠ 0#w then (w : Int) else -1) - countLeadingZeroBits (n - 1#w)

/-- `SafeLog2Ceiling` (bits.h:138-143). -/
def safeLog2Ceiling (n : BitVec w) : Int := max (log2Ceiling n) 0

/-- `CheckedLog2` (bits.h:146-152); `none` is the failing `CHECK`. -/
def checkedLog2 (n : BitVec w) : Option Nat :=
  if isPowerOfTwo n then some (countTrailingZeroBits n) else none

/-- The loop of the portable `BitRev` (bits.cc:10-16): `(rev, count)` when it ends; every iteration
shifts `n` right, so 64 iterations suffice. -/
def bitRevGo : Nat → BitVec 64 → BitVec 64 → Nat → BitVec 64 × Nat
  | 0, _, rev, count => (rev, count)
  | fuel + 1, n, rev, count =>
    let n := n >>> 1
    if 0#64 < n then bitRevGo fuel n ((rev <<< 1) ||| (n &&& 1#64)) (count - 1) else (rev, count)

/-- The portable `BitRev` (bits.cc:10-18). -/
def bitRev (n : BitVec 64) : BitVec 64 :=
  let r := bitRevGo 64 n n 63
  r.1 <<< r.2

/-- `ReverseBitsLen` (bits.h:167-169); a shift by 64 is undefined (`none`). Also `none` when
`bit_len > 64`, where `64 - bit_len` wraps to a value above 63. -/
def reverseBitsLen (x : BitVec 64) (bitLen : Nat) : Option (BitVec 64) :=
  if bitLen = 0 ∨ 64 < bitLen then none else some (bitRev x >>> (64 - bitLen))

end Tachyon.Bits
