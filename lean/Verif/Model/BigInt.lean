import Verif.Model.Word
/-!
# Model of `tachyon/math/base/big_int.h` (little-endian branch)

A `BigInt<N>` is the list of its `N` limbs, least significant first (`uint64_t limbs[N]`,
big_int.h:51 with `kSmallestLimbIdx = 0`). The limb width is a parameter `w` (64 in the C++ code;
the `*32` entry points re-read the same memory with `w = 32`). `FOR_FROM_SMALLEST` loops are
recursions that treat the head first; `FOR_FROM_BIGGEST` loops are recursions that treat the tail
first. Fixed-size arrays cannot be indexed out of range except where noted.
-/
namespace Tachyon.BigInt

variable {w : Nat}

/-- The limbs of a `BigInt`. -/
abbrev Limbs (w : Nat) := List (BitVec w)

/-- `BigInt::Zero()` / `BigInt(0)` (big_int.h:61-103) with `n` limbs. -/
def zero (n : Nat) : Limbs w := List.replicate n 0#w

/-- `DoAdd` (big_int.h:911-946): carry chain from limb 0 with incoming carry `c`
(`result.carry` starts at 0). The unrolled macro and the loop from limb 6 are one chain. -/
def addGo : Limbs w → Limbs w → BitVec w → Limbs w × BitVec w
  | x :: xs, y :: ys, c =>
    let r := addWithCarry x y c
    let t := addGo xs ys r.carry
    (r.result :: t.1, t.2)
  | _, _, c => ([], c)

/-- `BigInt::Add(other, carry)` (big_int.h:536-545, :911-946): sum limbs and carry-out. The
incoming value of `carry` is not read. -/
def add (a b : Limbs w) : Limbs w × BitVec w := addGo a b 0#w

/-- `DoSub` (big_int.h:948-983). -/
def subGo : Limbs w → Limbs w → BitVec w → Limbs w × BitVec w
  | x :: xs, y :: ys, c =>
    let r := subWithBorrow x y c
    let t := subGo xs ys r.borrow
    (r.result :: t.1, t.2)
  | _, _, c => ([], c)

/-- `BigInt::Sub(other, borrow)` (big_int.h:557-566, :948-983). -/
def sub (a b : Limbs w) : Limbs w × BitVec w := subGo a b 0#w

/-- `DoMulBy2` (big_int.h:985-992) with incoming carry `c` (it *is* read). -/
def mulBy2 : Limbs w → BitVec w → Limbs w × BitVec w
  | [], c => ([], c)
  | x :: xs, c =>
    let temp := x >>> (w - 1)
    let t := mulBy2 xs temp
    (((x <<< 1) ||| c) :: t.1, t.2)

/-- Loop body of `DivBy2InPlace` (big_int.h:649-658), from the biggest limb; the second component
is `last`. -/
def divBy2Go : Limbs w → Limbs w × BitVec w
  | [] => ([], 0#w)
  | x :: xs =>
    let t := divBy2Go xs
    (((x >>> 1) ||| t.2) :: t.1, x <<< (w - 1))

/-- `DivBy2InPlace` (big_int.h:649-658). -/
def divBy2 (a : Limbs w) : Limbs w := (divBy2Go a).1

/-- `FOR_FROM_SMALLEST(i, 0, N) { std::swap(t, limbs[i]); }` (big_int.h:606-607). -/
def swapUp : BitVec w → Limbs w → Limbs w
  | _, [] => []
  | t, x :: xs => t :: swapUp x xs

/-- `while (n >= 64) {...}` of `MulBy2ExpInPlace` (big_int.h:605-609). -/
def limbShiftUp (a : Limbs w) (n : Nat) : Limbs w × Nat :=
  if 0 < w ∧ w ≤ n then limbShiftUp (swapUp 0#w a) (n - w) else (a, n)
termination_by n
decreasing_by omega

/-- The bit-shift loop of `MulBy2ExpInPlace` (big_int.h:612-618), `0 < n < w`. -/
def bitShiftUp (n : Nat) : BitVec w → Limbs w → Limbs w
  | _, [] => []
  | t, x :: xs => ((x <<< n) ||| t) :: bitShiftUp n (x >>> (w - n)) xs

/-- `MulBy2ExpInPlace` (big_int.h:599-621). -/
def mulBy2Exp (a : Limbs w) (n : Nat) : Limbs w :=
  if w * a.length ≤ n then zero a.length
  else
    let s := limbShiftUp a n
    if 0 < s.2 then bitShiftUp s.2 0#w s.1 else s.1

/-- `FOR_FROM_BIGGEST(i, 0, N) { std::swap(t, limbs[i]); }` (big_int.h:668-669). -/
def swapDown : Limbs w → Limbs w × BitVec w
  | [] => ([], 0#w)
  | x :: xs => let t := swapDown xs; (t.2 :: t.1, x)

/-- `while (n >= 64) {...}` of `DivBy2ExpInPlace` (big_int.h:666-672). For `N = 1` the C++ skips
the loop, which cannot be entered there because `n < 64`. -/
def limbShiftDown (a : Limbs w) (n : Nat) : Limbs w × Nat :=
  if 0 < w ∧ w ≤ n then limbShiftDown (swapDown a).1 (n - w) else (a, n)
termination_by n
decreasing_by omega

/-- The bit-shift loop of `DivBy2ExpInPlace` (big_int.h:675-681). -/
def bitShiftDown (n : Nat) : Limbs w → Limbs w × BitVec w
  | [] => ([], 0#w)
  | x :: xs =>
    let t := bitShiftDown n xs
    (((x >>> n) ||| t.2) :: t.1, x <<< (w - n))

/-- `DivBy2ExpInPlace` (big_int.h:660-684). -/
def divBy2Exp (a : Limbs w) (n : Nat) : Limbs w :=
  if w * a.length ≤ n then zero a.length
  else
    let s := limbShiftDown a n
    if 0 < s.2 then (bitShiftDown s.2 s.1).1 else s.1

/-- `IsZero` (big_int.h:305-310). -/
def isZero (a : Limbs w) : Bool := a.all (· == 0#w)

/-- `IsOne` (big_int.h:312-317). -/
def isOne : Limbs w → Bool
  | [] => false
  | x :: xs => xs.all (· == 0#w) && x == 1#w

/-- `IsEven` (big_int.h:319). -/
def isEven : Limbs w → Bool
  | [] => true
  | x :: _ => x.toNat % 2 == 0

/-- `IsOdd` (big_int.h:320). -/
def isOdd : Limbs w → Bool
  | [] => false
  | x :: _ => x.toNat % 2 == 1

/-- `operator==` (big_int.h:355-360). -/
def eq : Limbs w → Limbs w → Bool
  | x :: xs, y :: ys => if x != y then false else eq xs ys
  | _, _ => true

/-- The loop shared by `operator<` and `operator<=` (big_int.h:366-372, :382-388): from the
biggest limb, the first differing limb decides; `none` when the loop runs to its end. -/
def ltGo : Limbs w → Limbs w → Option Bool
  | x :: xs, y :: ys =>
    match ltGo xs ys with
    | some r => some r
    | none => if x = y then none else some (x.toNat < y.toNat)
  | _, _ => none

/-- The loop shared by `operator>` and `operator>=` (big_int.h:374-380, :390-396). -/
def gtGo : Limbs w → Limbs w → Option Bool
  | x :: xs, y :: ys =>
    match gtGo xs ys with
    | some r => some r
    | none => if x = y then none else some (x.toNat > y.toNat)
  | _, _ => none

/-- `operator<` (big_int.h:366-372). -/
def lt (a b : Limbs w) : Bool := match ltGo a b with | some r => r | none => false
/-- `operator>` (big_int.h:374-380). -/
def gt (a b : Limbs w) : Bool := match gtGo a b with | some r => r | none => false
/-- `operator<=` (big_int.h:382-388). -/
def le (a b : Limbs w) : Bool := match ltGo a b with | some r => r | none => true
/-- `operator>=` (big_int.h:390-396). -/
def ge (a b : Limbs w) : Bool := match gtGo a b with | some r => r | none => true

/-- One inner `for j` loop of a product: `r[j] += x * y[j]` with running high word, starting from
`c`; returns the updated words and the final high word. Shared by `Multiply`
(big_int.h:637-642), `MontgomeryReduce`, `FromMontgomery` and `DoSquareImpl`. -/
def mulAddRow (x : BitVec w) : Limbs w → Limbs w → BitVec w → Limbs w × BitVec w
  | y :: ys, r :: rs, c =>
    let t := mulAddWithCarry r x y c
    let u := mulAddRow x ys rs t.hi
    (t.lo :: u.1, u.2)
  | _, _, c => ([], c)

/-- The outer loop of `Multiply` (big_int.h:636-645). `r` holds the words of `lo ++ hi` from
position `i` on; row `i` updates `N` of them and *stores* the final high word in the next one
(`ret.hi[i] = mul_result.hi`); word `i` is final afterwards. -/
def multiplyGo (b : Limbs w) : Limbs w → Limbs w → Limbs w
  | [], r => r
  | x :: xs, r =>
    let t := mulAddRow x b r 0#w
    match t.1 ++ t.2 :: r.drop (b.length + 1) with
    | [] => []
    | o :: rest => o :: multiplyGo b xs rest

/-- `MulExtend` (big_int.h:625-631): the `2N` limbs of `Multiply` (:633-647), low half first. -/
def mulExtend (a b : Limbs w) : Limbs w := multiplyGo b a (zero (2 * a.length))

/-- `Multiply(...).lo`, i.e. `Mul` (big_int.h:623). -/
def mulLo (a b : Limbs w) : Limbs w := (mulExtend a b).take a.length
/-- `Multiply(...).hi` (big_int.h:633-647). -/
def mulHi (a b : Limbs w) : Limbs w := (mulExtend a b).drop a.length

/-- `BitTraits<BigInt<N>>::TestBit` (big_int.h:1142-1148); `index >> 6` is `index / w` and
`index & 63` is `index % w` for `w = 64`. -/
def testBit (a : Limbs w) (index : Nat) : Bool :=
  match a[index / w]? with
  | none => false
  | some l => (l &&& (1#w <<< (index % w))) == (1#w <<< (index % w))

/-- `BitTraits<BigInt<N>>::SetBit(bigint, index, 1)` (big_int.h:1149-1160). -/
def setBit1 (a : Limbs w) (index : Nat) : Limbs w :=
  match a[index / w]? with
  | none => a
  | some l => a.set (index / w) (l ||| (1#w <<< (index % w)))

/-- `BitTraits<BigInt<N>>::SetBit(bigint, index, 0)` (big_int.h:1149-1160). -/
def setBit0 (a : Limbs w) (index : Nat) : Limbs w :=
  match a[index / w]? with
  | none => a
  | some l => a.set (index / w) (l &&& ~~~(1#w <<< (index % w)))

/-- `smallest_bit |= bit` (big_int.h:712, :716). -/
def orLow (b : Bool) : Limbs w → Limbs w
  | [] => []
  | x :: xs => (x ||| (if b then 1#w else 0#w)) :: xs

/-- The loop of `Divide` (big_int.h:713-723): bits `i-1, ..., 0` remain. `none` is the
`return false` of :720. -/
def divideGo (this divisor : Limbs w) : Nat → Limbs w → Limbs w → Option (Limbs w × Limbs w)
  | 0, q, r => some (q, r)
  | i + 1, q, r =>
    let d := mulBy2 r 0#w
    let r1 := orLow (testBit this i) d.1
    let carry := d.2
    if ge r1 divisor || carry != 0#w then
      let s := sub r1 divisor
      if s.2 != carry then none
      else divideGo this divisor i (setBit1 q i) s.1
    else divideGo this divisor i q r1

/-- `Divide` (big_int.h:700-726): `none` for `return false`, else quotient and remainder. -/
def divide (this divisor : Limbs w) : Option (Limbs w × Limbs w) :=
  if isZero divisor then none
  else divideGo this divisor (w * this.length) (zero this.length) (zero this.length)

/-- `Div` (big_int.h:686-691). -/
def div (a b : Limbs w) : Option (Limbs w) := (divide a b).map (·.1)

/-- `Mod` (big_int.h:694-698): on failure the default-constructed (zero) remainder is returned. -/
def mod (a b : Limbs w) : Limbs w :=
  match divide a b with
  | some r => r.2
  | none => zero a.length

/-- `Extend<N2>` (big_int.h:253-260), `N2 > N`. -/
def extend (n2 : Nat) (a : Limbs w) : Limbs w := a ++ zero (n2 - a.length)

/-- `Shrink<N2>` (big_int.h:263-271), `N2 < N`. -/
def shrink (n2 : Nat) (a : Limbs w) : Limbs w := a.take n2

/-- `Clamp<ModulusHasSpareBit>` (big_int.h:278-289). -/
def clamp (spare : Bool) (modulus value : Limbs w) (carry : Bool) : Limbs w :=
  let needs := if spare then ge value modulus else carry || ge value modulus
  if needs then (sub value modulus).1 else value

/-- `DoAnd` (big_int.h:994-998). -/
def land (a b : Limbs w) : Limbs w := List.zipWith (· &&& ·) a b
/-- `DoOr` (big_int.h:1000-1004). -/
def lor (a b : Limbs w) : Limbs w := List.zipWith (· ||| ·) a b
/-- `DoXor` (big_int.h:1006-1010). -/
def lxor (a b : Limbs w) : Limbs w := List.zipWith (· ^^^ ·) a b

/-- `ExtractBits<T>` (big_int.h:1013-1037), `w` the width of `T`. `none` marks undefined
behaviour: a shift by the full width (`T{1} << bit_count`, `<< (bits - bit_idx)`) or a read past
the last limb. The subtraction `bits - bit_count` is guarded by the first test. -/
def extractBits (a : Limbs w) (off cnt : Nat) : Option (BitVec w) :=
  if w ≤ cnt then none
  else
    let limbIdx := off / w
    let bitIdx := off % w
    let ret : Option (BitVec w) :=
      if bitIdx < w - cnt ∨ limbIdx = a.length - 1 then
        (a[limbIdx]?).map fun (x : BitVec w) => x >>> bitIdx
      else
        if w - bitIdx = w then none
        else
          match a[limbIdx]?, a[1 + limbIdx]? with
          | some x, some y => some ((x >>> bitIdx) ||| (y <<< (w - bitIdx)))
          | _, _ => none
    ret.map fun (x : BitVec w) => x &&& ((1#w <<< cnt) - 1#w)

end Tachyon.BigInt
