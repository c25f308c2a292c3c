import Verif.Model.BigInt
/-!
# Model of the byte/bit conversions of `tachyon/math/base/big_int.h` (little-endian host)

A limb of width `w` consists of `k` digits of width `d` (`w = d * k`); bytes are `d = 8, k = 8`
and bits are `d = 1, k = 64`. One packing loop is written for both.
-/
namespace Tachyon.BigInt

variable {w d : Nat}

/-- `reinterpret_cast<uint8_t*>(&limb)[idx] = x` (big_int.h:196, :221) and
`limb_bits.set(idx, x)` (big_int.h:142, :166): overwrite digit `idx`. -/
def setDigit (limb : BitVec w) (idx : Nat) (x : BitVec d) : BitVec w :=
  (limb &&& ~~~((BitVec.allOnes d).setWidth w <<< (d * idx))) ||| (x.setWidth w <<< (d * idx))

/-- `reinterpret_cast<uint8_t*>(&limb)[idx]` (big_int.h:771, :786). -/
def getDigit (d : Nat) (limb : BitVec w) (idx : Nat) : BitVec d :=
  (limb >>> (d * idx)).setWidth d

/-- The packing loop of `FromBytesLE`/`FromBitsLE` (big_int.h:139-155, :193-208): digit index and
partial limb are the loop state; a limb is flushed when it is full or at the last input digit. -/
def packGo (k : Nat) : List (BitVec d) → Nat → BitVec w → Limbs w
  | [], _, _ => []
  | x :: xs, idx, limb =>
    let limb' := setDigit limb idx x
    if idx + 1 = k ∨ xs = [] then limb' :: packGo k xs 0 0#w
    else packGo k xs (idx + 1) limb'

/-- Storing the produced limbs in `ret.limbs[limb_idx++]` of a zeroed `BigInt<n>`; writing past
`limbs[n - 1]` is undefined behaviour (`none`). -/
def fromDigits (k n : Nat) (xs : List (BitVec d)) : Option (Limbs w) :=
  let ls : Limbs w := packGo k xs 0 0#w
  if ls.length ≤ n then some (ls ++ zero (n - ls.length)) else none

/-- `FromBytesLE` (big_int.h:189-209). -/
def fromBytesLE (n : Nat) (bytes : List (BitVec 8)) : Option (Limbs 64) := fromDigits 8 n bytes

/-- `FromBytesBE` (big_int.h:217-237): the same loop over the indices from the biggest. -/
def fromBytesBE (n : Nat) (bytes : List (BitVec 8)) : Option (Limbs 64) :=
  fromDigits 8 n bytes.reverse

/-- `FromBitsLE` (big_int.h:133-156); element `i` of the list is `bits[i]`. Too many bits are
rejected at compile time there. -/
def fromBitsLE (n : Nat) (bits : List Bool) : Option (Limbs 64) :=
  fromDigits 64 n (bits.map BitVec.ofBool)

/-- `FromBitsBE` (big_int.h:158-181). -/
def fromBitsBE (n : Nat) (bits : List Bool) : Option (Limbs 64) :=
  fromDigits 64 n (bits.map BitVec.ofBool).reverse

/-- `ToBytesLE` (big_int.h:764-774). -/
def toBytesLE (a : Limbs 64) : List (BitVec 8) :=
  (List.range (8 * a.length)).map fun i => getDigit 8 (a.getD (i / 8) 0#64) (i % 8)

/-- `ToBytesBE` (big_int.h:779-789). -/
def toBytesBE (a : Limbs 64) : List (BitVec 8) :=
  (List.range (8 * a.length)).reverse.map fun i => getDigit 8 (a.getD (i / 8) 0#64) (i % 8)

/-- The bit expression of `ToBitsLE`/`ToBitsBE` (big_int.h:741, :755). -/
def bitAt (a : Limbs 64) (i : Nat) : Bool :=
  ((a.getD (i / 64) 0#64 &&& (1#64 <<< (i % 64))) >>> (i % 64)) != 0#64

/-- `ToBitsLE<BitNums>` (big_int.h:735-745); reading `limbs[N]` is undefined behaviour (`none`). -/
def toBitsLE (bitNums : Nat) (a : Limbs 64) : Option (List Bool) :=
  if bitNums ≤ 64 * a.length then some ((List.range bitNums).map (bitAt a)) else none

/-- `ToBitsBE<BitNums>` (big_int.h:749-759). -/
def toBitsBE (bitNums : Nat) (a : Limbs 64) : Option (List Bool) :=
  if bitNums ≤ 64 * a.length then some ((List.range bitNums).reverse.map (bitAt a)) else none

/-- The loop of `ToNAF` (big_int.h:883-906), most iterations first; `none` when `fuel` iterations
did not suffice. -/
def toNAFGo : Nat → Limbs w → Option (List Int)
  | 0, v => if isZero v then some [] else none
  | fuel + 1, v =>
    if isZero v then some []
    else
      let z : Int := if isOdd v then 2 - ((v.headD 0#w).toNat % 4 : Nat) else 0
      -- `BigInt(z)` / `BigInt(-z)` with z = ±1
      let one : Limbs w := 1#w :: zero (v.length - 1)
      let v' := if z = 0 then v else if z ≥ 0 then (sub v one).1 else (add v one).1
      (toNAFGo fuel (divBy2 v')).map (z :: ·)

/-- `ToNAF` (big_int.h:878-908). The fuel `w * N + 1` is shown to suffice. -/
def toNAF (v : Limbs w) : Option (List Int) := toNAFGo (w * v.length + 1) v

end Tachyon.BigInt
