import Verif.Model.BigInt
/-!
# Model of Montgomery arithmetic

`tachyon/math/base/big_int.h` (`FromMontgomery`, `MontgomeryReduce`),
`tachyon/math/finite_fields/modulus.h` and the multiplication kernels of
`tachyon/math/finite_fields/prime_field_fallback.h`.
-/
namespace Tachyon.BigInt

variable {w : Nat}

/-- The loop of `MontgomeryReduce` (big_int.h:1117-1129), run `n` more times. `r` is the memory
`r_ptr[i..]`; each round the word `r_ptr[i]` is left behind (it is never read again), `num - 1`
words are updated by the row, and the word `r_ptr[num + i]` receives the running carry. -/
def reduceGo (m : Limbs w) (inverse : BitVec w) : Nat → Limbs w → BitVec w → Limbs w × BitVec w
  | 0, r, c => (r, c)
  | n + 1, r, c =>
    match r, m with
    | r0 :: rs, m0 :: ms =>
      let tmp := r0 * inverse
      let h := mulAddWithCarry r0 tmp m0 0#w
      let t := mulAddRow tmp ms rs h.hi
      match rs.drop ms.length with
      | top :: rest =>
        let a := addWithCarry top t.2 c
        reduceGo m inverse n (t.1 ++ a.result :: rest) a.carry
      | [] => ([], c)
    | _, _ => ([], c)

/-- `MontgomeryReduce<ModulusHasSpareBit, T>` (big_int.h:1098-1132), `w` the width of `T`: the
high half of `r`, then `Clamp` with the final carry. (For `T = uint32_t` the C++ clamps the same
memory in 64-bit limbs; see `reduce32`.) -/
def montgomeryReduce (spare : Bool) (m : Limbs w) (inverse : BitVec w) (r : Limbs w) : Limbs w :=
  let t := reduceGo m inverse m.length r 0#w
  clamp spare m t.1 (t.2 != 0#w)

/-- The loop of `FromMontgomery` (big_int.h:1063-1072), run `n` more times. `r` is the memory seen
from position `i` cyclically: entry `j` is `r_ptr[(i + j) % num]`. After a round, word `i` holds
the final high word and the view moves on by one, so that word becomes the last one. -/
def fromMontgomeryGo (m : Limbs w) (inverse : BitVec w) : Nat → Limbs w → Limbs w
  | 0, r => r
  | n + 1, r =>
    match r, m with
    | r0 :: rs, m0 :: ms =>
      let k := r0 * inverse
      let h := mulAddWithCarry r0 k m0 0#w
      let t := mulAddRow k ms rs h.hi
      fromMontgomeryGo m inverse n (t.1 ++ [t.2])
    | _, _ => []

/-- `FromMontgomery<T>` (big_int.h:1047-1074), `w` the width of `T`. After `num` rounds the cyclic
view is back at position 0. -/
def fromMontgomery (m : Limbs w) (inverse : BitVec w) (value : Limbs w) : Limbs w :=
  fromMontgomeryGo m inverse m.length value

/-- `reinterpret_cast<uint32_t*>(limbs)` on a little-endian machine (big_int.h:1051, :1102). -/
def split32 : List (BitVec 64) → List (BitVec 32)
  | [] => []
  | x :: xs => x.setWidth 32 :: (x >>> 32).setWidth 32 :: split32 xs

/-- Reading the same memory back as `uint64_t` limbs. -/
def join32 : List (BitVec 32) → List (BitVec 64)
  | x :: y :: xs => (x.setWidth 64 ||| (y.setWidth 64 <<< 32)) :: join32 xs
  | _ => []

/-- `MontgomeryReduce32` (big_int.h:291-296, :1098-1132): rounds on 32-bit words, `memcpy` of the
high half and `Clamp` on 64-bit limbs. -/
def montgomeryReduce32 (spare : Bool) (m : List (BitVec 64)) (inverse : BitVec 32)
    (r : List (BitVec 64)) : List (BitVec 64) :=
  let t := reduceGo (split32 m) inverse (2 * m.length) (split32 r) 0#32
  clamp spare m (join32 t.1) (t.2 != 0#32)

/-- `FromMontgomery32` (big_int.h:239-243, :1047-1074). -/
def fromMontgomery32 (m : List (BitVec 64)) (inverse : BitVec 32)
    (value : List (BitVec 64)) : List (BitVec 64) :=
  join32 (fromMontgomery (split32 m) inverse (split32 value))

/-! ## `modulus.h` -/

/-- The loop of `Modulus::Inverse<T>` (modulus.h:69-87): `n` times `inv *= inv; inv *= m[0]`. -/
def inverseGo (m0 : BitVec w) : Nat → BitVec w → BitVec w
  | 0, inv => inv
  | n + 1, inv => inverseGo m0 n (inv * inv * m0)

/-- `Modulus::Inverse<T>` (modulus.h:69-87): `-m^{-1} mod 2^w`. -/
def modulusInverse (m0 : BitVec w) : BitVec w := -(inverseGo m0 (w - 1) 1#w)

/-- `Modulus::HasSpareBit` (modulus.h:40-43): the top bit of the biggest limb is clear. -/
def hasSpareBit (m : Limbs w) : Bool :=
  match m.getLast? with
  | some l => l >>> (w - 1) == 0#w
  | none => false

/-- `Modulus::CanUseNoCarryMulOptimization` (modulus.h:24-34). The loop visits the limbs
`N - 2, ..., 0`, i.e. all but the biggest. -/
def canUseNoCarry (m : Limbs w) : Bool :=
  match m.getLast? with
  | some l =>
    l >>> (w - 1) == 0#w &&
      !(l == (BitVec.allOnes w >>> 1) && m.dropLast.all (· == BitVec.allOnes w))
  | none => false

/-- `MontgomeryR` / `MontgomeryR2` / `MontgomeryR3` (modulus.h:45-64) for `k = 1, 2, 3`: the
`BigInt<kN+1>` with biggest limb 1 reduced by the extended modulus, then `Shrink<N>`. -/
def montgomeryRk (k : Nat) (m : Limbs w) : Limbs w :=
  shrink m.length (mod (zero (k * m.length) ++ [1#w]) (extend (k * m.length + 1) m))

/-! ## `prime_field_fallback.h` -/

/-- Inner loop `j = 1 .. N-1` of `DoFastMul` (prime_field_fallback.h:343-349): the two interleaved
carry chains. `bi` is `b[i]`, `h1` is `result.hi`, `h2` is `result2.hi`. -/
def fastRow (bi k : BitVec w) :
    Limbs w → Limbs w → Limbs w → BitVec w → BitVec w → Limbs w × BitVec w × BitVec w
  | a :: as, m :: ms, r :: rs, h1, h2 =>
    let t1 := mulAddWithCarry r a bi h1
    let t2 := mulAddWithCarry t1.lo k m h2
    let u := fastRow bi k as ms rs t1.hi t2.hi
    (t2.lo :: u.1, u.2.1, u.2.2)
  | _, _, _, h1, h2 => ([], h1, h2)

/-- Outer loop of `DoFastMul` (prime_field_fallback.h:334-351), over the limbs of `b`. -/
def fastMulGo (m : Limbs w) (inverse : BitVec w) (a : Limbs w) : Limbs w → Limbs w → Limbs w
  | [], r => r
  | bi :: bs, r =>
    match r, a, m with
    | r0 :: rs, a0 :: as, m0 :: ms =>
      let t1 := mulAddWithCarry r0 a0 bi 0#w
      let k := t1.lo * inverse
      let t2 := mulAddWithCarry t1.lo k m0 0#w
      let u := fastRow bi k as ms rs t1.hi t2.hi
      fastMulGo m inverse a bs (u.1 ++ [u.2.1 + u.2.2])
    | _, _, _ => []

/-- `DoFastMul` (prime_field_fallback.h:331-355). -/
def fastMul (spare : Bool) (m : Limbs w) (inverse : BitVec w) (a b : Limbs w) : Limbs w :=
  clamp spare m (fastMulGo m inverse a b (zero a.length)) false

/-- `DoSlowMul` (prime_field_fallback.h:357-362). -/
def slowMul (spare : Bool) (m : Limbs w) (inverse : BitVec w) (a b : Limbs w) : Limbs w :=
  montgomeryReduce spare m inverse (mulExtend a b)

/-- The first loop of `DoSquareImpl` (prime_field_fallback.h:367-375), off-diagonal products.
`r` is the memory `r[2i+1 ..]`; the row for `a[i]` updates one word per remaining limb and stores
the high word in the next one. The last limb has no row (`i < N - 1`). -/
def crossGo : Limbs w → Limbs w → Limbs w
  | x :: y :: ys, r =>
    let t := mulAddRow x (y :: ys) r 0#w
    match t.1 ++ t.2 :: r.drop ((y :: ys).length + 1) with
    | p :: q :: rest => p :: q :: crossGo (y :: ys) rest
    | l => l
  | _, r => r

/-- The doubling of the words `r[1..2N-2]` (prime_field_fallback.h:377-381), from the top:
`r[k] = (r[k] << 1) | (r[k-1] >> 63)`. The argument `p` is `r[k-1] >> 63` for the head. The word
`r[2N-1]` is *assigned* `r[2N-2] >> 63`. -/
def shiftGo : BitVec w → Limbs w → Limbs w
  | _, [] => []
  | p, [_] => [p]
  | p, x :: y :: ys => ((x <<< 1) ||| p) :: shiftGo (x >>> (w - 1)) (y :: ys)

/-- The diagonal loop of `DoSquareImpl` (prime_field_fallback.h:383-391); `c` is
`mul_result.hi`. -/
def diagGo : Limbs w → Limbs w → BitVec w → Limbs w
  | x :: xs, r0 :: r1 :: rs, c =>
    let t := mulAddWithCarry r0 x x c
    let s := addWithCarry r1 t.hi 0#w
    t.lo :: s.result :: diagGo xs rs s.carry
  | _, r, _ => r

/-- The double-width square computed by `DoSquareImpl` (prime_field_fallback.h:365-391). -/
def squareExtend (a : Limbs w) : Limbs w :=
  diagGo a (0#w :: shiftGo 0#w (crossGo a (zero (2 * a.length - 1)))) 0#w

/-- `DoSquareImpl` (prime_field_fallback.h:364-394), used for `N > 1`; for `N = 1` `SquareImpl`
calls `Mul` (:292-299). -/
def squareImpl (spare : Bool) (m : Limbs w) (inverse : BitVec w) (a : Limbs w) : Limbs w :=
  montgomeryReduce spare m inverse (squareExtend a)

end Tachyon.BigInt
