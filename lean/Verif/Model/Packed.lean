import Verif.Model.SmallField
/-!
# Model of the packed 32-bit prime fields

`packed_prime_field32_avx2.h`, `packed_prime_field32_avx512.h`, `packed_prime_field32_neon.h`,
`mersenne31/internal/packed_mersenne31_{avx2,avx512,neon}.cc`, all relative to
`tachyon/math/finite_fields`.

Every x86 instruction used acts on each 64-bit quadword separately, so a register is the list of
its quadwords (4 for AVX2, 8 for AVX512) and an operation is written for one quadword, that is for
an even lane `lo` and the odd lane `hi` above it. The NEON instructions act on each 32-bit lane
separately. The semantics of the intrinsics follow the vendors' manuals and are part of the trusted
base.
-/
namespace Tachyon.Packed
open Tachyon.SmallField

/-- A quadword: lane `2i` and lane `2i + 1`. -/
structure Quad where
  lo : BitVec 32
  hi : BitVec 32
deriving DecidableEq, Repr

/-- The 64-bit integer in a quadword. -/
def Quad.toWord (x : Quad) : BitVec 64 := x.hi ++ x.lo

/-- The quadword holding a 64-bit integer. -/
def Quad.ofWord (x : BitVec 64) : Quad := ⟨x.setWidth 32, (x >>> 32).setWidth 32⟩

/-- `_mm256_set1_epi32`. -/
def set1 (x : BitVec 32) : Quad := ⟨x, x⟩

/-- `_mm256_add_epi32`. -/
def addEpi32 (a b : Quad) : Quad := ⟨a.lo + b.lo, a.hi + b.hi⟩

/-- `_mm256_sub_epi32`. -/
def subEpi32 (a b : Quad) : Quad := ⟨a.lo - b.lo, a.hi - b.hi⟩

/-- Unsigned minimum of two words. -/
def minU (a b : BitVec 32) : BitVec 32 := if a.toNat ≤ b.toNat then a else b

/-- `_mm256_min_epu32`. -/
def minEpu32 (a b : Quad) : Quad := ⟨minU a.lo b.lo, minU a.hi b.hi⟩

/-- One lane of `_mm256_sign_epi32`. -/
def signLane (a b : BitVec 32) : BitVec 32 :=
  if b.toInt < 0 then -a else if b = 0#32 then 0#32 else a

/-- `_mm256_sign_epi32`. -/
def signEpi32 (a b : Quad) : Quad := ⟨signLane a.lo b.lo, signLane a.hi b.hi⟩

/-- `_mm256_mul_epu32`: 64-bit product of the even lanes as unsigned words. -/
def mulEpu32 (a b : Quad) : Quad := .ofWord (a.lo.setWidth 64 * b.lo.setWidth 64)

/-- `_mm256_mul_epi32`: 64-bit product of the even lanes as signed words. -/
def mulEpi32 (a b : Quad) : Quad := .ofWord (a.lo.signExtend 64 * b.lo.signExtend 64)

/-- `_mm256_movehdup_ps` (packed_prime_field32_avx2.h:230-235): the odd lane in both. -/
def movehdup (a : Quad) : Quad := ⟨a.hi, a.hi⟩

/-- `_mm256_blend_epi32(a, b, 0b10101010)`: even lanes of `a`, odd lanes of `b`. -/
def blendOdd (a b : Quad) : Quad := ⟨a.lo, b.hi⟩

/-- `_mm256_srli_epi64`. -/
def srli64 (a : Quad) (n : Nat) : Quad := .ofWord (a.toWord >>> n)

/-- `_mm256_slli_epi64`. -/
def slli64 (a : Quad) (n : Nat) : Quad := .ofWord (a.toWord <<< n)

/-- `_mm256_and_si256`. -/
def andSi (a b : Quad) : Quad := ⟨a.lo &&& b.lo, a.hi &&& b.hi⟩

/-- `_mm512_srli_epi32`. -/
def srli32 (a : Quad) (n : Nat) : Quad := ⟨a.lo >>> n, a.hi >>> n⟩

/-- `mask_movehdup_epi32(src, kEvens, a)` (packed_prime_field32_avx512.h:148-153): even lanes
receive the odd lane of `a`, odd lanes keep `src`. -/
def maskMovehdupEvens (src a : Quad) : Quad := ⟨a.hi, src.hi⟩

/-- `mask_moveldup_epi32(src, kOdds, a)` (packed_prime_field32_avx512.h:155-162): odd lanes receive
the even lane of `a`, even lanes keep `src`. -/
def maskMoveldupOdds (src a : Quad) : Quad := ⟨src.lo, a.lo⟩

/-! ## AVX2 -/

/-- `AddMod32` (packed_prime_field32_avx2.h:16-58, packed_prime_field32_avx512.h:15-57). -/
def addMod32 (p : Quad) (l r : Quad) : Quad :=
  let t := addEpi32 l r
  minEpu32 t (subEpi32 t p)

/-- `SubMod32` (packed_prime_field32_avx2.h:60-115, packed_prime_field32_avx512.h:59-114). -/
def subMod32 (p : Quad) (l r : Quad) : Quad :=
  let t := subEpi32 l r
  minEpu32 t (addEpi32 t p)

/-- `NegateMod32` (packed_prime_field32_avx2.h:117-149). -/
def negateMod32 (p : Quad) (v : Quad) : Quad := signEpi32 (subEpi32 p v) v

/-- `PartialMontyRedSignedToSigned` (packed_prime_field32_avx2.h:200-208). -/
def partialMontyRed (p inv : Quad) (input : Quad) : Quad :=
  let q := mulEpi32 input inv
  let qp := mulEpi32 q p
  subEpi32 input qp

/-- `MontyMul` (packed_prime_field32_avx2.h:214-218). -/
def montyMul (p inv l r : Quad) : Quad := partialMontyRed p inv (mulEpu32 l r)

/-- `MontyMulSigned` (packed_prime_field32_avx2.h:224-228). -/
def montyMulSigned (p inv l r : Quad) : Quad := partialMontyRed p inv (mulEpi32 l r)

/-- The recombination of even and odd results shared by `MontMulMod32` and `ApplyFuncToEvenOdd`
(packed_prime_field32_avx2.h:264-269, :301-305). -/
def recombine (p dEvn dOdd : Quad) : Quad :=
  let t := blendOdd (movehdup dEvn) dOdd
  minEpu32 t (addEpi32 t p)

/-- `MontMulMod32` (packed_prime_field32_avx2.h:237-270). -/
def montMulMod32 (p inv l r : Quad) : Quad :=
  recombine p (montyMul p inv l r) (montyMul p inv (movehdup l) (movehdup r))

/-- `ShiftedSquare` (packed_prime_field32_avx2.h:276-282). -/
def shiftedSquare (p inv x : Quad) : Quad :=
  movehdup (partialMontyRed p inv (mulEpi32 x x))

/-- `ApplyFuncToEvenOdd` (packed_prime_field32_avx2.h:295-306). -/
def applyEvenOdd (p : Quad) (f : Quad → Quad) (x : Quad) : Quad :=
  recombine p (f x) (f (movehdup x))

/-- `DoExp3` (packed_prime_field32_avx2.h:312-315). -/
def doExp3 (p inv x : Quad) : Quad := montyMulSigned p inv (shiftedSquare p inv x) x

/-- `DoExp5` (packed_prime_field32_avx2.h:324-328). -/
def doExp5 (p inv x : Quad) : Quad :=
  let square := shiftedSquare p inv x
  let quad := shiftedSquare p inv square
  montyMulSigned p inv quad x

/-- `DoExp7` (packed_prime_field32_avx2.h:337-343). -/
def doExp7 (p inv x : Quad) : Quad :=
  let square := shiftedSquare p inv x
  let cube := montyMulSigned p inv square x
  let cubeShifted := movehdup cube
  let quad := shiftedSquare p inv square
  montyMulSigned p inv quad cubeShifted

/-- `Exp3` (packed_prime_field32_avx2.h:317-319). -/
def exp3 (p inv x : Quad) : Quad := applyEvenOdd p (doExp3 p inv) x

/-- `Exp5` (packed_prime_field32_avx2.h:330-332). -/
def exp5 (p inv x : Quad) : Quad := applyEvenOdd p (doExp5 p inv) x

/-- `Exp7` (packed_prime_field32_avx2.h:345-347). -/
def exp7 (p inv x : Quad) : Quad := applyEvenOdd p (doExp7 p inv) x

/-- `Mul` of `PackedMersenne31AVX2` (packed_mersenne31_avx2.cc:47-159). -/
def mersenneMulAVX2 (p l r : Quad) : Quad :=
  let lOddDbl := srli64 l 31
  let rOdd := movehdup r
  let prodOddDbl := mulEpu32 rOdd lOddDbl
  let prodEvn := mulEpu32 r l
  let prodOddLoDirty := slli64 prodOddDbl 31
  let prodEvnHi := srli64 prodEvn 31
  let prodLoDirty := blendOdd prodEvn prodOddLoDirty
  let prodHi := blendOdd prodEvnHi prodOddDbl
  let prodLo := andSi prodLoDirty p
  addMod32 p prodLo prodHi

/-! ## AVX512 -/

/-- One lane of `NegateMod32` (packed_prime_field32_avx512.h:116-132): subtraction where the lane
is not zero, else zero. -/
def negateLane512 (p v : BitVec 32) : BitVec 32 := if v ≠ 0#32 then p - v else 0#32

/-- `NegateMod32` (packed_prime_field32_avx512.h:116-132). -/
def negateMod512 (p v : Quad) : Quad := ⟨negateLane512 p.lo v.lo, negateLane512 p.hi v.hi⟩

/-- The last three instructions of `MontMulMod32` on one lane
(packed_prime_field32_avx512.h:261-270): masked addition on underflow. -/
def subUnderflow (p c q : BitVec 32) : BitVec 32 :=
  if c.toNat < q.toNat then c - q + p else c - q

/-- `MontMulMod32` (packed_prime_field32_avx512.h:164-271). -/
def montMulMod512 (p inv l r : Quad) : Quad :=
  let lOdd := movehdup l
  let rOdd := movehdup r
  let prodEvn := mulEpu32 l r
  let prodOdd := mulEpu32 lOdd rOdd
  let qEvn := mulEpu32 prodEvn inv
  let qOdd := mulEpu32 prodOdd inv
  let prodHi := maskMovehdupEvens prodOdd prodEvn
  let qpEvn := mulEpu32 qEvn p
  let qpOdd := mulEpu32 qOdd p
  let qpHi := maskMovehdupEvens qpOdd qpEvn
  ⟨subUnderflow p.lo prodHi.lo qpHi.lo, subUnderflow p.hi prodHi.hi qpHi.hi⟩

/-- `Mul` of `PackedMersenne31AVX512` (packed_mersenne31_avx512.cc:43-119). -/
def mersenneMul512 (p l r : Quad) : Quad :=
  let lEvnDbl := addEpi32 l l
  let rOdd := movehdup r
  let lOddDbl := srli64 l 31
  let prodOddDbl := mulEpu32 lOddDbl rOdd
  let prodEvnDbl := mulEpu32 lEvnDbl r
  let prodLoDbl := maskMoveldupOdds prodEvnDbl prodOddDbl
  let prodHi := maskMovehdupEvens prodOddDbl prodEvnDbl
  let prodLo := srli32 prodLoDbl 1
  addMod32 p prodLo prodHi

/-! ## NEON, one lane -/

/-- `vqdmulhq_s32`: high word of the doubled product, saturating. -/
def vqdmulh (a b : BitVec 32) : BitVec 32 :=
  let x := 2 * (a.toInt * b.toInt) / 2 ^ 32
  BitVec.ofInt 32 (if x ≥ 2 ^ 31 then 2 ^ 31 - 1 else x)

/-- `vhsubq_s32`: halved difference. -/
def vhsub (a b : BitVec 32) : BitVec 32 := BitVec.ofInt 32 ((a.toInt - b.toInt) / 2)

/-- A comparison result lane: all ones or all zeros. -/
def mask (b : Bool) : BitVec 32 := if b then 0xffffffff#32 else 0#32

/-- `ReduceSum32` (packed_prime_field32_neon.h:17-33). -/
def reduceSumNeon (p v : BitVec 32) : BitVec 32 := minU v (v - p)

/-- `AddMod32` (packed_prime_field32_neon.h:35-77). -/
def addNeon (p l r : BitVec 32) : BitVec 32 := reduceSumNeon p (l + r)

/-- `SubMod32` (packed_prime_field32_neon.h:79-137); `vmlsq_u32(a, b, c) = a - b * c`. -/
def subNeon (p l r : BitVec 32) : BitVec 32 :=
  let diff := l - r
  let underflow := mask (l.toNat < r.toNat)
  diff - underflow * p

/-- `NegateMod32` (packed_prime_field32_neon.h:139-177); `vbicq_u32(a, b) = a & ~b`. -/
def negateNeon (p v : BitVec 32) : BitVec 32 :=
  let t := p - v
  let isZero := mask (v == 0#32)
  t &&& ~~~isZero

/-- `MontMulMod32` (packed_prime_field32_neon.h:179-272). -/
def montMulNeon (p inv l r : BitVec 32) : BitVec 32 :=
  let invRhs := r * inv
  let cHi := vqdmulh l r
  let q := l * invRhs
  let qpHi := vqdmulh q p
  let d := vhsub cHi qpHi
  let underflow := mask (cHi.toInt < qpHi.toInt)
  d - underflow * p

/-- `Mul` of `PackedMersenne31Neon` (packed_mersenne31_neon.cc:45-92). -/
def mersenneMulNeon (p l r : BitVec 32) : BitVec 32 :=
  let hi31 := vqdmulh l r
  let lo32 := l * r
  reduceSumNeon p (lo32 - hi31 * p)

/-! ## Whole packed values -/

/-- `ToVector`: loading consecutive lanes (packed_baby_bear_avx2.cc:26-29); the number of lanes is
even. -/
def toVector : List (BitVec 32) → List Quad
  | x :: y :: xs => ⟨x, y⟩ :: toVector xs
  | _ => []

/-- `FromVector`: storing the lanes (packed_baby_bear_avx2.cc:31-36). -/
def fromVector : List Quad → List (BitVec 32)
  | [] => []
  | q :: qs => q.lo :: q.hi :: fromVector qs

/-- A binary operation of a packed class: load, operate on every quadword, store
(packed_baby_bear_avx2.cc:93-112). -/
def packed2 (f : Quad → Quad → Quad) (a b : List (BitVec 32)) : List (BitVec 32) :=
  fromVector (List.zipWith f (toVector a) (toVector b))

/-- A unary operation of a packed class (packed_baby_bear_avx2.cc:104-106, :114-124). -/
def packed1 (f : Quad → Quad) (a : List (BitVec 32)) : List (BitVec 32) :=
  fromVector ((toVector a).map f)

end Tachyon.Packed
