import Verif.Model.Pow
import Verif.Model.Montgomery
/-!
# Model of the 32-bit prime fields

`generator/prime_field_generator/small_prime_field_config.h.tpl` (the generated `Config`),
`small_prime_field.h` (plain representation), `small_prime_field_mont.h` (Montgomery
representation) and `math/base/egcd.h`, all relative to `tachyon/math/finite_fields`.
-/
namespace Tachyon.SmallField

/-- The parts of the generated `Config` that differ between fields: the modulus and the two
overloads of `Reduce` (small_prime_field_config.h.tpl:19, :63-69). -/
structure Config where
  modulus : BitVec 32
  reduce32 : BitVec 32 → BitVec 32
  reduce64 : BitVec 64 → BitVec 32

/-- The default body of `Reduce(uint32_t)` (prime_field_generator.cc:247). -/
def reduce32Default (m v : BitVec 32) : BitVec 32 :=
  if m.toNat ≤ v.toNat then v - m else v

/-- The default body of `Reduce(uint64_t)` (prime_field_generator.cc:254): one conditional
subtraction in 64 bits, truncated by the return type. -/
def reduce64Default (m : BitVec 32) (v : BitVec 64) : BitVec 32 :=
  (if m.toNat ≤ v.toNat then v - m.setWidth 64 else v).setWidth 32

/-- A Montgomery field (BabyBear, KoalaBear): both reductions are the defaults. -/
def montConfig (m : BitVec 32) : Config :=
  { modulus := m, reduce32 := reduce32Default m, reduce64 := reduce64Default m }

/-- Mersenne31 (mersenne31/internal/BUILD.bazel:7-16), `kModulusBits = 31`. -/
def mersenne31 : Config :=
  { modulus := 2147483647#32
    reduce32 := reduce32Default 2147483647#32
    reduce64 := fun v =>
      (((((v >>> 31) + v + 1#64) >>> 31) + v) &&& (2147483647#32).setWidth 64).setWidth 32 }

/-- The scalar ring of the M31 circle (circle/m31/BUILD.bazel:26-36), modulus `2^31`. -/
def m31Scalar : Config :=
  { modulus := 2147483648#32
    reduce32 := fun v => v &&& (2147483648#32 - 1#32)
    reduce64 := fun v => (v &&& (2147483648#32 - 1#32).setWidth 64).setWidth 32 }

/-- GF7 (finite_fields/test/BUILD.bazel:21-31), `kModulusBits = 3`. -/
def gf7 : Config :=
  { modulus := 7#32
    reduce32 := fun v => BitVec.ofNat 32 (v.toNat % (2 ^ 3 - 1))
    reduce64 := fun v => BitVec.ofNat 32 ((v.setWidth 32).toNat % (2 ^ 3 - 1)) }

/-- `Config::AddMod` (small_prime_field_config.h.tpl:53-56), `Add` (small_prime_field.h:140-147,
small_prime_field_mont.h:165-174). -/
def addMod (c : Config) (a b : BitVec 32) : BitVec 32 := c.reduce32 (a + b)

/-- `Config::SubMod` (small_prime_field_config.h.tpl:58-61), `Sub` (small_prime_field.h:150-157,
small_prime_field_mont.h:177-186). -/
def subMod (c : Config) (a b : BitVec 32) : BitVec 32 := c.reduce32 (a + c.modulus - b)

/-- `Negate` (small_prime_field.h:159-166, small_prime_field_mont.h:188-197). -/
def negate (c : Config) (a : BitVec 32) : BitVec 32 := subMod c 0#32 a

/-- `Mul` of the plain representation (small_prime_field.h:169-184). -/
def mul (c : Config) (a b : BitVec 32) : BitVec 32 :=
  c.reduce64 (a.setWidth 64 * b.setWidth 64)

/-- A signed 64-bit result; overflow is undefined behaviour (`none`). -/
def int64 (x : Int) : Option Int := if -(2 ^ 63) ≤ x ∧ x < 2 ^ 63 then some x else none

/-- One assignment group `x = x_prev - q * x` of `EGCD<int64_t>` (math/base/egcd.h:22-32). -/
def egcdUpdate (prev q cur : Int) : Option Int := (int64 (q * cur)).bind fun t => int64 (prev - t)

/-- The loop of `EGCD<int64_t>::Compute` (math/base/egcd.h:19-33); `none` when an operation
overflows or `fuel` iterations do not suffice. -/
def egcdGo : Nat → Int → Int → Int → Int → Int → Int → Option (Int × Int × Int)
  | 0, _, _, _, _, _, _ => none
  | fuel + 1, rPrev, r, sPrev, s, tPrev, t =>
    if r = 0 then some (sPrev, tPrev, rPrev)
    else
      let q := rPrev.tdiv r
      (egcdUpdate rPrev q r).bind fun r' =>
      (egcdUpdate sPrev q s).bind fun s' =>
      (egcdUpdate tPrev q t).bind fun t' =>
      egcdGo fuel r r' s s' t t'

/-- `EGCD<int64_t>::Compute(x, y)` (math/base/egcd.h:16-36), as `(s, t, r)`. -/
def egcd (x y : Int) : Option (Int × Int × Int) := egcdGo (y.toNat + 2) x y 1 0 0 1

/-- `Inverse` of the plain representation (small_prime_field.h:187-225): outer `none` is undefined
behaviour or non-termination, inner `none` is `nullopt`. -/
def inverse (c : Config) (a : BitVec 32) : Option (Option (BitVec 32)) :=
  if a = 0#32 then some none
  else
    (egcd a.toNat c.modulus.toNat).map fun (s, _, r) =>
      if r ≠ 1 then none
      else if s > 0 then some (BitVec.ofInt 32 s)
      else some (BitVec.ofInt 32 (c.modulus.toNat + s))

/-- `Config::kInverse32` of a modulus below `2^32` (prime_field_generator.cc:60): the negated
constant of `Modulus::Inverse<uint32_t>`, that is `+m^{-1} mod 2^32`. -/
def kInverse32 (m : BitVec 32) : BitVec 32 := -(BigInt.modulusInverse m)

/-- `Config::ToMontgomery(uint32_t)` (small_prime_field_config.h.tpl:71-73). -/
def toMontgomery (m v : BitVec 32) : BitVec 32 :=
  ((v.setWidth 64 <<< 32) % m.setWidth 64).setWidth 32

/-- `Config::ToMontgomery(uint64_t)` (small_prime_field_config.h.tpl:75-77). -/
def toMontgomery64 (m : BitVec 32) (v : BitVec 64) : BitVec 32 :=
  ((BigInt.mod (BigInt.mulBy2Exp [v, 0#64] 32) [m.setWidth 64, 0#64]).headD 0#64).setWidth 32

/-- `Config::FromMontgomery` (small_prime_field_config.h.tpl:79-89). -/
def fromMontgomery (m inv : BitVec 32) (v : BitVec 64) : BitVec 32 :=
  let t := (v * inv.setWidth 64) &&& ((1#64 <<< 32) - 1#64)
  let u := t * m.setWidth 64
  let ret := ((v - u) >>> 32).setWidth 32
  if v.toNat < u.toNat then ret + m else ret

/-- `Mul` of the Montgomery representation (small_prime_field_mont.h:200-209). -/
def montMul (m a b : BitVec 32) : BitVec 32 :=
  fromMontgomery m (kInverse32 m) (a.setWidth 64 * b.setWidth 64)

/-- `PrimeField(uint32_t)` of the Montgomery representation (small_prime_field_mont.h:44-47). -/
def montOf (m v : BitVec 32) : BitVec 32 := toMontgomery m v

/-- `ToBigInt` of the Montgomery representation (small_prime_field_mont.h:137-139). -/
def montToInt (m a : BitVec 32) : BitVec 32 := fromMontgomery m (kInverse32 m) (a.setWidth 64)

/-- `Config::kOne`: the generator's `MpzClassToMontString(1)`; for fields of at most 32 bits that
is `(1 << 32) % m` (prime_field_generator.cc:219-223, generator/generator_util.h:20-28). -/
def montOne (m : BitVec 32) : BitVec 32 := toMontgomery m 1#32

/-- `operator<` of the Montgomery representation (small_prime_field_mont.h:147-150). -/
def montLt (m a b : BitVec 32) : Bool := (montToInt m a).toNat < (montToInt m b).toNat

/-- `Inverse` of the Montgomery representation (small_prime_field_mont.h:212-227):
`Pow(GetModulus() - 2)`. -/
def montInverse (m a : BitVec 32) : Option (BitVec 32) :=
  if a = 0#32 then none
  else some (doPow ⟨montOne m, montMul m, fun x => montMul m x x⟩ a [(m - 2#32).setWidth 64])

end Tachyon.SmallField
