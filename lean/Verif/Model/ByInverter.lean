import Verif.Model.BigInt
import Verif.Model.Bits
import Verif.Model.PrimeField
/-!
# Model of `tachyon/math/base/byinverter.h`: inversion by division steps

`CInt<B, L>` is modelled for `B = 62`, the only value used (:302); a number is the list of its `L` chunks,
least significant first. The chunks are natural numbers: every operation on `uint64_t` is reduced modulo `2 ^ 64`,
every one on `uint128_t` modulo `2 ^ 128`. An `int64_t` is an integer; signed overflow is `none` (`i64`), and
where the program computes in `uint64_t` and stores to `int64_t` the result is reduced to the range (`wrap`). The
program shifts negative `int64_t` to the left (:341-342), which is multiplication here; before C++20 the
standard calls that undefined. The product of two `CInt` (:163-175) and `Save` to `int64_t` (:65-75) are not used
by the inverter and not modelled.
-/
namespace Tachyon.BY
open Tachyon.BigInt (Limbs)

/-- `MASK` (byinverter.h:28). -/
def mask62 : Nat := 2 ^ 62 - 1

/-- The result of a signed operation. -/
def i64 (z : Int) : Option Int := if -2 ^ 63 ≤ z ∧ z < 2 ^ 63 then some z else none

/-- A `uint64_t` as `int64_t`. -/
def wrap (z : Int) : Int := Int.bmod z (2 ^ 64)

/-! ### `CInt` -/

/-- The loop of `operator+` (byinverter.h:121-130) from a chunk on. -/
def addGo : List Nat → List Nat → Nat → List Nat
  | a :: as, b :: bs, carry =>
    let sum := (a + b + carry) % 2 ^ 64
    (sum &&& mask62) :: addGo as bs (sum >>> 62)
  | _, _, _ => []

/-- `operator+` (byinverter.h:121-130). -/
def add (a b : List Nat) : List Nat := addGo a b 0

/-- The loop of the unary `operator-` (byinverter.h:155-159). -/
def negGo : List Nat → Nat → List Nat
  | a :: as, carry =>
    let sum := ((a ^^^ mask62) + carry) % 2 ^ 64
    (sum &&& mask62) :: negGo as (sum >>> 62)
  | [], _ => []

/-- The unary `operator-` (byinverter.h:150-161). -/
def neg (a : List Nat) : List Nat := negGo a 1

/-- The loop of the product with an `int64_t` (byinverter.h:197-201). -/
def mulGo (mask other : Nat) : List Nat → Nat → List Nat
  | a :: as, carry =>
    let sum := ((a ^^^ mask) * other + carry) % 2 ^ 128
    (sum &&& mask62) :: mulGo mask other as ((sum >>> 62) % 2 ^ 64)
  | [], _ => []

/-- The product with an `int64_t` (byinverter.h:177-203). -/
def mul (a : List Nat) (other : Int) : Option (List Nat) :=
  if other < 0 then (i64 (-other)).map fun o => mulGo mask62 o.toNat a o.toNat
  else some (mulGo 0 other.toNat a 0)

/-- `IsNegative` (byinverter.h:93). -/
def isNegative (a : List Nat) : Bool := mask62 >>> 1 < a.getLastD 0

/-- `Shift` (byinverter.h:97-106). -/
def shift (a : List Nat) : List Nat := a.tail ++ [if isNegative a then mask62 else 0]

/-- `Lowest` (byinverter.h:90). -/
def lowest (a : List Nat) : Nat := a.headD 0

/-- The loop of `Convert` (byinverter.h:225-230); the fuel is the number of bits. -/
def convertGo (I O : Nat) (input : List Nat) (total : Nat) : Nat → Nat → List Nat → List Nat
  | 0, _, out => out
  | fuel + 1, bits, out =>
    if bits < total then
      convertGo I O input total fuel (bits + min (I - bits % I) (O - bits % O))
        (out.modify (bits / O) fun o =>
          o ||| ((input.getD (bits / I) 0 >>> (bits % I)) <<< (bits % O)) % 2 ^ 64)
    else out

/-- `Convert` (byinverter.h:217-236). -/
def convert (I O : Nat) (input : List Nat) (osize : Nat) : List Nat :=
  let total := min (input.length * I) (osize * O)
  (convertGo I O input total total 0 (List.replicate osize 0)).mapIdx fun i x =>
    if i < (total + O - 1) / O then x &&& ((2 ^ 64 - 1) >>> (64 - O)) else x

/-- `Load` of an `int64_t` (byinverter.h:34-48). -/
def load64 (L : Nat) (input : Int) : List Nat :=
  let result := convert 64 62 [(input % 2 ^ 64).toNat] L
  if 62 * L > 64 ∧ input < 0 then
    result.mapIdx fun i x =>
      if i = 64 / 62 then x ||| (((2 ^ 64 - 1) <<< (64 % 62)) % 2 ^ 64 &&& mask62)
      else if 64 / 62 < i then mask62 else x
  else result

/-- `Load` of a `BigInt` (byinverter.h:56-60). -/
def loadBig (L : Nat) (input : Limbs 64) (sign : Bool) : List Nat :=
  let result := convert 64 62 (input.map BitVec.toNat) L
  if sign then neg result else result

/-- `Save` to a `BigInt` with `n` limbs (byinverter.h:83-87); the sign is not used by the inverter. -/
def saveBig (n : Nat) (a : List Nat) : Limbs 64 :=
  (convert 62 64 (if isNegative a then neg a else a) n).map (BitVec.ofNat 64)

/-! ### The inverter -/

/-- The number of chunks of `LCInt` (byinverter.h:302). -/
def chunks (n : Nat) : Nat := (64 * (n + 1) + 61) / 62

/-- The matrix `t` (byinverter.h:280). -/
structure Mat where
  a : Int
  b : Int
  c : Int
  d : Int
deriving DecidableEq

/-- The second half of an iteration of `Jump` (byinverter.h:363-375): `f`, `g` and `t`. -/
def jumpAdd (f g : BitVec 64) (delta : Int) (steps : Nat) (t : Mat) : BitVec 64 × Mat :=
  let m := min (min steps (1 - delta).toNat) 5
  let w := (g * ((3#64 * f) ^^^ 28#64)) &&& BitVec.ofNat 64 (2 ^ m - 1)
  (g + w * f, { t with c := wrap (t.a * w.toNat + t.c), d := wrap (t.b * w.toNat + t.d) })

/-- The loop of `Jump` (byinverter.h:335-376); `steps` is never negative. -/
def jumpLoop : Nat → BitVec 64 → BitVec 64 → Int → Nat → Mat → Option (Int × Mat)
  | 0, _, _, _, _, _ => none
  | fuel + 1, f, g, delta, steps, t =>
    let zeros := min (Bits.countTrailingZeroBits g) steps
    (i64 (delta + zeros)).bind fun delta =>
    (i64 (t.a * 2 ^ zeros)).bind fun a =>
    (i64 (t.b * 2 ^ zeros)).bind fun b =>
    let g := g >>> zeros
    let t := { t with a := a, b := b }
    let steps := steps - zeros
    if steps = 0 then some (delta, t)
    else if 0 < delta then
      (i64 (-t.a)).bind fun y0 =>
      (i64 (-t.b)).bind fun y1 =>
      let r := jumpAdd g (-f) (-delta) steps ⟨t.c, t.d, y0, y1⟩
      jumpLoop fuel g r.1 (-delta) steps r.2
    else
      let r := jumpAdd f g delta steps t
      jumpLoop fuel f r.1 delta steps r.2

/-- `Jump` (byinverter.h:328-377). -/
def jump (f g : Nat) (delta : Int) : Option (Int × Mat) :=
  jumpLoop 63 (BitVec.ofNat 64 f) (BitVec.ofNat 64 g) delta 62 ⟨1, 0, 0, 1⟩

/-- `f * t[0][0] + g * t[0][1]` of `CInt`s (byinverter.h:385-386, :407-408). -/
def comb (f g : List Nat) (a b : Int) : Option (List Nat) :=
  (mul f a).bind fun x => (mul g b).map fun y => add x y

/-- `FG` (byinverter.h:384-389). -/
def fg (f g : List Nat) (t : Mat) : Option (List Nat × List Nat) :=
  (comb f g t.a t.b).bind fun x => (comb f g t.c t.d).map fun y => (shift x, shift y)

/-- `md` and `me` (byinverter.h:398-406). -/
def deFactor (inverse : Nat) (d e : List Nat) (a b : Int) : Option Int :=
  (i64 (a * (isNegative d).toNat + b * (isNegative e).toNat)).map fun md =>
    let cd := ((a * lowest d + b * lowest e) % 2 ^ 64).toNat &&& mask62
    wrap (md - (((cd * inverse + md) % 2 ^ 64).toNat &&& mask62 : Nat))

/-- One half of `DE` (byinverter.h:397-411). -/
def deHalf (modulus : List Nat) (inverse : Nat) (d e : List Nat) (a b : Int) : Option (List Nat) :=
  (deFactor inverse d e a b).bind fun md =>
    (comb d e a b).bind fun x => (mul modulus md).map fun y => shift (add x y)

/-- `DE` (byinverter.h:397-411). -/
def de (modulus : List Nat) (inverse : Nat) (d e : List Nat) (t : Mat) : Option (List Nat × List Nat) :=
  (deHalf modulus inverse d e t.a t.b).bind fun x => (deHalf modulus inverse d e t.c t.d).map fun y => (x, y)

/-- `Norm` (byinverter.h:417-426). -/
def norm (modulus value : List Nat) (negate : Bool) : List Nat :=
  let result := if isNegative value then add value modulus else value
  let result := if negate then neg result else result
  if isNegative result then add result modulus else result

/-- `Invert62` (byinverter.h:434-444). -/
def invert62 (value : BitVec 64) : Nat :=
  let x := (3#64 * value) ^^^ 2#64
  let y := 1#64 - x * value
  let x := x * (y + 1#64)
  let y := y * y
  let x := x * (y + 1#64)
  let y := y * y
  let x := x * (y + 1#64)
  let y := y * y
  (x * (y + 1#64)).toNat &&& mask62

/-- The members of `BYInverter` (byinverter.h:313-320). -/
structure Inverter where
  size : Nat
  modulus : List Nat
  adjuster : List Nat
  inverse : Nat

/-- The constructor (byinverter.h:265-268). -/
def Inverter.new (modulus adjuster : Limbs 64) : Inverter :=
  ⟨modulus.length, loadBig (chunks modulus.length) modulus false, loadBig (chunks modulus.length) adjuster false,
    invert62 (modulus.headD 0#64)⟩

/-- The loop of `Invert` (byinverter.h:281-285); the result is `f` and `d`. Running out of fuel is `none`. -/
def Inverter.loop (v : Inverter) : Nat → Int → List Nat → List Nat → List Nat → List Nat → Option (List Nat × List Nat)
  | fuel, delta, f, g, d, e =>
    if g = load64 (chunks v.size) 0 then some (f, d)
    else
      match fuel with
      | 0 => none
      | fuel + 1 =>
        (jump (lowest f) (lowest g) delta).bind fun j =>
        (fg f g j.2).bind fun x =>
        (de v.modulus v.inverse d e j.2).bind fun y =>
        Inverter.loop v fuel j.1 x.1 x.2 y.1 y.2

/-- `Invert` (byinverter.h:274-296): `some none` is the return value `false`. The loop is given as many iterations
as `C11_by` shows to be enough. -/
def Inverter.invert (v : Inverter) (input : Limbs 64) : Option (Option (Limbs 64)) :=
  (Inverter.loop v (5 * v.size + 1) 1 v.modulus (loadBig (chunks v.size) input false)
      (load64 (chunks v.size) 0) v.adjuster).map fun r =>
    let antiunit := r.1 == load64 (chunks v.size) (-1)
    if r.1 == load64 (chunks v.size) 1 || antiunit then some (saveBig v.size (norm v.modulus r.2 antiunit)) else none

/-- `PrimeField::Inverse` (prime_field_fallback.h:310-317) and `InverseInPlace` (:319-325) with the inverter of the field
(:48-49): `some none` is `std::nullopt`. -/
def inverse (m x : Limbs 64) : Option (Option (Limbs 64)) := (Inverter.new m (BigInt.montgomeryRk 2 m)).invert x

end Tachyon.BY
