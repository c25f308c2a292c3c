import Verif.Model.BigInt
/-!
# Model of `BigInt::MontgomeryInverse` (tachyon/math/base/big_int.h:792-868)

Binary extended Euclid. The loops carry a fuel argument; running out of fuel is `none` (and is
proved not to happen).
-/
namespace Tachyon.BigInt

variable {w : Nat}

/-- `b[N - 1] |= uint64_t{1} << 63` (big_int.h:825-827, :844-846). -/
def setTopBit (a : Limbs w) : Limbs w := setBit1 a (w * a.length - 1)

/-- Halving of the cofactor modulo `m` (big_int.h:816-830): `DivBy2` if even, otherwise add the
modulus, halve, and put the carry back as top bit when the modulus has no spare bit. -/
def halveMod (spare : Bool) (m b : Limbs w) : Limbs w :=
  if isEven b then divBy2 b
  else
    let s := add b m
    let h := divBy2 s.1
    if !spare && s.2 != 0#w then setTopBit h else h

/-- `while (u.IsEven()) {...}` (big_int.h:813-831, :833-851). -/
def halveLoop (spare : Bool) (m : Limbs w) : Nat → Limbs w → Limbs w → Option (Limbs w × Limbs w)
  | 0, _, _ => none
  | fuel + 1, u, b =>
    if isEven u then halveLoop spare m fuel (divBy2 u) (halveMod spare m b) else some (u, b)

/-- `if (b >= c) b -= c; else b += (modulus - c);` (big_int.h:855-859, :862-866). -/
def cofactorSub (m b c : Limbs w) : Limbs w :=
  if ge b c then (sub b c).1 else (add b (sub m c).1).1

/-- The outer loop (big_int.h:812-868) followed by the selection of the output. -/
def inverseLoop (spare : Bool) (m : Limbs w) : Nat → Limbs w → Limbs w → Limbs w → Limbs w →
    Option (Limbs w)
  | fuel, u, v, b, c =>
    if isOne u then some b
    else if isOne v then some c
    else match fuel with
      | 0 => none
      | fuel + 1 => do
        let (u, b) ← halveLoop spare m (w * m.length + 1) u b
        let (v, c) ← halveLoop spare m (w * m.length + 1) v c
        if lt v u then inverseLoop spare m fuel (sub u v).1 v (cofactorSub m b c) c
        else inverseLoop spare m fuel u (sub v u).1 b (cofactorSub m c b)

/-- `MontgomeryInverse` (big_int.h:792-868): `some none` is the `false` return on zero. -/
def montgomeryInverse (spare : Bool) (m r2 a : Limbs w) : Option (Option (Limbs w)) :=
  if isZero a then some none
  else (inverseLoop spare m (2 * (w * m.length) + 1) a m r2 (zero m.length)).map some

end Tachyon.BigInt
