import Verif.Model.Frobenius
import Verif.Model.Pow
import Verif.Model.Serialize
import Verif.Model.Parallel
/-!
# Model of the pairings

`tachyon/math/elliptic_curves/pairing/*.h`, `bn/*.h` and `bls12/*.h` under
`tachyon/math/elliptic_curves`.

The classes are templates over the fields `Fp`, `Fp2`, `Fp12` (types `α`, `β`, `γ` here), so the model
is written over a record of the operations they use. A `CHECK` that fails, an unwrapped `nullopt` and
an index past the end of a vector are `none`. Strings are left out.
-/
namespace Tachyon.Pairing
open Tachyon.BigInt Tachyon.Parallel

/-- What the pairing code uses of its fields: `mulBase` is `Fp2 * Fp`, `mulBy034` and `mulBy014` are the
in-place products of `Fp12`, `cycSquare` and `cycInverse` are `CyclotomicSquare` and
`CyclotomicInverse`. -/
structure Ops (α β γ : Type) where
  fp : FieldOps α
  fp2 : FieldOps β
  fp12 : FieldOps γ
  mulBase : β → α → β
  mulBy034 : γ → β → β → β → γ
  mulBy014 : γ → β → β → β → γ
  cycSquare : γ → γ
  cycInverse : γ → Option γ

/-- The operations of `Fp`, `Fp2`, and `Fp12` over the cubic `Fp6`, as the curves define them
(bn/bn254/BUILD.bazel, bls12/bls12_381/BUILD.bazel, fp12.h:60-263): `fp` are those of the prime field,
`P` its modulus of `N` limbs, `nr2` and `nr6` the functions `MulByNonResidue` of `Fp2` and `Fp6`, `m2`
the flag `kNonResidueIsMinusOne` of `Fp2`, `q6` the non-residue of `Fp6`; the non-residue of `Fp12` is
the generator of `Fp6`. -/
def towerOps {α : Type} (fp : FieldOps α) (nr2 : α → α) (m2 : Bool) (nr6 : Ext2 α → Ext2 α) (q6 : Ext2 α) (P N : Nat) :
    Ops α (Ext2 α) (Ext2 (Ext3 (Ext2 α))) :=
  let fp2 := Ext2.ops fp (fp2Config fp nr2 m2)
  let cfg6 := fp6CubicConfig fp2 nr6 q6 P N
  let nr12 := Fp12.mulByX3 cfg6
  let cfg12 := fp12Config fp2 nr12 false q6 P N
  let fp6 := Ext3.ops fp2 cfg6
  { fp, fp2, fp12 := Ext2.ops fp6 cfg12
    mulBase := Ext2.mulBase fp
    mulBy034 := Fp12.mulBy034 fp2 cfg6 nr12
    mulBy014 := Fp12.mulBy014 fp2 cfg6 nr12
    cycSquare := Fp12.fastCyclotomicSquare fp2 cfg6 (P % 6 == 1) cfg12
    cycInverse := Ext2.fastCyclotomicInverse fp6 }

/-- The configuration of a curve (bn/generator/curve.h.tpl:18-37, bls12/generator/curve.h.tpl:18-23) and
the constant `kB` of its `G2Curve`. `twistM` says that `kTwistType` is `kM`. The last three members
are those of BN curves. -/
structure Config (β : Type) where
  b : β
  twistM : Bool
  x : Limbs 64
  xIsNegative : Bool
  ateLoopCount : List Int
  twistMulByQX : β
  twistMulByQY : β

/-- An affine point (short_weierstrass/affine_point.h:208-209); `(0, 0)` is the point at infinity. -/
structure Point (α : Type) where
  x : α
  y : α

/-- `EllCoeff` (pairing/ell_coeff.h:41-43). -/
structure EllCoeff (β : Type) where
  c0 : β
  c1 : β
  c2 : β
deriving DecidableEq

/-- `G2Projective` (pairing/g2_projective.h:93-95). -/
structure G2Projective (β : Type) where
  x : β
  y : β
  z : β
deriving DecidableEq

/-- `G2PreparedBase` (pairing/g2_prepared_base.h:47-48); the default value is the point at infinity. -/
structure G2Prepared (β : Type) where
  ellCoeffs : List (EllCoeff β) := []
  infinity : Bool := true
deriving DecidableEq

/-- `Pair` (pairing/pairing_friendly_curve.h:42-44). -/
structure Pair (α β : Type) where
  g1 : Point α
  ellCoeffs : List (EllCoeff β)
  idx : Nat

variable {α β γ : Type} (o : Ops α β γ) (cfg : Config β)

/-- `AffinePoint::IsZero` (short_weierstrass/affine_point.h:125). -/
def Point.isZero {δ : Type} (f : FieldOps δ) (p : Point δ) : Bool := f.isZero p.x && f.isZero p.y

/-- `AffinePoint::Negate`, `NegateInPlace` (short_weierstrass/affine_point.h:168-173). -/
def Point.neg {δ : Type} (f : FieldOps δ) (p : Point δ) : Point δ := ⟨p.x, f.neg p.y⟩

namespace G2Projective

/-- `AddInPlace` (pairing/g2_projective.h:36-57): the new point and the coefficients of the line. -/
def add (r : G2Projective β) (q : Point β) : G2Projective β × EllCoeff β :=
  let f2 := o.fp2
  let theta := f2.sub r.y (f2.mul q.y r.z)
  let lambda := f2.sub r.x (f2.mul q.x r.z)
  let c := f2.square theta
  let d := f2.square lambda
  let e := f2.mul lambda d
  let f := f2.mul r.z c
  let g := f2.mul r.x d
  let h := f2.sub (f2.add e f) (f2.double g)
  let x := f2.mul lambda h
  let y := f2.sub (f2.mul theta (f2.sub g h)) (f2.mul e r.y)
  let z := f2.mul r.z e
  let j := f2.sub (f2.mul theta q.x) (f2.mul lambda q.y)
  (⟨x, y, z⟩, if cfg.twistM then ⟨j, f2.neg theta, lambda⟩ else ⟨lambda, f2.neg theta, j⟩)

/-- `DoubleInPlace(Fp::TwoInv())` (pairing/g2_projective.h:60-85). -/
def double (r : G2Projective β) : G2Projective β × EllCoeff β :=
  let f2 := o.fp2
  let a := o.mulBase (f2.mul r.x r.y) o.fp.twoInv
  let b := f2.square r.y
  let c := f2.square r.z
  let e := f2.mul cfg.b (f2.add (f2.double c) c)
  let f := f2.add (f2.double e) e
  let g := o.mulBase (f2.add b f) o.fp.twoInv
  let h := f2.sub (f2.square (f2.add r.y r.z)) (f2.add b c)
  let i := f2.sub e b
  let j := f2.square r.x
  let eSquare := f2.square e
  let x := f2.mul a (f2.sub b f)
  let y := f2.sub (f2.square g) (f2.add (f2.double eSquare) eSquare)
  let z := f2.mul b h
  (⟨x, y, z⟩, if cfg.twistM then ⟨i, f2.add (f2.double j) j, f2.neg h⟩
    else ⟨f2.neg h, f2.add (f2.double j) j, i⟩)

/-- `NegateInPlace` (pairing/g2_projective.h:87-90). -/
def neg (r : G2Projective β) : G2Projective β := ⟨r.x, o.fp2.neg r.y, r.z⟩

end G2Projective

/-! ## Prepared points -/

/-- The loops of `G2Prepared::From` (bn/g2_prepared.h:48-61, bls12/g2_prepared.h:51-57) over the
remaining digits: a doubling, then an addition of `q` or `-q`. The result is the point and the
coefficients pushed. -/
def prepareGo (q negQ : Point β) : List Int → G2Projective β → G2Projective β × List (EllCoeff β)
  | [], r => (r, [])
  | d :: ds, r =>
    let (r, c) := r.double o cfg
    if d = 1 then
      let (r, c') := r.add o cfg q
      let (r, cs) := prepareGo q negQ ds r
      (r, c :: c' :: cs)
    else if d = -1 then
      let (r, c') := r.add o cfg negQ
      let (r, cs) := prepareGo q negQ ds r
      (r, c :: c' :: cs)
    else
      let (r, cs) := prepareGo q negQ ds r
      (r, c :: cs)

/-- `MulByCharacteristic` (bn/g2_prepared.h:79-87). -/
def mulByCharacteristic (r : Point β) : Point β :=
  ⟨o.fp2.mul (o.fp2.frobenius 1 r.x) cfg.twistMulByQX, o.fp2.mul (o.fp2.frobenius 1 r.y) cfg.twistMulByQY⟩

/-- The digits of `kAteLoopCount` from `size - 2` down to 0 (bn/g2_prepared.h:48, :51). -/
def ateDigits : List Int := cfg.ateLoopCount.dropLast.reverse

/-- `bn::G2Prepared::From` (bn/g2_prepared.h:32-76). -/
def bnPrepare (q : Point β) : G2Prepared β :=
  if q.isZero o.fp2 then {}
  else
    let (r, cs) := prepareGo o cfg q (q.neg o.fp2) (ateDigits cfg) ⟨q.x, q.y, o.fp2.one⟩
    let q1 := mulByCharacteristic o cfg q
    let q2 := (mulByCharacteristic o cfg q1).neg o.fp2
    let r := if cfg.xIsNegative then r.neg o else r
    let (r, c1) := r.add o cfg q1
    let (_, c2) := r.add o cfg q2
    { ellCoeffs := cs ++ [c1, c2], infinity := false }

/-- The bits `BitIteratorBE::begin(&kX, false)` yields after its first increment
(bls12/g2_prepared.h:46-49, math/base/bit_iterator.h:32-56), as digits. -/
def allBits : List Int := (((List.range (64 * cfg.x.length)).reverse).map fun i => if testBit cfg.x i then 1 else 0).tail

/-- `bls12::G2Prepared::From` (bls12/g2_prepared.h:34-61). -/
def blsPrepare (q : Point β) : G2Prepared β :=
  if q.isZero o.fp2 then {}
  else
    { ellCoeffs := (prepareGo o cfg q (q.neg o.fp2) (allBits cfg) ⟨q.x, q.y, o.fp2.one⟩).2, infinity := false }

/-! ## Miller loops -/

/-- `CreatePairs` (pairing/pairing_friendly_curve.h:74-87). -/
def createPairs (a : List (Point α)) (b : List (G2Prepared β)) : Option (List (Pair α β)) :=
  if a.length = b.length then
    some (((a.zip b).filter fun p => !p.1.isZero o.fp && !p.2.infinity).map fun p => ⟨p.1, p.2.ellCoeffs, 0⟩)
  else none

/-- `Ell` (pairing/pairing_friendly_curve.h:65-72). -/
def ell (f : γ) (c : EllCoeff β) (p : Point α) : γ :=
  if cfg.twistM then o.mulBy014 f c.c0 (o.mulBase c.c1 p.x) (o.mulBase c.c2 p.y)
  else o.mulBy034 f (o.mulBase c.c0 p.y) (o.mulBase c.c1 p.x) c.c2

/-- `for (const Pair& pair : pairs) Ell(f, pair.NextEllCoeff(), pair.g1())` (bn/bn_curve.h:41-43,
bls12/bls12_curve.h:45-47); the index inside a pair is advanced (pairing_friendly_curve.h:39). -/
def ellAll : γ → List (Pair α β) → Option (γ × List (Pair α β))
  | f, [] => some (f, [])
  | f, p :: ps =>
    (p.ellCoeffs[p.idx]?).bind fun c =>
      (ellAll (ell o cfg f c p.g1) ps).map fun r => (r.1, { p with idx := p.idx + 1 } :: r.2)

/-- The loop of the callbacks (bn/bn_curve.h:36-51, bls12/bls12_curve.h:42-55): square unless `skip`,
one round of `Ell`, and another one when the digit is 1 or -1. -/
def millerGo : Bool → List Int → γ → List (Pair α β) → Option (γ × List (Pair α β))
  | _, [], f, ps => some (f, ps)
  | skip, d :: ds, f, ps =>
    let f := if skip then f else o.fp12.square f
    (ellAll o cfg f ps).bind fun r =>
      if d = 1 ∨ d = -1 then (ellAll o cfg r.1 r.2).bind fun r => millerGo false ds r.1 r.2
      else millerGo false ds r.1 r.2

/-- `ParallelizeMapByChunkSize(pairs, 4, callback)` and the product of the results
(bn/bn_curve.h:55-58, bls12/bls12_curve.h:59-62). The callbacks advance the indices in `pairs`. -/
def millerChunks (skip : Bool) (ds : List Int) (ps : List (Pair α β)) : Option (γ × List (Pair α β)) :=
  ((invocations ps.length 4).mapM fun c => millerGo o cfg skip ds o.fp12.one (chunkOf ps 4 c)).map fun rs =>
    ((rs.map (·.1)).foldl o.fp12.mul o.fp12.one, rs.flatMap (·.2))

/-- `CHECK(f.CyclotomicInverseInPlace())` when `b`. -/
def inverseIf (b : Bool) (f : γ) : Option γ := if b then o.cycInverse f else some f

/-- `BNCurve::MultiMillerLoop` (bn/bn_curve.h:28-73). -/
def bnMillerLoop (a : List (Point α)) (b : List (G2Prepared β)) : Option γ :=
  (createPairs o a b).bind fun ps =>
    (millerChunks o cfg true (ateDigits cfg) ps).bind fun r =>
      (inverseIf o cfg.xIsNegative r.1).bind fun f =>
        (ellAll o cfg f r.2).bind fun r => (ellAll o cfg r.1 r.2).map (·.1)

/-- The bits `BitIteratorBE::begin(&kX, true)` yields after its first increment
(bls12/bls12_curve.h:36-40), as digits; `none` when `kX` is zero (the iterator then starts at the
end and is moved past it). -/
def xBits : Option (List Int) :=
  match bitsBE cfg.x with
  | [] => none
  | _ :: bs => some (bs.map fun b => if b then 1 else 0)

/-- `BLS12Curve::MultiMillerLoop` (bls12/bls12_curve.h:28-68). Without pairs the callback is not
called. -/
def blsMillerLoop (a : List (Point α)) (b : List (G2Prepared β)) : Option γ :=
  (createPairs o a b).bind fun ps =>
    (if ps.isEmpty then some (o.fp12.one, ps)
      else (xBits cfg).bind fun ds => millerChunks o cfg false ds ps).bind fun r =>
        inverseIf o cfg.xIsNegative r.1

/-! ## Final exponentiation -/

/-- `CyclotomicPow(Config::kX)` (cyclotomic_multiplicative_subgroup.h:72-81). -/
def cycPowX (f : γ) : Option γ :=
  cyclotomicPowNAF o.fp12.zero o.fp12.one o.fp12.isZero o.fp12.mul o.cycSquare o.cycInverse f cfg.x

/-- `PowByX` (pairing/pairing_friendly_curve.h:47-53). -/
def powByX (f : γ) : Option γ := (cycPowX o cfg f).bind (inverseIf o cfg.xIsNegative)

/-- `PowByNegX` (pairing/pairing_friendly_curve.h:55-61). -/
def powByNegX (f : γ) : Option γ := (cycPowX o cfg f).bind (inverseIf o (!cfg.xIsNegative))

/-- The easy part (bn/bn_curve.h:86-102, bls12/bls12_curve.h:76-93). -/
def easyPart (f : γ) : Option γ := do
  let f1 ← o.cycInverse f
  let f2 ← o.fp12.inverse f
  let r := o.fp12.mul f1 f2
  let f2 := r
  let r := o.fp12.frobenius 2 r
  some (o.fp12.mul r f2)

/-- `BNCurve::FinalExponentiation` (bn/bn_curve.h:75-168). References to a variable that is updated in
place (`y1` is `y0`, `y3` is `y2`, `y7` is `y6`, `y11` is `y10`, `y13` is `y12`, `y14` is `y8`, `y15` and
`y16` are `r`) are new bindings here; no old value is read afterwards. -/
def bnFinalExponentiation (f : γ) : Option γ := do
  let m := o.fp12
  let r ← easyPart o f
  let y0 ← powByNegX o cfg r
  let y1 := o.cycSquare y0
  let y2 := o.cycSquare y1
  let y3 := m.mul y2 y1
  let y4 ← powByNegX o cfg y3
  let y5 := o.cycSquare y4
  let y6 ← powByNegX o cfg y5
  let y3 ← o.cycInverse y3
  let y6 ← o.cycInverse y6
  let y7 := m.mul y6 y4
  let y8 := m.mul y7 y3
  let y9 := m.mul y8 y1
  let y10 := m.mul y8 y4
  let y11 := m.mul y10 r
  let y12 := m.frobenius 1 y9
  let y13 := m.mul y12 y11
  let y8 := m.frobenius 2 y8
  let y14 := m.mul y8 y13
  let r ← o.cycInverse r
  let y15 := m.mul r y9
  let y15 := m.frobenius 3 y15
  some (m.mul y15 y14)

/-- `BLS12Curve::FinalExponentiation` (bls12/bls12_curve.h:70-146). -/
def blsFinalExponentiation (f : γ) : Option γ := do
  let m := o.fp12
  let r ← easyPart o f
  let y0 := o.cycSquare r
  let y1 ← powByX o cfg r
  let y2 ← o.cycInverse r
  let y1 := m.mul y1 y2
  let y2 ← powByX o cfg y1
  let y1 ← o.cycInverse y1
  let y1 := m.mul y1 y2
  let y2 ← powByX o cfg y1
  let y1 := m.frobenius 1 y1
  let y1 := m.mul y1 y2
  let r := m.mul r y0
  let y0 ← powByX o cfg y1
  let y2 ← powByX o cfg y0
  let y0 := y1
  let y0 := m.frobenius 2 y0
  let y1 ← o.cycInverse y1
  let y1 := m.mul y1 y2
  let y1 := m.mul y1 y0
  some (m.mul r y1)

/-- `Pairing<BNCurve>` of affine points (pairing/pairing.h:11-25). -/
def bnPairing (a : List (Point α)) (b : List (Point β)) : Option γ :=
  (bnMillerLoop o cfg a (b.map (bnPrepare o cfg))).bind (bnFinalExponentiation o cfg)

/-- `Pairing<BLS12Curve>` of affine points (pairing/pairing.h:11-25). -/
def blsPairing (a : List (Point α)) (b : List (Point β)) : Option γ :=
  (blsMillerLoop o cfg a (b.map (blsPrepare o cfg))).bind (blsFinalExponentiation o cfg)

/-- `ComputeAteLoopCount` of the generator (bn/generator/generator.cc:14-46, called with the absolute
value of the parameter at :77, :82). -/
def computeAteLoopCount (absX : Nat) : Option (List Int) :=
  let v := 6 * absX + 2
  let limbSize := v.log2 / 64 + 1
  if limbSize ≤ 9 then toNAF (copyLimbs limbSize v) else none

end Tachyon.Pairing
