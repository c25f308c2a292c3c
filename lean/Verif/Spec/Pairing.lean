import Verif.Model.Pairing
import Verif.Spec.Curve
import Verif.Spec.FieldImplements
import Verif.Spec.Digits
import Verif.Spec.Limbs
/-! What it means that the operations the pairing code uses implement a tower `k ⊂ K ⊂ L` of degree
12, and the textbook Miller loop: lines through points of the twist, moved to the curve over `L`. -/
namespace Tachyon.Pairing
open WeierstrassCurve.Affine

variable {α β γ k K L : Type}

/-- The operations implement the prime field `k` with `p` elements, `K` with `p²` elements and `L` with
`p¹²` elements, where `L` is generated over `K` by `w` with `w⁶ = ξ`. The cyclotomic squaring is only
required to be right on the elements with `x^(p⁴ - p² + 1) = 1`. -/
structure Ops.Implements [CommRing k] [CommRing K] [CommRing L] (o : Ops α β γ) (R1 : α → k → Prop)
    (R2 : β → K → Prop) (R12 : γ → L → Prop) (ι : k →+* K) (j : K →+* L) (w : L) (ξ : K) (p : ℕ) :
    Prop where
  fp : o.fp.Implements R1
  fp2 : o.fp2.Implements R2
  fp12 : o.fp12.Implements R12
  frob2 : o.fp2.ImplementsFrobenius R2 p
  frob12 : o.fp12.ImplementsFrobenius R12 p
  mulBase : ∀ {a x b y}, R2 a x → R1 b y → R2 (o.mulBase a b) (x * ι y)
  mulBy034 : ∀ {a x b0 b3 b4 y0 y3 y4}, R12 a x → R2 b0 y0 → R2 b3 y3 → R2 b4 y4 →
    R12 (o.mulBy034 a b0 b3 b4) (x * (j y0 + j y3 * w + j y4 * w ^ 3))
  mulBy014 : ∀ {a x b0 b1 b4 y0 y1 y4}, R12 a x → R2 b0 y0 → R2 b1 y1 → R2 b4 y4 →
    R12 (o.mulBy014 a b0 b1 b4) (x * (j y0 + j y1 * w ^ 2 + j y4 * w ^ 3))
  cycInverse : ∀ {a x}, R12 a x → x ≠ 0 → ∃ b, o.cycInverse a = some b ∧ R12 b (x ^ p ^ 6)
  cycInverse_none : ∀ {a x}, R12 a x → x = 0 → o.cycInverse a = none
  cycSquare : ∀ {a x}, R12 a x → x ^ p ^ 4 * x = x ^ p ^ 2 → R12 (o.cycSquare a) (x * x)
  two : IsUnit (2 : k)
  odd : p % 2 = 1
  fixed1 : ∀ x : k, x ^ p = x
  fixed2 : ∀ x : K, x ^ p ^ 2 = x
  fixed12 : ∀ x : L, x ^ p ^ 12 = x
  unit12 : ∀ x : L, x ≠ 0 → IsUnit x
  w6 : w ^ 6 = j ξ
  conj : w ^ p ^ 6 = -w
  independent : ∀ a b c : K, j a + j b * w + j c * w ^ 3 = 0 → a = 0 ∧ b = 0 ∧ c = 0
  independent' : ∀ a b c : K, j a + j b * w ^ 2 + j c * w ^ 3 = 0 → a = 0 ∧ b = 0 ∧ c = 0

/-- The curve `y² = x³ + b` of the points of `G2`. -/
def twist [Field K] (b : K) : Curve.Config K := ⟨0, b, true, fun _ => 0, true⟩

/-- The affine point `q` of the code stands for the point `Q` of the curve. -/
def Point.Rep [Field K] (R2 : β → K → Prop) (b : K) (q : Point β) (Q : (twist b).Pt) : Prop :=
  ∃ x y, R2 q.x x ∧ R2 q.y y ∧ Curve.Affine.Rep (twist b) ⟨x, y⟩ Q

section Miller
variable [Field K] [DecidableEq K] [CommRing L] (j : K →+* L) (u : L) {b : K} (xP yP : L)

/-- The value at `(xP, yP)` of the line through the images of `T` and `Q` under `(x, y) ↦ (u² x, u³ y)`
(the tangent if `T = Q`), normalised so that `y` has coefficient 1. The slope is the one Mathlib uses
in the group law. -/
noncomputable def line : (twist b).Pt → (twist b).Pt → L
  | .some X₁ Y₁ _, .some X₂ Y₂ _ =>
    yP - u ^ 3 * j Y₁ - u * j ((twist b).curve.slope X₁ X₂ Y₁ Y₂) * (xP - u ^ 2 * j X₁)
  | _, _ => 1

/-- Miller's algorithm over signed binary digits, most significant first, from the point `T` and the
value `f`. -/
noncomputable def miller (Q : (twist b).Pt) : List ℤ → (twist b).Pt → L → L
  | [], _, f => f
  | d :: ds, T, f =>
    if d = 0 then miller Q ds (T + T) (f ^ 2 * line j u xP yP T T)
    else miller Q ds (T + T + d • Q)
      (f ^ 2 * line j u xP yP T T * line j u xP yP (T + T) (d • Q))

end Miller

section Values
variable [Field k] [Field K] [DecidableEq K] [CommRing L] (ι : k →+* K) (j : K →+* L) (u : L) {bE : k} {b : K}

/-- The value of Miller's algorithm at the points `P` and `Q`, from `Q` and 1. -/
noncomputable def ateMiller (ds : List ℤ) (P : (twist bE).Pt) (Q : (twist b).Pt) : L :=
  match P with
  | .zero => 1
  | .some x y _ => if Q = 0 then 1 else miller j u (j (ι x)) (j (ι y)) Q ds Q 1

/-- The map `(x, y) ↦ (cx xᵖ, cy yᵖ)` of the twist. -/
noncomputable def frobPoint (p : ℕ) (cx cy : K) : (twist b).Pt → (twist b).Pt
  | .zero => .zero
  | .some X Y _ => open Classical in
    if h : (twist b).curve.Nonsingular (X ^ p * cx) (Y ^ p * cy) then .some _ _ h else .zero

/-- The two lines at the end of the optimal ate pairing of BN curves: through `t Q` and `π Q`, and
through `t Q + π Q` and `-π² Q`. -/
noncomputable def bnLines (t : ℤ) (π : (twist b).Pt → (twist b).Pt) (P : (twist bE).Pt) (Q : (twist b).Pt) : L :=
  match P with
  | .zero => 1
  | .some x y _ =>
    if Q = 0 then 1
    else line j u (j (ι x)) (j (ι y)) (t • Q) (π Q) *
      line j u (j (ι x)) (j (ι y)) (t • Q + π Q) (-π (π Q))

/-- The constants `cx` and `cy` are such that the image of `frobPoint Q` under `(x, y) ↦ (u² x, u³ y)` is
the image of `Q` with both coordinates raised to the power `p`; the images lie on a curve
`y² = x³ + bE` over the prime field. -/
structure TwistConstants (p : ℕ) (bE : k) (b cx cy : K) : Prop where
  x : u ^ 2 * j cx = (u ^ 2) ^ p
  y : u ^ 3 * j cy = (u ^ 3) ^ p
  curve : u ^ 6 * j b = j (ι bE)

end Values

/-- The number with the given binary digits, most significant first, after a leading `m`. -/
def fromDigits : List ℤ → ℤ → ℤ
  | [], m => m
  | d :: ds, m => fromDigits ds (2 * m + d)

/-- The binary digits of `n` after the leading 1, most significant first. -/
def binaryDigits (n : ℕ) : List ℤ := (List.range n.log2).reverse.map fun i => if n.testBit i then 1 else 0

/-- The parameter of the curve with its sign. -/
def Config.xInt (cfg : Config β) : ℤ :=
  if cfg.xIsNegative then -(limbsVal cfg.x : ℤ) else limbsVal cfg.x

/-- The size of the prime field of the BN curve with parameter `x`. -/
def bnQ (x : ℤ) : ℤ := 36 * x ^ 4 + 36 * x ^ 3 + 24 * x ^ 2 + 6 * x + 1
/-- The order of the BN curve with parameter `x`. -/
def bnR (x : ℤ) : ℤ := 36 * x ^ 4 + 36 * x ^ 3 + 18 * x ^ 2 + 6 * x + 1
/-- The order of the subgroups of the BLS12 curve with parameter `x`. -/
def blsR (x : ℤ) : ℤ := x ^ 4 - x ^ 2 + 1

/-- The exponent of the final exponentiation of BN curves. -/
def bnExponent (x q : ℤ) : ℤ := (q ^ 6 - 1) * (q ^ 2 + 1) *
  (q ^ 3 * (12 * x ^ 3 + 6 * x ^ 2 + 4 * x - 1) + q ^ 2 * (12 * x ^ 3 + 6 * x ^ 2 + 6 * x)
    + q * (12 * x ^ 3 + 6 * x ^ 2 + 4 * x) + (12 * x ^ 3 + 12 * x ^ 2 + 6 * x + 1))

/-- The exponent of the final exponentiation of BLS12 curves. -/
def blsExponent (x q : ℤ) : ℤ := (q ^ 6 - 1) * (q ^ 2 + 1) * ((x - 1) ^ 2 * (x + q) * (x ^ 2 + q ^ 2 - 1) + 3)

section Params
variable [Field k] [Field K] [CommRing L]

/-- The configuration is that of a BN curve with parameter `x`. The point `(x, y)` of the twist
corresponds to `(u² x, u³ y)`, where `u = w` for a twist of type D and `u = w⁻¹` for type M. -/
structure BnParams (cfg : Config β) (R2 : β → K → Prop) (ι : k →+* K) (j : K →+* L) (w u : L) (p r : ℕ) (bE : k)
    (b cx cy : K) (x : ℤ) : Prop where
  unit : if cfg.twistM then u * w = 1 else u = w
  coeff : R2 cfg.b b
  constants : TwistConstants ι j u p bE b cx cy
  qx : R2 cfg.twistMulByQX cx
  qy : R2 cfg.twistMulByQY cy
  param : cfg.xInt = x
  limbs : limbsVal cfg.x + 1 < 2 ^ (64 * cfg.x.length)
  digits : ∀ d ∈ cfg.ateLoopCount, d = 0 ∨ d = 1 ∨ d = -1
  last : cfg.ateLoopCount.getLast? = some 1
  count : digitsVal 2 cfg.ateLoopCount = |6 * x + 2|
  prime : r.Prime
  order : (r : ℤ) = bnR x
  char : (p : ℤ) = bnQ x

/-- The configuration is that of a BLS12 curve with parameter `x`, the top bit of whose limbs is set. -/
structure BlsParams (cfg : Config β) (R2 : β → K → Prop) (w u : L) (p r : ℕ) (b : K) (x : ℤ) : Prop where
  unit : if cfg.twistM then u * w = 1 else u = w
  coeff : R2 cfg.b b
  param : cfg.xInt = x
  limbs : limbsVal cfg.x + 1 < 2 ^ (64 * cfg.x.length)
  top : 2 ^ (64 * cfg.x.length - 1) ≤ limbsVal cfg.x
  prime : r.Prime
  order : (r : ℤ) = blsR x
  char : 3 * (p : ℤ) = (x - 1) ^ 2 * r + 3 * x

variable [DecidableEq K] {bE : k} {b : K}

/-- `Q` is in the second group: its order divides `r` and the Frobenius map of the curve over `L` acts on
its image as multiplication by `p`. -/
structure InG2 (p r : ℕ) (cx cy : K) (Q : (twist b).Pt) : Prop where
  order : (r : ℤ) • Q = 0
  eigen : frobPoint p cx cy Q = (p : ℤ) • Q
  eigen2 : frobPoint p cx cy (frobPoint p cx cy Q) = ((p : ℤ) ^ 2) • Q

/-- `W` is the value of the optimal ate Miller loop of a BN curve at the pairs of points: `f_{|6x+2|,Q}(P)`,
inverted when `x < 0`, times the two lines through `(6x+2) Q`, `π Q` and `-π² Q`. -/
def BnValue (ι : k →+* K) (j : K →+* L) (u : L) (cfg : Config β) (p : ℕ) (cx cy : K) (x : ℤ)
    (items : List ((twist bE).Pt × (twist b).Pt)) (W : Lˣ) : Prop :=
  ∃ U V : Lˣ, (U : L) = (items.map fun i => ateMiller ι j u (ateDigits cfg) i.1 i.2).prod ∧
    (V : L) = (items.map fun i => bnLines ι j u (6 * x + 2) (frobPoint p cx cy) i.1 i.2).prod ∧
    W = U ^ (if cfg.xIsNegative then -1 else 1 : ℤ) * V

/-- `W` is the value of the ate Miller loop of a BLS12 curve at the pairs of points: `f_{|x|,Q}(P)`, inverted
when `x < 0`. -/
def BlsValue (ι : k →+* K) (j : K →+* L) (u : L) (cfg : Config β)
    (items : List ((twist bE).Pt × (twist b).Pt)) (W : Lˣ) : Prop :=
  ∃ U : Lˣ, (U : L) = (items.map fun i => ateMiller ι j u (binaryDigits (limbsVal cfg.x)) i.1 i.2).prod ∧
    W = U ^ (if cfg.xIsNegative then -1 else 1 : ℤ)

end Params

end Tachyon.Pairing
