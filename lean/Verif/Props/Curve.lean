import Verif.Proofs.CurveConv
import Verif.Props.Pow
import Verif.Props.Group
import Mathlib.Tactic.NormNum.Prime
import Mathlib.Algebra.Field.ZMod
import Mathlib.Data.ZMod.Basic
/-!
# Properties C25-C30, C55, C56: short Weierstrass curves

The group is Mathlib's group of points of `y² = x³ + a x + b`; a tuple of coordinates stands for a point
in the sense of `Verif/Spec/Curve.lean`. No hypothesis on the discriminant is needed.
-/
universe u
namespace Tachyon.Props
open Tachyon.Curve WeierstrassCurve.Affine Tachyon.BigInt

variable {F : Type u} [Field F] [DecidableEq F] {cfg : Config F}

section Example
local instance : Fact (Nat.Prime 7) := ⟨by norm_num⟩

/-- The curve of short_weierstrass/test/sw_curve_config.h:31-45: `y² = x³ + 5` over `GF(7)`. -/
def testConfig : Config (ZMod 7) := ⟨0, 5, true, fun _ => 0, true⟩

/-- A curve with `a ≠ 0` over `GF(7)`: `y² = x³ + x - 1`. -/
def testConfigA : Config (ZMod 7) := ⟨1, -1, false, fun v => v, true⟩

/-- A curve through the origin over `GF(7)`: `y² = x³ + x`. -/
def testConfigB : Config (ZMod 7) := ⟨1, 0, false, fun v => v, true⟩

theorem testConfig_valid : testConfig.Valid := ⟨by decide, by decide⟩
theorem testConfigA_valid : testConfigA.Valid := ⟨by decide, by decide⟩
theorem testConfigB_valid : testConfigB.Valid := ⟨by decide, by decide⟩

theorem nonsingular_of {c : Config (ZMod 7)} {X Y : ZMod 7} (h : Y ^ 2 = X ^ 3 + c.a * X + c.b)
    (h' : 2 * Y ≠ 0 ∨ 3 * X ^ 2 + c.a ≠ 0) : c.curve.Nonsingular X Y := by
  rw [nonsingular_iff]
  refine ⟨equation_curve.mpr h, ?_⟩
  rcases h' with h' | h'
  · right
    simp only [Config.curve]
    intro e
    exact h' (by linear_combination e)
  · left
    simp only [Config.curve]
    intro e
    exact h' (by linear_combination -e)

/-- The points `(6, 2)`, `(5, 2)`, `(3, 5)` of the test curve. -/
def pt62 : testConfig.Pt := .some 6 2 (nonsingular_of (by decide) (by decide))
@[inherit_doc pt62] def pt52 : testConfig.Pt := .some 5 2 (nonsingular_of (by decide) (by decide))
@[inherit_doc pt62] def pt35 : testConfig.Pt := .some 3 5 (nonsingular_of (by decide) (by decide))

end Example

/-! ## C25: Jacobian coordinates -/

/-- C25: `Add`, for distinct points on any curve, and for equal points when `a = 0`. -/
theorem C25_add (hv : cfg.Valid) (h2 : (2 : F) ≠ 0) (p q : Jacobian F) (P Q : cfg.Pt)
    (ha : P = Q → cfg.aIsZero = true) (hp : p.Rep cfg P) (hq : q.Rep cfg Q) :
    (p.add cfg q).Rep cfg (P + Q) := Jacobian.add_rep hv h2 ha hp hq

/-- C25: `Add` of an affine point. -/
theorem C25_addAffine (hv : cfg.Valid) (h2 : (2 : F) ≠ 0) (p : Jacobian F) (q : Affine F) (P Q : cfg.Pt)
    (ha : P = Q → cfg.aIsZero = true) (hp : p.Rep cfg P) (hq : q.Rep cfg Q) :
    (p.addAffine cfg q).Rep cfg (P + Q) := Jacobian.addAffine_rep hv h2 ha hp hq

/-- C25: `operator-`. -/
theorem C25_sub (hv : cfg.Valid) (h2 : (2 : F) ≠ 0) (p q : Jacobian F) (r : Affine F) (P Q R : cfg.Pt)
    (ha : P = -Q → cfg.aIsZero = true) (ha' : P = -R → cfg.aIsZero = true) (hp : p.Rep cfg P)
    (hq : q.Rep cfg Q) (hr : r.Rep cfg R) :
    (p.sub cfg q).Rep cfg (P - Q) ∧ (p.subAffine cfg r).Rep cfg (P - R) := by
  rw [sub_eq_add_neg, sub_eq_add_neg]
  exact ⟨Jacobian.add_rep hv h2 ha hp (Jacobian.neg_rep hq),
    Jacobian.addAffine_rep hv h2 ha' hp (Affine.neg_rep hr)⟩

/-- C25: `Double` when `a = 0` (every curve shipped with the library). -/
theorem C25_double (hv : cfg.Valid) (ha : cfg.aIsZero = true) (p : Jacobian F) (P : cfg.Pt)
    (hp : p.Rep cfg P) : (p.double cfg).Rep cfg (P + P) := Jacobian.double_rep hv ha hp

omit [DecidableEq F] in
/-- C25: `Negate`. -/
theorem C25_neg (p : Jacobian F) (P : cfg.Pt) (hp : p.Rep cfg P) : p.neg.Rep cfg (-P) :=
  Jacobian.neg_rep hp

/-- C25: `Zero` and `IsZero`. -/
theorem C25_zero : (Jacobian.zero : Jacobian F).Rep cfg 0 ∧
    ∀ (p : Jacobian F) (P : cfg.Pt), p.Rep cfg P → (p.isZero = true ↔ P = 0) := by
  refine ⟨rfl, fun p P hp => ?_⟩
  rcases P with _ | ⟨X, Y, hP⟩
  · have hz : p.z = 0 := hp
    simp only [Jacobian.isZero, hz, decide_true, true_iff]; rfl
  · simp only [Jacobian.isZero, hp.1, decide_false, Bool.false_eq_true, false_iff]
    exact Point.some_ne_zero hP

/-- C25: `ScalarMul` by an integer of any number of limbs, `a = 0`. -/
theorem C25_scalarMul (hv : cfg.Valid) (ha : cfg.aIsZero = true) (h2 : (2 : F) ≠ 0) {w : ℕ} (hw : 0 < w)
    (p : Jacobian F) (P : cfg.Pt) (hp : p.Rep cfg P) (k : Limbs w) :
    (doScalarMul ⟨Jacobian.zero, Jacobian.add cfg, Jacobian.double cfg⟩ p k).Rep cfg
      (limbsVal k • P) :=
  C20_scalarMul_represented ⟨Jacobian.zero, Jacobian.add cfg, Jacobian.double cfg⟩
    (Jacobian.Rep cfg) (Jacobian.Rep cfg) C25_zero.1
    (fun _ _ _ _ h h' => Jacobian.add_rep hv h2 (fun _ => ha) h h')
    (fun _ _ h => Jacobian.double_rep hv ha h) hw p P hp k

section
local instance : Fact (Nat.Prime 7) := ⟨by norm_num⟩

/-- C25 fails for `a ≠ 0`: `DoDoubleImpl` sets `Z3 = 2(Y1 + Z1)` instead of `2 Y1 Z1`
(jacobian_point_impl.h:301-302), so doubling `(1, 6)` on `y² = x³ + x - 1` over `GF(7)` gives the point
at infinity although `2P ≠ 0`; `Add` inherits it for equal operands. -/
theorem C25_double_wrong : ∃ P : testConfigA.Pt, P + P ≠ 0 ∧
    (⟨1, 6, 1⟩ : Jacobian (ZMod 7)).Rep testConfigA P ∧
    ((⟨1, 6, 1⟩ : Jacobian (ZMod 7)).double testConfigA).isZero = true ∧
    ((⟨1, 6, 1⟩ : Jacobian (ZMod 7)).add testConfigA ⟨1, 6, 1⟩).isZero = true := by
  have h : testConfigA.curve.Nonsingular 1 6 := nonsingular_of (by decide) (by decide)
  refine ⟨.some 1 6 h, ?_, ⟨by decide, by decide, by decide⟩, by decide +kernel, by decide +kernel⟩
  obtain ⟨l, h', -, e⟩ := Curve.add_self (h₁ := h) (by decide)
  rw [e]
  exact Point.some_ne_zero h'

-- (6, 2) + (5, 2) = (3, 5) with z = 2 and z = 3
example : (⟨3, 2, 2⟩ : Jacobian (ZMod 7)).Rep testConfig pt62 ∧
    (⟨3, 5, 3⟩ : Jacobian (ZMod 7)).Rep testConfig pt52 ∧
    (⟨3, 2, 2⟩ : Jacobian (ZMod 7)).add testConfig ⟨3, 5, 3⟩ = ⟨5, 5, 2⟩ ∧
    (⟨5, 5, 2⟩ : Jacobian (ZMod 7)).Rep testConfig pt35 := by
  refine ⟨⟨by decide, by decide, by decide⟩, ⟨by decide, by decide, by decide⟩, by decide +kernel, ?_⟩
  exact ⟨by decide, by decide, by decide⟩
end

/-! ## C26: projective coordinates -/

/-- C26: `Add`, on every curve. -/
theorem C26_add (hv : cfg.Valid) (p q : Projective F) (P Q : cfg.Pt) (hp : p.Rep cfg P)
    (hq : q.Rep cfg Q) : (p.add cfg q).Rep cfg (P + Q) := Projective.add_rep hv hp hq

/-- C26: `Add` of an affine point. -/
theorem C26_addAffine (hv : cfg.Valid) (p : Projective F) (q : Affine F) (P Q : cfg.Pt)
    (hp : p.Rep cfg P) (hq : q.Rep cfg Q) : (p.addAffine cfg q).Rep cfg (P + Q) :=
  Projective.addAffine_rep hv hp hq

/-- C26: `operator-`. -/
theorem C26_sub (hv : cfg.Valid) (p q : Projective F) (r : Affine F) (P Q R : cfg.Pt)
    (hp : p.Rep cfg P) (hq : q.Rep cfg Q) (hr : r.Rep cfg R) :
    (p.sub cfg q).Rep cfg (P - Q) ∧ (p.subAffine cfg r).Rep cfg (P - R) := by
  rw [sub_eq_add_neg, sub_eq_add_neg]
  exact ⟨Projective.add_rep hv hp (Projective.neg_rep hq),
    Projective.addAffine_rep hv hp (Affine.neg_rep hr)⟩

/-- C26: `Double`. -/
theorem C26_double (hv : cfg.Valid) (p : Projective F) (P : cfg.Pt) (hp : p.Rep cfg P) :
    (p.double cfg).Rep cfg (P + P) := Projective.double_rep hv hp

omit [DecidableEq F] in
/-- C26: `Negate`. -/
theorem C26_neg (p : Projective F) (P : cfg.Pt) (hp : p.Rep cfg P) : p.neg.Rep cfg (-P) :=
  Projective.neg_rep hp

/-- C26: `Zero` and `IsZero`. -/
theorem C26_zero : (Projective.zero : Projective F).Rep cfg 0 ∧
    ∀ (p : Projective F) (P : cfg.Pt), p.Rep cfg P → (p.isZero = true ↔ P = 0) := by
  refine ⟨rfl, fun p P hp => ?_⟩
  rcases P with _ | ⟨X, Y, hP⟩
  · have hz : p.z = 0 := hp
    simp only [Projective.isZero, hz, decide_true, true_iff]; rfl
  · simp only [Projective.isZero, hp.1, decide_false, Bool.false_eq_true, false_iff]
    exact Point.some_ne_zero hP

/-- C26: `ScalarMul` by an integer of any number of limbs. -/
theorem C26_scalarMul (hv : cfg.Valid) {w : ℕ} (hw : 0 < w) (p : Projective F) (P : cfg.Pt)
    (hp : p.Rep cfg P) (k : Limbs w) :
    (doScalarMul ⟨Projective.zero, Projective.add cfg, Projective.double cfg⟩ p k).Rep cfg
      (limbsVal k • P) :=
  C20_scalarMul_represented ⟨Projective.zero, Projective.add cfg, Projective.double cfg⟩
    (Projective.Rep cfg) (Projective.Rep cfg) C26_zero.1
    (fun _ _ _ _ h h' => Projective.add_rep hv h h')
    (fun _ _ h => Projective.double_rep hv h) hw p P hp k

section
local instance : Fact (Nat.Prime 7) := ⟨by norm_num⟩
example : (⟨5, 4, 2⟩ : Projective (ZMod 7)).Rep testConfig pt62 ∧
    (⟨5, 4, 2⟩ : Projective (ZMod 7)).addAffine testConfig ⟨5, 2⟩ = ⟨1, 4, 5⟩ ∧
    (⟨1, 4, 5⟩ : Projective (ZMod 7)).Rep testConfig pt35 := by
  refine ⟨⟨by decide, by decide, by decide⟩, by decide +kernel, ?_⟩
  exact ⟨by decide, by decide, by decide⟩
end

/-! ## C27: XYZZ coordinates -/

/-- C27: `Add`, on every curve. -/
theorem C27_add (hv : cfg.Valid) (p q : XYZZ F) (P Q : cfg.Pt) (hp : p.Rep cfg P)
    (hq : q.Rep cfg Q) : (p.add cfg q).Rep cfg (P + Q) := XYZZ.add_rep hv hp hq

/-- C27: `Add` of an affine point. -/
theorem C27_addAffine (hv : cfg.Valid) (p : XYZZ F) (q : Affine F) (P Q : cfg.Pt)
    (hp : p.Rep cfg P) (hq : q.Rep cfg Q) : (p.addAffine cfg q).Rep cfg (P + Q) :=
  XYZZ.addAffine_rep hv hp hq

/-- C27: `operator-`. -/
theorem C27_sub (hv : cfg.Valid) (p q : XYZZ F) (r : Affine F) (P Q R : cfg.Pt)
    (hp : p.Rep cfg P) (hq : q.Rep cfg Q) (hr : r.Rep cfg R) :
    (p.sub cfg q).Rep cfg (P - Q) ∧ (p.subAffine cfg r).Rep cfg (P - R) := by
  rw [sub_eq_add_neg, sub_eq_add_neg]
  exact ⟨XYZZ.add_rep hv hp (XYZZ.neg_rep hq), XYZZ.addAffine_rep hv hp (Affine.neg_rep hr)⟩

/-- C27: `Double`. -/
theorem C27_double (hv : cfg.Valid) (p : XYZZ F) (P : cfg.Pt) (hp : p.Rep cfg P) :
    (p.double cfg).Rep cfg (P + P) := XYZZ.double_rep hv hp

omit [DecidableEq F] in
/-- C27: `Negate`. -/
theorem C27_neg (p : XYZZ F) (P : cfg.Pt) (hp : p.Rep cfg P) : p.neg.Rep cfg (-P) :=
  XYZZ.neg_rep hp

/-- C27: `Zero` and `IsZero`. -/
theorem C27_zero : (XYZZ.zero : XYZZ F).Rep cfg 0 ∧
    ∀ (p : XYZZ F) (P : cfg.Pt), p.Rep cfg P → (p.isZero = true ↔ P = 0) := by
  refine ⟨⟨rfl, rfl⟩, fun p P hp => ?_⟩
  rcases P with _ | ⟨X, Y, hP⟩
  · have hz : p.zz = 0 := hp.1
    simp only [XYZZ.isZero, hz, decide_true, true_iff]; rfl
  · simp only [XYZZ.isZero, hp.1, decide_false, Bool.false_eq_true, false_iff]
    exact Point.some_ne_zero hP

/-- C27: `ScalarMul` by an integer of any number of limbs. -/
theorem C27_scalarMul (hv : cfg.Valid) {w : ℕ} (hw : 0 < w) (p : XYZZ F) (P : cfg.Pt)
    (hp : p.Rep cfg P) (k : Limbs w) :
    (doScalarMul ⟨XYZZ.zero, XYZZ.add cfg, XYZZ.double cfg⟩ p k).Rep cfg (limbsVal k • P) :=
  C20_scalarMul_represented ⟨XYZZ.zero, XYZZ.add cfg, XYZZ.double cfg⟩
    (XYZZ.Rep cfg) (XYZZ.Rep cfg) C27_zero.1
    (fun _ _ _ _ h h' => XYZZ.add_rep hv h h')
    (fun _ _ h => XYZZ.double_rep hv h) hw p P hp k

section
local instance : Fact (Nat.Prime 7) := ⟨by norm_num⟩
example : (⟨3, 2, 4, 1⟩ : XYZZ (ZMod 7)).Rep testConfig pt62 ∧
    (⟨3, 2, 4, 1⟩ : XYZZ (ZMod 7)).addAffine testConfig ⟨5, 2⟩ = ⟨3, 2, 1, 6⟩ ∧
    (⟨3, 2, 1, 6⟩ : XYZZ (ZMod 7)).Rep testConfig pt35 := by
  refine ⟨⟨by decide, by decide, by decide, by decide⟩, by decide +kernel, ?_⟩
  exact ⟨by decide, by decide, by decide, by decide⟩
end

/-! ## C28: affine points -/

/-- C28: the four overloads of `Add` and `Double`. -/
theorem C28_add (hv : cfg.Valid) (p : Affine F) (P : cfg.Pt) (hp : p.Rep cfg P) :
    (∀ (q : Affine F) (Q : cfg.Pt), q.Rep cfg Q → (2 : F) ≠ 0 → (P = Q → cfg.aIsZero = true) →
      (p.add cfg q).Rep cfg (P + Q)) ∧
    (∀ (q : Jacobian F) (Q : cfg.Pt), q.Rep cfg Q → (2 : F) ≠ 0 → (P = Q → cfg.aIsZero = true) →
      (p.addJacobian cfg q).Rep cfg (P + Q)) ∧
    (∀ (q : Projective F) (Q : cfg.Pt), q.Rep cfg Q → (p.addProjective cfg q).Rep cfg (P + Q)) ∧
    (∀ (q : XYZZ F) (Q : cfg.Pt), q.Rep cfg Q → (p.addXYZZ cfg q).Rep cfg (P + Q)) :=
  ⟨fun _ _ hq h2 ha => Jacobian.add_rep hv h2 ha (Jacobian.toJacobian_rep hp) (Jacobian.toJacobian_rep hq),
    fun _ _ hq h2 ha => Jacobian.add_rep hv h2 ha (Jacobian.toJacobian_rep hp) hq,
    fun _ _ hq => Projective.add_rep hv (Projective.toProjective_rep hp) hq,
    fun _ _ hq => XYZZ.add_rep hv (XYZZ.toXYZZ_rep hp) hq⟩

/-- C28: `Double` (as a Jacobian point, `a = 0`), `DoubleProjective` and `DoubleXYZZ` (any curve). -/
theorem C28_double (hv : cfg.Valid) (p : Affine F) (P : cfg.Pt) (hp : p.Rep cfg P) :
    (cfg.aIsZero = true → (2 : F) ≠ 0 → (p.double cfg).Rep cfg (P + P)) ∧
    (p.doubleProjective cfg).Rep cfg (P + P) ∧ (p.doubleXYZZ cfg).Rep cfg (P + P) :=
  ⟨fun ha h2 => Jacobian.add_rep hv h2 (fun _ => ha) (Jacobian.toJacobian_rep hp)
      (Jacobian.toJacobian_rep hp),
    Affine.doubleProjective_rep hv hp, Affine.doubleXYZZ_rep hv hp⟩

/-- C28: `Negate`, `Zero` and `IsZero`. -/
theorem C28_neg (p : Affine F) (P : cfg.Pt) (hp : p.Rep cfg P) :
    p.neg.Rep cfg (-P) ∧ (Affine.zero : Affine F).Rep cfg 0 ∧ (p.isZero = true ↔ P = 0) :=
  ⟨Affine.neg_rep hp, ⟨rfl, rfl⟩, Affine.isZero_eq hp⟩

/-- C28: `ScalarMul` of an affine point, with its Jacobian accumulator. -/
theorem C28_scalarMul (hv : cfg.Valid) (ha : cfg.aIsZero = true) (h2 : (2 : F) ≠ 0) {w : ℕ} (hw : 0 < w)
    (p : Affine F) (P : cfg.Pt) (hp : p.Rep cfg P) (k : Limbs w) :
    (p.scalarMul cfg k).Rep cfg (limbsVal k • P) :=
  C20_scalarMul_represented ⟨Jacobian.zero, Jacobian.addAffine cfg, Jacobian.double cfg⟩
    (Jacobian.Rep cfg) (Affine.Rep cfg) C25_zero.1
    (fun _ _ _ _ h h' => Jacobian.addAffine_rep hv h2 (fun _ => ha) h h')
    (fun _ _ h => Jacobian.double_rep hv ha h) hw p P hp k

/-- C28: `BatchMapScalarFieldToPoint` returns the multiples of the point, for every number of threads. -/
theorem C28_batchMap (hv : cfg.Valid) (ha : cfg.aIsZero = true) (hb : cfg.b ≠ 0) (h2 : (2 : F) ≠ 0)
    {w : ℕ} (hw : 0 < w) (threads : ℕ) (ht : 0 < threads) (ht' : threads < 2 ^ 63) (p : Affine F)
    (P : cfg.Pt) (hp : p.Rep cfg P) (ks : List (Limbs w)) (hk : ks.length ≤ 2 ^ 63) :
    ∃ out, batchMapScalarFieldToPoint cfg threads p ks ks.length = some out ∧
      List.Forall₂ (fun q k => q.Rep cfg (limbsVal k • P)) out ks := by
  refine ⟨ks.map fun k => (p.scalarMul cfg k).toAffine, ?_, ?_⟩
  · rw [batchMapScalarFieldToPoint, if_neg (by simp)]
    obtain ⟨cs, l, -, hl, e⟩ := Parallel.parallelizeMap_chunks (threads := threads) (xs := ks)
      (fun _ _ span => Jacobian.batchNormalizeSerial (span.map (p.scalarMul cfg)) span.length) ht
      (by omega) (by omega)
    have e' : (l.map fun c => Jacobian.batchNormalizeSerial
        ((Parallel.chunkOf ks cs c).map (p.scalarMul cfg)) (Parallel.chunkOf ks cs c).length) =
        l.map fun c => some ((Parallel.chunkOf ks cs c).map fun k => (p.scalarMul cfg k).toAffine) := by
      refine List.map_congr_left fun c _ => ?_
      have := Jacobian.batchNormalizeSerial_eq ((Parallel.chunkOf ks cs c).map (p.scalarMul cfg))
      rw [List.length_map, List.map_map] at this
      exact this
    simp only [e, e']
    rw [if_pos (by simp), List.flatMap_map]
    simp only [Option.getD_some]
    rw [← List.map_flatMap, hl]
  · rw [List.forall₂_map_left_iff]
    exact List.forall₂_same.mpr fun k _ =>
      Jacobian.toAffine_rep hb (C28_scalarMul hv ha h2 hw p P hp k)

section
local instance : Fact (Nat.Prime 7) := ⟨by norm_num⟩
-- 0, 1, 2, 5 and 8 times the generator of the test curve (of order 7)
example : ([[0#4], [1#4], [2#4], [5#4, 0#4], [8#4]].map fun k =>
    (Affine.scalarMul testConfig ⟨5, 5⟩ k).toAffine) =
    [⟨0, 0⟩, ⟨5, 5⟩, ⟨6, 5⟩, ⟨6, 2⟩, ⟨5, 5⟩] := by decide +kernel
example : (⟨5, 5⟩ : Affine (ZMod 7)).doubleProjective testConfig = ⟨1, 2, 6⟩ := by decide +kernel
end

/-! ## C29: conversions -/

/-- C29: every conversion that does not go through the `zz == 1` shortcut. `b ≠ 0` is needed when the
target is affine, where `(0, 0)` is the point at infinity. -/
theorem C29_convert (P : cfg.Pt) :
    (∀ p : Affine F, p.Rep cfg P →
      p.toProjective.Rep cfg P ∧ p.toJacobian.Rep cfg P ∧ p.toXYZZ.Rep cfg P) ∧
    (∀ p : Projective F, p.Rep cfg P →
      (cfg.b ≠ 0 → p.toAffine.Rep cfg P) ∧ p.toJacobian.Rep cfg P ∧ p.toXYZZ.Rep cfg P) ∧
    (∀ p : Jacobian F, p.Rep cfg P →
      (cfg.b ≠ 0 → p.toAffine.Rep cfg P) ∧ p.toProjective.Rep cfg P ∧ p.toXYZZ.Rep cfg P) :=
  ⟨fun _ h => ⟨Projective.toProjective_rep h, Jacobian.toJacobian_rep h, XYZZ.toXYZZ_rep h⟩,
    fun _ h => ⟨fun hb => Projective.toAffine_rep hb h, Projective.toJacobian_rep h,
      Projective.toXYZZ_rep h⟩,
    fun _ h => ⟨fun hb => Jacobian.toAffine_rep hb h, Jacobian.toProjective_rep h,
      Jacobian.toXYZZ_rep h⟩⟩

/-- C29: conversions of an XYZZ point, unless `zz = 1` and `zzz = -1`. -/
theorem C29_convert_xyzz (P : cfg.Pt) (p : XYZZ F) (h : p.Rep cfg P) (h1 : p.zz = 1 → p.zzz = 1) :
    (cfg.b ≠ 0 → p.toAffine.Rep cfg P) ∧ p.toProjective.Rep cfg P ∧ p.toJacobian.Rep cfg P :=
  ⟨fun hb => XYZZ.toAffine_rep hb h h1, XYZZ.toProjective_rep h h1, XYZZ.toJacobian_rep h h1⟩

/-- C29: `BatchNormalize` is `ToAffine` on every point, for every number of threads below 128, and it
rejects an output container of another size. -/
theorem C29_batchNormalize (threads : ℕ) (ht : 0 < threads) (ht' : threads < 128) :
    (∀ ps : List (Jacobian F), ps.length ≤ 2 ^ 63 →
      batchNormalize Jacobian.batchNormalizeSerial threads ps ps.length = some (ps.map Jacobian.toAffine) ∧
      Jacobian.batchNormalizeSerial ps ps.length = some (ps.map Jacobian.toAffine)) ∧
    (∀ ps : List (Projective F), ps.length ≤ 2 ^ 63 →
      batchNormalize Projective.batchNormalizeSerial threads ps ps.length =
        some (ps.map Projective.toAffine) ∧
      Projective.batchNormalizeSerial ps ps.length = some (ps.map Projective.toAffine)) ∧
    (∀ ps : List (XYZZ F), ps.length ≤ 2 ^ 63 →
      batchNormalize XYZZ.batchNormalizeSerial threads ps ps.length = some (ps.map XYZZ.toAffine) ∧
      XYZZ.batchNormalizeSerial ps ps.length = some (ps.map XYZZ.toAffine)) :=
  ⟨fun ps hl => ⟨batchNormalize_eq Jacobian.batchNormalizeSerial_eq threads ps ht ht' hl,
      Jacobian.batchNormalizeSerial_eq ps⟩,
    fun ps hl => ⟨batchNormalize_eq Projective.batchNormalizeSerial_eq threads ps ht ht' hl,
      Projective.batchNormalizeSerial_eq ps⟩,
    fun ps hl => ⟨batchNormalize_eq XYZZ.batchNormalizeSerial_eq threads ps ht ht' hl,
      XYZZ.batchNormalizeSerial_eq ps⟩⟩

/-- C29: `BatchNormalize` of Jacobian points returns the affine form of the points they stand for. -/
theorem C29_batchNormalize_points (hb : cfg.b ≠ 0) (threads : ℕ) (ht : 0 < threads) (ht' : threads < 128)
    (ps : List (Jacobian F)) (Ps : List cfg.Pt) (hl : ps.length ≤ 2 ^ 63)
    (h : List.Forall₂ (Jacobian.Rep cfg) ps Ps) :
    ∃ out, batchNormalize Jacobian.batchNormalizeSerial threads ps ps.length = some out ∧
      List.Forall₂ (Affine.Rep cfg) out Ps := by
  refine ⟨_, ((C29_batchNormalize threads ht ht').1 ps hl).1, ?_⟩
  rw [List.forall₂_map_left_iff]
  exact h.imp fun _ _ h => Jacobian.toAffine_rep hb h

omit [Field F] [DecidableEq F] in
/-- C29: size mismatch, and the undefined shift from 128 threads on. -/
theorem C29_batchNormalize_reject {α : Type u} (serial : List α → ℕ → Option (List (Affine F)))
    (threads n : ℕ) (ps : List α) (h : ps.length ≠ n ∨ 128 ≤ threads) :
    batchNormalize serial threads ps n = none := by
  rw [batchNormalize]
  split
  · rfl
  · next hn =>
    have := h.resolve_left hn
    rw [if_pos (by omega)]

omit [Field F] [DecidableEq F] in
/-- C29: `ConvertPoints` converts every point, and rejects an output of another size. -/
theorem C29_convertPoints {α β : Type u} (f : α → β) (ps : List α) (n : ℕ) :
    convertPoints f ps n = if ps.length = n then some (ps.map f) else none := by
  rw [convertPoints]; split <;> simp_all

section
local instance : Fact (Nat.Prime 7) := ⟨by norm_num⟩

/-- C29 fails for XYZZ points reachable by the library's own operations: `(6, 2) + (5, 2)` on the test
curve `y² = x³ + 5` over `GF(7)` comes out as `(3, 2, 1, -1)`, which stands for `(3, 5)`, but all the
conversions test only `zz == 1` and return `(3, 2) = -(3, 5)` (point_xyzz.h:152-153, :202-203, :219-220,
:231-232). -/
theorem C29_xyzz_shortcut_wrong :
    ∃ P Q : testConfig.Pt, (⟨6, 2⟩ : Affine (ZMod 7)).Rep testConfig P ∧
      (⟨5, 2⟩ : Affine (ZMod 7)).Rep testConfig Q ∧
      ((Affine.addXYZZ testConfig ⟨6, 2⟩ (Affine.toXYZZ ⟨5, 2⟩))).Rep testConfig (P + Q) ∧
      ¬ (Affine.addXYZZ testConfig ⟨6, 2⟩ (Affine.toXYZZ ⟨5, 2⟩)).toAffine.Rep testConfig (P + Q) ∧
      ¬ (Affine.addXYZZ testConfig ⟨6, 2⟩ (Affine.toXYZZ ⟨5, 2⟩)).toProjective.Rep testConfig (P + Q) ∧
      ¬ (Affine.addXYZZ testConfig ⟨6, 2⟩ (Affine.toXYZZ ⟨5, 2⟩)).toJacobian.Rep testConfig (P + Q) := by
  have hP : (⟨6, 2⟩ : Affine (ZMod 7)).Rep testConfig pt62 := ⟨rfl, rfl, by decide⟩
  have hQ : (⟨5, 2⟩ : Affine (ZMod 7)).Rep testConfig pt52 := ⟨rfl, rfl, by decide⟩
  have e : Affine.addXYZZ testConfig ⟨6, 2⟩ (Affine.toXYZZ ⟨5, 2⟩) = ⟨3, 2, 1, 6⟩ := by decide +kernel
  have hsum : (⟨3, 2, 1, 6⟩ : XYZZ (ZMod 7)).Rep testConfig (pt62 + pt52) := by
    rw [← e]; exact (C28_add testConfig_valid _ _ hP).2.2.2 _ _ (XYZZ.toXYZZ_rep hQ)
  have h35 : (⟨3, 2, 1, 6⟩ : XYZZ (ZMod 7)).Rep testConfig pt35 :=
    ⟨by decide, by decide, by decide, by decide⟩
  have e35 : pt62 + pt52 = pt35 := (XYZZ.eq_iff hsum h35).mp (by decide +kernel)
  refine ⟨pt62, pt52, hP, hQ, by rw [e]; exact hsum, ?_, ?_, ?_⟩
  · rw [e, e35]; rintro ⟨-, h, -⟩; revert h; decide +kernel
  · rw [e, e35]; rintro ⟨-, -, h⟩; revert h; decide +kernel
  · rw [e, e35]; rintro ⟨-, -, h⟩; revert h; decide +kernel

/-- C29: `b ≠ 0` cannot be dropped: on `y² = x³ + x` the point `(0, 0)` of order two is converted to the
affine point at infinity. -/
theorem C29_origin_wrong : ∃ P : testConfigB.Pt, P ≠ 0 ∧
    (⟨0, 0, 1⟩ : Jacobian (ZMod 7)).Rep testConfigB P ∧
    (⟨0, 0, 1⟩ : Jacobian (ZMod 7)).toAffine.Rep testConfigB 0 := by
  have h : testConfigB.curve.Nonsingular 0 0 := nonsingular_of (by decide) (by decide)
  refine ⟨.some 0 0 h, Point.some_ne_zero h, ⟨by decide, by decide, by decide⟩, ?_⟩
  exact ⟨by decide +kernel, by decide +kernel⟩

-- z = 2, z = 0, z = 1, z = 3 in three chunks
example : batchNormalize Jacobian.batchNormalizeSerial 3
    [(⟨3, 2, 2⟩ : Jacobian (ZMod 7)), ⟨1, 1, 0⟩, ⟨5, 2, 1⟩, ⟨3, 5, 3⟩] 4 =
    some [⟨6, 2⟩, ⟨0, 0⟩, ⟨5, 2⟩, ⟨5, 2⟩] := by
  exact (((C29_batchNormalize 3 (by omega) (by omega)).1 _ (by simp)).1).trans (by decide +kernel)
end

/-! ## C30: equality -/

/-- C30: `operator==` holds exactly when the two operands stand for the same point. -/
theorem C30_eq (P Q : cfg.Pt) :
    (∀ p q : Affine F, p.Rep cfg P → q.Rep cfg Q → (p.eq q = true ↔ P = Q)) ∧
    (∀ p q : Projective F, p.Rep cfg P → q.Rep cfg Q → (p.eq q = true ↔ P = Q)) ∧
    (∀ p q : Jacobian F, p.Rep cfg P → q.Rep cfg Q → (p.eq q = true ↔ P = Q)) ∧
    (∀ p q : XYZZ F, p.Rep cfg P → q.Rep cfg Q → (p.eq q = true ↔ P = Q)) :=
  ⟨fun _ _ => Affine.eq_iff, fun _ _ => Projective.eq_iff, fun _ _ => Jacobian.eq_iff,
    fun _ _ => XYZZ.eq_iff⟩

section
local instance : Fact (Nat.Prime 7) := ⟨by norm_num⟩
-- two representatives of (6, 2), and (6, 2) against (6, 5)
example : (⟨3, 2, 2⟩ : Jacobian (ZMod 7)).eq ⟨6, 2, 1⟩ = true ∧
    (⟨3, 2, 2⟩ : Jacobian (ZMod 7)).eq ⟨6, 5, 1⟩ = false ∧
    (⟨3, 2, 4, 1⟩ : XYZZ (ZMod 7)).eq ⟨6, 5, 1, 6⟩ = true ∧
    (⟨5, 4, 2⟩ : Projective (ZMod 7)).eq ⟨1, 1, 0⟩ = false := by decide +kernel
end

/-! ## C55: `IsOnCurve` -/

/-- C55: on a curve with nonzero discriminant, `IsOnCurve` accepts exactly the representatives of the
points other than the point at infinity. XYZZ points need `zz³ = zzz²`, which is not checked. -/
theorem C55_isOnCurve (hv : cfg.Valid) (hΔ : cfg.curve.Δ ≠ 0) :
    (∀ p : Affine F, isOnCurveAffine cfg p = true ↔ ∃ P : cfg.Pt, P ≠ 0 ∧ p.Rep cfg P) ∧
    (∀ p : Projective F, isOnCurveProjective cfg p = true ↔ ∃ P : cfg.Pt, P ≠ 0 ∧ p.Rep cfg P) ∧
    (∀ p : Jacobian F, isOnCurveJacobian cfg p = true ↔ ∃ P : cfg.Pt, P ≠ 0 ∧ p.Rep cfg P) ∧
    (∀ p : XYZZ F, p.zz ^ 3 = p.zzz ^ 2 →
      (isOnCurveXYZZ cfg p = true ↔ ∃ P : cfg.Pt, P ≠ 0 ∧ p.Rep cfg P)) := by
  have hns : ∀ X Y : F, Y ^ 2 = X ^ 3 + cfg.a * X + cfg.b → cfg.curve.Nonsingular X Y := fun X Y h =>
    (equation_iff_nonsingular_of_Δ_ne_zero hΔ).mp (equation_curve.mpr h)
  have hif : ∀ m v : F, (if cfg.aIsZero = true then m else m + cfg.a * v) = m + cfg.a * v := by
    intro m v; split
    · next h => rw [hv.aIsZero h]; ring
    · rfl
  have hif' : ∀ m v w : F,
      (if cfg.aIsZero = true then m else m + cfg.a * v * w) = m + cfg.a * v * w := by
    intro m v w; split
    · next h => rw [hv.aIsZero h]; ring
    · rfl
  have hif'' : ∀ m v w x : F,
      (if cfg.aIsZero = true then m else m + cfg.a * v * w * x) = m + cfg.a * v * w * x := by
    intro m v w x; split
    · next h => rw [hv.aIsZero h]; ring
    · rfl
  refine ⟨fun p => ?_, fun p => ?_, fun p => ?_, fun p hc => ?_⟩
  · simp only [isOnCurveAffine, hif]
    constructor
    · intro h
      split at h
      · cases h
      · next hz =>
        rw [decide_eq_true_eq] at h
        have := hns p.x p.y (by linear_combination h)
        refine ⟨.some _ _ this, Point.some_ne_zero this, rfl, rfl, ?_⟩
        simpa [Affine.isZero] using hz
    · rintro ⟨P, hP, hp⟩
      rw [if_neg (fun h => hP ((Affine.isZero_eq hp).mp h)), decide_eq_true_eq]
      rcases P with _ | ⟨X, Y, hn⟩
      · exact absurd rfl hP
      obtain ⟨hx, hy, -⟩ := hp
      rw [hx, hy]
      linear_combination equation_curve.mp hn.1
  · simp only [isOnCurveProjective, hif']
    constructor
    · intro h
      split at h
      · cases h
      · next hz =>
        rw [decide_eq_true_eq] at h
        have := hns (p.x / p.z) (p.y / p.z) (by field_simp; linear_combination h)
        exact ⟨.some _ _ this, Point.some_ne_zero this, hz, by field_simp, by field_simp⟩
    · rintro ⟨P, hP, hp⟩
      rcases P with _ | ⟨X, Y, hn⟩
      · exact absurd rfl hP
      obtain ⟨hz, hx, hy⟩ := hp
      rw [if_neg hz, decide_eq_true_eq, hx, hy]
      linear_combination p.z ^ 3 * equation_curve.mp hn.1
  · simp only [isOnCurveJacobian, hif'']
    constructor
    · intro h
      split at h
      · cases h
      · next hz =>
        rw [decide_eq_true_eq] at h
        have := hns (p.x / p.z ^ 2) (p.y / p.z ^ 3) (by field_simp; linear_combination h)
        exact ⟨.some _ _ this, Point.some_ne_zero this, hz, by field_simp, by field_simp⟩
    · rintro ⟨P, hP, hp⟩
      rcases P with _ | ⟨X, Y, hn⟩
      · exact absurd rfl hP
      obtain ⟨hz, hx, hy⟩ := hp
      rw [if_neg hz, decide_eq_true_eq, hx, hy]
      linear_combination p.z ^ 6 * equation_curve.mp hn.1
  · simp only [isOnCurveXYZZ, hif']
    constructor
    · intro h
      split at h
      · cases h
      · next ht =>
        have hz : p.zz ≠ 0 := by
          intro h0
          rw [h0] at hc
          exact pow_ne_zero 2 ht (by simpa using hc.symm)
        rw [decide_eq_true_eq] at h
        have hY : (p.y / p.zzz) ^ 2 * p.zz ^ 3 = p.y ^ 2 := by rw [hc]; field_simp
        have := hns (p.x / p.zz) (p.y / p.zzz) (by
          refine mul_right_cancel₀ (pow_ne_zero 3 hz) ?_
          rw [hY]
          field_simp
          linear_combination h - cfg.b * hc)
        exact ⟨.some _ _ this, Point.some_ne_zero this, hz, hc, by field_simp, by field_simp⟩
    · rintro ⟨P, hP, hp⟩
      rcases P with _ | ⟨X, Y, hn⟩
      · exact absurd rfl hP
      obtain ⟨hz, hc, hx, hy⟩ := hp
      rw [if_neg (XYZZ.zzz_ne_zero hz hc), decide_eq_true_eq, hx, hy]
      have := equation_curve.mp hn.1
      linear_combination p.zzz ^ 2 * this + (-(X ^ 3) - cfg.a * X) * hc

section
local instance : Fact (Nat.Prime 7) := ⟨by norm_num⟩

example : testConfig.curve.Δ ≠ 0 ∧ isOnCurveJacobian testConfig ⟨3, 2, 2⟩ = true ∧
    isOnCurveJacobian testConfig ⟨3, 2, 1⟩ = true ∧ isOnCurveJacobian testConfig ⟨3, 3, 1⟩ = false ∧
    isOnCurveAffine testConfig ⟨0, 0⟩ = false := by
  refine ⟨?_, by decide +kernel⟩
  simp only [WeierstrassCurve.Δ, WeierstrassCurve.b₂, WeierstrassCurve.b₄, WeierstrassCurve.b₆,
    WeierstrassCurve.b₈, Config.curve, testConfig]
  decide

/-- C55: without `zz³ = zzz²` the XYZZ test accepts a tuple with `zz = 0`, which `IsZero` takes for the
point at infinity: for `a = 0` it does not read `zz` at all. -/
theorem C55_xyzz_unchecked : isOnCurveXYZZ testConfig ⟨6, 2, 0, 1⟩ = true ∧
    (⟨6, 2, 0, 1⟩ : XYZZ (ZMod 7)).isZero = true := by decide +kernel
end

/-! ## C56: points from an `x` coordinate -/

omit [DecidableEq F] in
/-- C56: with a correct `SquareRoot`, `CreateFromX` finds a point exactly when there is one with that
abscissa, and its ordinate has the requested parity unless it is zero. -/
theorem C56_createFromX (hv : cfg.Valid) (sqrt : F → Option F) (isEven : F → Bool)
    (hs : ∀ v y, sqrt v = some y → y * y = v) (hn : ∀ v, sqrt v = none ↔ ¬ IsSquare v)
    (he : ∀ y, y ≠ 0 → isEven (-y) = !isEven y) (x : F) (pickOdd : Bool) :
    (createFromX cfg sqrt isEven x pickOdd = none ↔ ∀ y, y ^ 2 ≠ x ^ 3 + cfg.a * x + cfg.b) ∧
    ∀ p, createFromX cfg sqrt isEven x pickOdd = some p →
      p.x = x ∧ p.y ^ 2 = x ^ 3 + cfg.a * x + cfg.b ∧ (p.y ≠ 0 → isEven p.y = !pickOdd) := by
  have hif : (if cfg.aIsZero = true then x * x * x + cfg.b else x * x * x + cfg.b + cfg.a * x) =
      x ^ 3 + cfg.a * x + cfg.b := by
    split
    · next h => rw [hv.aIsZero h]; ring
    · ring
  simp only [createFromX, getYsFromX, hif]
  generalize hR : x ^ 3 + cfg.a * x + cfg.b = R
  rcases hq : sqrt R with _ | y
  · refine ⟨⟨fun _ y hy => (hn R).mp hq ⟨y, by rw [← hy]; ring⟩, fun _ => rfl⟩, fun p h => ?_⟩
    cases h
  · have hy := hs R y hq
    refine ⟨⟨fun h => ?_, fun h => absurd (by rw [← hy]; ring) (h y)⟩, fun p h => ?_⟩
    · rcases hev : isEven y with _ | _ <;> simp [hev] at h
    · have hneg : y ≠ 0 → isEven (-y) = !isEven y := he y
      rcases hev : isEven y with _ | _ <;> rcases pickOdd with _ | _ <;> simp [hev] at h <;> subst h <;>
        simp only [ne_eq, neg_eq_zero, neg_sq] <;>
        refine ⟨trivial, by rw [← hy]; ring, fun h0 => ?_⟩ <;> simp_all

/-- C56: the parity of the canonical integer changes with the sign in a prime field of odd order, as
`GetYsFromX` assumes. -/
theorem C56_parity (p : ℕ) [Fact p.Prime] (hp : p ≠ 2) (y : ZMod p) (hy : y ≠ 0) :
    decide ((-y).val % 2 = 0) = !decide (y.val % 2 = 0) := by
  have hodd := (Fact.out : p.Prime).eq_two_or_odd.resolve_left hp
  rw [ZMod.neg_val, if_neg hy]
  have := ZMod.val_lt y
  rcases Nat.mod_two_eq_zero_or_one y.val with h | h
  · have : (p - y.val) % 2 = 1 := by omega
    simp [h, this]
  · have : (p - y.val) % 2 = 0 := by omega
    simp [h, this]

/-- C56 composed with C24: over a prime field with `p ≡ 3 mod 4`, with `SquareRoot` by Shanks' method. -/
theorem C56_createFromX_shanks (p : ℕ) [Fact p.Prime] {c : Config (ZMod p)} (hv : c.Valid) {w : ℕ}
    (hw : 0 < w) (e : Limbs w) (he : 4 * limbsVal e = p + 1) (x : ZMod p) (pickOdd : Bool) :
    (createFromX c (Group.shanks e) (fun y => decide (y.val % 2 = 0)) x pickOdd = none ↔
      ∀ y, y ^ 2 ≠ x ^ 3 + c.a * x + c.b) ∧
    ∀ q, createFromX c (Group.shanks e) (fun y => decide (y.val % 2 = 0)) x pickOdd = some q →
      q.x = x ∧ q.y ^ 2 = x ^ 3 + c.a * x + c.b ∧
        (q.y ≠ 0 → decide (q.y.val % 2 = 0) = !pickOdd) := by
  have hc := fun a => C24_shanks (F := ZMod p) hw e (by rw [ZMod.card]; exact he) a
  exact C56_createFromX hv _ _ (fun v y h => (hc v).1 y h) (fun v => (hc v).2)
    (fun y hy => C56_parity p (by omega) y hy) x pickOdd

section
local instance : Fact (Nat.Prime 7) := ⟨by norm_num⟩
example : createFromX testConfig (Group.shanks [2#4]) (fun y => decide (y.val % 2 = 0)) 5 true =
    some ⟨5, 5⟩ ∧
    createFromX testConfig (Group.shanks [2#4]) (fun y => decide (y.val % 2 = 0)) 5 false =
      some ⟨5, 2⟩ ∧
    createFromX testConfig (Group.shanks [2#4]) (fun y => decide (y.val % 2 = 0)) 1 true = none := by
  decide +kernel
end

end Tachyon.Props
