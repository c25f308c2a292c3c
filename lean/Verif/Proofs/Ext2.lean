import Verif.Proofs.ExtRing
/-! The quadratic extension implements `K[X] / (X² - q)`. -/
namespace Tachyon
open Polynomial

variable {α K : Type*} [CommRing K] {o : FieldOps α} {R : α → K → Prop}

theorem FieldOps.Implements.sumOfProducts2 (h : o.Implements R) {a b c d : α} {x y z t : K}
    (ha : R a x) (hb : R b y) (hc : R c z) (hd : R d t) :
    R (o.sumOfProducts [(a, b), (c, d)]) (x * y + z * t) := by
  have := h.add (h.add h.zero (h.mul ha hb)) (h.mul hc hd)
  rw [zero_add] at this
  exact this

namespace Ext2
variable {q : K} {cfg : Ext2Config α}

theorem rel_mul_eq (x0 x1 y0 y1 : K) :
    (Ext.of 2 q x0 + Ext.of 2 q x1 * Ext.x 2 q) * (Ext.of 2 q y0 + Ext.of 2 q y1 * Ext.x 2 q)
      = Ext.of 2 q (x0 * y0 + q * x1 * y1) + Ext.of 2 q (x0 * y1 + x1 * y0) * Ext.x 2 q := by
  have h := Ext.x_pow 2 q
  simp only [map_add, map_mul]
  linear_combination (Ext.of 2 q x1 * Ext.of 2 q y1) * h

theorem mulSop_rel (h : o.Implements R) (hq : ∀ {a x}, R a x → R (cfg.mulByNonResidue a) (q * x))
    {a b : Ext2 α} {x y} (ha : Rel R q a x) (hb : Rel R q b y) :
    Rel R q (mulSop o cfg a b) (x * y) := by
  obtain ⟨x0, x1, h0, h1, rfl⟩ := ha
  obtain ⟨y0, y1, k0, k1, rfl⟩ := hb
  exact ⟨_, _, h.sumOfProducts2 h0 k0 (hq h1) k1, h.sumOfProducts2 h0 k1 h1 k0, rel_mul_eq ..⟩

theorem mulKaratsuba_rel (h : o.Implements R)
    (hq : ∀ {a x}, R a x → R (cfg.mulByNonResidue a) (q * x))
    {a b : Ext2 α} {x y} (ha : Rel R q a x) (hb : Rel R q b y) :
    Rel R q (mulKaratsuba o cfg a b) (x * y) := by
  obtain ⟨x0, x1, h0, h1, rfl⟩ := ha
  obtain ⟨y0, y1, k0, k1, rfl⟩ := hb
  refine ⟨_, _, h.add (h.mul h0 k0) (hq (h.mul h1 k1)),
    h.sub (h.sub (h.mul (h.add h0 h1) (h.add k0 k1)) (h.mul h0 k0)) (h.mul h1 k1), ?_⟩
  rw [rel_mul_eq]
  congr 2
  · ring
  · congr 1; ring

theorem mul_rel (h : o.Implements R) (hq : ∀ {a x}, R a x → R (cfg.mulByNonResidue a) (q * x))
    {a b : Ext2 α} {x y} (ha : Rel R q a x) (hb : Rel R q b y) :
    Rel R q (mul o cfg a b) (x * y) := by
  unfold mul
  split
  · exact mulSop_rel h hq ha hb
  · exact mulKaratsuba_rel h hq ha hb

theorem square_rel (h : o.Implements R) (hq : ∀ {a x}, R a x → R (cfg.mulByNonResidue a) (q * x))
    (hm : cfg.nonResidueIsMinusOne = true → q = -1)
    {a : Ext2 α} {x} (ha : Rel R q a x) : Rel R q (square o cfg a) (x * x) := by
  obtain ⟨x0, x1, h0, h1, rfl⟩ := ha
  rw [rel_mul_eq]
  unfold square
  dsimp only
  split
  · rename_i hc
    have hq1 := hm hc
    refine ⟨_, _, h.mul (h.sub h0 h1) (h.add h0 h1), h.double (h.mul h0 h1), ?_⟩
    rw [show x0 * x0 + q * x1 * x1 = (x0 - x1) * (x0 + x1) by rw [hq1]; ring,
      show x0 * x1 + x1 * x0 = x0 * x1 + x0 * x1 by ring]
  · refine ⟨_, _, h.add (h.add (h.mul (h.sub h0 h1) (h.sub h0 (hq h1))) (h.mul h0 h1))
      (hq (h.mul h0 h1)), h.double (h.mul h0 h1), ?_⟩
    rw [show (x0 - x1) * (x0 - q * x1) + x0 * x1 + q * (x0 * x1) = x0 * x0 + q * x1 * x1 by ring,
      show x0 * x1 + x1 * x0 = x0 * x1 + x0 * x1 by ring]

theorem isUnit_iff [Nontrivial K] (x0 x1 : K) :
    IsUnit (Ext.of 2 q x0 + Ext.of 2 q x1 * Ext.x 2 q) ↔ IsUnit (x0 * x0 - q * (x1 * x1)) := by
  constructor
  · intro hu
    obtain ⟨y, hy⟩ := hu.exists_right_inv
    obtain ⟨y0, y1, rfl⟩ := Ext.exists2 q y
    rw [rel_mul_eq] at hy
    have := Ext.inj2 (z0 := 1) (z1 := 0) (hy.trans (by simp))
    refine IsUnit.of_mul_eq_one (y0 * y0 - q * (y1 * y1)) ?_
    linear_combination (x0 * y0 + q * x1 * y1 + 1) * this.1 - q * (x0 * y1 + x1 * y0) * this.2
  · intro hu
    obtain ⟨v, hv⟩ := hu.exists_right_inv
    refine IsUnit.of_mul_eq_one (Ext.of 2 q (x0 * v) + Ext.of 2 q (-(x1 * v)) * Ext.x 2 q) ?_
    rw [rel_mul_eq, show x0 * (x0 * v) + q * x1 * -(x1 * v) = 1 by linear_combination hv,
      show x0 * -(x1 * v) + x1 * (x0 * v) = 0 by ring]
    simp

theorem isZero_rel [Nontrivial K] (h : o.Implements R) {a : Ext2 α} {x} (ha : Rel R q a x) :
    isZero o a = true ↔ x = 0 := by
  obtain ⟨x0, x1, h0, h1, rfl⟩ := ha
  simp only [isZero, Bool.and_eq_true, h.isZero h0, h.isZero h1]
  exact ⟨fun ⟨e0, e1⟩ => by simp [e0, e1], fun e => Ext.zero2 e⟩

theorem inverse_rel [Nontrivial K] (h : o.Implements R)
    (hq : ∀ {a x}, R a x → R (cfg.mulByNonResidue a) (q * x))
    {a : Ext2 α} {x} (ha : Rel R q a x) (hu : IsUnit x) :
    ∃ b y, inverse o cfg a = some b ∧ Rel R q b y ∧ x * y = 1 := by
  have hz := isZero_rel h ha
  have hnt := Ext.nontrivial (n := 2) (by norm_num) q
  have hx : x ≠ 0 := hu.ne_zero
  obtain ⟨x0, x1, h0, h1, rfl⟩ := ha
  have hn := (isUnit_iff x0 x1).1 hu
  obtain ⟨b, v, hb, hR, hv⟩ := h.inverse (h.sub (h.square h0) (hq (h.square h1))) hn
  refine ⟨⟨o.mul a.c0 b, o.neg (o.mul a.c1 b)⟩,
    Ext.of 2 q (x0 * v) + Ext.of 2 q (-(x1 * v)) * Ext.x 2 q, ?_,
    ⟨_, _, h.mul h0 hR, h.neg (h.mul h1 hR), rfl⟩, ?_⟩
  · unfold inverse
    rw [if_neg (by rw [hz]; exact hx)]
    dsimp only
    rw [hb]
  · rw [rel_mul_eq, show x0 * (x0 * v) + q * x1 * -(x1 * v) = 1 by linear_combination hv,
      show x0 * -(x1 * v) + x1 * (x0 * v) = 0 by ring]
    simp

theorem inverse_none_rel [Nontrivial K] (h : o.Implements R)
    (hq : ∀ {a x}, R a x → R (cfg.mulByNonResidue a) (q * x))
    {a : Ext2 α} {x} (ha : Rel R q a x) (hu : ¬ IsUnit x) : inverse o cfg a = none := by
  obtain ⟨x0, x1, h0, h1, rfl⟩ := ha
  rw [isUnit_iff] at hu
  have := h.inverse_none (h.sub (h.square h0) (hq (h.square h1))) hu
  unfold inverse
  split
  · rfl
  · dsimp only
    rw [this]

theorem implements [Nontrivial K] (h : o.Implements R)
    (hq : ∀ {a x}, R a x → R (cfg.mulByNonResidue a) (q * x))
    (hm : cfg.nonResidueIsMinusOne = true → q = -1) :
    (ops o cfg).Implements (Rel R q) where
  zero := ⟨0, 0, h.zero, h.zero, by simp⟩
  one := ⟨1, 0, h.one, h.zero, by simp⟩
  twoInv := by
    intro hu
    have hu2 : IsUnit (2 : K) := by
      have e : (2 : Ext 2 q) = Ext.of 2 q 2 + Ext.of 2 q 0 * Ext.x 2 q := by
        rw [map_zero, zero_mul, add_zero, map_ofNat]
      rw [e, isUnit_iff] at hu
      rw [show (2 : K) * 2 - q * (0 * 0) = 2 * 2 by ring] at hu
      exact isUnit_of_mul_isUnit_left hu
    obtain ⟨y, hy, e⟩ := h.twoInv hu2
    refine ⟨Ext.of 2 q y, ⟨y, 0, hy, h.zero, by simp⟩, ?_⟩
    rw [← map_one (Ext.of 2 q), ← e, map_mul, map_ofNat]
  ofNat n := ⟨n, 0, h.ofNat n, h.zero, by simp⟩
  add := by
    rintro a b _ _ ⟨x0, x1, h0, h1, rfl⟩ ⟨y0, y1, k0, k1, rfl⟩
    exact ⟨_, _, h.add h0 k0, h.add h1 k1, by simp only [map_add]; ring⟩
  sub := by
    rintro a b _ _ ⟨x0, x1, h0, h1, rfl⟩ ⟨y0, y1, k0, k1, rfl⟩
    exact ⟨_, _, h.sub h0 k0, h.sub h1 k1, by simp only [map_sub]; ring⟩
  mul := mul_rel h hq
  neg := by
    rintro a _ ⟨x0, x1, h0, h1, rfl⟩
    exact ⟨_, _, h.neg h0, h.neg h1, by simp only [map_neg]; ring⟩
  double := by
    rintro a _ ⟨x0, x1, h0, h1, rfl⟩
    exact ⟨_, _, h.double h0, h.double h1, by simp only [map_add]; ring⟩
  square := square_rel h hq hm
  isZero := isZero_rel h
  isOne := by
    rintro a _ ⟨x0, x1, h0, h1, rfl⟩
    change isOne o a = true ↔ _
    simp only [isOne, Bool.and_eq_true, h.isOne h0, h.isZero h1]
    exact ⟨fun ⟨e0, e1⟩ => by simp [e0, e1], fun e => Ext.inj2 (e.trans (by simp))⟩
  eq := by
    rintro a b _ _ ⟨x0, x1, h0, h1, rfl⟩ ⟨y0, y1, k0, k1, rfl⟩
    change eq o a b = true ↔ _
    simp only [eq, Bool.and_eq_true, h.eq h0 k0, h.eq h1 k1]
    exact ⟨fun ⟨e0, e1⟩ => by simp [e0, e1], fun e => Ext.inj2 e⟩
  inverse := inverse_rel h hq
  inverse_none := inverse_none_rel h hq

end Ext2
end Tachyon
