import Verif.Proofs.ExtRing
/-! The cubic extension implements `K[X] / (X³ - q)`. -/
namespace Tachyon
open Polynomial

variable {α K : Type*} [CommRing K] {o : FieldOps α} {R : α → K → Prop}

namespace Ext3
variable {q : K} {cfg : Ext3Config α}

theorem rel_mul_eq (x0 x1 x2 y0 y1 y2 : K) :
    (Ext.of 3 q x0 + Ext.of 3 q x1 * Ext.x 3 q + Ext.of 3 q x2 * Ext.x 3 q ^ 2)
      * (Ext.of 3 q y0 + Ext.of 3 q y1 * Ext.x 3 q + Ext.of 3 q y2 * Ext.x 3 q ^ 2)
      = Ext.of 3 q (x0 * y0 + q * (x1 * y2 + x2 * y1))
        + Ext.of 3 q (x0 * y1 + x1 * y0 + q * (x2 * y2)) * Ext.x 3 q
        + Ext.of 3 q (x0 * y2 + x1 * y1 + x2 * y0) * Ext.x 3 q ^ 2 := by
  have h := Ext.x_pow 3 q
  simp only [map_add, map_mul]
  linear_combination (Ext.of 3 q x1 * Ext.of 3 q y2 + Ext.of 3 q x2 * Ext.of 3 q y1
    + Ext.of 3 q x2 * Ext.of 3 q y2 * Ext.x 3 q) * h

/-- The norm form of `K[X] / (X³ - q)`. -/
def normForm (q x0 x1 x2 : K) : K :=
  x0 * (x0 * x0 - q * (x1 * x2)) + q * (x2 * (q * (x2 * x2) - x0 * x1) + x1 * (x1 * x1 - x0 * x2))

theorem mul_rel (h : o.Implements R) (hq : ∀ {a x}, R a x → R (cfg.mulByNonResidue a) (q * x))
    {a b : Ext3 α} {x y} (ha : Rel R q a x) (hb : Rel R q b y) :
    Rel R q (mul o cfg a b) (x * y) := by
  obtain ⟨x0, x1, x2, h0, h1, h2, rfl⟩ := ha
  obtain ⟨y0, y1, y2, k0, k1, k2, rfl⟩ := hb
  refine ⟨_, _, _,
    h.add (h.mul h0 k0) (hq (h.sub (h.sub (h.mul (h.add h1 h2) (h.add k1 k2)) (h.mul h1 k1))
      (h.mul h2 k2))),
    h.add (h.sub (h.sub (h.mul (h.add h0 h1) (h.add k0 k1)) (h.mul h0 k0)) (h.mul h1 k1))
      (hq (h.mul h2 k2)),
    h.add (h.sub (h.sub (h.mul (h.add h0 h2) (h.add k0 k2)) (h.mul h0 k0)) (h.mul h2 k2))
      (h.mul h1 k1), ?_⟩
  rw [rel_mul_eq]
  simp only [map_add, map_mul, map_sub]
  ring

theorem square_rel (h : o.Implements R) (hq : ∀ {a x}, R a x → R (cfg.mulByNonResidue a) (q * x))
    {a : Ext3 α} {x} (ha : Rel R q a x) : Rel R q (square o cfg a) (x * x) := by
  obtain ⟨x0, x1, x2, h0, h1, h2, rfl⟩ := ha
  have s0 := h.square h0
  have s1 := h.double (h.mul h0 h1)
  have s2 := h.square (h.add (h.sub h0 h1) h2)
  have s3 := h.double (h.mul h1 h2)
  have s4 := h.square h2
  refine ⟨_, _, _, h.add s0 (hq s3), h.add s1 (hq s4),
    h.sub (h.sub (h.add (h.add s1 s2) s3) s0) s4, ?_⟩
  rw [rel_mul_eq]
  simp only [map_add, map_mul, map_sub]
  ring

theorem inv_mul (x0 x1 x2 v : K) (hv : normForm q x0 x1 x2 * v = 1) :
    (Ext.of 3 q x0 + Ext.of 3 q x1 * Ext.x 3 q + Ext.of 3 q x2 * Ext.x 3 q ^ 2)
      * (Ext.of 3 q ((x0 * x0 - q * (x1 * x2)) * v)
        + Ext.of 3 q ((q * (x2 * x2) - x0 * x1) * v) * Ext.x 3 q
        + Ext.of 3 q ((x1 * x1 - x0 * x2) * v) * Ext.x 3 q ^ 2) = 1 := by
  unfold normForm at hv
  rw [rel_mul_eq]
  have e0 : x0 * ((x0 * x0 - q * (x1 * x2)) * v) + q * (x1 * ((x1 * x1 - x0 * x2) * v)
      + x2 * ((q * (x2 * x2) - x0 * x1) * v)) = 1 := by linear_combination hv
  have e1 : x0 * ((q * (x2 * x2) - x0 * x1) * v) + x1 * ((x0 * x0 - q * (x1 * x2)) * v)
      + q * (x2 * ((x1 * x1 - x0 * x2) * v)) = 0 := by ring
  have e2 : x0 * ((x1 * x1 - x0 * x2) * v) + x1 * ((q * (x2 * x2) - x0 * x1) * v)
      + x2 * ((x0 * x0 - q * (x1 * x2)) * v) = 0 := by ring
  rw [e0, e1, e2]
  simp

theorem isUnit_iff [Nontrivial K] (x0 x1 x2 : K) :
    IsUnit (Ext.of 3 q x0 + Ext.of 3 q x1 * Ext.x 3 q + Ext.of 3 q x2 * Ext.x 3 q ^ 2)
      ↔ IsUnit (normForm q x0 x1 x2) := by
  constructor
  · intro hu
    obtain ⟨y, hy⟩ := hu.exists_right_inv
    obtain ⟨y0, y1, y2, rfl⟩ := Ext.exists3 q y
    rw [rel_mul_eq] at hy
    obtain ⟨e0, e1, e2⟩ := Ext.inj3 (z0 := 1) (z1 := 0) (z2 := 0) (hy.trans (by simp))
    refine IsUnit.of_mul_eq_one (normForm q y0 y1 y2) ?_
    have : normForm q x0 x1 x2 * normForm q y0 y1 y2
        = normForm q (x0 * y0 + q * (x1 * y2 + x2 * y1)) (x0 * y1 + x1 * y0 + q * (x2 * y2))
          (x0 * y2 + x1 * y1 + x2 * y0) := by
      unfold normForm; ring
    rw [this, e0, e1, e2]
    unfold normForm; ring
  · intro hu
    obtain ⟨v, hv⟩ := hu.exists_right_inv
    exact IsUnit.of_mul_eq_one _ (inv_mul x0 x1 x2 v hv)

theorem isZero_rel [Nontrivial K] (h : o.Implements R) {a : Ext3 α} {x} (ha : Rel R q a x) :
    isZero o a = true ↔ x = 0 := by
  obtain ⟨x0, x1, x2, h0, h1, h2, rfl⟩ := ha
  simp only [isZero, Bool.and_eq_true, h.isZero h0, h.isZero h1, h.isZero h2]
  exact ⟨fun ⟨⟨e0, e1⟩, e2⟩ => by simp [e0, e1, e2],
    fun e => ⟨⟨(Ext.zero3 e).1, (Ext.zero3 e).2.1⟩, (Ext.zero3 e).2.2⟩⟩

theorem normForm_rel (h : o.Implements R)
    (hq : ∀ {a x}, R a x → R (cfg.mulByNonResidue a) (q * x))
    {a0 a1 a2 : α} {x0 x1 x2} (h0 : R a0 x0) (h1 : R a1 x1) (h2 : R a2 x2) :
    R (o.add (o.mul a0 (o.sub (o.square a0) (cfg.mulByNonResidue (o.mul a1 a2))))
      (cfg.mulByNonResidue (o.add
        (o.mul a2 (o.sub (cfg.mulByNonResidue (o.square a2)) (o.mul a0 a1)))
        (o.mul a1 (o.sub (o.square a1) (o.mul a0 a2)))))) (normForm q x0 x1 x2) :=
  h.add (h.mul h0 (h.sub (h.square h0) (hq (h.mul h1 h2))))
    (hq (h.add (h.mul h2 (h.sub (hq (h.square h2)) (h.mul h0 h1)))
      (h.mul h1 (h.sub (h.square h1) (h.mul h0 h2)))))

theorem inverse_rel [Nontrivial K] (h : o.Implements R)
    (hq : ∀ {a x}, R a x → R (cfg.mulByNonResidue a) (q * x))
    {a : Ext3 α} {x} (ha : Rel R q a x) (hu : IsUnit x) :
    ∃ b y, inverse o cfg a = some b ∧ Rel R q b y ∧ x * y = 1 := by
  have hz := isZero_rel h ha
  have hnt := Ext.nontrivial (n := 3) (by norm_num) q
  have hx : x ≠ 0 := hu.ne_zero
  obtain ⟨x0, x1, x2, h0, h1, h2, rfl⟩ := ha
  have hn := (isUnit_iff x0 x1 x2).1 hu
  obtain ⟨b, v, hb, hR, hv⟩ := h.inverse (normForm_rel h hq h0 h1 h2) hn
  refine ⟨⟨o.mul (o.sub (o.square a.c0) (cfg.mulByNonResidue (o.mul a.c1 a.c2))) b,
    o.mul (o.sub (cfg.mulByNonResidue (o.square a.c2)) (o.mul a.c0 a.c1)) b,
    o.mul (o.sub (o.square a.c1) (o.mul a.c0 a.c2)) b⟩, _, ?_, ⟨_, _, _, h.mul (h.sub (h.square h0) (hq (h.mul h1 h2))) hR,
    h.mul (h.sub (hq (h.square h2)) (h.mul h0 h1)) hR,
    h.mul (h.sub (h.square h1) (h.mul h0 h2)) hR, rfl⟩, inv_mul x0 x1 x2 v hv⟩
  unfold inverse
  rw [if_neg (by rw [hz]; exact hx)]
  dsimp only
  rw [hb]

theorem inverse_none_rel [Nontrivial K] (h : o.Implements R)
    (hq : ∀ {a x}, R a x → R (cfg.mulByNonResidue a) (q * x))
    {a : Ext3 α} {x} (ha : Rel R q a x) (hu : ¬ IsUnit x) : inverse o cfg a = none := by
  obtain ⟨x0, x1, x2, h0, h1, h2, rfl⟩ := ha
  rw [isUnit_iff] at hu
  have := h.inverse_none (normForm_rel h hq h0 h1 h2) hu
  unfold inverse
  split
  · rfl
  · dsimp only
    rw [this]

theorem implements [Nontrivial K] (h : o.Implements R)
    (hq : ∀ {a x}, R a x → R (cfg.mulByNonResidue a) (q * x)) :
    (ops o cfg).Implements (Rel R q) where
  zero := ⟨0, 0, 0, h.zero, h.zero, h.zero, by simp⟩
  one := ⟨1, 0, 0, h.one, h.zero, h.zero, by simp⟩
  twoInv := by
    intro hu
    have hu2 : IsUnit (2 : K) := by
      have e : (2 : Ext 3 q) = Ext.of 3 q 2 + Ext.of 3 q 0 * Ext.x 3 q
          + Ext.of 3 q 0 * Ext.x 3 q ^ 2 := by
        rw [map_zero, zero_mul, zero_mul, add_zero, add_zero, map_ofNat]
      rw [e, isUnit_iff, show normForm q 2 0 0 = 2 * (2 * 2) by unfold normForm; ring] at hu
      exact isUnit_of_mul_isUnit_left hu
    obtain ⟨y, hy, e⟩ := h.twoInv hu2
    refine ⟨Ext.of 3 q y, ⟨y, 0, 0, hy, h.zero, h.zero, by simp⟩, ?_⟩
    rw [← map_one (Ext.of 3 q), ← e, map_mul, map_ofNat]
  ofNat n := ⟨n, 0, 0, h.ofNat n, h.zero, h.zero, by simp⟩
  add := by
    rintro a b _ _ ⟨x0, x1, x2, h0, h1, h2, rfl⟩ ⟨y0, y1, y2, k0, k1, k2, rfl⟩
    exact ⟨_, _, _, h.add h0 k0, h.add h1 k1, h.add h2 k2, by simp only [map_add]; ring⟩
  sub := by
    rintro a b _ _ ⟨x0, x1, x2, h0, h1, h2, rfl⟩ ⟨y0, y1, y2, k0, k1, k2, rfl⟩
    exact ⟨_, _, _, h.sub h0 k0, h.sub h1 k1, h.sub h2 k2, by simp only [map_sub]; ring⟩
  mul := mul_rel h hq
  neg := by
    rintro a _ ⟨x0, x1, x2, h0, h1, h2, rfl⟩
    exact ⟨_, _, _, h.neg h0, h.neg h1, h.neg h2, by simp only [map_neg]; ring⟩
  double := by
    rintro a _ ⟨x0, x1, x2, h0, h1, h2, rfl⟩
    exact ⟨_, _, _, h.double h0, h.double h1, h.double h2, by simp only [map_add]; ring⟩
  square := square_rel h hq
  isZero := isZero_rel h
  isOne := by
    rintro a _ ⟨x0, x1, x2, h0, h1, h2, rfl⟩
    change isOne o a = true ↔ _
    simp only [isOne, Bool.and_eq_true, h.isOne h0, h.isZero h1, h.isZero h2]
    refine ⟨fun ⟨⟨e0, e1⟩, e2⟩ => by simp [e0, e1, e2], fun e => ?_⟩
    have := Ext.inj3 (z0 := 1) (z1 := 0) (z2 := 0) (e.trans (by simp))
    exact ⟨⟨this.1, this.2.1⟩, this.2.2⟩
  eq := by
    rintro a b _ _ ⟨x0, x1, x2, h0, h1, h2, rfl⟩ ⟨y0, y1, y2, k0, k1, k2, rfl⟩
    change eq o a b = true ↔ _
    simp only [eq, Bool.and_eq_true, h.eq h0 k0, h.eq h1 k1, h.eq h2 k2]
    refine ⟨fun ⟨⟨e0, e1⟩, e2⟩ => by simp [e0, e1, e2], fun e => ?_⟩
    have := Ext.inj3 e
    exact ⟨⟨this.1, this.2.1⟩, this.2.2⟩
  inverse := inverse_rel h hq
  inverse_none := inverse_none_rel h hq

end Ext3
end Tachyon
