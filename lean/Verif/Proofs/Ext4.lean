import Verif.Proofs.ExtRing
/-! The quartic extension implements `K[X] / (X⁴ - q)`. -/
namespace Tachyon
open Polynomial

variable {α K : Type*} [CommRing K] {o : FieldOps α} {R : α → K → Prop}

namespace Ext4
variable {q : K} {cfg : Ext4Config α} {k : Ext4Consts α}

theorem rel_mul_eq (x0 x1 x2 x3 y0 y1 y2 y3 : K) :
    (Ext.of 4 q x0 + Ext.of 4 q x1 * Ext.x 4 q + Ext.of 4 q x2 * Ext.x 4 q ^ 2
        + Ext.of 4 q x3 * Ext.x 4 q ^ 3)
      * (Ext.of 4 q y0 + Ext.of 4 q y1 * Ext.x 4 q + Ext.of 4 q y2 * Ext.x 4 q ^ 2
        + Ext.of 4 q y3 * Ext.x 4 q ^ 3)
      = Ext.of 4 q (x0 * y0 + q * (x1 * y3 + x2 * y2 + x3 * y1))
        + Ext.of 4 q (x0 * y1 + x1 * y0 + q * (x2 * y3 + x3 * y2)) * Ext.x 4 q
        + Ext.of 4 q (x0 * y2 + x1 * y1 + x2 * y0 + q * (x3 * y3)) * Ext.x 4 q ^ 2
        + Ext.of 4 q (x0 * y3 + x1 * y2 + x2 * y1 + x3 * y0) * Ext.x 4 q ^ 3 := by
  have h := Ext.x_pow 4 q
  simp only [map_add, map_mul]
  linear_combination (Ext.of 4 q x1 * Ext.of 4 q y3 + Ext.of 4 q x2 * Ext.of 4 q y2
    + Ext.of 4 q x3 * Ext.of 4 q y1
    + (Ext.of 4 q x2 * Ext.of 4 q y3 + Ext.of 4 q x3 * Ext.of 4 q y2) * Ext.x 4 q
    + Ext.of 4 q x3 * Ext.of 4 q y3 * Ext.x 4 q ^ 2) * h

/-- What `Init` establishes: the constants denote multiples of `t = 1/120`. -/
structure ConstsRel (R : α → K → Prop) (k : Ext4Consts α) (t : K) : Prop where
  ht : 120 * t = 1
  inv3 : R k.inv3 (40 * t)
  inv4 : R k.inv4 (30 * t)
  inv6 : R k.inv6 (20 * t)
  inv12 : R k.inv12 (10 * t)
  inv20 : R k.inv20 (6 * t)
  inv24 : R k.inv24 (5 * t)
  inv30 : R k.inv30 (4 * t)
  inv120 : R k.inv120 t
  neg5 : R k.neg5 (-5)
  negInv2 : R k.negInv2 (-(60 * t))
  negInv3 : R k.negInv3 (-(40 * t))
  negInv4 : R k.negInv4 (-(30 * t))
  negInv6 : R k.negInv6 (-(20 * t))
  negInv12 : R k.negInv12 (-(10 * t))
  negInv24 : R k.negInv24 (-(5 * t))
  negInv120 : R k.negInv120 (-t)

theorem init_rel (h : o.Implements R) (hk : init o = some k) : ∃ t, ConstsRel R k t := by
  unfold init at hk
  simp only [Option.bind_eq_bind, Option.bind_eq_some_iff] at hk
  obtain ⟨i3, e3, i4, e4, i6, e6, i12, e12, i20, e20, i24, e24, i30, e30, i120, e120, hk⟩ := hk
  have key : ∀ {n : ℕ} {i}, o.inverse (o.ofNat n) = some i → ∃ y, R i y ∧ (n : K) * y = 1 := by
    intro n i hi
    have hu : IsUnit (n : K) := by
      by_contra hu
      rw [h.inverse_none (h.ofNat n) hu] at hi
      cases hi
    obtain ⟨b, y, hb, hy, e⟩ := h.inverse (h.ofNat n) hu
    rw [hb] at hi
    cases hi
    exact ⟨y, hy, e⟩
  obtain ⟨y3, r3, q3⟩ := key e3
  obtain ⟨y4, r4, q4⟩ := key e4
  obtain ⟨y6, r6, q6⟩ := key e6
  obtain ⟨y12, r12, q12⟩ := key e12
  obtain ⟨y20, r20, q20⟩ := key e20
  obtain ⟨y24, r24, q24⟩ := key e24
  obtain ⟨y30, r30, q30⟩ := key e30
  obtain ⟨t, rt, qt⟩ := key e120
  push_cast at q3 q4 q6 q12 q20 q24 q30 qt
  obtain ⟨y2, r2, q2⟩ := h.twoInv (IsUnit.of_mul_eq_one (60 * t) (by linear_combination qt))
  have f3 : y3 = 40 * t := by linear_combination 40 * t * q3 - y3 * qt
  have f4 : y4 = 30 * t := by linear_combination 30 * t * q4 - y4 * qt
  have f6 : y6 = 20 * t := by linear_combination 20 * t * q6 - y6 * qt
  have f12 : y12 = 10 * t := by linear_combination 10 * t * q12 - y12 * qt
  have f20 : y20 = 6 * t := by linear_combination 6 * t * q20 - y20 * qt
  have f24 : y24 = 5 * t := by linear_combination 5 * t * q24 - y24 * qt
  have f30 : y30 = 4 * t := by linear_combination 4 * t * q30 - y30 * qt
  have f2 : y2 = 60 * t := by linear_combination 60 * t * q2 - y2 * qt
  subst f3 f4 f6 f12 f20 f24 f30 f2
  have r5 := h.neg (h.ofNat 5)
  push_cast at r5
  obtain rfl := (Option.some.inj hk).symm
  exact ⟨t, ⟨qt, r3, r4, r6, r12, r20, r24, r30, rt, r5, h.neg r2, h.neg r3, h.neg r4, h.neg r6,
    h.neg r12, h.neg r24, h.neg rt⟩⟩

/-- Interpolation recovers the reduced product from the values at `0, 1, -1, 2, -2, 3, ∞`. -/
theorem interpolate_rel (h : o.Implements R)
    (hq : ∀ {a x}, R a x → R (cfg.mulByNonResidue a) (q * x)) {t : K} (hk : ConstsRel R k t)
    {p0 p1 p2 p3 p4 p5 p6 : K} {v0 v1 v2 v3 v4 v5 v6 : α}
    (h0 : R v0 p0) (h1 : R v1 (p0 + p1 + p2 + p3 + p4 + p5 + p6))
    (h2 : R v2 (p0 - p1 + p2 - p3 + p4 - p5 + p6))
    (h3 : R v3 (p0 + 2 * p1 + 4 * p2 + 8 * p3 + 16 * p4 + 32 * p5 + 64 * p6))
    (h4 : R v4 (p0 - 2 * p1 + 4 * p2 - 8 * p3 + 16 * p4 - 32 * p5 + 64 * p6))
    (h5 : R v5 (p0 + 3 * p1 + 9 * p2 + 27 * p3 + 81 * p4 + 243 * p5 + 729 * p6))
    (h6 : R v6 p6) :
    Rel R q (interpolate o cfg k v0 v1 v2 v3 v4 v5 v6)
      (Ext.of 4 q (p0 + q * p4) + Ext.of 4 q (p1 + q * p5) * Ext.x 4 q
        + Ext.of 4 q (p2 + q * p6) * Ext.x 4 q ^ 2 + Ext.of 4 q p3 * Ext.x 4 q ^ 3) := by
  have h05 := h.add (h.double (h.double h0)) h0
  have h63 := h.add (h.double h6) h6
  have c0 := h.add h0 (hq (h.add (h.add (h.add (h.mul hk.inv4 h0) (h.mul hk.negInv6 (h.add h1 h2)))
    (h.mul hk.inv24 (h.add h3 h4))) (h.mul hk.neg5 h6)))
  have c1 := h.add (h.sub (h.add (h.add (h.add (h.add (h.add (h.mul hk.negInv3 h0) h1)
    (h.mul hk.negInv2 h2)) (h.mul hk.negInv4 h3)) (h.mul hk.inv20 h4)) (h.mul hk.inv30 h5))
    (h.double (h.double h63)))
    (hq (h.sub (h.add (h.add (h.mul hk.negInv12 (h.sub h0 h1)) (h.mul hk.inv24 (h.sub h2 h3)))
      (h.mul hk.negInv120 (h.sub h4 h5))) h63))
  have c2 := h.add (h.add (h.add (h.add (h.mul hk.negInv4 h05)
    (h.mul hk.inv3 (h.double (h.add h1 h2)))) (h.mul hk.negInv24 (h.add h3 h4)))
    (h.double (h.double h6))) (hq h6)
  have c3 := h.add (h.add (h.add
    (h.mul hk.inv12 (h.add (h.sub h05 (h.double (h.double (h.double h1)))) h1))
    (h.mul hk.negInv24 (h.add (h.add (h.add (h.sub h2 (h.double (h.double (h.double h3)))) h3) h4)
      h5))) (h.double (h.double h63))) h63
  have ht := hk.ht
  refine ⟨_, _, _, _, c0, c1, c2, c3, ?_⟩
  congr 1
  · congr 1
    · congr 1
      · congr 1
        linear_combination (-(q * (p4 + 5 * p6))) * ht
      · congr 2
        linear_combination (-(p1 + 12 * p6 - (p0 + p1 + p2 + p3 + p4 + p5 + p6))
          - q * (p5 + 3 * p6)) * ht
    · congr 2
      linear_combination (-(p2 - 4 * p6)) * ht
  · congr 2
    linear_combination (-(p3 - 15 * p6)) * ht

theorem mul_rel (h : o.Implements R) (hq : ∀ {a x}, R a x → R (cfg.mulByNonResidue a) (q * x))
    (hk : init o = some k) {a b : Ext4 α} {x y} (ha : Rel R q a x) (hb : Rel R q b y) :
    Rel R q (mul o cfg k a b) (x * y) := by
  obtain ⟨t, hk⟩ := init_rel h hk
  obtain ⟨x0, x1, x2, x3, a0, a1, a2, a3, rfl⟩ := ha
  obtain ⟨y0, y1, y2, y3, b0, b1, b2, b3, rfl⟩ := hb
  rw [rel_mul_eq]
  have cast : ∀ {v : α} {s s' : K}, R v s → s = s' → R v s' := fun h e => e ▸ h
  have h1 := h.double a1
  have h2 := h.double (h.double a2)
  have h3 := h.double (h.double (h.double a3))
  have h4 := h.double b1
  have h5 := h.double (h.double b2)
  have h6 := h.double (h.double (h.double b3))
  have g1 := h.add h1 a1
  have g2 := h.add (h.double h2) a2
  have g3 := h.add h3 a3
  have g3 := h.add g3 (h.double g3)
  have g4 := h.add h4 b1
  have g5 := h.add (h.double h5) b2
  have g6 := h.add h6 b3
  have g6 := h.add g6 (h.double g6)
  refine interpolate_rel (p0 := x0 * y0) (p1 := x0 * y1 + x1 * y0)
    (p2 := x0 * y2 + x1 * y1 + x2 * y0) (p3 := x0 * y3 + x1 * y2 + x2 * y1 + x3 * y0)
    (p4 := x1 * y3 + x2 * y2 + x3 * y1) (p5 := x2 * y3 + x3 * y2) (p6 := x3 * y3)
    h hq hk (h.mul a0 b0)
    (cast (h.mul (h.add (h.add (h.add a0 a1) a2) a3) (h.add (h.add (h.add b0 b1) b2) b3)) ?_)
    (cast (h.mul (h.sub (h.add (h.sub a0 a1) a2) a3) (h.sub (h.add (h.sub b0 b1) b2) b3)) ?_)
    (cast (h.mul (h.add (h.add (h.add a0 h1) h2) h3) (h.add (h.add (h.add b0 h4) h5) h6)) ?_)
    (cast (h.mul (h.sub (h.add (h.sub a0 h1) h2) h3) (h.sub (h.add (h.sub b0 h4) h5) h6)) ?_)
    (cast (h.mul (h.add (h.add (h.add a0 g1) g2) g3) (h.add (h.add (h.add b0 g4) g5) g6)) ?_)
    (h.mul a3 b3) <;> ring

theorem square_rel (h : o.Implements R) (hq : ∀ {a x}, R a x → R (cfg.mulByNonResidue a) (q * x))
    (hk : init o = some k) {a : Ext4 α} {x} (ha : Rel R q a x) :
    Rel R q (square o cfg k a) (x * x) := by
  obtain ⟨t, hk⟩ := init_rel h hk
  obtain ⟨x0, x1, x2, x3, a0, a1, a2, a3, rfl⟩ := ha
  rw [rel_mul_eq]
  have cast : ∀ {v : α} {s s' : K}, R v s → s = s' → R v s' := fun h e => e ▸ h
  have h1 := h.double a1
  have h2 := h.double (h.double a2)
  have h3 := h.double (h.double (h.double a3))
  have g1 := h.add h1 a1
  have g2 := h.add (h.double h2) a2
  have g3 := h.add h3 a3
  have g3 := h.add g3 (h.double g3)
  refine interpolate_rel (p0 := x0 * x0) (p1 := x0 * x1 + x1 * x0)
    (p2 := x0 * x2 + x1 * x1 + x2 * x0) (p3 := x0 * x3 + x1 * x2 + x2 * x1 + x3 * x0)
    (p4 := x1 * x3 + x2 * x2 + x3 * x1) (p5 := x2 * x3 + x3 * x2) (p6 := x3 * x3)
    h hq hk (h.square a0)
    (cast (h.square (h.add (h.add (h.add a0 a1) a2) a3)) ?_)
    (cast (h.square (h.sub (h.add (h.sub a0 a1) a2) a3)) ?_)
    (cast (h.square (h.add (h.add (h.add a0 h1) h2) h3)) ?_)
    (cast (h.square (h.sub (h.add (h.sub a0 h1) h2) h3)) ?_)
    (cast (h.square (h.add (h.add (h.add a0 g1) g2) g3)) ?_)
    (h.square a3) <;> ring

theorem isZero_rel [Nontrivial K] (h : o.Implements R) {a : Ext4 α} {x} (ha : Rel R q a x) :
    isZero o a = true ↔ x = 0 := by
  obtain ⟨x0, x1, x2, x3, h0, h1, h2, h3, rfl⟩ := ha
  simp only [isZero, Bool.and_eq_true, h.isZero h0, h.isZero h1, h.isZero h2, h.isZero h3]
  exact ⟨fun ⟨⟨⟨e0, e1⟩, e2⟩, e3⟩ => by simp [e0, e1, e2, e3],
    fun e => ⟨⟨⟨(Ext.zero4 e).1, (Ext.zero4 e).2.1⟩, (Ext.zero4 e).2.2.1⟩, (Ext.zero4 e).2.2.2⟩⟩

/-- What the inverse and the norm need of `FrobeniusMapInPlace(j * BaseField::ExtensionDegree())`:
it fixes the base field and multiplies the generator by the `j`-th power of a square root of `-1`. -/
structure ConjRel (o : FieldOps α) (R : α → K → Prop) (cfg : Ext4Config α) (w : K) : Prop where
  hw : w ^ 2 = -1
  base : ∀ {j : ℕ}, j = 1 ∨ j = 2 ∨ j = 3 → ∀ {a x}, R a x → R (o.frobenius (j * cfg.baseDegree) a) x
  frob1 : ∀ {j : ℕ}, j = 1 ∨ j = 2 ∨ j = 3 → ∀ {a x}, R a x →
    R (cfg.frobMul a (j * cfg.baseDegree % cfg.degree)) (x * w ^ j)
  frob2 : ∀ {j : ℕ}, j = 1 ∨ j = 2 ∨ j = 3 → ∀ {a x}, R a x →
    R (cfg.frobMul2 a (j * cfg.baseDegree % cfg.degree)) (x * w ^ (2 * j))
  frob3 : ∀ {j : ℕ}, j = 1 ∨ j = 2 ∨ j = 3 → ∀ {a x}, R a x →
    R (cfg.frobMul3 a (j * cfg.baseDegree % cfg.degree)) (x * w ^ (3 * j))

/-- `x * φ²(x) = normA + normB * X²`. -/
def normA (q x0 x1 x2 x3 : K) : K := x0 * x0 + q * (x2 * x2) - 2 * q * (x1 * x3)
/-- See `normA`. -/
def normB (q x0 x1 x2 x3 : K) : K := 2 * (x0 * x2) - x1 * x1 - q * (x3 * x3)
/-- The norm of an element in terms of its coefficients. -/
def normForm (q x0 x1 x2 x3 : K) : K :=
  normA q x0 x1 x2 x3 * normA q x0 x1 x2 x3 - q * (normB q x0 x1 x2 x3 * normB q x0 x1 x2 x3)

/-- The product of the three proper conjugates. -/
noncomputable def conj3 (q x0 x1 x2 x3 : K) : Ext 4 q :=
  Ext.of 4 q (x0 * normA q x0 x1 x2 x3 - q * (x2 * normB q x0 x1 x2 x3))
    + Ext.of 4 q (q * (x3 * normB q x0 x1 x2 x3) - x1 * normA q x0 x1 x2 x3) * Ext.x 4 q
    + Ext.of 4 q (x2 * normA q x0 x1 x2 x3 - x0 * normB q x0 x1 x2 x3) * Ext.x 4 q ^ 2
    + Ext.of 4 q (x1 * normB q x0 x1 x2 x3 - x3 * normA q x0 x1 x2 x3) * Ext.x 4 q ^ 3

theorem mul_conj3 (x0 x1 x2 x3 : K) :
    (Ext.of 4 q x0 + Ext.of 4 q x1 * Ext.x 4 q + Ext.of 4 q x2 * Ext.x 4 q ^ 2
        + Ext.of 4 q x3 * Ext.x 4 q ^ 3) * conj3 q x0 x1 x2 x3
      = Ext.of 4 q (normForm q x0 x1 x2 x3) := by
  unfold conj3
  rw [rel_mul_eq]
  have e1 : ∀ a b c d n : K, b = 0 → c = 0 → d = 0 → a = n →
      Ext.of 4 q a + Ext.of 4 q b * Ext.x 4 q + Ext.of 4 q c * Ext.x 4 q ^ 2
        + Ext.of 4 q d * Ext.x 4 q ^ 3 = Ext.of 4 q n := by
    rintro _ _ _ _ _ rfl rfl rfl rfl
    simp
  apply e1 <;> simp only [normForm, normA, normB] <;> ring

theorem isUnit_iff [Nontrivial K] (x0 x1 x2 x3 : K) :
    IsUnit (Ext.of 4 q x0 + Ext.of 4 q x1 * Ext.x 4 q + Ext.of 4 q x2 * Ext.x 4 q ^ 2
      + Ext.of 4 q x3 * Ext.x 4 q ^ 3) ↔ IsUnit (normForm q x0 x1 x2 x3) := by
  constructor
  · intro hu
    obtain ⟨y, hy⟩ := hu.exists_right_inv
    obtain ⟨y0, y1, y2, y3, rfl⟩ := Ext.exists4 q y
    rw [rel_mul_eq] at hy
    obtain ⟨e0, e1, e2, e3⟩ := Ext.inj4 (z0 := 1) (z1 := 0) (z2 := 0) (z3 := 0) (hy.trans (by simp))
    refine IsUnit.of_mul_eq_one (normForm q y0 y1 y2 y3) ?_
    have m : normForm q x0 x1 x2 x3 * normForm q y0 y1 y2 y3
        = normForm q (x0 * y0 + q * (x1 * y3 + x2 * y2 + x3 * y1))
          (x0 * y1 + x1 * y0 + q * (x2 * y3 + x3 * y2))
          (x0 * y2 + x1 * y1 + x2 * y0 + q * (x3 * y3))
          (x0 * y3 + x1 * y2 + x2 * y1 + x3 * y0) := by
      have hA : normA q (x0 * y0 + q * (x1 * y3 + x2 * y2 + x3 * y1))
          (x0 * y1 + x1 * y0 + q * (x2 * y3 + x3 * y2))
          (x0 * y2 + x1 * y1 + x2 * y0 + q * (x3 * y3))
          (x0 * y3 + x1 * y2 + x2 * y1 + x3 * y0)
          = normA q x0 x1 x2 x3 * normA q y0 y1 y2 y3
            + q * (normB q x0 x1 x2 x3 * normB q y0 y1 y2 y3) := by
        simp only [normA, normB]; ring
      have hB : normB q (x0 * y0 + q * (x1 * y3 + x2 * y2 + x3 * y1))
          (x0 * y1 + x1 * y0 + q * (x2 * y3 + x3 * y2))
          (x0 * y2 + x1 * y1 + x2 * y0 + q * (x3 * y3))
          (x0 * y3 + x1 * y2 + x2 * y1 + x3 * y0)
          = normA q x0 x1 x2 x3 * normB q y0 y1 y2 y3
            + normB q x0 x1 x2 x3 * normA q y0 y1 y2 y3 := by
        simp only [normA, normB]; ring
      unfold normForm
      rw [hA, hB]
      ring
    rw [m, e0, e1, e2, e3]
    simp [normForm, normA, normB]
  · intro hu
    obtain ⟨v, hv⟩ := hu.exists_right_inv
    refine IsUnit.of_mul_eq_one (conj3 q x0 x1 x2 x3 * Ext.of 4 q v) ?_
    rw [← mul_assoc, mul_conj3, ← map_mul, hv, map_one]

theorem frobenius_conj {w : K} (hc : ConjRel o R cfg w) {j : ℕ} (hj : j = 1 ∨ j = 2 ∨ j = 3)
    {a : Ext4 α} {x0 x1 x2 x3 : K} (h0 : R a.c0 x0) (h1 : R a.c1 x1) (h2 : R a.c2 x2)
    (h3 : R a.c3 x3) :
    Rel R q (frobenius o cfg (j * cfg.baseDegree) a)
      (Ext.of 4 q x0 + Ext.of 4 q (x1 * w ^ j) * Ext.x 4 q
        + Ext.of 4 q (x2 * w ^ (2 * j)) * Ext.x 4 q ^ 2
        + Ext.of 4 q (x3 * w ^ (3 * j)) * Ext.x 4 q ^ 3) :=
  ⟨_, _, _, _, hc.base hj h0, hc.frob1 hj (hc.base hj h1), hc.frob2 hj (hc.base hj h2),
    hc.frob3 hj (hc.base hj h3), rfl⟩

theorem conj_prod {w : K} (hw : w ^ 2 = -1) (x0 x1 x2 x3 : K) :
    (Ext.of 4 q x0 + Ext.of 4 q (x1 * w ^ 1) * Ext.x 4 q
        + Ext.of 4 q (x2 * w ^ (2 * 1)) * Ext.x 4 q ^ 2
        + Ext.of 4 q (x3 * w ^ (3 * 1)) * Ext.x 4 q ^ 3)
      * ((Ext.of 4 q x0 + Ext.of 4 q (x1 * w ^ 2) * Ext.x 4 q
          + Ext.of 4 q (x2 * w ^ (2 * 2)) * Ext.x 4 q ^ 2
          + Ext.of 4 q (x3 * w ^ (3 * 2)) * Ext.x 4 q ^ 3)
        * (Ext.of 4 q x0 + Ext.of 4 q (x1 * w ^ 3) * Ext.x 4 q
          + Ext.of 4 q (x2 * w ^ (2 * 3)) * Ext.x 4 q ^ 2
          + Ext.of 4 q (x3 * w ^ (3 * 3)) * Ext.x 4 q ^ 3))
      = conj3 q x0 x1 x2 x3 := by
  have w1 : w ^ 3 = -w := by linear_combination w * hw
  have w2 : w ^ 4 = 1 := by linear_combination (w ^ 2 - 1) * hw
  have w3 : w ^ 6 = -1 := by linear_combination (w ^ 4 - w ^ 2 + 1) * hw
  have w4 : w ^ 9 = w := by linear_combination w * (w ^ 4 + 1) * w2
  norm_num [w1, w2, w3, w4, hw]
  have h4 := Ext.x_pow 4 q
  have hww : Ext.of 4 q w ^ 2 = -1 := by rw [← map_pow, hw, map_neg, map_one]
  simp only [conj3, normA, normB, map_add, map_sub, map_mul, map_ofNat] at *
  generalize Ext.of 4 q x0 = a0 at *
  generalize Ext.of 4 q x1 = a1 at *
  generalize Ext.of 4 q x2 = a2 at *
  generalize Ext.of 4 q x3 = a3 at *
  generalize Ext.of 4 q w = v at *
  generalize Ext.of 4 q q = Q at *
  generalize Ext.x 4 q = X at *
  linear_combination -((a0 - a1 * X + a2 * X ^ 2 - a3 * X ^ 3) *
    ((a1 * X - a3 * X ^ 3) ^ 2 * hww - (a2 ^ 2 - 2 * a1 * a3 + a3 ^ 2 * X ^ 2) * h4)
    - (a3 * X - a2) * (2 * (a0 * a2) - a1 * a1 - Q * (a3 * a3)) * h4)

theorem conj3_rel (h : o.Implements R) (hq : ∀ {a x}, R a x → R (cfg.mulByNonResidue a) (q * x))
    (hk : init o = some k) {w : K} (hc : ConjRel o R cfg w)
    {a : Ext4 α} {x0 x1 x2 x3 : K} (h0 : R a.c0 x0) (h1 : R a.c1 x1) (h2 : R a.c2 x2)
    (h3 : R a.c3 x3) :
    Rel R q (mul o cfg k (frobenius o cfg cfg.baseDegree a)
      (mul o cfg k (frobenius o cfg (2 * cfg.baseDegree) a)
        (frobenius o cfg (3 * cfg.baseDegree) a))) (conj3 q x0 x1 x2 x3) := by
  have f1 := frobenius_conj (q := q) hc (j := 1) (by simp) h0 h1 h2 h3
  have f2 := frobenius_conj (q := q) hc (j := 2) (by simp) h0 h1 h2 h3
  have f3 := frobenius_conj (q := q) hc (j := 3) (by simp) h0 h1 h2 h3
  rw [one_mul] at f1
  have r := mul_rel h hq hk f1 (mul_rel h hq hk f2 f3)
  rwa [conj_prod hc.hw] at r

theorem inverse_rel [Nontrivial K] (h : o.Implements R)
    (hq : ∀ {a x}, R a x → R (cfg.mulByNonResidue a) (q * x)) (hk : init o = some k) {w : K}
    (hc : ConjRel o R cfg w) {a : Ext4 α} {x} (ha : Rel R q a x) (hu : IsUnit x) :
    ∃ b y, inverse o cfg k a = some b ∧ Rel R q b y ∧ x * y = 1 := by
  have hz := isZero_rel h ha
  have hnt := Ext.nontrivial (n := 4) (by norm_num) q
  have hx : x ≠ 0 := hu.ne_zero
  obtain ⟨x0, x1, x2, x3, h0, h1, h2, h3, rfl⟩ := ha
  have hn := (isUnit_iff x0 x1 x2 x3).1 hu
  obtain ⟨y0, y1, y2, y3, k0, k1, k2, k3, e⟩ := conj3_rel h hq hk hc h0 h1 h2 h3
  have e' := e
  unfold conj3 at e'
  obtain ⟨f0, f1, f2, f3⟩ := Ext.inj4 e'
  have hd := h.add (hq (h.add (h.add (h.add h.zero (h.mul h1 k3)) (h.mul h2 k2)) (h.mul h3 k1)))
    (h.mul h0 k0)
  have hN : q * (0 + x1 * y3 + x2 * y2 + x3 * y1) + x0 * y0 = normForm q x0 x1 x2 x3 := by
    rw [← f0, ← f1, ← f2, ← f3]
    unfold normForm
    simp only [normA, normB]
    ring
  rw [hN] at hd
  obtain ⟨i, v, hi, hv, ev⟩ := h.inverse hd hn
  refine ⟨mulBase o (mul o cfg k (frobenius o cfg cfg.baseDegree a)
      (mul o cfg k (frobenius o cfg (2 * cfg.baseDegree) a)
        (frobenius o cfg (3 * cfg.baseDegree) a))) i, conj3 q x0 x1 x2 x3 * Ext.of 4 q v, ?_,
    ⟨_, _, _, _, h.mul k0 hv, h.mul k1 hv, h.mul k2 hv, h.mul k3 hv, ?_⟩, ?_⟩
  · unfold inverse
    rw [if_neg (by rw [hz]; exact hx)]
    dsimp only
    rw [hi]
  · rw [e]
    simp only [map_mul]
    ring
  · rw [← mul_assoc, mul_conj3, ← map_mul, ev, map_one]

theorem inverse_none_rel [Nontrivial K] (h : o.Implements R)
    (hq : ∀ {a x}, R a x → R (cfg.mulByNonResidue a) (q * x)) (hk : init o = some k) {w : K}
    (hc : ConjRel o R cfg w) {a : Ext4 α} {x} (ha : Rel R q a x) (hu : ¬ IsUnit x) :
    inverse o cfg k a = none := by
  obtain ⟨x0, x1, x2, x3, h0, h1, h2, h3, rfl⟩ := ha
  rw [isUnit_iff] at hu
  obtain ⟨y0, y1, y2, y3, k0, k1, k2, k3, e⟩ := conj3_rel h hq hk hc h0 h1 h2 h3
  have e' := e
  unfold conj3 at e'
  obtain ⟨f0, f1, f2, f3⟩ := Ext.inj4 e'
  have hd := h.add (hq (h.add (h.add (h.add h.zero (h.mul h1 k3)) (h.mul h2 k2)) (h.mul h3 k1)))
    (h.mul h0 k0)
  have hN : q * (0 + x1 * y3 + x2 * y2 + x3 * y1) + x0 * y0 = normForm q x0 x1 x2 x3 := by
    rw [← f0, ← f1, ← f2, ← f3]
    unfold normForm
    simp only [normA, normB]
    ring
  rw [hN] at hd
  have := h.inverse_none hd hu
  unfold inverse
  split
  · rfl
  · dsimp only
    rw [this]

/-- `Norm` passes its `CHECK` and returns the product of the four conjugates. -/
theorem norm_rel [Nontrivial K] (h : o.Implements R)
    (hq : ∀ {a x}, R a x → R (cfg.mulByNonResidue a) (q * x)) (hk : init o = some k) {w : K}
    (hc : ConjRel o R cfg w) {a : Ext4 α} {x0 x1 x2 x3 : K} (h0 : R a.c0 x0) (h1 : R a.c1 x1)
    (h2 : R a.c2 x2) (h3 : R a.c3 x3) :
    ∃ b, norm o cfg k a = some b ∧ R b (normForm q x0 x1 x2 x3) := by
  have f1 := frobenius_conj (q := q) hc (j := 1) (by simp) h0 h1 h2 h3
  have f2 := frobenius_conj (q := q) hc (j := 2) (by simp) h0 h1 h2 h3
  have f3 := frobenius_conj (q := q) hc (j := 3) (by simp) h0 h1 h2 h3
  rw [one_mul] at f1
  have hx : Rel R q a _ := ⟨x0, x1, x2, x3, h0, h1, h2, h3, rfl⟩
  have r := mul_rel h hq hk f1 (mul_rel h hq hk (mul_rel h hq hk f2 f3) hx)
  rw [← mul_assoc, conj_prod hc.hw, mul_comm (conj3 q x0 x1 x2 x3), mul_conj3] at r
  obtain ⟨z0, z1, z2, z3, g0, g1, g2, g3, eg⟩ := r
  obtain ⟨e0, e1, e2, e3⟩ := Ext.inj4 (y0 := normForm q x0 x1 x2 x3) (y1 := 0) (y2 := 0) (y3 := 0)
    ((by simp : _ = _).trans eg)
  subst e0 e1 e2 e3
  refine ⟨_, ?_, g0⟩
  unfold norm
  dsimp only
  rw [if_pos]
  simp only [Bool.and_eq_true]
  exact ⟨⟨(h.isZero g1).2 rfl, (h.isZero g2).2 rfl⟩, (h.isZero g3).2 rfl⟩

theorem add_rel (h : o.Implements R) {a b : Ext4 α} {x y} (ha : Rel R q a x) (hb : Rel R q b y) :
    Rel R q (add o a b) (x + y) := by
  obtain ⟨x0, x1, x2, x3, a0, a1, a2, a3, rfl⟩ := ha
  obtain ⟨y0, y1, y2, y3, b0, b1, b2, b3, rfl⟩ := hb
  exact ⟨_, _, _, _, h.add a0 b0, h.add a1 b1, h.add a2 b2, h.add a3 b3, by
    simp only [map_add]; ring⟩

theorem sub_rel (h : o.Implements R) {a b : Ext4 α} {x y} (ha : Rel R q a x) (hb : Rel R q b y) :
    Rel R q (sub o a b) (x - y) := by
  obtain ⟨x0, x1, x2, x3, a0, a1, a2, a3, rfl⟩ := ha
  obtain ⟨y0, y1, y2, y3, b0, b1, b2, b3, rfl⟩ := hb
  exact ⟨_, _, _, _, h.sub a0 b0, h.sub a1 b1, h.sub a2 b2, h.sub a3 b3, by
    simp only [map_sub]; ring⟩

theorem neg_rel (h : o.Implements R) {a : Ext4 α} {x} (ha : Rel R q a x) :
    Rel R q (neg o a) (-x) := by
  obtain ⟨x0, x1, x2, x3, a0, a1, a2, a3, rfl⟩ := ha
  exact ⟨_, _, _, _, h.neg a0, h.neg a1, h.neg a2, h.neg a3, by simp only [map_neg]; ring⟩

theorem double_rel (h : o.Implements R) {a : Ext4 α} {x} (ha : Rel R q a x) :
    Rel R q (double o a) (x + x) := by
  obtain ⟨x0, x1, x2, x3, a0, a1, a2, a3, rfl⟩ := ha
  exact ⟨_, _, _, _, h.double a0, h.double a1, h.double a2, h.double a3, by
    simp only [map_add]; ring⟩

theorem isOne_rel [Nontrivial K] (h : o.Implements R) {a : Ext4 α} {x} (ha : Rel R q a x) :
    isOne o a = true ↔ x = 1 := by
  obtain ⟨x0, x1, x2, x3, h0, h1, h2, h3, rfl⟩ := ha
  simp only [isOne, Bool.and_eq_true, h.isOne h0, h.isZero h1, h.isZero h2, h.isZero h3]
  constructor
  · rintro ⟨⟨⟨rfl, rfl⟩, rfl⟩, rfl⟩; simp
  · intro e
    obtain ⟨e0, e1, e2, e3⟩ := Ext.inj4 (z0 := 1) (z1 := 0) (z2 := 0) (z3 := 0) (e.trans (by simp))
    exact ⟨⟨⟨e0, e1⟩, e2⟩, e3⟩

theorem eq_rel [Nontrivial K] (h : o.Implements R) {a b : Ext4 α} {x y} (ha : Rel R q a x)
    (hb : Rel R q b y) : eq o a b = true ↔ x = y := by
  obtain ⟨x0, x1, x2, x3, a0, a1, a2, a3, rfl⟩ := ha
  obtain ⟨y0, y1, y2, y3, b0, b1, b2, b3, rfl⟩ := hb
  simp only [eq, Bool.and_eq_true, h.eq a0 b0, h.eq a1 b1, h.eq a2 b2, h.eq a3 b3]
  constructor
  · rintro ⟨⟨⟨rfl, rfl⟩, rfl⟩, rfl⟩; rfl
  · intro e
    obtain ⟨e0, e1, e2, e3⟩ := Ext.inj4 e
    exact ⟨⟨⟨e0, e1⟩, e2⟩, e3⟩

/-- The quartic extension implements `K[X] / (X⁴ - q)`. -/
theorem implements [Nontrivial K] (h : o.Implements R)
    (hq : ∀ {a x}, R a x → R (cfg.mulByNonResidue a) (q * x)) (hk : init o = some k) {w : K}
    (hc : ConjRel o R cfg w) : (ops o cfg k).Implements (Rel R q) where
  zero := ⟨0, 0, 0, 0, h.zero, h.zero, h.zero, h.zero, by simp⟩
  one := ⟨1, 0, 0, 0, h.one, h.zero, h.zero, h.zero, by simp⟩
  twoInv := by
    intro _
    obtain ⟨t, ht⟩ := init_rel h hk
    obtain ⟨y, hy, e⟩ := h.twoInv (IsUnit.of_mul_eq_one (60 * t) (by linear_combination ht.ht))
    refine ⟨Ext.of 4 q y, ⟨y, 0, 0, 0, hy, h.zero, h.zero, h.zero, by simp⟩, ?_⟩
    rw [← map_one (Ext.of 4 q), ← e, map_mul, map_ofNat]
  ofNat n := ⟨n, 0, 0, 0, h.ofNat n, h.zero, h.zero, h.zero, by simp⟩
  add := add_rel h
  sub := sub_rel h
  mul := mul_rel h hq hk
  neg := neg_rel h
  double := double_rel h
  square := square_rel h hq hk
  isZero := isZero_rel h
  isOne := isOne_rel h
  eq := eq_rel h
  inverse := inverse_rel h hq hk hc
  inverse_none := inverse_none_rel h hq hk hc

end Ext4
end Tachyon
