import Verif.Proofs.Sparse
/-! Granger-Scott squaring in the cyclotomic subgroup of the degree 12 tower. -/
namespace Tachyon
open Polynomial

variable {α K : Type*} [CommRing K] {o : FieldOps α} {R : α → K → Prop} {q : K}

namespace Fp12

/-- `b0 + b1 y + ... + b5 y⁵` with `y² = v`, `v³ = q`. -/
noncomputable def tow (q b0 b1 b2 b3 b4 b5 : K) : Ext 2 (Ext.x 3 q) :=
  Ext.of 2 _ (Ext.of 3 q b0 + Ext.of 3 q b2 * Ext.x 3 q + Ext.of 3 q b4 * Ext.x 3 q ^ 2)
    + Ext.of 2 _ (Ext.of 3 q b1 + Ext.of 3 q b3 * Ext.x 3 q + Ext.of 3 q b5 * Ext.x 3 q ^ 2)
      * Ext.x 2 (Ext.x 3 q)

theorem tow_mul (b0 b1 b2 b3 b4 b5 c0 c1 c2 c3 c4 c5 : K) :
    tow q b0 b1 b2 b3 b4 b5 * tow q c0 c1 c2 c3 c4 c5
      = tow q (b0 * c0 + q * (b1 * c5 + b2 * c4 + b3 * c3 + b4 * c2 + b5 * c1))
          (b0 * c1 + b1 * c0 + q * (b2 * c5 + b3 * c4 + b4 * c3 + b5 * c2))
          (b0 * c2 + b1 * c1 + b2 * c0 + q * (b3 * c5 + b4 * c4 + b5 * c3))
          (b0 * c3 + b1 * c2 + b2 * c1 + b3 * c0 + q * (b4 * c5 + b5 * c4))
          (b0 * c4 + b1 * c3 + b2 * c2 + b3 * c1 + b4 * c0 + q * (b5 * c5))
          (b0 * c5 + b1 * c4 + b2 * c3 + b3 * c2 + b4 * c1 + b5 * c0) := by
  have key : ∀ {S : Type _} [CommRing S] {X Y Q : S} (_ : X ^ 3 = Q) (_ : Y ^ 2 = X)
      (b0 b1 b2 b3 b4 b5 c0 c1 c2 c3 c4 c5 : S),
      (b0 + b2 * X + b4 * X ^ 2 + (b1 + b3 * X + b5 * X ^ 2) * Y)
        * (c0 + c2 * X + c4 * X ^ 2 + (c1 + c3 * X + c5 * X ^ 2) * Y)
      = (b0 * c0 + Q * (b1 * c5 + b2 * c4 + b3 * c3 + b4 * c2 + b5 * c1))
        + (b0 * c2 + b1 * c1 + b2 * c0 + Q * (b3 * c5 + b4 * c4 + b5 * c3)) * X
        + (b0 * c4 + b1 * c3 + b2 * c2 + b3 * c1 + b4 * c0 + Q * (b5 * c5)) * X ^ 2
        + ((b0 * c1 + b1 * c0 + Q * (b2 * c5 + b3 * c4 + b4 * c3 + b5 * c2))
          + (b0 * c3 + b1 * c2 + b2 * c1 + b3 * c0 + Q * (b4 * c5 + b5 * c4)) * X
          + (b0 * c5 + b1 * c4 + b2 * c3 + b3 * c2 + b4 * c1 + b5 * c0) * X ^ 2) * Y := by
    intro S _ X Y Q hx hy b0 b1 b2 b3 b4 b5 c0 c1 c2 c3 c4 c5
    subst hx
    linear_combination (b1 + b3 * X + b5 * X ^ 2) * (c1 + c3 * X + c5 * X ^ 2) * hy
  have hx : Ext.of 2 (Ext.x 3 q) (Ext.x 3 q) ^ 3 = Ext.of 2 (Ext.x 3 q) (Ext.of 3 q q) := by
    rw [← map_pow, Ext.x_pow]
  have hy := Ext.x_pow 2 (Ext.x 3 q)
  unfold tow
  simp only [map_mul, map_add, map_pow]
  exact key hx hy _ _ _ _ _ _ _ _ _ _ _ _

theorem tow_inj [Nontrivial K] {b0 b1 b2 b3 b4 b5 c0 c1 c2 c3 c4 c5 : K}
    (h : tow q b0 b1 b2 b3 b4 b5 = tow q c0 c1 c2 c3 c4 c5) :
    b0 = c0 ∧ b1 = c1 ∧ b2 = c2 ∧ b3 = c3 ∧ b4 = c4 ∧ b5 = c5 := by
  have := Ext.nontrivial (n := 3) (by norm_num) q
  obtain ⟨h0, h1⟩ := Ext.inj2 h
  obtain ⟨e0, e2, e4⟩ := Ext.inj3 h0
  obtain ⟨e1, e3, e5⟩ := Ext.inj3 h1
  exact ⟨e0, e1, e2, e3, e4, e5⟩

theorem tow_frob [Nontrivial K] {p : ℕ} [hpf : Fact p.Prime] [CharP K p] (h6 : 6 ∣ p - 1) (e : ℕ)
    (hK : ∀ x : K, x ^ p ^ e = x) (b0 b1 b2 b3 b4 b5 : K) :
    let g := q ^ ((p ^ e - 1) / 6)
    tow q b0 b1 b2 b3 b4 b5 ^ p ^ e
      = tow q b0 (b1 * g) (b2 * g ^ 2) (b3 * g ^ 3) (b4 * g ^ 4) (b5 * g ^ 5) := by
  intro g
  have h3 : 3 ∣ p - 1 := (by norm_num : 3 ∣ 6).trans h6
  have h2 : 2 ∣ p - 1 := (by norm_num : 2 ∣ 6).trans h6
  have := Ext.nontrivial (n := 3) (by norm_num) q
  have := Ext.charP (n := 3) (by norm_num) q p
  have hg : q ^ ((p ^ e - 1) / 3) = g ^ 2 := by
    obtain ⟨c, hc⟩ := dvd_pow_sub_one h6 e
    simp only [g]
    rw [hc, ← pow_mul]
    congr 1
    omega
  unfold tow
  rw [Ext.frob2 (p := p) h2, Ext.frob3 (p := p) h3, Ext.frob3 (p := p) h3,
    Ext.x_table (by norm_num) h6]
  simp only [hK, show 2 * 3 = 6 from rfl, Nat.mul_comm 2, pow_mul, hg]
  change _ + Ext.of 2 _ (_ * Ext.of 3 q g) * _ = _
  congr 3
  · simp only [map_mul, map_pow]
    ring
  · simp only [map_mul, map_pow]
    ring

/-- The six coordinate equations of `x^(p⁴) x = x^(p²)`. -/
structure CycEqs (q b0 b1 b2 b3 b4 b5 : K) : Prop where
  e0 : b0 * b0 + q * (b3 * b3) - q * (b1 * b5 + b2 * b4) = b0
  e3 : 2 * (b0 * b3) - (b1 * b2 + q * (b4 * b5)) = -b3
  e1 : b0 * b1 + q * (b3 * b4) - 2 * (q * (b2 * b5)) = b1
  e4 : b0 * b4 + b1 * b3 - b2 * b2 - q * (b5 * b5) = -b4
  e2 : b1 * b1 + q * (b4 * b4) - b0 * b2 - q * (b3 * b5) = b2
  e5 : 2 * (b1 * b4) - b0 * b5 - b2 * b3 = -b5

theorem cycEqs [Nontrivial K] {p : ℕ} [hpf : Fact p.Prime] [CharP K p] (h6 : 6 ∣ p - 1)
    (hK : ∀ x : K, x ^ p ^ 2 = x)
    (hg : (q ^ ((p ^ 2 - 1) / 6)) ^ 2 - q ^ ((p ^ 2 - 1) / 6) + 1 = 0) {b0 b1 b2 b3 b4 b5 : K}
    (hx : tow q b0 b1 b2 b3 b4 b5 ^ p ^ 4 * tow q b0 b1 b2 b3 b4 b5
      = tow q b0 b1 b2 b3 b4 b5 ^ p ^ 2) : CycEqs q b0 b1 b2 b3 b4 b5 := by
  have hK4 : ∀ x : K, x ^ p ^ 4 = x := by
    intro x
    rw [show p ^ 4 = p ^ 2 * p ^ 2 by ring, pow_mul, hK, hK]
  have hg4 : q ^ ((p ^ 4 - 1) / 6) = (q ^ ((p ^ 2 - 1) / 6)) ^ 2 := by
    obtain ⟨c, hc⟩ := dvd_pow_sub_one h6 2
    have hp1 : 0 < p ^ 2 := Nat.pow_pos hpf.out.pos
    have e : (p ^ 4 - 1) / 6 = c * p ^ 2 + c := by
      rw [show p ^ 4 = p ^ 2 * p ^ 2 by ring]
      obtain ⟨Q, hQ⟩ : ∃ Q, p ^ 2 = Q + 1 := ⟨p ^ 2 - 1, by omega⟩
      rw [hQ] at hc ⊢
      rw [Nat.add_sub_cancel] at hc
      rw [hc, show (6 * c + 1) * (6 * c + 1) = 6 * (c * (6 * c + 1) + c) + 1 by ring,
        Nat.add_sub_cancel, Nat.mul_div_cancel_left _ (by norm_num)]
    rw [e, hc, Nat.mul_div_cancel_left _ (by norm_num), pow_add, pow_mul, hK, sq]
  rw [tow_frob h6 4 hK4, tow_frob h6 2 hK, hg4, tow_mul] at hx
  generalize q ^ ((p ^ 2 - 1) / 6) = g at hg hx
  obtain ⟨h0, h1, h2, h3, h4, h5⟩ := tow_inj hx
  have g3 : g ^ 3 = -1 := by linear_combination (g + 1) * hg
  have g2 : g ^ 2 = g - 1 := by linear_combination hg
  have g4 : g ^ 4 = -g := by linear_combination g * g3
  have g5 : g ^ 5 = 1 - g := by linear_combination g ^ 2 * g3 - g2
  have g6 : g ^ 6 = 1 := by linear_combination (g ^ 3 - 1) * g3
  have g8 : g ^ 8 = g - 1 := by linear_combination g ^ 2 * g6 + g2
  have g10 : g ^ 10 = -g := by linear_combination g ^ 4 * g6 + g4
  simp only [← pow_mul, Nat.reduceMul] at h0 h1 h2 h3 h4 h5
  simp only [g2, g3, g4, g5, g6, g8, g10] at h0 h1 h2 h3 h4 h5
  constructor
  · linear_combination h0
  · linear_combination h3
  · linear_combination (1 - g) * h1
      + (b0 * b1 + q * (b3 * b4) - 2 * (q * (b2 * b5)) - b1) * hg
  · linear_combination (1 - g) * h4 + (b0 * b4 + b1 * b3 - b2 * b2 - q * (b5 * b5) + b4) * hg
  · linear_combination -g * h2 + (b1 * b1 + q * (b4 * b4) - b0 * b2 - q * (b3 * b5) - b2) * hg
  · linear_combination -g * h5 + (2 * (b1 * b4) - b0 * b5 - b2 * b3 + b5) * hg

theorem cyclotomicSquare_of_eqs {cfg6 : Ext3Config α} (h : o.Implements R)
    (hq : ∀ {a x}, R a x → R (cfg6.mulByNonResidue a) (q * x)) {a : Ext2 (Ext3 α)}
    {b0 b1 b2 b3 b4 b5 : K} (a0 : R a.c0.c0 b0) (a2 : R a.c0.c1 b2) (a4 : R a.c0.c2 b4)
    (a1 : R a.c1.c0 b1) (a3 : R a.c1.c1 b3) (a5 : R a.c1.c2 b5)
    (he : CycEqs q b0 b1 b2 b3 b4 b5) :
    Ext2.Rel (Ext3.Rel R q) (Ext.x 3 q) (cyclotomicSquare o cfg6 a)
      (tow q b0 b1 b2 b3 b4 b5 * tow q b0 b1 b2 b3 b4 b5) := by
  have tm : ∀ {u v : α} {x y : K}, R u x → R v y →
      R (o.sub (o.sub (o.mul (o.add u v) (o.add u (cfg6.mulByNonResidue v))) (o.mul u v))
        (cfg6.mulByNonResidue (o.mul u v))) (x * x + q * (y * y)) := by
    intro u v x y hu hv
    have := h.sub (h.sub (h.mul (h.add hu hv) (h.add hu (hq hv))) (h.mul hu hv)) (hq (h.mul hu hv))
    rwa [show (x + y) * (x + q * y) - x * y - q * (x * y) = x * x + q * (y * y) by ring] at this
  have tp : ∀ {t z : α} {x y : K}, R t x → R z y →
      R (o.add (o.double (o.sub t z)) t) (3 * x - 2 * y) := by
    intro t z x y ht hz
    have := h.add (h.double (h.sub ht hz)) ht
    rwa [show x - y + (x - y) + x = 3 * x - 2 * y by ring] at this
  have tq : ∀ {t z : α} {x y : K}, R t x → R z y →
      R (o.add (o.double (o.add t z)) t) (3 * x + 2 * y) := by
    intro t z x y ht hz
    have := h.add (h.double (h.add ht hz)) ht
    rwa [show x + y + (x + y) + x = 3 * x + 2 * y by ring] at this
  have tq' : ∀ {t z : α} {x y : K}, R t x → R z y →
      R (o.add (o.double (o.add z t)) t) (3 * x + 2 * y) := by
    intro t z x y ht hz
    have := h.add (h.double (h.add hz ht)) ht
    rwa [show y + x + (y + x) + x = 3 * x + 2 * y by ring] at this
  have t0 := tm a0 a3
  have t1 := h.double (h.mul a0 a3)
  have t2 := tm a1 a4
  have t3 := h.double (h.mul a1 a4)
  have t4 := tm a2 a5
  have t5 := h.double (h.mul a2 a5)
  refine ⟨_, _, ⟨_, _, _, tp t0 a0, tp t2 a2, tp t4 a4, rfl⟩,
    ⟨_, _, _, tq' (hq t5) a1, tq t1 a3, tq' t3 a5, rfl⟩, ?_⟩
  rw [tow_mul]
  have e0 := he.e0
  have e1 := he.e1
  have e2 := he.e2
  have e3 := he.e3
  have e4 := he.e4
  have e5 := he.e5
  have congr' : ∀ {b0 b1 b2 b3 b4 b5 c0 c1 c2 c3 c4 c5 : K}, b0 = c0 → b1 = c1 → b2 = c2 →
      b3 = c3 → b4 = c4 → b5 = c5 → tow q b0 b1 b2 b3 b4 b5 = tow q c0 c1 c2 c3 c4 c5 := by
    rintro _ _ _ _ _ _ _ _ _ _ _ _ rfl rfl rfl rfl rfl rfl; rfl
  refine congr' ?_ ?_ ?_ ?_ ?_ ?_
  · linear_combination -2 * e0
  · linear_combination 2 * e1
  · linear_combination -2 * e2
  · linear_combination -2 * e3
  · linear_combination 2 * e4
  · linear_combination -2 * e5

end Fp12
end Tachyon
