import Verif.Proofs.Cyclotomic
import Mathlib.FieldTheory.KummerPolynomial
import Mathlib.RingTheory.IntegralDomain
/-! Norms, conjugates, and the conditions on the non-residues. -/
namespace Tachyon
open Polynomial

section Numbers
variable {M : Type*} [CommMonoid M]

theorem pow_table_pow {u : M} {Q n : ℕ} (hQ : 0 < Q) (hn : n ∣ Q - 1) (h : u ^ Q = u) (j : ℕ) :
    u ^ ((Q ^ j - 1) / n) = (u ^ ((Q - 1) / n)) ^ j := by
  induction j with
  | zero => simp
  | succ j ih =>
    obtain ⟨t, ht⟩ : n ∣ Q ^ j - 1 := dvd_pow_sub_one hn j
    obtain ⟨c, hc⟩ := hn
    rcases Nat.eq_zero_or_pos n with rfl | hn0
    · simp
    have e : Q ^ (j + 1) - 1 = n * (t * Q + c) := by
      have h1 : 0 < Q ^ j := Nat.pow_pos hQ
      have e1 : Q ^ j = n * t + 1 := by omega
      have e2 : Q = n * c + 1 := by omega
      have e3 : Q ^ (j + 1) = n * (t * Q + c) + 1 := by
        rw [pow_succ, e1]
        conv_lhs => rw [e2]
        conv_rhs => rw [e2]
        ring
      omega
    rw [e, Nat.mul_div_cancel_left _ hn0, pow_add, pow_mul, pow_succ, ← ih, ht,
      Nat.mul_div_cancel_left _ hn0, hc, Nat.mul_div_cancel_left _ hn0, ← pow_mul, Nat.mul_comm t,
      pow_mul, h]

end Numbers

/-- In a finite field with `Q` elements, `a^((Q-1)/n) = 1` exactly for the `n`-th powers. -/
theorem exists_root_of_pow_eq_one {F : Type*} [Field F] [Finite F] {Q n : ℕ} (hc : Nat.card F = Q)
    (hn : n ∣ Q - 1) (hQ : 1 < Q) {a : F} (ha : a ≠ 0) (h : a ^ ((Q - 1) / n) = 1) :
    ∃ b, b ^ n = a := by
  obtain ⟨g, hg⟩ := IsCyclic.exists_generator (α := Fˣ)
  obtain ⟨i, hi⟩ := hg (Units.mk0 a ha)
  have ho : orderOf g = Q - 1 := by
    rw [orderOf_eq_card_of_forall_mem_zpowers hg, Nat.card_units, hc]
  simp only at hi
  have h1 : g ^ (i * ((Q - 1) / n : ℕ)) = 1 := by
    rw [zpow_mul, hi, zpow_natCast]
    ext
    simpa using h
  rw [← orderOf_dvd_iff_zpow_eq_one, ho] at h1
  obtain ⟨c, hc'⟩ := hn
  have hn0 : n ≠ 0 := by rintro rfl; omega
  have hc0 : c ≠ 0 := by rintro rfl; omega
  rw [hc', Nat.mul_div_cancel_left _ (Nat.pos_of_ne_zero hn0)] at h1
  push_cast at h1
  obtain ⟨j, hj⟩ := Int.dvd_of_mul_dvd_mul_right (by exact_mod_cast hc0) h1
  refine ⟨((g ^ j : Fˣ) : F), ?_⟩
  have : (g ^ j) ^ n = Units.mk0 a ha := by
    rw [← hi, hj, mul_comm, zpow_mul, zpow_natCast]
  have := congrArg Units.val this
  simpa using this

theorem ext2_irreducible {p : ℕ} [hpf : Fact p.Prime] {q : ZMod p} (hq : ¬ IsSquare q) :
    Irreducible (X ^ 2 - C q : (ZMod p)[X]) :=
  X_pow_sub_C_irreducible_of_prime Nat.prime_two fun b hb => hq ⟨b, by rw [← hb, sq]⟩

variable {α K : Type*} [CommRing K] {o : FieldOps α} {R : α → K → Prop} {q : K}

theorem Ext2.mul_conj (x0 x1 : K) :
    (Ext.of 2 q x0 + Ext.of 2 q x1 * Ext.x 2 q) * (Ext.of 2 q x0 + Ext.of 2 q (-x1) * Ext.x 2 q)
      = Ext.of 2 q (x0 * x0 - q * (x1 * x1)) := by
  have h := Ext.x_pow 2 q
  simp only [map_sub, map_mul, map_neg]
  linear_combination -(Ext.of 2 q x1 ^ 2) * h

theorem Ext2.norm_rel {cfg : Ext2Config α} (h : o.Implements R)
    (hq : ∀ {a x}, R a x → R (cfg.mulByNonResidue a) (q * x)) {a : Ext2 α} {x y}
    (ha : Rel R q a x) (hc : Rel R q (conjugate o a) y) [Nontrivial K]
    (hR : ∀ {a x y}, R a x → R a y → x = y) :
    ∃ n, R (norm o cfg a) n ∧ Ext.of 2 q n = x * y := by
  obtain ⟨x0, x1, h0, h1, rfl⟩ := ha
  obtain ⟨y0, y1, k0, k1, rfl⟩ := hc
  obtain rfl := hR k0 h0
  obtain rfl := hR k1 (h.neg h1)
  exact ⟨_, h.sub (h.square h0) (hq (h.square h1)), (mul_conj _ _).symm⟩

theorem FieldOps.Implements.functional (h : o.Implements R) {a x y} (h1 : R a x) (h2 : R a y) :
    x = y := by
  have e : o.eq a a = true := (h.eq h1 h1).2 rfl
  exact (h.eq h1 h2).1 e

namespace Ext3
variable {cfg : Ext3Config α}

/-- See `Ext4.ConjRel`. -/
structure ConjRel (o : FieldOps α) (R : α → K → Prop) (cfg : Ext3Config α) (w : K) : Prop where
  hw : w ^ 2 + w + 1 = 0
  base : ∀ {j : ℕ}, j = 1 ∨ j = 2 → ∀ {a x}, R a x → R (o.frobenius (j * cfg.baseDegree) a) x
  frob1 : ∀ {j : ℕ}, j = 1 ∨ j = 2 → ∀ {a x}, R a x →
    R (cfg.frobMul a (j * cfg.baseDegree % cfg.degree)) (x * w ^ j)
  frob2 : ∀ {j : ℕ}, j = 1 ∨ j = 2 → ∀ {a x}, R a x →
    R (cfg.frobMul2 a (j * cfg.baseDegree % cfg.degree)) (x * w ^ (2 * j))

theorem frobenius_conj {w : K} (hc : ConjRel o R cfg w) {j : ℕ} (hj : j = 1 ∨ j = 2)
    {a : Ext3 α} {x0 x1 x2 : K} (h0 : R a.c0 x0) (h1 : R a.c1 x1) (h2 : R a.c2 x2) :
    Rel R q (frobenius o cfg (j * cfg.baseDegree) a)
      (Ext.of 3 q x0 + Ext.of 3 q (x1 * w ^ j) * Ext.x 3 q
        + Ext.of 3 q (x2 * w ^ (2 * j)) * Ext.x 3 q ^ 2) :=
  ⟨_, _, _, hc.base hj h0, hc.frob1 hj (hc.base hj h1), hc.frob2 hj (hc.base hj h2), rfl⟩

theorem conj_prod {w : K} (hw : w ^ 2 + w + 1 = 0) (x0 x1 x2 : K) :
    (Ext.of 3 q x0 + Ext.of 3 q (x1 * w ^ 1) * Ext.x 3 q
        + Ext.of 3 q (x2 * w ^ (2 * 1)) * Ext.x 3 q ^ 2)
      * ((Ext.of 3 q x0 + Ext.of 3 q (x1 * w ^ 2) * Ext.x 3 q
        + Ext.of 3 q (x2 * w ^ (2 * 2)) * Ext.x 3 q ^ 2)
      * (Ext.of 3 q x0 + Ext.of 3 q x1 * Ext.x 3 q + Ext.of 3 q x2 * Ext.x 3 q ^ 2))
      = Ext.of 3 q (x0 ^ 3 + q * x1 ^ 3 + q ^ 2 * x2 ^ 3 - 3 * q * (x0 * x1 * x2)) := by
  have key : ∀ {S : Type _} [CommRing S] {X Q w : S} (_ : X ^ 3 = Q) (_ : w ^ 2 + w + 1 = 0)
      (x0 x1 x2 : S),
      (x0 + x1 * w ^ 1 * X + x2 * w ^ (2 * 1) * X ^ 2)
        * ((x0 + x1 * w ^ 2 * X + x2 * w ^ (2 * 2) * X ^ 2) * (x0 + x1 * X + x2 * X ^ 2))
        = x0 ^ 3 + Q * x1 ^ 3 + Q ^ 2 * x2 ^ 3 - 3 * Q * (x0 * x1 * x2) := by
    intro S _ X Q w hx hw x0 x1 x2
    subst hx
    have w3 : w ^ 3 = 1 := by linear_combination (w - 1) * hw
    have w4 : w ^ (2 * 2) = w := by linear_combination w * w3
    have w2 : w ^ 2 = -w - 1 := by linear_combination hw
    rw [w4, show 2 * 1 = 2 from rfl, w2]
    linear_combination (-(x0 * x1 ^ 2 * X ^ 2) - x0 * x2 ^ 2 * X ^ 4 + 2 * (x0 * x1 * x2 * X ^ 3)
      - x1 ^ 3 * X ^ 3 - x2 ^ 3 * X ^ 6 + x1 * x2 ^ 2 * X ^ 5 + x1 ^ 2 * x2 * X ^ 4) * hw
  have hx := Ext.x_pow 3 q
  have hw' : Ext.of 3 q w ^ 2 + Ext.of 3 q w + 1 = 0 := by
    have := congrArg (Ext.of 3 q) hw
    simpa using this
  simp only [map_mul, map_add, map_pow, map_sub, map_ofNat]
  exact key hx hw' _ _ _

theorem norm_rel [Nontrivial K] (h : o.Implements R)
    (hq : ∀ {a x}, R a x → R (cfg.mulByNonResidue a) (q * x)) {w : K}
    (hc : ConjRel o R cfg w) {a : Ext3 α} {x y z} (ha : Rel R q a x)
    (hy : Rel R q (frobenius o cfg (1 * cfg.baseDegree) a) y)
    (hz : Rel R q (frobenius o cfg (2 * cfg.baseDegree) a) z) :
    ∃ b n, norm o cfg a = some b ∧ R b n ∧ Ext.of 3 q n = x * y * z := by
  have h' := Ext3.implements (cfg := cfg) h hq
  obtain ⟨x0, x1, x2, h0, h1, h2, rfl⟩ := id ha
  have f1 := frobenius_conj (q := q) hc (j := 1) (by simp) h0 h1 h2
  have f2 := frobenius_conj (q := q) hc (j := 2) (by simp) h0 h1 h2
  obtain rfl := h'.functional hy f1
  obtain rfl := h'.functional hz f2
  rw [one_mul] at f1
  have r := mul_rel h hq f1 (mul_rel h hq f2 ha)
  rw [conj_prod hc.hw] at r
  obtain ⟨z0, z1, z2, g0, g1, g2, eg⟩ := r
  obtain ⟨e0, e1, e2⟩ := Ext.inj3 
    (y0 := x0 ^ 3 + q * x1 ^ 3 + q ^ 2 * x2 ^ 3 - 3 * q * (x0 * x1 * x2)) (y1 := 0) (y2 := 0)
    ((by simp : _ = _).trans eg)
  subst e0 e1 e2
  refine ⟨_, _, ?_, g0, ?_⟩
  · unfold norm
    dsimp only
    rw [if_pos]
    simp only [Bool.and_eq_true]
    exact ⟨(h.isZero g1).2 rfl, (h.isZero g2).2 rfl⟩
  · rw [← conj_prod hc.hw]; ring

end Ext3
end Tachyon
