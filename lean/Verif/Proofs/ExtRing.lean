import Verif.Spec.FieldImplements
import Mathlib.Tactic.LinearCombination
import Mathlib.Tactic.Ring
/-! Bases of `K[X] / (X^n - q)`. -/
namespace Tachyon
open Polynomial

variable {K : Type*} [CommRing K]

theorem Ext.x_pow (n : ℕ) (q : K) : Ext.x n q ^ n = Ext.of n q q := by
  have h := AdjoinRoot.eval₂_root (X ^ n - C q : K[X])
  simp only [eval₂_sub, eval₂_pow, eval₂_X, eval₂_C] at h
  exact sub_eq_zero.1 h

theorem Ext.coeffs_zero [Nontrivial K] {n : ℕ} (hn : n ≠ 0) (q : K) (p : K[X]) (hp : p.natDegree < n)
    (h : AdjoinRoot.mk (X ^ n - C q) p = 0) : p = 0 := by
  by_contra h0
  have hm : (X ^ n - C q : K[X]).Monic := monic_X_pow_sub_C q hn
  refine hm.not_dvd_of_natDegree_lt h0 ?_ (AdjoinRoot.mk_eq_zero.1 h)
  rwa [natDegree_X_pow_sub_C]

theorem Ext.exists_poly [Nontrivial K] {n : ℕ} (hn : n ≠ 0) (q : K) (y : Ext n q) :
    ∃ p : K[X], p.natDegree < n ∧ y = AdjoinRoot.mk _ p := by
  have hm : (X ^ n - C q : K[X]).Monic := monic_X_pow_sub_C q hn
  obtain ⟨p, rfl⟩ := AdjoinRoot.mk_surjective y
  refine ⟨p %ₘ (X ^ n - C q), ?_, ?_⟩
  · have := natDegree_modByMonic_lt p hm (by
      intro h
      have := congrArg natDegree h
      rw [natDegree_X_pow_sub_C, natDegree_one] at this
      exact hn this)
    rwa [natDegree_X_pow_sub_C] at this
  · rw [AdjoinRoot.mk_eq_mk]
    exact ⟨p /ₘ (X ^ n - C q), by
      have := modByMonic_add_div p (X ^ n - C q)
      linear_combination -this⟩

theorem Ext.exists2 [Nontrivial K] (q : K) (y : Ext 2 q) :
    ∃ y0 y1, y = Ext.of 2 q y0 + Ext.of 2 q y1 * Ext.x 2 q := by
  obtain ⟨p, hp, rfl⟩ := Ext.exists_poly (by norm_num) q y
  refine ⟨p.coeff 0, p.coeff 1, ?_⟩
  rw [p.as_sum_range' 2 hp]
  simp [Finset.sum_range_succ, ← C_mul_X_pow_eq_monomial]

theorem Ext.exists3 [Nontrivial K] (q : K) (y : Ext 3 q) :
    ∃ y0 y1 y2, y = Ext.of 3 q y0 + Ext.of 3 q y1 * Ext.x 3 q + Ext.of 3 q y2 * Ext.x 3 q ^ 2 := by
  obtain ⟨p, hp, rfl⟩ := Ext.exists_poly (by norm_num) q y
  refine ⟨p.coeff 0, p.coeff 1, p.coeff 2, ?_⟩
  rw [p.as_sum_range' 3 hp]
  simp [Finset.sum_range_succ, ← C_mul_X_pow_eq_monomial]

theorem Ext.exists4 [Nontrivial K] (q : K) (y : Ext 4 q) :
    ∃ y0 y1 y2 y3, y = Ext.of 4 q y0 + Ext.of 4 q y1 * Ext.x 4 q + Ext.of 4 q y2 * Ext.x 4 q ^ 2
      + Ext.of 4 q y3 * Ext.x 4 q ^ 3 := by
  obtain ⟨p, hp, rfl⟩ := Ext.exists_poly (by norm_num) q y
  refine ⟨p.coeff 0, p.coeff 1, p.coeff 2, p.coeff 3, ?_⟩
  rw [p.as_sum_range' 4 hp]
  simp [Finset.sum_range_succ, ← C_mul_X_pow_eq_monomial]

theorem Ext.zero2 [Nontrivial K] {q : K} {y0 y1 : K}
    (h : Ext.of 2 q y0 + Ext.of 2 q y1 * Ext.x 2 q = 0) : y0 = 0 ∧ y1 = 0 := by
  have h0 := Ext.coeffs_zero (n := 2) (by norm_num) q (C y0 + C y1 * X) (by
    have h1 : (C y0 + C y1 * X : K[X]).natDegree ≤ 1 := by compute_degree
    omega) (by simpa using h)
  exact ⟨by simpa using congrArg (coeff · 0) h0, by simpa using congrArg (coeff · 1) h0⟩

theorem Ext.zero3 [Nontrivial K] {q : K} {y0 y1 y2 : K}
    (h : Ext.of 3 q y0 + Ext.of 3 q y1 * Ext.x 3 q + Ext.of 3 q y2 * Ext.x 3 q ^ 2 = 0) :
    y0 = 0 ∧ y1 = 0 ∧ y2 = 0 := by
  have h0 := Ext.coeffs_zero (n := 3) (by norm_num) q (C y0 + C y1 * X + C y2 * X ^ 2) (by
    have h1 : (C y0 + C y1 * X + C y2 * X ^ 2 : K[X]).natDegree ≤ 2 := by compute_degree
    omega) (by simpa using h)
  refine ⟨by simpa using congrArg (coeff · 0) h0, ?_, ?_⟩
  · have := congrArg (coeff · 1) h0
    simpa [coeff_X_pow, coeff_C] using this
  · have := congrArg (coeff · 2) h0
    simpa [coeff_X_pow, coeff_C, coeff_X] using this

theorem Ext.zero4 [Nontrivial K] {q : K} {y0 y1 y2 y3 : K}
    (h : Ext.of 4 q y0 + Ext.of 4 q y1 * Ext.x 4 q + Ext.of 4 q y2 * Ext.x 4 q ^ 2
      + Ext.of 4 q y3 * Ext.x 4 q ^ 3 = 0) :
    y0 = 0 ∧ y1 = 0 ∧ y2 = 0 ∧ y3 = 0 := by
  have h0 := Ext.coeffs_zero (n := 4) (by norm_num) q
    (C y0 + C y1 * X + C y2 * X ^ 2 + C y3 * X ^ 3) (by
    have h1 : (C y0 + C y1 * X + C y2 * X ^ 2 + C y3 * X ^ 3 : K[X]).natDegree ≤ 3 := by
      compute_degree
    omega) (by simpa using h)
  refine ⟨by simpa using congrArg (coeff · 0) h0, ?_, ?_, ?_⟩
  · have := congrArg (coeff · 1) h0
    simpa [coeff_X_pow, coeff_C] using this
  · have := congrArg (coeff · 2) h0
    simpa [coeff_X_pow, coeff_C, coeff_X] using this
  · have := congrArg (coeff · 3) h0
    simpa [coeff_X_pow, coeff_C, coeff_X] using this

theorem Ext.inj2 [Nontrivial K] {q : K} {y0 y1 z0 z1 : K}
    (h : Ext.of 2 q y0 + Ext.of 2 q y1 * Ext.x 2 q = Ext.of 2 q z0 + Ext.of 2 q z1 * Ext.x 2 q) :
    y0 = z0 ∧ y1 = z1 := by
  have := Ext.zero2 (q := q) (y0 := y0 - z0) (y1 := y1 - z1) (by
    rw [map_sub, map_sub]; linear_combination h)
  exact ⟨sub_eq_zero.1 this.1, sub_eq_zero.1 this.2⟩

theorem Ext.inj3 [Nontrivial K] {q : K} {y0 y1 y2 z0 z1 z2 : K}
    (h : Ext.of 3 q y0 + Ext.of 3 q y1 * Ext.x 3 q + Ext.of 3 q y2 * Ext.x 3 q ^ 2
      = Ext.of 3 q z0 + Ext.of 3 q z1 * Ext.x 3 q + Ext.of 3 q z2 * Ext.x 3 q ^ 2) :
    y0 = z0 ∧ y1 = z1 ∧ y2 = z2 := by
  have := Ext.zero3 (q := q) (y0 := y0 - z0) (y1 := y1 - z1) (y2 := y2 - z2) (by
    simp only [map_sub]; linear_combination h)
  exact ⟨sub_eq_zero.1 this.1, sub_eq_zero.1 this.2.1, sub_eq_zero.1 this.2.2⟩

theorem Ext.inj4 [Nontrivial K] {q : K} {y0 y1 y2 y3 z0 z1 z2 z3 : K}
    (h : Ext.of 4 q y0 + Ext.of 4 q y1 * Ext.x 4 q + Ext.of 4 q y2 * Ext.x 4 q ^ 2
        + Ext.of 4 q y3 * Ext.x 4 q ^ 3
      = Ext.of 4 q z0 + Ext.of 4 q z1 * Ext.x 4 q + Ext.of 4 q z2 * Ext.x 4 q ^ 2
        + Ext.of 4 q z3 * Ext.x 4 q ^ 3) :
    y0 = z0 ∧ y1 = z1 ∧ y2 = z2 ∧ y3 = z3 := by
  have := Ext.zero4 (q := q) (y0 := y0 - z0) (y1 := y1 - z1) (y2 := y2 - z2) (y3 := y3 - z3) (by
    simp only [map_sub]; linear_combination h)
  exact ⟨sub_eq_zero.1 this.1, sub_eq_zero.1 this.2.1, sub_eq_zero.1 this.2.2.1,
    sub_eq_zero.1 this.2.2.2⟩

theorem Ext.of_injective [Nontrivial K] {n : ℕ} (hn : n ≠ 0) (q : K) :
    Function.Injective (Ext.of n q) := by
  rw [injective_iff_map_eq_zero]
  intro a h
  have h0 := Ext.coeffs_zero hn q (C a) (by simpa using Nat.pos_of_ne_zero hn) h
  exact C_eq_zero.1 h0

theorem Ext.nontrivial [Nontrivial K] {n : ℕ} (hn : n ≠ 0) (q : K) : Nontrivial (Ext n q) :=
  (Ext.of_injective hn q).nontrivial

end Tachyon
