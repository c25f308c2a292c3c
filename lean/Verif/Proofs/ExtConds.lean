import Verif.Proofs.ExtNorm
import Verif.Proofs.Ext4
/-! The generated tables satisfy the conditions of the norm and inversion theorems, and the extensions
by non-residues are fields. -/
namespace Tachyon
open Polynomial

section Fields
variable {K : Type*} [Field K] {q : K}

theorem Ext2.isUnit_of_ne_zero (hq : ¬ IsSquare q) {x : Ext 2 q} (hx : x ≠ 0) : IsUnit x := by
  have hi : Irreducible (X ^ 2 - C q : K[X]) :=
    X_pow_sub_C_irreducible_of_prime Nat.prime_two fun b hb => hq ⟨b, by rw [← hb, sq]⟩
  have : Fact (Irreducible (X ^ 2 - C q : K[X])) := ⟨hi⟩
  exact Ne.isUnit hx

theorem Ext3.isUnit_of_ne_zero (hq : ∀ b, b ^ 3 ≠ q) {x : Ext 3 q} (hx : x ≠ 0) : IsUnit x := by
  have hi : Irreducible (X ^ 3 - C q : K[X]) :=
    X_pow_sub_C_irreducible_of_prime Nat.prime_three hq
  have : Fact (Irreducible (X ^ 3 - C q : K[X])) := ⟨hi⟩
  exact Ne.isUnit hx

theorem sq_sub_ne_zero (hq : ¬ IsSquare q) {a b : K} (h : a * a - q * (b * b) = 0) :
    a = 0 ∧ b = 0 := by
  by_cases hb : b = 0
  · subst hb
    simpa using h
  · refine absurd ⟨a / b, ?_⟩ hq
    field_simp
    linear_combination -h

theorem Ext4.isUnit_of_ne_zero (hq : ¬ IsSquare q) {w : K} (hw : w ^ 2 = -1) {x : Ext 4 q}
    (hx : x ≠ 0) : IsUnit x := by
  obtain ⟨x0, x1, x2, x3, rfl⟩ := Ext.exists4 q x
  rw [isUnit_iff, isUnit_iff_ne_zero]
  intro h
  apply hx
  obtain ⟨hA, hB⟩ := sq_sub_ne_zero hq h
  simp only [normA, normB] at hA hB
  have key : (x0 * x0 - q * (x2 * x2)) * (x0 * x0 - q * (x2 * x2)) -
      q * ((w * (x1 * x1 - q * (x3 * x3))) * (w * (x1 * x1 - q * (x3 * x3)))) = 0 := by
    linear_combination (-(q * (x1 * x1 - q * (x3 * x3)) ^ 2)) * hw
      + (x0 * x0 + q * (x2 * x2) + 2 * q * (x1 * x3)) * hA
      - (q * (2 * (x0 * x2) + x1 * x1 + q * (x3 * x3))) * hB
  obtain ⟨k1, k2⟩ := sq_sub_ne_zero hq key
  have hw0 : w ≠ 0 := by rintro rfl; norm_num at hw
  obtain ⟨rfl, rfl⟩ := sq_sub_ne_zero hq k1
  obtain ⟨rfl, rfl⟩ := sq_sub_ne_zero hq ((mul_eq_zero.1 k2).resolve_left hw0)
  simp

/-- A cube root of unity other than 1. -/
theorem cube_root_rel {w : K} (h3 : w ^ 3 = 1) (h1 : w ≠ 1) : w ^ 2 + w + 1 = 0 := by
  have : (w - 1) * (w ^ 2 + w + 1) = 0 := by linear_combination h3
  exact (mul_eq_zero.1 this).resolve_left (sub_ne_zero.2 h1)

/-- A non-cube raised to `(Q-1)/3` is a primitive cube root of unity. -/
theorem noncube_root [Finite K] {Q : ℕ} (hc : Nat.card K = Q) (h3 : 3 ∣ Q - 1) (hQ : 1 < Q)
    (hq : ∀ b, b ^ 3 ≠ q) : (q ^ ((Q - 1) / 3)) ^ 2 + q ^ ((Q - 1) / 3) + 1 = 0 := by
  have hq0 : q ≠ 0 := by rintro rfl; exact hq 0 (by simp)
  refine cube_root_rel ?_ fun h => ?_
  · rw [← pow_mul, Nat.div_mul_cancel h3, ← hc]
    have := Fintype.ofFinite K
    rw [Nat.card_eq_fintype_card]
    exact FiniteField.pow_card_sub_one_eq_one q hq0
  · obtain ⟨b, hb⟩ := exists_root_of_pow_eq_one hc h3 hQ hq0 h
    exact hq b hb

theorem sq_eq_one_iff_of_ne_zero {x : K} (h : x ^ 2 = 1) : x = 1 ∨ x = -1 := by
  have : (x - 1) * (x + 1) = 0 := by linear_combination h
  rcases mul_eq_zero.1 this with h | h
  · exact Or.inl (sub_eq_zero.1 h)
  · exact Or.inr (eq_neg_of_add_eq_zero_left h)

/-- A non-square raised to `(Q-1)/2` is -1. -/
theorem nonsquare_root [Finite K] {Q : ℕ} (hc : Nat.card K = Q) (h2 : 2 ∣ Q - 1) (hQ : 1 < Q)
    (hq : ¬ IsSquare q) : q ^ ((Q - 1) / 2) = -1 := by
  have hq0 : q ≠ 0 := by rintro rfl; exact hq IsSquare.zero
  have h1 : (q ^ ((Q - 1) / 2)) ^ 2 = 1 := by
    rw [← pow_mul, Nat.div_mul_cancel h2, ← hc]
    have := Fintype.ofFinite K
    rw [Nat.card_eq_fintype_card]
    exact FiniteField.pow_card_sub_one_eq_one q hq0
  rcases sq_eq_one_iff_of_ne_zero h1 with h | h
  · obtain ⟨b, hb⟩ := exists_root_of_pow_eq_one hc h2 hQ hq0 h
    exact absurd ⟨b, by rw [← hb, sq]⟩ hq
  · exact h

end Fields

section Prime
variable {α : Type*} {p : ℕ} [hpf : Fact p.Prime] {o : FieldOps α} {R : α → ZMod p → Prop}

omit hpf in
theorem card_zmod : Nat.card (ZMod p) = p := Nat.card_zmod p

theorem fp4Quartic_conj (h : o.Implements R) (hf : ∀ e a, o.frobenius e a = a) {q : ZMod p}
    (hq : ¬ IsSquare q) (h4 : 4 ∣ p - 1) {N : ℕ} (hN : p < 2 ^ (64 * N)) {qa : α} (hqa : R qa q)
    (nr : α → α) :
    Ext4.ConjRel o R (fp4QuarticConfig o nr qa p N) (q ^ ((p - 1) / 4)) := by
  have hp1 := hpf.out.one_lt
  have hpw : ∀ j, q ^ ((p ^ j - 1) / 4) = (q ^ ((p - 1) / 4)) ^ j :=
    pow_table_pow hpf.out.pos h4 (ZMod.pow_card q)
  have ht : ∀ {k j : ℕ}, j = 1 ∨ j = 2 ∨ j = 3 → k ≤ 4 → ∀ {a x}, R a x →
      R (o.mul a (frobCoeff o qa p N 4 k (j * 1 % 4))) (x * (q ^ ((p - 1) / 4)) ^ (k * j)) := by
    intro k j hj hk a x hx
    have hj' : j * 1 % 4 = j := by omega
    have := h.mul hx (frobCoeff_rel h hqa hN hpf.out.pos hk j)
    rw [hj']
    rwa [Nat.mul_comm k, pow_mul, hpw, ← pow_mul, Nat.mul_comm j] at this
  refine ⟨?_, fun _ => by intro a x hx; rw [hf]; exact hx, ?_, fun hj => ht hj (by norm_num),
    fun hj => ht hj (by norm_num)⟩
  · rw [← pow_mul, ← nonsquare_root card_zmod ((by norm_num : 2 ∣ 4).trans h4) hp1 hq]
    congr 1; omega
  · intro j hj a x hx
    have := ht (k := 1) hj (by norm_num) hx
    rwa [one_mul] at this

theorem fp3_conj (h : o.Implements R) (hf : ∀ e a, o.frobenius e a = a) {q : ZMod p}
    (hq : ∀ b, b ^ 3 ≠ q) (h3 : 3 ∣ p - 1) {N : ℕ} (hN : p < 2 ^ (64 * N)) {qa : α} (hqa : R qa q)
    (nr : α → α) :
    Ext3.ConjRel o R (fp3Config o nr qa p N) (q ^ ((p - 1) / 3)) := by
  have hp1 := hpf.out.one_lt
  have hpw : ∀ j, q ^ ((p ^ j - 1) / 3) = (q ^ ((p - 1) / 3)) ^ j :=
    pow_table_pow hpf.out.pos h3 (ZMod.pow_card q)
  have ht : ∀ {k j : ℕ}, j = 1 ∨ j = 2 → k ≤ 3 → ∀ {a x}, R a x →
      R (o.mul a (frobCoeff o qa p N 3 k (j * 1 % 3))) (x * (q ^ ((p - 1) / 3)) ^ (k * j)) := by
    intro k j hj hk a x hx
    have hj' : j * 1 % 3 = j := by omega
    have := h.mul hx (frobCoeff_rel h hqa hN hpf.out.pos hk j)
    rw [hj']
    rwa [Nat.mul_comm k, pow_mul, hpw, ← pow_mul, Nat.mul_comm j] at this
  refine ⟨noncube_root card_zmod h3 hp1 hq, fun _ => by intro a x hx; rw [hf]; exact hx, ?_,
    fun hj => ht hj (by norm_num)⟩
  intro j hj a x hx
  have := ht (k := 1) hj (by norm_num) hx
  rwa [one_mul] at this

/-! ### Over `F_p[X] / (X² - q2)` -/

noncomputable instance ext2Field {q2 : ZMod p} [Fact (¬ IsSquare q2)] : Field (Ext 2 q2) :=
  have : Fact (Irreducible (X ^ 2 - C q2 : (ZMod p)[X])) := ⟨ext2_irreducible Fact.out⟩
  AdjoinRoot.instField

theorem card_ext2 (q2 : ZMod p) : Nat.card (Ext 2 q2) = p ^ 2 := by
  have e : Function.Bijective (fun y : ZMod p × ZMod p =>
      (Ext.of 2 q2 y.1 + Ext.of 2 q2 y.2 * Ext.x 2 q2 : Ext 2 q2)) := by
    constructor
    · rintro ⟨a, b⟩ ⟨c, d⟩ h
      obtain ⟨h1, h2⟩ := Ext.inj2 h
      exact Prod.ext h1 h2
    · intro y
      obtain ⟨y0, y1, rfl⟩ := Ext.exists2 q2 y
      exact ⟨(y0, y1), rfl⟩
  rw [← Nat.card_eq_of_bijective _ e, Nat.card_prod, card_zmod, sq]

theorem finite_ext2 (q2 : ZMod p) : Finite (Ext 2 q2) :=
  Nat.finite_of_card_ne_zero (by rw [card_ext2]; exact (Nat.pow_pos hpf.out.pos).ne')

theorem noncube_root_ext2 {q2 : ZMod p} (hq2 : ¬ IsSquare q2) (h3 : 3 ∣ p - 1) {q6 : Ext 2 q2}
    (hq6 : ∀ b, b ^ 3 ≠ q6) :
    (q6 ^ ((p ^ 2 - 1) / 3)) ^ 2 + q6 ^ ((p ^ 2 - 1) / 3) + 1 = 0 := by
  have : Fact (¬ IsSquare q2) := ⟨hq2⟩
  have := finite_ext2 q2
  exact noncube_root (card_ext2 q2) (dvd_pow_sub_one h3 2)
    (Nat.one_lt_pow (by norm_num) hpf.out.one_lt) hq6

theorem nonsquare_root_ext2 {q2 : ZMod p} (hq2 : ¬ IsSquare q2) {q6 : Ext 2 q2}
    (hq6 : ¬ IsSquare q6) : q6 ^ ((p ^ 2 - 1) / 2) = -1 := by
  have : Fact (¬ IsSquare q2) := ⟨hq2⟩
  have := finite_ext2 q2
  exact nonsquare_root (card_ext2 q2) (dvd_pow_sub_one (odd_of_not_isSquare hq2) 2)
    (Nat.one_lt_pow (by norm_num) hpf.out.one_lt) hq6

/-- `q6^((p²-1)/6)` is a primitive sixth root of unity. -/
theorem gamma_rel {q2 : ZMod p} (hq2 : ¬ IsSquare q2) (h6 : 6 ∣ p - 1) {q6 : Ext 2 q2}
    (hs : ¬ IsSquare q6) (hc : ∀ b, b ^ 3 ≠ q6) :
    (q6 ^ ((p ^ 2 - 1) / 6)) ^ 2 - q6 ^ ((p ^ 2 - 1) / 6) + 1 = 0 := by
  have h3 : 3 ∣ p - 1 := (by norm_num : 3 ∣ 6).trans h6
  obtain ⟨c, hc'⟩ := dvd_pow_sub_one h6 2
  have e1 := noncube_root_ext2 hq2 h3 hc
  have e2 := nonsquare_root_ext2 hq2 hs
  rw [hc'] at e1 e2 ⊢
  rw [show 6 * c / 3 = c * 2 by omega, pow_mul] at e1
  rw [show 6 * c / 2 = c * 3 by omega, pow_mul] at e2
  rw [show 6 * c / 6 = c by omega]
  -- g^4 + g^2 + 1 = 0 and g^3 = -1
  linear_combination e1 - q6 ^ c * e2

theorem fp6Cubic_conj (h : o.Implements R) (hf : ∀ e a, o.frobenius e a = a) {q2 : ZMod p}
    (hq2 : ¬ IsSquare q2) (h3 : 3 ∣ p - 1) {N : ℕ} (hN : p < 2 ^ (64 * N)) (nr2 : α → α)
    (hnr2 : ∀ {a x}, R a x → R (nr2 a) (q2 * x)) (m2 : Bool) (hm2 : m2 = true → q2 = -1)
    {q6 : Ext 2 q2} (hq6 : ∀ b, b ^ 3 ≠ q6) {qa : Ext2 α} (hqa : Ext2.Rel R q2 qa q6)
    (nr6 : Ext2 α → Ext2 α) :
    Ext3.ConjRel (Ext2.ops o (fp2Config o nr2 m2)) (Ext2.Rel R q2)
      (fp6CubicConfig (Ext2.ops o (fp2Config o nr2 m2)) nr6 qa p N) (q6 ^ ((p ^ 2 - 1) / 3)) := by
  have h' := Ext2.implements (cfg := fp2Config o nr2 m2) h hnr2 hm2
  have hpp : 0 < p ^ 2 := Nat.pow_pos hpf.out.pos
  have hpw : ∀ j, q6 ^ (((p ^ 2) ^ j - 1) / 3) = (q6 ^ ((p ^ 2 - 1) / 3)) ^ j :=
    pow_table_pow hpp (dvd_pow_sub_one h3 2) (ext2_fixed hq2 q6)
  have ht : ∀ {k j : ℕ}, j = 1 ∨ j = 2 → k ≤ 3 → ∀ {a x}, Ext2.Rel R q2 a x →
      Ext2.Rel R q2 ((Ext2.ops o (fp2Config o nr2 m2)).mul a
        (frobCoeff (Ext2.ops o (fp2Config o nr2 m2)) qa p N 3 k (j * 2 % 6)))
        (x * (q6 ^ ((p ^ 2 - 1) / 3)) ^ (k * j)) := by
    intro k j hj hk a x hx
    have hj' : j * 2 % 6 = 2 * j := by omega
    have := h'.mul hx (frobCoeff_rel h' hqa hN hpf.out.pos hk (2 * j))
    rw [hj']
    rwa [Nat.mul_comm k, pow_mul p, pow_mul, hpw, ← pow_mul, Nat.mul_comm j] at this
  refine ⟨noncube_root_ext2 hq2 h3 hq6, ?_, ?_, fun hj => ht hj (by norm_num)⟩
  · intro j hj a x hx
    have := fp2_frob h hf hq2 nr2 m2 (j * 2) hx
    have e : x ^ p ^ (j * 2) = x := by
      rcases hj with rfl | rfl
      · exact ext2_fixed hq2 x
      · rw [show 2 * 2 = 2 + 2 from rfl, pow_add, pow_mul, ext2_fixed hq2, ext2_fixed hq2]
    rw [e] at this
    exact this
  · intro j hj a x hx
    have := ht (k := 1) hj (by norm_num) hx
    rwa [one_mul] at this

end Prime
end Tachyon
