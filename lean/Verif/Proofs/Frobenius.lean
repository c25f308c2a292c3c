import Verif.Proofs.Ext2
import Verif.Proofs.Ext3
import Verif.Proofs.Ext4
import Mathlib.Algebra.CharP.Lemmas
import Mathlib.Algebra.CharP.Algebra
import Mathlib.FieldTheory.Finite.Basic
/-! Raising to the power `p^e` in `K[X] / (X^n - q)`. -/
namespace Tachyon
open Polynomial

section Numbers

theorem dvd_pow_sub_one {n p : ℕ} (h : n ∣ p - 1) (e : ℕ) : n ∣ p ^ e - 1 :=
  h.trans (by simpa using Nat.sub_dvd_pow_sub_pow p 1 e)

/-- `((p^e)^m - 1) / n` is a multiple of `(p^e - 1) / n`. -/
theorem pow_div_dvd {n Q : ℕ} (hn : 0 < n) (h : n ∣ Q - 1) (m : ℕ) :
    (Q - 1) / n ∣ (Q ^ m - 1) / n := by
  have h2 : Q - 1 ∣ Q ^ m - 1 := by simpa using Nat.sub_dvd_pow_sub_pow Q 1 m
  obtain ⟨c, hc⟩ := h
  obtain ⟨t, ht⟩ := h2
  rw [ht, hc, Nat.mul_assoc, Nat.mul_div_cancel_left _ hn, Nat.mul_div_cancel_left _ hn]
  exact ⟨t, rfl⟩

theorem sub_one_dvd_pow_div {n Q : ℕ} (hQ : 0 < Q) (h : n ∣ Q - 1) :
    (Q - 1) ∣ (Q ^ n - 1) / n := by
  rcases Nat.eq_zero_or_pos n with rfl | hn
  · simp
  obtain ⟨m, rfl⟩ : ∃ m, Q = m + 1 := ⟨Q - 1, by omega⟩
  rw [Nat.add_sub_cancel] at *
  have key : ∀ k, ∃ c, (m + 1) ^ k = 1 + k * m + c * (m * m) := by
    intro k
    induction k with
    | zero => exact ⟨0, by simp⟩
    | succ k ih =>
      obtain ⟨c, hc⟩ := ih
      exact ⟨k + c * m + c, by rw [pow_succ, hc]; ring⟩
  obtain ⟨c, hc⟩ := key n
  obtain ⟨t, rfl⟩ := h
  refine ⟨1 + c * t, ?_⟩
  apply Nat.div_eq_of_eq_mul_right hn
  rw [hc, show 1 + n * (n * t) + c * (n * t * (n * t)) = 1 + n * (n * t * (1 + c * t)) by ring]
  omega

variable {M : Type*} [Monoid M]

theorem pow_table_mod {a : M} {p n D : ℕ} (hp : 0 < p) (hn : 0 < n) (h : n ∣ p - 1)
    (hD : a ^ ((p ^ D - 1) / n) = 1) (e : ℕ) :
    a ^ ((p ^ e - 1) / n) = a ^ ((p ^ (e % D) - 1) / n) := by
  have e1 : p ^ e - 1 = p ^ (e % D) * (p ^ (D * (e / D)) - 1) + (p ^ (e % D) - 1) := by
    conv_lhs => rw [← Nat.mod_add_div e D, pow_add]
    have h1 : 0 < p ^ (e % D) := Nat.pow_pos hp
    have h2 : 0 < p ^ (D * (e / D)) := Nat.pow_pos hp
    rw [Nat.mul_sub, Nat.mul_one]
    have := Nat.le_mul_of_pos_right (p ^ (e % D)) h2
    omega
  have d1 : n ∣ p ^ D - 1 := dvd_pow_sub_one h D
  have d2 : (p ^ D - 1) / n ∣ (p ^ (D * (e / D)) - 1) / n := by
    rw [pow_mul]; exact pow_div_dvd hn d1 _
  obtain ⟨c, hc⟩ := d2
  have d3 := dvd_pow_sub_one h (D * (e / D))
  rw [e1, Nat.add_div_of_dvd_right (d3.mul_left _), Nat.mul_div_assoc _ d3, hc, pow_add,
    Nat.mul_comm, Nat.mul_assoc, pow_mul, hD, one_pow, one_mul]

end Numbers

section Ring
variable {K : Type*} [CommRing K]

theorem Ext.charP [Nontrivial K] {n : ℕ} (hn : n ≠ 0) (q : K) (p : ℕ) [CharP K p] :
    CharP (Ext n q) p :=
  charP_of_injective_ringHom (Ext.of_injective hn q) p

/-- `X^(p^e) = q^((p^e - 1) / n) X`. -/
theorem Ext.x_pow_frob {n p : ℕ} (hp : 0 < p) (h : n ∣ p - 1) (q : K) (e : ℕ) :
    Ext.x n q ^ p ^ e = Ext.of n q (q ^ ((p ^ e - 1) / n)) * Ext.x n q := by
  obtain ⟨c, hc⟩ := dvd_pow_sub_one h e
  have h1 : 0 < p ^ e := Nat.pow_pos hp
  rcases Nat.eq_zero_or_pos n with rfl | hn
  · rw [show p ^ e = 1 by omega]; simp
  rw [hc, Nat.mul_div_cancel_left _ hn, map_pow, ← Ext.x_pow, ← pow_mul, ← hc, ← pow_succ,
    Nat.sub_add_cancel h1]

variable [Nontrivial K] {p : ℕ} [hpf : Fact p.Prime] [CharP K p]

theorem Ext.frob2 (h : 2 ∣ p - 1) (q y0 y1 : K) (e : ℕ) :
    (Ext.of 2 q y0 + Ext.of 2 q y1 * Ext.x 2 q) ^ p ^ e
      = Ext.of 2 q (y0 ^ p ^ e) + Ext.of 2 q (y1 ^ p ^ e * q ^ ((p ^ e - 1) / 2)) * Ext.x 2 q := by
  have := Ext.charP (n := 2) (by norm_num) q p
  rw [add_pow_char_pow, mul_pow, Ext.x_pow_frob hpf.out.pos h]
  simp only [map_mul, map_pow]
  ring

theorem Ext.frob3 (h : 3 ∣ p - 1) (q y0 y1 y2 : K) (e : ℕ) :
    (Ext.of 3 q y0 + Ext.of 3 q y1 * Ext.x 3 q + Ext.of 3 q y2 * Ext.x 3 q ^ 2) ^ p ^ e
      = Ext.of 3 q (y0 ^ p ^ e) + Ext.of 3 q (y1 ^ p ^ e * q ^ ((p ^ e - 1) / 3)) * Ext.x 3 q
        + Ext.of 3 q (y2 ^ p ^ e * q ^ (2 * ((p ^ e - 1) / 3))) * Ext.x 3 q ^ 2 := by
  have := Ext.charP (n := 3) (by norm_num) q p
  rw [add_pow_char_pow, add_pow_char_pow, mul_pow, mul_pow, ← pow_mul, Nat.mul_comm 2, pow_mul,
    Ext.x_pow_frob hpf.out.pos h]
  simp only [map_mul, map_pow]
  ring

theorem Ext.frob4 (h : 4 ∣ p - 1) (q y0 y1 y2 y3 : K) (e : ℕ) :
    (Ext.of 4 q y0 + Ext.of 4 q y1 * Ext.x 4 q + Ext.of 4 q y2 * Ext.x 4 q ^ 2
        + Ext.of 4 q y3 * Ext.x 4 q ^ 3) ^ p ^ e
      = Ext.of 4 q (y0 ^ p ^ e) + Ext.of 4 q (y1 ^ p ^ e * q ^ ((p ^ e - 1) / 4)) * Ext.x 4 q
        + Ext.of 4 q (y2 ^ p ^ e * q ^ (2 * ((p ^ e - 1) / 4))) * Ext.x 4 q ^ 2
        + Ext.of 4 q (y3 ^ p ^ e * q ^ (3 * ((p ^ e - 1) / 4))) * Ext.x 4 q ^ 3 := by
  have := Ext.charP (n := 4) (by norm_num) q p
  rw [add_pow_char_pow, add_pow_char_pow, add_pow_char_pow, mul_pow, mul_pow, mul_pow, ← pow_mul,
    ← pow_mul, Nat.mul_comm 2, pow_mul, Nat.mul_comm 3, pow_mul, Ext.x_pow_frob hpf.out.pos h]
  simp only [map_mul, map_pow]
  ring

variable {α : Type*} {o : FieldOps α} {R : α → K → Prop} {q : K}

theorem Ext2.frobenius_rel {cfg : Ext2Config α} (h : 2 ∣ p - 1) (hb : o.ImplementsFrobenius R p)
    (hD : q ^ ((p ^ cfg.degree - 1) / 2) = 1) (hd : 0 < cfg.degree)
    (ht : ∀ e < cfg.degree, ∀ {a x}, R a x → R (cfg.frobMul a e) (x * q ^ ((p ^ e - 1) / 2))) :
    (Ext2.ops o cfg).ImplementsFrobenius (Ext2.Rel R q) p := by
  rintro e a _ ⟨y0, y1, h0, h1, rfl⟩
  rw [Ext.frob2 h, pow_table_mod hpf.out.pos (by norm_num) h hD e]
  exact ⟨_, _, hb e h0, ht _ (Nat.mod_lt _ hd) (hb e h1), rfl⟩

theorem Ext3.frobenius_rel {cfg : Ext3Config α} (h : 3 ∣ p - 1) (hb : o.ImplementsFrobenius R p)
    (hD : q ^ ((p ^ cfg.degree - 1) / 3) = 1) (hd : 0 < cfg.degree)
    (ht : ∀ e < cfg.degree, ∀ {a x}, R a x → R (cfg.frobMul a e) (x * q ^ ((p ^ e - 1) / 3)))
    (ht2 : ∀ e < cfg.degree, ∀ {a x}, R a x →
      R (cfg.frobMul2 a e) (x * q ^ (2 * ((p ^ e - 1) / 3)))) :
    (Ext3.ops o cfg).ImplementsFrobenius (Ext3.Rel R q) p := by
  rintro e a _ ⟨y0, y1, y2, h0, h1, h2, rfl⟩
  have hm := pow_table_mod hpf.out.pos (by norm_num) h hD e
  rw [Ext.frob3 h, Nat.mul_comm 2, pow_mul, hm, ← pow_mul, Nat.mul_comm _ 2]
  exact ⟨_, _, _, hb e h0, ht _ (Nat.mod_lt _ hd) (hb e h1), ht2 _ (Nat.mod_lt _ hd) (hb e h2), rfl⟩

theorem Ext4.frobenius_rel {cfg : Ext4Config α} (h : 4 ∣ p - 1)
    (hb : o.ImplementsFrobenius R p)
    (hD : q ^ ((p ^ cfg.degree - 1) / 4) = 1) (hd : 0 < cfg.degree)
    (ht : ∀ e < cfg.degree, ∀ {a x}, R a x → R (cfg.frobMul a e) (x * q ^ ((p ^ e - 1) / 4)))
    (ht2 : ∀ e < cfg.degree, ∀ {a x}, R a x →
      R (cfg.frobMul2 a e) (x * q ^ (2 * ((p ^ e - 1) / 4))))
    (ht3 : ∀ e < cfg.degree, ∀ {a x}, R a x →
      R (cfg.frobMul3 a e) (x * q ^ (3 * ((p ^ e - 1) / 4)))) (e : ℕ) {a x}
    (ha : Ext4.Rel R q a x) : Ext4.Rel R q (Ext4.frobenius o cfg e a) (x ^ p ^ e) := by
  obtain ⟨y0, y1, y2, y3, h0, h1, h2, h3, rfl⟩ := ha
  have hm := pow_table_mod hpf.out.pos (by norm_num) h hD e
  rw [Ext.frob4 h, Nat.mul_comm 2, pow_mul, Nat.mul_comm 3, pow_mul, hm, ← pow_mul,
    Nat.mul_comm _ 2, ← pow_mul, Nat.mul_comm _ 3]
  exact ⟨_, _, _, _, hb e h0, ht _ (Nat.mod_lt _ hd) (hb e h1),
    ht2 _ (Nat.mod_lt _ hd) (hb e h2), ht3 _ (Nat.mod_lt _ hd) (hb e h3), rfl⟩

end Ring
end Tachyon
