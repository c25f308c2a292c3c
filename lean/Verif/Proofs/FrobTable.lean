import Verif.Proofs.Frobenius
import Verif.Model.Frobenius
import Verif.Proofs.Pow
import Mathlib.NumberTheory.LegendreSymbol.Basic
/-! The Frobenius coefficient tables of the generated towers. -/
namespace Tachyon
open Polynomial BigInt

variable {α K : Type*} [CommRing K] {o : FieldOps α} {R : α → K → Prop}

theorem FieldOps.Implements.toMulOps (h : o.Implements R) : o.toMulOps.Implements R :=
  ⟨h.one, h.mul, h.square⟩

theorem limbsVal_copyLimbs {len v : ℕ} (h : v < 2 ^ (64 * len)) : limbsVal (copyLimbs len v) = v := by
  unfold copyLimbs
  rw [limbsVal_digits v _ len (fun i _ => by
    rw [BitVec.toNat_ofNat, Nat.shiftRight_eq_div_pow]), Nat.mod_eq_of_lt h]

theorem frobCoeff_rel (h : o.Implements R) {qa : α} {q : K} (hq : R qa q) {p N n k : ℕ}
    (hp : p < 2 ^ (64 * N)) (hp0 : 0 < p) (hk : k ≤ n) (d : ℕ) :
    R (frobCoeff o qa p N n k d) (q ^ (k * ((p ^ d - 1) / n))) := by
  unfold frobCoeff
  split
  · subst d
    simpa using h.one
  · rename_i hd
    have hlt : k * ((p ^ d - 1) / n) < 2 ^ (64 * (d * N)) := by
      calc k * ((p ^ d - 1) / n) ≤ n * ((p ^ d - 1) / n) := Nat.mul_le_mul_right _ hk
        _ ≤ p ^ d - 1 := Nat.mul_div_le _ _
        _ < p ^ d := by have := Nat.pow_pos (n := d) hp0; omega
        _ ≤ (2 ^ (64 * N)) ^ d := Nat.pow_le_pow_left hp.le d
        _ = 2 ^ (64 * (d * N)) := by rw [← pow_mul]; congr 1; ring
    have := doPow_rel h.toMulOps (by norm_num) hq (copyLimbs (d * N) (k * ((p ^ d - 1) / n)))
    rwa [limbsVal_copyLimbs hlt] at this

theorem Ext3.mulBase_rel (h : o.Implements R) {q : K} {a : Ext3 α} {x} {e : α} {y : K}
    (ha : Rel R q a x) (he : R e y) : Rel R q (mulBase o a e) (x * Ext.of 3 q y) := by
  obtain ⟨x0, x1, x2, h0, h1, h2, rfl⟩ := ha
  exact ⟨_, _, _, h.mul h0 he, h.mul h1 he, h.mul h2 he, by simp only [map_mul]; ring⟩

theorem Ext2.mulBase_rel (h : o.Implements R) {q : K} {a : Ext2 α} {x} {e : α} {y : K}
    (ha : Rel R q a x) (he : R e y) : Rel R q (mulBase o a e) (x * Ext.of 2 q y) := by
  obtain ⟨x0, x1, h0, h1, rfl⟩ := ha
  exact ⟨_, _, h.mul h0 he, h.mul h1 he, by simp only [map_mul]; ring⟩

theorem Ext4.mulBase_rel (h : o.Implements R) {q : K} {a : Ext4 α} {x} {e : α} {y : K}
    (ha : Rel R q a x) (he : R e y) : Rel R q (mulBase o a e) (x * Ext.of 4 q y) := by
  obtain ⟨x0, x1, x2, x3, h0, h1, h2, h3, rfl⟩ := ha
  exact ⟨_, _, _, _, h.mul h0 he, h.mul h1 he, h.mul h2 he, h.mul h3 he, by
    simp only [map_mul]; ring⟩

/-- `X` is a unit of `K[X] / (X^n - q)` when `q` is. -/
theorem Ext.isUnit_x {n : ℕ} (hn : n ≠ 0) {q : K} (hq : IsUnit q) : IsUnit (Ext.x n q) := by
  have : IsUnit (Ext.x n q ^ n) := by rw [Ext.x_pow]; exact hq.map _
  exact (isUnit_pow_iff hn).1 this

/-- The table of a quadratic extension of `K[X] / (X^m - q)` by the square root of `X`. -/
theorem Ext.x_table {m p : ℕ} (hm : 0 < m) (h : 2 * m ∣ p - 1) (q : K) (e : ℕ) :
    Ext.x m q ^ ((p ^ e - 1) / 2) = Ext.of m q (q ^ ((p ^ e - 1) / (2 * m))) := by
  obtain ⟨c, hc⟩ := dvd_pow_sub_one h e
  rw [hc, Nat.mul_div_cancel_left _ (by omega), Nat.mul_assoc, Nat.mul_div_cancel_left _ (by omega),
    pow_mul, Ext.x_pow, map_pow]

theorem pow_sub_one_eq_one {u : K} (hu : IsUnit u) {Q : ℕ} (hQ : 0 < Q) (h : u ^ Q = u) :
    u ^ (Q - 1) = 1 := by
  apply hu.mul_left_cancel
  rw [← pow_succ', Nat.sub_add_cancel hQ, h, mul_one]

theorem pow_table_top {u : K} (hu : IsUnit u) {Q n : ℕ} (hQ : 0 < Q) (h : u ^ Q = u)
    (hn : n ∣ Q - 1) : u ^ ((Q ^ n - 1) / n) = 1 := by
  obtain ⟨c, hc⟩ := sub_one_dvd_pow_div hQ hn
  rw [hc, pow_mul, pow_sub_one_eq_one hu hQ h, one_pow]

section Prime
variable {p : ℕ} [hpf : Fact p.Prime] {R : α → ZMod p → Prop}

theorem prime_frob (hf : ∀ e a, o.frobenius e a = a) : o.ImplementsFrobenius R p := by
  intro e a x hx
  rw [hf, ZMod.pow_card_pow]
  exact hx

theorem zmod_table_top {q : ZMod p} (hq : q ≠ 0) {n : ℕ} (hn : n ∣ p - 1) :
    q ^ ((p ^ n - 1) / n) = 1 :=
  pow_table_top hq.isUnit hpf.out.pos (ZMod.pow_card q) hn

theorem odd_of_not_isSquare {q : ZMod p} (hq : ¬ IsSquare q) : 2 ∣ p - 1 := by
  have h2 : p ≠ 2 := by
    rintro rfl
    exact hq (by revert q; rintro q _; fin_cases q <;> [exact ⟨0, rfl⟩; exact ⟨1, rfl⟩])
  have := hpf.out.eq_two_or_odd
  omega

/-- Every element of `F_p[X] / (X² - q)` is a root of `Y^(p²) - Y`. -/
theorem ext2_fixed {q : ZMod p} (hq : ¬ IsSquare q) (x : Ext 2 q) : x ^ p ^ 2 = x := by
  obtain ⟨y0, y1, rfl⟩ := Ext.exists2 q x
  have h2 := odd_of_not_isSquare hq
  have hq0 : q ≠ 0 := by rintro rfl; exact hq (IsSquare.zero)
  rw [Ext.frob2 (p := p) h2, ZMod.pow_card_pow, ZMod.pow_card_pow, zmod_table_top hq0 h2, mul_one]

theorem fp2_frob (h : o.Implements R) (hf : ∀ e a, o.frobenius e a = a) {q : ZMod p}
    (hq : ¬ IsSquare q) (nr : α → α) (m : Bool) :
    (Ext2.ops o (fp2Config o nr m)).ImplementsFrobenius (Ext2.Rel R q) p := by
  have h2 := odd_of_not_isSquare hq
  have hq0 : q ≠ 0 := by rintro rfl; exact hq (IsSquare.zero)
  refine Ext2.frobenius_rel h2 (prime_frob hf) (zmod_table_top hq0 h2) (Nat.succ_pos _) ?_
  intro e he a x hx
  have he' : e = 0 ∨ e = 1 := by change e < 2 at he; omega
  rcases he' with rfl | rfl
  · have := h.mul hx h.one
    simpa [fp2Config] using this
  · have := h.mul hx (h.neg h.one)
    have e1 : q ^ ((p ^ 1 - 1) / 2) = -1 := by
      have h3 := ZMod.pow_div_two_eq_neg_one_or_one p hq0
      have h4 := (ZMod.euler_criterion p hq0).not.1 hq
      rw [pow_one, show (p - 1) / 2 = p / 2 by omega]
      exact h3.resolve_left h4
    rw [e1]
    simpa [fp2Config] using this

theorem fp3_frob (h : o.Implements R) (hf : ∀ e a, o.frobenius e a = a) {q : ZMod p} (hq : q ≠ 0)
    (h3 : 3 ∣ p - 1) {N : ℕ} (hN : p < 2 ^ (64 * N)) {qa : α} (hqa : R qa q) (nr : α → α) :
    (Ext3.ops o (fp3Config o nr qa p N)).ImplementsFrobenius (Ext3.Rel R q) p := by
  refine Ext3.frobenius_rel h3 (prime_frob hf) (zmod_table_top hq h3) (Nat.succ_pos _) ?_ ?_
  · intro e _ a x hx
    have := h.mul hx (frobCoeff_rel h hqa hN hpf.out.pos (n := 3) (k := 1) (by omega) e)
    rwa [one_mul] at this
  · intro e _ a x hx
    exact h.mul hx (frobCoeff_rel h hqa hN hpf.out.pos (n := 3) (k := 2) (by omega) e)

theorem fp4Quartic_frob (h : o.Implements R) (hf : ∀ e a, o.frobenius e a = a) {q : ZMod p}
    (hq : q ≠ 0) (h4 : 4 ∣ p - 1) {N : ℕ} (hN : p < 2 ^ (64 * N)) {qa : α} (hqa : R qa q)
    (nr : α → α) (k : Ext4Consts α) :
    (Ext4.ops o (fp4QuarticConfig o nr qa p N) k).ImplementsFrobenius (Ext4.Rel R q) p := by
  refine Ext4.frobenius_rel h4 (prime_frob hf) (zmod_table_top hq h4) (Nat.succ_pos _) ?_ ?_ ?_
  · intro e _ a x hx
    have := h.mul hx (frobCoeff_rel h hqa hN hpf.out.pos (n := 4) (k := 1) (by omega) e)
    rwa [one_mul] at this
  · intro e _ a x hx
    exact h.mul hx (frobCoeff_rel h hqa hN hpf.out.pos (n := 4) (k := 2) (by omega) e)
  · intro e _ a x hx
    exact h.mul hx (frobCoeff_rel h hqa hN hpf.out.pos (n := 4) (k := 3) (by omega) e)

/-- Every element of `F_p[X] / (X³ - q)` is a root of `Y^(p³) - Y`. -/
theorem ext3_fixed {q : ZMod p} (hq : q ≠ 0) (h3 : 3 ∣ p - 1) (x : Ext 3 q) : x ^ p ^ 3 = x := by
  obtain ⟨y0, y1, y2, rfl⟩ := Ext.exists3 q x
  rw [Ext.frob3 (p := p) h3, ZMod.pow_card_pow, ZMod.pow_card_pow, ZMod.pow_card_pow,
    Nat.mul_comm 2, pow_mul, zmod_table_top hq h3, one_pow, mul_one, mul_one]

/-- The table of a quadratic extension by the square root of `X`, against the base non-residue. -/
theorem fp4_frob (h : o.Implements R) (hf : ∀ e a, o.frobenius e a = a) {q : ZMod p}
    (hq : ¬ IsSquare q) (h4 : 4 ∣ p - 1) {N : ℕ} (hN : p < 2 ^ (64 * N)) {qa : α} (hqa : R qa q)
    (nr2 : α → α) (m2 : Bool) (nr4 : Ext2 α → Ext2 α) (m4 : Bool) :
    (Ext2.ops (Ext2.ops o (fp2Config o nr2 m2)) (fp4Config o nr4 m4 qa p N)).ImplementsFrobenius
      (Ext2.Rel (Ext2.Rel R q) (Ext.x 2 q)) p := by
  have h2 := odd_of_not_isSquare hq
  have hq0 : q ≠ 0 := by rintro rfl; exact hq (IsSquare.zero)
  have := Ext.nontrivial (n := 2) (by norm_num) q
  have := Ext.charP (n := 2) (by norm_num) q p
  refine Ext2.frobenius_rel h2 (fp2_frob h hf hq nr2 m2) ?_ (Nat.succ_pos _) ?_
  · change Ext.x 2 q ^ ((p ^ 4 - 1) / 2) = 1
    rw [Ext.x_table (by norm_num) h4]
    rw [show 2 * 2 = 4 from rfl, zmod_table_top hq0 h4, map_one]
  · intro e _ a x hx
    rw [Ext.x_table (by norm_num) h4]
    have := Ext2.mulBase_rel h hx
      (frobCoeff_rel h hqa hN hpf.out.pos (n := 4) (k := 1) (by omega) e)
    rwa [one_mul] at this

theorem fp6_frob (h : o.Implements R) (hf : ∀ e a, o.frobenius e a = a) {q : ZMod p}
    (hq : q ≠ 0) (h6 : 6 ∣ p - 1) {N : ℕ} (hN : p < 2 ^ (64 * N)) {qa : α} (hqa : R qa q)
    (nr3 : α → α) (nr6 : Ext3 α → Ext3 α) (m6 : Bool) :
    (Ext2.ops (Ext3.ops o (fp3Config o nr3 qa p N))
      (fp6Config o nr6 m6 qa p N)).ImplementsFrobenius (Ext2.Rel (Ext3.Rel R q) (Ext.x 3 q)) p := by
  have h3 : 3 ∣ p - 1 := (by norm_num : 3 ∣ 6).trans h6
  have h2 : 2 ∣ p - 1 := (by norm_num : 2 ∣ 6).trans h6
  have := Ext.nontrivial (n := 3) (by norm_num) q
  have := Ext.charP (n := 3) (by norm_num) q p
  refine Ext2.frobenius_rel h2 (fp3_frob h hf hq h3 hN hqa nr3) ?_ (Nat.succ_pos _) ?_
  · change Ext.x 3 q ^ ((p ^ 6 - 1) / 2) = 1
    rw [Ext.x_table (by norm_num) h6]
    rw [show 2 * 3 = 6 from rfl, zmod_table_top hq h6, map_one]
  · intro e _ a x hx
    rw [Ext.x_table (by norm_num) h6]
    have := Ext3.mulBase_rel h hx
      (frobCoeff_rel h hqa hN hpf.out.pos (n := 6) (k := 1) (by omega) e)
    rwa [one_mul] at this

theorem fp6Cubic_frob (h : o.Implements R) (hf : ∀ e a, o.frobenius e a = a) {q2 : ZMod p}
    (hq2 : ¬ IsSquare q2) (h3 : 3 ∣ p - 1) {N : ℕ} (hN : p < 2 ^ (64 * N)) (nr2 : α → α)
    (hnr2 : ∀ {a x}, R a x → R (nr2 a) (q2 * x)) (m2 : Bool) (hm2 : m2 = true → q2 = -1)
    {q6 : Ext 2 q2} (hq6 : IsUnit q6) {qa : Ext2 α} (hqa : Ext2.Rel R q2 qa q6)
    (nr6 : Ext2 α → Ext2 α) :
    (Ext3.ops (Ext2.ops o (fp2Config o nr2 m2))
      (fp6CubicConfig (Ext2.ops o (fp2Config o nr2 m2)) nr6 qa p N)).ImplementsFrobenius
      (Ext3.Rel (Ext2.Rel R q2) q6) p := by
  have h' := Ext2.implements (cfg := fp2Config o nr2 m2) h hnr2 hm2
  have := Ext.nontrivial (n := 2) (by norm_num) q2
  have := Ext.charP (n := 2) (by norm_num) q2 p
  refine Ext3.frobenius_rel h3 (fp2_frob h hf hq2 nr2 m2) ?_ (Nat.succ_pos _) ?_ ?_
  · have := pow_table_top hq6 (Nat.pow_pos hpf.out.pos) (ext2_fixed hq2 q6) (dvd_pow_sub_one h3 2)
    rwa [← pow_mul] at this
  · intro e _ a x hx
    have := h'.mul hx (frobCoeff_rel h' hqa hN hpf.out.pos (n := 3) (k := 1) (by omega) e)
    rwa [one_mul] at this
  · intro e _ a x hx
    exact h'.mul hx (frobCoeff_rel h' hqa hN hpf.out.pos (n := 3) (k := 2) (by omega) e)

theorem fp12_frob (h : o.Implements R) (hf : ∀ e a, o.frobenius e a = a) {q2 : ZMod p}
    (hq2 : ¬ IsSquare q2) (h6 : 6 ∣ p - 1) {N : ℕ} (hN : p < 2 ^ (64 * N)) (nr2 : α → α)
    (hnr2 : ∀ {a x}, R a x → R (nr2 a) (q2 * x)) (m2 : Bool) (hm2 : m2 = true → q2 = -1)
    {q6 : Ext 2 q2} (hq6 : IsUnit q6) {qa : Ext2 α} (hqa : Ext2.Rel R q2 qa q6)
    (nr6 : Ext2 α → Ext2 α) (nr12 : Ext3 (Ext2 α) → Ext3 (Ext2 α)) (m12 : Bool) :
    (Ext2.ops (Ext3.ops (Ext2.ops o (fp2Config o nr2 m2))
        (fp6CubicConfig (Ext2.ops o (fp2Config o nr2 m2)) nr6 qa p N))
      (fp12Config (Ext2.ops o (fp2Config o nr2 m2)) nr12 m12 qa p N)).ImplementsFrobenius
      (Ext2.Rel (Ext3.Rel (Ext2.Rel R q2) q6) (Ext.x 3 q6)) p := by
  have h3 : 3 ∣ p - 1 := (by norm_num : 3 ∣ 6).trans h6
  have h2 : 2 ∣ p - 1 := (by norm_num : 2 ∣ 6).trans h6
  have h' := Ext2.implements (cfg := fp2Config o nr2 m2) h hnr2 hm2
  have := Ext.nontrivial (n := 2) (by norm_num) q2
  have := Ext.charP (n := 2) (by norm_num) q2 p
  have := Ext.nontrivial (n := 3) (by norm_num) q6
  have := Ext.charP (n := 3) (by norm_num) q6 p
  refine Ext2.frobenius_rel h2 (fp6Cubic_frob h hf hq2 h3 hN nr2 hnr2 m2 hm2 hq6 hqa nr6) ?_
    (Nat.succ_pos _) ?_
  · change Ext.x 3 q6 ^ ((p ^ 12 - 1) / 2) = 1
    rw [Ext.x_table (by norm_num) h6]
    have := pow_table_top hq6 (Nat.pow_pos hpf.out.pos) (ext2_fixed hq2 q6) (dvd_pow_sub_one h6 2)
    rw [← pow_mul] at this
    rw [show 2 * 3 = 6 from rfl, this, map_one]
  · intro e _ a x hx
    rw [Ext.x_table (by norm_num) h6]
    have := Ext3.mulBase_rel h' hx
      (frobCoeff_rel h' hqa hN hpf.out.pos (n := 6) (k := 1) (by omega) e)
    rwa [one_mul] at this

end Prime
end Tachyon
