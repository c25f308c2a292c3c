import Verif.Model.SmallField
import Verif.Proofs.Square
import Verif.Proofs.Divide
import Verif.Proofs.Pow
import Mathlib.Data.Nat.ModEq
import Mathlib.Data.Int.GCD
import Mathlib.FieldTheory.Finite.Basic
import Mathlib.Tactic.LinearCombination
import Mathlib.Tactic.Linarith
/-! # Lemmas about the 32-bit prime fields -/
namespace Tachyon.SmallField

theorem reduce32Default_spec (m v : BitVec 32) (hv : v.toNat < 2 * m.toNat) :
    (reduce32Default m v).toNat = v.toNat % m.toNat := by
  unfold reduce32Default
  split
  · rename_i h
    rw [BitVec.toNat_sub_of_le h, Nat.mod_eq_sub_mod h, Nat.mod_eq_of_lt (by omega)]
  · rw [Nat.mod_eq_of_lt (by omega)]

/-- A configuration reduces correctly what its field operations pass to `Reduce`. -/
structure Config.Reduces (c : Config) : Prop where
  pos : 0 < c.modulus.toNat
  le : c.modulus.toNat ≤ 2 ^ 31
  r32 : ∀ v : BitVec 32, v.toNat < 2 * c.modulus.toNat →
    (c.reduce32 v).toNat = v.toNat % c.modulus.toNat

theorem addMod_spec {c : Config} (hc : c.Reduces) (a b : BitVec 32)
    (ha : a.toNat < c.modulus.toNat) (hb : b.toNat < c.modulus.toNat) :
    (addMod c a b).toNat = (a.toNat + b.toNat) % c.modulus.toNat := by
  have h1 := hc.le
  have e : (a + b).toNat = a.toNat + b.toNat := by
    rw [BitVec.toNat_add, Nat.mod_eq_of_lt (by omega)]
  rw [addMod, hc.r32 _ (by omega), e]

theorem subMod_spec {c : Config} (hc : c.Reduces) (a b : BitVec 32)
    (ha : a.toNat < c.modulus.toNat) (hb : b.toNat < c.modulus.toNat) :
    (subMod c a b).toNat = (a.toNat + (c.modulus.toNat - b.toNat)) % c.modulus.toNat := by
  have h1 := hc.le
  have h2 : (a + c.modulus).toNat = a.toNat + c.modulus.toNat := by
    rw [BitVec.toNat_add, Nat.mod_eq_of_lt (by omega)]
  have h3 : (a + c.modulus - b).toNat = a.toNat + (c.modulus.toNat - b.toNat) := by
    rw [BitVec.toNat_sub_of_le (show b.toNat ≤ (a + c.modulus).toNat by omega), h2]; omega
  by_cases hb0 : b.toNat = 0
  · -- the sum is below 2m also here
    rw [subMod, hc.r32 _ (by omega), h3]
  · rw [subMod, hc.r32 _ (by omega), h3]

theorem int_sub_mod {a b m : Nat} (h : b ≤ m) :
    (((a + (m - b)) % m : Nat) : Int) = (a - b : Int) % m := by
  push_cast [h]
  rw [show (a : Int) + (m - b) = (a - b) + m by ring, Int.add_emod_right]

theorem mersenne31_reduce64 (v : BitVec 64) (hv : v.toNat < (2 ^ 31 - 1) ^ 2) :
    (mersenne31.reduce64 v).toNat = v.toNat % (2 ^ 31 - 1) := by
  simp only [mersenne31]
  have e : ((2147483647#32).setWidth 64 : BitVec 64).toNat = 2 ^ 31 - 1 := by decide
  rw [BitVec.toNat_setWidth, BitVec.toNat_and, e, Nat.and_two_pow_sub_one_eq_mod]
  simp only [BitVec.toNat_add, BitVec.toNat_ushiftRight, Nat.shiftRight_eq_div_pow,
    BitVec.toNat_ofNat]
  norm_num at hv ⊢
  obtain ⟨h, l, hl, hvl⟩ : ∃ h l, l < 2147483648 ∧ v.toNat = 2147483648 * h + l :=
    ⟨v.toNat / 2147483648, v.toNat % 2147483648, Nat.mod_lt _ (by norm_num),
      (Nat.div_add_mod _ _).symm⟩
  rw [hvl] at hv ⊢
  have e1 : (2147483648 * h + l) / 2147483648 = h := by omega
  have e2 : (h + (2147483648 * h + l) + 1) % 18446744073709551616 =
      2147483648 * h + (h + l + 1) := by omega
  have e3 : (2147483648 * h + (h + l + 1)) / 2147483648 = h + (h + l + 1) / 2147483648 := by omega
  have e4 : (2147483648 * h + l) % 2147483647 = (h + l) % 2147483647 := by omega
  rw [e1, e2, e3, e4]
  have hc : (h + l + 1) / 2147483648 = 0 ∨ (h + l + 1) / 2147483648 = 1 := by omega
  rcases hc with hc | hc <;> rw [hc]
  · have e5 : (h + 0 + (2147483648 * h + l)) % 2147483648 = h + l := by omega
    rw [e5]; omega
  · have e5 : (h + 1 + (2147483648 * h + l)) % 2147483648 = h + l - 2147483647 := by omega
    rw [e5]; omega

theorem mersenne31_reduces : mersenne31.Reduces where
  pos := by decide
  le := by decide
  r32 v hv := reduce32Default_spec _ v hv

theorem m31Scalar_reduces : m31Scalar.Reduces where
  pos := by decide
  le := by decide
  r32 v _ := by
    simp only [m31Scalar]
    have e : (2147483648#32 - 1#32 : BitVec 32).toNat = 2 ^ 31 - 1 := by decide
    rw [BitVec.toNat_and, e, Nat.and_two_pow_sub_one_eq_mod]; rfl

theorem m31Scalar_reduce64 (v : BitVec 64) : (m31Scalar.reduce64 v).toNat = v.toNat % 2 ^ 31 := by
  simp only [m31Scalar]
  have e : ((2147483648#32 - 1#32 : BitVec 32).setWidth 64 : BitVec 64).toNat = 2 ^ 31 - 1 := by
    decide
  rw [BitVec.toNat_setWidth, BitVec.toNat_and, e, Nat.and_two_pow_sub_one_eq_mod]
  omega

theorem gf7_reduces : gf7.Reduces where
  pos := by decide
  le := by decide
  r32 v _ := by
    show (BitVec.ofNat 32 (v.toNat % (2 ^ 3 - 1))).toNat = v.toNat % 7
    rw [BitVec.toNat_ofNat]
    omega

theorem gf7_reduce64 (v : BitVec 64) (hv : v.toNat < 2 ^ 32) :
    (gf7.reduce64 v).toNat = v.toNat % 7 := by
  simp only [gf7, BitVec.toNat_ofNat, BitVec.toNat_setWidth]
  omega

theorem montConfig_reduces (m : BitVec 32) (h0 : 0 < m.toNat) (h1 : m.toNat ≤ 2 ^ 31) :
    (montConfig m).Reduces where
  pos := h0
  le := h1
  r32 v hv := reduce32Default_spec m v hv

theorem mul_toNat (a b : BitVec 32) :
    (a.setWidth 64 * b.setWidth 64 : BitVec 64).toNat = a.toNat * b.toNat := by
  rw [BitVec.toNat_mul, BitVec.toNat_setWidth, BitVec.toNat_setWidth,
    Nat.mod_eq_of_lt (by have := a.isLt; omega : a.toNat < 2 ^ 64),
    Nat.mod_eq_of_lt (by have := b.isLt; omega : b.toNat < 2 ^ 64), Nat.mod_eq_of_lt]
  have ha : a.toNat ≤ 2 ^ 32 - 1 := by have := a.isLt; omega
  have hb : b.toNat ≤ 2 ^ 32 - 1 := by have := b.isLt; omega
  calc a.toNat * b.toNat ≤ (2 ^ 32 - 1) * (2 ^ 32 - 1) := Nat.mul_le_mul ha hb
    _ < 2 ^ 64 := by norm_num

/-! ## EGCD -/

theorem int64_some {x : Int} (h : -(2 ^ 63) ≤ x ∧ x < 2 ^ 63) : int64 x = some x := if_pos h

theorem egcdGo_spec (x y : Int) (hx : x < 2 ^ 62) (hy : y < 2 ^ 62) :
    ∀ (fuel : Nat) (rPrev r σ A B C D : Int), r.toNat < fuel → 0 < rPrev → 0 ≤ r →
      (σ = 1 ∨ σ = -1) →
      rPrev < 2 ^ 62 → r < 2 ^ 62 →
      0 ≤ A → 0 ≤ B → 0 ≤ C → 0 ≤ D → A ≤ y → C ≤ x →
      rPrev * B + r * A = y → rPrev * D + r * C = x →
      σ * A * x - σ * C * y = rPrev → -σ * B * x + σ * D * y = r →
      ∃ s t, egcdGo fuel rPrev r (σ * A) (-σ * B) (-σ * C) (σ * D) =
          some (s, t, (Int.gcd rPrev r : Int)) ∧
        s * x + t * y = (Int.gcd rPrev r : Int) ∧ -y ≤ s ∧ s ≤ y
  | 0, _, _, _, _, _, _, _, h, _, _, _, _, _, _, _, _, _, _, _, _, _, _, _ => by omega
  | fuel + 1, rPrev, r, σ, A, B, C, D, hf, hp, hr, hσ, hlt, hlt', hA, hB, hC, hD, hAy, hCx, e1, e2, i1,
      i2 => by
    rw [egcdGo]
    by_cases h0 : r = 0
    · rw [if_pos h0]
      subst h0
      have hg : (Int.gcd rPrev 0 : Int) = rPrev := by simp [abs_of_pos hp]
      refine ⟨σ * A, -σ * C, by rw [hg], by rw [hg]; linarith, ?_, ?_⟩ <;>
        rcases hσ with rfl | rfl <;> linarith
    · rw [if_neg h0]
      have hr' : 0 < r := by omega
      have hq0 : 0 ≤ rPrev.tdiv r := Int.tdiv_nonneg hp.le hr
      have hmod : rPrev - rPrev.tdiv r * r = rPrev.tmod r := by
        have := Int.mul_tdiv_add_tmod rPrev r
        linarith
      have hm0 : 0 ≤ rPrev.tmod r := Int.tmod_nonneg _ hp.le
      have hm1 : rPrev.tmod r < r := Int.tmod_lt_of_pos _ hr'
      have hgcd : Int.gcd r (rPrev.tmod r) = Int.gcd rPrev r := by
        rw [← hmod, Int.gcd_comm rPrev r]
        exact Int.gcd_sub_mul_right_right r rPrev _
      generalize hq : rPrev.tdiv r = q at *
      rw [← hmod] at hm0 hm1 hgcd
      -- bounds on the new coefficients
      have hqB : 0 ≤ q * B := mul_nonneg hq0 hB
      have hqD : 0 ≤ q * D := mul_nonneg hq0 hD
      have eB : r * (A + q * B) + (rPrev - q * r) * B = y := by linarith
      have eD : r * (C + q * D) + (rPrev - q * r) * D = x := by linarith
      have bB : A + q * B ≤ y := by nlinarith [mul_nonneg hm0 hB]
      have bD : C + q * D ≤ x := by nlinarith [mul_nonneg hm0 hD]
      have bB0 : B ≤ y := by nlinarith [mul_nonneg hr hA]
      have bD0 : D ≤ x := by nlinarith [mul_nonneg hr hC]
      have hqr : 0 ≤ q * r := mul_nonneg hq0 hr
      have hu1 : egcdUpdate rPrev q r = some (rPrev - q * r) := by
        unfold egcdUpdate
        rw [int64_some (by omega)]
        exact int64_some (by omega)
      have hu2 : egcdUpdate (σ * A) q (-σ * B) = some (σ * A - q * (-σ * B)) := by
        unfold egcdUpdate
        rw [show q * (-σ * B) = -σ * (q * B) by ring]
        generalize q * B = Z at *
        rw [int64_some (by rcases hσ with rfl | rfl <;> omega)]
        exact int64_some (by rcases hσ with rfl | rfl <;> omega)
      have hu3 : egcdUpdate (-σ * C) q (σ * D) = some (-σ * C - q * (σ * D)) := by
        unfold egcdUpdate
        rw [show q * (σ * D) = σ * (q * D) by ring]
        generalize q * D = Z at *
        rw [int64_some (by rcases hσ with rfl | rfl <;> omega)]
        exact int64_some (by rcases hσ with rfl | rfl <;> omega)
      simp only [hu1, hu2, hu3, Option.bind_some]
      have := egcdGo_spec x y hx hy fuel r (rPrev - q * r) (-σ) B (A + q * B) D (C + q * D)
        (by omega) hr' hm0 (by rcases hσ with rfl | rfl <;> simp) hlt' (by omega) hB
        (by linarith) hD (by linarith) bB0 bD0 eB eD
        (by rw [← i2]; ring) (by linear_combination i1 - q * i2)
      obtain ⟨s, t, h1, h2, h3⟩ := this
      refine ⟨s, t, ?_, ?_, h3⟩
      · rw [← hgcd, ← h1]
        congr 1 <;> ring
      · rw [← hgcd, h2]

/-- `EGCD<int64_t>` on operands below `2^62` never overflows, terminates, and returns Bezout
coefficients of the gcd with `|s| ≤ y`. -/
theorem egcd_spec (x y : Int) (hx0 : 0 < x) (hy0 : 0 < y) (hx : x < 2 ^ 62) (hy : y < 2 ^ 62) :
    ∃ s t, egcd x y = some (s, t, (Int.gcd x y : Int)) ∧
      s * x + t * y = (Int.gcd x y : Int) ∧ -y ≤ s ∧ s ≤ y := by
  have := egcdGo_spec x y hx hy (y.toNat + 2) x y 1 1 0 0 1 (by omega) hx0 hy0.le (Or.inl rfl) hx hy
    (by omega) le_rfl le_rfl (by omega) (by omega) hx0.le (by ring) (by ring) (by ring) (by ring)
  simpa [egcd] using this

theorem inverse_spec (c : Config) (a : BitVec 32) (h0 : a.toNat ≠ 0)
    (ha : a.toNat < c.modulus.toNat) (h1 : 1 < c.modulus.toNat) :
    (Nat.Coprime a.toNat c.modulus.toNat →
      ∃ r, inverse c a = some (some r) ∧ r.toNat < c.modulus.toNat ∧
        a.toNat * r.toNat % c.modulus.toNat = 1) ∧
    (¬ Nat.Coprime a.toNat c.modulus.toNat → inverse c a = some none) := by
  have hml := c.modulus.isLt
  obtain ⟨s, t, e1, e2, e3, e4⟩ := egcd_spec a.toNat c.modulus.toNat (by omega) (by omega)
    (by omega) (by omega)
  have hne : a ≠ 0#32 := by rintro rfl; simp at h0
  have hg : (Int.gcd (a.toNat : Int) (c.modulus.toNat : Int)) =
    Nat.gcd a.toNat c.modulus.toNat := rfl
  constructor
  · intro hcop
    have hg1 : (Int.gcd (a.toNat : Int) (c.modulus.toNat : Int) : Int) = 1 := by
      rw [hg, hcop]; rfl
    rw [hg1] at e1 e2
    rw [inverse, if_neg hne, e1]
    simp only [Option.map_some, ne_eq, not_true_eq_false, if_false]
    -- the coefficient as a residue
    have key : ∀ z : Int, 0 < z → z < c.modulus.toNat → (∃ k : Int, z = s + k * c.modulus.toNat) →
        (BitVec.ofInt 32 z).toNat < c.modulus.toNat ∧
        a.toNat * (BitVec.ofInt 32 z).toNat % c.modulus.toNat = 1 := by
      intro z z0 z1 ⟨k, hk⟩
      have hz : (BitVec.ofInt 32 z).toNat = z.toNat := by
        rw [BitVec.toNat_ofInt, Int.emod_eq_of_lt z0.le (by omega)]
      rw [hz]
      refine ⟨by omega, ?_⟩
      have : ((a.toNat * z.toNat : Nat) : Int) % c.modulus.toNat = 1 := by
        push_cast
        rw [Int.toNat_of_nonneg z0.le]
        have : (a.toNat : Int) * z = 1 + c.modulus.toNat * (k * a.toNat - t) := by
          rw [hk]; linear_combination e2
        rw [this, Int.add_mul_emod_self_left]
        exact Int.emod_eq_of_lt (by omega) (by omega)
      exact_mod_cast this
    have hs0 : s ≠ 0 := by
      rintro rfl
      have : (c.modulus.toNat : Int) ∣ 1 := ⟨t, by linarith⟩
      have := Int.le_of_dvd (by omega) this
      omega
    have hs1 : s ≠ c.modulus.toNat := by
      rintro rfl
      have : (c.modulus.toNat : Int) ∣ 1 := ⟨a.toNat + t, by linarith⟩
      have := Int.le_of_dvd (by omega) this
      omega
    have hs2 : s ≠ -c.modulus.toNat := by
      rintro rfl
      have : (c.modulus.toNat : Int) ∣ 1 := ⟨-a.toNat + t, by linarith⟩
      have := Int.le_of_dvd (by omega) this
      omega
    by_cases hs : s > 0
    · rw [if_pos hs]
      exact ⟨_, rfl, key s hs (by omega) ⟨0, by ring⟩⟩
    · rw [if_neg hs]
      exact ⟨_, rfl, key _ (by omega) (by omega) ⟨1, by ring⟩⟩
  · intro hcop
    rw [inverse, if_neg hne, e1]
    have : (Int.gcd (a.toNat : Int) (c.modulus.toNat : Int) : Int) ≠ 1 := by
      rw [hg]
      intro h
      exact hcop (by exact_mod_cast h)
    simp only [Option.map_some, ne_eq, this, not_false_eq_true, if_true]

/-! ## Montgomery representation -/

theorem kInverse32_spec (m : BitVec 32) (hodd : m.toNat % 2 = 1) :
    m.toNat * (kInverse32 m).toNat % 2 ^ 32 = 1 := by
  have h := BigInt.modulusInverse_spec (by omega) m hodd
  unfold kInverse32
  generalize BigInt.modulusInverse m = v at *
  rw [BitVec.toNat_neg]
  have hv : v.toNat ≠ 0 := by
    intro h0
    rw [h0] at h
    simp at h
  rw [Nat.mod_eq_of_lt (by omega : 2 ^ 32 - v.toNat < 2 ^ 32)]
  have hvl := v.isLt
  zify [hvl.le]
  have h' : ((2 : Int) ^ 32) ∣ (m.toNat : Int) * v.toNat + 1 := by exact_mod_cast h
  obtain ⟨k, hk⟩ := h'
  have : (m.toNat : Int) * (2 ^ 32 - v.toNat) = 1 + 2 ^ 32 * (m.toNat - k) := by
    linear_combination -hk
  rw [this, Int.add_mul_emod_self_left]
  rfl

theorem fromMontgomery_spec (m inv : BitVec 32) (v : BitVec 64)
    (hinv : m.toNat * inv.toNat % 2 ^ 32 = 1) (hv : v.toNat < m.toNat * 2 ^ 32) :
    (fromMontgomery m inv v).toNat < m.toNat ∧
      (fromMontgomery m inv v).toNat * 2 ^ 32 ≡ v.toNat [MOD m.toNat] := by
  have hml := m.isLt
  -- t
  have ht : ((v * inv.setWidth 64) &&& ((1#64 <<< 32) - 1#64) : BitVec 64).toNat =
      v.toNat * inv.toNat % 2 ^ 32 := by
    have e : ((1#64 <<< 32) - 1#64 : BitVec 64).toNat = 2 ^ 32 - 1 := by decide
    rw [BitVec.toNat_and, e, Nat.and_two_pow_sub_one_eq_mod, BitVec.toNat_mul,
      BitVec.toNat_setWidth, Nat.mod_eq_of_lt (by have := inv.isLt; omega : inv.toNat < 2 ^ 64),
      Nat.mod_mod_of_dvd _ (by norm_num)]
  simp only [fromMontgomery]
  have htlt : v.toNat * inv.toNat % 2 ^ 32 < 2 ^ 32 := Nat.mod_lt _ (by norm_num)
  generalize hT : ((v * inv.setWidth 64) &&& ((1#64 <<< 32) - 1#64) : BitVec 64) = t at *
  have htl : t.toNat < 2 ^ 32 := by omega
  have hu : (t * m.setWidth 64).toNat = t.toNat * m.toNat := by
    rw [BitVec.toNat_mul, BitVec.toNat_setWidth,
      Nat.mod_eq_of_lt (by omega : m.toNat < 2 ^ 64), Nat.mod_eq_of_lt]
    calc t.toNat * m.toNat ≤ (2 ^ 32 - 1) * (2 ^ 32 - 1) := Nat.mul_le_mul (by omega) (by omega)
      _ < 2 ^ 64 := by norm_num
  generalize t * m.setWidth 64 = u at *
  -- u ≡ v mod 2^32
  have hcong : t.toNat * m.toNat % 2 ^ 32 = v.toNat % 2 ^ 32 := by
    rw [ht]
    have h1 : v.toNat * inv.toNat % 2 ^ 32 * m.toNat ≡ v.toNat * inv.toNat * m.toNat [MOD 2 ^ 32] :=
      (Nat.mod_modEq _ _).mul_right _
    have h2 : v.toNat * inv.toNat * m.toNat ≡ v.toNat * 1 [MOD 2 ^ 32] := by
      rw [Nat.mul_assoc]
      apply Nat.ModEq.mul_left
      rw [Nat.mul_comm]
      exact hinv
    have := h1.trans h2
    rwa [Nat.mul_one] at this
  have hult : u.toNat < m.toNat * 2 ^ 32 := by
    rw [hu, Nat.mul_comm]
    exact Nat.mul_lt_mul_of_pos_left htl (by
      rcases Nat.eq_zero_or_pos m.toNat with h | h
      · rw [h] at hinv; simp at hinv
      · exact h)
  have hdvd : (m.toNat : Int) ∣ u.toNat := ⟨t.toNat, by rw [hu]; push_cast; ring⟩
  rw [← hu] at hcong
  have hul := u.isLt
  have hvl := v.isLt
  by_cases hlt : v.toNat < u.toNat
  · rw [if_pos hlt]
    have hsub : (v - u).toNat = 2 ^ 64 - (u.toNat - v.toNat) := by
      rw [BitVec.toNat_sub, Nat.mod_eq_of_lt (by omega)]; omega
    obtain ⟨k, hk⟩ : ∃ k, u.toNat - v.toNat = 2 ^ 32 * k :=
      (Nat.modEq_iff_dvd' hlt.le).1 hcong.symm
    have hk1 : 0 < k := by omega
    have hk2 : k < m.toNat := by omega
    have e : (((v - u) >>> 32).setWidth 32 + m).toNat = m.toNat - k := by
      rw [BitVec.toNat_add, BitVec.toNat_setWidth, BitVec.toNat_ushiftRight,
        Nat.shiftRight_eq_div_pow, hsub, hk]
      omega
    rw [e]
    refine ⟨by omega, ?_⟩
    rw [Nat.modEq_iff_dvd]
    push_cast [hk2.le]
    obtain ⟨j, hj⟩ := hdvd
    refine ⟨j - 2 ^ 32, ?_⟩
    have : (u.toNat : Int) - v.toNat = 2 ^ 32 * k := by omega
    linear_combination hj - this
  · rw [if_neg hlt]
    have hle : u.toNat ≤ v.toNat := by omega
    have hsub : (v - u).toNat = v.toNat - u.toNat := BitVec.toNat_sub_of_le hle
    obtain ⟨k, hk⟩ : ∃ k, v.toNat - u.toNat = 2 ^ 32 * k :=
      (Nat.modEq_iff_dvd' hle).1 hcong
    have hk2 : k < m.toNat := by omega
    have e : (((v - u) >>> 32).setWidth 32).toNat = k := by
      rw [BitVec.toNat_setWidth, BitVec.toNat_ushiftRight,
        Nat.shiftRight_eq_div_pow, hsub, hk]
      omega
    rw [e]
    refine ⟨hk2, ?_⟩
    rw [Nat.modEq_iff_dvd]
    obtain ⟨j, hj⟩ := hdvd
    refine ⟨j, ?_⟩
    have : (v.toNat : Int) - u.toNat = 2 ^ 32 * k := by omega
    push_cast
    linear_combination hj + this

theorem toMontgomery_spec (m v : BitVec 32) (h : 0 < m.toNat) :
    (toMontgomery m v).toNat = v.toNat * 2 ^ 32 % m.toNat := by
  have hv := v.isLt
  have hm := m.isLt
  rw [toMontgomery, BitVec.toNat_setWidth, BitVec.toNat_umod, BitVec.toNat_shiftLeft,
    BitVec.toNat_setWidth, BitVec.toNat_setWidth, Nat.mod_eq_of_lt (by omega : v.toNat < 2 ^ 64),
    Nat.mod_eq_of_lt (by omega : m.toNat < 2 ^ 64), Nat.shiftLeft_eq,
    Nat.mod_eq_of_lt (by omega : v.toNat * 2 ^ 32 < 2 ^ 64)]
  apply Nat.mod_eq_of_lt
  exact (Nat.mod_lt _ h).trans hm

theorem coprime_two_pow {m : Nat} (hodd : m % 2 = 1) (k : Nat) : Nat.Coprime m (2 ^ k) :=
  Nat.Coprime.pow_right _ ((Nat.odd_iff.2 hodd).coprime_two_right)

/-- Two canonical numbers with the same Montgomery image are equal. -/
theorem cancel {m x y : Nat} (hodd : m % 2 = 1) (hx : x < m) (hy : y < m)
    (h : x * 2 ^ 32 ≡ y * 2 ^ 32 [MOD m]) : x = y :=
  Nat.ModEq.eq_of_lt_of_lt (Nat.ModEq.cancel_right_of_coprime (coprime_two_pow hodd 32) h) hx hy

theorem montToInt_spec (m a : BitVec 32) (hodd : m.toNat % 2 = 1) :
    (montToInt m a).toNat < m.toNat ∧
      (montToInt m a).toNat * 2 ^ 32 ≡ a.toNat [MOD m.toNat] := by
  have ha := a.isLt
  have e : (a.setWidth 64 : BitVec 64).toNat = a.toNat := by
    rw [BitVec.toNat_setWidth, Nat.mod_eq_of_lt (by omega)]
  have := fromMontgomery_spec m (kInverse32 m) (a.setWidth 64) (kInverse32_spec m hodd)
    (by rw [e]; omega)
  rwa [e] at this

theorem montMul_spec (m a b : BitVec 32) (hodd : m.toNat % 2 = 1) (ha : a.toNat < m.toNat) :
    (montMul m a b).toNat < m.toNat ∧
      (montMul m a b).toNat * 2 ^ 32 ≡ a.toNat * b.toNat [MOD m.toNat] := by
  have := fromMontgomery_spec m (kInverse32 m) (a.setWidth 64 * b.setWidth 64)
    (kInverse32_spec m hodd) (by
      rw [mul_toNat]
      calc a.toNat * b.toNat ≤ a.toNat * 2 ^ 32 := Nat.mul_le_mul_left _ b.isLt.le
        _ < m.toNat * 2 ^ 32 := by omega)
  rwa [mul_toNat] at this

/-- The number a stored word denotes is determined by its Montgomery image. -/
theorem montToInt_eq (m a : BitVec 32) (hodd : m.toNat % 2 = 1) (z : Nat)
    (h : a.toNat ≡ z * 2 ^ 32 [MOD m.toNat]) : (montToInt m a).toNat = z % m.toNat := by
  obtain ⟨h1, h2⟩ := montToInt_spec m a hodd
  refine cancel hodd h1 (Nat.mod_lt _ (by omega)) ((h2.trans h).trans ?_)
  exact ((Nat.mod_modEq _ _).mul_right _).symm

theorem montMul_denotes (m a b : BitVec 32) (hodd : m.toNat % 2 = 1) (ha : a.toNat < m.toNat) :
    (montToInt m (montMul m a b)).toNat =
      (montToInt m a).toNat * (montToInt m b).toNat % m.toNat := by
  obtain ⟨h1, h2⟩ := montMul_spec m a b hodd ha
  obtain ⟨_, a2⟩ := montToInt_spec m a hodd
  obtain ⟨_, b2⟩ := montToInt_spec m b hodd
  apply montToInt_eq m _ hodd
  refine Nat.ModEq.cancel_right_of_coprime (c := 2 ^ 32) (coprime_two_pow hodd 32) (h2.trans ?_)
  refine (a2.symm.mul b2.symm).trans ?_
  rw [show (montToInt m a).toNat * 2 ^ 32 * ((montToInt m b).toNat * 2 ^ 32) =
    (montToInt m a).toNat * (montToInt m b).toNat * 2 ^ 32 * 2 ^ 32 by ring]

theorem montOne_denotes (m : BitVec 32) (hodd : m.toNat % 2 = 1) :
    (montOne m).toNat < m.toNat ∧ (montToInt m (montOne m)).toNat = 1 % m.toNat := by
  have e := toMontgomery_spec m 1#32 (by omega)
  refine ⟨by rw [montOne, e]; exact Nat.mod_lt _ (by omega), ?_⟩
  apply montToInt_eq m _ hodd
  rw [montOne, e]
  exact Nat.mod_modEq _ _

theorem montInverse_spec (m a : BitVec 32) (hp : m.toNat.Prime) (hodd : m.toNat % 2 = 1)
    (ha : a.toNat < m.toNat) (h0 : a.toNat ≠ 0) :
    ∃ r, montInverse m a = some r ∧ r.toNat < m.toNat ∧
      (montToInt m a).toNat * (montToInt m r).toNat % m.toNat = 1 := by
  have hne : a ≠ 0#32 := by rintro rfl; simp at h0
  have hm3 := hp.two_le
  rw [montInverse, if_neg hne]
  refine ⟨_, rfl, ?_⟩
  have : Fact (m.toNat.Prime) := ⟨hp⟩
  have hrel := doPow_rel (M := ZMod m.toNat)
    (o := ⟨montOne m, montMul m, fun x => montMul m x x⟩)
    (R := fun a x => a.toNat < m.toNat ∧ ((montToInt m a).toNat : ZMod m.toNat) = x)
    ⟨⟨(montOne_denotes m hodd).1, by rw [(montOne_denotes m hodd).2]; simp⟩,
      by
        rintro a b x y ⟨ha, rfl⟩ ⟨hb, rfl⟩
        refine ⟨(montMul_spec m a b hodd ha).1, ?_⟩
        rw [montMul_denotes m a b hodd ha]; simp,
      by
        rintro a x ⟨ha, rfl⟩
        refine ⟨(montMul_spec m a a hodd ha).1, ?_⟩
        rw [montMul_denotes m a a hodd ha]; simp⟩
    (by omega : 0 < 64) (g := a) ⟨ha, rfl⟩ [(m - 2#32).setWidth 64]
  have he : limbsVal [(m - 2#32).setWidth 64] = m.toNat - 2 := by
    have h2 : (m - 2#32).toNat = m.toNat - 2 := BitVec.toNat_sub_of_le (by
      rw [BitVec.le_def]; exact hm3)
    have := m.isLt
    simp only [limbsVal, BitVec.toNat_setWidth, h2]
    omega
  rw [he] at hrel
  obtain ⟨h1, h2⟩ := hrel
  refine ⟨h1, ?_⟩
  have hx0 : ((montToInt m a).toNat : ZMod m.toNat) ≠ 0 := by
    rw [Ne, ZMod.natCast_eq_zero_iff]
    intro hd
    obtain ⟨k1, k2⟩ := montToInt_spec m a hodd
    have : (montToInt m a).toNat = 0 := Nat.eq_zero_of_dvd_of_lt hd k1
    rw [this, Nat.zero_mul] at k2
    have := Nat.ModEq.eq_of_lt_of_lt k2 (by omega) ha
    omega
  have h3 : (((montToInt m a).toNat * (montToInt m (doPow ⟨montOne m, montMul m,
      fun x => montMul m x x⟩ a [(m - 2#32).setWidth 64])).toNat : Nat) : ZMod m.toNat) =
      ((1 : Nat) : ZMod m.toNat) := by
    push_cast
    rw [h2, ← pow_succ', show m.toNat - 2 + 1 = m.toNat - 1 by omega,
      ZMod.pow_card_sub_one_eq_one hx0]
  have := (ZMod.natCast_eq_natCast_iff' _ _ _).1 h3
  rw [this, Nat.mod_eq_of_lt (by omega)]

theorem toMontgomery64_spec (m : BitVec 32) (v : BitVec 64) (hm : 0 < m.toNat) :
    (toMontgomery64 m v).toNat = v.toNat * 2 ^ 32 % m.toNat := by
  have hm32 := m.isLt
  have hv := v.isLt
  have em : limbsVal [m.setWidth 64, 0#64] = m.toNat := by
    simp [limbsVal, BitVec.toNat_setWidth]; omega
  have ev : limbsVal [v, 0#64] = v.toNat := by simp [limbsVal]
  obtain ⟨s1, s2⟩ := BigInt.mulBy2Exp_spec (by omega : 0 < 64) [v, 0#64] 32
  obtain ⟨r1, r2⟩ := BigInt.mod_spec (by omega : 0 < 64) (BigInt.mulBy2Exp [v, 0#64] 32)
    [m.setWidth 64, 0#64] (by rw [s2]; rfl) (by rw [em]; omega)
  rw [em, s1, ev] at r1
  rw [s2] at r2
  have hlen : ([v, 0#64] : List (BitVec 64)).length = 2 := rfl
  rw [hlen] at r1 r2
  rw [Nat.mod_eq_of_lt (by omega : 2 ^ 32 * v.toNat < 2 ^ (64 * 2))] at r1
  have hlt : 2 ^ 32 * v.toNat % m.toNat < m.toNat := Nat.mod_lt _ hm
  rw [Nat.mul_comm v.toNat]
  unfold toMontgomery64
  generalize BigInt.mod (BigInt.mulBy2Exp [v, 0#64] 32) [m.setWidth 64, 0#64] = l at *
  match l, r2 with
  | [x, y], _ =>
    have hx := x.isLt
    simp only [limbsVal, Nat.mul_zero, Nat.add_zero] at r1
    simp only [List.headD_cons, BitVec.toNat_setWidth]
    have : y.toNat = 0 := by
      by_contra h
      have : 1 ≤ y.toNat := by omega
      omega
    rw [this] at r1
    simp only [Nat.mul_zero, Nat.add_zero] at r1
    rw [r1]; exact Nat.mod_eq_of_lt (by omega)

end Tachyon.SmallField
