import Verif.Proofs.MSM
/-! Lemmas for the GLV multiplication. -/
namespace Tachyon.MSM

variable {α β M : Type*} [AddCommGroup M]

theorem lt_gmpNumBits (k : ℕ) : k < 2 ^ gmpNumBits k := by
  unfold gmpNumBits
  split
  · next h => simp [h]
  · refine lt_of_lt_of_le Nat.lt_log2_self (Nat.pow_le_pow_right (by omega) (by omega))

theorem gmpNumBits_eq_zero {k : ℕ} : gmpNumBits k = 0 ↔ k = 0 := by
  unfold gmpNumBits; split <;> simp_all

theorem gmpNext_eq {i : ℕ} (h : i < 2 ^ 64) : gmpNext i = (i + (2 ^ 64 - 1)) % 2 ^ 64 := by
  unfold gmpNext; split <;> omega

/-- `k2` as the loop reads it: its top bit is aligned with that of `k1`. -/
def aligned (k1 k2 : ℕ) : ℕ := k2 * 2 ^ gmpNumBits k1 / 2 ^ gmpNumBits k2

theorem aligned_lt (k1 k2 : ℕ) : aligned k1 k2 < 2 ^ gmpNumBits k1 := by
  unfold aligned
  rw [Nat.div_lt_iff_lt_mul (Nat.two_pow_pos _), mul_comm]
  exact Nat.mul_lt_mul_of_pos_left (lt_gmpNumBits k2) (Nat.two_pow_pos _)

theorem testBit_aligned {k1 k2 m i : ℕ} (h1 : gmpNumBits k1 < 2 ^ 63) (h2 : gmpNumBits k2 < 2 ^ 63)
    (hm : m < gmpNumBits k1) (hi : i = (m + gmpNumBits k2 + (2 ^ 64 - gmpNumBits k1)) % 2 ^ 64) :
    k2.testBit i = (aligned k1 k2).testBit m := by
  unfold aligned
  rw [Nat.testBit_div_two_pow, Nat.testBit_mul_two_pow]
  have hk := lt_gmpNumBits k2
  generalize gmpNumBits k1 = l1 at *
  generalize gmpNumBits k2 = l2 at *
  by_cases h : l1 ≤ m + l2
  · simp only [h, decide_true, Bool.true_and]
    congr 1; omega
  · simp only [h, decide_false, Bool.false_and]
    apply Nat.testBit_eq_false_of_lt
    exact lt_of_lt_of_le hk (Nat.pow_le_pow_right (by omega) (by omega))

variable {o : Ops β α} {S : β → M → Prop} {R : α → M → Prop}

theorem div_two_pow_step (k m : ℕ) : k / 2 ^ m = 2 * (k / 2 ^ (m + 1)) + (k.testBit m).toNat := by
  rw [pow_succ, ← Nat.div_div_eq_div_mul, Nat.testBit_eq_decide_div_mod_eq]
  have := Nat.div_add_mod (k / 2 ^ m) 2
  rcases Nat.mod_two_eq_zero_or_one (k / 2 ^ m) with h | h <;> simp [h] <;> omega

theorem glvLoop_rel (h : o.Implements S R) {b1 b2 : α} {b12 : β} {x y : M} (hx : R b1 x) (hy : R b2 y)
    (hxy : S b12 (x + y)) {k1 k2 : ℕ} (h1 : gmpNumBits k1 < 2 ^ 63) (h2 : gmpNumBits k2 < 2 ^ 63) :
    ∀ (m fuel i1 i2 : ℕ) (skip : Bool) (ret : β), m ≤ gmpNumBits k1 → m < fuel →
      i1 = (m + (2 ^ 64 - 1)) % 2 ^ 64 →
      i2 = (m + gmpNumBits k2 + (2 ^ 64 - gmpNumBits k1) + (2 ^ 64 - 1)) % 2 ^ 64 →
      (skip = true → m = gmpNumBits k1) →
      S ret ((k1 / 2 ^ m) • x + (aligned k1 k2 / 2 ^ m) • y) →
      ∃ r, glvLoop o b1 b2 b12 k1 k2 fuel i1 i2 skip ret = some r ∧ S r (k1 • x + aligned k1 k2 • y)
  | 0, fuel, i1, i2, skip, ret, _, hf, e1, _, _, hs => by
    obtain ⟨f, rfl⟩ : ∃ f, fuel = f + 1 := ⟨fuel - 1, by omega⟩
    refine ⟨ret, ?_, by simpa using hs⟩
    rw [glvLoop, if_pos (by omega)]
  | m + 1, fuel, i1, i2, skip, ret, hm, hf, e1, e2, hsk, hs => by
    obtain ⟨f, rfl⟩ : ∃ f, fuel = f + 1 := ⟨fuel - 1, by omega⟩
    have e1' : i1 = m := by omega
    have hi2 : i2 < 2 ^ 64 := by rw [e2]; exact Nat.mod_lt _ (by norm_num)
    have e2' : i2 = (m + gmpNumBits k2 + (2 ^ 64 - gmpNumBits k1)) % 2 ^ 64 := by omega
    have ht2 := testBit_aligned h1 h2 (by omega) e2'
    have n1 : gmpNext i1 = (m + (2 ^ 64 - 1)) % 2 ^ 64 := by rw [gmpNext_eq (by omega)]; omega
    have n2 : gmpNext i2 = (m + gmpNumBits k2 + (2 ^ 64 - gmpNumBits k1) + (2 ^ 64 - 1)) % 2 ^ 64 := by
      rw [gmpNext_eq hi2]; omega
    have s1 := div_two_pow_step k1 m
    have s2 := div_two_pow_step (aligned k1 k2) m
    rw [glvLoop, if_neg (by omega), ht2, e1']
    rw [e1'] at n1
    by_cases hskip : (skip && !k1.testBit m && !(aligned k1 k2).testBit m) = true
    · rw [if_pos hskip]
      simp only [Bool.and_eq_true, Bool.not_eq_true', and_assoc] at hskip
      obtain ⟨hs0, hb1, hb2⟩ := hskip
      have hm' := hsk hs0
      refine glvLoop_rel h hx hy hxy h1 h2 m f _ _ false ret (by omega) (by omega) n1 n2 (by simp) ?_
      have z1 : k1 / 2 ^ (m + 1) = 0 := Nat.div_eq_of_lt (by rw [hm']; exact lt_gmpNumBits k1)
      have z2 : aligned k1 k2 / 2 ^ (m + 1) = 0 := Nat.div_eq_of_lt (by rw [hm']; exact aligned_lt k1 k2)
      rw [z1, hb1] at s1
      rw [z2, hb2] at s2
      rw [z1, z2] at hs
      rw [s1, s2]
      simpa using hs
    · rw [if_neg hskip]
      refine glvLoop_rel h hx hy hxy h1 h2 m f _ _ false _ (by omega) (by omega) n1 n2 (by simp) ?_
      have hd := h.double hs
      rw [s1, s2]
      cases hb1 : k1.testBit m <;> cases hb2 : (aligned k1 k2).testBit m <;>
        simp only [Bool.toNat_true, Bool.toNat_false, if_true, if_false, Bool.false_eq_true, Nat.add_zero]
      · have e : (2 * (k1 / 2 ^ (m + 1))) • x + (2 * (aligned k1 k2 / 2 ^ (m + 1))) • y =
            (k1 / 2 ^ (m + 1)) • x + (aligned k1 k2 / 2 ^ (m + 1)) • y +
              ((k1 / 2 ^ (m + 1)) • x + (aligned k1 k2 / 2 ^ (m + 1)) • y) := by
          rw [two_mul, two_mul, add_smul, add_smul]; abel
        rw [e]; exact hd
      · have e : (2 * (k1 / 2 ^ (m + 1))) • x + (2 * (aligned k1 k2 / 2 ^ (m + 1)) + 1) • y =
            (k1 / 2 ^ (m + 1)) • x + (aligned k1 k2 / 2 ^ (m + 1)) • y +
              ((k1 / 2 ^ (m + 1)) • x + (aligned k1 k2 / 2 ^ (m + 1)) • y) + y := by
          rw [two_mul, two_mul, add_smul, add_smul, add_smul, one_smul]; abel
        rw [e]; exact h.addBase hd hy
      · have e : (2 * (k1 / 2 ^ (m + 1)) + 1) • x + (2 * (aligned k1 k2 / 2 ^ (m + 1))) • y =
            (k1 / 2 ^ (m + 1)) • x + (aligned k1 k2 / 2 ^ (m + 1)) • y +
              ((k1 / 2 ^ (m + 1)) • x + (aligned k1 k2 / 2 ^ (m + 1)) • y) + x := by
          rw [two_mul, two_mul, add_smul, add_smul, add_smul, one_smul]; abel
        rw [e]; exact h.addBase hd hx
      · have e : (2 * (k1 / 2 ^ (m + 1)) + 1) • x + (2 * (aligned k1 k2 / 2 ^ (m + 1)) + 1) • y =
            (k1 / 2 ^ (m + 1)) • x + (aligned k1 k2 / 2 ^ (m + 1)) • y +
              ((k1 / 2 ^ (m + 1)) • x + (aligned k1 k2 / 2 ^ (m + 1)) • y) + (x + y) := by
          rw [two_mul, two_mul, add_smul, add_smul, add_smul, add_smul, one_smul, one_smul]; abel
        rw [e]; exact h.add hd hxy

/-- What `GLV::Mul` computes, for any `k1` and `k2`. -/
theorem glvMulWith_rel {o : GLVOps β α} {φ : M → M} (h : o.Implements S R φ) {p : α} {x : M} (hp : R p x)
    (k : ℤ × ℤ) (h1 : gmpNumBits k.1.natAbs < 2 ^ 63) (h2 : gmpNumBits k.2.natAbs < 2 ^ 63) :
    ∃ r, glvMulWith o p k = some r ∧
      S r (k.1 • x + (k.2.sign * (aligned k.1.natAbs k.2.natAbs : ℤ)) • φ x) := by
  have hx : R (if k.1 < 0 then o.neg p else p) (if k.1 < 0 then -x else x) := by
    split
    · exact h.neg hp
    · exact hp
  have hy : R (if k.2 < 0 then o.neg (o.endomorphism p) else o.endomorphism p)
      (if k.2 < 0 then -φ x else φ x) := by
    split
    · exact h.neg (h.endomorphism hp)
    · exact h.endomorphism hp
  obtain ⟨r, e, hr⟩ := glvLoop_rel h.toImplements hx hy (h.addPoints hx hy) h1 h2
    (gmpNumBits k.1.natAbs) (gmpNumBits k.1.natAbs + 1) (gmpBegin k.1.natAbs) (gmpBegin k.2.natAbs)
    true o.zero le_rfl (by omega)
    (by unfold gmpBegin; split <;> omega) (by unfold gmpBegin; split <;> omega) (fun _ => rfl) (by
      rw [Nat.div_eq_of_lt (lt_gmpNumBits _), Nat.div_eq_of_lt (aligned_lt _ _), zero_smul, zero_smul,
        add_zero]
      exact h.zero)
  refine ⟨r, e, ?_⟩
  have a1 : k.1.natAbs • (if k.1 < 0 then -x else x) = k.1 • x := by
    split
    · next hn =>
      rw [smul_neg, ← natCast_zsmul, ← neg_smul]; congr 1; omega
    · next hn =>
      rw [← natCast_zsmul]; congr 1; omega
  have a2 : aligned k.1.natAbs k.2.natAbs • (if k.2 < 0 then -φ x else φ x) =
      (k.2.sign * (aligned k.1.natAbs k.2.natAbs : ℤ)) • φ x := by
    split
    · next hn =>
      rw [Int.sign_eq_neg_one_of_neg hn, neg_one_mul, neg_smul, natCast_zsmul, smul_neg]
    · next hn =>
      rcases eq_or_ne k.2 0 with h0 | h0
      · simp [h0, aligned]
      · rw [Int.sign_eq_one_of_pos (by omega), one_mul, natCast_zsmul]
  rw [a1, a2] at hr
  exact hr

end Tachyon.MSM
