import Verif.Model.Bits
import Mathlib.Tactic.Ring
import Mathlib.Tactic.Linarith
import Mathlib.Data.Nat.Log
/-! # Lemmas about `base/bits.h` -/
namespace Tachyon.Bits

variable {w : ℕ}

theorem isPowerOfTwo_iff (v : BitVec w) : isPowerOfTwo v = true ↔ ∃ k, v.toNat = 2 ^ k := by
  have hv := v.isLt
  rw [isPowerOfTwo, Bool.and_eq_true, decide_eq_true_eq, beq_iff_eq]
  have key := Nat.ne_zero_and_sub_one_eq_zero_iff_isPowerOfTwo (n := v.toNat)
  rw [Nat.isPowerOfTwo] at key
  rw [← key]
  rw [BitVec.lt_def, ← BitVec.toNat_inj, BitVec.toNat_and]
  simp only [BitVec.toNat_ofNat, Nat.zero_mod]
  constructor
  · rintro ⟨h0, h⟩
    refine ⟨by omega, ?_⟩
    rwa [BitVec.toNat_sub_of_le, BitVec.toNat_ofNat, Nat.mod_eq_of_lt] at h
    · omega
    · rw [BitVec.le_def, BitVec.toNat_ofNat, Nat.mod_eq_of_lt] <;> omega
  · rintro ⟨h0, h⟩
    refine ⟨by omega, ?_⟩
    rwa [BitVec.toNat_sub_of_le, BitVec.toNat_ofNat, Nat.mod_eq_of_lt]
    · omega
    · rw [BitVec.le_def, BitVec.toNat_ofNat, Nat.mod_eq_of_lt] <;> omega

theorem toNat_and_not_mask {x a : BitVec w} {k : ℕ} (ha : a.toNat = 2 ^ k) :
    (x &&& ~~~(a - 1#w)).toNat = x.toNat - x.toNat % 2 ^ k := by
  have hk : k < w := by
    have := a.isLt
    rw [ha] at this
    exact (Nat.pow_lt_pow_iff_right (by norm_num)).1 this
  have hm : (a - 1#w).toNat = 2 ^ k - 1 := by
    have hp := Nat.two_pow_pos k
    have hlt : 2 ^ k < 2 ^ w := Nat.pow_lt_pow_right (by norm_num) hk
    rw [BitVec.toNat_sub_of_le, BitVec.toNat_ofNat, Nat.mod_eq_of_lt (by omega), ha]
    rw [BitVec.le_def, BitVec.toNat_ofNat, Nat.mod_eq_of_lt (by omega)]; omega
  have e : x &&& ~~~(a - 1#w) = (x >>> k) <<< k := by
    apply BitVec.eq_of_getLsbD_eq
    intro i hi
    rw [BitVec.getLsbD_and, BitVec.getLsbD_not, BitVec.getLsbD_shiftLeft, BitVec.getLsbD_ushiftRight,
      BitVec.getLsbD, BitVec.getLsbD, hm, Nat.testBit_two_pow_sub_one]
    by_cases h : i < k
    · simp [h, hi]
    · simp [h, hi, BitVec.getLsbD, show k + (i - k) = i by omega]
  rw [e, BitVec.toNat_shiftLeft, BitVec.toNat_ushiftRight, Nat.shiftRight_eq_div_pow,
    Nat.shiftLeft_eq]
  have h1 := Nat.div_add_mod x.toNat (2 ^ k)
  have h2 := x.isLt
  have h3 : x.toNat / 2 ^ k * 2 ^ k = 2 ^ k * (x.toNat / 2 ^ k) := Nat.mul_comm _ _
  rw [Nat.mod_eq_of_lt (by omega)]
  omega

theorem clzGo_eq (v : BitVec w) (i : ℕ) (h : v.toNat < 2 ^ i) (h0 : v ≠ 0#w) :
    clzGo v i = i - 1 - Nat.log2 v.toNat := by
  have hv : v.toNat ≠ 0 := fun h => h0 (BitVec.eq_of_toNat_eq (by simpa using h))
  induction i with
  | zero => rw [pow_zero] at h; omega
  | succ i ih =>
    rw [clzGo, BitVec.getLsbD]
    by_cases hb : v.toNat.testBit i
    · rw [if_pos hb]
      have := (Nat.le_log2 hv).2 (Nat.ge_two_pow_of_testBit hb)
      omega
    · rw [if_neg hb]
      have hlt : v.toNat < 2 ^ i := by
        by_contra hc
        obtain ⟨j, hj, hjb⟩ := Nat.exists_ge_and_testBit_of_ge_two_pow (Nat.le_of_not_lt hc)
        have : j ≠ i := by rintro rfl; exact hb hjb
        have := Nat.ge_two_pow_of_testBit hjb
        have : 2 ^ (i + 1) ≤ 2 ^ j := Nat.pow_le_pow_right (by norm_num) (by omega)
        omega
      rw [ih hlt]
      have := (Nat.log2_lt hv).2 hlt
      omega

theorem countLeadingZeroBits_eq {v : BitVec w} (h : v ≠ 0#w) :
    countLeadingZeroBits v = w - 1 - Nat.log2 v.toNat ∧ Nat.log2 v.toNat < w := by
  have hv : v.toNat ≠ 0 := fun h' => h (BitVec.eq_of_toNat_eq (by simpa using h'))
  rw [countLeadingZeroBits, if_pos h]
  exact ⟨clzGo_eq v w v.isLt h, (Nat.log2_lt hv).2 v.isLt⟩

theorem ctzGo_spec (v : BitVec w) (n : ℕ) (hn : n ≤ w) :
    ctzGo v n ≤ n ∧ (∀ j < ctzGo v n, v.getLsbD (w - n + j) = false) ∧
      (ctzGo v n < n → v.getLsbD (w - n + ctzGo v n) = true) := by
  induction n with
  | zero => simp [ctzGo]
  | succ n ih =>
    obtain ⟨h1, h2, h3⟩ := ih (by omega)
    rw [ctzGo]
    by_cases hb : v.getLsbD (w - (n + 1)) = true
    · simp [hb]
    · simp only [hb, Bool.false_eq_true, if_false]
      refine ⟨by omega, ?_, ?_⟩
      · intro j hj
        rcases Nat.eq_zero_or_pos j with rfl | hj0
        · simpa using hb
        · have := h2 (j - 1) (by omega)
          rwa [show w - n + (j - 1) = w - (n + 1) + j by omega] at this
      · intro hlt
        have := h3 (by omega)
        rwa [show w - n + ctzGo v n = w - (n + 1) + (ctzGo v n + 1) by omega] at this

theorem countTrailingZeroBits_spec {v : BitVec w} (h : v ≠ 0#w) :
    v.toNat % 2 ^ countTrailingZeroBits v = 0 ∧ v.toNat.testBit (countTrailingZeroBits v) = true := by
  rw [countTrailingZeroBits, if_pos h]
  obtain ⟨h1, h2, h3⟩ := ctzGo_spec v w le_rfl
  simp only [Nat.sub_self, Nat.zero_add] at h2 h3
  have hlt : ctzGo v w < w := by
    rcases Nat.lt_or_ge (ctzGo v w) w with hlt | hge
    · exact hlt
    · exact absurd (BitVec.eq_of_getLsbD_eq fun i hi => by
        rw [h2 i (by omega)]; simp) h
  refine ⟨?_, h3 hlt⟩
  apply Nat.eq_of_testBit_eq
  intro i
  rw [Nat.testBit_mod_two_pow, Nat.zero_testBit]
  by_cases hi : i < ctzGo v w
  · have := h2 i hi
    rw [BitVec.getLsbD] at this
    simp [this]
  · simp [hi]

theorem countTrailingZeroBits_pow {v : BitVec w} {k : ℕ} (h : v.toNat = 2 ^ k) :
    countTrailingZeroBits v = k := by
  have h0 : v ≠ 0#w := by
    rintro rfl
    have := Nat.two_pow_pos k
    simp at h
    omega
  obtain ⟨h1, h2⟩ := countTrailingZeroBits_spec h0
  rw [h, Nat.testBit_two_pow] at h2
  simp only [decide_eq_true_eq] at h2
  exact h2.symm

theorem bitRevGo_spec (fuel : ℕ) (N n rev : BitVec 64) (count t : ℕ)
    (hn : n = N >>> t) (ht : count = 63 - t) (ht' : t ≤ 63)
    (hrev : ∀ j ≤ t, rev.getLsbD j = N.getLsbD (t - j))
    (hf : N.toNat < 2 ^ (t + fuel)) :
    ∀ i < 64, ((bitRevGo fuel n rev count).1 <<< (bitRevGo fuel n rev count).2).getLsbD i
      = N.getLsbD (63 - i) := by
  have fin : (∀ j, t < j → N.getLsbD j = false) → ∀ i < 64,
      (rev <<< count).getLsbD i = N.getLsbD (63 - i) := by
    intro hz i hi
    rw [BitVec.getLsbD_shiftLeft, ht]
    by_cases h : i < 63 - t
    · rw [hz (63 - i) (by omega)]; simp [h]
    · rw [hrev _ (by omega), show t - (i - (63 - t)) = 63 - i by omega]
      simp [h, hi]
  induction fuel generalizing n rev count t with
  | zero =>
    rw [bitRevGo]
    refine fin fun j hj => ?_
    rw [BitVec.getLsbD]
    exact Nat.testBit_lt_two_pow (lt_of_lt_of_le hf (Nat.pow_le_pow_right (by norm_num) (by omega)))
  | succ fuel ih =>
    rw [bitRevGo]
    split
    · rename_i hlt
      have hlt' : 0 < N.toNat / 2 ^ (t + 1) := by
        rw [hn, BitVec.lt_def] at hlt
        simp only [BitVec.toNat_ushiftRight, Nat.shiftRight_eq_div_pow, BitVec.toNat_ofNat,
          Nat.zero_mod, Nat.div_div_eq_div_mul] at hlt
        rwa [pow_succ]
      have ht63 : t < 63 := by
        by_contra hc
        have hN := N.isLt
        have : 2 ^ 64 ≤ 2 ^ (t + 1) := Nat.pow_le_pow_right (by norm_num) (by omega)
        rw [Nat.div_eq_of_lt (lt_of_lt_of_le hN this)] at hlt'
        omega
      have e1 : n >>> 1 = N >>> (t + 1) := by rw [hn, BitVec.shiftRight_add]
      have hrev' : ∀ j ≤ t + 1, ((rev <<< 1) ||| (n >>> 1 &&& 1#64)).getLsbD j = N.getLsbD (t + 1 - j) := by
        intro j hj
        rw [BitVec.getLsbD_or, BitVec.getLsbD_shiftLeft, BitVec.getLsbD_and, e1,
          BitVec.getLsbD_ushiftRight]
        rcases Nat.eq_zero_or_pos j with rfl | hj0
        · simp
        · rw [hrev (j - 1) (by omega), show t - (j - 1) = t + 1 - j by omega]
          have : (1#64).getLsbD j = false := by
            rw [BitVec.getLsbD_one]; simp; omega
          rw [this, Bool.and_false, Bool.or_false]
          simp [show j < 64 by omega, show ¬ j < 1 by omega]
      refine ih (n >>> 1) _ _ (t + 1) e1 (by omega) (by omega) hrev' ?_ ?_
      · rwa [show t + 1 + fuel = t + (fuel + 1) by omega]
      · intro hz i hi
        rw [BitVec.getLsbD_shiftLeft]
        by_cases h : i < count - 1
        · rw [hz (63 - i) (by omega)]; simp [h]
        · rw [hrev' _ (by omega), show t + 1 - (i - (count - 1)) = 63 - i by omega]
          simp [h, hi]
    · rename_i hlt
      refine fin fun j hj => ?_
      have hz : n >>> 1 = 0#64 := by
        apply BitVec.eq_of_toNat_eq
        rw [BitVec.lt_def] at hlt
        simp only [BitVec.toNat_ofNat, Nat.zero_mod] at hlt ⊢
        omega
      have := congrArg (fun b => BitVec.getLsbD b (j - (t + 1))) hz
      rw [hn, ← BitVec.shiftRight_add] at this
      simp only [BitVec.getLsbD_ushiftRight] at this
      rw [show t + 1 + (j - (t + 1)) = j by omega] at this
      simpa using this

theorem bitRev_getLsbD (n : BitVec 64) {i : ℕ} (hi : i < 64) :
    (bitRev n).getLsbD i = n.getLsbD (63 - i) :=
  bitRevGo_spec 64 n n n 63 0 (by simp) rfl (by omega) (by simp) (by simpa using n.isLt) i hi

theorem reverseBitsLen_getLsbD (x : BitVec 64) {len : ℕ} (h0 : 0 < len) (h : len ≤ 64) :
    ∃ r, reverseBitsLen x len = some r ∧ r.toNat < 2 ^ len ∧
      ∀ i < len, r.getLsbD i = x.getLsbD (len - 1 - i) := by
  refine ⟨_, by rw [reverseBitsLen, if_neg (by omega)], ?_, ?_⟩
  · rw [BitVec.toNat_ushiftRight, Nat.shiftRight_eq_div_pow]
    apply Nat.div_lt_of_lt_mul
    rw [← pow_add, show 64 - len + len = 64 by omega]
    exact (bitRev x).isLt
  · intro i hi
    rw [BitVec.getLsbD_ushiftRight, bitRev_getLsbD x (by omega)]
    congr 1; omega

end Tachyon.Bits
