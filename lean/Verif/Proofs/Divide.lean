import Verif.Proofs.Montgomery

namespace Tachyon.BigInt

variable {w : Nat}

/-! ## Bits -/

theorem limbsVal_testBit : ∀ (a : Limbs w) (i : Nat), 0 < w →
    (limbsVal a).testBit i = ((a[i / w]?).getD 0#w).getLsbD (i % w)
  | [], i, hw => by simp
  | x :: xs, i, hw => by
    rw [limbsVal_cons, Nat.add_comm, Nat.testBit_two_pow_mul_add _ x.isLt]
    split
    · rename_i h
      rw [Nat.div_eq_of_lt h, Nat.mod_eq_of_lt h]
      rfl
    · rename_i h
      rw [limbsVal_testBit xs (i - w) hw]
      have h1 : i / w = (i - w) / w + 1 := by
        rw [Nat.div_eq_sub_div hw (by omega)]
      have h2 : i % w = (i - w) % w := Nat.mod_eq_sub_mod (by omega)
      rw [h1, h2, List.getElem?_cons_succ]

theorem and_one_shl (l : BitVec w) (k : Nat) (hk : k < w) :
    ((l &&& (1#w <<< k)) == (1#w <<< k)) = l.getLsbD k := by
  rw [Bool.eq_iff_iff, beq_iff_eq]
  constructor
  · intro h
    have := congrArg (·.getLsbD k) h
    simp [hk] at this
    rw [BitVec.getLsbD_eq_getElem hk]; simpa using this
  · intro h
    apply BitVec.eq_of_getLsbD_eq
    intro i hi
    simp only [BitVec.getLsbD_and, BitVec.getLsbD_shiftLeft, hi, decide_true, Bool.true_and]
    by_cases hik : i < k
    · simp [hik]
    · by_cases he : i = k
      · subst he; simp [h]
      · have : (1#w).getLsbD (i - k) = false := by
          rw [BitVec.getLsbD_one]; simp; omega
        simp [this]

theorem testBit_spec (hw : 0 < w) (a : Limbs w) (i : Nat) :
    testBit a i = (limbsVal a).testBit i := by
  rw [limbsVal_testBit a i hw, testBit]
  cases h : a[i / w]? with
  | none => simp
  | some l => simp only [Option.getD_some]; exact and_one_shl l _ (Nat.mod_lt _ hw)

theorem one_shl_getLsbD (k i : Nat) (hk : k < w) : (1#w <<< k).getLsbD i = decide (i = k) := by
  rw [BitVec.getLsbD_shiftLeft]
  by_cases hik : i < k
  · simp [hik]; omega
  · by_cases he : i = k
    · subst he
      have : 0 < w := by omega
      simp [hk, this]
    · have : (1#w).getLsbD (i - k) = false := by
        rw [BitVec.getLsbD_one]; simp; omega
      simp [this, he]

theorem setBit1_length (a : Limbs w) (i : Nat) : (setBit1 a i).length = a.length := by
  unfold setBit1; split <;> simp

theorem setBit0_length (a : Limbs w) (i : Nat) : (setBit0 a i).length = a.length := by
  unfold setBit0; split <;> simp

theorem div_mod_eq {w i j : Nat} (h1 : j / w = i / w) (h2 : j % w = i % w) : j = i := by
  rw [← Nat.div_add_mod j w, ← Nat.div_add_mod i w, h1, h2]

theorem setBit1_spec (hw : 0 < w) (a : Limbs w) (i : Nat) (hi : i < w * a.length) :
    limbsVal (setBit1 a i) = limbsVal a ||| 2 ^ i := by
  have hlt : i / w < a.length := by
    rw [Nat.div_lt_iff_lt_mul hw, Nat.mul_comm]; exact hi
  unfold setBit1
  rw [List.getElem?_eq_getElem hlt]
  apply Nat.eq_of_testBit_eq
  intro j
  rw [limbsVal_testBit _ _ hw, Nat.testBit_or, limbsVal_testBit _ _ hw, List.getElem?_set]
  rw [Nat.testBit_two_pow]
  by_cases h : i / w = j / w
  · rw [if_pos h, if_pos hlt, ← h, List.getElem?_eq_getElem hlt]
    simp only [Option.getD_some, BitVec.getLsbD_or]
    rw [one_shl_getLsbD _ _ (Nat.mod_lt _ hw)]
    congr 2
    apply propext
    exact ⟨fun h2 => (div_mod_eq h.symm h2).symm, fun h2 => by rw [h2]⟩
  · rw [if_neg h]
    have : i ≠ j := fun he => h (by rw [he])
    simp [this]

theorem setBit0_spec (hw : 0 < w) (a : Limbs w) (i j : Nat) (hi : i < w * a.length) :
    (limbsVal (setBit0 a i)).testBit j = ((limbsVal a).testBit j && decide (j ≠ i)) := by
  have hlt : i / w < a.length := by
    rw [Nat.div_lt_iff_lt_mul hw, Nat.mul_comm]; exact hi
  unfold setBit0
  rw [List.getElem?_eq_getElem hlt]
  rw [limbsVal_testBit _ _ hw, limbsVal_testBit _ _ hw, List.getElem?_set]
  by_cases h : i / w = j / w
  · rw [if_pos h, if_pos hlt, ← h, List.getElem?_eq_getElem hlt]
    simp only [Option.getD_some, BitVec.getLsbD_and, BitVec.getLsbD_not]
    rw [one_shl_getLsbD _ _ (Nat.mod_lt _ hw)]
    have hj : j % w < w := Nat.mod_lt _ hw
    simp only [hj, decide_true, Bool.true_and]
    congr 1
    rw [← decide_not]
    congr 1
    apply propext
    exact ⟨fun h2 h3 => h2 (by rw [h3]), fun h2 h3 => h2 (div_mod_eq h.symm h3)⟩
  · rw [if_neg h]
    have : j ≠ i := fun he => h (by rw [he])
    simp [this]

/-! ## Division -/

theorem orLow_spec (hw : 0 < w) (b : Bool) (a : Limbs w) (h0 : 0 < a.length)
    (he : limbsVal a % 2 = 0) :
    limbsVal (orLow b a) = limbsVal a + b.toNat ∧ (orLow b a).length = a.length := by
  cases a with
  | nil => simp at h0
  | cons x xs =>
    rw [limbsVal_mod_two hw] at he
    refine ⟨?_, by simp [orLow]⟩
    have h2 : 2 ≤ 2 ^ w := by
      calc 2 = 2 ^ 1 := rfl
        _ ≤ 2 ^ w := Nat.pow_le_pow_right (by omega) hw
    simp only [orLow, limbsVal_cons, BitVec.toNat_or]
    cases b with
    | false => simp
    | true =>
      simp only [if_true, BitVec.toNat_ofNat, Nat.mod_eq_of_lt (by omega : 1 < 2 ^ w),
        Bool.toNat_true]
      have := or_eq_add_of_lt (x := x.toNat / 2) (y := 1) (k := 1) (by omega)
      rw [pow_one, show 2 * (x.toNat / 2) = x.toNat by omega] at this
      omega

theorem divideGo_spec (hw : 0 < w) (this d : Limbs w) (hl : d.length = this.length)
    (hd : 0 < limbsVal d) : ∀ (i : Nat) (q r : Limbs w), i ≤ w * this.length →
    q.length = this.length → r.length = this.length → limbsVal r < limbsVal d →
    2 ^ i ∣ limbsVal q →
    2 ^ i * (limbsVal this / 2 ^ i) = limbsVal q * limbsVal d + 2 ^ i * limbsVal r →
    ∃ q' r', divideGo this d i q r = some (q', r') ∧ q'.length = this.length ∧
      r'.length = this.length ∧ limbsVal r' < limbsVal d ∧
      limbsVal this = limbsVal q' * limbsVal d + limbsVal r'
  | 0, q, r, _, hq, hr, hrd, _, hinv => ⟨q, r, rfl, hq, hr, hrd, by simpa using hinv⟩
  | i + 1, q, r, hi, hq, hr, hrd, hdvd, hinv => by
    obtain ⟨h1, h2, h3⟩ := mulBy2_spec hw r 0#w (by simp)
    have hlpos : 0 < this.length := by
      rcases Nat.eq_zero_or_pos this.length with h | h
      · rw [h] at hi; simp at hi
      · exact h
    have hdl := limbsVal_lt d
    rw [hl] at hdl
    have hpow : 2 * 2 ^ (w * this.length - 1) = 2 ^ (w * this.length) := by
      rw [← pow_succ']; congr 1; omega
    -- the doubled remainder is even
    have heven : limbsVal (mulBy2 r 0#w).1 % 2 = 0 := by
      simp only [BitVec.toNat_ofNat, Nat.zero_mod, Nat.add_zero] at h1
      rw [hr, ← hpow, Nat.mul_assoc] at h1
      omega
    obtain ⟨h4, h5⟩ := orLow_spec hw (testBit this i) (mulBy2 r 0#w).1 (by rw [h3, hr]; exact hlpos)
      heven
    rw [testBit_spec hw] at h4 h5
    simp only [divideGo, testBit_spec hw]
    generalize hR1 : orLow ((limbsVal this).testBit i) (mulBy2 r 0#w).1 = r1 at *
    generalize hC : (mulBy2 r 0#w).2 = carry at *
    have hr1len : r1.length = this.length := by rw [h5, h3, hr]
    have hr1lt := limbsVal_lt r1
    rw [hr1len] at hr1lt
    simp only [BitVec.toNat_ofNat, Nat.zero_mod, Nat.add_zero, hr] at h1
    -- exact new remainder
    have hnew : limbsVal r1 + 2 ^ (w * this.length) * carry.toNat =
        2 * limbsVal r + ((limbsVal this).testBit i).toNat := by omega
    have hbit : limbsVal this / 2 ^ i = 2 * (limbsVal this / 2 ^ (i + 1)) +
        ((limbsVal this).testBit i).toNat := by
      rw [Nat.toNat_testBit, pow_succ, ← Nat.div_div_eq_div_mul]
      omega
    have hinv' : 2 ^ i * (limbsVal this / 2 ^ i) = limbsVal q * limbsVal d +
        2 ^ i * (limbsVal r1 + 2 ^ (w * this.length) * carry.toNat) := by
      rw [hnew, hbit]
      linear_combination hinv
    have hble : ((limbsVal this).testBit i).toNat ≤ 1 := Bool.toNat_le _
    have hdvd' : 2 ^ i ∣ limbsVal q := dvd_trans (pow_dvd_pow 2 (by omega)) hdvd
    have hcond : (ge r1 d || carry != 0#w) =
        decide (limbsVal d ≤ limbsVal r1 + 2 ^ (w * this.length) * carry.toNat) := by
      rw [ge_spec r1 d (by omega)]
      by_cases hc0 : carry = 0#w
      · subst hc0; simp
      · have : carry.toNat = 1 := by
          have : carry.toNat ≠ 0 := fun h0 => hc0 (BitVec.eq_of_toNat_eq (by simpa using h0))
          omega
        rw [this, bne, beq_false_of_ne hc0]
        simp only [Bool.not_false, Bool.or_true, Nat.mul_one]
        symm; rw [decide_eq_true_eq]; omega
    rw [hcond]
    split
    · rename_i hge
      rw [decide_eq_true_eq] at hge
      -- quotient bit
      have hq1 : limbsVal (setBit1 q i) = limbsVal q + 2 ^ i := by
        rw [setBit1_spec hw q i (by rw [hq]; omega)]
        obtain ⟨k, hk⟩ := hdvd
        rw [hk, or_eq_add_of_lt (by rw [pow_succ]; have := Nat.two_pow_pos i; omega)]
      have hdvd1 : 2 ^ i ∣ limbsVal (setBit1 q i) := by
        rw [hq1]; exact Nat.dvd_add hdvd' (dvd_refl _)
      have hsub : limbsVal (sub r1 d).1 =
          limbsVal r1 + 2 ^ (w * this.length) * carry.toNat - limbsVal d ∧ (sub r1 d).2 = carry := by
        by_cases hle : limbsVal d ≤ limbsVal r1
        · have := sub_val_of_le hw r1 d (by omega) hle
          have hc0 : carry.toNat = 0 := by
            by_contra hne
            have : carry.toNat = 1 := by omega
            rw [this] at hnew; omega
          rw [this.1, this.2, hc0]
          exact ⟨by omega, BitVec.eq_of_toNat_eq (by simpa using hc0.symm)⟩
        · have := sub_val_of_lt hw r1 d (by omega) (by omega)
          have hc1 : carry.toNat = 1 := by
            by_contra hne
            have : carry.toNat = 0 := by omega
            rw [this] at hge; omega
          rw [this.1, hc1, hr1len]
          exact ⟨by omega, BitVec.eq_of_toNat_eq (by rw [this.2, hc1])⟩
      rw [hsub.2]
      simp only [bne_self_eq_false, Bool.false_eq_true, if_false]
      have := divideGo_spec hw this d hl hd i (setBit1 q i) (sub r1 d).1 (by omega)
        (by rw [setBit1_length, hq]) (by rw [(sub_spec hw r1 d (by omega)).2.2, hr1len])
        (by rw [hsub.1]; omega) hdvd1 (by
          rw [hsub.1, hq1, hinv']
          obtain ⟨e, he⟩ := Nat.exists_eq_add_of_le hge
          rw [he, Nat.add_sub_cancel_left]; ring)
      exact this
    · rename_i hlt
      simp only [decide_eq_true_eq, not_le] at hlt
      have hc0 : carry.toNat = 0 := by
        by_contra hne
        have : carry.toNat = 1 := by omega
        rw [this] at hlt; omega
      rw [hc0] at hinv' hlt
      exact divideGo_spec hw this d hl hd i q r1 (by omega) hq hr1len (by omega) hdvd'
        (by simpa using hinv')

theorem divide_spec (hw : 0 < w) (a d : Limbs w) (hl : d.length = a.length)
    (hd : limbsVal d ≠ 0) :
    ∃ q r, divide a d = some (q, r) ∧ q.length = a.length ∧ r.length = a.length ∧
      limbsVal q = limbsVal a / limbsVal d ∧ limbsVal r = limbsVal a % limbsVal d := by
  unfold divide
  rw [isZero_spec]
  simp only [hd, decide_false, Bool.false_eq_true, if_false]
  obtain ⟨q, r, h1, h2, h3, h4, h5⟩ := divideGo_spec hw a d hl (by omega) (w * a.length)
    (zero a.length) (zero a.length) le_rfl (by simp) (by simp) (by simp; omega) (by simp) (by
      rw [Nat.div_eq_of_lt (limbsVal_lt a)]; simp)
  refine ⟨q, r, h1, h2, h3, ?_, ?_⟩
  · rw [h5, Nat.mul_comm, Nat.mul_add_div (by omega), Nat.div_eq_of_lt h4, Nat.add_zero]
  · rw [h5, Nat.mul_comm, Nat.mul_add_mod, Nat.mod_eq_of_lt h4]

theorem mod_spec (hw : 0 < w) (a d : Limbs w) (hl : d.length = a.length)
    (hd : limbsVal d ≠ 0) :
    limbsVal (mod a d) = limbsVal a % limbsVal d ∧ (mod a d).length = a.length := by
  obtain ⟨q, r, h1, _, h3, _, h5⟩ := divide_spec hw a d hl hd
  unfold mod; rw [h1]; exact ⟨h5, h3⟩

theorem extend_spec (n2 : Nat) (a : Limbs w) (h : a.length ≤ n2) :
    limbsVal (extend n2 a) = limbsVal a ∧ (extend n2 a).length = n2 := by
  unfold extend
  rw [limbsVal_append]; simp; omega

theorem shrink_spec (n2 : Nat) (a : Limbs w) (h : n2 ≤ a.length) :
    limbsVal (shrink n2 a) = limbsVal a % 2 ^ (w * n2) ∧ (shrink n2 a).length = n2 := by
  unfold shrink
  have hl : (a.take n2).length = n2 := by simp; omega
  refine ⟨?_, hl⟩
  have : a = a.take n2 ++ a.drop n2 := (List.take_append_drop _ _).symm
  conv_rhs => rw [this, limbsVal_append, hl]
  have := limbsVal_lt (a.take n2)
  rw [hl] at this
  rw [Nat.add_mul_mod_self_left, Nat.mod_eq_of_lt this]

theorem montgomeryRk_spec (hw : 0 < w) (k : Nat) (hk : 0 < k) (m : Limbs w)
    (hm : limbsVal m ≠ 0) :
    limbsVal (montgomeryRk k m) = (2 ^ (w * m.length)) ^ k % limbsVal m ∧
    (montgomeryRk k m).length = m.length := by
  have hkm : m.length ≤ k * m.length := Nat.le_mul_of_pos_left _ hk
  have hone : (1#w).toNat = 1 := by
    have h2 : 2 ≤ 2 ^ w := by
      calc 2 = 2 ^ 1 := rfl
        _ ≤ 2 ^ w := Nat.pow_le_pow_right (by omega) hw
    rw [BitVec.toNat_ofNat]; exact Nat.mod_eq_of_lt (by omega)
  have hx : limbsVal (zero (k * m.length) ++ [1#w]) = (2 ^ (w * m.length)) ^ k := by
    rw [limbsVal_append, limbsVal_zero, length_zero, limbsVal_cons, limbsVal_nil, hone,
      ← pow_mul]
    simp only [Nat.mul_zero, Nat.add_zero, Nat.zero_add, Nat.mul_one]
    congr 1; ring
  obtain ⟨e1, e2⟩ := extend_spec (k * m.length + 1) m (by omega)
  obtain ⟨h1, h2⟩ := mod_spec hw (zero (k * m.length) ++ [1#w]) (extend (k * m.length + 1) m)
    (by rw [e2]; simp) (by rw [e1]; exact hm)
  unfold montgomeryRk
  obtain ⟨h3, h4⟩ := shrink_spec m.length (mod (zero (k * m.length) ++ [1#w])
    (extend (k * m.length + 1) m)) (by rw [h2]; simp; omega)
  refine ⟨?_, h4⟩
  rw [h3, h1, e1, hx, Nat.mod_eq_of_lt]
  exact lt_trans (Nat.mod_lt _ (by omega)) (limbsVal_lt m)

theorem hasSpareBit_spec (hw : 0 < w) (m : Limbs w) :
    hasSpareBit m = true → 2 * limbsVal m ≤ 2 ^ (w * m.length) := by
  unfold hasSpareBit
  cases h : m.getLast? with
  | none => simp
  | some l =>
    intro hs
    obtain ⟨init, rfl⟩ := List.getLast?_eq_some_iff.1 h
    simp only [beq_iff_eq] at hs
    have h0 := congrArg BitVec.toNat hs
    simp only [BitVec.toNat_ushiftRight, Nat.shiftRight_eq_div_pow, BitVec.toNat_ofNat,
      Nat.zero_mod, Nat.div_eq_zero_iff] at h0
    have hl : l.toNat < 2 ^ (w - 1) := h0.resolve_left (Nat.two_pow_pos _).ne'
    have hi := limbsVal_lt init
    rw [limbsVal_append, limbsVal_cons, limbsVal_nil]
    simp only [List.length_append, List.length_cons, List.length_nil, Nat.zero_add, Nat.mul_succ,
      pow_add, Nat.mul_zero, Nat.add_zero]
    have hp : 2 ^ w = 2 * 2 ^ (w - 1) := by rw [← pow_succ']; congr 1; omega
    rw [hp]
    have : 2 ^ (w * init.length) * (l.toNat + 1) ≤ 2 ^ (w * init.length) * 2 ^ (w - 1) :=
      Nat.mul_le_mul_left _ hl
    rw [Nat.mul_succ] at this
    have e : 2 ^ (w * init.length) * (2 * 2 ^ (w - 1)) = 2 * (2 ^ (w * init.length) * 2 ^ (w - 1)) := by
      ring
    rw [e]; omega

end Tachyon.BigInt
