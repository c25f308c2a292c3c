import Verif.Proofs.Square
import Verif.Proofs.Divide
import Verif.Model.PrimeField

namespace Tachyon.PrimeField
open Tachyon.BigInt

variable {w : Nat}

theorem odd_cons {m : Limbs w} (hw : 0 < w) (hodd : limbsVal m % 2 = 1) :
    ∃ m0 ms, m = m0 :: ms ∧ m0.toNat % 2 = 1 := by
  cases m with
  | nil => simp at hodd
  | cons m0 ms => exact ⟨m0, ms, rfl, by rwa [limbsVal_mod_two hw] at hodd⟩

theorem kInverse_spec {m0 : BitVec w} {ms : Limbs w} (hw : 0 < w) (h : m0.toNat % 2 = 1) :
    2 ^ w ∣ m0.toNat * (kInverse (m0 :: ms)).toNat + 1 := modulusInverse_spec hw m0 h

theorem canUseNoCarry_spare (m : Limbs w) : canUseNoCarry m = true → hasSpareBit m = true := by
  unfold canUseNoCarry hasSpareBit
  cases m.getLast? with
  | none => simp
  | some l => simp only [Bool.and_eq_true]; exact fun h => h.1

theorem mul_spec (hw : 0 < w) (m a b : Limbs w) (hodd : limbsVal m % 2 = 1)
    (hla : a.length = m.length) (hlb : b.length = m.length)
    (ha : limbsVal a < limbsVal m) :
    limbsVal (mul m a b) < limbsVal m ∧
    2 ^ (w * m.length) * limbsVal (mul m a b) ≡ limbsVal a * limbsVal b [MOD limbsVal m] ∧
    (mul m a b).length = m.length := by
  obtain ⟨m0, ms, rfl, h0⟩ := odd_cons hw hodd
  unfold mul
  split
  · rename_i h
    exact fastMul_spec hw _ m0 ms _ a b (kInverse_spec hw h0) hla hlb
      (hasSpareBit_spec hw _ (canUseNoCarry_spare _ h)) ha
  · exact slowMul_spec hw _ m0 ms _ a b (kInverse_spec hw h0) hla hlb
      (hasSpareBit_spec hw _) ha

theorem square_spec (hw : 0 < w) (m a : Limbs w) (hodd : limbsVal m % 2 = 1)
    (hla : a.length = m.length) (ha : limbsVal a < limbsVal m) :
    limbsVal (square m a) < limbsVal m ∧
    2 ^ (w * m.length) * limbsVal (square m a) ≡ limbsVal a * limbsVal a [MOD limbsVal m] ∧
    (square m a).length = m.length := by
  unfold square
  split
  · exact mul_spec hw m a a hodd hla hla ha
  · obtain ⟨m0, ms, rfl, h0⟩ := odd_cons hw hodd
    exact squareImpl_spec hw _ m0 ms _ a (kInverse_spec hw h0) hla (hasSpareBit_spec hw _) ha

theorem add_spec (hw : 0 < w) (m a b : Limbs w)
    (hla : a.length = m.length) (hlb : b.length = m.length)
    (ha : limbsVal a < limbsVal m) (hb : limbsVal b < limbsVal m) :
    limbsVal (add m a b) = (limbsVal a + limbsVal b) % limbsVal m ∧
    (add m a b).length = m.length := by
  obtain ⟨h1, h2, h3⟩ := BigInt.add_spec hw a b (by omega)
  rw [hla] at h1 h3
  have := clamp_spec hw (hasSpareBit m) m (BigInt.add a b).1 ((BigInt.add a b).2 != 0#w) h3
    (hasSpareBit_spec hw m) (by rw [bne_zero_toNat _ h2, h1]; omega)
  rw [bne_zero_toNat _ h2, h1] at this
  exact this

theorem double_spec (hw : 0 < w) (m a : Limbs w)
    (hla : a.length = m.length) (ha : limbsVal a < limbsVal m) :
    limbsVal (double m a) = (2 * limbsVal a) % limbsVal m ∧
    (double m a).length = m.length := by
  obtain ⟨h1, h2, h3⟩ := mulBy2_spec hw a 0#w (by simp)
  rw [hla] at h1 h3
  simp only [BitVec.toNat_ofNat, Nat.zero_mod, Nat.add_zero] at h1
  have := clamp_spec hw (hasSpareBit m) m (mulBy2 a 0#w).1 ((mulBy2 a 0#w).2 != 0#w) h3
    (hasSpareBit_spec hw m) (by rw [bne_zero_toNat _ h2, h1]; omega)
  rw [bne_zero_toNat _ h2, h1] at this
  exact this

theorem sub_spec (hw : 0 < w) (m a b : Limbs w)
    (hla : a.length = m.length) (hlb : b.length = m.length)
    (ha : limbsVal a < limbsVal m) (hb : limbsVal b < limbsVal m) :
    limbsVal (sub m a b) = (limbsVal a + (limbsVal m - limbsVal b)) % limbsVal m ∧
    (sub m a b).length = m.length := by
  unfold sub
  rw [gt_spec b a (by omega)]
  have hm := limbsVal_lt m
  split
  · rename_i h
    rw [decide_eq_true_eq] at h
    obtain ⟨h1, h2, h3⟩ := BigInt.add_spec hw a m hla
    rw [hla] at h1 h3
    obtain ⟨h4, h5, h6⟩ := BigInt.sub_spec hw (BigInt.add a m).1 b (by omega)
    rw [h3] at h4 h6
    refine ⟨?_, h6⟩
    rw [Nat.mod_eq_of_lt (by omega)]
    have hlt := limbsVal_lt (BigInt.sub (BigInt.add a m).1 b).1
    rw [h6] at hlt
    generalize (BigInt.add a m).2.toNat = c at *
    generalize (BigInt.sub (BigInt.add a m).1 b).2.toNat = d at *
    generalize 2 ^ (w * m.length) = R at *
    have hc : c = 0 ∨ c = 1 := by omega
    have hd : d = 0 ∨ d = 1 := by omega
    rcases hc with rfl | rfl <;> rcases hd with rfl | rfl <;> omega
  · rename_i h
    rw [decide_eq_true_eq] at h
    have := sub_val_of_le hw a b (by omega) (by omega)
    refine ⟨?_, by rw [(BigInt.sub_spec hw a b (by omega)).2.2, hla]⟩
    rw [this.1, show limbsVal a + (limbsVal m - limbsVal b) = (limbsVal a - limbsVal b) + limbsVal m
      by omega, Nat.add_mod_right, Nat.mod_eq_of_lt (by omega)]

theorem negate_spec (hw : 0 < w) (m a : Limbs w)
    (hla : a.length = m.length) (ha : limbsVal a < limbsVal m) :
    limbsVal (negate m a) = (limbsVal m - limbsVal a) % limbsVal m ∧
    (negate m a).length = m.length := by
  unfold negate
  rw [isZero_spec]
  split
  · rename_i h
    rw [decide_eq_true_eq] at h
    simp [h]
  · rename_i h
    rw [decide_eq_true_eq] at h
    refine ⟨?_, (BigInt.sub_spec hw m a hla.symm).2.2⟩
    rw [(sub_val_of_le hw m a hla.symm ha.le).1, Nat.mod_eq_of_lt (by omega)]

theorem coprime_R (m : Limbs w) (hodd : limbsVal m % 2 = 1) :
    Nat.Coprime (limbsVal m) (2 ^ (w * m.length)) := by
  apply Nat.Coprime.pow_right
  rw [Nat.coprime_comm, Nat.coprime_two_left]; exact Nat.odd_iff.2 hodd

theorem toBigInt_spec (hw : 0 < w) (m a : Limbs w) (hodd : limbsVal m % 2 = 1)
    (hla : a.length = m.length) (ha : limbsVal a < limbsVal m) :
    limbsVal (toBigInt m a) < limbsVal m ∧
    2 ^ (w * m.length) * limbsVal (toBigInt m a) ≡ limbsVal a [MOD limbsVal m] ∧
    (toBigInt m a).length = m.length := by
  obtain ⟨m0, ms, rfl, h0⟩ := odd_cons hw hodd
  have := fromMontgomery_spec m0 ms (kInverse (m0 :: ms)) a (kInverse_spec hw h0) hla (by omega)
  exact ⟨this.2.1 ha, this.2.2.1, this.2.2.2⟩

/-- Uniqueness of the residue: `R x ≡ R y`, both below `m`. -/
theorem cancel_R (m : Limbs w) (hodd : limbsVal m % 2 = 1) {x y : Nat}
    (h : 2 ^ (w * m.length) * x ≡ 2 ^ (w * m.length) * y [MOD limbsVal m])
    (hx : x < limbsVal m) (hy : y < limbsVal m) : x = y :=
  Nat.ModEq.eq_of_lt_of_lt (Nat.ModEq.cancel_left_of_coprime (coprime_R m hodd) h) hx hy

theorem cancel_R_mod (m : Limbs w) (hodd : limbsVal m % 2 = 1) {x y : Nat}
    (h : 2 ^ (w * m.length) * x ≡ 2 ^ (w * m.length) * y [MOD limbsVal m])
    (hx : x < limbsVal m) : x = y % limbsVal m := by
  have := Nat.ModEq.cancel_left_of_coprime (coprime_R m hodd) h
  rw [← Nat.mod_eq_of_lt hx]; exact this

theorem fromBigInt_spec (hw : 0 < w) (m v : Limbs w) (hodd : limbsVal m % 2 = 1)
    (hlv : v.length = m.length) (hv : limbsVal v < limbsVal m) :
    limbsVal (fromBigInt m v) = (2 ^ (w * m.length) * limbsVal v) % limbsVal m ∧
    (fromBigInt m v).length = m.length := by
  obtain ⟨r1, r2⟩ := montgomeryRk_spec hw 2 (by omega) m (by omega)
  obtain ⟨h1, h2, h3⟩ := mul_spec hw m v (montgomeryRk 2 m) hodd hlv r2 hv
  refine ⟨?_, h3⟩
  apply cancel_R_mod m hodd _ h1
  refine h2.trans ?_
  rw [r1]
  refine ((Nat.mod_modEq _ _).mul_left _).trans ?_
  rw [show limbsVal v * (2 ^ (w * m.length)) ^ 2
    = 2 ^ (w * m.length) * (2 ^ (w * m.length) * limbsVal v) by ring]

end Tachyon.PrimeField
