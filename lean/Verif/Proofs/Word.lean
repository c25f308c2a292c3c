import Verif.Model.Word
import Mathlib.Tactic.Ring
import Mathlib.Tactic.Linarith
import Mathlib.Tactic.LinearCombination

namespace Tachyon

variable {w : Nat}

theorem mulAdd_spec (a b c d : BitVec w) :
    (mulAddWithCarry a b c d).lo.toNat + 2 ^ w * (mulAddWithCarry a b c d).hi.toNat
      = a.toNat + b.toNat * c.toNat + d.toNat := by
  have ha := a.isLt; have hb := b.isLt; have hc := c.isLt; have hd := d.isLt
  have hpos : 0 < 2 ^ w := Nat.two_pow_pos w
  have hw : (2 ^ (2 * w) : Nat) = 2 ^ w * 2 ^ w := by rw [two_mul, pow_add]
  have hbc : b.toNat * c.toNat ≤ (2 ^ w - 1) * (2 ^ w - 1) := Nat.mul_le_mul (by omega) (by omega)
  obtain ⟨B, hB⟩ : ∃ B, 2 ^ w = B + 1 := ⟨2 ^ w - 1, by omega⟩
  have hlt : a.toNat + b.toNat * c.toNat + d.toNat < 2 ^ (2 * w) := by
    rw [hw, hB]; rw [hB] at ha hb hc hd hbc
    simp only [Nat.add_sub_cancel] at hbc
    nlinarith
  have hx : ∀ x : BitVec w, x.toNat < 2 ^ (2 * w) := fun x =>
    lt_of_lt_of_le x.isLt (Nat.pow_le_pow_right (by omega) (by omega))
  have ht : (a.setWidth (2 * w) + b.setWidth (2 * w) * c.setWidth (2 * w) +
      d.setWidth (2 * w)).toNat = a.toNat + b.toNat * c.toNat + d.toNat := by
    simp only [BitVec.toNat_add, BitVec.toNat_mul, BitVec.toNat_setWidth]
    rw [Nat.mod_eq_of_lt (hx a), Nat.mod_eq_of_lt (hx b), Nat.mod_eq_of_lt (hx c),
      Nat.mod_eq_of_lt (hx d)]
    simp only [Nat.add_mod_mod, Nat.mod_add_mod]
    exact Nat.mod_eq_of_lt hlt
  simp only [mulAddWithCarry, BitVec.toNat_setWidth, BitVec.toNat_ushiftRight, ht,
    Nat.shiftRight_eq_div_pow]
  rw [Nat.mod_eq_of_lt (a := _ / _) (by rw [Nat.div_lt_iff_lt_mul hpos, ← hw]; exact hlt)]
  exact Nat.mod_add_div _ _

theorem addWithCarry_spec (hw0 : 0 < w) (a b c : BitVec w) (hc : c.toNat ≤ 1) :
    (addWithCarry a b c).result.toNat + 2 ^ w * (addWithCarry a b c).carry.toNat
      = a.toNat + b.toNat + c.toNat ∧ (addWithCarry a b c).carry.toNat ≤ 1 := by
  have ha := a.isLt; have hb := b.isLt; have hcl := c.isLt
  have hpos : 0 < 2 ^ w := Nat.two_pow_pos w
  have h2 : 2 ≤ 2 ^ w := by
    calc 2 = 2 ^ 1 := rfl
      _ ≤ 2 ^ w := Nat.pow_le_pow_right (by omega) hw0
  have hw : (2 ^ (2 * w) : Nat) = 2 ^ w * 2 ^ w := by rw [two_mul, pow_add]
  have hlt2 : a.toNat + b.toNat + c.toNat < 2 ^ w * 2 := by omega
  have hlt : a.toNat + b.toNat + c.toNat < 2 ^ (2 * w) := by
    rw [hw]; exact lt_of_lt_of_le hlt2 (Nat.mul_le_mul_left _ h2)
  have hx : ∀ x : BitVec w, x.toNat < 2 ^ (2 * w) := fun x =>
    lt_of_lt_of_le x.isLt (Nat.pow_le_pow_right (by omega) (by omega))
  have ht : (a.setWidth (2 * w) + b.setWidth (2 * w) +
      c.setWidth (2 * w)).toNat = a.toNat + b.toNat + c.toNat := by
    simp only [BitVec.toNat_add, BitVec.toNat_setWidth]
    rw [Nat.mod_eq_of_lt (hx a), Nat.mod_eq_of_lt (hx b), Nat.mod_eq_of_lt (hx c)]
    simp only [Nat.mod_add_mod]
    exact Nat.mod_eq_of_lt hlt
  have hdiv : (a.toNat + b.toNat + c.toNat) / 2 ^ w < 2 := by
    rw [Nat.div_lt_iff_lt_mul hpos]; omega
  simp only [addWithCarry, BitVec.toNat_setWidth, BitVec.toNat_ushiftRight, ht,
    Nat.shiftRight_eq_div_pow]
  rw [Nat.mod_eq_of_lt (a := _ / _) (by omega)]
  exact ⟨Nat.mod_add_div _ _, by omega⟩

theorem subWithBorrow_spec (a b c : BitVec w) (hw0 : 0 < w) (hc : c.toNat ≤ 1) :
    (subWithBorrow a b c).result.toNat + b.toNat + c.toNat
      = a.toNat + 2 ^ w * (subWithBorrow a b c).borrow.toNat ∧
    (subWithBorrow a b c).borrow.toNat ≤ 1 := by
  have ha := a.isLt; have hb := b.isLt
  have h2 : 2 ≤ 2 ^ w := by
    calc 2 = 2 ^ 1 := rfl
      _ ≤ 2 ^ w := Nat.pow_le_pow_right (by omega) hw0
  simp only [subWithBorrow, BitVec.toNat_sub]
  generalize ha' : a.toNat = A at *
  generalize hb' : b.toNat = B at *
  generalize hc' : c.toNat = C at *
  generalize hp : 2 ^ w = P at *
  have h1 : (1#w).toNat = 1 := by
    rw [BitVec.toNat_ofNat, hp]; exact Nat.mod_eq_of_lt (by omega)
  have h0 : (0#w).toNat = 0 := BitVec.toNat_zero
  have hmod : (P - C + (P - B + A) % P) % P = if A < B + C then A + P - (B + C) else A - (B + C) := by
    by_cases hAB : A < B
    · rw [Nat.mod_eq_of_lt (a := P - B + A) (by omega)]
      split
      · rw [show P - C + (P - B + A) = (A + P - (B + C)) + P by omega, Nat.add_mod_right,
          Nat.mod_eq_of_lt (by omega)]
      · omega
    · rw [show P - B + A = (A - B) + P by omega, Nat.add_mod_right, Nat.mod_eq_of_lt (a := A - B) (by omega)]
      split
      · rw [Nat.mod_eq_of_lt (by omega)]; omega
      · rw [show P - C + (A - B) = (A - (B + C)) + P by omega, Nat.add_mod_right,
          Nat.mod_eq_of_lt (by omega)]
  rw [hmod]
  split
  · rw [h1]; omega
  · rw [h0]; omega

end Tachyon
