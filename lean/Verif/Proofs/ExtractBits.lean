import Verif.Proofs.Divide
/-!
# Bit windows and bitwise operations of big integers
-/
namespace Tachyon.BigInt
open Tachyon

variable {w : Nat}

theorem mask_testBit (cnt j : Nat) (hc : cnt < w) (hj : j < w) :
    (((1#w <<< cnt) - 1#w).toNat).testBit j = decide (j < cnt) := by
  have h1 : (1#w).toNat = 1 := by
    rw [BitVec.toNat_ofNat]; exact Nat.mod_eq_of_lt (Nat.one_lt_two_pow (by omega))
  have h2 : (1#w <<< cnt).toNat = 2 ^ cnt := by
    rw [BitVec.toNat_shiftLeft, h1, Nat.one_shiftLeft]
    exact Nat.mod_eq_of_lt (Nat.pow_lt_pow_right (by omega) hc)
  rw [BitVec.toNat_sub_of_le, h2, h1, Nat.testBit_two_pow_sub_one]
  rw [BitVec.le_def, h1, h2]; exact Nat.one_le_two_pow

theorem testBit_toNat_of_ge (x : BitVec w) (j : Nat) (h : w ≤ j) : x.toNat.testBit j = false :=
  Nat.testBit_lt_two_pow (lt_of_lt_of_le x.isLt (Nat.pow_le_pow_right (by omega) h))

theorem extractBits_spec (a : Limbs w) (off cnt : Nat) (hc : cnt < w) (ho : off < w * a.length) :
    ∃ x, extractBits a off cnt = some x ∧ x.toNat = limbsVal a / 2 ^ off % 2 ^ cnt := by
  have hw : 0 < w := by omega
  have hlt : off / w < a.length := by
    rw [Nat.div_lt_iff_lt_mul hw, Nat.mul_comm]; exact ho
  have hmod : off % w < w := Nat.mod_lt _ hw
  have hdm : w * (off / w) + off % w = off := Nat.div_add_mod _ _
  -- the bits of the spec
  have hspec : ∀ x : BitVec w, (∀ j, j < cnt → x.toNat.testBit j = (limbsVal a).testBit (off + j)) →
      (x &&& ((1#w <<< cnt) - 1#w)).toNat = limbsVal a / 2 ^ off % 2 ^ cnt := by
    intro x hx
    apply Nat.eq_of_testBit_eq
    intro j
    rw [BitVec.toNat_and, Nat.testBit_and, Nat.testBit_mod_two_pow, Nat.testBit_div_two_pow]
    by_cases hj : j < w
    · rw [mask_testBit cnt j hc hj]
      by_cases hjc : j < cnt
      · simp [hjc, hx j hjc, Nat.add_comm]
      · simp [hjc]
    · rw [testBit_toNat_of_ge x j (by omega)]
      have : ¬ j < cnt := by omega
      simp [this]
  -- reading bit `off + j` of the number
  have hbit : ∀ j, (limbsVal a).testBit (off + j) =
      ((a[(off + j) / w]?).getD 0#w).toNat.testBit ((off + j) % w) := by
    intro j
    rw [limbsVal_testBit a _ hw]; rfl
  have hsame : ∀ j, off % w + j < w → (off + j) / w = off / w ∧ (off + j) % w = off % w + j := by
    intro j hj
    have e : off + j = (off % w + j) + w * (off / w) := by omega
    constructor
    · rw [e, Nat.add_mul_div_left _ _ hw, Nat.div_eq_of_lt hj, Nat.zero_add]
    · rw [e, Nat.add_mul_mod_self_left, Nat.mod_eq_of_lt hj]
  have hnext : ∀ j, j < w → w ≤ off % w + j →
      (off + j) / w = off / w + 1 ∧ (off + j) % w = off % w + j - w := by
    intro j hj hj'
    have e : off + j = (off % w + j - w) + w * (off / w + 1) := by rw [Nat.mul_add]; omega
    have hl : off % w + j - w < w := by omega
    constructor
    · rw [e, Nat.add_mul_div_left _ _ hw, Nat.div_eq_of_lt hl, Nat.zero_add]
    · conv_lhs => rw [e]
      rw [Nat.add_mul_mod_self_left, Nat.mod_eq_of_lt hl]
  unfold extractBits
  rw [if_neg (by omega)]
  dsimp only
  have hshr : ∀ (x : BitVec w) j, (x >>> (off % w)).toNat.testBit j
      = x.toNat.testBit (off % w + j) := by
    intro x j
    rw [BitVec.toNat_ushiftRight, Nat.testBit_shiftRight]
  by_cases hcase : off % w < w - cnt ∨ off / w = a.length - 1
  · rw [if_pos hcase, List.getElem?_eq_getElem hlt]
    refine ⟨_, rfl, ?_⟩
    apply hspec
    intro j hj
    rw [hshr, hbit]
    by_cases hin : off % w + j < w
    · rw [(hsame j hin).1, (hsame j hin).2, List.getElem?_eq_getElem hlt]; rfl
    · obtain ⟨e1, e2⟩ := hnext j (by omega) (by omega)
      rw [testBit_toNat_of_ge _ _ (by omega), e1, List.getElem?_eq_none (by omega)]
      simp
  · rw [if_neg hcase]
    push Not at hcase
    rw [if_neg (by omega)]
    have hlt2 : 1 + off / w < a.length := by
      have h7 := hcase.2
      clear hcase hnext hsame hbit hspec hdm ho
      generalize off / w = k at *
      omega
    rw [List.getElem?_eq_getElem hlt, List.getElem?_eq_getElem hlt2]
    refine ⟨_, rfl, ?_⟩
    apply hspec
    intro j hj
    rw [BitVec.toNat_or, Nat.testBit_or, hshr, hbit, BitVec.toNat_shiftLeft,
      Nat.testBit_mod_two_pow, Nat.testBit_shiftLeft]
    by_cases hin : off % w + j < w
    · rw [(hsame j hin).1, (hsame j hin).2, List.getElem?_eq_getElem hlt]
      have : ¬ (w - off % w ≤ j) := by omega
      simp [this]
    · obtain ⟨e1, e2⟩ := hnext j (by omega) (by omega)
      rw [testBit_toNat_of_ge _ _ (by omega), e1, e2, Nat.add_comm (off / w) 1,
        List.getElem?_eq_getElem hlt2]
      have h3 : w - off % w ≤ j := by omega
      have h4 : j < w := by omega
      have h5 : j - (w - off % w) = off % w + j - w := by omega
      simp [h3, h4, h5]

theorem extractBits_none (a : Limbs w) (off cnt : Nat) (hw : 0 < w)
    (h : w ≤ cnt ∨ w * a.length ≤ off) : extractBits a off cnt = none := by
  unfold extractBits
  by_cases hc : w ≤ cnt
  · rw [if_pos hc]
  · rw [if_neg hc]
    have ho := h.resolve_left hc
    have hge : a.length ≤ off / w := by
      rw [Nat.le_div_iff_mul_le hw, Nat.mul_comm]; exact ho
    dsimp only
    rw [List.getElem?_eq_none hge]
    by_cases hcase : off % w < w - cnt ∨ off / w = a.length - 1
    · rw [if_pos hcase]; rfl
    · rw [if_neg hcase]
      by_cases h0 : w - off % w = w
      · rw [if_pos h0]; rfl
      · rw [if_neg h0]; rfl

theorem zipWith_testBit (hw : 0 < w) (f : BitVec w → BitVec w → BitVec w) (g : Bool → Bool → Bool)
    (hfg : ∀ x y (j : Nat), (f x y).toNat.testBit j = g (x.toNat.testBit j) (y.toNat.testBit j))
    (hg : g false false = false) (a b : Limbs w) (h : a.length = b.length) (i : Nat) :
    (limbsVal (List.zipWith f a b)).testBit i
      = g ((limbsVal a).testBit i) ((limbsVal b).testBit i) := by
  rw [limbsVal_testBit _ i hw, limbsVal_testBit a i hw, limbsVal_testBit b i hw,
    List.getElem?_zipWith]
  by_cases hi : i / w < a.length
  · rw [List.getElem?_eq_getElem hi, List.getElem?_eq_getElem (h ▸ hi)]
    exact hfg _ _ _
  · rw [List.getElem?_eq_none (by omega), List.getElem?_eq_none (by omega)]
    simp [hg]

theorem land_spec (hw : 0 < w) (a b : Limbs w) (h : a.length = b.length) :
    limbsVal (land a b) = limbsVal a &&& limbsVal b := by
  apply Nat.eq_of_testBit_eq; intro i
  rw [Nat.testBit_and]
  exact zipWith_testBit hw _ (· && ·) (fun x y j => by rw [BitVec.toNat_and, Nat.testBit_and]) rfl
    a b h i

theorem lor_spec (hw : 0 < w) (a b : Limbs w) (h : a.length = b.length) :
    limbsVal (lor a b) = limbsVal a ||| limbsVal b := by
  apply Nat.eq_of_testBit_eq; intro i
  rw [Nat.testBit_or]
  exact zipWith_testBit hw _ (· || ·) (fun x y j => by rw [BitVec.toNat_or, Nat.testBit_or]) rfl
    a b h i

theorem lxor_spec (hw : 0 < w) (a b : Limbs w) (h : a.length = b.length) :
    limbsVal (lxor a b) = limbsVal a ^^^ limbsVal b := by
  apply Nat.eq_of_testBit_eq; intro i
  rw [Nat.testBit_xor]
  exact zipWith_testBit hw _ Bool.xor (fun x y j => by rw [BitVec.toNat_xor, Nat.testBit_xor]) rfl
    a b h i

end Tachyon.BigInt
