import Verif.Model.Packed
import Verif.Proofs.SmallField
import Mathlib.Data.Int.ModEq
import Mathlib.Tactic.Linarith
/-! # Lemmas about the packed 32-bit prime fields -/
namespace Tachyon.Packed
open Tachyon.SmallField

theorem minU_sub (p t : BitVec 32) (hp : p.toNat ≤ 2 ^ 31) (ht : t.toNat < 2 * p.toNat) :
    (minU t (t - p)).toNat = t.toNat % p.toNat := by
  have h1 := t.isLt
  unfold minU
  rw [BitVec.toNat_sub]
  by_cases h : p.toNat ≤ t.toNat
  · rw [Nat.mod_eq_sub_mod h, Nat.mod_eq_of_lt (by omega : t.toNat - p.toNat < p.toNat)]
    split
    · omega
    · rw [BitVec.toNat_sub]; omega
  · rw [Nat.mod_eq_of_lt (by omega : t.toNat < p.toNat)]
    split
    · rfl
    · omega

theorem minU_add (p t : BitVec 32) (hp : p.toNat < 2 ^ 31)
    (h1 : -(p.toNat : Int) < t.toInt) (h2 : t.toInt < p.toNat) :
    ((minU t (t + p)).toNat : Int) = t.toInt % p.toNat ∧ (minU t (t + p)).toNat < p.toNat := by
  have hlt := t.isLt
  rw [BitVec.toInt_eq_toNat_cond] at *
  unfold minU
  rw [BitVec.toNat_add]
  split at h1
  · rename_i h
    rw [if_pos h] at h2 ⊢
    rw [if_pos (by omega)]
    refine ⟨?_, by omega⟩
    rw [Int.emod_eq_of_lt (by omega) (by omega)]
  · rename_i h
    rw [if_neg h] at h2 ⊢
    rw [if_neg (by omega), BitVec.toNat_add]
    refine ⟨?_, by omega⟩
    rw [← Int.add_emod_right, Int.emod_eq_of_lt (by omega) (by omega)]
    omega

theorem subLane (p l r : BitVec 32) (hp : p.toNat ≤ 2 ^ 31) (hl : l.toNat < p.toNat)
    (hr : r.toNat < p.toNat) :
    (minU (l - r) (l - r + p)).toNat = (l.toNat + (p.toNat - r.toNat)) % p.toNat := by
  have h1 := l.isLt
  have h2 := r.isLt
  unfold minU
  rw [BitVec.toNat_add, BitVec.toNat_sub]
  by_cases h : r.toNat ≤ l.toNat
  · rw [show l.toNat + (p.toNat - r.toNat) = l.toNat - r.toNat + p.toNat by omega,
      Nat.add_mod_right, Nat.mod_eq_of_lt (by omega : l.toNat - r.toNat < p.toNat)]
    split
    · rw [BitVec.toNat_sub]; omega
    · omega
  · rw [Nat.mod_eq_of_lt (by omega : l.toNat + (p.toNat - r.toNat) < p.toNat)]
    split
    · omega
    · rw [BitVec.toNat_add, BitVec.toNat_sub]; omega

theorem negSub (p v : BitVec 32) (hv : v.toNat < p.toNat) :
    (if v = 0#32 then 0#32 else p - v).toNat = (0 + (p.toNat - v.toNat)) % p.toNat := by
  by_cases h : v = 0#32
  · subst h; simp
  · have h0 : v.toNat ≠ 0 := fun h' => h (BitVec.eq_of_toNat_eq (by simpa using h'))
    rw [if_neg h, BitVec.toNat_sub_of_le (BitVec.le_def.2 hv.le), Nat.mod_eq_of_lt (by omega)]
    omega

/-! ## Quadwords -/

theorem ofWord_lo (x : BitVec 64) : (Quad.ofWord x).lo.toNat = x.toNat % 2 ^ 32 := by
  simp [Quad.ofWord, BitVec.toNat_setWidth]

theorem ofWord_hi (x : BitVec 64) : (Quad.ofWord x).hi.toNat = x.toNat / 2 ^ 32 := by
  have := x.isLt
  simp only [Quad.ofWord, BitVec.toNat_setWidth, BitVec.toNat_ushiftRight,
    Nat.shiftRight_eq_div_pow]
  omega

theorem ofWord_int (x : BitVec 64) :
    (Quad.ofWord x).hi.toInt * 2 ^ 32 + (Quad.ofWord x).lo.toNat = x.toInt := by
  have h := x.isLt
  rw [BitVec.toInt_eq_toNat_cond, BitVec.toInt_eq_toNat_cond, ofWord_lo, ofWord_hi]
  split <;> split <;> omega

theorem toWord_toNat (q : Quad) : q.toWord.toNat = q.hi.toNat * 2 ^ 32 + q.lo.toNat := by
  have := q.lo.isLt
  rw [Quad.toWord, BitVec.toNat_append, Nat.shiftLeft_eq, ← Nat.shiftLeft_eq,
    ← Nat.shiftLeft_add_eq_or_of_lt this, Nat.shiftLeft_eq]

theorem toInt_bounds (a : BitVec 32) : -(2 ^ 31) ≤ a.toInt ∧ a.toInt < 2 ^ 31 := by
  have := a.isLt
  rw [BitVec.toInt_eq_toNat_cond]
  split <;> omega

theorem toInt_modEq (y : BitVec 32) : y.toInt ≡ y.toNat [ZMOD 2 ^ 32] := by
  rw [BitVec.toInt_eq_toNat_cond]; split
  · rfl
  · simp [Int.ModEq]

theorem mulEpi32_int (a b : Quad) :
    (mulEpi32 a b).hi.toInt * 2 ^ 32 + (mulEpi32 a b).lo.toNat = a.lo.toInt * b.lo.toInt := by
  rw [mulEpi32, ofWord_int, BitVec.toInt_mul, BitVec.toInt_signExtend_of_le (by omega),
    BitVec.toInt_signExtend_of_le (by omega)]
  obtain ⟨a1, a2⟩ := toInt_bounds a.lo
  obtain ⟨b1, b2⟩ := toInt_bounds b.lo
  have h : |a.lo.toInt * b.lo.toInt| ≤ 2 ^ 31 * 2 ^ 31 := by
    rw [abs_mul]
    exact mul_le_mul (abs_le.2 ⟨by omega, by omega⟩) (abs_le.2 ⟨by omega, by omega⟩)
      (abs_nonneg _) (by omega)
  rw [abs_le] at h
  generalize a.lo.toInt * b.lo.toInt = x at *
  apply Int.bmod_eq_of_le <;> omega

theorem mulEpu32_nat (a b : Quad) :
    (mulEpu32 a b).hi.toNat * 2 ^ 32 + (mulEpu32 a b).lo.toNat = a.lo.toNat * b.lo.toNat := by
  rw [mulEpu32, ofWord_lo, ofWord_hi, mul_toNat]
  omega

/-- The partial Montgomery reduction. -/
theorem partialMontyRed_spec (p inv : BitVec 32) (hinv : p.toNat * inv.toNat % 2 ^ 32 = 1)
    (hp : p.toNat < 2 ^ 31) (x : Quad) (C : Int) (hx : x.hi.toInt * 2 ^ 32 + x.lo.toNat = C)
    (hC : |C| < 2 ^ 31 * p.toNat) :
    let d := (partialMontyRed (set1 p) (set1 inv) x).hi.toInt
    (-(p.toNat : Int)) < d ∧ d < p.toNat ∧ d * 2 ^ 32 ≡ C [ZMOD p.toNat] := by
  have hpi : p.toInt = p.toNat := by
    rw [BitVec.toInt_eq_toNat_cond, if_pos (by omega)]
  have hq := mulEpi32_int x (set1 inv)
  have hqp := mulEpi32_int (mulEpi32 x (set1 inv)) (set1 p)
  unfold partialMontyRed subEpi32
  dsimp only
  generalize mulEpi32 x (set1 inv) = q at *
  generalize mulEpi32 q (set1 p) = qp at *
  simp only [set1] at hq hqp
  rw [hpi] at hqp
  -- the low words agree
  have e1 : (q.lo.toInt : Int) ≡ x.lo.toNat * inv.toNat [ZMOD 2 ^ 32] := by
    have k3 : (q.lo.toNat : Int) ≡ x.lo.toInt * inv.toInt [ZMOD 2 ^ 32] := by
      rw [← hq]; simp [Int.ModEq]
    exact ((toInt_modEq _).trans k3).trans ((toInt_modEq _).mul (toInt_modEq _))
  have e2 : (qp.lo.toNat : Int) ≡ x.lo.toNat [ZMOD 2 ^ 32] := by
    have k1 : (qp.lo.toNat : Int) ≡ q.lo.toInt * p.toNat [ZMOD 2 ^ 32] := by
      rw [← hqp]; simp [Int.ModEq]
    refine k1.trans ((e1.mul_right _).trans ?_)
    have k2 : (p.toNat * inv.toNat : Int) ≡ 1 [ZMOD 2 ^ 32] := by
      have : ((p.toNat * inv.toNat : Nat) : Int) ≡ (1 : Nat) [ZMOD (2 ^ 32 : Nat)] :=
        Int.natCast_modEq_iff.2 hinv
      simpa using this
    have k3 := k2.mul_left (x.lo.toNat : Int)
    rw [mul_one] at k3
    refine Int.ModEq.trans ?_ k3
    rw [show (x.lo.toNat : Int) * inv.toNat * p.toNat = x.lo.toNat * (p.toNat * inv.toNat) by ring]
  have e3 : (qp.lo.toNat : Int) = x.lo.toNat := by
    have l1 := qp.lo.isLt
    have l2 := x.lo.isLt
    rw [Int.ModEq] at e2
    omega
  -- the difference of the high words
  have e4 : (x.hi.toInt - qp.hi.toInt) * 2 ^ 32 = C - q.lo.toInt * p.toNat := by
    rw [← hx, ← hqp, e3]; ring
  have hQ := toInt_bounds q.lo
  have hQP : |q.lo.toInt * p.toNat| ≤ 2 ^ 31 * p.toNat := by
    rw [abs_mul]
    have : |(p.toNat : Int)| = p.toNat := abs_of_nonneg (by omega)
    rw [this]
    exact mul_le_mul_of_nonneg_right (abs_le.2 ⟨by omega, by omega⟩) (by omega)
  rw [abs_lt] at hC
  rw [abs_le] at hQP
  have e5 : (x.hi - qp.hi).toInt = x.hi.toInt - qp.hi.toInt := by
    rw [BitVec.toInt_sub]
    generalize q.lo.toInt * (p.toNat : Int) = y at *
    apply Int.bmod_eq_of_le <;> omega
  rw [e5]
  refine ⟨?_, ?_, ?_⟩
  · generalize q.lo.toInt * (p.toNat : Int) = y at *
    omega
  · generalize q.lo.toInt * (p.toNat : Int) = y at *
    omega
  · rw [e4]
    exact Int.modEq_iff_dvd.2 ⟨q.lo.toInt, by ring⟩

/-- A signed word `x` in `(-p, p)` standing for the canonical word `a`. -/
structure Rep (p x a : BitVec 32) : Prop where
  lower : -(p.toNat : Int) < x.toInt
  upper : x.toInt < p.toNat
  canon : a.toNat < p.toNat
  eq : x.toInt ≡ a.toNat [ZMOD p.toNat]

theorem Rep.self {p a : BitVec 32} (hp : p.toNat < 2 ^ 31) (ha : a.toNat < p.toNat) :
    Rep p a a := by
  have e : a.toInt = a.toNat := by rw [BitVec.toInt_eq_toNat_cond, if_pos (by omega)]
  exact ⟨by omega, by omega, ha, by rw [e]⟩

/-- Canonical words are determined by their image times `2^32`. -/
theorem eq_montMul {p a b r : BitVec 32} (hodd : p.toNat % 2 = 1) (ha : a.toNat < p.toNat)
    (hr : r.toNat < p.toNat) (h : (r.toNat : Int) * 2 ^ 32 ≡ a.toNat * b.toNat [ZMOD p.toNat]) :
    r = montMul p a b := by
  obtain ⟨h1, h2⟩ := montMul_spec p a b hodd ha
  apply BitVec.eq_of_toNat_eq
  refine cancel hodd hr h1 (Nat.ModEq.trans ?_ h2.symm)
  rw [← Int.natCast_modEq_iff]
  push_cast
  exact h

theorem modEq_cancel {p : Nat} (hodd : p % 2 = 1) {x y : Int}
    (h : x * 2 ^ 32 ≡ y * 2 ^ 32 [ZMOD p]) : x ≡ y [ZMOD p] := by
  have hc : IsCoprime (p : Int) (2 ^ 32) := by
    have := Nat.isCoprime_iff_coprime.2 (coprime_two_pow hodd 32)
    simpa using this
  rw [Int.modEq_iff_dvd] at h ⊢
  rw [← sub_mul] at h
  exact hc.dvd_of_dvd_mul_right h

theorem rep_of_red {p a b x : BitVec 32} (hodd : p.toNat % 2 = 1) (ha : a.toNat < p.toNat)
    (h1 : -(p.toNat : Int) < x.toInt) (h2 : x.toInt < p.toNat)
    (h : x.toInt * 2 ^ 32 ≡ a.toNat * b.toNat [ZMOD p.toNat]) : Rep p x (montMul p a b) := by
  obtain ⟨k1, k2⟩ := montMul_spec p a b hodd ha
  refine ⟨h1, h2, k1, modEq_cancel hodd (h.trans ?_)⟩
  have := Int.natCast_modEq_iff.2 k2
  push_cast at this
  exact this.symm

theorem montyMulSigned_rep {p inv a b : BitVec 32} {l r : Quad}
    (hinv : p.toNat * inv.toNat % 2 ^ 32 = 1) (hodd : p.toNat % 2 = 1) (hp : p.toNat < 2 ^ 31)
    (hl : Rep p l.lo a) (hr : Rep p r.lo b) :
    Rep p (montyMulSigned (set1 p) (set1 inv) l r).hi (montMul p a b) := by
  have hC : |l.lo.toInt * r.lo.toInt| < 2 ^ 31 * p.toNat := by
    rw [abs_mul]
    have h1 := abs_lt.2 ⟨hl.lower, hl.upper⟩
    have h2 := abs_lt.2 ⟨hr.lower, hr.upper⟩
    have h3 := abs_nonneg l.lo.toInt
    have h4 := abs_nonneg r.lo.toInt
    calc |l.lo.toInt| * |r.lo.toInt| ≤ 2 ^ 31 * |r.lo.toInt| :=
          mul_le_mul_of_nonneg_right (by omega) h4
      _ < 2 ^ 31 * p.toNat := by omega
  obtain ⟨h1, h2, h3⟩ := partialMontyRed_spec p inv hinv hp _ _ (mulEpi32_int l r) hC
  exact rep_of_red hodd hl.canon h1 h2 (h3.trans (hl.eq.mul hr.eq))

theorem montyMul_rep {p inv : BitVec 32} {l r : Quad}
    (hinv : p.toNat * inv.toNat % 2 ^ 32 = 1) (hodd : p.toNat % 2 = 1) (hp : p.toNat < 2 ^ 31)
    (hl : l.lo.toNat < p.toNat) (hr : r.lo.toNat < p.toNat) :
    Rep p (montyMul (set1 p) (set1 inv) l r).hi (montMul p l.lo r.lo) := by
  have e := mulEpu32_nat l r
  have hC' : l.lo.toNat * r.lo.toNat < 2 ^ 31 * p.toNat :=
    calc l.lo.toNat * r.lo.toNat ≤ 2 ^ 31 * r.lo.toNat := Nat.mul_le_mul_right _ (by omega)
      _ < 2 ^ 31 * p.toNat := by omega
  have hbig : l.lo.toNat * r.lo.toNat < 2 ^ 63 := by omega
  have hC : |((l.lo.toNat * r.lo.toNat : Nat) : Int)| < 2 ^ 31 * p.toNat := by
    rw [abs_of_nonneg (by positivity)]; omega
  obtain ⟨h1, h2, h3⟩ := partialMontyRed_spec p inv hinv hp (mulEpu32 l r)
    ((l.lo.toNat * r.lo.toNat : Nat) : Int) (by
      rw [BitVec.toInt_eq_toNat_cond, if_pos (by omega), ← e]
      push_cast; rfl) hC
  exact rep_of_red hodd hl h1 h2 (by push_cast at h3; exact h3)

theorem recombine_lane {p x a : BitVec 32} (hp : p.toNat < 2 ^ 31) (h : Rep p x a) :
    minU x (x + p) = a := by
  obtain ⟨h1, h2⟩ := minU_add p x hp h.lower h.upper
  apply BitVec.eq_of_toNat_eq
  have := h.eq
  rw [Int.ModEq, ← h1, Int.emod_eq_of_lt (by omega) (by have := h.canon; omega)] at this
  omega

theorem recombine_eq {p a b : BitVec 32} {dEvn dOdd : Quad} (hp : p.toNat < 2 ^ 31)
    (he : Rep p dEvn.hi a) (ho : Rep p dOdd.hi b) :
    recombine (set1 p) dEvn dOdd = ⟨a, b⟩ := by
  simp only [recombine, blendOdd, movehdup, minEpu32, addEpi32, set1]
  rw [recombine_lane hp he, recombine_lane hp ho]

theorem shiftedSquare_rep {p inv a : BitVec 32} {x : Quad}
    (hinv : p.toNat * inv.toNat % 2 ^ 32 = 1) (hodd : p.toNat % 2 = 1) (hp : p.toNat < 2 ^ 31)
    (hx : Rep p x.lo a) :
    Rep p (shiftedSquare (set1 p) (set1 inv) x).lo (montMul p a a) :=
  montyMulSigned_rep hinv hodd hp hx hx

theorem doExp3_rep {p inv a : BitVec 32} {x : Quad}
    (hinv : p.toNat * inv.toNat % 2 ^ 32 = 1) (hodd : p.toNat % 2 = 1) (hp : p.toNat < 2 ^ 31)
    (hx : Rep p x.lo a) :
    Rep p (doExp3 (set1 p) (set1 inv) x).hi (montMul p (montMul p a a) a) :=
  montyMulSigned_rep hinv hodd hp (shiftedSquare_rep hinv hodd hp hx) hx

theorem doExp5_rep {p inv a : BitVec 32} {x : Quad}
    (hinv : p.toNat * inv.toNat % 2 ^ 32 = 1) (hodd : p.toNat % 2 = 1) (hp : p.toNat < 2 ^ 31)
    (hx : Rep p x.lo a) :
    Rep p (doExp5 (set1 p) (set1 inv) x).hi
      (montMul p (montMul p (montMul p a a) (montMul p a a)) a) :=
  montyMulSigned_rep hinv hodd hp
    (shiftedSquare_rep hinv hodd hp (shiftedSquare_rep hinv hodd hp hx)) hx

theorem doExp7_rep {p inv a : BitVec 32} {x : Quad}
    (hinv : p.toNat * inv.toNat % 2 ^ 32 = 1) (hodd : p.toNat % 2 = 1) (hp : p.toNat < 2 ^ 31)
    (hx : Rep p x.lo a) :
    Rep p (doExp7 (set1 p) (set1 inv) x).hi
      (montMul p (montMul p (montMul p a a) (montMul p a a)) (montMul p (montMul p a a) a)) :=
  montyMulSigned_rep hinv hodd hp
    (shiftedSquare_rep hinv hodd hp (shiftedSquare_rep hinv hodd hp hx))
    (show Rep p (movehdup _).lo _ from
      montyMulSigned_rep hinv hodd hp (shiftedSquare_rep hinv hodd hp hx) hx)

/-! ## AVX512 -/

theorem mont512_lane {p inv : BitVec 32} {l r : Quad}
    (hinv : p.toNat * inv.toNat % 2 ^ 32 = 1) (hodd : p.toNat % 2 = 1)
    (hl : l.lo.toNat < p.toNat) :
    subUnderflow p (mulEpu32 l r).hi (mulEpu32 (mulEpu32 (mulEpu32 l r) (set1 inv)) (set1 p)).hi =
      montMul p l.lo r.lo := by
  have hpl := p.isLt
  have e1 := mulEpu32_nat l r
  have hC : l.lo.toNat * r.lo.toNat < p.toNat * 2 ^ 32 := by
    calc l.lo.toNat * r.lo.toNat ≤ l.lo.toNat * 2 ^ 32 := Nat.mul_le_mul_left _ r.lo.isLt.le
      _ < p.toNat * 2 ^ 32 := by omega
  generalize mulEpu32 l r = c at *
  have e2 := mulEpu32_nat c (set1 inv)
  generalize mulEpu32 c (set1 inv) = q at *
  have e3 := mulEpu32_nat q (set1 p)
  generalize mulEpu32 q (set1 p) = qp at *
  simp only [set1] at e2 e3
  have hqp : q.lo.toNat * p.toNat < 2 ^ 32 * p.toNat :=
    Nat.mul_lt_mul_of_pos_right q.lo.isLt (by omega)
  -- low words agree
  have hlo : qp.lo.toNat = c.lo.toNat := by
    have k1 : q.lo.toNat ≡ c.lo.toNat * inv.toNat [MOD 2 ^ 32] := by
      rw [← e2]; simp [Nat.ModEq]
    have k2 : qp.lo.toNat ≡ q.lo.toNat * p.toNat [MOD 2 ^ 32] := by
      rw [← e3]; simp [Nat.ModEq]
    have k3 : p.toNat * inv.toNat ≡ 1 [MOD 2 ^ 32] := hinv
    have k4 := k2.trans (k1.mul_right p.toNat)
    rw [show c.lo.toNat * inv.toNat * p.toNat = c.lo.toNat * (p.toNat * inv.toNat) by ring] at k4
    have k5 := k4.trans (k3.mul_left c.lo.toNat)
    rw [mul_one] at k5
    exact Nat.ModEq.eq_of_lt_of_lt k5 qp.lo.isLt c.lo.isLt
  have hc := c.hi.isLt
  have hq := qp.hi.isLt
  have l1 := c.lo.isLt
  have hcp : c.hi.toNat < p.toNat := by omega
  have hqpp : qp.hi.toNat < p.toNat := by
    generalize q.lo.toNat * p.toNat = z at *
    omega
  have main : ∀ d : Nat, d + qp.hi.toNat = c.hi.toNat ∨ d + qp.hi.toNat = c.hi.toNat + p.toNat →
      (d : Int) * 2 ^ 32 ≡ l.lo.toNat * r.lo.toNat [ZMOD p.toNat] := by
    intro d hd
    have e1' : (c.hi.toNat : Int) * 2 ^ 32 + c.lo.toNat = l.lo.toNat * r.lo.toNat := by
      exact_mod_cast e1
    have e3' : (qp.hi.toNat : Int) * 2 ^ 32 + c.lo.toNat = q.lo.toNat * p.toNat := by
      rw [← hlo]; exact_mod_cast e3
    rw [← e1']
    rcases hd with hd | hd
    · have hd' : (d : Int) = c.hi.toNat - qp.hi.toNat := by omega
      refine Int.modEq_iff_dvd.2 ⟨q.lo.toNat, ?_⟩
      rw [hd']
      linear_combination e3'
    · have hd' : (d : Int) = c.hi.toNat + p.toNat - qp.hi.toNat := by omega
      refine Int.modEq_iff_dvd.2 ⟨q.lo.toNat - 2 ^ 32, ?_⟩
      rw [hd']
      linear_combination e3'
  unfold subUnderflow
  split
  · rename_i h
    have hv : (c.hi - qp.hi + p).toNat = c.hi.toNat + p.toNat - qp.hi.toNat := by
      rw [BitVec.toNat_add, BitVec.toNat_sub]; omega
    exact eq_montMul hodd hl (by omega) (main _ (Or.inr (by omega)))
  · rename_i h
    have hv : (c.hi - qp.hi).toNat = c.hi.toNat - qp.hi.toNat :=
      BitVec.toNat_sub_of_le (BitVec.le_def.2 (by omega))
    exact eq_montMul hodd hl (by omega) (main _ (Or.inl (by omega)))

/-! ## NEON -/

theorem mask_mul (b : Bool) (d p : BitVec 32) :
    d - mask b * p = if b then d + p else d := by
  cases b
  · simp [mask]
  · have : (0xffffffff#32 : BitVec 32) = -1#32 := by decide
    simp only [mask, if_true, this, BitVec.neg_mul]
    simp [BitVec.sub_eq_add_neg]

theorem subNeon_spec (p l r : BitVec 32) (hl : l.toNat < p.toNat) (hr : r.toNat < p.toNat) :
    (subNeon p l r).toNat = (l.toNat + (p.toNat - r.toNat)) % p.toNat := by
  have h1 := l.isLt
  have h2 := r.isLt
  have h3 := p.isLt
  simp only [subNeon, mask_mul]
  by_cases h : l.toNat < r.toNat
  · rw [if_pos (by simpa using h), Nat.mod_eq_of_lt (by omega), BitVec.toNat_add, BitVec.toNat_sub]
    omega
  · rw [if_neg (by simpa using h), BitVec.toNat_sub_of_le (BitVec.le_def.2 (by omega)),
      show l.toNat + (p.toNat - r.toNat) = l.toNat - r.toNat + p.toNat by omega,
      Nat.add_mod_right, Nat.mod_eq_of_lt (by omega)]

theorem negateNeon_spec (p v : BitVec 32) (hv : v.toNat < p.toNat) :
    (negateNeon p v).toNat = (0 + (p.toNat - v.toNat)) % p.toNat := by
  rw [← negSub p v hv]
  congr 1
  unfold negateNeon mask
  by_cases h : v = 0#32
  · subst h; simp
  · have : (4294967295#32 : BitVec 32) = BitVec.allOnes 32 := by decide
    have hx : ∀ x : BitVec 32, x &&& 4294967295#32 = x := fun x => by
      rw [this]; exact BitVec.and_allOnes
    simpa [h] using hx _

theorem vqdmulh_int (a b : BitVec 32) (hb : 0 ≤ b.toInt) :
    (vqdmulh a b).toInt = 2 * (a.toInt * b.toInt) / 2 ^ 32 := by
  obtain ⟨a1, a2⟩ := toInt_bounds a
  obtain ⟨b1, b2⟩ := toInt_bounds b
  have h1 : a.toInt * b.toInt ≤ 2 ^ 31 * (2 ^ 31 - 1) := by
    calc a.toInt * b.toInt ≤ 2 ^ 31 * b.toInt := mul_le_mul_of_nonneg_right (by omega) hb
      _ ≤ _ := by omega
  have h2 : -(2 ^ 31 * (2 ^ 31 - 1)) ≤ a.toInt * b.toInt := by
    calc -(2 ^ 31 * (2 ^ 31 - 1)) ≤ -(2 ^ 31) * b.toInt := by omega
      _ ≤ _ := mul_le_mul_of_nonneg_right (by omega) hb
  unfold vqdmulh
  generalize a.toInt * b.toInt = x at *
  dsimp only
  rw [if_neg (by omega), BitVec.toInt_ofInt]
  apply Int.bmod_eq_of_le <;> omega

theorem montMulNeon_eq {p inv l r : BitVec 32}
    (hinv : p.toNat * inv.toNat % 2 ^ 32 = 1) (hodd : p.toNat % 2 = 1) (hp : p.toNat < 2 ^ 31)
    (hl : l.toNat < p.toNat) (hr : r.toNat < p.toNat) :
    montMulNeon p inv l r = montMul p l r := by
  have pi : p.toInt = p.toNat := by rw [BitVec.toInt_eq_toNat_cond, if_pos (by omega)]
  have li : l.toInt = l.toNat := by rw [BitVec.toInt_eq_toNat_cond, if_pos (by omega)]
  have ri : r.toInt = r.toNat := by rw [BitVec.toInt_eq_toNat_cond, if_pos (by omega)]
  have hc := vqdmulh_int l r (by omega)
  have hqp := vqdmulh_int (l * (r * inv)) p (by omega)
  -- the quotient
  have hq : (l * (r * inv)).toInt * p.toNat ≡ l.toNat * r.toNat [ZMOD 2 ^ 32] := by
    have k1 : ((l * (r * inv)).toNat : Int) ≡ l.toNat * (r.toNat * inv.toNat) [ZMOD 2 ^ 32] := by
      have : (l * (r * inv)).toNat ≡ l.toNat * (r.toNat * inv.toNat) [MOD 2 ^ 32] := by
        rw [BitVec.toNat_mul, BitVec.toNat_mul]
        exact (Nat.mod_modEq _ _).trans ((Nat.mod_modEq _ _).mul_left _)
      have := Int.natCast_modEq_iff.2 this
      push_cast at this ⊢
      exact this
    have k2 : (p.toNat * inv.toNat : Int) ≡ 1 [ZMOD 2 ^ 32] := by
      have : ((p.toNat * inv.toNat : Nat) : Int) ≡ (1 : Nat) [ZMOD (2 ^ 32 : Nat)] :=
        Int.natCast_modEq_iff.2 hinv
      simpa using this
    refine (((toInt_modEq _).trans k1).mul_right _).trans ?_
    have k3 := k2.mul_left (l.toNat * r.toNat : Int)
    rw [mul_one] at k3
    refine Int.ModEq.trans ?_ k3
    rw [show (l.toNat : Int) * (r.toNat * inv.toNat) * p.toNat =
      l.toNat * r.toNat * (p.toNat * inv.toNat) by ring]
  have hQ := toInt_bounds (l * (r * inv))
  simp only [montMulNeon, mask_mul]
  rw [pi] at hqp
  rw [li, ri] at hc
  generalize vqdmulh l r = c at *
  generalize l * (r * inv) = q at *
  generalize vqdmulh q p = qp at *
  have hC1 : (l.toNat : Int) * r.toNat < 2 ^ 31 * p.toNat := by
    have : l.toNat * r.toNat < 2 ^ 31 * p.toNat :=
      calc l.toNat * r.toNat ≤ 2 ^ 31 * r.toNat := Nat.mul_le_mul_right _ (by omega)
        _ < 2 ^ 31 * p.toNat := by omega
    exact_mod_cast this
  have hC0 : (0 : Int) ≤ l.toNat * r.toNat := by positivity
  have hQP : |q.toInt * p.toNat| ≤ 2 ^ 31 * p.toNat := by
    rw [abs_mul, abs_of_nonneg (by omega : (0 : Int) ≤ p.toNat)]
    exact mul_le_mul_of_nonneg_right (abs_le.2 ⟨by omega, by omega⟩) (by omega)
  rw [abs_le] at hQP
  obtain ⟨k, hk⟩ := Int.modEq_iff_dvd.1 hq
  -- `c - q p = 2^32 k`
  have hdvd : (k : Int) * 2 ^ 32 ≡ l.toNat * r.toNat [ZMOD p.toNat] :=
    Int.modEq_iff_dvd.2 ⟨q.toInt, by linear_combination hk⟩
  generalize hCe : (l.toNat : Int) * r.toNat = C at *
  generalize q.toInt * (p.toNat : Int) = QP at *
  have hd : c.toInt - qp.toInt = 2 * k := by omega
  have hdi : (vhsub c qp).toInt = k := by
    rw [vhsub, BitVec.toInt_ofInt, hd, Int.mul_ediv_cancel_left _ (by omega)]
    apply Int.bmod_eq_of_le <;> omega
  have hk1 : -(p.toNat : Int) < k := by omega
  have hk2 : k < p.toNat := by omega
  rw [← hCe] at hdvd
  generalize vhsub c qp = t at *
  have hlt := t.isLt
  rw [BitVec.toInt_eq_toNat_cond] at hdi
  by_cases h : c.toInt < qp.toInt
  · rw [if_pos (by simpa using h)]
    have hv : ((t + p).toNat : Int) = k + p.toNat := by
      rw [BitVec.toNat_add]
      split at hdi <;> omega
    apply eq_montMul hodd hl (by omega)
    rw [hv, add_mul]
    refine Int.ModEq.trans ?_ hdvd
    exact Int.modEq_iff_dvd.2 ⟨-2 ^ 32, by ring⟩
  · rw [if_neg (by simpa using h)]
    have hv : (t.toNat : Int) = k := by split at hdi <;> omega
    apply eq_montMul hodd hl (by omega)
    rw [hv]
    exact hdvd

/-! ## Mersenne31 products -/

theorem fold31 (P : Nat) :
    (P % 2 ^ 31 + P / 2 ^ 31) % (2 ^ 31 - 1) = P % (2 ^ 31 - 1) := by omega

theorem prod_lt {a b : Nat} (ha : a < 2 ^ 31 - 1) (hb : b < 2 ^ 31 - 1) :
    a * b ≤ (2 ^ 31 - 2) * (2 ^ 31 - 2) := Nat.mul_le_mul (by omega) (by omega)

/-- Adding the two 31-bit halves of a product. -/
theorem addHalves (lo hi : BitVec 32) (P : Nat) (hP : P ≤ (2 ^ 31 - 2) * (2 ^ 31 - 2))
    (hlo : lo.toNat = P % 2 ^ 31) (hhi : hi.toNat = P / 2 ^ 31) :
    (minU (lo + hi) (lo + hi - 2147483647#32)).toNat = P % (2 ^ 31 - 1) := by
  have e : (lo + hi).toNat = P % 2 ^ 31 + P / 2 ^ 31 := by
    rw [BitVec.toNat_add, hlo, hhi, Nat.mod_eq_of_lt (by omega)]
  have hp : (2147483647#32 : BitVec 32).toNat = 2 ^ 31 - 1 := by decide
  rw [minU_sub _ _ (by rw [hp]; omega) (by rw [hp, e]; omega), hp, e, fold31]

theorem and31 (x : BitVec 32) : (x &&& 2147483647#32).toNat = x.toNat % 2 ^ 31 := by
  have hp : (2147483647#32 : BitVec 32).toNat = 2 ^ 31 - 1 := by decide
  rw [BitVec.toNat_and, hp, Nat.and_two_pow_sub_one_eq_mod]

theorem mersenneAVX2_lo (l r : Quad) (hl : l.lo.toNat < 2 ^ 31 - 1) (hr : r.lo.toNat < 2 ^ 31 - 1) :
    (mersenneMulAVX2 (set1 2147483647#32) l r).lo.toNat =
      l.lo.toNat * r.lo.toNat % (2 ^ 31 - 1) := by
  have hP := prod_lt hl hr
  simp only [mersenneMulAVX2, addMod32, minEpu32, addEpi32, subEpi32, andSi, blendOdd, set1]
  have e := mulEpu32_nat r l
  rw [Nat.mul_comm r.lo.toNat] at e
  have l1 := (mulEpu32 r l).lo.isLt
  have w := toWord_toNat (mulEpu32 r l)
  apply addHalves _ _ _ hP
  · rw [and31]; omega
  · rw [srli64, ofWord_lo, BitVec.toNat_ushiftRight, Nat.shiftRight_eq_div_pow]; omega

theorem srli31_lo (l : Quad) (hl : l.lo.toNat < 2 ^ 31) (hh : l.hi.toNat < 2 ^ 31) :
    (srli64 l 31).lo.toNat = 2 * l.hi.toNat := by
  have w := toWord_toNat l
  rw [srli64, ofWord_lo, BitVec.toNat_ushiftRight, Nat.shiftRight_eq_div_pow]; omega

theorem mersenneAVX2_hi (l r : Quad) (hl : l.hi.toNat < 2 ^ 31 - 1) (hr : r.hi.toNat < 2 ^ 31 - 1)
    (hlo : l.lo.toNat < 2 ^ 31) :
    (mersenneMulAVX2 (set1 2147483647#32) l r).hi.toNat =
      l.hi.toNat * r.hi.toNat % (2 ^ 31 - 1) := by
  have hP := prod_lt hl hr
  simp only [mersenneMulAVX2, addMod32, minEpu32, addEpi32, subEpi32, andSi, blendOdd, set1]
  have e := mulEpu32_nat (movehdup r) (srli64 l 31)
  rw [srli31_lo l hlo (by omega)] at e
  simp only [movehdup] at e ⊢
  generalize mulEpu32 ⟨r.hi, r.hi⟩ (srli64 l 31) = q at *
  rw [show r.hi.toNat * (2 * l.hi.toNat) = 2 * (l.hi.toNat * r.hi.toNat) by ring] at e
  have l1 := q.lo.isLt
  have w := toWord_toNat q
  apply addHalves _ _ _ hP
  · rw [and31, slli64, ofWord_hi, BitVec.toNat_shiftLeft, Nat.shiftLeft_eq]; omega
  · omega

theorem mersenne512_lo (l r : Quad) (hl : l.lo.toNat < 2 ^ 31 - 1) (hr : r.lo.toNat < 2 ^ 31 - 1) :
    (mersenneMul512 (set1 2147483647#32) l r).lo.toNat =
      l.lo.toNat * r.lo.toNat % (2 ^ 31 - 1) := by
  have hP := prod_lt hl hr
  simp only [mersenneMul512, addMod32, minEpu32, addEpi32, subEpi32, maskMoveldupOdds,
    maskMovehdupEvens, srli32, set1]
  have e := mulEpu32_nat ⟨l.lo + l.lo, l.hi + l.hi⟩ r
  have d : (l.lo + l.lo).toNat = 2 * l.lo.toNat := by rw [BitVec.toNat_add]; omega
  simp only [d] at e
  generalize mulEpu32 ⟨l.lo + l.lo, l.hi + l.hi⟩ r = q at *
  rw [Nat.mul_assoc] at e
  have l1 := q.lo.isLt
  apply addHalves _ _ _ hP
  · rw [BitVec.toNat_ushiftRight, Nat.shiftRight_eq_div_pow]; omega
  · omega

theorem mersenne512_hi (l r : Quad) (hl : l.hi.toNat < 2 ^ 31 - 1) (hr : r.hi.toNat < 2 ^ 31 - 1)
    (hlo : l.lo.toNat < 2 ^ 31) :
    (mersenneMul512 (set1 2147483647#32) l r).hi.toNat =
      l.hi.toNat * r.hi.toNat % (2 ^ 31 - 1) := by
  have hP := prod_lt hl hr
  simp only [mersenneMul512, addMod32, minEpu32, addEpi32, subEpi32, maskMoveldupOdds,
    maskMovehdupEvens, srli32, set1]
  have e := mulEpu32_nat (srli64 l 31) (movehdup r)
  rw [srli31_lo l hlo (by omega)] at e
  simp only [movehdup] at e ⊢
  generalize mulEpu32 (srli64 l 31) ⟨r.hi, r.hi⟩ = q at *
  rw [Nat.mul_assoc] at e
  have l1 := q.lo.isLt
  apply addHalves _ _ _ hP
  · rw [BitVec.toNat_ushiftRight, Nat.shiftRight_eq_div_pow]; omega
  · omega

theorem mersenneNeon_eq (l r : BitVec 32) (hl : l.toNat < 2 ^ 31 - 1) (hr : r.toNat < 2 ^ 31 - 1) :
    (mersenneMulNeon 2147483647#32 l r).toNat = l.toNat * r.toNat % (2 ^ 31 - 1) := by
  have hP := prod_lt hl hr
  have li : l.toInt = l.toNat := by rw [BitVec.toInt_eq_toNat_cond, if_pos (by omega)]
  have ri : r.toInt = r.toNat := by rw [BitVec.toInt_eq_toNat_cond, if_pos (by omega)]
  have hh := vqdmulh_int l r (by omega)
  rw [li, ri] at hh
  have hhn : (vqdmulh l r).toNat = l.toNat * r.toNat / 2 ^ 31 := by
    have b := (vqdmulh l r).isLt
    rw [BitVec.toInt_eq_toNat_cond] at hh
    have : ((l.toNat : Int) * r.toNat) = ((l.toNat * r.toNat : Nat) : Int) := by push_cast; rfl
    rw [this] at hh
    generalize l.toNat * r.toNat = P at *
    split at hh <;> omega
  have hp : (2147483647#32 : BitVec 32).toNat = 2 ^ 31 - 1 := by decide
  have e : (l * r - vqdmulh l r * 2147483647#32).toNat =
      l.toNat * r.toNat % 2 ^ 31 + l.toNat * r.toNat / 2 ^ 31 := by
    rw [BitVec.toNat_sub, BitVec.toNat_mul, BitVec.toNat_mul, hhn, hp]
    generalize l.toNat * r.toNat = P at *
    omega
  rw [mersenneMulNeon, reduceSumNeon, minU_sub _ _ (by rw [hp]; omega) (by
    rw [hp, e]; generalize l.toNat * r.toNat = P at *; omega), hp, e, fold31]

end Tachyon.Packed
