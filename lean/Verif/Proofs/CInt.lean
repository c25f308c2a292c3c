import Verif.Model.ByInverter
import Verif.Spec.Limbs
import Mathlib.Data.Int.ModEq
import Mathlib.Tactic.Ring
import Mathlib.Tactic.Linarith
import Mathlib.Tactic.LinearCombination
import Mathlib.Tactic.NormNum
import Mathlib.Tactic.Positivity
/-! # The chunked integers of `byinverter.h` -/
namespace Tachyon.BY
open Tachyon.BigInt (Limbs)

/-- The unsigned value of chunks of `w` bits. -/
def cval (w : ℕ) : List ℕ → ℕ
  | [] => 0
  | a :: as => a + 2 ^ w * cval w as

/-- Chunks of `w` bits. -/
def Chunky (w : ℕ) (l : List ℕ) : Prop := ∀ x ∈ l, x < 2 ^ w

theorem cval_lt {w : ℕ} : ∀ {l : List ℕ}, Chunky w l → cval w l < 2 ^ (w * l.length)
  | [], _ => by simp [cval]
  | a :: as, h => by
    have h1 := cval_lt (fun x hx => h x (List.mem_cons_of_mem _ hx) : Chunky w as)
    have h2 := h a (List.mem_cons_self ..)
    have h3 : 2 ^ (w * (a :: as).length) = 2 ^ w * 2 ^ (w * as.length) := by
      rw [← pow_add, List.length_cons]; ring_nf
    rw [h3]
    simp only [cval]
    have : 2 ^ w * cval w as + 2 ^ w ≤ 2 ^ w * 2 ^ (w * as.length) := by
      have := Nat.mul_le_mul_left (2 ^ w) (Nat.succ_le_of_lt h1)
      linarith [Nat.mul_succ (2 ^ w) (cval w as)]
    omega

theorem cval_append (w : ℕ) : ∀ (l r : List ℕ), cval w (l ++ r) = cval w l + 2 ^ (w * l.length) * cval w r
  | [], r => by simp [cval]
  | a :: as, r => by
    simp only [List.cons_append, cval, List.length_cons, cval_append w as r]
    rw [show w * (as.length + 1) = w + w * as.length by ring, pow_add]; ring

theorem cval_inj {w : ℕ} : ∀ {l r : List ℕ}, l.length = r.length → Chunky w l → Chunky w r → cval w l = cval w r → l = r
  | [], [], _, _, _, _ => rfl
  | a :: as, b :: bs, hl, ha, hb, h => by
    have h1 := ha a (List.mem_cons_self ..)
    have h2 := hb b (List.mem_cons_self ..)
    simp only [cval] at h
    have h3 : a = b := by
      have := congrArg (· % 2 ^ w) h
      simpa [Nat.add_mul_mod_self_left, Nat.mod_eq_of_lt h1, Nat.mod_eq_of_lt h2] using this
    subst h3
    have h4 : cval w as = cval w bs := Nat.eq_of_mul_eq_mul_left (by positivity) (Nat.add_left_cancel h)
    rw [cval_inj (by simpa using hl) (fun x hx => ha x (List.mem_cons_of_mem _ hx))
      (fun x hx => hb x (List.mem_cons_of_mem _ hx)) h4]

theorem cval_testBit {w : ℕ} (hw : 0 < w) : ∀ {l : List ℕ}, Chunky w l → ∀ p,
    (cval w l).testBit p = (l.getD (p / w) 0).testBit (p % w)
  | [], _, p => by simp [cval]
  | a :: as, h, p => by
    have h2 := h a (List.mem_cons_self ..)
    simp only [cval]
    rw [Nat.add_comm, Nat.testBit_two_pow_mul_add _ h2]
    split
    · rename_i hp
      rw [Nat.div_eq_of_lt hp, Nat.mod_eq_of_lt hp]; simp
    · rename_i hp
      have hp : w ≤ p := Nat.le_of_not_lt hp
      rw [cval_testBit hw (fun x hx => h x (List.mem_cons_of_mem _ hx) : Chunky w as)]
      obtain ⟨q, rfl⟩ := Nat.exists_eq_add_of_le hp
      rw [Nat.add_sub_cancel_left, Nat.add_div_left _ hw, Nat.add_mod_left]; simp

theorem and_mask (x : ℕ) : x &&& mask62 = x % 2 ^ 62 := Nat.and_two_pow_sub_one_eq_mod x 62

theorem xor_mask {a : ℕ} (h : a < 2 ^ 62) : a ^^^ mask62 = 2 ^ 62 - 1 - a := by
  apply Nat.eq_of_testBit_eq
  intro i
  rw [Nat.testBit_xor, mask62, Nat.testBit_two_pow_sub_one]
  rw [show 2 ^ 62 - 1 - a = 2 ^ 62 - (a + 1) by omega, Nat.testBit_two_pow_sub_succ h]
  by_cases hi : i < 62
  · simp [hi]
  · have : a.testBit i = false := Nat.testBit_lt_two_pow (lt_of_lt_of_le h (Nat.pow_le_pow_right (by norm_num) (by omega)))
    simp [hi, this]

theorem shiftRight62 (x : ℕ) : x >>> 62 = x / 2 ^ 62 := Nat.shiftRight_eq_div_pow x 62

/-! ### Sum, negation and product modulo `2 ^ (62 L)` -/

theorem addGo_spec : ∀ {a b : List ℕ} {c : ℕ}, a.length = b.length → Chunky 62 a → Chunky 62 b → c ≤ 1 →
    (addGo a b c).length = a.length ∧ Chunky 62 (addGo a b c) ∧
      ∃ k, cval 62 (addGo a b c) + 2 ^ (62 * a.length) * k = cval 62 a + cval 62 b + c
  | [], [], c, _, _, _, _ => ⟨rfl, by simp [addGo, Chunky], c, by simp [addGo, cval]⟩
  | a :: as, b :: bs, c, hl, ha, hb, hc => by
    have h1 := ha a (List.mem_cons_self ..)
    have h2 := hb b (List.mem_cons_self ..)
    have hs : (a + b + c) % 2 ^ 64 = a + b + c := Nat.mod_eq_of_lt (by omega)
    have hc' : (a + b + c) / 2 ^ 62 ≤ 1 := by omega
    obtain ⟨i1, i2, k, i3⟩ := addGo_spec (by simpa using hl) (fun x hx => ha x (List.mem_cons_of_mem _ hx))
      (fun x hx => hb x (List.mem_cons_of_mem _ hx)) hc' (a := as) (b := bs)
    simp only [addGo, and_mask, shiftRight62, hs]
    refine ⟨by rw [List.length_cons, i1, List.length_cons], ?_, k, ?_⟩
    · intro x hx
      rcases List.mem_cons.mp hx with rfl | hx
      · exact Nat.mod_lt _ (by positivity)
      · exact i2 x hx
    · simp only [cval, List.length_cons]
      have h3 := Nat.div_add_mod (a + b + c) (2 ^ 62)
      rw [show 62 * (as.length + 1) = 62 + 62 * as.length by ring, pow_add]
      calc (a + b + c) % 2 ^ 62 + 2 ^ 62 * cval 62 (addGo as bs ((a + b + c) / 2 ^ 62)) + 2 ^ 62 * 2 ^ (62 * as.length) * k
          = (a + b + c) % 2 ^ 62 + 2 ^ 62 * (cval 62 (addGo as bs ((a + b + c) / 2 ^ 62)) + 2 ^ (62 * as.length) * k) := by
            ring
        _ = (a + b + c) % 2 ^ 62 + 2 ^ 62 * (cval 62 as + cval 62 bs + (a + b + c) / 2 ^ 62) := by rw [i3]
        _ = a + 2 ^ 62 * cval 62 as + (b + 2 ^ 62 * cval 62 bs) + c := by linarith

/-- The chunks with all bits inverted. -/
def cnot (a : List ℕ) : List ℕ := a.map (2 ^ 62 - 1 - ·)

theorem cnot_chunky (a : List ℕ) : Chunky 62 (cnot a) := by
  intro x hx
  obtain ⟨y, _, rfl⟩ := List.mem_map.mp hx
  omega

theorem cnot_val : ∀ {a : List ℕ}, Chunky 62 a → cval 62 (cnot a) + cval 62 a + 1 = 2 ^ (62 * a.length)
  | [], _ => by simp [cnot, cval]
  | a :: as, h => by
    have h1 := h a (List.mem_cons_self ..)
    have i := cnot_val (fun x hx => h x (List.mem_cons_of_mem _ hx) : Chunky 62 as)
    simp only [cnot, List.map_cons, cval, List.length_cons] at i ⊢
    rw [show 62 * (as.length + 1) = 62 + 62 * as.length by ring, pow_add, ← i]
    have : (2 ^ 62 - 1 - a) + a + 1 = 2 ^ 62 := by omega
    linarith

theorem mulGo_spec (o : ℕ) (ho : o < 2 ^ 63) : ∀ {a : List ℕ} {c : ℕ}, Chunky 62 a → c ≤ o →
    (mulGo 0 o a c).length = a.length ∧ Chunky 62 (mulGo 0 o a c) ∧
      ∃ k, cval 62 (mulGo 0 o a c) + 2 ^ (62 * a.length) * k = cval 62 a * o + c
  | [], c, _, _ => ⟨rfl, by simp [mulGo, Chunky], c, by simp [mulGo, cval]⟩
  | a :: as, c, ha, hc => by
    have h1 := ha a (List.mem_cons_self ..)
    have h2 : a * o + c ≤ 2 ^ 62 * o := by
      have := Nat.mul_le_mul_right o (show a + 1 ≤ 2 ^ 62 by omega)
      linarith [Nat.succ_mul a o]
    have hs : (a * o + c) % 2 ^ 128 = a * o + c := Nat.mod_eq_of_lt (by omega)
    have hc' : (a * o + c) / 2 ^ 62 ≤ o := Nat.div_le_of_le_mul h2
    have hm : (a * o + c) / 2 ^ 62 % 2 ^ 64 = (a * o + c) / 2 ^ 62 := Nat.mod_eq_of_lt (by omega)
    obtain ⟨i1, i2, k, i3⟩ := mulGo_spec o ho (fun x hx => ha x (List.mem_cons_of_mem _ hx)) hc' (a := as)
    simp only [mulGo, Nat.xor_zero, and_mask, shiftRight62, hs, hm]
    refine ⟨by rw [List.length_cons, i1, List.length_cons], ?_, k, ?_⟩
    · intro x hx
      rcases List.mem_cons.mp hx with rfl | hx
      · exact Nat.mod_lt _ (by positivity)
      · exact i2 x hx
    · simp only [cval, List.length_cons]
      have h3 := Nat.div_add_mod (a * o + c) (2 ^ 62)
      rw [show 62 * (as.length + 1) = 62 + 62 * as.length by ring, pow_add]
      calc (a * o + c) % 2 ^ 62 + 2 ^ 62 * cval 62 (mulGo 0 o as ((a * o + c) / 2 ^ 62)) + 2 ^ 62 * 2 ^ (62 * as.length) * k
          = (a * o + c) % 2 ^ 62 + 2 ^ 62 * (cval 62 (mulGo 0 o as ((a * o + c) / 2 ^ 62)) + 2 ^ (62 * as.length) * k) := by
            ring
        _ = (a * o + c) % 2 ^ 62 + 2 ^ 62 * (cval 62 as * o + (a * o + c) / 2 ^ 62) := by rw [i3]
        _ = (a + 2 ^ 62 * cval 62 as) * o + c := by linarith

theorem mulGo_mask (o : ℕ) : ∀ {a : List ℕ} (c : ℕ), Chunky 62 a → mulGo mask62 o a c = mulGo 0 o (cnot a) c
  | [], _, _ => rfl
  | a :: as, c, h => by
    simp only [mulGo, cnot, List.map_cons, Nat.xor_zero, xor_mask (h a (List.mem_cons_self ..))]
    rw [mulGo_mask o _ (fun x hx => h x (List.mem_cons_of_mem _ hx))]
    rfl

theorem negGo_eq : ∀ {a : List ℕ} (c : ℕ), Chunky 62 a → c ≤ 1 → negGo a c = addGo (cnot a) (List.replicate a.length 0) c
  | [], _, _, _ => rfl
  | a :: as, c, h, hc => by
    simp only [negGo, cnot, List.map_cons, List.length_cons, List.replicate_succ, addGo, xor_mask (h a (List.mem_cons_self ..)),
      Nat.add_zero]
    rw [negGo_eq _ (fun x hx => h x (List.mem_cons_of_mem _ hx))]
    · rfl
    · rw [shiftRight62]
      have := Nat.mod_le (2 ^ 62 - 1 - a + c) (2 ^ 64)
      omega

theorem cval_replicate (n : ℕ) : cval 62 (List.replicate n 0) = 0 := by
  induction n with
  | zero => rfl
  | succ n ih => simp [List.replicate_succ, cval, ih]

theorem chunky_replicate (n : ℕ) : Chunky 62 (List.replicate n 0) := by
  intro x hx
  rw [List.eq_of_mem_replicate hx]; positivity

/-- `L` chunks that represent `z` modulo `2 ^ (62 L)`. -/
structure Cong (L : ℕ) (a : List ℕ) (z : ℤ) : Prop where
  len : a.length = L
  chunky : Chunky 62 a
  dvd : (2 : ℤ) ^ (62 * L) ∣ (cval 62 a : ℤ) - z

theorem Cong.add {L : ℕ} {a b : List ℕ} {y z : ℤ} (ha : Cong L a y) (hb : Cong L b z) : Cong L (add a b) (y + z) := by
  obtain ⟨h1, h2, k, h3⟩ := addGo_spec (by rw [ha.len, hb.len]) ha.chunky hb.chunky (Nat.zero_le 1)
  rw [ha.len] at h1 h3
  refine ⟨h1, h2, ?_⟩
  obtain ⟨p, hp⟩ := ha.dvd
  obtain ⟨q, hq⟩ := hb.dvd
  refine ⟨p + q - k, ?_⟩
  have h3 : (cval 62 (addGo a b 0) : ℤ) + 2 ^ (62 * L) * k = cval 62 a + cval 62 b + 0 := by exact_mod_cast h3
  rw [BY.add]
  linear_combination h3 + hp + hq

theorem Cong.neg {L : ℕ} {a : List ℕ} {z : ℤ} (ha : Cong L a z) : Cong L (neg a) (-z) := by
  have hr : (cnot a).length = (List.replicate a.length 0).length := by simp [cnot]
  obtain ⟨h1, h2, k, h3⟩ := addGo_spec hr (cnot_chunky a) (chunky_replicate a.length) (le_refl 1)
  have hn := cnot_val ha.chunky
  have hl : (cnot a).length = L := by simp [cnot, ha.len]
  rw [hl] at h1 h3
  rw [BY.neg, negGo_eq 1 ha.chunky (le_refl 1)]
  refine ⟨h1, h2, ?_⟩
  rw [ha.len] at hn h3 ⊢
  rw [cval_replicate] at h3
  obtain ⟨p, hp⟩ := ha.dvd
  refine ⟨1 - p - k, ?_⟩
  have h3 : (cval 62 (addGo (cnot a) (List.replicate L 0) 1) : ℤ) + 2 ^ (62 * L) * k = cval 62 (cnot a) + 0 + 1 := by
    exact_mod_cast h3
  have hn : (cval 62 (cnot a) : ℤ) + cval 62 a + 1 = 2 ^ (62 * L) := by exact_mod_cast hn
  linear_combination h3 + hn - hp

theorem Cong.mul {L : ℕ} {a : List ℕ} {z : ℤ} (ha : Cong L a z) {o : ℤ} (h0 : -2 ^ 63 < o) (h1 : o < 2 ^ 63) :
    ∃ r, mul a o = some r ∧ Cong L r (z * o) := by
  rw [BY.mul]
  split
  · rename_i hneg
    rw [i64, if_pos (by constructor <;> omega)]
    have hlt : (-o).toNat < 2 ^ 63 := by omega
    obtain ⟨i1, i2, k, i3⟩ := mulGo_spec _ hlt (cnot_chunky a) (le_refl (-o).toNat)
    refine ⟨_, rfl, ?_⟩
    change Cong L (mulGo mask62 (-o).toNat a (-o).toNat) (z * o)
    rw [mulGo_mask _ _ ha.chunky]
    have hl : (cnot a).length = L := by simp [cnot, ha.len]
    have hn := cnot_val ha.chunky
    rw [hl] at i1 i3
    rw [ha.len] at hn
    refine ⟨i1, i2, ?_⟩
    obtain ⟨p, hp⟩ := ha.dvd
    have i3 : (cval 62 (mulGo 0 (-o).toNat (cnot a) (-o).toNat) : ℤ) + 2 ^ (62 * L) * k
        = cval 62 (cnot a) * (-o).toNat + (-o).toNat := by exact_mod_cast i3
    have hn : (cval 62 (cnot a) : ℤ) + cval 62 a + 1 = 2 ^ (62 * L) := by exact_mod_cast hn
    rw [Int.toNat_of_nonneg (show 0 ≤ -o by omega)] at i3
    refine ⟨p * o - o - k, ?_⟩
    linear_combination i3 - hn * o + hp * o
  · rename_i hneg
    have hlt : o.toNat < 2 ^ 63 := by omega
    obtain ⟨i1, i2, k, i3⟩ := mulGo_spec _ hlt ha.chunky (Nat.zero_le o.toNat)
    refine ⟨_, rfl, ?_⟩
    rw [ha.len] at i1 i3
    refine ⟨i1, i2, ?_⟩
    obtain ⟨p, hp⟩ := ha.dvd
    have i3 : (cval 62 (mulGo 0 o.toNat a 0) : ℤ) + 2 ^ (62 * L) * k = cval 62 a * o.toNat + 0 := by exact_mod_cast i3
    rw [Int.toNat_of_nonneg (show 0 ≤ o by omega)] at i3
    refine ⟨p * o - k, ?_⟩
    linear_combination i3 + hp * o

theorem comb_spec {L : ℕ} {f g : List ℕ} {F G : ℤ} (hf : Cong L f F) (hg : Cong L g G) {a b : ℤ}
    (ha0 : -2 ^ 63 < a) (ha1 : a < 2 ^ 63) (hb0 : -2 ^ 63 < b) (hb1 : b < 2 ^ 63) :
    ∃ r, comb f g a b = some r ∧ Cong L r (F * a + G * b) := by
  obtain ⟨x, hx, hx'⟩ := hf.mul ha0 ha1
  obtain ⟨y, hy, hy'⟩ := hg.mul hb0 hb1
  exact ⟨_, by simp [comb, hx, hy], hx'.add hy'⟩

/-! ### Numbers in range -/

/-- The number is in the range of two's complement with `62 L` bits. -/
def InRange (L : ℕ) (z : ℤ) : Prop := -2 ^ (62 * L - 1) ≤ z ∧ z < 2 ^ (62 * L - 1)

theorem pow_half {L : ℕ} (hL : 0 < L) : (2 : ℤ) ^ (62 * L) = 2 * 2 ^ (62 * L - 1) := by
  rw [← pow_succ']; congr 1; omega

theorem Cong.nonneg {L : ℕ} (hL : 0 < L) {a : List ℕ} {z : ℤ} (ha : Cong L a z) (hr : InRange L z) (hz : 0 ≤ z) :
    (cval 62 a : ℤ) = z := by
  have h1 : (cval 62 a : ℤ) < 2 ^ (62 * L) := by
    have := cval_lt ha.chunky
    rw [ha.len] at this; exact_mod_cast this
  have h2 := pow_half hL
  have h3 : (0 : ℤ) < 2 ^ (62 * L - 1) := by positivity
  obtain ⟨k, hk⟩ := ha.dvd
  have h4 : (0 : ℤ) ≤ cval 62 a := Int.natCast_nonneg _
  have hr2 := hr.2
  have : k = 0 := by
    by_contra hk0
    rcases lt_or_gt_of_ne hk0 with h | h
    · have : k ≤ -1 := by omega
      nlinarith
    · have : 1 ≤ k := by omega
      nlinarith
  rw [this] at hk
  linarith

theorem Cong.neg_val {L : ℕ} (hL : 0 < L) {a : List ℕ} {z : ℤ} (ha : Cong L a z) (hr : InRange L z) (hz : z < 0) :
    (cval 62 a : ℤ) = z + 2 ^ (62 * L) := by
  have h1 : (cval 62 a : ℤ) < 2 ^ (62 * L) := by
    have := cval_lt ha.chunky
    rw [ha.len] at this; exact_mod_cast this
  have h2 := pow_half hL
  have h3 : (0 : ℤ) < 2 ^ (62 * L - 1) := by positivity
  obtain ⟨k, hk⟩ := ha.dvd
  have h4 : (0 : ℤ) ≤ cval 62 a := Int.natCast_nonneg _
  have hr1 := hr.1
  have : k = 1 := by
    by_contra hk0
    rcases lt_or_gt_of_ne hk0 with h | h
    · have : k ≤ 0 := by omega
      nlinarith
    · have : 2 ≤ k := by omega
      nlinarith
  rw [this] at hk
  linarith

theorem Cong.eq {L : ℕ} (hL : 0 < L) {a b : List ℕ} {y z : ℤ} (ha : Cong L a y) (hb : Cong L b z) (hy : InRange L y)
    (hz : InRange L z) : a = b ↔ y = z := by
  constructor
  · rintro rfl
    have h2 := pow_half hL
    have h3 : (0 : ℤ) < 2 ^ (62 * L - 1) := by positivity
    have := cval_lt ha.chunky
    rw [ha.len] at this
    have h1 : (cval 62 a : ℤ) < 2 ^ (62 * L) := by exact_mod_cast this
    have h4 : (0 : ℤ) ≤ cval 62 a := Int.natCast_nonneg _
    obtain ⟨hy1, hy2⟩ := hy
    obtain ⟨hz1, hz2⟩ := hz
    rcases lt_or_ge y 0 with hy0 | hy0 <;> rcases lt_or_ge z 0 with hz0 | hz0
    · linarith [ha.neg_val hL ⟨hy1, hy2⟩ hy0, hb.neg_val hL ⟨hz1, hz2⟩ hz0]
    · linarith [ha.neg_val hL ⟨hy1, hy2⟩ hy0, hb.nonneg hL ⟨hz1, hz2⟩ hz0]
    · linarith [ha.nonneg hL ⟨hy1, hy2⟩ hy0, hb.neg_val hL ⟨hz1, hz2⟩ hz0]
    · linarith [ha.nonneg hL ⟨hy1, hy2⟩ hy0, hb.nonneg hL ⟨hz1, hz2⟩ hz0]
  · rintro rfl
    refine cval_inj (by rw [ha.len, hb.len]) ha.chunky hb.chunky ?_
    rcases lt_or_ge y 0 with hy0 | hy0
    · exact_mod_cast (ha.neg_val hL hy hy0).trans (hb.neg_val hL hy hy0).symm
    · exact_mod_cast (ha.nonneg hL hy hy0).trans (hb.nonneg hL hy hy0).symm

theorem isNegative_iff {a : List ℕ} (hc : Chunky 62 a) (h0 : a ≠ []) :
    isNegative a = true ↔ 2 ^ (62 * a.length - 1) ≤ cval 62 a := by
  obtain ⟨l, x, rfl⟩ := List.eq_nil_or_concat a |>.resolve_left h0
  rw [List.concat_eq_append] at *
  have hl : Chunky 62 l := fun y hy => hc y (by simp [hy])
  have h1 := cval_lt hl
  have hx := hc x (by simp)
  have hm : mask62 >>> 1 = 2 ^ 61 - 1 := by decide
  have hg : (l ++ [x]).getLastD 0 = x := by simp [List.getLastD_eq_getLast?]
  rw [isNegative, hg, hm, cval_append]
  simp only [cval, List.length_append, List.length_singleton, decide_eq_true_eq,
    Nat.mul_zero, Nat.add_zero]
  have e : 2 ^ (62 * (l.length + 1) - 1) = 2 ^ (62 * l.length) * 2 ^ 61 := by
    rw [← pow_add]; congr 1
  rw [e]
  constructor
  · intro h
    have := Nat.mul_le_mul_left (2 ^ (62 * l.length)) (show 2 ^ 61 ≤ x by omega)
    omega
  · intro h
    by_contra hx'
    have := Nat.mul_le_mul_left (2 ^ (62 * l.length)) (show x + 1 ≤ 2 ^ 61 by omega)
    rw [Nat.mul_succ] at this
    omega

theorem Cong.isNegative {L : ℕ} (hL : 0 < L) {a : List ℕ} {z : ℤ} (ha : Cong L a z) (hr : InRange L z) :
    isNegative a = decide (z < 0) := by
  have h0 : a ≠ [] := by
    intro h
    have := ha.len
    rw [h] at this
    simp at this; omega
  have h := isNegative_iff ha.chunky h0
  rw [ha.len] at h
  have h2 := pow_half hL
  rcases lt_or_ge z 0 with hz | hz
  · rw [decide_eq_true hz, h]
    have := ha.neg_val hL hr hz
    have hr1 := hr.1
    have : (2 : ℤ) ^ (62 * L - 1) ≤ cval 62 a := by linarith
    exact_mod_cast this
  · rw [decide_eq_false (by omega), Bool.eq_false_iff, Ne, h]
    have := ha.nonneg hL hr hz
    have hr2 := hr.2
    intro h'
    have h' : (2 : ℤ) ^ (62 * L - 1) ≤ cval 62 a := by exact_mod_cast h'
    linarith

theorem Cong.lowest {L : ℕ} (hL : 0 < L) {a : List ℕ} {z : ℤ} (ha : Cong L a z) :
    lowest a < 2 ^ 62 ∧ (2 : ℤ) ^ 62 ∣ (lowest a : ℤ) - z := by
  match a, ha with
  | [], ha => exact absurd ha.len (by simp; omega)
  | x :: xs, ha =>
    refine ⟨ha.chunky x (List.mem_cons_self ..), ?_⟩
    have h1 : (2 : ℤ) ^ 62 ∣ 2 ^ (62 * L) := pow_dvd_pow _ (by omega)
    have h2 := h1.trans ha.dvd
    simp only [cval] at h2
    push_cast at h2
    have h3 : ((BY.lowest (x :: xs) : ℕ) : ℤ) - z = ((x : ℤ) + 2 ^ 62 * (cval 62 xs : ℤ) - z) - 2 ^ 62 * cval 62 xs := by
      simp [BY.lowest]; ring
    rw [h3]
    exact dvd_sub h2 (dvd_mul_right _ _)

theorem Cong.shift {L : ℕ} (hL : 0 < L) {a : List ℕ} {z : ℤ} (ha : Cong L a (2 ^ 62 * z)) (hr : InRange L (2 ^ 62 * z)) :
    Cong L (shift a) z := by
  have hneg := ha.isNegative hL hr
  have hpos := fun h => ha.nonneg hL hr h
  have hng := fun h => ha.neg_val hL hr h
  match a, ha with
  | [], ha => exact absurd ha.len (by simp; omega)
  | x :: xs, ha =>
    have hl : xs.length + 1 = L := ha.len
    subst hl
    have hxs : Chunky 62 xs := fun y hy => ha.chunky y (by simp [hy])
    have hx := ha.chunky x (by simp)
    have e : (2 : ℤ) ^ (62 * (xs.length + 1)) = 2 ^ 62 * 2 ^ (62 * xs.length) := by rw [← pow_add]; ring_nf
    rw [BY.shift, hneg]
    simp only [List.tail_cons]
    refine ⟨by simp, ?_, ?_⟩
    · intro y hy
      rcases List.mem_append.mp hy with hy | hy
      · exact hxs y hy
      · rw [List.mem_singleton.mp hy]
        split <;> simp [mask62]
    · rw [cval_append]
      simp only [cval] at hpos hng ⊢
      rcases lt_or_ge z 0 with hz | hz
      · have h1 := hng (by omega)
        have : (2 : ℤ) ^ 62 * z < 0 := by omega
        simp only [this, decide_true, if_true]
        push_cast at h1 ⊢
        have hx0 : (x : ℤ) = 0 := by
          rw [e] at h1
          generalize (2 : ℤ) ^ (62 * xs.length) = P at h1
          have hx' : (x : ℤ) < 2 ^ 62 := by exact_mod_cast hx
          omega
        rw [hx0, e] at h1
        refine ⟨1, ?_⟩
        have h2 : (cval 62 xs : ℤ) = z + 2 ^ (62 * xs.length) := by
          have : (2 : ℤ) ^ 62 * cval 62 xs = 2 ^ 62 * (z + 2 ^ (62 * xs.length)) := by linarith
          exact mul_left_cancel₀ (by norm_num) this
        have h3 : ((mask62 : ℕ) : ℤ) = 2 ^ 62 - 1 := by norm_num [mask62]
        rw [h2, h3, e]; ring
      · have h1 := hpos (by positivity)
        have : ¬ (2 : ℤ) ^ 62 * z < 0 := by omega
        simp only [this, decide_false]
        push_cast at h1 ⊢
        have hx0 : (x : ℤ) = 0 := by
          have hx' : (x : ℤ) < 2 ^ 62 := by exact_mod_cast hx
          omega
        have h2 : (cval 62 xs : ℤ) = z := by omega
        refine ⟨0, ?_⟩
        rw [h2]; simp

end Tachyon.BY
