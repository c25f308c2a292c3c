import Mathlib.Algebra.BigOperators.Group.Finset.Basic
import Mathlib.Algebra.Module.BigOperators
import Mathlib.RingTheory.RootsOfUnity.PrimitiveRoots
import Mathlib.Algebra.Field.GeomSum
import Mathlib.Tactic
import Verif.Proofs.Bits
/-! The mathematics of the FFT: bit reversal, the sums computed by the stages of both directions, and the
inversion formula. Values lie in a module, so that the same lemmas serve vectors and matrices of rows. -/
namespace Tachyon.FFT
open Finset

/-! ### Bit reversal -/

/-- The number whose `k` bits are the low `k` bits of `i` in reverse order. -/
def rv : ℕ → ℕ → ℕ
  | 0, _ => 0
  | k + 1, i => i % 2 * 2 ^ k + rv k (i / 2)

theorem rv_lt (k i : ℕ) : rv k i < 2 ^ k := by
  induction k generalizing i with
  | zero => simp [rv]
  | succ k ih =>
    have := ih (i / 2)
    rw [rv, pow_succ]
    rcases Nat.mod_two_eq_zero_or_one i with h | h <;> rw [h] <;> omega

theorem rv_even (k b : ℕ) : rv (k + 1) (2 * b) = rv k b := by
  rw [rv, show 2 * b % 2 = 0 by omega, show 2 * b / 2 = b by omega]; omega

theorem rv_odd (k b : ℕ) : rv (k + 1) (2 * b + 1) = 2 ^ k + rv k b := by
  rw [rv, show (2 * b + 1) % 2 = 1 by omega, show (2 * b + 1) / 2 = b by omega]; omega

theorem rv_mul (k s b : ℕ) : rv (k + s) (b * 2 ^ s) = rv k b := by
  induction s with
  | zero => simp
  | succ s ih =>
    rw [← Nat.add_assoc, show b * 2 ^ (s + 1) = 2 * (b * 2 ^ s) by ring, rv_even, ih]

theorem testBit_rv (k i b : ℕ) : (rv k i).testBit b = (decide (b < k) && i.testBit (k - 1 - b)) := by
  induction k generalizing i b with
  | zero => simp [rv]
  | succ k ih =>
    rw [rv, mul_comm, Nat.testBit_two_pow_mul_add _ (rv_lt k _)]
    split
    · next h =>
      rw [ih, Nat.testBit_div_two]
      simp only [h, show b < k + 1 by omega, decide_true, Bool.true_and]
      congr 1; omega
    · next h =>
      rcases Nat.eq_or_lt_of_le (not_lt.1 h) with rfl | h'
      · simp
      · have e : b - k ≠ 0 := by omega
        obtain ⟨m, hm⟩ : ∃ m, b - k = m + 1 := ⟨b - k - 1, by omega⟩
        rw [hm, Nat.testBit_succ]
        have : i % 2 / 2 = 0 := by omega
        rw [this]
        simp [show ¬ b < k + 1 by omega]

theorem rv_rv {k i : ℕ} (h : i < 2 ^ k) : rv k (rv k i) = i := by
  apply Nat.eq_of_testBit_eq
  intro b
  rw [testBit_rv, testBit_rv]
  by_cases hb : b < k
  · rw [show k - 1 - (k - 1 - b) = b by omega]
    simp [hb, show k - 1 - b < k by omega]
  · have : i.testBit b = false :=
      Nat.testBit_lt_two_pow (lt_of_lt_of_le h (Nat.pow_le_pow_right (by norm_num) (by omega)))
    simp [hb, this]

theorem rv_inj {k i j : ℕ} (hi : i < 2 ^ k) (hj : j < 2 ^ k) (h : rv k i = rv k j) : i = j := by
  rw [← rv_rv hi, ← rv_rv hj, h]

theorem reverseBitsLen_rv {k i : ℕ} (h0 : 0 < k) (h : k ≤ 64) (hi : i < 2 ^ k) :
    ∃ r, Bits.reverseBitsLen (BitVec.ofNat 64 i) k = some r ∧ r.toNat = rv k i := by
  obtain ⟨r, e, h1, h2⟩ := Bits.reverseBitsLen_getLsbD (BitVec.ofNat 64 i) h0 h
  refine ⟨r, e, Nat.eq_of_testBit_eq fun b => ?_⟩
  rw [testBit_rv]
  have h64 : (2 : ℕ) ^ k ≤ 2 ^ 64 := Nat.pow_le_pow_right (by norm_num) h
  by_cases hb : b < k
  · have := h2 b hb
    rw [BitVec.getLsbD, BitVec.getLsbD, BitVec.toNat_ofNat, Nat.mod_eq_of_lt (by omega)] at this
    rw [this]; simp [hb]
  · rw [Nat.testBit_lt_two_pow (lt_of_lt_of_le h1 (Nat.pow_le_pow_right (by norm_num) (by omega)))]
    simp [hb]

/-! ### The stages -/

theorem sum_range_two_mul {V : Type*} [AddCommMonoid V] (n : ℕ) (f : ℕ → V) :
    ∑ t ∈ range (2 * n), f t = ∑ t ∈ range n, f (2 * t) + ∑ t ∈ range n, f (2 * t + 1) := by
  induction n with
  | zero => simp
  | succ n ih =>
    rw [show 2 * (n + 1) = 2 * n + 1 + 1 by ring, sum_range_succ, sum_range_succ, ih,
      sum_range_succ, sum_range_succ]
    abel

variable {F V : Type*} [Field F] [AddCommGroup V] [Module F V]

/-- The values of the polynomial with coefficients `c` at the powers of `w`. -/
def dft (w : F) (n : ℕ) (c : ℕ → V) (j : ℕ) : V := ∑ t ∈ range n, w ^ (j * t) • c t

/-- Value `j` of block `b` of size `2^s` before stage `s` of the network for bit-reversed input; there
are `2^e` blocks. -/
def dit (c : ℕ → V) (w : F) (e s b j : ℕ) : V :=
  ∑ t ∈ range (2 ^ s), w ^ (2 ^ e * (j * t)) • c (rv e b + t * 2 ^ e)

theorem dit_lo (c : ℕ → V) (w : F) (e s b j : ℕ) :
    dit c w e (s + 1) b j =
      dit c w (e + 1) s (2 * b) j + w ^ (2 ^ e * j) • dit c w (e + 1) s (2 * b + 1) j := by
  rw [dit, show 2 ^ (s + 1) = 2 * 2 ^ s by ring, sum_range_two_mul, dit, dit, Finset.smul_sum]
  congr 1
  · refine Finset.sum_congr rfl fun t _ => ?_
    rw [rv_even]
    congr 2 <;> ring
  · refine Finset.sum_congr rfl fun t _ => ?_
    rw [rv_odd, smul_smul, ← pow_add]
    congr 2 <;> ring

theorem dit_hi (c : ℕ → V) {w : F} {e s : ℕ} (hw : w ^ 2 ^ (e + s) = -1) (b j : ℕ) :
    dit c w e (s + 1) b (j + 2 ^ s) =
      dit c w (e + 1) s (2 * b) j - w ^ (2 ^ e * j) • dit c w (e + 1) s (2 * b + 1) j := by
  rw [dit, show 2 ^ (s + 1) = 2 * 2 ^ s by ring, sum_range_two_mul, dit, dit, Finset.smul_sum,
    sub_eq_add_neg, ← Finset.sum_neg_distrib]
  congr 1
  · refine Finset.sum_congr rfl fun t _ => ?_
    rw [rv_even]
    have : w ^ (2 ^ e * ((j + 2 ^ s) * (2 * t))) = w ^ (2 ^ (e + 1) * (j * t)) := by
      rw [show 2 ^ e * ((j + 2 ^ s) * (2 * t)) = 2 ^ (e + 1) * (j * t) + 2 ^ (e + s) * (2 * t) by ring,
        pow_add, pow_mul w (2 ^ (e + s)), hw, pow_mul]
      simp
    rw [this]
    congr 2; ring
  · refine Finset.sum_congr rfl fun t _ => ?_
    rw [rv_odd, smul_smul, ← pow_add, ← neg_smul]
    have : w ^ (2 ^ e * ((j + 2 ^ s) * (2 * t + 1))) = -w ^ (2 ^ e * j + 2 ^ (e + 1) * (j * t)) := by
      rw [show 2 ^ e * ((j + 2 ^ s) * (2 * t + 1)) =
        2 ^ e * j + 2 ^ (e + 1) * (j * t) + 2 ^ (e + s) * (2 * t + 1) by ring,
        pow_add _ _ (2 ^ (e + s) * (2 * t + 1)), pow_mul w (2 ^ (e + s)), hw, pow_succ (-1 : F), pow_mul (-1 : F)]
      simp
    rw [this]
    congr 2; ring

theorem dit_start (c : ℕ → V) (w : F) (k b : ℕ) : dit c w k 0 b 0 = c (rv k b) := by
  simp [dit]

theorem dit_end (c : ℕ → V) (w : F) (k j : ℕ) : dit c w 0 k 0 j = dft w (2 ^ k) c j := by
  simp [dit, dft, rv]

/-- With few coefficients the first stages only copy. -/
theorem dit_short (c : ℕ → V) (w : F) {e s : ℕ} (hc : ∀ i, 2 ^ e ≤ i → c i = 0) {b : ℕ} (j : ℕ) :
    dit c w e s b j = c (rv e b) := by
  rw [dit, Finset.sum_eq_single_of_mem 0 (by simp)]
  · simp
  · intro t _ ht
    have : 2 ^ e ≤ t * 2 ^ e := Nat.le_mul_of_pos_left _ (by omega)
    rw [hc _ (by omega), smul_zero]

/-- Value `j` of block `b` of size `2^e` before stage `s` of the network for input in order; there are
`2^s` blocks. -/
def dif (c : ℕ → V) (w : F) (e s b j : ℕ) : V :=
  ∑ t ∈ range (2 ^ s), w ^ ((j + t * 2 ^ e) * rv s b) • c (j + t * 2 ^ e)

theorem dif_lo (c : ℕ → V) (w : F) (e s b j : ℕ) :
    dif c w e (s + 1) (2 * b) j = dif c w (e + 1) s b j + dif c w (e + 1) s b (j + 2 ^ e) := by
  rw [dif, show 2 ^ (s + 1) = 2 * 2 ^ s by ring, sum_range_two_mul, dif, dif, rv_even]
  congr 1
  · refine Finset.sum_congr rfl fun t _ => ?_
    rw [show j + 2 * t * 2 ^ e = j + t * 2 ^ (e + 1) by ring]
  · refine Finset.sum_congr rfl fun t _ => ?_
    rw [show j + (2 * t + 1) * 2 ^ e = j + 2 ^ e + t * 2 ^ (e + 1) by ring]

theorem dif_hi (c : ℕ → V) {w : F} {e s : ℕ} (hw : w ^ 2 ^ (e + s) = -1) (b j : ℕ) :
    dif c w e (s + 1) (2 * b + 1) j =
      w ^ (2 ^ s * j) • (dif c w (e + 1) s b j - dif c w (e + 1) s b (j + 2 ^ e)) := by
  rw [dif, show 2 ^ (s + 1) = 2 * 2 ^ s by ring, sum_range_two_mul, dif, dif, rv_odd, smul_sub,
    sub_eq_add_neg, Finset.smul_sum, Finset.smul_sum, ← Finset.sum_neg_distrib]
  congr 1
  · refine Finset.sum_congr rfl fun t _ => ?_
    rw [smul_smul, show j + 2 * t * 2 ^ e = j + t * 2 ^ (e + 1) by ring]
    congr 1
    rw [mul_add, pow_add,
      show (j + t * 2 ^ (e + 1)) * 2 ^ s = 2 ^ s * j + 2 ^ (e + s) * (2 * t) by ring,
      pow_add _ (2 ^ s * j), pow_mul w (2 ^ (e + s)), hw, pow_mul (-1 : F)]
    simp
  · refine Finset.sum_congr rfl fun t _ => ?_
    rw [smul_smul, ← neg_smul, show j + (2 * t + 1) * 2 ^ e = j + 2 ^ e + t * 2 ^ (e + 1) by ring]
    congr 1
    rw [mul_add, pow_add,
      show (j + 2 ^ e + t * 2 ^ (e + 1)) * 2 ^ s = 2 ^ s * j + 2 ^ (e + s) * (2 * t + 1) by ring,
      pow_add _ (2 ^ s * j), pow_mul w (2 ^ (e + s)), hw, pow_succ (-1 : F), pow_mul (-1 : F)]
    simp

theorem dif_start (c : ℕ → V) (w : F) (k j : ℕ) : dif c w k 0 0 j = c j := by
  simp [dif, rv]

theorem dif_end (c : ℕ → V) (w : F) (k b : ℕ) : dif c w 0 k b 0 = dft w (2 ^ k) c (rv k b) := by
  simp [dif, dft, mul_comm]

/-! ### Roots of unity -/

theorem half_pow {w : F} {k : ℕ} (h : IsPrimitiveRoot w (2 ^ (k + 1))) : w ^ 2 ^ k = -1 := by
  have h1 : (w ^ 2 ^ k) ^ 2 = 1 := by rw [← pow_mul, ← pow_succ, h.pow_eq_one]
  rcases sq_eq_one_iff.1 h1 with h2 | h2
  · exact absurd h2 (h.pow_ne_one_of_pos_of_lt (by positivity)
      (Nat.pow_lt_pow_right (by norm_num) (by omega)))
  · exact h2

theorem card_ne_zero {w : F} {n : ℕ} (hn : 0 < n) (h : IsPrimitiveRoot w n) : (n : F) ≠ 0 :=
  haveI : NeZero n := ⟨by omega⟩
  (h.neZero').out

/-- The inversion formula. -/
theorem dft_dft {w : F} {n : ℕ} (h : IsPrimitiveRoot w n) (c : ℕ → V) {i : ℕ} (hi : i < n) :
    dft w⁻¹ n (dft w n c) i = (n : F) • c i := by
  have hw : w ≠ 0 := h.ne_zero (by omega)
  have key : ∀ t < n, ∑ j ∈ range n, w⁻¹ ^ (i * j) * w ^ (j * t) = if t = i then (n : F) else 0 := by
    intro t ht
    have e : ∀ j, w⁻¹ ^ (i * j) * w ^ (j * t) = (w ^ t * w⁻¹ ^ i) ^ j := fun j => by
      rw [mul_pow, ← pow_mul, ← pow_mul, mul_comm j t, mul_comm]
    simp only [e]
    split
    · next h2 => rw [h2, inv_pow, mul_inv_cancel₀ (pow_ne_zero _ hw)]; simp
    · next h2 =>
      have hne : w ^ t * w⁻¹ ^ i ≠ 1 := by
        rw [inv_pow]
        intro h3
        rw [mul_inv_eq_one₀ (pow_ne_zero _ hw)] at h3
        exact h2 (h.pow_inj ht hi h3)
      have hp : (w ^ t * w⁻¹ ^ i) ^ n = 1 := by
        rw [mul_pow, ← pow_mul, ← pow_mul, mul_comm t, mul_comm i, pow_mul, pow_mul, inv_pow,
          h.pow_eq_one]
        simp
      rw [geom_sum_eq hne, hp]; simp
  simp only [dft, Finset.smul_sum, smul_smul]
  rw [Finset.sum_comm]
  have : ∀ t ∈ range n, ∑ j ∈ range n, (w⁻¹ ^ (i * j) * w ^ (j * t)) • c t =
      if t = i then (n : F) • c i else 0 := by
    intro t ht
    rw [← Finset.sum_smul, key t (Finset.mem_range.1 ht)]
    split
    · next h2 => rw [h2]
    · simp
  rw [Finset.sum_congr rfl this, Finset.sum_ite_eq' (range n) i]
  simp [hi]


end Tachyon.FFT
