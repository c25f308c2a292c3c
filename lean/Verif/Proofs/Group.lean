import Verif.Model.Group
import Verif.Proofs.Parallel
import Verif.Proofs.Bits
import Verif.Proofs.Pow
import Mathlib.Algebra.BigOperators.Group.List.Basic
import Mathlib.FieldTheory.Finite.Basic
import Mathlib.Tactic.FieldSimp
import Mathlib.Tactic.Ring
import Mathlib.Tactic.LinearCombination
/-!
# Lemmas for `Model/Group.lean`
-/
universe u
namespace Tachyon.Group
open Tachyon.Parallel

section BatchInverse
variable {F : Type u} [Field F] [DecidableEq F]

theorem firstPass_append (gs : List F) (g p : F) (st : List F) :
    firstPass (gs ++ [g]) p st =
      if g ≠ 0 then ((firstPass gs p st).1 * g, (firstPass gs p st).1 * g :: (firstPass gs p st).2)
      else firstPass gs p st := by
  induction gs generalizing p st with
  | nil => simp [firstPass]
  | cons h gs ih =>
    simp only [List.cons_append, firstPass]
    split
    · exact ih _ _
    · exact ih _ _

theorem passes_spec (gs : List F) :
    (firstPass gs 1 [1]).1 ≠ 0 ∧ (∃ tl, (firstPass gs 1 [1]).2 = (firstPass gs 1 [1]).1 :: tl) ∧
    ∀ (c : F) (acc : List F),
      secondPass gs.reverse (c * (firstPass gs 1 [1]).1⁻¹) (firstPass gs 1 [1]).2.tail acc =
        some (gs.map (fun g => if g = 0 then 0 else c * g⁻¹) ++ acc) := by
  induction gs using List.reverseRecOn with
  | nil => simp [firstPass, secondPass]
  | append_singleton gs g ih =>
    obtain ⟨h0, ⟨tl, htl⟩, ih⟩ := ih
    rw [firstPass_append]
    by_cases hg : g = 0
    · subst hg
      simp only [ne_eq, not_true_eq_false, if_false]
      refine ⟨h0, ⟨tl, htl⟩, fun c acc => ?_⟩
      simp [secondPass, ih]
    · simp only [ne_eq, hg, not_false_eq_true, if_true]
      refine ⟨mul_ne_zero h0 hg, ⟨_, rfl⟩, fun c acc => ?_⟩
      simp only [List.tail_cons, List.reverse_append, List.reverse_cons, List.reverse_nil,
        List.nil_append, List.singleton_append, secondPass, ne_eq, hg, not_false_eq_true, if_true]
      rw [htl] at ih ⊢
      simp only [List.tail_cons] at ih ⊢
      have e1 : c * ((firstPass gs 1 [1]).1 * g)⁻¹ * g = c * (firstPass gs 1 [1]).1⁻¹ := by
        field_simp
      have e2 : c * ((firstPass gs 1 [1]).1 * g)⁻¹ * (firstPass gs 1 [1]).1 = c * g⁻¹ := by
        field_simp
      rw [e1, e2, ih]
      simp [hg]

theorem doBatchInverse_eq (gs : List F) (c : F) :
    doBatchInverse gs c = some (gs.map fun g => if g = 0 then 0 else c * g⁻¹) := by
  obtain ⟨h0, -, h⟩ := passes_spec gs
  have hc : (if c = 1 then (firstPass gs 1 [1]).1⁻¹ else (firstPass gs 1 [1]).1⁻¹ * c) =
      c * (firstPass gs 1 [1]).1⁻¹ := by
    split
    · next h => rw [h, one_mul]
    · rw [mul_comm]
  simp only [doBatchInverse, inv?, if_neg h0, hc]
  simpa using h c []

end BatchInverse

section Powers
variable {M : Type u} [CommMonoid M] [DecidableEq M]

omit [DecidableEq M] in
theorem powSize_eq (g : M) {e : ℕ} (he : e < 2 ^ 64) : powSize g e = g ^ e := by
  have := doPow_rel (R := Eq) (o := (⟨1, (· * ·), fun x => x * x⟩ : MulOps M))
    ⟨rfl, by rintro _ _ _ _ rfl rfl; rfl, by rintro _ _ rfl; rfl⟩ (w := 64) (by omega) (rfl : g = g)
    [BitVec.ofNat 64 e]
  have hv : limbsVal [BitVec.ofNat 64 e] = e := by
    simp only [limbsVal, BitVec.toNat_ofNat, Nat.mod_eq_of_lt he]; omega
  rw [powSize, this, hv]

theorem powStart_eq (g c : M) {e : ℕ} (he : e < 2 ^ 64) : powStart g c e = c * g ^ e := by
  simp only [powStart, powSize_eq g he]
  split
  · next h => rw [h, one_mul]
  · rw [mul_comm]

omit [DecidableEq M] in
theorem powLoop_eq (g : M) (n : ℕ) (p : M) :
    powLoop g n p = (List.range (n + 1)).map fun i => p * g ^ i := by
  induction n generalizing p with
  | zero => simp [powLoop]
  | succ n ih =>
    rw [powLoop, ih, List.range_succ_eq_map (n := n + 1)]
    simp [pow_succ', mul_assoc, Function.comp_def]

omit [DecidableEq M] in
/-- The writes to bit-reversed positions; `rv` is the reversal on `[0, 2^k)`. -/
theorem bitRevLoop_spec {k : ℕ} {rv : ℕ → ℕ}
    (hrv : ∀ i < 2 ^ k, ∃ r, Bits.reverseBitsLen (BitVec.ofNat 64 i) k = some r ∧ r.toNat = rv i)
    (hlt : ∀ i < 2 ^ k, rv i < 2 ^ k) (hinv : ∀ i < 2 ^ k, rv (rv i) = i) (g : M) (n idx : ℕ) (p : M)
    (ret : List M) (hl : ret.length = 2 ^ k) (hn : idx + n < 2 ^ k) :
    ∃ ret', bitRevLoop g k n idx p ret = some ret' ∧ ret'.length = 2 ^ k ∧
      ∀ i < 2 ^ k, ret'[rv i]? =
        if idx ≤ i ∧ i ≤ idx + n then some (p * g ^ (i - idx)) else ret[rv i]? := by
  induction n generalizing idx p ret with
  | zero =>
    obtain ⟨r, hr, hr'⟩ := hrv idx (by omega)
    have h1 : rv idx < ret.length := by rw [hl]; exact hlt idx (by omega)
    refine ⟨ret.set (rv idx) p, by simp [bitRevLoop, hr, hr', h1], by simp [hl], fun i hi => ?_⟩
    by_cases h : i = idx
    · subst h; simp [h1]
    · have h2 : rv idx ≠ rv i := fun e => h (by rw [← hinv i hi, ← e, hinv idx (by omega)])
      rw [List.getElem?_set_ne h2, if_neg (by omega)]
  | succ n ih =>
    obtain ⟨r, hr, hr'⟩ := hrv idx (by omega)
    have h1 : rv idx < ret.length := by rw [hl]; exact hlt idx (by omega)
    obtain ⟨ret', he, hl', hv⟩ := ih (idx + 1) (p * g) (ret.set (rv idx) p) (by simp [hl]) (by omega)
    refine ⟨ret', by simp [bitRevLoop, hr, hr', h1, he], hl', fun i hi => ?_⟩
    rw [hv i hi]
    by_cases h : i = idx
    · subst h; simp [h1]
    · have h2 : rv idx ≠ rv i := fun e => h (by rw [← hinv i hi, ← e, hinv idx (by omega)])
      rw [List.getElem?_set_ne h2]
      by_cases h3 : idx + 1 ≤ i ∧ i ≤ idx + 1 + n
      · rw [if_pos h3, if_pos (by omega), mul_assoc, ← pow_succ']
        have : i - (idx + 1) + 1 = i - idx := by omega
        rw [this]
      · rw [if_neg h3, if_neg (by omega)]

/-- All chunks, in any order: the indices covered by the list carry their power. -/
theorem bitRevChunks_spec {k : ℕ} (hk : k ≤ 63) {rv : ℕ → ℕ}
    (hrv : ∀ i < 2 ^ k, ∃ r, Bits.reverseBitsLen (BitVec.ofNat 64 i) k = some r ∧ r.toNat = rv i)
    (hlt : ∀ i < 2 ^ k, rv i < 2 ^ k) (hinv : ∀ i < 2 ^ k, rv (rv i) = i) (g c : M) (cs : ℕ)
    (l : List (ℕ × ℕ)) (ret : List M) (hl : ret.length = 2 ^ k)
    (hc : ∀ ch ∈ l, 0 < ch.2 ∧ ch.1 * cs + ch.2 ≤ 2 ^ k) :
    ∃ ret', bitRevChunks g c k cs l ret = some ret' ∧ ret'.length = 2 ^ k ∧
      ∀ i < 2 ^ k, ((∃ ch ∈ l, ch.1 * cs ≤ i ∧ i < ch.1 * cs + ch.2) ∨ ret[rv i]? = some (c * g ^ i)) →
        ret'[rv i]? = some (c * g ^ i) := by
  induction l generalizing ret with
  | nil => exact ⟨ret, rfl, hl, fun i _ h => by simpa using h⟩
  | cons ch l ih =>
    obtain ⟨h0, h1⟩ := hc ch List.mem_cons_self
    have h64 : (2 : ℕ) ^ k ≤ 2 ^ 63 := Nat.pow_le_pow_right (by omega) hk
    have hs : ch.1 * cs < 2 ^ 64 := by omega
    obtain ⟨r1, e1, l1, v1⟩ := bitRevLoop_spec hrv hlt hinv g (ch.2 - 1) (ch.1 * cs)
      (powStart g c (ch.1 * cs)) ret hl (by omega)
    obtain ⟨r2, e2, l2, v2⟩ := ih r1 l1 fun x hx => hc x (List.mem_cons_of_mem _ hx)
    refine ⟨r2, by simp only [bitRevChunks, e1, e2], l2, fun i hi h => v2 i hi ?_⟩
    by_cases hin : ch.1 * cs ≤ i ∧ i ≤ ch.1 * cs + (ch.2 - 1)
    · right
      rw [v1 i hi, if_pos hin, powStart_eq g c hs, mul_assoc, ← pow_add]
      have : ch.1 * cs + (i - ch.1 * cs) = i := by omega
      rw [this]
    · rcases h with ⟨x, hx, hx1, hx2⟩ | h
      · rcases List.mem_cons.mp hx with rfl | hx
        · exact absurd ⟨hx1, by omega⟩ hin
        · exact Or.inl ⟨x, hx, hx1, hx2⟩
      · right; rw [v1 i hi, if_neg hin, h]

end Powers

section Muls
variable {M : Type u} [AddMonoid M]

theorem scalarMulSize_eq (g : M) {e : ℕ} (he : e < 2 ^ 64) : scalarMulSize g e = e • g := by
  have := doScalarMul_rel (S := Eq) (R := Eq) (o := (⟨0, (· + ·), fun x => x + x⟩ : AddOps M M))
    ⟨rfl, by rintro _ _ _ _ rfl rfl; rfl, by rintro _ _ rfl; rfl⟩ (w := 64) (by omega) (rfl : g = g)
    [BitVec.ofNat 64 e]
  have hv : limbsVal [BitVec.ofNat 64 e] = e := by
    simp only [limbsVal, BitVec.toNat_ofNat, Nat.mod_eq_of_lt he]; omega
  rw [scalarMulSize, this, hv]

theorem mulLoop_eq (g : M) (n : ℕ) (k : ℕ) :
    mulLoop g n (k • g) = (List.range (n + 1)).map fun i => (k + i) • g := by
  induction n generalizing k with
  | zero => simp [mulLoop]
  | succ n ih =>
    rw [mulLoop, ← succ_nsmul, ih, List.range_succ_eq_map (n := n + 1)]
    simp [Function.comp_def, Nat.add_assoc, Nat.add_comm 1]

end Muls

section SquareRoot
variable {F : Type u} [Field F] [DecidableEq F]

theorem orderLoop_spec (n m : ℕ) (b : F) (k0 : ℕ) (hm : m ≤ n) (hb : b ^ 2 ^ m = 1) :
    ∃ k, orderLoop n b k0 = some (k0 + k) ∧ k ≤ m ∧ b ^ 2 ^ k = 1 ∧ ∀ i < k, b ^ 2 ^ i ≠ 1 := by
  induction n generalizing m b k0 with
  | zero =>
    obtain rfl : m = 0 := by omega
    have : b = 1 := by simpa using hb
    exact ⟨0, by simp [orderLoop, this], le_rfl, by simpa using this, by simp⟩
  | succ n ih =>
    by_cases h1 : b = 1
    · exact ⟨0, by simp [orderLoop, h1], Nat.zero_le _, by simpa using h1, by simp⟩
    · obtain ⟨m, rfl⟩ : ∃ m', m = m' + 1 := by
        cases m with
        | zero => exact absurd (by simpa using hb) h1
        | succ m => exact ⟨m, rfl⟩
      have e : ∀ i, (b * b) ^ 2 ^ i = b ^ 2 ^ (i + 1) := fun i => by
        rw [← sq, ← pow_mul, ← pow_succ']
      obtain ⟨k, hk, hkm, hk1, hki⟩ := ih m (b * b) (k0 + 1) (by omega) (by rw [e]; exact hb)
      refine ⟨k + 1, ?_, by omega, by rw [← e]; exact hk1, fun i hi => ?_⟩
      · rw [orderLoop, if_neg h1, hk, Nat.add_right_comm, Nat.add_assoc]
      · cases i with
        | zero => simpa using h1
        | succ i => rw [← e]; exact hki i (by omega)

omit [DecidableEq F] in
theorem squareTimes_eq (n : ℕ) (w : F) : squareTimes n w = w ^ 2 ^ n := by
  induction n generalizing w with
  | zero => simp [squareTimes]
  | succ n ih => rw [squareTimes, ih, ← sq, ← pow_mul, ← pow_succ']

/-- The `do ... while` loop: `m` bounds the order exponent of `b`. -/
theorem tonelliLoop_spec (s : ℕ) (a : F) (n : ℕ) (x b z : F) (v m : ℕ) (hx : x * x = a * b) (hb1 : b ≠ 1)
    (hv : 0 < v) (hvs : v ≤ s) (hvn : v ≤ n) (hz : z ^ 2 ^ (v - 1) = -1) (hm : m ≤ v) (hb : b ^ 2 ^ m = 1)
    (hms : m < v ∨ v = s) :
    (∃ y, tonelliLoop s n x b z v = some (some y) ∧ y * y = a) ∨
      (tonelliLoop s n x b z v = some none ∧ b ^ 2 ^ (s - 1) ≠ 1 ∧ v = s) := by
  induction n generalizing x b z v m with
  | zero => omega
  | succ n ih =>
    obtain ⟨k, hk, hkm, hk1, hki⟩ := orderLoop_spec (s + 1) m b 0 (by omega) hb
    rw [Nat.zero_add] at hk
    have hk0 : 0 < k := by
      rcases Nat.eq_zero_or_pos k with h | h
      · subst h; exact absurd (by simpa using hk1) hb1
      · exact h
    rw [tonelliLoop, hk]
    dsimp only
    by_cases hks : k = s
    · right
      rw [if_pos hks]
      exact ⟨rfl, hki _ (by omega), by omega⟩
    · left
      rw [if_neg hks]
      have hkv : k < v := by omega
      have ew : squareTimes (v - k - 1) z * squareTimes (v - k - 1) z = z ^ 2 ^ (v - k) := by
        rw [squareTimes_eq, ← sq, ← pow_mul, ← pow_succ]
        have : v - k - 1 + 1 = v - k := by omega
        rw [this]
      have hz' : (z ^ 2 ^ (v - k)) ^ 2 ^ (k - 1) = -1 := by
        rw [← pow_mul, ← pow_add]
        have : v - k + (k - 1) = v - 1 := by omega
        rw [this, hz]
      have hbm : b ^ 2 ^ (k - 1) = -1 := by
        have h2 : b ^ 2 ^ (k - 1) * b ^ 2 ^ (k - 1) = 1 := by
          rw [← sq, ← pow_mul, ← pow_succ]
          have : k - 1 + 1 = k := by omega
          rw [this, hk1]
        rcases mul_self_eq_one_iff.mp h2 with h | h
        · exact absurd h (hki _ (by omega))
        · exact h
      have hx' : x * squareTimes (v - k - 1) z * (x * squareTimes (v - k - 1) z) =
          a * (b * z ^ 2 ^ (v - k)) := by
        rw [← ew]; linear_combination (squareTimes (v - k - 1) z) ^ 2 * hx
      rw [ew]
      by_cases hb' : b * z ^ 2 ^ (v - k) = 1
      · rw [if_pos hb']
        exact ⟨_, rfl, by rw [hx', hb', mul_one]⟩
      · rw [if_neg hb']
        rcases ih _ _ (z ^ 2 ^ (v - k)) k (k - 1) hx' hb' hk0 (by omega) (by omega) hz' (by omega)
          (by rw [mul_pow, hbm, hz']; ring) (Or.inl (by omega)) with h | ⟨-, -, h⟩
        · exact h
        · exact absurd h hks

end SquareRoot
end Tachyon.Group
