import Verif.Proofs.Group
import Verif.Props.Parallel
import Verif.Props.Pow
import Mathlib.Algebra.BigOperators.Fin
import Mathlib.Algebra.BigOperators.Intervals
import Mathlib.Algebra.Field.ZMod
import Mathlib.Tactic.NormNum.Prime
/-!
# C22, C23, C24, C51, C54: batch inversion, successive powers, square roots, linear combinations,
sums of products
-/
namespace Tachyon.Props
open Tachyon.Group Tachyon.Parallel Tachyon.Bits

/-! ## C22 -/

/-- C22: `BatchInverse` writes `c / g` for every non-zero element and zero for zero, whatever the number
of threads (below 128, where the shift in the size test becomes undefined). -/
theorem C22_batchInverse {F : Type*} [Field F] [DecidableEq F] (threads : ℕ) (gs : List F) (c : F)
    (ht : 0 < threads) (ht' : threads < 128) (hs : gs.length ≤ 2 ^ 63) :
    batchInverse threads gs gs.length c = some (gs.map fun g => if g = 0 then 0 else c * g⁻¹) := by
  rw [batchInverse, if_neg (by simp), if_neg (by omega)]
  split
  · next hge =>
    have hpos : 0 < gs.length := lt_of_lt_of_le (Nat.two_pow_pos _) hge
    obtain ⟨hp, hle, -⟩ := sizePerThread_bounds ht (total := gs.length) (by omega) none
    have hcs := hp.2 hpos
    have e : (invocations gs.length (sizePerThread threads gs.length none)).map (fun ch =>
        doBatchInverse (chunkOf gs (sizePerThread threads gs.length none) ch) c) =
        (invocations gs.length (sizePerThread threads gs.length none)).map (fun ch =>
          some ((chunkOf gs (sizePerThread threads gs.length none) ch).map
            fun g => if g = 0 then 0 else c * g⁻¹)) :=
      List.map_congr_left fun ch _ => doBatchInverse_eq _ _
    simp only [e]
    rw [if_pos (by simp), List.flatMap_map]
    simp only [Option.getD_some]
    rw [← List.map_flatMap, flatMap_chunkOf gs hcs (by omega)]
  · exact doBatchInverse_eq gs c

/-- C22: `BatchInverseSerial`. -/
theorem C22_serial {F : Type*} [Field F] [DecidableEq F] (gs : List F) (c : F) :
    batchInverseSerial gs gs.length c = some (gs.map fun g => if g = 0 then 0 else c * g⁻¹) := by
  rw [batchInverseSerial, if_neg (by simp), doBatchInverse_eq]

/-- C22: containers of different sizes are rejected. -/
theorem C22_mismatch {F : Type*} [Field F] [DecidableEq F] (threads : ℕ) (gs : List F) (n : ℕ) (c : F)
    (h : gs.length ≠ n) : batchInverse threads gs n c = none ∧ batchInverseSerial gs n c = none :=
  ⟨if_pos h, if_pos h⟩

/-- C22: with 128 threads the test `size >= size_t{1} << (thread_nums / 2)` shifts by the word size, for
every input. -/
theorem C22_threads_undefined {F : Type*} [Field F] [DecidableEq F] (threads : ℕ) (gs : List F) (n : ℕ)
    (c : F) (h : 128 ≤ threads) : batchInverse threads gs n c = none := by
  rw [batchInverse]
  split
  · rfl
  · rw [if_pos (by omega)]

section
local instance : Fact (Nat.Prime 7) := ⟨by norm_num⟩
-- three threads, chunks of two; 2 / 3, 2 / 0, 2 / 1, 2 / 5, 2 / 6
example : batchInverse 3 [(3 : ZMod 7), 0, 1, 5, 6] 5 2 = some [3, 0, 2, 6, 5] := by
  exact (C22_batchInverse 3 [(3 : ZMod 7), 0, 1, 5, 6] 2 (by omega) (by omega) (by simp)).trans
    (by decide +kernel)
end

/-! ## C23 -/

/-- C23: `GetSuccessivePowers` returns `c, c g, c g², ...` for every number of threads. -/
theorem C23_powers {M : Type*} [CommMonoid M] [DecidableEq M] (threads size : ℕ) (g c : M)
    (ht : 0 < threads) (hs : size ≤ 2 ^ 63) (ht' : threads ≤ 2 ^ 63) :
    getSuccessivePowers threads size g c = (List.range size).map fun i => c * g ^ i := by
  refine parallelize_eq ht (by simp; omega) (by simp; omega) (by simp) fun i cs len h0 hle => ?_
  rw [List.length_replicate] at hle
  have hl : (chunkOf (List.replicate size (1 : M)) cs (i, len)).length = len := by
    simp [chunkOf]; omega
  rw [hl, powLoop_eq, powStart_eq g c (by omega)]
  refine List.ext_getElem? fun k => ?_
  have : len - 1 + 1 = len := by omega
  rw [this]
  by_cases hk : k < len
  · rw [getElem?_chunkOf hk]
    simp [hk, show i * cs + k < size by omega, pow_add, mul_assoc]
  · rw [List.getElem?_eq_none (by simp; omega), List.getElem?_eq_none (by simp [chunkOf]; omega)]

/-- C23: `GetSuccessiveScalarMuls` returns `0, g, 2g, ...`. -/
theorem C23_scalarMuls {M : Type*} [AddMonoid M] (threads size : ℕ) (g : M)
    (ht : 0 < threads) (hs : size ≤ 2 ^ 63) (ht' : threads ≤ 2 ^ 63) :
    getSuccessiveScalarMuls threads size g = (List.range size).map fun i => i • g := by
  refine parallelize_eq ht (by simp; omega) (by simp; omega) (by simp) fun i cs len h0 hle => ?_
  rw [List.length_replicate] at hle
  have hl : (chunkOf (List.replicate size (0 : M)) cs (i, len)).length = len := by
    simp [chunkOf]; omega
  rw [hl, scalarMulSize_eq g (by omega), mulLoop_eq]
  refine List.ext_getElem? fun k => ?_
  have : len - 1 + 1 = len := by omega
  rw [this]
  by_cases hk : k < len
  · rw [getElem?_chunkOf hk]
    simp [hk, show i * cs + k < size by omega]
  · rw [List.getElem?_eq_none (by simp; omega), List.getElem?_eq_none (by simp [chunkOf]; omega)]

private theorem exists_rv {k : ℕ} (h0 : 0 < k) (h : k ≤ 63) : ∃ rv : ℕ → ℕ,
    (∀ i < 2 ^ k, ∃ r, reverseBitsLen (BitVec.ofNat 64 i) k = some r ∧ r.toNat = rv i) ∧
    (∀ i < 2 ^ k, rv i < 2 ^ k) ∧ (∀ i < 2 ^ k, rv (rv i) = i) ∧
    ∀ i < 2 ^ k, ∀ b < k, (rv i).testBit b = i.testBit (k - 1 - b) := by
  have h64 : (2 : ℕ) ^ k ≤ 2 ^ 63 := Nat.pow_le_pow_right (by omega) h
  have key : ∀ i : ℕ, ∃ r, reverseBitsLen (BitVec.ofNat 64 i) k = some r ∧ r.toNat < 2 ^ k ∧
      (∀ b < k, r.getLsbD b = (BitVec.ofNat 64 i).getLsbD (k - 1 - b)) ∧
      ((BitVec.ofNat 64 i).toNat < 2 ^ k → reverseBitsLen r k = some (BitVec.ofNat 64 i)) :=
    fun i => (C53_reverseBitsLen _).1 k h0 (by omega)
  choose f hf h1 h2 h3 using key
  have hof : ∀ i < 2 ^ k, (BitVec.ofNat 64 i).toNat = i := fun i hi => by
    rw [BitVec.toNat_ofNat]; exact Nat.mod_eq_of_lt (by omega)
  refine ⟨fun i => (f i).toNat, fun i _ => ⟨f i, hf i, rfl⟩, fun i _ => h1 i, fun i hi => ?_,
    fun i hi b hb => ?_⟩
  · have e : BitVec.ofNat 64 (f i).toNat = f i := by simp
    have := hf (f i).toNat
    rw [e, h3 i (by rw [hof i hi]; exact hi)] at this
    show (f (f i).toNat).toNat = i
    rw [← Option.some.inj this, hof i hi]
  · have := h2 i b hb
    rw [BitVec.getLsbD, BitVec.getLsbD, hof i hi] at this
    exact this

/-- C23: `GetBitRevIndexSuccessivePowers` stores `c g^i` at the index whose `k` bits are those of `i`
reversed, for every number of threads and every order of the chunks; the writes stay in bounds and
every position is written. -/
theorem C23_bitRev {M : Type*} [CommMonoid M] [DecidableEq M] (threads k : ℕ) (g c : M)
    (order : List (ℕ × ℕ) → List (ℕ × ℕ)) (horder : ∀ l, (order l).Perm l)
    (ht : 0 < threads) (ht' : threads ≤ 2 ^ 63) (hk : 0 < k) (hk' : k ≤ 63) :
    ∃ ret, getBitRevPowers threads (2 ^ k) g c order = some ret ∧ ret.length = 2 ^ k ∧
      ∀ i < 2 ^ k, ∃ j < 2 ^ k, (∀ b < k, j.testBit b = i.testBit (k - 1 - b)) ∧
        ret[j]? = some (c * g ^ i) := by
  obtain ⟨rv, hrv, hlt, hinv, hbits⟩ := exists_rv hk hk'
  have h64 : (2 : ℕ) ^ k ≤ 2 ^ 63 := Nat.pow_le_pow_right (by omega) hk'
  have hlog : checkedLog2 (BitVec.ofNat 64 (2 ^ k)) = some k := by
    rw [C53_checkedLog2, BitVec.toNat_ofNat]; exact Nat.mod_eq_of_lt (by omega)
  obtain ⟨hp, hle, -⟩ := sizePerThread_bounds ht (total := 2 ^ k) (by omega) none
  have hcs := hp.2 (Nat.two_pow_pos k)
  generalize hcsd : sizePerThread threads (2 ^ k) none = cs at hp hle hcs
  have hmem : ∀ ch, ch ∈ order (invocations (2 ^ k) cs) ↔
      ch.1 < numChunks (2 ^ k) cs ∧ ch.2 = chunkLen (2 ^ k) cs ch.1 := fun ch => by
    rw [(horder _).mem_iff, mem_invocations hcs]
  obtain ⟨ret, e, hl, hv⟩ := bitRevChunks_spec hk' hrv hlt hinv g c cs (order (invocations (2 ^ k) cs))
    (List.replicate (2 ^ k) 1) (by simp) (fun ch hch => by
      obtain ⟨h1, h2⟩ := (hmem ch).1 hch
      obtain ⟨-, b2, b3, -⟩ := chunk_bounds hcs (size := 2 ^ k) (by omega) h1
      rw [h2]; exact ⟨b3, by omega⟩)
  refine ⟨ret, ?_, hl, fun i hi => ⟨rv i, hlt i hi, hbits i hi, hv i hi (Or.inl ?_)⟩⟩
  · rw [getBitRevPowers, hlog]
    simp only [numElementsPerThread, hcsd]
    exact e
  · obtain ⟨b1, -⟩ := numChunks_bounds hcs (size := 2 ^ k) (by omega)
    have hi2 : i / cs < numChunks (2 ^ k) cs := by
      rw [Nat.div_lt_iff_lt_mul hcs]; omega
    refine ⟨(i / cs, chunkLen (2 ^ k) cs (i / cs)), (hmem _).2 ⟨hi2, rfl⟩, Nat.div_mul_le_self _ _, ?_⟩
    obtain ⟨-, b2, -, -⟩ := chunk_bounds hcs (size := 2 ^ k) (by omega) hi2
    have : i < (i / cs + 1) * cs := Nat.lt_mul_of_div_lt (Nat.lt_succ_self _) hcs
    show i < i / cs * cs + chunkLen (2 ^ k) cs (i / cs)
    rw [b2]
    exact lt_min this hi

/-- C23: the serial variant. -/
theorem C23_bitRevSerial {M : Type*} [CommMonoid M] [DecidableEq M] (k : ℕ) (g c : M)
    (hk : 0 < k) (hk' : k ≤ 63) :
    ∃ ret, getBitRevPowersSerial (2 ^ k) g c = some ret ∧ ret.length = 2 ^ k ∧
      ∀ i < 2 ^ k, ∃ j < 2 ^ k, (∀ b < k, j.testBit b = i.testBit (k - 1 - b)) ∧
        ret[j]? = some (c * g ^ i) := by
  obtain ⟨rv, hrv, hlt, hinv, hbits⟩ := exists_rv hk hk'
  have h64 : (2 : ℕ) ^ k ≤ 2 ^ 63 := Nat.pow_le_pow_right (by omega) hk'
  have hpos := Nat.two_pow_pos k
  have hlog : checkedLog2 (BitVec.ofNat 64 (2 ^ k)) = some k := by
    rw [C53_checkedLog2, BitVec.toNat_ofNat]; exact Nat.mod_eq_of_lt (by omega)
  obtain ⟨ret, e, hl, hv⟩ := bitRevLoop_spec hrv hlt hinv g (2 ^ k - 1) 0 c
    (List.replicate (2 ^ k) 1) (by simp) (by omega)
  refine ⟨ret, by simp only [getBitRevPowersSerial, hlog]; exact e, hl, fun i hi =>
    ⟨rv i, hlt i hi, hbits i hi, ?_⟩⟩
  rw [hv i hi, if_pos (by omega)]; rfl

/-- C23: sizes 0 (fails the check) and 1 (undefined shift) are not supported by the bit-reversed
variants. -/
theorem C23_bitRev_small {M : Type*} [CommMonoid M] [DecidableEq M] (g c : M) :
    getBitRevPowersSerial 0 g c = none ∧ getBitRevPowersSerial 1 g c = none ∧
    getBitRevPowers 1 0 g c id = none ∧ getBitRevPowers 1 1 g c id = none := by
  have h0 : checkedLog2 (BitVec.ofNat 64 0) = none := by decide +kernel
  have h1 : checkedLog2 (BitVec.ofNat 64 1) = some 0 := by decide +kernel
  have hi : invocations 1 (numElementsPerThread 1 1 none) = [(0, 1)] := by decide +kernel
  refine ⟨by simp [getBitRevPowersSerial, h0],
    by simp [getBitRevPowersSerial, h1, bitRevLoop, reverseBitsLen],
    by simp [getBitRevPowers, h0], ?_⟩
  simp [getBitRevPowers, h1, hi, bitRevChunks, bitRevLoop, reverseBitsLen]

example : getSuccessivePowers 3 5 (3 : ℕ) 2 = [2, 6, 18, 54, 162] := by decide +kernel
example : getBitRevPowers 3 8 (3 : ℕ) 2 List.reverse =
    some [2, 162, 18, 1458, 6, 486, 54, 4374] := by decide +kernel
example : getSuccessiveScalarMuls 3 5 (4 : ℕ) = [0, 4, 8, 12, 16] := by decide +kernel

/-! ## C24 -/

/-- C24: for `q = 3 (mod 4)` and `e = (q + 1) / 4` the Shanks method returns a square root exactly for
the squares. -/
theorem C24_shanks {F : Type*} [Field F] [Fintype F] [DecidableEq F] {w : ℕ} (hw : 0 < w)
    (e : List (BitVec w)) (he : 4 * limbsVal e = Fintype.card F + 1) (a : F) :
    (∀ x, shanks e a = some x → x * x = a) ∧ (shanks e a = none ↔ ¬ IsSquare a) := by
  have hpow := C19_pow hw a e
  rw [shanks, hpow]
  refine ⟨fun x h => ?_, ?_⟩
  · split at h
    · next hs => rw [← Option.some.inj h]; exact hs
    · cases h
  · have hne : (if a ^ limbsVal e * a ^ limbsVal e = a then some (a ^ limbsVal e) else none) = none ↔
        a ^ limbsVal e * a ^ limbsVal e ≠ a := by
      split <;> simp_all
    rw [hne, not_iff_not]
    refine ⟨fun h => ⟨_, h.symm⟩, ?_⟩
    rintro ⟨y, rfl⟩
    have : (y * y) ^ limbsVal e * (y * y) ^ limbsVal e = y ^ Fintype.card F * y := by
      rw [← pow_succ, ← he, ← sq y, ← pow_mul, ← pow_add]
      congr 1; ring
    rw [this, FiniteField.pow_card]

/-- C24: `ComputeTonelliShanksSquareRoot` terminates, returns a square root for every square and `false`
for every other element. `q - 1 = 2^s T` with `T` odd, `e = (T - 1) / 2`, and the argument is a
primitive `2^s`-th root of unity. -/
theorem C24_tonelliShanks {F : Type*} [Field F] [Fintype F] [DecidableEq F] {w : ℕ} (hw : 0 < w)
    (s : ℕ) (hs : 0 < s) (e : List (BitVec w))
    (hq : Fintype.card F = 2 ^ s * (2 * limbsVal e + 1) + 1) (z : F) (hz : z ^ 2 ^ (s - 1) = -1) (a : F) :
    ∃ r, tonelliShanks s e z a = some r ∧ (∀ x, r = some x → x * x = a) ∧ (r = none ↔ ¬ IsSquare a) := by
  rw [tonelliShanks]
  by_cases ha : a = 0
  · rw [if_pos ha]
    exact ⟨_, rfl, by rintro x h; rw [← Option.some.inj h, ha, mul_zero], by simp [ha]⟩
  rw [if_neg ha, C19_pow hw]
  set t := limbsVal e with ht
  dsimp only
  have hx : a ^ t * a * (a ^ t * a) = a * (a ^ t * a * a ^ t) := by ring
  have hb : a ^ t * a * a ^ t = a ^ (2 * t + 1) := by ring
  by_cases hb1 : a ^ t * a * a ^ t = 1
  · have hxx : a ^ t * a * (a ^ t * a) = a := by rw [hx, hb1, mul_one]
    rw [if_neg (by simpa using hb1), if_pos hxx]
    refine ⟨_, rfl, fun x h => by rw [← Option.some.inj h]; exact hxx, ?_⟩
    simp only [reduceCtorEq, false_iff, not_not]
    exact ⟨_, hxx.symm⟩
  · rw [if_pos hb1]
    have hord : (a ^ t * a * a ^ t) ^ 2 ^ s = 1 := by
      rw [hb, ← pow_mul]
      have : (2 * t + 1) * 2 ^ s = Fintype.card F - 1 := by rw [hq, Nat.add_sub_cancel]; ring
      rw [this]; exact FiniteField.pow_card_sub_one_eq_one a ha
    rcases tonelliLoop_spec s a (s + 1) _ _ z s s hx hb1 hs le_rfl (by omega) hz le_rfl hord
      (Or.inr rfl) with ⟨y, h, hy⟩ | ⟨h, hn, -⟩
    · rw [h]
      dsimp only
      rw [if_pos hy]
      refine ⟨_, rfl, fun x h => by rw [← Option.some.inj h]; exact hy, ?_⟩
      simp only [reduceCtorEq, false_iff, not_not]
      exact ⟨y, hy.symm⟩
    · rw [h]
      refine ⟨_, rfl, by simp, ?_⟩
      simp only [true_iff]
      rintro ⟨y, rfl⟩
      apply hn
      have hy : y ≠ 0 := fun h => ha (by rw [h, mul_zero])
      rw [hb, ← pow_mul, ← sq, ← pow_mul]
      have : 2 * ((2 * t + 1) * 2 ^ (s - 1)) = Fintype.card F - 1 := by
        rw [hq, Nat.add_sub_cancel]
        obtain ⟨s, rfl⟩ : ∃ s', s = s' + 1 := ⟨s - 1, by omega⟩
        rw [Nat.add_sub_cancel, pow_succ]; ring
      rw [this]; exact FiniteField.pow_card_sub_one_eq_one y hy

section
local instance : Fact (Nat.Prime 7) := ⟨by norm_num⟩
local instance : Fact (Nat.Prime 17) := ⟨by norm_num⟩
-- 2 is a square modulo 7, 3 is not
example : shanks [2#64] (2 : ZMod 7) = some 4 ∧ shanks [2#64] (3 : ZMod 7) = none := by decide +kernel
-- 17 = 2^4 * 1 + 1; 3 generates the multiplicative group
example : Fintype.card (ZMod 17) = 2 ^ 4 * (2 * limbsVal [0#64] + 1) + 1 ∧
    (3 : ZMod 17) ^ 2 ^ (4 - 1) = -1 ∧ tonelliShanks 4 [0#64] (3 : ZMod 17) 13 = some (some 8) ∧
    tonelliShanks 4 [0#64] (3 : ZMod 17) 5 = some none := by decide +kernel
end

/-! ## C51 -/

private theorem horner_eq {R : Type*} [CommSemiring R] (r : R) (l : List R) (z : R) :
    l.foldl (fun ret v => ret * r + v) z =
      z * r ^ l.length + ∑ i ∈ Finset.range l.length, l.getD i 0 * r ^ (l.length - 1 - i) := by
  induction l generalizing z with
  | nil => simp
  | cons v l ih =>
    rw [List.foldl_cons, ih, List.length_cons, Finset.sum_range_succ']
    simp only [List.getD_cons_succ, List.getD_cons_zero, Nat.add_sub_cancel, Nat.sub_zero,
      Nat.sub_sub, Nat.add_comm 1]
    ring

private theorem horner_rev {R : Type*} [CommSemiring R] (r : R) (l : List R) :
    l.reverse.foldl (fun ret v => ret * r + v) 0 =
      ∑ i ∈ Finset.range l.length, l.getD i 0 * r ^ i := by
  induction l with
  | nil => simp
  | cons v l ih =>
    rw [List.reverse_cons, List.foldl_append, ih, List.length_cons, Finset.sum_range_succ']
    simp only [List.foldl_cons, List.foldl_nil, Finset.sum_mul, List.getD_cons_succ,
      List.getD_cons_zero, pow_zero, mul_one, pow_succ, mul_assoc]

private theorem inPlace_eq {R : Type*} [CommSemiring R] (r : R) (forward : Bool) (l : List R) :
    linearCombinationInPlace ⟨0, (· + ·), fun x => x + x⟩ (· * r) forward l =
      if l = [] then none
      else some (linearCombination ⟨0, (· + ·), fun x => x + x⟩ (· * r) forward l) := by
  cases forward
  · simp only [linearCombinationInPlace, linearCombination, Bool.false_eq_true, if_false]
    rcases h : l.reverse with _ | ⟨v, vs⟩
    · simp [List.reverse_eq_nil_iff.mp h]
    · have : l ≠ [] := by rintro rfl; simp at h
      simp [this]
  · cases l <;> simp [linearCombinationInPlace, linearCombination]

/-- C51: `LinearCombination` forward is `Σ aᵢ r^(n-1-i)`, backward `Σ aᵢ r^i`. -/
theorem C51_linearCombination {R : Type*} [CommSemiring R] (r : R) (l : List R) :
    linearCombination ⟨0, (· + ·), fun x => x + x⟩ (· * r) true l =
      ∑ i ∈ Finset.range l.length, l.getD i 0 * r ^ (l.length - 1 - i) ∧
    linearCombination ⟨0, (· + ·), fun x => x + x⟩ (· * r) false l =
      ∑ i ∈ Finset.range l.length, l.getD i 0 * r ^ i := by
  refine ⟨?_, by simpa [linearCombination] using horner_rev r l⟩
  have := horner_eq r l 0
  rw [zero_mul, zero_add] at this
  simpa [linearCombination] using this

/-- C51: the in-place variants give the same sums, and fail their check on the empty container. -/
theorem C51_inPlace {R : Type*} [CommSemiring R] (r : R) (l : List R) :
    linearCombinationInPlace ⟨0, (· + ·), fun x => x + x⟩ (· * r) true l =
      (if l = [] then none
        else some (∑ i ∈ Finset.range l.length, l.getD i 0 * r ^ (l.length - 1 - i))) ∧
    linearCombinationInPlace ⟨0, (· + ·), fun x => x + x⟩ (· * r) false l =
      (if l = [] then none else some (∑ i ∈ Finset.range l.length, l.getD i 0 * r ^ i)) := by
  obtain ⟨h1, h2⟩ := C51_linearCombination r l
  rw [inPlace_eq, inPlace_eq, h1, h2]
  exact ⟨rfl, rfl⟩

example : linearCombination ⟨0, (· + ·), fun x => x + x⟩ (· * 10) true [1, 2, 3] = 123 ∧
    linearCombination ⟨0, (· + ·), fun x => x + x⟩ (· * 10) false [1, 2, 3] = 321 ∧
    linearCombinationInPlace ⟨0, (· + ·), fun x => x + x⟩ (· * 10) true [1, 2, 3] = some 123 := by
  decide

/-! ## C54 -/

private theorem sumChunk_eq {R : Type*} [Semiring R] (b : List R) (start : ℕ) (xs : List R) (j : ℕ)
    (sum : R) (h : start + j + xs.length ≤ b.length) :
    sumChunk b start xs j sum =
      some (sum + (List.zipWith (· * ·) xs (b.drop (start + j))).sum) := by
  induction xs generalizing j sum with
  | nil => simp [sumChunk]
  | cons x xs ih =>
    rw [List.length_cons] at h
    have hlt : start + j < b.length := by omega
    rw [sumChunk, List.getElem?_eq_getElem hlt]
    dsimp only
    rw [ih _ _ (by omega), List.drop_eq_getElem_cons hlt]
    simp [add_assoc]

private theorem foldl_add {R : Type*} [AddMonoid R] (l : List R) (z : R) :
    l.foldl (· + ·) z = z + l.sum := by
  induction l generalizing z with
  | nil => simp
  | cons x l ih => simp [ih, add_assoc]

private theorem zipWith_chunk {R : Type*} [Semiring R] (a b : List R) (cs : ℕ) (c : ℕ × ℕ) :
    List.zipWith (· * ·) (chunkOf a cs c) (b.drop (c.1 * cs)) =
      chunkOf (List.zipWith (· * ·) a b) cs c := by
  refine List.ext_getElem? fun k => ?_
  simp only [chunkOf, List.getElem?_zipWith, List.getElem?_take, List.getElem?_drop]
  by_cases h : k < c.2 <;> simp [h]

/-- C54: `SumOfProducts` and `SumOfProductsSerial` return `Σ aᵢ bᵢ` for every number of threads, and
fail their check on different sizes. -/
theorem C54_sumOfProducts {R : Type*} [Semiring R] (threads : ℕ) (a b : List R)
    (ht : 0 < threads) (ht' : threads ≤ 2 ^ 63) (hs : a.length ≤ 2 ^ 63) :
    sumOfProducts threads a b =
      (if a.length = b.length then some (List.zipWith (· * ·) a b).sum else none) ∧
    sumOfProductsSerial a b =
      (if a.length = b.length then some (List.zipWith (· * ·) a b).sum else none) := by
  by_cases hl : a.length = b.length
  swap
  · simp [sumOfProducts, sumOfProductsSerial, hl]
  by_cases h0 : a.length = 0
  · have : a = [] := List.length_eq_zero_iff.mp h0
    subst this
    simp_all [sumOfProducts, sumOfProductsSerial]
  refine ⟨?_, ?_⟩
  · rw [sumOfProducts, if_neg (by simpa using hl), if_neg h0, if_pos hl]
    obtain ⟨hp, hle, -⟩ := sizePerThread_bounds ht (total := a.length) (by omega) none
    have hcs := hp.2 (by omega)
    have e : parallelizeMap threads a (fun i cs span => sumChunk b (i * cs) span 0 0) =
        (invocations a.length (sizePerThread threads a.length none)).map fun c =>
          some (chunkOf (List.zipWith (· * ·) a b) (sizePerThread threads a.length none) c).sum := by
      refine List.map_congr_left fun c hc => ?_
      obtain ⟨h1, h2⟩ := (mem_invocations hcs).1 hc
      obtain ⟨-, b2, -, -⟩ := chunk_bounds hcs (size := a.length) (by omega) h1
      have hlen : (chunkOf a (sizePerThread threads a.length none) c).length ≤ c.2 := by
        simp [chunkOf]
      have : numElementsPerThread threads a.length none = sizePerThread threads a.length none := rfl
      rw [this]
      dsimp only
      rw [sumChunk_eq _ _ _ _ _ (by omega), zero_add, Nat.add_zero, zipWith_chunk]
    simp only [e]
    rw [if_pos (by simp), foldl_add, zero_add, List.map_map]
    have hz : (List.zipWith (· * ·) a b).length = a.length := by simp [hl]
    have hf := flatMap_chunkOf (List.zipWith (· * ·) a b) hcs (by rw [hz]; omega)
    rw [hz] at hf
    conv_rhs => rw [← hf]
    rw [List.flatMap, List.sum_flatten, List.map_map]
    rfl
  · rw [sumOfProductsSerial, if_neg (by simpa using hl), if_neg h0, if_pos hl,
      sumChunk_eq _ _ _ _ _ (by omega)]
    simp

example : sumOfProducts 3 [1, 2, 3, 4, 5] [10, 20, 30, 40, 50] = some 550 ∧
    sumOfProducts 3 [1, 2] [10] = none := by decide +kernel

end Tachyon.Props
