import Verif.Proofs.Parallel
import Verif.Proofs.Bits
/-! # C45 (chunked parallel loops) and C53 (bit utilities) -/
namespace Tachyon.Props
open Tachyon.Parallel Tachyon.Schedule

variable {α β : Type*}

/-! ## C45 -/

/-- C45: the chunks are non-empty, at most `chunk_size` long, inside the container, and every index lies
in exactly one of them. (`size_t` sums must not wrap.) -/
theorem C45_partition {size cs : ℕ} (hcs : 0 < cs) (h : size + cs ≤ 2 ^ 64) :
    (∀ c ∈ invocations size cs, 0 < c.2 ∧ c.2 ≤ cs ∧ c.1 * cs + c.2 ≤ size) ∧
    (∀ x < size, ∃! c, c ∈ invocations size cs ∧ c.1 * cs ≤ x ∧ x < c.1 * cs + c.2) := by
  constructor
  · intro c hc
    obtain ⟨h1, h2⟩ := (mem_invocations hcs).1 hc
    obtain ⟨h3, h4, h5, h6⟩ := chunk_bounds hcs h h1
    rw [← h2] at h4 h5 h6
    exact ⟨h5, h6, by omega⟩
  · intro x hx
    obtain ⟨b1, b2⟩ := numChunks_bounds hcs h
    have hi : x / cs < numChunks size cs :=
      (Nat.div_lt_iff_lt_mul hcs).2 (lt_of_lt_of_le hx b1)
    have d1 := Nat.div_mul_le_self x cs
    have d2 : x < (x / cs + 1) * cs := Nat.lt_mul_of_div_lt (Nat.lt_succ_self _) hcs
    obtain ⟨h3, h4, h5, h6⟩ := chunk_bounds hcs h hi
    refine ⟨(x / cs, chunkLen size cs (x / cs)), ⟨(mem_invocations hcs).2 ⟨hi, rfl⟩, d1, ?_⟩, ?_⟩
    · show x < x / cs * cs + chunkLen size cs (x / cs)
      omega
    · rintro ⟨i, n⟩ ⟨hm, l1, l2⟩
      obtain ⟨m1, m2⟩ := (mem_invocations hcs).1 hm
      dsimp only at m1 m2 l1 l2
      obtain ⟨g3, g4, g5, g6⟩ := chunk_bounds hcs h m1
      have : i = x / cs := by
        symm
        rw [Nat.div_eq_iff hcs]
        omega
      subst this
      rw [m2]

/-- C45: `GetSizePerThread` is zero only for an empty range, and without a threshold at most `threads`
chunks result. -/
theorem C45_threads {threads total : ℕ} (ht : 0 < threads) (h : total + threads ≤ 2 ^ 64)
    (h2 : 2 * total ≤ 2 ^ 64) (th : Option ℕ) :
    (sizePerThread threads total th = 0 ↔ total = 0) ∧
    (invocations total (sizePerThread threads total none)).length ≤ threads := by
  obtain ⟨h1, h3, h4⟩ := sizePerThread_bounds ht h th
  obtain ⟨g1, g3, g4⟩ := sizePerThread_bounds ht h none
  refine ⟨by omega, ?_⟩
  rw [invocations]
  split
  · simp
  · rename_i h0
    rw [List.length_map, List.length_range]
    obtain ⟨b1, b2⟩ := numChunks_bounds (cs := sizePerThread threads total none) (by omega)
      (size := total) (by omega)
    have := g4 rfl
    by_contra hc
    have e : (threads + 1) * sizePerThread threads total none
        ≤ numChunks total (sizePerThread threads total none) * sizePerThread threads total none :=
      Nat.mul_le_mul_right _ (by omega)
    have e2 : (threads + 1) * sizePerThread threads total none
        = sizePerThread threads total none * threads + sizePerThread threads total none := by ring
    omega

example : invocations 10 4 = [(0, 4), (1, 4), (2, 2)] ∧ sizePerThread 3 10 none = 4 ∧
    sizePerThread 3 10 (some 10) = 10 ∧ invocations 0 4 = [] := by decide

/-- Cells `a, ..., a + n - 1`. -/
def cells (s : Mem α) (a n : ℕ) : List α := (List.range n).map fun k => s (a + k)

/-- C45: `ParallelizeByChunkSize` under every interleaving of the callbacks' steps. If the callback of
chunk `i` touches only its span, and alone turns the span's content `l` into `f i l` (of the same length),
then after any interleaving the container holds exactly what the sequential reading `byChunkSize`
says. -/
theorem C45_interleaving {size cs : ℕ} (hcs : 0 < cs) (h : size + cs ≤ 2 ^ 64)
    (P : Fin (numChunks size cs) → List (Mem α → Mem α)) (f : ℕ → List α → List α)
    (hlocal : ∀ i, ∀ g ∈ P i,
      LocalTo {x | i.val * cs ≤ x ∧ x < i.val * cs + chunkLen size cs i} g)
    (hf : ∀ i s, cells (run (P i) s) (i.val * cs) (chunkLen size cs i)
      = f i (cells s (i.val * cs) (chunkLen size cs i)))
    {l : List (Mem α → Mem α)} (hl : Interleaves P l) (s : Mem α) :
    cells (run l s) 0 size = byChunkSize (cells s 0 size) cs f ∧
      ∀ x, size ≤ x → run l s x = s x := by
  have hdisj : ∀ i j : Fin (numChunks size cs), i ≠ j →
      ∀ x ∈ {x | i.val * cs ≤ x ∧ x < i.val * cs + chunkLen size cs i},
        x ∉ {x | j.val * cs ≤ x ∧ x < j.val * cs + chunkLen size cs j} := by
    rintro i j hij x ⟨h1, h2⟩ ⟨h3, h4⟩
    obtain ⟨-, -, -, i4⟩ := chunk_bounds hcs h i.2
    obtain ⟨-, -, -, j4⟩ := chunk_bounds hcs h j.2
    apply hij
    apply Fin.ext
    rcases Nat.lt_trichotomy i.val j.val with hlt | heq | hlt
    · have : (i.val + 1) * cs ≤ j.val * cs := Nat.mul_le_mul_right _ hlt
      have e : (i.val + 1) * cs = i.val * cs + cs := by ring
      omega
    · exact heq
    · have : (j.val + 1) * cs ≤ i.val * cs := Nat.mul_le_mul_right _ hlt
      have e : (j.val + 1) * cs = j.val * cs + cs := by ring
      omega
  obtain ⟨k1, k2⟩ := interleaves_region hl _ hdisj hlocal s
  have hlen : (cells s 0 size).length = size := by simp [cells]
  have hlen' : (cells (run l s) 0 size).length = size := by simp [cells]
  have hchunk : ∀ (s : Mem α) (i : ℕ), i < numChunks size cs →
      chunkOf (cells s 0 size) cs (i, chunkLen size cs i) = cells s (i * cs) (chunkLen size cs i) := by
    intro s i hi
    obtain ⟨c1, c2, c3, c4⟩ := chunk_bounds hcs h hi
    apply List.ext_getElem?
    intro k
    by_cases hk : k < chunkLen size cs i
    · rw [getElem?_chunkOf hk]
      simp only [cells, List.getElem?_map, List.getElem?_range hk,
        List.getElem?_range (show i * cs + k < size by omega), Option.map_some, Nat.zero_add]
    · rw [List.getElem?_eq_none, List.getElem?_eq_none]
      · simp [cells]; omega
      · simp [chunkOf]; omega
  constructor
  · symm
    apply byChunkSize_eq hcs (by rw [hlen]; exact h) (by rw [hlen, hlen'])
    intro i hi
    rw [hlen] at hi ⊢
    rw [hchunk _ i hi, hchunk _ i hi, ← hf ⟨i, hi⟩ s]
    apply List.map_congr_left
    intro k hk
    rw [List.mem_range] at hk
    exact (k1 ⟨i, hi⟩ (i * cs + k) ⟨Nat.le_add_right _ _, Nat.add_lt_add_left hk _⟩).symm
  · intro x hx
    refine k2 x fun i hi => ?_
    obtain ⟨c1, c2, c3, c4⟩ := chunk_bounds hcs h i.2
    obtain ⟨h1, h2⟩ := hi
    omega

-- two threads, each adding its index plus one to its span, interleaved
example : ∃ l : List (Mem ℕ → Mem ℕ),
    Interleaves (ι := Bool) (fun b => if b then [fun s => Function.update s 1 (s 1 + 2)] else
      [fun s => Function.update s 0 (s 0 + 1)]) l ∧ run l (fun _ => 5) 1 = 7 :=
  ⟨_, .step true _ [] _ rfl (.step false _ [] _ rfl (.done (by decide))), rfl⟩

/-- C45: a callback that rewrites each element from its global index and old value gives the same
container for every number of threads. -/
theorem C45_parallelize_mapIdx {threads : ℕ} {xs : List α} (g : ℕ → α → α) (ht : 0 < threads)
    (h : xs.length + threads ≤ 2 ^ 64) (h2 : 2 * xs.length ≤ 2 ^ 64) :
    parallelize threads xs (fun i cs span => span.mapIdx fun k a => g (i * cs + k) a)
      = xs.mapIdx g := by
  refine parallelize_eq ht h h2 (by simp) fun i cs len h0 hle => ?_
  apply List.ext_getElem?
  intro k
  by_cases hk : k < len
  · rw [List.getElem?_mapIdx, getElem?_chunkOf hk, getElem?_chunkOf hk, List.getElem?_mapIdx]
  · rw [List.getElem?_eq_none, List.getElem?_eq_none]
    · simp [chunkOf]; omega
    · simp [chunkOf]; omega

/-- C45: `ParallelizeFill`. -/
theorem C45_fill {threads : ℕ} {xs : List α} (v : α) (ht : 0 < threads)
    (h : xs.length + threads ≤ 2 ^ 64) (h2 : 2 * xs.length ≤ 2 ^ 64) :
    fill threads xs v = List.replicate xs.length v := by
  refine parallelize_eq ht h h2 (by simp) fun i cs len h0 hle => ?_
  simp only [chunkOf, List.map_const', List.length_take, List.length_drop, List.drop_replicate,
    List.take_replicate]

/-- C45: `ParallelizeMap` returns one result per chunk, in order; so a reduction by an associative
operation with a unit that agrees with the reduction over the elements is independent of the number of
threads. -/
theorem C45_mapReduce {M : Type*} [Monoid M] {threads : ℕ} {xs : List α} (g : α → M) (ht : 0 < threads)
    (h : xs.length + threads ≤ 2 ^ 64) (h2 : 2 * xs.length ≤ 2 ^ 64) :
    (parallelizeMap threads xs fun _ _ span => (span.map g).prod).prod = (xs.map g).prod := by
  obtain ⟨cs, l, -, h3, h4⟩ := parallelizeMap_chunks (fun _ _ span => (span.map g).prod) ht h h2
  rw [h4]
  conv_rhs => rw [← h3]
  clear h3 h4
  induction l with
  | nil => rfl
  | cons c l ih => simp [ih]

/-- C45: `ParallelizeResize` keeps the first elements and pads; defined for every new size. -/
theorem C45_resize {threads : ℕ} {xs : List α} {capacity size : ℕ} (d : α) (ht : 0 < threads)
    (h : xs.length + threads ≤ 2 ^ 64) (h2 : 2 * xs.length ≤ 2 ^ 64) (hc : xs.length ≤ capacity) :
    resize threads xs capacity size d
      = some (xs.take size ++ List.replicate (size - xs.length) d) := by
  rw [resize]
  split
  · rfl
  · rw [if_neg (by omega), List.take_of_length_le (by omega)]
    congr 2
    refine parallelize_eq ht (by simpa) (by simpa) (by simp) fun i cs len h0 hle => ?_
    rw [List.length_replicate] at hle
    congr 2
    simp [chunkOf]; omega

/-- C45: `ParallelizeResize` with a value, when not shrinking inside the capacity. -/
theorem C45_resizeWith {threads : ℕ} {xs : List α} {capacity size : ℕ} (d : α) (ht : 0 < threads)
    (h : size + threads ≤ 2 ^ 64) (h2 : 2 * size ≤ 2 ^ 64) (hc : xs.length ≤ capacity)
    (hs : xs.length ≤ size ∨ capacity ≤ size) :
    resizeWith threads xs capacity size d
      = some (xs ++ List.replicate (size - xs.length) d) := by
  rw [resizeWith]
  split
  · rw [if_neg (by omega), C45_fill d ht (by simp; omega) (by simp; omega), List.length_replicate]
  · congr 1
    refine parallelize_eq ht (by simpa) (by simpa) (by simp; omega) fun i cs len h0 hle => ?_
    rw [List.length_replicate] at hle
    apply List.ext_getElem?
    intro k
    by_cases hk : k < len
    · rw [getElem?_chunkOf hk, List.getElem?_map, List.getElem?_range (by simp [chunkOf]; omega),
        Option.map_some]
      by_cases hx : i * cs + k < xs.length
      · rw [List.getElem?_append_left hx]; simp [List.getD, hx]
      · rw [List.getElem?_append_right (by omega), List.getElem?_replicate, if_pos (by omega)]
        simp [List.getD, List.getElem?_eq_none (Nat.le_of_not_lt hx)]
    · rw [List.getElem?_eq_none, List.getElem?_eq_none]
      · simp [chunkOf]; omega
      · simp [chunkOf]; omega

/-- C45 (disagreement): shrinking inside the capacity asks for a span of wrapped length. -/
theorem C45_resizeWith_shrink {threads : ℕ} {xs : List α} {capacity size : ℕ} (d : α)
    (hs : size < xs.length) (hc : size < capacity) : resizeWith threads xs capacity size d = none := by
  simp [resizeWith, hs, hc]

example : resizeWith 2 [1, 2, 3] 3 5 9 = some [1, 2, 3, 9, 9] ∧ resizeWith 2 [1, 2, 3] 8 5 9 = some [1, 2, 3, 9, 9]
    ∧ resizeWith 2 [1, 2, 3] 3 2 9 = none ∧ resize 2 [1, 2, 3] 3 2 0 = some [1, 2]
    ∧ fill 2 [1, 2, 3] 7 = [7, 7, 7] := by decide

/-- C45 (disagreement): the threshold of `Parallelize` on a container is ignored. -/
theorem C45_threshold_ignored (threads total : ℕ) (th : Option ℕ) :
    numElementsPerThread threads total th = sizePerThread threads total none ∧
    ∃ threads total th, numElementsPerThread threads total th ≠ sizePerThread threads total th :=
  ⟨rfl, 3, 10, some 10, by decide⟩

/-! ## C53 -/

open Tachyon.Bits

/-- C53: `IsPowerOfTwo`. -/
theorem C53_isPowerOfTwo {w : ℕ} (v : BitVec w) : isPowerOfTwo v = true ↔ ∃ k, v.toNat = 2 ^ k :=
  isPowerOfTwo_iff v

/-- C53: `AlignDown` is the largest multiple not above, `AlignUp` the smallest not below (when the sum
does not wrap); both fail exactly when the alignment is not a power of two. -/
theorem C53_align {w : ℕ} (size a : BitVec w) :
    (∀ k, a.toNat = 2 ^ k →
      ∃ r, alignDown size a = some r ∧ 2 ^ k ∣ r.toNat ∧ r.toNat ≤ size.toNat ∧
        size.toNat < r.toNat + 2 ^ k) ∧
    (∀ k, a.toNat = 2 ^ k → size.toNat + 2 ^ k ≤ 2 ^ w →
      ∃ r, alignUp size a = some r ∧ 2 ^ k ∣ r.toNat ∧ size.toNat ≤ r.toNat ∧
        r.toNat < size.toNat + 2 ^ k) ∧
    ((∀ k, a.toNat ≠ 2 ^ k) → alignDown size a = none ∧ alignUp size a = none) := by
  refine ⟨fun k hk => ?_, fun k hk hs => ?_, fun h => ?_⟩
  · refine ⟨_, by rw [alignDown, if_pos ((isPowerOfTwo_iff a).2 ⟨k, hk⟩)], ?_⟩
    rw [toNat_and_not_mask hk]
    have := Nat.mod_lt size.toNat (Nat.two_pow_pos k)
    have := Nat.mod_le size.toNat (2 ^ k)
    exact ⟨Nat.dvd_sub_mod _, by omega, by omega⟩
  · refine ⟨_, by rw [alignUp, if_pos ((isPowerOfTwo_iff a).2 ⟨k, hk⟩)], ?_⟩
    have hp := Nat.two_pow_pos k
    have hsum : (size + a - 1#w).toNat = size.toNat + 2 ^ k - 1 := by
      have h1 := a.isLt
      have h0 := size.isLt
      have : (1#w).toNat = 1 := by
        rw [BitVec.toNat_ofNat, Nat.mod_eq_of_lt (by omega)]
      rw [BitVec.toNat_sub, BitVec.toNat_add, this, hk]
      rcases Nat.lt_or_ge (size.toNat + 2 ^ k) (2 ^ w) with hlt | hge
      · rw [Nat.mod_eq_of_lt hlt, show 2 ^ w - 1 + (size.toNat + 2 ^ k) = size.toNat + 2 ^ k - 1 + 2 ^ w by omega,
          Nat.add_mod_right, Nat.mod_eq_of_lt (by omega)]
      · rw [show size.toNat + 2 ^ k = 2 ^ w by omega, Nat.mod_self, Nat.add_zero, Nat.mod_eq_of_lt (by omega)]
    rw [toNat_and_not_mask hk, hsum]
    have := Nat.mod_lt (size.toNat + 2 ^ k - 1) hp
    have := Nat.mod_le (size.toNat + 2 ^ k - 1) (2 ^ k)
    exact ⟨Nat.dvd_sub_mod _, by omega, by omega⟩
  · have : isPowerOfTwo a = false := by
      rw [← Bool.not_eq_true, isPowerOfTwo_iff]
      rintro ⟨k, hk⟩
      exact h k hk
    simp [alignDown, alignUp, this]

/-- C53: `Log2Floor(n)` is the `i` with `2^i ≤ n < 2^(i+1)`, and `-1` for zero. -/
theorem C53_log2Floor {w : ℕ} (n : BitVec w) :
    (n = 0#w → log2Floor n = -1) ∧
    (n ≠ 0#w → ∃ i : ℕ, log2Floor n = i ∧ 2 ^ i ≤ n.toNat ∧ n.toNat < 2 ^ (i + 1)) := by
  refine ⟨fun h => by simp [log2Floor, countLeadingZeroBits, h], fun h => ?_⟩
  obtain ⟨h1, h2⟩ := countLeadingZeroBits_eq h
  have hv : n.toNat ≠ 0 := fun h' => h (BitVec.eq_of_toNat_eq (by simpa using h'))
  refine ⟨n.toNat.log2, by rw [log2Floor, h1]; omega, (Nat.le_log2 hv).1 le_rfl,
    (Nat.log2_lt hv).1 (Nat.lt_succ_self _)⟩

/-- C53: `Log2Ceiling(n)` is the least `i` with `n ≤ 2^i`, and `-1` for zero; `SafeLog2Ceiling` replaces
the `-1` by `0`. -/
theorem C53_log2Ceiling {w : ℕ} (hw : 0 < w) (n : BitVec w) :
    (n = 0#w → log2Ceiling n = -1 ∧ safeLog2Ceiling n = 0) ∧
    (n ≠ 0#w → ∃ i : ℕ, log2Ceiling n = i ∧ safeLog2Ceiling n = i ∧ n.toNat ≤ 2 ^ i ∧
      ∀ j, n.toNat ≤ 2 ^ j → i ≤ j) := by
  have h1w : 1 < 2 ^ w := Nat.one_lt_two_pow (by omega)
  have hone : (1#w).toNat = 1 := by rw [BitVec.toNat_ofNat, Nat.mod_eq_of_lt h1w]
  constructor
  · rintro rfl
    have hne : (0#w - 1#w) ≠ 0#w := by
      intro h
      have := congrArg BitVec.toNat h
      rw [BitVec.toNat_sub, hone] at this
      simp only [BitVec.toNat_ofNat, Nat.zero_mod, Nat.add_zero] at this
      rw [Nat.mod_eq_of_lt (by omega)] at this
      omega
    obtain ⟨h1, h2⟩ := countLeadingZeroBits_eq hne
    have hval : (0#w - 1#w).toNat = 2 ^ w - 1 := by
      rw [BitVec.toNat_sub, hone]
      simp only [BitVec.toNat_ofNat, Nat.zero_mod, Nat.add_zero]
      exact Nat.mod_eq_of_lt (by omega)
    have : w - 1 ≤ (0#w - 1#w).toNat.log2 := by
      rw [Nat.le_log2 (by omega), hval]
      have : 2 ^ w = 2 ^ (w - 1) * 2 := by rw [← pow_succ]; congr 1; omega
      have := Nat.two_pow_pos (w - 1)
      omega
    have e : log2Ceiling (0#w) = -1 := by
      rw [log2Ceiling, h1, if_neg (by simp)]; omega
    exact ⟨e, by rw [safeLog2Ceiling, e]; rfl⟩
  · intro h
    have hv : n.toNat ≠ 0 := fun h' => h (BitVec.eq_of_toNat_eq (by simpa using h'))
    have hval : (n - 1#w).toNat = n.toNat - 1 := by
      rw [BitVec.toNat_sub_of_le, hone]
      rw [BitVec.le_def, hone]; omega
    suffices hs : ∃ i : ℕ, log2Ceiling n = i ∧ n.toNat ≤ 2 ^ i ∧ ∀ j, n.toNat ≤ 2 ^ j → i ≤ j by
      obtain ⟨i, e, h2⟩ := hs
      exact ⟨i, e, by rw [safeLog2Ceiling, e]; omega, h2⟩
    by_cases h1 : n - 1#w = 0#w
    · have hn1 : n.toNat = 1 := by
        rw [h1] at hval
        simp at hval
        omega
      refine ⟨0, ?_, by omega, fun j _ => Nat.zero_le _⟩
      rw [log2Ceiling, h1, if_pos h]
      simp [countLeadingZeroBits]
    · obtain ⟨c1, c2⟩ := countLeadingZeroBits_eq h1
      have hv1 : (n - 1#w).toNat ≠ 0 := fun h' => h1 (BitVec.eq_of_toNat_eq (by simpa using h'))
      refine ⟨(n - 1#w).toNat.log2 + 1, ?_, ?_, ?_⟩
      · rw [log2Ceiling, if_pos h, c1]; omega
      · have := (Nat.log2_lt hv1).1 (Nat.lt_succ_self _)
        rw [Nat.succ_eq_add_one] at this
        omega
      · intro j hj
        have := (Nat.log2_lt hv1 (k := j)).2 (by omega)
        omega

/-- C53: `CheckedLog2` returns the logarithm of a power of two and fails on everything else. -/
theorem C53_checkedLog2 {w : ℕ} (n : BitVec w) (k : ℕ) :
    checkedLog2 n = some k ↔ n.toNat = 2 ^ k := by
  rw [checkedLog2]
  constructor
  · intro h
    split at h
    · rename_i hp
      obtain ⟨j, hj⟩ := (isPowerOfTwo_iff n).1 hp
      rw [countTrailingZeroBits_pow hj] at h
      cases h
      exact hj
    · simp at h
  · intro h
    rw [if_pos ((isPowerOfTwo_iff n).2 ⟨k, h⟩), countTrailingZeroBits_pow h]

/-- C53: `CountTrailingZeroBits` and `CountLeadingZeroBits` of a non-zero word. -/
theorem C53_count {w : ℕ} {v : BitVec w} (h : v ≠ 0#w) :
    2 ^ countTrailingZeroBits v ∣ v.toNat ∧ ¬ 2 ^ (countTrailingZeroBits v + 1) ∣ v.toNat ∧
    v.toNat < 2 ^ (w - countLeadingZeroBits v) ∧ 2 ^ (w - countLeadingZeroBits v) ≤ 2 * v.toNat := by
  obtain ⟨h1, h2⟩ := countTrailingZeroBits_spec h
  obtain ⟨c1, c2⟩ := countLeadingZeroBits_eq h
  have hv : v.toNat ≠ 0 := fun h' => h (BitVec.eq_of_toNat_eq (by simpa using h'))
  have e : w - countLeadingZeroBits v = v.toNat.log2 + 1 := by omega
  refine ⟨Nat.dvd_of_mod_eq_zero h1, fun hd => ?_, ?_, ?_⟩
  · rw [Nat.testBit_eq_decide_div_mod_eq, decide_eq_true_eq] at h2
    obtain ⟨c, hc⟩ := hd
    rw [hc, pow_succ, Nat.mul_assoc, Nat.mul_div_cancel_left _ (Nat.two_pow_pos _)] at h2
    omega
  · rw [e]; exact (Nat.log2_lt hv).1 (Nat.lt_succ_self _)
  · rw [e, pow_succ]
    have := (Nat.le_log2 hv).1 le_rfl
    omega

/-- C53: `ReverseBitsLen` reverses the low `len` bits for `1 ≤ len ≤ 64`, hence is an involution on
`[0, 2^len)`; with `len = 0` it shifts by the word size. -/
theorem C53_reverseBitsLen (x : BitVec 64) :
    (∀ len, 0 < len → len ≤ 64 → ∃ r, reverseBitsLen x len = some r ∧ r.toNat < 2 ^ len ∧
      (∀ i < len, r.getLsbD i = x.getLsbD (len - 1 - i)) ∧
      (x.toNat < 2 ^ len → reverseBitsLen r len = some x)) ∧
    reverseBitsLen x 0 = none := by
  refine ⟨fun len h0 h => ?_, rfl⟩
  obtain ⟨r, e, h1, h2⟩ := reverseBitsLen_getLsbD x h0 h
  refine ⟨r, e, h1, h2, fun hx => ?_⟩
  obtain ⟨r', e', h1', h2'⟩ := reverseBitsLen_getLsbD r h0 h
  rw [e']
  congr 1
  apply BitVec.eq_of_getLsbD_eq
  intro i hi
  by_cases hl : i < len
  · rw [h2' i hl, h2 _ (by omega)]
    congr 1; omega
  · rw [BitVec.getLsbD, BitVec.getLsbD,
      Nat.testBit_lt_two_pow (lt_of_lt_of_le h1' (Nat.pow_le_pow_right (by norm_num) (by omega))),
      Nat.testBit_lt_two_pow (lt_of_lt_of_le hx (Nat.pow_le_pow_right (by norm_num) (by omega)))]

example : isPowerOfTwo 8#64 = true ∧ isPowerOfTwo 6#64 = false ∧ isPowerOfTwo 0#64 = false ∧
    alignUp 13#64 8#64 = some 16#64 ∧ alignDown 13#64 8#64 = some 8#64 ∧ alignUp 13#64 6#64 = none ∧
    log2Floor 9#64 = 3 ∧ log2Ceiling 9#64 = 4 ∧ log2Ceiling 8#64 = 3 ∧ log2Ceiling 1#64 = 0 ∧
    log2Ceiling 0#64 = -1 ∧ checkedLog2 32#64 = some 5 ∧ reverseBitsLen 6#64 4 = some 6#64 ∧
    reverseBitsLen 3#64 4 = some 12#64 := by decide +kernel

end Tachyon.Props
