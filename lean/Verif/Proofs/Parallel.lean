import Verif.Model.Parallel
import Verif.Spec.Schedule
import Mathlib.Tactic.Ring
import Mathlib.Tactic.Linarith
import Mathlib.Data.List.Basic
/-! # Lemmas about chunked loops and interleavings -/
namespace Tachyon

namespace Schedule
variable {α ι : Type*}

theorem run_congr {r : Set ℕ} {l : List (Mem α → Mem α)} (h : ∀ f ∈ l, LocalTo r f) {s s' : Mem α}
    (hs : ∀ i ∈ r, s i = s' i) : ∀ i ∈ r, run l s i = run l s' i := by
  induction l generalizing s s' with
  | nil => exact hs
  | cons f l ih =>
    exact ih (fun g hg => h g (List.mem_cons_of_mem _ hg)) ((h f List.mem_cons_self).2 _ _ hs)

theorem interleaves_region [DecidableEq ι] {P : ι → List (Mem α → Mem α)} {l : List (Mem α → Mem α)}
    (hl : Interleaves P l) (r : ι → Set ℕ) (hr : ∀ i j, i ≠ j → ∀ x ∈ r i, x ∉ r j)
    (hP : ∀ i, ∀ f ∈ P i, LocalTo (r i) f) (s : Mem α) :
    (∀ i, ∀ x ∈ r i, run l s x = run (P i) s x) ∧
      (∀ x, (∀ i, x ∉ r i) → run l s x = s x) := by
  induction hl generalizing s with
  | done h =>
    exact ⟨fun i x _ => by rw [h i], fun x _ => rfl⟩
  | @step P j f tail l hj _ ih =>
    have hf : LocalTo (r j) f := hP j f (by rw [hj]; exact List.mem_cons_self)
    have hP' : ∀ i, ∀ g ∈ Function.update P j tail i, LocalTo (r i) g := by
      intro i g hg
      by_cases hij : i = j
      · subst hij
        rw [Function.update_self] at hg
        exact hP i g (by rw [hj]; exact List.mem_cons_of_mem _ hg)
      · rw [Function.update_of_ne hij] at hg
        exact hP i g hg
    obtain ⟨h1, h2⟩ := ih hP' (f s)
    constructor
    · intro i x hx
      refine (h1 i x hx).trans ?_
      by_cases hij : i = j
      · subst hij
        rw [Function.update_self, hj]; rfl
      · rw [Function.update_of_ne hij]
        exact run_congr (hP i) (fun y hy => hf.1 s y (hr i j hij y hy)) x hx
    · intro x hx
      exact (h2 x hx).trans (hf.1 s x (hx j))


end Schedule

namespace Parallel
variable {α β : Type*}

theorem ceilDiv64_eq {a b : ℕ} (hb : 0 < b) (h : a + b ≤ 2 ^ 64) :
    ceilDiv64 a b = (a + b - 1) / b := by
  have : (a + b + (2 ^ 64 - 1)) % 2 ^ 64 = a + b - 1 := by omega
  rw [ceilDiv64, this]

theorem ceilDiv_bounds {a b n : ℕ} (hb : 0 < b) (hn : n = (a + b - 1) / b) :
    a ≤ n * b ∧ n * b < a + b := by
  have h := Nat.div_add_mod (a + b - 1) b
  have h2 := Nat.mod_lt (a + b - 1) hb
  have : b * ((a + b - 1) / b) = n * b := by rw [hn, Nat.mul_comm]
  omega

/-- Chunk boundaries. -/
theorem numChunks_bounds {size cs : ℕ} (hcs : 0 < cs) (h : size + cs ≤ 2 ^ 64) :
    size ≤ numChunks size cs * cs ∧ numChunks size cs * cs < size + cs :=
  ceilDiv_bounds hcs (ceilDiv64_eq hcs h)

theorem mem_invocations {size cs : ℕ} (hcs : 0 < cs) {c : ℕ × ℕ} :
    c ∈ invocations size cs ↔ c.1 < numChunks size cs ∧ c.2 = chunkLen size cs c.1 := by
  rw [invocations, if_neg (by omega)]
  simp only [List.mem_map, List.mem_range]
  constructor
  · rintro ⟨i, hi, rfl⟩; exact ⟨hi, rfl⟩
  · rintro ⟨h1, h2⟩; exact ⟨c.1, h1, by rw [← h2]⟩

theorem chunk_bounds {size cs i : ℕ} (hcs : 0 < cs) (h : size + cs ≤ 2 ^ 64)
    (hi : i < numChunks size cs) :
    i * cs < size ∧ i * cs + chunkLen size cs i = min ((i + 1) * cs) size ∧
      0 < chunkLen size cs i ∧ chunkLen size cs i ≤ cs := by
  obtain ⟨h1, h2⟩ := numChunks_bounds hcs h
  have e : (i + 1) * cs = i * cs + cs := by ring
  have h3 : (i + 1) * cs ≤ numChunks size cs * cs := Nat.mul_le_mul_right _ hi
  have h4 : i * cs < size := by omega
  refine ⟨h4, ?_⟩
  rw [chunkLen]
  split
  · rename_i hl
    have : i + 1 = numChunks size cs := by omega
    rw [this] at h3 e ⊢
    omega
  · rename_i hl
    have : (i + 1 + 1) * cs ≤ numChunks size cs * cs := Nat.mul_le_mul_right _ (by omega)
    have e2 : (i + 1 + 1) * cs = (i + 1) * cs + cs := by ring
    omega

theorem flatMap_chunkOf_take (xs : List α) {cs : ℕ} (hcs : 0 < cs) (h : xs.length + cs ≤ 2 ^ 64)
    (k : ℕ) (hk : k ≤ numChunks xs.length cs) :
    (List.range k).flatMap (fun i => chunkOf xs cs (i, chunkLen xs.length cs i)) =
      xs.take (k * cs) := by
  induction k with
  | zero => simp
  | succ k ih =>
    rw [List.range_succ, List.flatMap_append, ih (by omega)]
    obtain ⟨h1, h2, h3, h4⟩ := chunk_bounds hcs h (i := k) hk
    simp only [List.flatMap_cons, List.flatMap_nil, List.append_nil, chunkOf]
    have : (xs.drop (k * cs)).take (chunkLen xs.length cs k) = (xs.drop (k * cs)).take cs := by
      rcases Nat.lt_or_ge (chunkLen xs.length cs k) cs with hlt | hge
      · have e : (k + 1) * cs = k * cs + cs := by ring
        rw [List.take_of_length_le (by rw [List.length_drop]; omega),
          List.take_of_length_le (by rw [List.length_drop]; omega)]
      · rw [show chunkLen xs.length cs k = cs by omega]
    rw [this, show (k + 1) * cs = k * cs + cs by ring, List.take_add]

theorem flatMap_chunkOf (xs : List α) {cs : ℕ} (hcs : 0 < cs) (h : xs.length + cs ≤ 2 ^ 64) :
    (invocations xs.length cs).flatMap (chunkOf xs cs) = xs := by
  rw [invocations, if_neg (by omega), List.flatMap_map]
  rw [flatMap_chunkOf_take xs hcs h _ le_rfl, List.take_of_length_le (numChunks_bounds hcs h).1]

/-- A chunked loop computes `ys` when every callback computes its part of `ys`. -/
theorem byChunkSize_eq {xs ys : List α} {cs : ℕ} {f : ℕ → List α → List α} (hcs : 0 < cs)
    (h : xs.length + cs ≤ 2 ^ 64) (hl : ys.length = xs.length)
    (hf : ∀ i < numChunks xs.length cs,
      f i (chunkOf xs cs (i, chunkLen xs.length cs i)) = chunkOf ys cs (i, chunkLen xs.length cs i)) :
    byChunkSize xs cs f = ys := by
  rw [byChunkSize, if_neg (by omega)]
  refine Eq.trans ?_ (flatMap_chunkOf ys hcs (by rw [hl]; exact h))
  rw [hl]
  refine List.flatMap_congr fun c hc => ?_
  obtain ⟨h1, h2⟩ := (mem_invocations hcs).1 hc
  rw [show c = (c.1, chunkLen xs.length cs c.1) from Prod.ext rfl h2]
  exact hf _ h1

theorem length_chunkOf {xs : List α} {cs i : ℕ} (hcs : 0 < cs) (h : xs.length + cs ≤ 2 ^ 64)
    (hi : i < numChunks xs.length cs) :
    (chunkOf xs cs (i, chunkLen xs.length cs i)).length = chunkLen xs.length cs i := by
  obtain ⟨h1, h2, h3, h4⟩ := chunk_bounds hcs h hi
  simp only [chunkOf, List.length_take, List.length_drop]
  omega

theorem getElem?_chunkOf {xs : List α} {cs i k n : ℕ} (hk : k < n) :
    (chunkOf xs cs (i, n))[k]? = xs[i * cs + k]? := by
  simp [chunkOf, hk]

theorem sizePerThread_bounds {threads total : ℕ} (ht : 0 < threads) (h : total + threads ≤ 2 ^ 64)
    (th : Option ℕ) :
    (0 < sizePerThread threads total th ↔ 0 < total) ∧ sizePerThread threads total th ≤ total ∧
      (th = none → total ≤ sizePerThread threads total th * threads) := by
  have key := ceilDiv64_eq ht h
  obtain ⟨h1, h2⟩ := ceilDiv_bounds ht key
  have hpos : (0 < ceilDiv64 total threads ↔ 0 < total) ∧ ceilDiv64 total threads ≤ total := by
    rcases Nat.eq_zero_or_pos total with h0 | h0
    · have : ceilDiv64 total threads = 0 := by
        rw [key, h0]; exact Nat.div_eq_of_lt (by omega)
      omega
    · refine ⟨⟨fun _ => h0, fun _ => ?_⟩, ?_⟩
      · rcases Nat.eq_zero_or_pos (ceilDiv64 total threads) with h3 | h3
        · rw [h3] at h1; omega
        · exact h3
      · by_contra hc
        have : (total + 1) * threads ≤ ceilDiv64 total threads * threads :=
          Nat.mul_le_mul_right _ (by omega)
        have e : (total + 1) * threads = total * threads + threads := by ring
        have : total ≤ total * threads := Nat.le_mul_of_pos_right _ ht
        omega
  rw [sizePerThread.eq_def]
  rcases th with _ | t
  · simp only [if_true]
    exact ⟨hpos.1, hpos.2, fun _ => h1⟩
  · by_cases hd : t < total
    · simp only [hd, decide_true, if_true]
      exact ⟨hpos.1, hpos.2, by simp⟩
    · simp [hd]

/-- The workhorse for `Parallelize` on a container. -/
theorem parallelize_eq {threads : ℕ} {xs ys : List α} {f : ℕ → ℕ → List α → List α}
    (ht : 0 < threads) (h : xs.length + threads ≤ 2 ^ 64) (h2 : 2 * xs.length ≤ 2 ^ 64)
    (hl : ys.length = xs.length)
    (hf : ∀ i cs len, 0 < len → i * cs + len ≤ xs.length →
      f i cs (chunkOf xs cs (i, len)) = chunkOf ys cs (i, len)) :
    parallelize threads xs f = ys := by
  obtain ⟨hp, hle, -⟩ := sizePerThread_bounds ht h none
  simp only [parallelize, numElementsPerThread]
  rcases Nat.eq_zero_or_pos (sizePerThread threads xs.length none) with h0 | h0
  · have hx : xs = [] := List.eq_nil_of_length_eq_zero (by omega)
    subst hx
    rw [byChunkSize, if_pos h0]
    exact (List.eq_nil_of_length_eq_zero hl).symm
  · refine byChunkSize_eq h0 (by omega) hl fun i hi => ?_
    obtain ⟨h1, h3, h4, h5⟩ := chunk_bounds h0 (by omega) hi
    exact hf _ _ _ h4 (by omega)

/-- The same for `ParallelizeMap`: the results are those of the chunks, in order. -/
theorem parallelizeMap_chunks {threads : ℕ} {xs : List α} (f : ℕ → ℕ → List α → β)
    (ht : 0 < threads) (h : xs.length + threads ≤ 2 ^ 64) (h2 : 2 * xs.length ≤ 2 ^ 64) :
    ∃ (cs : ℕ) (l : List (ℕ × ℕ)), (∀ c ∈ l, 0 < c.2 ∧ c.1 * cs + c.2 ≤ xs.length) ∧
      l.flatMap (chunkOf xs cs) = xs ∧
      parallelizeMap threads xs f = l.map fun c => f c.1 cs (chunkOf xs cs c) := by
  obtain ⟨hp, hle, -⟩ := sizePerThread_bounds ht h none
  refine ⟨_, _, ?_, ?_, rfl⟩
  · intro c hc
    rcases Nat.eq_zero_or_pos (numElementsPerThread threads xs.length none) with h0 | h0
    · rw [invocations, if_pos h0] at hc; simp at hc
    · have hle' : numElementsPerThread threads xs.length none ≤ xs.length := hle
      obtain ⟨h3, h4⟩ := (mem_invocations h0).1 hc
      obtain ⟨h5, h6, h7, h8⟩ := chunk_bounds h0 (by omega) h3
      rw [← h4] at h6 h7
      exact ⟨h7, by omega⟩
  · rcases Nat.eq_zero_or_pos (numElementsPerThread threads xs.length none) with h0 | h0
    · have hx : xs = [] := List.eq_nil_of_length_eq_zero (by
        have : 0 < sizePerThread threads xs.length none ↔ 0 < xs.length := hp
        have : sizePerThread threads xs.length none = 0 := h0
        omega)
      rw [invocations, if_pos h0, hx]; rfl
    · have hle' : numElementsPerThread threads xs.length none ≤ xs.length := hle
      exact flatMap_chunkOf xs h0 (by omega)

end Parallel
end Tachyon
