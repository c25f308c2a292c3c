import Verif.Model.Chunked
import Mathlib.Tactic.NormNum
import Mathlib.Tactic.Ring
import Mathlib.Tactic.Linarith
/-! C110: chunks of containers. -/
namespace Tachyon.Props
open Tachyon.Chunked

/-- The iterator after `k` chunks. -/
theorem chunk_next (n c k : ℕ) (hc : 1 ≤ c) (hk : k * c < n) :
    (It.mk (k * c) (k * c) c n (min c (n - k * c))).next =
      if 2 ^ 64 ≤ min ((k + 1) * c) n + c then none else
        some ⟨min ((k + 1) * c) n, min ((k + 1) * c) n, c, n, min c (n - min ((k + 1) * c) n)⟩ := by
  have e : k * c + min c (n - k * c) = min ((k + 1) * c) n := by rw [Nat.add_mul, one_mul]; omega
  rw [It.next]
  simp only [e]
  split
  · rfl
  · congr 2
    rcases Nat.le_total ((k + 1) * c) n with h | h
    · rw [Nat.min_eq_left h]
      split <;> omega
    · rw [Nat.min_eq_right h, Nat.sub_self, if_pos (by omega)]
      omega

theorem chunk_loop {α : Type} (l : List α) (c : ℕ) (hc : 1 ≤ c) (hn : l.length + c < 2 ^ 64) (d k : ℕ) (hd : (k + d) * c < l.length + c)
    (hd' : l.length ≤ (k + d) * c) (fuel : ℕ) (hf : d < fuel) (acc : List (List α)) :
    loop l (finish l.length c) fuel ⟨min (k * c) l.length, min (k * c) l.length, c, l.length, min c (l.length - min (k * c) l.length)⟩ acc =
      .done (acc ++ (List.range d).map fun i => (l.drop ((k + i) * c)).take c) := by
  induction d generalizing k fuel acc with
  | zero =>
    obtain ⟨f, rfl⟩ : ∃ f, fuel = f + 1 := ⟨fuel - 1, by omega⟩
    rw [loop, if_pos (by simp only [It.eq, finish, beq_iff_eq]; simp at hd'; omega)]
    simp
  | succ d ih =>
    obtain ⟨f, rfl⟩ : ∃ f, fuel = f + 1 := ⟨fuel - 1, by omega⟩
    have hk : k * c < l.length := by
      have : (k + (d + 1)) * c = k * c + d * c + c := by ring
      have h2 : 0 ≤ d * c := Nat.zero_le _
      omega
    rw [loop, if_neg (by simp only [It.eq, finish, beq_iff_eq]; omega), Nat.min_eq_left (Nat.le_of_lt hk), chunk_next _ _ _ hc hk, if_neg (by omega)]
    dsimp only
    rw [ih (k + 1) (by rw [show k + 1 + d = k + (d + 1) by omega]; exact hd) (by rw [show k + 1 + d = k + (d + 1) by omega]; exact hd') f (by omega),
      List.range_succ_eq_map, List.map_cons, List.map_map, List.append_assoc]
    congr 2
    rw [List.singleton_append]
    congr 1
    · simp only [It.deref, Nat.add_zero]
      rcases Nat.le_total c (l.length - k * c) with h | h
      · rw [Nat.min_eq_left h]
      · rw [Nat.min_eq_right h, List.take_of_length_le (by simp), List.take_of_length_le (by simp; omega)]
    · refine List.map_congr_left fun i _ => ?_
      simp only [Function.comp]
      rw [show k + 1 + i = k + i.succ by omega]

/-- C110: a loop over the chunks of a list, for a size of chunks that is not zero and sums that are no overflow, sees the pieces of that size in their order, the
last one possibly shorter, and ends. -/
theorem C110_chunks {α : Type} (l : List α) (c : ℕ) (hc : 1 ≤ c) (hn : l.length + c < 2 ^ 64) (fuel : ℕ) (hf : l.length < fuel) :
    chunks fuel l c = .done ((List.range ((l.length + c - 1) / c)).map fun i => (l.drop (i * c)).take c) := by
  have hdiv := Nat.div_add_mod (l.length + c - 1) c
  have hmod := Nat.mod_lt (l.length + c - 1) (show 0 < c by omega)
  have hcomm : (l.length + c - 1) / c * c = c * ((l.length + c - 1) / c) := Nat.mul_comm _ _
  have hle : (l.length + c - 1) / c ≤ l.length := by
    rcases Nat.eq_zero_or_pos l.length with h | h
    · rw [h, Nat.zero_add, Nat.div_eq_of_lt (by omega)]
    · have : (l.length + c - 1) / c ≤ (l.length * c) / c := Nat.div_le_div_right (by
        have : l.length + c ≤ l.length * c + 1 := by nlinarith
        omega)
      rwa [Nat.mul_div_cancel _ (by omega)] at this
  have := chunk_loop l c hc hn ((l.length + c - 1) / c) 0 (by rw [Nat.zero_add]; omega) (by rw [Nat.zero_add]; omega) fuel (by omega) []
  simpa [chunks, Chunked.begin] using this

/-- C110: and joined they are the list again. -/
theorem C110_join {α : Type} (l : List α) (c : ℕ) (hc : 1 ≤ c) :
    ((List.range ((l.length + c - 1) / c)).map fun i => (l.drop (i * c)).take c).flatten = l := by
  have key : ∀ k, ((List.range k).map fun i => (l.drop (i * c)).take c).flatten = l.take (k * c) := by
    intro k
    induction k with
    | zero => simp
    | succ k ih =>
      rw [List.range_succ, List.map_append, List.flatten_append, ih, Nat.add_mul, one_mul, List.take_add]
      simp
  rw [key, List.take_of_length_le]
  have hdiv := Nat.div_add_mod (l.length + c - 1) c
  have hmod := Nat.mod_lt (l.length + c - 1) (show 0 < c by omega)
  rw [Nat.mul_comm]
  omega

/-- C110: chunks of size zero: a loop over a list that is not empty never ends. -/
theorem C110_zero {α : Type} (l : List α) (hl : l ≠ []) (fuel : ℕ) : chunks fuel l 0 = .running := by
  have hp : 0 < l.length := List.length_pos_iff.2 hl
  have : ∀ fuel acc, loop l (finish l.length 0) fuel ⟨0, 0, 0, l.length, 0⟩ acc = .running := by
    intro fuel
    induction fuel with
    | zero => intro acc; rfl
    | succ f ih =>
      intro acc
      have hnx : (It.mk 0 0 0 l.length 0).next = some ⟨0, 0, 0, l.length, 0⟩ := by simp [It.next]
      rw [loop, if_neg (by simp only [It.eq, finish, beq_iff_eq]; omega), hnx]
      exact ih _
  simpa [chunks, Chunked.begin] using this fuel []

/-- C110: finding: where the length and the size of chunks overflow together, a loop over one chunk dies, though its elements are all there. -/
theorem C110_overflow {α : Type} (l : List α) (hl : l ≠ []) (c : ℕ) (hc : l.length ≤ c) (ho : 2 ^ 64 ≤ l.length + c) (fuel : ℕ) :
    chunks (fuel + 1) l c = .died := by
  have hp : 0 < l.length := List.length_pos_iff.2 hl
  have hnx : (Chunked.begin l.length c).next = none := by
    simp only [It.next, Chunked.begin, Nat.min_eq_right hc]
    rw [if_pos (by omega)]
  rw [chunks, loop, if_neg (by simp only [It.eq, finish, Chunked.begin, beq_iff_eq]; omega), hnx]

/-- C110: the number of chunks between two iterators, the later one first. -/
theorem C110_distance (a b : It) (hc : 1 ≤ a.chunk) (h : b.current ≤ a.current) (ho : a.current + a.chunk < 2 ^ 63) :
    a.sub b = some (((a.current - b.current + a.chunk - 1) / a.chunk : ℕ) : ℤ) := by
  have e : ((a.current : ℤ) - b.current + a.chunk - 1) = ((a.current - b.current + a.chunk - 1 : ℕ) : ℤ) := by omega
  have hlt : a.current - b.current + a.chunk - 1 < 2 ^ 63 := by omega
  have hd : (a.current - b.current + a.chunk - 1) / a.chunk < 2 ^ 63 := lt_of_le_of_lt (Nat.div_le_self _ _) hlt
  rw [It.sub, if_neg (by omega), e, Int.emod_eq_of_lt (by omega) (by norm_num at hlt ⊢; omega), Int.toNat_natCast]
  dsimp only
  rw [if_pos hd]

/-- C110: finding: the earlier one first the difference should be negative, but it is a large positive number for chunks of two or more. -/
theorem C110_distance_negative (a b : It) (hc : 2 ≤ a.chunk) (_h : a.current + a.chunk ≤ b.current) :
    ∃ q : ℤ, a.sub b = some q ∧ 0 ≤ q := by
  refine ⟨_, by rw [It.sub, if_neg (by omega)], ?_⟩
  have hlt : (((a.current : ℤ) - b.current + a.chunk - 1) % 2 ^ 64).toNat < 2 ^ 64 := by norm_num; omega
  have hd : (((a.current : ℤ) - b.current + a.chunk - 1) % 2 ^ 64).toNat / a.chunk < 2 ^ 63 :=
    Nat.div_lt_of_lt_mul (lt_of_lt_of_le hlt (by norm_num; omega))
  rw [if_pos hd]
  exact Int.natCast_nonneg _

/-- Seven elements in chunks of three. -/
example : chunks 10 [1, 2, 3, 4, 5, 6, 7] 3 = .done [[1, 2, 3], [4, 5, 6], [7]] := by decide

/-- Begin minus end, for seven elements in chunks of three. -/
example : (Chunked.begin 7 3).sub (finish 7 3) = some 6148914691236517203 := by decide

end Tachyon.Props
