import Verif.Model.Deque
/-! C111: the circular deque is a list. -/
namespace Tachyon.Props
open Tachyon.Deque

variable {α : Type}

/-- A deque holds a list: from `begin_` on, around the ring, up to `end_`, and no other slot holds an object. -/
def DequeHolds (d : Deque α) (l : List α) : Prop :=
  (d.cap = 0 → l = [] ∧ d.b = d.e) ∧
  (0 < d.cap → d.b < d.cap ∧ l.length < d.cap ∧ (d.e = if d.b + l.length < d.cap then d.b + l.length else d.b + l.length - d.cap) ∧
    ∀ j < d.cap, d.mem j = l[if d.b ≤ j then j - d.b else j + d.cap - d.b]?)

theorem holds_size {d : Deque α} {l : List α} (h : DequeHolds d l) : d.size = l.length := by
  rcases Nat.eq_zero_or_pos d.cap with hc | hc
  · obtain ⟨rfl, h2⟩ := h.1 hc
    simp [Deque.size, h2]
  · obtain ⟨h1, h2, h3, -⟩ := h.2 hc
    rw [Deque.size]
    split at h3 <;> split <;> omega

theorem holds_empty {d : Deque α} {l : List α} (h : DequeHolds d l) : d.empty = l.isEmpty := by
  rcases Nat.eq_zero_or_pos d.cap with hc | hc
  · obtain ⟨rfl, h2⟩ := h.1 hc
    simp [Deque.empty, h2]
  · obtain ⟨h1, h2, h3, -⟩ := h.2 hc
    rw [Deque.empty, Bool.eq_iff_iff, beq_iff_eq, List.isEmpty_iff, ← List.length_eq_zero_iff]
    split at h3 <;> omega

theorem holds_moved {d : Deque α} {l : List α} (h : DequeHolds d l) : d.moved.2 = l.length ∧ ∀ i, d.moved.1 i = l[i]? := by
  rcases Nat.eq_zero_or_pos d.cap with hc | hc
  · obtain ⟨rfl, h2⟩ := h.1 hc
    simp [Deque.moved, h2]
  · obtain ⟨h1, h2, h3, h4⟩ := h.2 hc
    rw [Deque.moved]
    split
    · rename_i hlt
      have hl : l.length = d.e - d.b := by split at h3 <;> omega
      refine ⟨hl.symm, fun i => ?_⟩
      dsimp only
      split
      · rw [h4 _ (by split at h3 <;> omega), if_pos (by omega), Nat.add_sub_cancel_left]
      · rw [List.getElem?_eq_none (by omega)]
    · split
      · rename_i hlt
        have hl : l.length = d.cap - d.b + d.e := by split at h3 <;> omega
        refine ⟨hl.symm, fun i => ?_⟩
        dsimp only
        split
        · rw [h4 _ (by omega), if_pos (by omega), Nat.add_sub_cancel_left]
        · split
          · rw [h4 _ (by split at h3 <;> omega), if_neg (by split at h3 <;> omega)]
            congr 1
            omega
          · rw [List.getElem?_eq_none (by omega)]
      · have hl : l.length = 0 := by split at h3 <;> omega
        refine ⟨hl.symm, fun i => ?_⟩
        rw [List.getElem?_eq_none (by omega)]

theorem holds_setCapacityTo {d : Deque α} {l : List α} (h : DequeHolds d l) (n : ℕ) (hn : l.length ≤ n) :
    ∃ d', d.setCapacityTo n = some d' ∧ DequeHolds d' l ∧ d'.cap = n + 1 := by
  obtain ⟨h1, h2⟩ := holds_moved h
  refine ⟨⟨n + 1, d.moved.1, 0, d.moved.2⟩, ?_, ⟨fun hc => absurd hc (by simp), fun _ => ⟨by simp, ?_, ?_, fun j _ => ?_⟩⟩, rfl⟩
  · simp only [Deque.setCapacityTo]
    have hall : ∀ i ∈ List.range d.moved.2, (d.moved.1 i).isSome := fun i hi => by
      rw [h2, List.getElem?_eq_getElem (by have := List.mem_range.1 hi; omega)]
      rfl
    rw [if_pos ⟨by omega, hall⟩]
  · exact Nat.lt_succ_of_le hn
  · dsimp only
    rw [h1, if_pos (by omega), Nat.zero_add]
  · dsimp only
    rw [h2, if_pos (Nat.zero_le _), Nat.sub_zero]

theorem holds_capacity {d : Deque α} {l : List α} (h : DequeHolds d l) : l.length ≤ d.capacity ∧ (0 < d.cap → d.capacity + 1 = d.cap) := by
  rcases Nat.eq_zero_or_pos d.cap with hc | hc
  · obtain ⟨rfl, h2⟩ := h.1 hc
    simp [hc]
  · obtain ⟨h1, h2, -⟩ := h.2 hc
    rw [Deque.capacity, if_neg (by omega)]
    omega

theorem holds_expand {d : Deque α} {l : List α} (h : DequeHolds d l) (k : ℕ) (hk : 1 ≤ k) :
    ∃ d', d.expand k = some d' ∧ DequeHolds d' l ∧ l.length + k < d'.cap := by
  simp only [Deque.expand, holds_size h]
  have hcap := holds_capacity h
  split
  · refine ⟨d, rfl, h, ?_⟩
    rcases Nat.eq_zero_or_pos d.cap with hc | hc
    · simp only [Deque.capacity, hc, if_true] at *
      omega
    · have := hcap.2 hc
      omega
  · obtain ⟨d', h1, h2, h3⟩ := holds_setCapacityTo h (max (max (l.length + k) initialCapacity) (d.capacity + d.capacity / 4)) (by omega)
    exact ⟨d', h1, h2, by omega⟩

theorem holds_shrink {d : Deque α} {l : List α} (h : DequeHolds d l) : ∃ d', d.shrink = some d' ∧ DequeHolds d' l := by
  simp only [Deque.shrink, holds_size h]
  split
  · exact ⟨d, rfl, h⟩
  · split
    · exact ⟨d, rfl, h⟩
    · split
      · obtain ⟨d', h1, h2, -⟩ := holds_setCapacityTo h (max initialCapacity (l.length + l.length / 4)) (by omega)
        exact ⟨d', h1, h2⟩
      · exact ⟨d, rfl, h⟩

theorem holds_emplaceFront {d : Deque α} {l : List α} (h : DequeHolds d l) (x : α) : ∃ d', d.emplaceFront x = some d' ∧ DequeHolds d' (x :: l) := by
  obtain ⟨d, he, h, hk⟩ := holds_expand h 1 (Nat.le_refl _)
  obtain ⟨h1, h2, h3, h4⟩ := h.2 (by omega)
  rw [Deque.emplaceFront, he, Option.bind_some]
  obtain ⟨b, hb⟩ : ∃ b, b = if d.b = 0 then d.cap - 1 else d.b - 1 := ⟨_, rfl⟩
  have hbc : b < d.cap := by rw [hb]; split <;> omega
  have hnone : d.mem b = none := by
    rw [h4 b hbc, List.getElem?_eq_none]
    split at hb <;> split <;> omega
  dsimp only
  rw [← hb, Deque.construct, if_pos ⟨hbc, by simp [hnone]⟩]
  refine ⟨_, rfl, ⟨fun hc => absurd hc (by dsimp only; omega), fun _ => ⟨hbc, by simpa using hk, ?_, fun j hj => ?_⟩⟩⟩
  · dsimp only
    rw [h3, List.length_cons]
    split at hb <;> split <;> split <;> omega
  · dsimp only at hj ⊢
    split
    · rename_i e
      rw [e, if_pos (by omega), Nat.sub_self]
      rfl
    · rename_i e
      rw [h4 j hj]
      obtain ⟨i, hi⟩ : ∃ i, i = if d.b ≤ j then j - d.b else j + d.cap - d.b := ⟨_, rfl⟩
      have hi' : (if b ≤ j then j - b else j + d.cap - b) = if i = d.cap - 1 then 0 else i + 1 := by
        split at hb <;> split at hi <;> split <;> split <;> omega
      rw [← hi, hi']
      have hne : i ≠ d.cap - 1 := by
        intro hc
        split at hb <;> split at hi <;> omega
      rw [if_neg hne, List.getElem?_cons_succ]

theorem holds_emplaceBack {d : Deque α} {l : List α} (h : DequeHolds d l) (x : α) : ∃ d', d.emplaceBack x = some d' ∧ DequeHolds d' (l ++ [x]) := by
  obtain ⟨d, he, h, hk⟩ := holds_expand h 1 (Nat.le_refl _)
  obtain ⟨h1, h2, h3, h4⟩ := h.2 (by omega)
  rw [Deque.emplaceBack, he, Option.bind_some]
  have hec : d.e < d.cap := by rw [h3]; split <;> omega
  have hidx : (if d.b ≤ d.e then d.e - d.b else d.e + d.cap - d.b) = l.length := by split at h3 <;> split <;> omega
  have hnone : d.mem d.e = none := by rw [h4 _ hec, hidx, List.getElem?_eq_none (Nat.le_refl _)]
  rw [Deque.construct, if_pos ⟨hec, by simp [hnone]⟩, Option.map_some]
  refine ⟨_, rfl, ⟨fun hc => absurd hc (by dsimp only; omega), fun _ => ⟨h1, by simpa using hk, ?_, fun j hj => ?_⟩⟩⟩
  · dsimp only
    rw [List.length_append, List.length_singleton]
    split at h3 <;> split <;> split <;> omega
  · dsimp only at hj ⊢
    split
    · rename_i e
      rw [e, hidx, List.getElem?_append_right (Nat.le_refl _), Nat.sub_self]
      rfl
    · rename_i e
      rw [h4 j hj]
      obtain ⟨i, hi⟩ : ∃ i, i = if d.b ≤ j then j - d.b else j + d.cap - d.b := ⟨_, rfl⟩
      rw [← hi]
      have hne : i ≠ l.length := by
        intro hc
        apply e
        split at hi <;> split at h3 <;> omega
      rcases Nat.lt_or_ge i l.length with c | c
      · rw [List.getElem?_append_left c]
      · rw [List.getElem?_eq_none c, List.getElem?_eq_none (by simp; omega)]

theorem holds_popFront {d : Deque α} {l : List α} (h : DequeHolds d l) :
    (l = [] → d.popFront = none) ∧ ∀ x l', l = x :: l' → ∃ d', d.popFront = some d' ∧ DequeHolds d' l' := by
  constructor
  · rintro rfl
    rw [Deque.popFront, Deque.destroy, if_neg, Option.bind_none]
    rintro ⟨hc, hs⟩
    obtain ⟨h1, h2, h3, h4⟩ := h.2 (by omega)
    rw [h4 _ hc] at hs
    simp at hs
  · rintro x l' rfl
    have hc : 0 < d.cap := by
      rcases Nat.eq_zero_or_pos d.cap with hc | hc
      · exact absurd (h.1 hc).1 (by simp)
      · exact hc
    obtain ⟨h1, h2, h3, h4⟩ := h.2 hc
    rw [List.length_cons] at h2 h3
    have hb : d.mem d.b = some x := by rw [h4 _ h1, if_pos (Nat.le_refl _), Nat.sub_self]; rfl
    rw [Deque.popFront, Deque.destroy, if_pos ⟨h1, by simp [hb]⟩, Option.bind_some]
    refine holds_shrink ⟨fun hc' => absurd hc' (by dsimp only; omega), fun _ => ?_⟩
    dsimp only
    refine ⟨by split <;> omega, by omega, ?_, fun j hj => ?_⟩
    · split at h3 <;> split <;> split <;> omega
    · by_cases e : j = d.b
      · rw [if_pos e, List.getElem?_eq_none]
        split <;> split <;> omega
      · rw [if_neg e, h4 j hj]
        obtain ⟨i, hi⟩ : ∃ i, i = if (if d.b + 1 = d.cap then 0 else d.b + 1) ≤ j then j - (if d.b + 1 = d.cap then 0 else d.b + 1)
            else j + d.cap - (if d.b + 1 = d.cap then 0 else d.b + 1) := ⟨_, rfl⟩
        have hi' : (if d.b ≤ j then j - d.b else j + d.cap - d.b) = i + 1 := by
          split at hi <;> split at hi <;> split <;> omega
        rw [← hi, hi', List.getElem?_cons_succ]

theorem holds_popBack {d : Deque α} {l : List α} (h : DequeHolds d l) :
    (l = [] → d.popBack = none) ∧ ∀ x l', l = l' ++ [x] → ∃ d', d.popBack = some d' ∧ DequeHolds d' l' := by
  constructor
  · rintro rfl
    simp only [Deque.popBack]
    rw [Deque.destroy, if_neg, Option.bind_none]
    rintro ⟨hc, hs⟩
    dsimp only at hc hs
    obtain ⟨h1, h2, h3, h4⟩ := h.2 (by omega)
    rw [h4 _ hc] at hs
    simp at hs
  · rintro x l' rfl
    have hc : 0 < d.cap := by
      rcases Nat.eq_zero_or_pos d.cap with hc | hc
      · exact absurd (h.1 hc).1 (by simp)
      · exact hc
    obtain ⟨h1, h2, h3, h4⟩ := h.2 hc
    rw [List.length_append, List.length_singleton] at h2 h3
    obtain ⟨e, he⟩ : ∃ e, e = if d.e = 0 then d.cap - 1 else d.e - 1 := ⟨_, rfl⟩
    have hec : e < d.cap := by
      split at h3 <;> split at he <;> omega
    have hidx : (if d.b ≤ e then e - d.b else e + d.cap - d.b) = l'.length := by split at h3 <;> split at he <;> split <;> omega
    have hm : d.mem e = some x := by rw [h4 _ hec, hidx, List.getElem?_append_right (Nat.le_refl _), Nat.sub_self]; rfl
    simp only [Deque.popBack]
    rw [← he, Deque.destroy, if_pos ⟨hec, by simp [hm]⟩, Option.bind_some]
    refine holds_shrink ⟨fun hc' => absurd hc' (by dsimp only; omega), fun _ => ?_⟩
    dsimp only
    refine ⟨h1, by omega, ?_, fun j hj => ?_⟩
    · split at h3 <;> split at he <;> split <;> omega
    · by_cases hj' : j = e
      · rw [if_pos hj', hj', hidx, List.getElem?_eq_none (Nat.le_refl _)]
      · rw [if_neg hj', h4 j hj]
        obtain ⟨i, hi⟩ : ∃ i, i = if d.b ≤ j then j - d.b else j + d.cap - d.b := ⟨_, rfl⟩
        rw [← hi]
        have hne : i ≠ l'.length := by
          intro hcc
          apply hj'
          split at h3 <;> split at he <;> split at hi <;> omega
        rcases Nat.lt_or_ge i l'.length with c | c
        · rw [List.getElem?_append_left c]
        · rw [List.getElem?_eq_none c, List.getElem?_eq_none (by simp; omega)]

/-- The slots from an element on to the end are those of the elements from it on. -/
theorem mem_slots {d : Deque α} {l : List α} (h : DequeHolds d l) (hc : 0 < d.cap) (k : ℕ) (hk : k ≤ l.length) (i : ℕ) :
    i ∈ d.slots (if d.b + k < d.cap then d.b + k else d.b + k - d.cap) d.e ↔
      i < d.cap ∧ k ≤ (if d.b ≤ i then i - d.b else i + d.cap - d.b) ∧ (if d.b ≤ i then i - d.b else i + d.cap - d.b) < l.length := by
  obtain ⟨h1, h2, h3, h4⟩ := h.2 hc
  obtain ⟨lo, hlo⟩ : ∃ lo, lo = if d.b + k < d.cap then d.b + k else d.b + k - d.cap := ⟨_, rfl⟩
  rw [← hlo, Deque.slots]
  split
  · constructor
    · intro hi; simp at hi
    · rintro ⟨g1, g2, g3⟩
      exfalso
      split at hlo <;> split at h3 <;> split at g2 <;> split at g3 <;> omega
  · split
    · simp only [List.mem_map, List.mem_range]
      constructor
      · rintro ⟨t, ht, rfl⟩
        split at hlo <;> split at h3 <;> split <;> omega
      · rintro ⟨g1, g2, g3⟩
        exact ⟨i - lo, by split at hlo <;> split at h3 <;> split at g2 <;> split at g3 <;> omega,
          by split at hlo <;> split at h3 <;> split at g2 <;> split at g3 <;> omega⟩
    · simp only [List.mem_append, List.mem_map, List.mem_range]
      constructor
      · rintro (⟨t, ht, rfl⟩ | ht)
        · split at hlo <;> split at h3 <;> split <;> omega
        · split at hlo <;> split at h3 <;> split <;> omega
      · rintro ⟨g1, g2, g3⟩
        rcases Nat.lt_or_ge i lo with c | c
        · right
          split at hlo <;> split at h3 <;> split at g2 <;> split at g3 <;> omega
        · exact .inl ⟨i - lo, by omega, by omega⟩

theorem holds_destructRange {d : Deque α} {l : List α} (h : DequeHolds d l) (hc : 0 < d.cap) (k : ℕ) (hk : k ≤ l.length) :
    ∃ m, d.destructRange (if d.b + k < d.cap then d.b + k else d.b + k - d.cap) d.e = some { d with mem := m } ∧
      ∀ j < d.cap, m j = (l.take k)[if d.b ≤ j then j - d.b else j + d.cap - d.b]? := by
  obtain ⟨h1, h2, h3, h4⟩ := h.2 hc
  have hm := mem_slots h hc k hk
  obtain ⟨lo, hlo⟩ : ∃ lo, lo = if d.b + k < d.cap then d.b + k else d.b + k - d.cap := ⟨_, rfl⟩
  rw [← hlo] at hm ⊢
  have hall : ∀ i ∈ d.slots lo d.e, i < d.cap ∧ (d.mem i).isSome := by
    intro i hi
    obtain ⟨g1, g2, g3⟩ := (hm i).1 hi
    refine ⟨g1, ?_⟩
    rw [h4 i g1, List.getElem?_eq_getElem g3]
    rfl
  rw [Deque.destructRange, if_pos hall]
  refine ⟨_, rfl, fun j hj => ?_⟩
  have hmj := hm j
  have h4j := h4 j hj
  obtain ⟨i, hi⟩ : ∃ i, i = if d.b ≤ j then j - d.b else j + d.cap - d.b := ⟨_, rfl⟩
  rw [← hi] at hmj h4j ⊢
  by_cases hs : j ∈ d.slots lo d.e
  · rw [if_pos hs, List.getElem?_eq_none]
    have := (hmj.1 hs).2.1
    rw [List.length_take]
    omega
  · rw [if_neg hs, h4j, List.getElem?_take]
    by_cases hik : i < k
    · rw [if_pos hik]
    · rw [if_neg hik, List.getElem?_eq_none]
      by_contra hlt
      exact hs (hmj.2 ⟨hj, by omega, by omega⟩)

theorem holds_clear {d : Deque α} {l : List α} (h : DequeHolds d l) : ∃ d', d.clear = some d' ∧ DequeHolds d' [] := by
  refine ⟨⟨0, fun _ => none, 0, 0⟩, ?_, ⟨fun _ => ⟨rfl, rfl⟩, fun hc => absurd hc (by simp)⟩⟩
  rcases Nat.eq_zero_or_pos d.cap with hc | hc
  · obtain ⟨rfl, h2⟩ := h.1 hc
    simp [Deque.clear, Deque.destructRange, Deque.slots, h2]
  · obtain ⟨m, hm, -⟩ := holds_destructRange h hc 0 (Nat.zero_le _)
    rw [Nat.add_zero, if_pos (h.2 hc).1] at hm
    rw [Deque.clear, hm, Option.map_some]

theorem holds_grow (count : ℕ) (x : α) (fuel : ℕ) {d : Deque α} {l : List α} (h : DequeHolds d l) (hf : count ≤ l.length + fuel) :
    ∃ d', Deque.grow count x fuel d = some d' ∧ DequeHolds d' (l ++ List.replicate (count - l.length) x) := by
  induction fuel generalizing d l with
  | zero =>
    rw [Deque.grow, holds_size h, if_neg (by omega), show count - l.length = 0 by omega]
    exact ⟨d, rfl, by simpa using h⟩
  | succ f ih =>
    rw [Deque.grow, holds_size h]
    split
    · obtain ⟨d', h1, h2⟩ := holds_emplaceBack h x
      rw [h1, Option.bind_some]
      obtain ⟨d'', h3, h4⟩ := ih h2 (by rw [List.length_append, List.length_singleton]; omega)
      refine ⟨d'', h3, ?_⟩
      rw [show count - l.length = (count - (l ++ [x]).length) + 1 by rw [List.length_append, List.length_singleton]; omega, List.replicate_succ]
      simpa using h4
    · rw [show count - l.length = 0 by omega]
      exact ⟨d, rfl, by simpa using h⟩

theorem holds_resize {d : Deque α} {l : List α} (h : DequeHolds d l) (count : ℕ) (x : α) :
    ∃ d', d.resize count x = some d' ∧ DequeHolds d' (l.take count ++ List.replicate (count - l.length) x) := by
  rw [Deque.resize, holds_size h]
  split
  · rename_i hgt
    obtain ⟨d1, h1, h2, -⟩ := holds_expand h (count - l.length) (by omega)
    rw [h1, Option.bind_some, List.take_of_length_le (by omega), holds_size h2]
    exact holds_grow count x _ h2 (by omega)
  · split
    · rename_i hlt
      have hc : 0 < d.cap := by
        rcases Nat.eq_zero_or_pos d.cap with hc | hc
        · rw [(h.1 hc).1] at hlt; simp at hlt
        · exact hc
      obtain ⟨h1, h2, h3, h4⟩ := h.2 hc
      have hne : (d.b + count) % d.cap = if d.b + count < d.cap then d.b + count else d.b + count - d.cap := by
        split
        · rename_i hl; exact Nat.mod_eq_of_lt hl
        · rw [Nat.mod_eq_sub_mod (by omega), Nat.mod_eq_of_lt (by omega)]
      obtain ⟨m, hm, hm'⟩ := holds_destructRange h hc count (by omega)
      dsimp only
      rw [hne, hm, Option.bind_some, show count - l.length = 0 by omega, List.replicate_zero, List.append_nil]
      have hl : (l.take count).length = count := by rw [List.length_take]; omega
      exact holds_shrink ⟨fun hc' => absurd hc' (by dsimp only; omega), fun _ => ⟨h1, by dsimp only; omega, by dsimp only; rw [hl], hm'⟩⟩
    · rw [List.take_of_length_le (by omega), show count - l.length = 0 by omega]
      exact ⟨d, rfl, by simpa using h⟩

/-- What is done with a deque, done with a list; to take from an empty one is an error. -/
def listStep (l : List α) : Op α → Option (List α)
  | .pushFront x => some (x :: l)
  | .pushBack x => some (l ++ [x])
  | .popFront => if l = [] then none else some l.tail
  | .popBack => if l = [] then none else some l.dropLast
  | .reserve _ => some l
  | .shrinkToFit => some l
  | .clear => some []
  | .resize n x => some (l.take n ++ List.replicate (n - l.length) x)

def listRun (l : List α) : List (Op α) → Option (List α)
  | [] => some l
  | o :: os => (listStep l o).bind fun l => listRun l os

/-- One step of a deque and of the list it holds. -/
theorem holds_step {d : Deque α} {l : List α} (h : DequeHolds d l) (o : Op α) :
    (listStep l o = none ∧ d.step o = none) ∨ ∃ l' d', listStep l o = some l' ∧ d.step o = some d' ∧ DequeHolds d' l' := by
  cases o with
  | pushFront x =>
    obtain ⟨d', h1, h2⟩ := holds_emplaceFront h x
    exact .inr ⟨_, d', rfl, h1, h2⟩
  | pushBack x =>
    obtain ⟨d', h1, h2⟩ := holds_emplaceBack h x
    exact .inr ⟨_, d', rfl, h1, h2⟩
  | popFront =>
    by_cases hl : l = []
    · exact .inl ⟨by simp [listStep, hl], (holds_popFront h).1 hl⟩
    · obtain ⟨x, l', rfl⟩ := List.exists_cons_of_ne_nil hl
      obtain ⟨d', h1, h2⟩ := (holds_popFront h).2 x l' rfl
      exact .inr ⟨l', d', by simp [listStep], h1, h2⟩
  | popBack =>
    by_cases hl : l = []
    · exact .inl ⟨by simp [listStep, hl], (holds_popBack h).1 hl⟩
    · obtain ⟨d', h1, h2⟩ := (holds_popBack h).2 (l.getLast hl) l.dropLast (List.dropLast_concat_getLast hl).symm
      exact .inr ⟨l.dropLast, d', by simp [listStep, hl], h1, h2⟩
  | reserve n =>
    right
    show ∃ l' d', some l = some l' ∧ d.reserve n = some d' ∧ DequeHolds d' l'
    rw [Deque.reserve]
    have hc := (holds_capacity h).1
    split
    · obtain ⟨d', h1, h2, -⟩ := holds_setCapacityTo h n (by omega)
      exact ⟨l, d', rfl, h1, h2⟩
    · exact ⟨l, d, rfl, rfl, h⟩
  | shrinkToFit =>
    right
    show ∃ l' d', some l = some l' ∧ d.shrinkToFit = some d' ∧ DequeHolds d' l'
    rw [Deque.shrinkToFit, holds_empty h]
    split
    · rename_i he
      obtain rfl := List.isEmpty_iff.1 he
      refine ⟨[], _, rfl, rfl, ?_⟩
      have hbe : d.b = d.e := by
        have := holds_empty h
        simpa [Deque.empty] using this
      split
      · exact ⟨fun _ => ⟨rfl, hbe⟩, fun hc => absurd hc (by simp)⟩
      · exact h
    · obtain ⟨d', h1, h2, -⟩ := holds_setCapacityTo h d.size (Nat.le_of_eq (holds_size h).symm)
      exact ⟨l, d', rfl, h1, h2⟩
  | clear =>
    obtain ⟨d', h1, h2⟩ := holds_clear h
    exact .inr ⟨[], d', rfl, h1, h2⟩
  | resize n x =>
    obtain ⟨d', h1, h2⟩ := holds_resize h n x
    exact .inr ⟨_, d', rfl, h1, h2⟩

/-- C111: whatever is done with a new deque, it goes wrong exactly if that takes from an empty list, and else the deque has the size, the elements, the first and
the last element of the list, and never more elements than its capacity. -/
theorem C111_list (ops : List (Op α)) :
    (listRun [] ops = none ∧ (Deque.new : Deque α).run ops = none) ∨
      ∃ l d, listRun [] ops = some l ∧ (Deque.new : Deque α).run ops = some d ∧
        d.size = l.length ∧ d.empty = l.isEmpty ∧ (∀ i, d.at i = l[i]?) ∧ d.front = l.head? ∧ d.back = l.getLast? ∧ l.length ≤ d.capacity := by
  have key : ∀ (ops : List (Op α)) (d : Deque α) (l : List α), DequeHolds d l →
      (listRun l ops = none ∧ d.run ops = none) ∨ ∃ l' d', listRun l ops = some l' ∧ d.run ops = some d' ∧ DequeHolds d' l' := by
    intro ops
    induction ops with
    | nil => intro d l h; exact .inr ⟨l, d, rfl, rfl, h⟩
    | cons o os ih =>
      intro d l h
      rw [listRun, Deque.run]
      rcases holds_step h o with ⟨h1, h2⟩ | ⟨l', d', h1, h2, h3⟩
      · rw [h1, h2]; exact .inl ⟨rfl, rfl⟩
      · rw [h1, h2, Option.bind_some, Option.bind_some]
        exact ih d' l' h3
  rcases key ops Deque.new [] ⟨fun _ => ⟨rfl, rfl⟩, fun hc => absurd hc (by simp [Deque.new])⟩ with h | ⟨l, d, h1, h2, h⟩
  · exact .inl h
  · refine .inr ⟨l, d, h1, h2, holds_size h, holds_empty h, fun i => ?_, ?_, ?_, (holds_capacity h).1⟩
    · rw [Deque.at, holds_size h]
      by_cases hi : i < l.length
      · rw [if_pos hi]
        have hc : 0 < d.cap := by
          rcases Nat.eq_zero_or_pos d.cap with hc | hc
          · rw [(h.1 hc).1] at hi; simp at hi
          · exact hc
        obtain ⟨g1, g2, g3, g4⟩ := h.2 hc
        dsimp only
        obtain ⟨s, hs⟩ : ∃ s, s = if d.b ≤ d.e ∨ i < d.cap - d.b then d.b + i else i - (d.cap - d.b) := ⟨_, rfl⟩
        have hsc : s < d.cap := by split at hs <;> split at g3 <;> omega
        rw [← hs, if_pos hsc, g4 s hsc]
        congr 1
        split at hs <;> split at g3 <;> split <;> omega
      · rw [if_neg hi, List.getElem?_eq_none (by omega)]
    · rw [Deque.front, holds_empty h]
      cases l with
      | nil => simp
      | cons x l =>
        have hc : 0 < d.cap := by
          rcases Nat.eq_zero_or_pos d.cap with hc | hc
          · exact absurd (h.1 hc).1 (by simp)
          · exact hc
        obtain ⟨g1, g2, g3, g4⟩ := h.2 hc
        rw [if_neg (by simp), if_pos g1, g4 _ g1, if_pos (Nat.le_refl _), Nat.sub_self]
        rfl
    · rw [Deque.back, holds_empty h]
      by_cases hl : l = []
      · simp [hl]
      · have hc : 0 < d.cap := by
          rcases Nat.eq_zero_or_pos d.cap with hc | hc
          · exact absurd (h.1 hc).1 hl
          · exact hc
        have hpos := List.length_pos_iff.2 hl
        obtain ⟨g1, g2, g3, g4⟩ := h.2 hc
        rw [if_neg (by simpa using hl)]
        dsimp only
        obtain ⟨s, hs⟩ : ∃ s, s = if d.e = 0 then d.cap - 1 else d.e - 1 := ⟨_, rfl⟩
        have hsc : s < d.cap := by split at hs <;> split at g3 <;> omega
        rw [← hs, if_pos hsc, g4 s hsc, List.getLast?_eq_getElem?]
        congr 1
        split at hs <;> split at g3 <;> split <;> omega

/-- Elements around the end of the ring: the first is in the last slot. -/
example : ((Deque.new : Deque ℕ).run [.pushBack 1, .pushBack 2, .pushBack 3, .popFront, .popFront, .pushBack 4, .pushBack 5, .pushFront 0]).map
    (fun d => (d.b, d.e, d.cap, (List.range 5).map d.at)) = some (4, 3, 5, [some 0, some 3, some 4, some 5, none]) := by decide

end Tachyon.Props
