import Verif.Proofs.Lookup
import Mathlib.Algebra.Order.Ring.Int
import Mathlib.Data.List.GetD
/-! C46: the arrangement of a lookup argument (`zk/lookup/halo2/permute_expression_pair.h`). -/
universe u
namespace Tachyon.Props
open Tachyon.Lookup

variable {F : Type u} [LinearOrder F]

private theorem usableRows_eq {n b : Nat} (hb : b + 1 ≤ n) (hn : n < 2 ^ 32) : usableRows n b = n - (b + 1) := by
  unfold usableRows
  rw [Nat.mod_eq_of_lt (show b + 1 < 2 ^ 32 by omega)]
  omega

omit [LinearOrder F] in
private theorem blind_eq (rnd : Nat → F) (k b n : Nat) (hb : b + 1 ≤ n) (hn : n < 2 ^ 32) (e : List F)
    (he : e.length = n) :
    blind rnd k b true e =
      (e.take (n - (b + 1)) ++ (List.range (b + 1)).map (fun i => rnd (k + i)), true, k + (b + 1)) := by
  unfold blind
  simp only [if_true]
  rw [Nat.mod_eq_of_lt (show b + 1 < 2 ^ 32 by omega), he, if_neg (by omega)]

/-- The rows of the permuted columns before blinding. -/
private theorem core [Zero F] (n u : Nat) (hu : u ≤ n) (input table : List F) (hi : input.length = n)
    (ht : table.length = n) :
    ∃ (a : List F) (m : List (F × Nat)), sortPrefix u input = some a ∧ countTable u table = some m ∧
      a.length = n ∧ (a.take u).Perm (input.take u) ∧ (a.take u).Pairwise (· ≤ ·) ∧
      ((∃ s t, rowLoop a (List.range u) ⟨List.replicate n 0, m, []⟩ = some (some s) ∧
          fillLoop s.counts (s.table, s.repeated) = some t ∧ t.length = n ∧ (t.take u).Perm (table.take u) ∧
          (0 < u → a[0]? = t[0]?) ∧ ∀ i, 0 < i → i < u → a[i]? = t[i]? ∨ a[i]? = a[i - 1]?) ∨
        (rowLoop a (List.range u) ⟨List.replicate n 0, m, []⟩ = some none ∧
          ∃ x ∈ input.take u, x ∉ table.take u)) := by
  have hsort : sortPrefix u input = some ((input.take u).insertionSort (· ≤ ·) ++ input.drop u) := by
    unfold sortPrefix; rw [if_pos (by omega)]
  have hlen : ((input.take u).insertionSort (· ≤ ·)).length = u := by
    rw [List.length_insertionSort, List.length_take]; omega
  have hcount : countTable u table = some ((table.take u).foldl (fun m x => bump x m) []) := by
    unfold countTable; rw [if_pos (by omega)]
  refine ⟨_, _, hsort, hcount, ?_, ?_, ?_, ?_⟩
  · rw [List.length_append, hlen, List.length_drop]; omega
  · rw [List.take_left' hlen]; exact List.perm_insertionSort _ _
  · rw [List.take_left' hlen]; exact List.pairwise_insertionSort _ _
  generalize ha0 : (input.take u).insertionSort (· ≤ ·) = a0 at *
  have hperm : a0.Perm (input.take u) := ha0 ▸ List.perm_insertionSort _ _
  have hpw : a0.Pairwise (· ≤ ·) := ha0 ▸ List.pairwise_insertionSort _ _
  obtain ⟨m1, m2, m3⟩ := foldl_bump (table.take u) [] List.Pairwise.nil (by simp)
  generalize (table.take u).foldl (fun m x => bump x m) [] = m at *
  have m1' : (expand m).Perm (table.take u) := by simpa [expand] using m1
  set a := a0 ++ input.drop u with hadef
  have hget : ∀ i < u, a[i]? = some (a0.getD i 0) := by
    intro i hi
    rw [hadef, List.getElem?_append_left (by omega), List.getD_eq_getElem _ _ (by omega),
      List.getElem?_eq_getElem (by omega)]
  have hmono : ∀ i j, i ≤ j → j < u → a0.getD i 0 ≤ a0.getD j 0 := by
    intro i j hij hj
    rw [List.getD_eq_getElem _ _ (by omega), List.getD_eq_getElem _ _ (by omega)]
    rcases Nat.lt_or_eq_of_le hij with h | h
    · exact List.pairwise_iff_getElem.1 hpw i j (by omega) (by omega) h
    · subst h; exact le_refl _
  have hK : ∀ x, x ∈ m.map Prod.fst ↔ x ∈ table.take u := fun x =>
    (mem_keys_iff m m3 x).trans m1'.mem_iff
  have hI : Inv (fun i => a0.getD i 0) n (table.take u) (m.map Prod.fst) 0 ⟨List.replicate n 0, m, []⟩ :=
    ⟨by simp, rfl, by simp, by simp, by simpa using m1'⟩
  rcases rowLoop_spec a (fun i => a0.getD i 0) n u hu hget hmono (table.take u) (m.map Prod.fst) m2 hK u 0 _
    (by omega) hI with ⟨s, h1, h2⟩ | ⟨h1, i, hi, hx⟩
  · left
    rw [← List.range_eq_range'] at h1
    have hcnt : s.repeated.length = (expand s.counts).length := by
      have e1 := h2.perm.length_eq
      rw [List.length_append, List.length_map, List.length_take] at e1
      have e2 := (List.filter_append_perm (isRep fun i => a0.getD i 0) (List.range u)).length_eq
      rw [List.length_append, List.length_range] at e2
      rw [h2.rep, List.length_reverse]
      omega
    have hnd : s.repeated.Nodup := by
      rw [h2.rep, List.nodup_reverse]; exact List.Nodup.filter _ List.nodup_range
    have hrr : ∀ r ∈ s.repeated, r < u ∧ isRep (fun i => a0.getD i 0) r = true := by
      intro r hr
      rw [h2.rep, List.mem_reverse, List.mem_filter, List.mem_range] at hr
      exact hr
    have hother : ∀ i < u, isRep (fun i => a0.getD i 0) i = false →
        (setAll s.table s.repeated (expand s.counts)).getD i 0 = a0.getD i 0 := by
      intro i hi hr
      rw [List.getD_eq_getElem?_getD, setAll_other _ _ _ _ (fun h => by rw [(hrr i h).2] at hr; cases hr),
        ← List.getD_eq_getElem?_getD]
      exact h2.set i hi hr
    have hot : ∀ i < u, isRep (fun i => a0.getD i 0) i = false →
        a[i]? = (setAll s.table s.repeated (expand s.counts))[i]? := by
      intro i hi hr
      rw [hget i hi, ← hother i hi hr, List.getD_eq_getElem _ _ (by rw [length_setAll, h2.len]; omega),
        List.getElem?_eq_getElem]
    refine ⟨s, _, h1, fillLoop_eq _ _ _ hcnt, by rw [length_setAll, h2.len], ?_, ?_, ?_⟩
    · have e3 : (setAll s.table s.repeated (expand s.counts)).take u =
          (List.range u).map fun i => (setAll s.table s.repeated (expand s.counts)).getD i 0 := by
        apply List.ext_getElem
        · rw [List.length_take, length_setAll, h2.len, List.length_map, List.length_range]; omega
        · intro i hi1 hi2
          rw [List.length_map, List.length_range] at hi2
          rw [List.getElem_take, List.getElem_map, List.getElem_range,
            List.getD_eq_getElem _ _ (by rw [length_setAll, h2.len]; omega)]
      rw [e3]
      have e4 := (List.filter_append_perm (isRep fun i => a0.getD i 0) (List.range u)).map
        fun i => (setAll s.table s.repeated (expand s.counts)).getD i 0
      refine e4.symm.trans ?_
      rw [List.map_append]
      have e5 : (((List.range u).filter fun i => !isRep (fun i => a0.getD i 0) i).map
          fun i => (setAll s.table s.repeated (expand s.counts)).getD i 0) =
          ((List.range u).filter fun i => !isRep (fun i => a0.getD i 0) i).map fun i => a0.getD i 0 := by
        apply List.map_congr_left
        intro i hi
        rw [List.mem_filter, List.mem_range] at hi
        exact hother i hi.1 (by simpa using hi.2)
      rw [e5]
      have e6 := setAll_map s.table s.repeated (expand s.counts) hnd
        (fun r hr => by rw [h2.len]; exact lt_of_lt_of_le (hrr r hr).1 hu) hcnt
      have e7 : (((List.range u).filter (isRep fun i => a0.getD i 0)).map
          fun i => (setAll s.table s.repeated (expand s.counts)).getD i 0).Perm (expand s.counts) := by
        conv_rhs => rw [← e6]
        apply List.Perm.map
        rw [h2.rep]; exact (List.reverse_perm _).symm
      exact (e7.append_right _).trans (List.perm_append_comm.trans h2.perm)
    · intro h0
      exact hot 0 h0 (by simp [isRep])
    · intro i h0 hi
      by_cases hr : isRep (fun i => a0.getD i 0) i = true
      · right
        have : i ≠ 0 ∧ a0.getD (i - 1) 0 = a0.getD i 0 := by simpa [isRep] using hr
        rw [hget i hi, hget (i - 1) (by omega), this.2]
      · left; exact hot i hi (by simpa using hr)
  · right
    rw [← List.range_eq_range'] at h1
    refine ⟨h1, a0.getD i 0, ?_, hx⟩
    rw [← hperm.mem_iff, List.getD_eq_getElem _ _ (by omega)]
    exact List.getElem_mem _

/-- The constraints of the lookup argument on two columns with `u` usable rows
(`l_first (A' - S') = 0` and `(A' - S') (A' - A'(ω⁻¹X)) = 0`) put every value of `A'` into `S'`. -/
theorem C46_sound {α : Type u} (u : Nat) (A S : List α) (h0 : 0 < u → A[0]? = S[0]?)
    (h1 : ∀ i, 0 < i → i < u → A[i]? = S[i]? ∨ A[i]? = A[i - 1]?) :
    ∀ i < u, ∃ j ≤ i, A[i]? = S[j]? := by
  intro i
  induction i with
  | zero => intro hi; exact ⟨0, le_refl _, h0 hi⟩
  | succ i ih =>
    intro hi
    rcases h1 (i + 1) (by omega) hi with h | h
    · exact ⟨i + 1, le_refl _, h⟩
    · obtain ⟨j, hj, e⟩ := ih (by omega)
      exact ⟨j, by omega, by rw [h]; exact e⟩

/-- If every usable input occurs among the usable rows of the table, `PermuteExpressionPair` succeeds: the
usable rows of the results are permutations of those of the arguments, the first column is sorted, the
constraints of the lookup argument hold, and the other rows are fresh random values. -/
theorem C46_permute [Zero F] (rnd : Nat → F) (n b : Nat) (input table : List F) (hb : b + 1 ≤ n)
    (hn : n < 2 ^ 32) (hi : input.length = n) (ht : table.length = n)
    (h : ∀ x ∈ input.take (n - (b + 1)), x ∈ table.take (n - (b + 1))) :
    ∃ A S, permutePair rnd n b input table = some (some (A, S)) ∧ A.length = n ∧ S.length = n ∧
      (A.take (n - (b + 1))).Perm (input.take (n - (b + 1))) ∧
      (S.take (n - (b + 1))).Perm (table.take (n - (b + 1))) ∧
      (A.take (n - (b + 1))).Pairwise (· ≤ ·) ∧
      (0 < n - (b + 1) → A[0]? = S[0]?) ∧
      (∀ i, 0 < i → i < n - (b + 1) → A[i]? = S[i]? ∨ A[i]? = A[i - 1]?) ∧
      A.drop (n - (b + 1)) = (List.range (b + 1)).map rnd ∧
      S.drop (n - (b + 1)) = (List.range (b + 1)).map fun i => rnd (b + 1 + i) := by
  obtain ⟨a, m, h1, h2, h3, h4, h5, h6⟩ := core n (n - (b + 1)) (by omega) input table hi ht
  unfold permutePair
  simp only [usableRows_eq hb hn, h1, h2]
  rcases h6 with ⟨s, t, g1, g2, g3, g4, g5, g6⟩ | ⟨_, x, hx, hx'⟩
  · simp only [g1, g2]
    rw [blind_eq rnd 0 b n hb hn a h3]
    simp only []
    rw [blind_eq rnd _ b n hb hn t g3]
    have la : (a.take (n - (b + 1))).length = n - (b + 1) := by rw [List.length_take]; omega
    have lt : (t.take (n - (b + 1))).length = n - (b + 1) := by rw [List.length_take]; omega
    have ga : ∀ (l r : List F), l.length = n → ∀ i < n - (b + 1), (l.take (n - (b + 1)) ++ r)[i]? = l[i]? := by
      intro l r hl i hi
      rw [List.getElem?_append_left (by rw [List.length_take]; omega), List.getElem?_take_of_lt hi]
    refine ⟨_, _, rfl, ?_, ?_, ?_, ?_, ?_, ?_, ?_, ?_, ?_⟩
    · rw [List.length_append, la]; simp; omega
    · rw [List.length_append, lt]; simp; omega
    · rw [List.take_left' la]; exact h4
    · rw [List.take_left' lt]; exact g4
    · rw [List.take_left' la]; exact h5
    · intro h0; rw [ga _ _ h3 _ h0, ga _ _ g3 _ h0]; exact g5 h0
    · intro i h0 hi
      rw [ga _ _ h3 _ hi, ga _ _ g3 _ hi, ga _ _ h3 _ (by omega)]; exact g6 i h0 hi
    · rw [List.drop_left' la]; simp
    · rw [List.drop_left' lt]; simp
  · exact absurd (h x hx) hx'

/-- Otherwise it returns `false`. -/
theorem C46_absent [Zero F] (rnd : Nat → F) (n b : Nat) (input table : List F) (hb : b + 1 ≤ n)
    (hn : n < 2 ^ 32) (hi : input.length = n) (ht : table.length = n)
    (h : ∃ x ∈ input.take (n - (b + 1)), x ∉ table.take (n - (b + 1))) :
    permutePair rnd n b input table = some none := by
  obtain ⟨a, m, h1, h2, h3, h4, _, h6⟩ := core n (n - (b + 1)) (by omega) input table hi ht
  unfold permutePair
  simp only [usableRows_eq hb hn, h1, h2]
  rcases h6 with ⟨s, t, _, _, g3, g4, g5, g6⟩ | ⟨g1, _⟩
  · exfalso
    obtain ⟨x, hx, hx'⟩ := h
    rw [← h4.mem_iff] at hx
    obtain ⟨i, hi', rfl⟩ := List.getElem_of_mem hx
    rw [List.length_take] at hi'
    obtain ⟨j, hj, e⟩ := C46_sound (n - (b + 1)) a t g5 g6 i (by omega)
    apply hx'
    rw [← g4.mem_iff, List.getElem_take]
    rw [List.getElem?_eq_getElem (by omega), List.getElem?_eq_getElem (by omega)] at e
    rw [Option.some.inj e]
    exact List.mem_take_iff_getElem.2 ⟨j, by omega, rfl⟩
  · simp only [g1]

/-- More blinding rows than rows: `GetUsableRows` wraps around and the sort runs out of bounds. -/
theorem C46_underflow [Zero F] (rnd : Nat → F) (n b : Nat) (input table : List F) (hb : n < b + 1)
    (hn : b + 1 < 2 ^ 32) (hi : input.length = n) : permutePair rnd n b input table = none := by
  have : usableRows n b = n + (2 ^ 32 - (b + 1)) := by
    unfold usableRows
    rw [Nat.mod_eq_of_lt hn]
    omega
  unfold permutePair sortPrefix
  simp only [this]
  rw [if_neg (by omega)]

omit [LinearOrder F] in
/-- **C46.** The loop over the map ends in the failure of its check, or reads past the repeated rows, exactly when the
entries left over are not as many as the repeated rows. -/
theorem C46_check (m : List (F × Nat)) (t : List F) (rows : List Nat) :
    fillLoop m (t, rows) ≠ none ↔ (m.map Prod.snd).sum = rows.length := by
  have e : (expand m).length = (m.map Prod.snd).sum := by simp [expand, List.length_flatMap]
  constructor
  · intro h
    by_contra h'
    exact h (fillLoop_none m t rows (by rw [e]; exact fun h'' => h' h''.symm))
  · intro h
    rw [fillLoop_eq m t rows (by rw [e, h])]
    exact Option.some_ne_none _

example : fillLoop [((7 : Int), 1), (9, 2)] ([0, 0, 0, 0], [3, 1]) = none ∧
    fillLoop [((7 : Int), 1)] ([0, 0, 0, 0], [3, 1]) = none ∧
    fillLoop [((7 : Int), 1), (9, 1)] ([0, 0, 0, 0], [3, 1]) = some [0, 9, 0, 7] := by decide

/-- The example of the source (permute_expression_pair.h:84-102) with one blinding factor. -/
example : permutePair (fun i => (100 + i : Int)) 6 1 [1, 2, 1, 5, 9, 9] [1, 2, 4, 5, 9, 9] =
    some (some ([1, 1, 2, 5, 100, 101], [1, 4, 2, 5, 102, 103])) := by decide +kernel
example : permutePair (fun i => (100 + i : Int)) 6 1 [1, 3, 1, 5, 9, 9] [1, 2, 4, 5, 9, 9] = some none := by
  decide +kernel
example : permutePair (fun i => (100 + i : Int)) 2 2 [1, 3] [1, 2] = none :=
  C46_underflow _ 2 2 _ _ (by omega) (by omega) rfl

end Tachyon.Props
